import Verif.Props.EcmStep
/-!
# Batches act row by row (C28, C29)
-/

namespace Verif.Cell
open Verif Nd Ecm

/-! ## Taking one row (specification) -/

/-- Row `b` of a 2D array as a one-row array; the only row of an unbatched one. -/
def rowNd (a : Nd ℝ) (b : Nat) : Nd ℝ :=
  ⟨[1, a.shape.getD 1 0], fun i => a.get [if rows a = 1 then 0 else b, i.getD 1 0]⟩

def rowInterp (h : Interp) (b : Nat) : Interp := { h with base := rowNd h.base b }
def rowRes (r : Resistance) (b : Nat) : Resistance := { r with interp := rowInterp r.interp b, tdf := rowNd r.tdf b }
def rowRC (rc : Ecm.RC) (b : Nat) : Ecm.RC := ⟨rowRes rc.r b, rowInterp rc.c b⟩

/-- The unbatched circuit of member `b`. -/
def rowASOH (a : ASOH) (b : Nat) : ASOH where
  qt := rowNd a.qt b
  ce := rowNd a.ce b
  ocv := ⟨rowInterp a.ocv.ref b, rowNd a.ocv.refTemp b, rowInterp a.ocv.ent b⟩
  r0 := rowRes a.r0 b
  c0 := a.c0.map (rowInterp · b)
  rcs := a.rcs.map (rowRC · b)
  hyst := rowInterp a.hyst b
  gamma := rowNd a.gamma b

def rowInput (i : Input) (b : Nat) : Input := ⟨rowNd i.time b, rowNd i.current b, i.temp.map (rowNd · b)⟩
def rowState (s : State) (b : Nat) : State := ⟨rowNd s.soc b, s.q0.map (rowNd · b), rowNd s.irc b, rowNd s.hyst b⟩

/-! ## Lemmas -/

theorem at2_row (a : Nd ℝ) (b : Nat) : at2 (rowNd a b) 0 = at2 a b := rfl

theorem curve_row {h : Interp} (b : Nat) : curveAt (rowInterp h b) 0 = curveAt h b := by
  funext s; rfl

theorem res_row {r : Resistance} (b : Nat) : resAt (rowRes r b) 0 = resAt r b := by
  funext s t; rfl

theorem par_row (a : ASOH) (b : Nat) : parAt (rowASOH a b) 0 = parAt a b := by
  unfold parAt rowASOH
  congr 1
  · simp only [Option.map_map]; rfl
  · simp only [List.map_map]; rfl

theorem in_row (i : Input) (b : Nat) : inAt (rowInput i b) 0 = inAt i b := by
  unfold inAt rowInput
  congr 1
  simp only [Option.map_map]; rfl

theorem st_row (s : State) (b : Nat) : stAt (rowState s b) 0 = stAt s b := by
  unfold stAt rowState
  congr 1
  simp only [Option.map_map]; rfl

theorem scalar_row {B : Nat} {a : Nd ℝ} (h : Scalar B a) (b : Nat) : (rowNd a b).shape = [1, 1] := by
  unfold rowNd; rcases h with h | h <;> simp [h]

theorem width_row (h : Interp) (b : Nat) : (rowInterp h b).width = h.width := rfl

theorem curve_one (h : Interp) (b : Nat) : Curve 1 (rowInterp h b) := .inl rfl

theorem pars_row {B : Nat} {a : ASOH} (ha : Pars B a) (b : Nat) : Pars 1 (rowASOH a b) := by
  refine ⟨.inl (scalar_row ha.qt b), .inl (scalar_row ha.ce b), .inl (scalar_row ha.gamma b), .inl rfl,
    .inl (scalar_row ha.refTemp b), .inl rfl, ⟨.inl rfl, .inl (scalar_row ha.r0.2 b)⟩, ?_, ?_, .inl rfl⟩
  · intro c hc
    simp only [rowASOH, Option.mem_def, Option.map_eq_some_iff] at hc
    obtain ⟨c, _, rfl⟩ := hc
    exact .inl rfl
  · intro rc hrc
    simp only [rowASOH, List.mem_map] at hrc
    obtain ⟨rc, hrc, rfl⟩ := hrc
    exact ⟨⟨.inl rfl, .inl (scalar_row (ha.rcs rc hrc).1.2 b)⟩, .inl rfl⟩

theorem ins_row {B : Nat} {i : Input} (h : Ins B i) (b : Nat) : Ins 1 (rowInput i b) := by
  refine ⟨.inl (scalar_row h.time b), .inl (scalar_row h.current b), ?_⟩
  intro t ht
  simp only [rowInput, Option.mem_def, Option.map_eq_some_iff] at ht
  obtain ⟨t, ht, rfl⟩ := ht
  exact .inl (scalar_row (h.temp t ht) b)

theorem sts_row {B : Nat} {a : ASOH} {s : State} (h : Sts B a s) (b : Nat) : Sts 1 (rowASOH a b) (rowState s b) := by
  refine ⟨.inl (scalar_row h.soc b), ?_, .inl ?_, .inl (scalar_row h.hyst b)⟩
  · intro q hq
    simp only [rowState, Option.mem_def, Option.map_eq_some_iff] at hq
    obtain ⟨q, hq, rfl⟩ := hq
    exact .inl (scalar_row (h.q0 q hq) b)
  · simp only [rowState, rowNd, rowASOH, List.length_map]
    rcases h.irc with e | e <;> simp [e]

/-- What a successful evaluation says about a curve. -/
theorem usable_of_ok {h : Interp} {others : List Nat} {soc y : Nd ℝ} (hy : h.getValue others soc = .ok y) :
    h.width = 1 ∨ (h.width ≠ 0 ∧ h.pinsUsed.length = h.width) := by
  unfold Interp.getValue at hy
  simp only at hy
  split at hy
  · cases hy
  · split at hy
    · cases hy
    · split at hy
      · left; assumption
      · right
        unfold Interp.interpFunc at hy
        split at hy
        · cases hy
        · rename_i h1
          split at h1
          · cases h1
          · split at h1
            · cases h1
            · exact ⟨by assumption, by simp_all⟩

theorem usable_row {h : Interp} {others : List Nat} {soc y : Nd ℝ} (hy : h.getValue others soc = .ok y) (b : Nat)
    {o : List Nat} (ho : ∀ k ∈ o, k = 1) : Usable (rowInterp h b) o := by
  rcases usable_of_ok hy with h1 | ⟨h1, h2⟩
  · exact .inl h1
  · exact .inr ⟨h1, h2, fun k hk => .inl (ho k hk)⟩

theorem rows_row (a : Nd ℝ) (b : Nat) : rows (rowNd a b) = 1 := rfl

theorem res_parts {r : Resistance} {soc y : Nd ℝ} {temp : Option (Nd ℝ)} (h : r.getValue soc temp = .ok y) :
    ∃ z, r.interp.getValue [rows r.tdf] soc = .ok z := by
  unfold Resistance.getValue at h
  simp only [bind_ok] at h
  obtain ⟨z, h1, _⟩ := h
  exact ⟨z, h1⟩

theorem update_parts {beh : Behavior} {prev new : Input} {st st' : State} {a : ASOH} (h : update beh prev new st a = .ok st') :
    (∃ z, a.hyst.getValue [rows a.gamma] st.soc = .ok z) ∧ prev.current.size = 1 ∧
    (st.irc.shape.getD 1 0 ≠ 0 → ∃ taus s, (a.rcs.mapM fun rc => rc.timeConstant st.soc prev.temp) = .ok taus ∧ stack taus = .ok s) := by
  unfold update at h
  simp only [bind_ok, pure_ok] at h
  obtain ⟨dt, a1, slp, a2, neg, a3, sd, a4, cd, a5, ch, a6, cq, a7, ec, a8, soc, a9, q0, a10, irc, a11, hy, a12, _⟩ := h
  refine ⟨?_, ?_, ?_⟩
  · unfold updateHyst at a12
    simp only [bind_ok] at a12
    obtain ⟨z, h1, _⟩ := a12
    exact ⟨z, h1⟩
  · unfold truth at a3
    split at a3
    · rename_i h1; exact h1
    · cases a3
  · intro hne
    unfold updateRC at a11
    rw [if_neg hne] at a11
    simp only [bind_ok] at a11
    obtain ⟨taus, h1, s, h2, _⟩ := a11
    exact ⟨taus, s, h1, h2⟩

theorem allOk_mem {α β : Type} {f : α → Except Err β} {l : List α} {r : List β} (h : l.mapM f = .ok r) :
    ∀ a ∈ l, ∃ y ∈ r, f a = .ok y := by
  have := mapM_ok h
  intro a ha
  obtain ⟨j, hj, rfl⟩ := List.getElem_of_mem ha
  have hj' : j < r.length := by rw [← this.length_eq]; exact hj
  exact ⟨r[j], List.getElem_mem hj', this.get hj hj'⟩

/-- If a batched update returns, then so does the update of row `b` from any state of one cell. -/
theorem update_row_ok {B : Nat} {beh : Behavior} {a : ASOH} {prev new : Input} {st st' s : State}
    (ha : Pars B a) (hp : Ins B prev) (hn : Ins B new) (hs : Sts B a st) (h : update beh prev new st a = .ok st')
    (b : Nat) (hmove : beh = .linear → at2 new.time b ≠ at2 prev.time b) (hs1 : Sts 1 (rowASOH a b) s) :
    ∃ s1, update beh (rowInput prev b) (rowInput new b) s (rowASOH a b) = .ok s1 := by
  obtain ⟨⟨z, p1⟩, p2, p3⟩ := update_parts h
  have hw : st.irc.shape.getD 1 0 = a.rcs.length := by rcases hs.irc with e | e <;> simp [e]
  rw [hw] at p3
  refine update_ok (B := 1) (by norm_num) (pars_row ha b) (ins_row hp b) (ins_row hn b) hs1 ?_
  refine ⟨⟨scalar_row hp.time b, scalar_row hn.time b⟩, ⟨scalar_row hp.current b, scalar_row hn.current b⟩,
    fun hl => hmove hl, ?_, sameShape_of ⟨1, ?_⟩ ?_, usable_row p1 b (by simp [rows_row, rowASOH])⟩
  · intro rc hrc
    simp only [rowASOH, List.mem_map] at hrc
    obtain ⟨rc, hrc, rfl⟩ := hrc
    obtain ⟨taus, s, h1, h2⟩ := p3 (by intro h0; rw [List.length_eq_zero_iff] at h0; rw [h0] at hrc; cases hrc)
    obtain ⟨y, _, hy⟩ := allOk_mem h1 rc hrc
    unfold RC.timeConstant at hy
    simp only [bind_ok] at hy
    obtain ⟨r, e1, c, e2, _⟩ := hy
    obtain ⟨z, e3⟩ := res_parts e1
    exact ⟨⟨usable_row e3 b (by intro k hk; simp only [List.mem_singleton] at hk; exact hk), fun _ => scalar_row (ha.rcs rc hrc).1.2 b⟩, usable_row e2 b (by simp)⟩
  · intro rc hrc
    simp only [rowASOH, List.mem_map] at hrc
    obtain ⟨rc, hrc, rfl⟩ := hrc
    rfl
  · intro t ht
    simp only [rowInput, Option.mem_def, Option.map_eq_some_iff] at ht
    obtain ⟨t, ht, rfl⟩ := ht
    exact .inl rfl

/-- C28: whichever quantities are batched (each unbatched or with `B` rows), if the batched update returns, then for every
member `b` the update of the unbatched row-`b` circuit, inputs and state also returns, and its result is row `b` of the batched
result.  Under linear behaviour the two times must differ. -/
theorem C28_update_row_by_row_partial {B : Nat} (hB : 0 < B) {beh : Behavior} {a : ASOH} {prev new : Input} {st st' : State}
    (ha : Pars B a) (hp : Ins B prev) (hn : Ins B new) (hs : Sts B a st) (h : update beh prev new st a = .ok st')
    (b : Nat) (hb : b < B) (hmove : beh = .linear → at2 new.time b ≠ at2 prev.time b) :
    ∃ s1, update beh (rowInput prev b) (rowInput new b) (rowState st b) (rowASOH a b) = .ok s1 ∧
      at2 s1.soc 0 = at2 st'.soc b ∧ s1.q0.map (at2 · 0) = st'.q0.map (at2 · b) ∧
      (∀ j < a.rcs.length, ircAt s1 0 j = ircAt st' b j) ∧ at2 s1.hyst 0 = at2 st'.hyst b := by
  obtain ⟨s1, h1⟩ := update_row_ok ha hp hn hs h b hmove (sts_row hs b)
  refine ⟨s1, h1, ?_⟩
  obtain ⟨g1, g2⟩ := update_rows (B := 1) (by norm_num) (pars_row ha b) (ins_row hp b) (ins_row hn b) (sts_row hs b) h1
  obtain ⟨k1, k2⟩ := update_rows hB ha hp hn hs h
  have e : stAt s1 0 = stAt st' b := by
    rw [g2 0 (by norm_num), k2 b hb, in_row, in_row, st_row, par_row]
  have hl : (rowASOH a b).rcs.length = a.rcs.length := by simp [rowASOH]
  refine ⟨congrArg St.soc e, congrArg St.q0 e, fun j hj => ?_, congrArg St.hyst e⟩
  have := congrArg (fun s => s.irc[j]?) e
  simpa [irc_list g1, irc_list k1, hj, hl] using this

/-- If a batched run returns, then so does the run of row `b` from any state of one cell. -/
theorem run_row_ok {B : Nat} (hB : 0 < B) {beh : Behavior} {a : ASOH} (ha : Pars B a) (b : Nat) (us : List Input) :
    ∀ {u : Input} {st st' s : State}, (∀ i ∈ u :: us, Ins B i) → Sts B a st → Ecm.run beh a u us st = .ok st' →
    (beh = .linear → ∀ p ∈ steps u us, at2 p.2.time b ≠ at2 p.1.time b) → Sts 1 (rowASOH a b) s →
    ∃ s1, Ecm.run beh (rowASOH a b) (rowInput u b) (us.map (rowInput · b)) s = .ok s1 := by
  induction us with
  | nil => intro u st st' s _ _ _ _ _; exact ⟨s, rfl⟩
  | cons v us ih =>
    intro u st st' s hu hs h hmove hs1
    unfold Ecm.run at h
    simp only [bind_ok] at h
    obtain ⟨m, h1, h2⟩ := h
    have hi := hu u (by simp)
    have hv := hu v (by simp)
    obtain ⟨m1, e1⟩ := update_row_ok ha hi hv hs h1 b (fun hl => hmove hl (u, v) (by simp [steps])) hs1
    obtain ⟨k1, _⟩ := update_rows hB ha hi hv hs h1
    obtain ⟨g1, _⟩ := update_rows (B := 1) (by norm_num) (pars_row ha b) (ins_row hi b) (ins_row hv b) hs1 e1
    obtain ⟨s1, e2⟩ := ih (u := v) (fun i hi => hu i (by simp at hi ⊢; tauto)) k1 h2
      (fun hl p hp => hmove hl p (by
        simp only [steps, List.zip_cons_cons, List.mem_cons] at hp ⊢
        exact .inr hp)) g1
    exact ⟨s1, by
      unfold Ecm.run
      simp only [List.map_cons, bind_ok]
      exact ⟨m1, e1, e2⟩⟩

/-- C28: the same over any sequence of inputs. -/
theorem C28_history_row_by_row_partial {B : Nat} (hB : 0 < B) {beh : Behavior} {a : ASOH} (ha : Pars B a) (b : Nat) (hb : b < B)
    (us : List Input) {u : Input} {st st' : State} (hu : ∀ i ∈ u :: us, Ins B i) (hs : Sts B a st)
    (h : Ecm.run beh a u us st = .ok st') (hmove : beh = .linear → ∀ p ∈ steps u us, at2 p.2.time b ≠ at2 p.1.time b) :
    ∃ s1, Ecm.run beh (rowASOH a b) (rowInput u b) (us.map (rowInput · b)) (rowState st b) = .ok s1 ∧
      at2 s1.soc 0 = at2 st'.soc b ∧ s1.q0.map (at2 · 0) = st'.q0.map (at2 · b) ∧
      (∀ j < a.rcs.length, ircAt s1 0 j = ircAt st' b j) ∧ at2 s1.hyst 0 = at2 st'.hyst b := by
  obtain ⟨s1, h1⟩ := run_row_ok hB ha b us hu hs h hmove (sts_row hs b)
  refine ⟨s1, h1, ?_⟩
  obtain ⟨k1, k2⟩ := run_rows hB ha (hu u (by simp)) (fun i hi => hu i (by simp [hi])) hs h
  obtain ⟨g1, g2⟩ := run_rows (B := 1) (by norm_num) (pars_row ha b) (ins_row (hu u (by simp)) b) (by
    intro i hi
    obtain ⟨k, hk, rfl⟩ := List.mem_map.1 hi
    exact ins_row (hu k (by simp [hk])) b) (sts_row hs b) h1
  have e : stAt s1 0 = stAt st' b := by
    rw [g2 0 (by norm_num), k2 b hb, in_row, st_row, par_row, List.map_map]
    congr 2
    funext i
    exact in_row i b
  have hl : (rowASOH a b).rcs.length = a.rcs.length := by simp [rowASOH]
  refine ⟨congrArg St.soc e, congrArg St.q0 e, fun j hj => ?_, congrArg St.hyst e⟩
  have := congrArg (fun s => s.irc[j]?) e
  simpa [irc_list g1, irc_list k1, hj, hl] using this

/-- C28: when the batched update is guaranteed to return, over any number of steps: inputs unbatched (`CanRun.single`), RC elements
batched alike, temperature factors unbatched when a temperature is given, curves with as many pinpoints as values and batched
at least as finely as the other parameters of the same object. -/
theorem C28_update_returns_partial {B : Nat} (hB : 0 < B) {beh : Behavior} {a : ASOH} (ha : Pars B a) {u : Input}
    {us : List Input} {st : State} (hu : ∀ i ∈ u :: us, Ins B i) (hs : Sts B a st) (hc : CanRun beh a u us) :
    ∃ st', Ecm.run beh a u us st = .ok st' :=
  run_ok hB ha (hu u (by simp)) (fun i hi => hu i (by simp [hi])) hs hc

/-! ## Patterns that raise -/

/-- C28 fails for batched currents: with two or more rows of (previous) current the update always raises. -/
theorem C28_batched_current_raises {B : Nat} (hB : 2 ≤ B) {beh : Behavior} {a : ASOH} {prev new : Input} {st : State}
    (hp : Ins B prev) (hn : Ins B new) (hI : prev.current.shape = [B, 1]) :
    update beh prev new st a = .error .valueError := by
  obtain ⟨t1, u1⟩ := rel_scalar hp.time
  obtain ⟨t2, u2⟩ := rel_scalar hn.time
  obtain ⟨t3, u3⟩ := rel_scalar hp.current
  obtain ⟨t4, u4⟩ := rel_scalar hn.current
  obtain ⟨dt, a1⟩ := map2_ok (· - ·) t2 t1
  obtain ⟨b1, c1⟩ := rel_map2' a1 t2 t1
  have hslope : ∃ s, currentSlope beh prev new dt = .ok s := by
    unfold currentSlope
    cases beh with
    | constant => exact ⟨_, rfl⟩
    | linear =>
      obtain ⟨d, e1⟩ := map2_ok (· - ·) t4 t3
      obtain ⟨f1, _⟩ := rel_map2' e1 t4 t3
      obtain ⟨s, e2⟩ := map2_ok (· / ·) f1 b1
      refine ⟨s, ?_⟩
      simp only [bind_ok]
      exact ⟨d, e1, e2⟩
  obtain ⟨sl, a2⟩ := hslope
  have hsize : (prev.current.map fun x => decide (x < 0)).size ≠ 1 := by
    simp only [size, Nd.map, hI, List.foldr_cons, List.foldr_nil]
    omega
  unfold update
  rw [show sub new.time prev.time = .ok dt from a1]
  simp only [bind, Except.bind, a2]
  rw [truth, if_neg hsize]

theorem res_first_axis {B : Nat} (hB : 0 < B) {r : Resistance} (hr : Res B r) {soc : Nd ℝ} (hsoc : Scalar B soc)
    {temp : Option (Nd ℝ)} (ht : ∀ t ∈ temp, Scalar B t) {y : Nd ℝ} (h : r.getValue soc temp = .ok y) :
    ∃ q, Dim B q ∧ y.shape = [r.interp.rows, q, 1] := by
  obtain ⟨rs, ls⟩ := rel_scalar hsoc
  obtain ⟨hr2, hshape⟩ := dim_rows hr.2
  obtain ⟨ref, h1⟩ := res_parts h
  obtain ⟨g1, g2⟩ := getValue_rel hB hr.1 rs ls h1
  have hd := (dim_rows hsoc).1
  unfold Resistance.getValue at h
  rw [h1] at h
  cases temp with
  | none => cases h; exact ⟨_, hd, g2⟩
  | some t =>
    simp only [bind, Except.bind] at h
    split at h
    · cases h
    · rename_i v hv
      cases v with
      | true => cases h; exact ⟨_, hd, g2⟩
      | false =>
        simp only [Bool.false_eq_true, if_false] at h
        split at h
        · cases h
        · rename_i e he
          obtain ⟨dt, st⟩ := dim_rows (ht t rfl)
          have se := shape_map2_22 (B := B) he (q := rows r.tdf) (m := rows t) hshape st hr2 dt
          have de : Dim B (if rows r.tdf = 1 then rows t else rows r.tdf) := by split <;> assumption
          have sy := shape_map2_32 (B := B) h g2 (c := e.map Real.exp) se hd de
          exact ⟨_, by split <;> assumption, sy⟩

/-- C28 fails for RC elements that are batched differently: if the state has RC currents and two elements have different batch
axes, the update never returns. -/
theorem C28_mixed_rc_raises {B : Nat} (hB : 0 < B) {beh : Behavior} {a : ASOH} {prev new : Input} {st st' : State}
    (ha : Pars B a) (hp : Ins B prev) (hs : Sts B a st) {rc1 rc2 : Ecm.RC} (h1 : rc1 ∈ a.rcs) (h2 : rc2 ∈ a.rcs)
    (hne : rcRows rc1 ≠ rcRows rc2) : update beh prev new st a ≠ .ok st' := by
  intro h
  obtain ⟨_, _, p3⟩ := update_parts h
  have hw : st.irc.shape.getD 1 0 = a.rcs.length := by rcases hs.irc with e | e <;> simp [e]
  rw [hw] at p3
  obtain ⟨taus, s, e1, e2⟩ := p3 (by intro h0; rw [List.length_eq_zero_iff] at h0; rw [h0] at h1; cases h1)
  have hall : ∃ sh, ∀ y ∈ taus, y.shape = sh := by
    cases taus with
    | nil => exact ⟨[], by simp⟩
    | cons y l =>
      rw [stack] at e2
      split at e2
      · rename_i hh
        refine ⟨y.shape, ?_⟩
        intro z hz
        rcases List.mem_cons.1 hz with rfl | hz
        · rfl
        · exact hh z hz
      · cases e2
  obtain ⟨sh, hall⟩ := hall
  have first : ∀ rc ∈ a.rcs, sh.getD 0 0 = rcRows rc := by
    intro rc hrc
    obtain ⟨y, hy, ht⟩ := allOk_mem e1 rc hrc
    rw [← hall y hy]
    unfold RC.timeConstant at ht
    simp only [bind_ok] at ht
    obtain ⟨r, k1, c, k2, k3⟩ := ht
    obtain ⟨rs, ls⟩ := rel_scalar hs.soc
    obtain ⟨q, dq, sr⟩ := res_first_axis hB (ha.rcs rc hrc).1 hs.soc hp.temp k1
    obtain ⟨_, sc⟩ := getValue_rel hB (ha.rcs rc hrc).2 rs ls k2
    have sy := shape_map2_33 (B := B) k3 sr sc (curve_dim (ha.rcs rc hrc).1.1).1 dq (curve_dim (ha.rcs rc hrc).2).1
      (dim_rows hs.soc).1
    rw [sy]
    rfl
  exact hne (by rw [← first rc1 h1, ← first rc2 h2])

theorem res_batched_tdf {B : Nat} (hB : 2 ≤ B) {r : Resistance} (ht : r.tdf.shape = [B, 1]) {soc t y : Nd ℝ} :
    r.getValue soc (some t) ≠ .ok y := by
  intro h
  unfold Resistance.getValue at h
  simp only [bind_ok] at h
  obtain ⟨_, _, v, hv, _⟩ := h
  unfold truth at hv
  split at hv
  · rename_i hz
    simp [size, Nd.map, ht] at hz
    omega
  · cases hv

/-- C28 fails for batched temperature factors: with a temperature given and an RC element whose temperature factor has two or more
rows, the update never returns. -/
theorem C28_batched_temperature_factor_raises {B : Nat} (hB : 2 ≤ B) {beh : Behavior} {a : ASOH} {prev new : Input}
    {st st' : State} (hs : Sts B a st) {rc : Ecm.RC} (hrc : rc ∈ a.rcs) (ht : rc.r.tdf.shape = [B, 1]) {t : Nd ℝ}
    (htemp : prev.temp = some t) : update beh prev new st a ≠ .ok st' := by
  intro h
  obtain ⟨_, _, p3⟩ := update_parts h
  have hw : st.irc.shape.getD 1 0 = a.rcs.length := by rcases hs.irc with e | e <;> simp [e]
  rw [hw] at p3
  obtain ⟨taus, s, e1, e2⟩ := p3 (by intro h0; rw [List.length_eq_zero_iff] at h0; rw [h0] at hrc; cases hrc)
  obtain ⟨y, _, hy⟩ := allOk_mem e1 rc hrc
  unfold RC.timeConstant at hy
  simp only [bind_ok, htemp] at hy
  obtain ⟨r, k1, _⟩ := hy
  exact res_batched_tdf hB ht k1

-- The batched two-cell circuit runs, and so do its rows (batched capacity, RC capacitance, SOC and RC currents).
example : ∃ st', update .linear (Demo.input 0 1) (Demo.input 10 (-2)) Demo.state Demo.circuit = .ok st' ∧
    Pars 2 Demo.circuit ∧ Sts 2 Demo.circuit Demo.state := by
  obtain ⟨s, h⟩ := Demo.steps' .linear 0 1 10 (-2) (by norm_num)
  exact ⟨s, h, Demo.pars, Demo.sts⟩

-- Two cells with their own currents.
example : update .constant ⟨num2 0, Demo.two 1 2, none⟩ ⟨num2 10, Demo.two 1 2, none⟩ Demo.state Demo.circuit =
    .error .valueError :=
  C28_batched_current_raises (B := 2) (by norm_num) ⟨.inl rfl, .inr rfl, by intro t ht; cases ht⟩
    ⟨.inl rfl, .inr rfl, by intro t ht; cases ht⟩ rfl

-- One RC element batched, the other not.
example : ∃ a rc1 rc2, Pars 2 a ∧ Sts 2 a Demo.state ∧ rc1 ∈ a.rcs ∧ rc2 ∈ a.rcs ∧ rcRows rc1 ≠ rcRows rc2 := by
  refine ⟨{ Demo.circuit with rcs := [⟨Demo.res 0.01, Demo.flat 2500⟩, ⟨Demo.res 0.02, ⟨Demo.two 1000 900, none, .linear⟩⟩] },
    _, _, ?_, ⟨Demo.sts.1, Demo.sts.2, Demo.sts.3, Demo.sts.4⟩, List.mem_cons_self, List.mem_cons_of_mem _ List.mem_cons_self, ?_⟩
  · refine ⟨Demo.pars.1, Demo.pars.2, Demo.pars.3, Demo.pars.4, Demo.pars.5, Demo.pars.6, Demo.pars.7, Demo.pars.8, ?_, Demo.pars.10⟩
    intro rc hrc
    simp only [List.mem_cons, List.not_mem_nil, or_false] at hrc
    rcases hrc with rfl | rfl
    · exact ⟨⟨.inl rfl, .inl rfl⟩, .inl rfl⟩
    · exact ⟨⟨.inl rfl, .inl rfl⟩, .inr rfl⟩
  · simp [rcRows, Demo.res, Demo.flat, Demo.two, Interp.rows, num2]

-- A batched temperature factor.
example : ∃ rc : Ecm.RC, rc.r.tdf.shape = [2, 1] ∧ (Demo.input 0 1).temp = some (num2 30) :=
  ⟨⟨⟨Demo.flat 0.01, 25, Demo.two 0.001 0.002⟩, Demo.flat 2500⟩, rfl, rfl⟩

/-! ## C29 -/

theorem voltage_parts {new : Input} {st : State} {a : ASOH} {v : Nd ℝ} (h : voltage new st a = .ok v) :
    (∃ z, a.ocv.getValue st.soc new.temp = .ok z) ∧ (∃ z, a.r0.getValue st.soc new.temp = .ok z) ∧
    (st.q0.isSome → ∃ c z, a.c0 = some c ∧ c.getValue [] st.soc = .ok z) ∧
    (st.irc.shape.getD 1 0 ≠ 0 → ∃ l, (a.rcs.mapM fun rc => rc.r.getValue st.soc new.temp) = .ok l) := by
  unfold voltage at h
  simp only [bind_ok] at h
  obtain ⟨v1, a1, r0, a2, ir, a3, v2, a4, v3, a5, v4, a6, _⟩ := h
  refine ⟨⟨_, a1⟩, ⟨_, a2⟩, ?_, ?_⟩
  · intro hq
    unfold addC0 at a5
    cases hq' : st.q0 with
    | none => rw [hq'] at hq; cases hq
    | some q =>
      rw [hq'] at a5
      cases hc : a.c0 with
      | none => rw [hc] at a5; cases a5
      | some c =>
        rw [hc] at a5
        simp only [bind_ok] at a5
        obtain ⟨z, e, _⟩ := a5
        exact ⟨c, z, rfl, e⟩
  · intro hne
    unfold addRC at a6
    rw [if_neg hne] at a6
    simp only [bind_ok] at a6
    obtain ⟨l, e, _⟩ := a6
    exact ⟨l, e⟩

theorem ocv_parts {o : OCV} {soc y : Nd ℝ} {temp : Option (Nd ℝ)} (h : o.getValue soc temp = .ok y) :
    (∃ z, o.ref.getValue [rows o.refTemp] soc = .ok z) ∧ (temp.isSome → ∃ z, o.ent.getValue [] soc = .ok z) := by
  unfold OCV.getValue at h
  simp only [bind_ok] at h
  obtain ⟨z, h1, h2⟩ := h
  refine ⟨⟨z, h1⟩, fun ht => ?_⟩
  cases temp with
  | none => cases ht
  | some t =>
    simp only [bind_ok] at h2
    obtain ⟨_, _, e, h3, _⟩ := h2
    exact ⟨e, h3⟩

/-- C29: whichever quantities are batched, if the batched terminal voltage is returned, then for every member `b` the voltage of
the unbatched row-`b` circuit, input and state is returned too and is row `b` of the batched one. -/
theorem C29_voltage_row_by_row_partial {B : Nat} (hB : 0 < B) {a : ASOH} {new : Input} {st : State} {v : Nd ℝ} (ha : Pars B a)
    (hn : Ins B new) (hs : Sts B a st) (h : voltage new st a = .ok v) (b : Nat) (hb : b < B) :
    ∃ v1, voltage (rowInput new b) (rowState st b) (rowASOH a b) = .ok v1 ∧ at2 v1 0 = at2 v b := by
  obtain ⟨⟨z1, p1⟩, ⟨z2, p2⟩, p3, p4⟩ := voltage_parts h
  obtain ⟨⟨_, q1⟩, q2⟩ := ocv_parts p1
  obtain ⟨_, q3⟩ := res_parts p2
  have hw : st.irc.shape.getD 1 0 = a.rcs.length := by rcases hs.irc with e | e <;> simp [e]
  rw [hw] at p4
  have one : ∀ {x : Nd ℝ} {b : Nat}, ∀ k ∈ [rows (rowNd x b)], k = 1 := by
    intro x b k hk; simp only [List.mem_singleton] at hk; exact hk
  have hex : ∃ v1, voltage (rowInput new b) (rowState st b) (rowASOH a b) = .ok v1 := by
    refine voltage_ok (B := 1) (by norm_num) (pars_row ha b) (ins_row hn b) (sts_row hs b) ?_
    refine ⟨usable_row q1 b one, ?_, ?_, ⟨usable_row q3 b one, fun _ => scalar_row ha.r0.2 b⟩, ?_, ?_, 1, ?_⟩
    · intro ht
      obtain ⟨z, hz⟩ := q2 (by simpa [rowInput] using ht)
      exact usable_row hz b (by simp)
    · intro t ht
      simp only [rowInput, Option.mem_def, Option.map_eq_some_iff] at ht
      obtain ⟨t, ht, rfl⟩ := ht
      exact ⟨.inl rfl, .inl rfl, .inl rfl⟩
    · intro hq
      obtain ⟨c, z, hc, hz⟩ := p3 (by simpa [rowState] using hq)
      exact ⟨rowInterp c b, by simp [rowASOH, hc], usable_row hz b (by simp)⟩
    · intro rc hrc
      simp only [rowASOH, List.mem_map] at hrc
      obtain ⟨rc, hrc, rfl⟩ := hrc
      obtain ⟨l, hl⟩ := p4 (by intro h0; rw [List.length_eq_zero_iff] at h0; rw [h0] at hrc; cases hrc)
      obtain ⟨y, _, hy⟩ := allOk_mem hl rc hrc
      obtain ⟨z, hz⟩ := res_parts hy
      exact ⟨usable_row hz b one, fun _ => scalar_row (ha.rcs rc hrc).1.2 b⟩
    · intro rc hrc
      simp only [rowASOH, List.mem_map] at hrc
      obtain ⟨rc, hrc, rfl⟩ := hrc
      rfl
  obtain ⟨v1, h1⟩ := hex
  refine ⟨v1, h1, ?_⟩
  rw [(voltage_rows (B := 1) (by norm_num) (pars_row ha b) (ins_row hn b) (sts_row hs b) h1).2 0 (by norm_num),
    (voltage_rows hB ha hn hs h).2 b hb, in_row, st_row, par_row]

/-- C29: when the batched voltage is guaranteed to be returned. -/
theorem C29_voltage_returns_partial {B : Nat} (hB : 0 < B) {a : ASOH} {new : Input} {st : State} (ha : Pars B a) (hn : Ins B new)
    (hs : Sts B a st) (hc : CanVoltage new st a) : ∃ v, voltage new st a = .ok v ∧ v.shape.length = 2 := by
  obtain ⟨v, h⟩ := voltage_ok hB ha hn hs hc
  refine ⟨v, h, ?_⟩
  rcases (voltage_rows hB ha hn hs h).1 with e | e <;> rw [e] <;> rfl

/-- C29 fails when the entropic curve is batched, the reference curve is not, and a temperature is given: the in-place addition
raises. -/
theorem C29_batched_entropy_raises {B : Nat} (hB : 2 ≤ B) {a : ASOH} {new : Input} {st : State} {v : Nd ℝ} (ha : Pars B a)
    (hn : Ins B new) (hs : Sts B a st) (hent : a.ocv.ent.rows = B) (href : a.ocv.ref.rows = 1) {t : Nd ℝ}
    (ht : new.temp = some t) : voltage new st a ≠ .ok v := by
  intro h
  have hB0 : 0 < B := by omega
  obtain ⟨⟨z, p1⟩, _⟩ := voltage_parts h
  obtain ⟨rs, ls⟩ := rel_scalar hs.soc
  unfold OCV.getValue at p1
  rw [ht] at p1
  simp only [bind_ok] at p1
  obtain ⟨ref, e1, d, e2, en, e3, co, e4, e5⟩ := p1
  obtain ⟨_, s1⟩ := getValue_rel hB0 ha.ref rs ls e1
  obtain ⟨_, s3⟩ := getValue_rel hB0 ha.ent rs ls e3
  obtain ⟨dt, st'⟩ := dim_rows (hn.temp t (by rw [ht]; rfl))
  obtain ⟨dr, sr⟩ := dim_rows ha.refTemp
  have sd := shape_map2_22 (B := B) e2 st' sr dt dr
  have dd : Dim B (if rows t = 1 then rows a.ocv.refTemp else rows t) := by split <;> assumption
  have ds := (dim_rows hs.soc).1
  have sc := shape_map2_23 (B := B) e4 sd s3 ds dd
  unfold inplace at e5
  split at e5
  · cases e5
  · rename_i c e6
    split at e5
    · rename_i hsh
      have ds2 : Dim B (if (if rows t = 1 then rows a.ocv.refTemp else rows t) = 1 then rows st.soc
          else (if rows t = 1 then rows a.ocv.refTemp else rows t)) := by split_ifs <;> assumption
      have s6 := shape_map2_33 (B := B) e6 s1 sc (curve_dim ha.ref).1 ds (curve_dim ha.ent).1 ds2
      rw [hsh, s1, href, hent] at s6
      simp at s6
      omega
    · cases e5

/-- C29 fails for a batched temperature factor of the series resistance when a temperature is given. -/
theorem C29_batched_temperature_factor_raises {B : Nat} (hB : 2 ≤ B) {a : ASOH} {new : Input} {st : State} {v : Nd ℝ}
    (htdf : a.r0.tdf.shape = [B, 1]) {t : Nd ℝ} (ht : new.temp = some t) : voltage new st a ≠ .ok v := by
  intro h
  obtain ⟨_, ⟨z, p2⟩, _⟩ := voltage_parts h
  rw [ht] at p2
  exact res_batched_tdf hB htdf p2

example : ∃ v, voltage (Demo.input 0 2) Demo.state Demo.circuit = .ok v ∧ CanVoltage (Demo.input 0 2) Demo.state Demo.circuit := by
  obtain ⟨v, h⟩ := voltage_ok (by norm_num) Demo.pars (Demo.ins 0 2) Demo.sts (demo_canVoltage _ _ _)
  exact ⟨v, h, demo_canVoltage _ _ _⟩

-- A batched entropic curve next to an unbatched reference curve; a batched temperature factor.
example : ∃ a, Pars 2 a ∧ Sts 2 a Demo.state ∧ a.ocv.ent.rows = 2 ∧ a.ocv.ref.rows = 1 :=
  ⟨{ Demo.circuit with ocv := ⟨Demo.line 3 4, num2 25, ⟨Demo.two 0.004 0.005, none, .linear⟩⟩ },
    ⟨Demo.pars.1, Demo.pars.2, Demo.pars.3, Demo.pars.4, Demo.pars.5, .inr rfl, Demo.pars.7, Demo.pars.8, Demo.pars.9, Demo.pars.10⟩,
    ⟨Demo.sts.1, Demo.sts.2, Demo.sts.3, Demo.sts.4⟩, rfl, rfl⟩

example : ({ Demo.circuit with r0 := ⟨Demo.flat 0.01, 25, Demo.two 0.001 0.002⟩ } : ASOH).r0.tdf.shape = [2, 1] := rfl

-- Any sequence of inputs at changing times: the second cell of the two, simulated alone, arrives at the state that it has in the batch.
example (beh : Behavior) (l : List (ℝ × ℝ)) (t i : ℝ) (h : ∀ p ∈ steps (t, i) l, p.2.1 ≠ p.1.1) :
    ∃ st' s1, Ecm.run beh Demo.circuit (Demo.input t i) (l.map fun p => Demo.input p.1 p.2) Demo.state = .ok st' ∧
      Ecm.run beh (rowASOH Demo.circuit 1) (rowInput (Demo.input t i) 1) ((l.map fun p => Demo.input p.1 p.2).map (rowInput · 1)) (rowState Demo.state 1) = .ok s1 ∧
      at2 s1.soc 0 = at2 st'.soc 1 ∧ ∀ j < 2, ircAt s1 0 j = ircAt st' 1 j := by
  obtain ⟨st', e⟩ := Demo.runs beh l t i h
  have ins : ∀ k ∈ Demo.input t i :: l.map fun p => Demo.input p.1 p.2, Ins 2 k := fun k hk => by
    rcases List.mem_cons.1 hk with rfl | hk
    · exact Demo.ins _ _
    · obtain ⟨p, _, rfl⟩ := List.mem_map.1 hk
      exact Demo.ins _ _
  obtain ⟨s1, e1, r1, -, r3, -⟩ := C28_history_row_by_row_partial (by norm_num) Demo.pars 1 (by norm_num) _ ins Demo.sts e
    (fun hl p hp => by
      have single := fun k hk => ((Demo.canRun beh l t i h).single k hk).1
      have := (Demo.canRun beh l t i h).moves hl p hp
      have e : ∀ k : Input, k ∈ Demo.input t i :: (l.map fun p => Demo.input p.1 p.2) → at2 k.time 1 = k.time.get [0, 0] := fun k hk => by
        have := single k hk
        unfold at2
        simp [Ecm.rows, show k.time.shape = [1, 1] from this]
      rwa [e _ (List.of_mem_zip hp).1, e _ (List.mem_cons_of_mem _ (List.of_mem_zip hp).2)])
  exact ⟨st', s1, e, e1, r1, r3⟩

end Verif.Cell
