import Verif.Props.EcmBatch
/-!
# Exactly when an update or a voltage is returned for batched quantities (C28, C29)

`CanUpdate` and `CanVoltage` (`Verif/Proofs/EcmSucceeds.lean`) list which quantities may be batched; here they are shown to be
necessary as well as sufficient.
-/

namespace Verif.Cell
open Verif Nd Ecm

theorem le_batchLoop : ∀ {l : List Nat} {b c : Nat}, batchLoop b l = .ok c → b ≤ c ∧ ∀ n ∈ l, n ≤ c := by
  intro l
  induction l with
  | nil => intro b c h; cases h; exact ⟨le_refl _, by simp⟩
  | cons n l ih =>
    intro b c h
    unfold batchLoop at h
    split at h
    · cases h
    · obtain ⟨h1, h2⟩ := ih h
      refine ⟨by omega, ?_⟩
      intro k hk
      rcases List.mem_cons.1 hk with rfl | hk
      · omega
      · exact h2 k hk

theorem dim_pos {B n : Nat} (hB : 0 < B) (h : Dim B n) : 0 < n := by rcases h with h | h <;> omega

theorem reshape_size {α : Type} {a y : Nd α} {s : List Nat} (h : a.reshape s = .ok y) : s.foldr (· * ·) 1 = a.size := by
  unfold reshape at h
  split at h
  · assumption
  · cases h

/-- A curve that was evaluated is usable. -/
theorem usable_of_getValue {B : Nat} (hB : 0 < B) {h : Interp} (hc : Curve B h) {others : List Nat} (ho : ∀ o ∈ others, Dim B o)
    {soc y : Nd ℝ} (hsoc : Scalar B soc) (hy : h.getValue others soc = .ok y) : Usable h others := by
  by_cases hw : h.width = 1
  · exact .inl hw
  · right
    obtain ⟨dr, _⟩ := curve_dim hc
    obtain ⟨ds, ss⟩ := dim_rows hsoc
    have hpos := dim_pos hB ds
    have h0 := (usable_of_ok hy).resolve_left hw
    refine ⟨h0.1, h0.2, ?_⟩
    unfold Interp.getValue at hy
    simp only [ss, List.length_cons, List.length_nil] at hy
    rw [if_neg (by omega)] at hy
    split at hy
    · cases hy
    · rename_i ib e
      rw [if_neg hw] at hy
      unfold Interp.interpFunc at hy
      rw [if_neg (by simpa using h0.2), if_neg h0.1] at hy
      have hsz := reshape_size hy
      simp only [size, ss, List.foldr_cons, List.foldr_nil, Nat.mul_one, Nat.zero_add, Nat.reduceAdd, if_true,
        List.getD_cons_zero] at hsz
      have : ib = h.rows := Nat.eq_of_mul_eq_mul_right hpos hsz
      subst this
      intro o hoo
      have hle := (le_batchLoop e).2 o (by simp [hoo])
      rcases ho o hoo with h | h
      · exact .inl h
      · right
        rcases dr with h' | h' <;> omega

theorem usableRes_of_getValue {B : Nat} (hB : 0 < B) {r : Resistance} (hr : Res B r) {soc y : Nd ℝ} (hsoc : Scalar B soc)
    {temp : Option (Nd ℝ)} (h : r.getValue soc temp = .ok y) : UsableRes r temp := by
  obtain ⟨dr, sr⟩ := dim_rows hr.2
  obtain ⟨z, hz⟩ := res_parts h
  refine ⟨usable_of_getValue hB hr.1 (by simpa using dr) hsoc hz, ?_⟩
  intro ht
  obtain ⟨t, rfl⟩ := Option.isSome_iff_exists.1 ht
  unfold Resistance.getValue at h
  simp only [bind_ok] at h
  obtain ⟨_, _, b, hb, _⟩ := h
  unfold truth at hb
  split at hb
  · rename_i hs
    simp only [size, Nd.map, sr, List.foldr_cons, List.foldr_nil, Nat.mul_one] at hs
    unfold Single
    rw [sr, hs]
  · cases hb

theorem stack_shapes {l : List (Nd ℝ)} {s : Nd ℝ} (h : stack l = .ok s) : ∃ sh, ∀ y ∈ l, y.shape = sh := by
  cases l with
  | nil => exact ⟨[], by simp⟩
  | cons y l =>
    rw [stack] at h
    split at h
    · rename_i hall
      refine ⟨y.shape, ?_⟩
      intro z hz
      rcases List.mem_cons.1 hz with rfl | hz
      · rfl
      · exact hall z hz
    · cases h

theorem truth_size {a : Nd Bool} {v : Bool} (h : a.truth = .ok v) : a.size = 1 := by
  unfold truth at h
  split at h
  · assumption
  · cases h

/-- Two numbers-or-batches whose broadcast has a single entry are both single. -/
theorem single_of_broadcast {B : Nat} {a c : Nd ℝ} {r : Nd γ} {f : ℝ → ℝ → γ} (ha : Scalar B a) (hc : Scalar B c)
    (h : map2 f a c = .ok r) (hs : r.size = 1) : Single a ∧ Single c := by
  obtain ⟨da, sa⟩ := dim_rows ha
  obtain ⟨dc, sc⟩ := dim_rows hc
  have e := shape_map2_22 (B := B) h sa sc da dc
  simp only [size, e, List.foldr_cons, List.foldr_nil, Nat.mul_one] at hs
  unfold Single
  rw [sa, sc]
  split at hs
  · rename_i h1; rw [h1, hs]; exact ⟨rfl, rfl⟩
  · contradiction

theorem scalar_map2 {B : Nat} {a c r : Nd ℝ} {f : ℝ → ℝ → ℝ} (ha : Scalar B a) (hc : Scalar B c) (h : map2 f a c = .ok r) :
    Scalar B r := by
  obtain ⟨ra, la⟩ := rel_scalar ha
  obtain ⟨rc, lc⟩ := rel_scalar hc
  obtain ⟨rr, lr⟩ := rel_map2' h ra rc
  exact (scalar_of_rel rr (by rw [lr, la, lc]; rfl)).1

theorem scalar_map {B : Nat} {a : Nd ℝ} (f : ℝ → ℝ) (ha : Scalar B a) : Scalar B (a.map f) := ha

/-- The sign check of the hysteresis solver needs a single interval and a single current slope. -/
theorem hystSolver_single {B : Nat} {h0 M kappa dt i0 alpha y : Nd ℝ} (hdt : Scalar B dt) (hi : Scalar B i0) (ha : Scalar B alpha)
    (h : hystSolver h0 M kappa dt i0 alpha = .ok y) : Single dt ∧ Single alpha := by
  unfold hystSolver at h
  simp only [bind_ok] at h
  obtain ⟨w, e1, v, e2, p, e3, b, e4, _⟩ := h
  have hs := truth_size e4
  have sw := scalar_map2 ha hdt e1
  have sv := scalar_map2 hi sw e2
  obtain ⟨_, s1⟩ := single_of_broadcast hi sv e3 hs
  obtain ⟨_, s2⟩ := single_of_broadcast hi sw e2 (by simp [size, show v.shape = [1, 1] from s1])
  obtain ⟨s3, s4⟩ := single_of_broadcast ha hdt e1 (by simp [size, show w.shape = [1, 1] from s2])
  exact ⟨s4, s3⟩

/-- What a returned update says about its arguments. -/
theorem canUpdate_of_ok {B : Nat} (hB : 0 < B) {beh : Behavior} {a : ASOH} {prev new : Input} {st st' : State} (ha : Pars B a)
    (hp : Ins B prev) (hn : Ins B new) (hs : Sts B a st) (hmoves : beh = .linear → new.time.get [0, 0] ≠ prev.time.get [0, 0])
    (h : update beh prev new st a = .ok st') : CanUpdate beh prev new st a := by
  obtain ⟨⟨z, p1⟩, _, p3⟩ := update_parts h
  have hw : st.irc.shape.getD 1 0 = a.rcs.length := by rcases hs.irc with e | e <;> simp [e]
  rw [hw] at p3
  have hrc : (∀ rc ∈ a.rcs, UsableRes rc.r prev.temp ∧ Usable rc.c []) ∧
      ∃ P Q, ∀ rc ∈ a.rcs, rcRows rc = P ∧ stateRows rc.r st.soc prev.temp = Q := by
    by_cases h0 : a.rcs = []
    · rw [h0]; exact ⟨by simp, 0, 0, by simp⟩
    · obtain ⟨taus, s, e1, e2⟩ := p3 (by simpa using h0)
      obtain ⟨sh, hsh⟩ := stack_shapes e2
      have hu : ∀ rc ∈ a.rcs, UsableRes rc.r prev.temp ∧ Usable rc.c [] := by
        intro rc hrc
        obtain ⟨y, _, hy⟩ := allOk_mem e1 rc hrc
        unfold RC.timeConstant at hy
        simp only [bind_ok] at hy
        obtain ⟨r, k1, c, k2, _⟩ := hy
        exact ⟨usableRes_of_getValue hB (ha.rcs rc hrc).1 hs.soc k1,
          usable_of_getValue hB (ha.rcs rc hrc).2 (by simp) hs.soc k2⟩
      refine ⟨hu, sh.getD 0 0, sh.getD 1 0, ?_⟩
      intro rc hrc
      obtain ⟨y, hm, hy⟩ := allOk_mem e1 rc hrc
      obtain ⟨y', k1, k2⟩ := timeConstant_ok hB (ha.rcs rc hrc).1 (ha.rcs rc hrc).2 hs.soc hp.temp (hu rc hrc).1 (hu rc hrc).2
      rw [hy] at k1
      cases k1
      rw [hsh y hm] at k2
      rw [k2]
      exact ⟨rfl, rfl⟩
  unfold update at h
  simp only [bind_ok, pure_ok] at h
  obtain ⟨dt, a1, slp, a2, neg, a3, sd, a4, cd, a5, ch, a6, cq, a7, ec, a8, soc, a9, q0, a10, irc, a11, hy, a12, _⟩ := h
  unfold updateHyst at a12
  simp only [bind_ok] at a12
  obtain ⟨m0, _, m1, _, M, _, k0, _, kappa, _, cc, b1, ss, b2, hh, b3, _⟩ := a12
  have hcur : Single prev.current ∧ Single new.current := single_of_broadcast hp.current hn.current b1 (truth_size b2)
  have sdt := scalar_map2 hn.time hp.time a1
  have hsl : Scalar B slp ∧ (beh = .linear → ∃ d, map2 (· - ·) new.current prev.current = .ok d ∧ map2 (· / ·) d dt = .ok slp) := by
    unfold currentSlope at a2
    cases beh with
    | constant => cases a2; exact ⟨.inl rfl, fun h => by cases h⟩
    | linear =>
      simp only [bind_ok] at a2
      obtain ⟨d, d1, d2⟩ := a2
      exact ⟨scalar_map2 (scalar_map2 hn.current hp.current d1) sdt d2, fun _ => ⟨d, d1, d2⟩⟩
  have htime : Single dt := by
    unfold hystEvolve at b3
    split at b3
    · exact (hystSolver_single sdt hp.current hsl.1 b3).1
    · rename_i hne
      simp only [bind_ok] at b3
      obtain ⟨phi, c1, mid, c2, _⟩ := b3
      have sphi := scalar_map2 (scalar_map (fun x => -x) hp.current) hsl.1 c1
      obtain ⟨_, s2⟩ := hystSolver_single sphi hp.current hsl.1 c2
      obtain ⟨d, d1, d2⟩ := hsl.2 (by
        cases beh with
        | constant => simp at hne
        | linear => rfl)
      exact (single_of_broadcast (scalar_map2 hn.current hp.current d1) sdt d2 (by simp [size, show slp.shape = [1, 1] from s2])).2
  obtain ⟨t1, t2⟩ := single_of_broadcast hn.time hp.time a1 (by simp [size, show dt.shape = [1, 1] from htime])
  exact ⟨⟨t2, t1⟩, hcur, hmoves, hrc.1, hrc.2,
    usable_of_getValue hB ha.hyst (by simpa using (dim_rows ha.gamma).1) hs.soc p1⟩

/-- C28: an update of quantities that are each unbatched or batched with `B` rows returns iff the times and the currents are
unbatched, every curve in use can be evaluated on its own, and all time constants have the same shape (`CanUpdate`).  Under
linear behaviour the two times must differ.  With `C28_update_row_by_row_partial` this covers every batching pattern: either the
rows are right or the call raises.  Missing with respect to C28: the patterns excluded by `CanUpdate` ought to work too. -/
theorem C28_update_returns_iff_partial {B : Nat} (hB : 0 < B) {beh : Behavior} {a : ASOH} {prev new : Input} {st : State}
    (ha : Pars B a) (hp : Ins B prev) (hn : Ins B new) (hs : Sts B a st)
    (hmoves : beh = .linear → new.time.get [0, 0] ≠ prev.time.get [0, 0]) :
    (∃ st', update beh prev new st a = .ok st') ↔ CanUpdate beh prev new st a :=
  ⟨fun ⟨_, h⟩ => canUpdate_of_ok hB ha hp hn hs hmoves h, fun hc => update_ok hB ha hp hn hs hc⟩

-- Two cells with their own capacity, RC capacitance and SOC are updated; two end times at once are refused.
example : (∃ st', update .linear (Demo.input 0 1) (Demo.input 10 (-2)) Demo.state Demo.circuit = .ok st') ∧
    CanUpdate .linear (Demo.input 0 1) (Demo.input 10 (-2)) Demo.state Demo.circuit ∧
    ¬∃ st', update .constant ⟨num2 0, num2 1, none⟩ ⟨Demo.two 10 20, num2 1, none⟩ Demo.state Demo.circuit = .ok st' := by
  have h := Demo.steps' .linear 0 1 10 (-2) (by norm_num)
  refine ⟨h, (C28_update_returns_iff_partial (B := 2) (by norm_num) Demo.pars (Demo.ins 0 1) (Demo.ins 10 (-2)) Demo.sts
    (fun _ => by norm_num [Demo.input, num2])).1 h, ?_⟩
  rw [C28_update_returns_iff_partial (B := 2) (by norm_num) Demo.pars ⟨.inl rfl, .inl rfl, by intro t ht; cases ht⟩
    ⟨.inr rfl, .inl rfl, by intro t ht; cases ht⟩ Demo.sts (by intro h; cases h)]
  intro h
  exact absurd h.time.2 (by simp [Single, Demo.two])

/-- The entropic term fits in the reference curve's array when it was added in place. -/
theorem entFits_of_ok {B : Nat} (hB : 0 < B) {o : OCV} (href : Curve B o.ref) (hent : Curve B o.ent) (hrt : Scalar B o.refTemp)
    {soc t v : Nd ℝ} (hsoc : Scalar B soc) (ht : Scalar B t) (h : o.getValue soc (some t) = .ok v) :
    (o.ent.rows = 1 ∨ o.ent.rows = o.ref.rows) ∧ (rows t = 1 ∨ rows t = rows soc) ∧
      (rows o.refTemp = 1 ∨ rows o.refTemp = rows soc) := by
  obtain ⟨rs, ls⟩ := rel_scalar hsoc
  obtain ⟨ds, _⟩ := dim_rows hsoc
  obtain ⟨dt, st⟩ := dim_rows ht
  obtain ⟨dr, sr⟩ := dim_rows hrt
  have dref := (curve_dim href).1
  have dent := (curve_dim hent).1
  unfold OCV.getValue at h
  simp only [bind_ok] at h
  obtain ⟨ref, e1, d, e2, en, e3, co, e4, e5⟩ := h
  obtain ⟨_, s1⟩ := getValue_rel hB href rs ls e1
  obtain ⟨_, s3⟩ := getValue_rel hB hent rs ls e3
  have s2 := shape_map2_22 (B := B) e2 st sr dt dr
  have hb : ∀ p q, Dim B p → Dim B q → bdim p q = some (if p = 1 then q else p) := by
    intro p q hp hq
    unfold bdim
    rcases hp with rfl | rfl <;> rcases hq with rfl | rfl <;> (repeat' split) <;> simp_all
  have h1 : bdim 1 1 = some 1 := rfl
  have dm : Dim B (if rows t = 1 then rows o.refTemp else rows t) := by split <;> assumption
  generalize hm : (if rows t = 1 then rows o.refTemp else rows t) = m at s2 dm
  have s4 : co.shape = [o.ent.rows, if m = 1 then rows soc else m, 1] := by
    have hs : bshape d.shape en.shape = some [o.ent.rows, if m = 1 then rows soc else m, 1] := by
      simp [bshape, s2, s3, bdims, hb _ _ dm ds, h1]
    unfold mul map2 at e4
    rw [hs] at e4
    cases e4
    rfl
  have dm' : Dim B (if m = 1 then rows soc else m) := by split <;> assumption
  unfold inplace at e5
  split at e5
  · cases e5
  · rename_i c hc
    have s5 := shape_map2_33 (B := B) hc s1 s4 dref ds dent dm'
    split at e5
    · rename_i hsame
      rw [s5, s1] at hsame
      simp only [List.cons.injEq, and_true] at hsame
      obtain ⟨g1, g2⟩ := hsame
      have hpos := dim_pos hB ds
      refine ⟨?_, ?_, ?_⟩
      · rcases dref with h | h <;> rcases dent with h' | h'
        · exact .inl h'
        · rw [if_pos h] at g1; exact .inr g1
        · exact .inl h'
        · exact .inr (by omega)
      · rcases dt with h | h
        · exact .inl h
        · by_cases hB1 : B = 1
          · left; omega
          · right
            rw [if_neg (by omega)] at hm
            rcases ds with h' | h'
            · rw [if_pos h', if_neg (by omega)] at g2; omega
            · omega
      · rcases dr with h | h
        · exact .inl h
        · by_cases hB1 : B = 1
          · left; omega
          · right
            have hmB : m = B := by
              rw [← hm]; split
              · exact h
              · rcases dt with h'' | h''
                · contradiction
                · exact h''
            rcases ds with h' | h'
            · rw [if_pos h', if_neg (by omega)] at g2; omega
            · omega
    · cases e5

/-- What a returned voltage says about its arguments. -/
theorem canVoltage_of_ok {B : Nat} (hB : 0 < B) {a : ASOH} {new : Input} {st : State} {v : Nd ℝ} (ha : Pars B a) (hn : Ins B new)
    (hs : Sts B a st) (h : voltage new st a = .ok v) : CanVoltage new st a := by
  have hw : st.irc.shape.getD 1 0 = a.rcs.length := by rcases hs.irc with e | e <;> simp [e]
  unfold voltage at h
  simp only [bind_ok] at h
  obtain ⟨oc, p1, r0, p2, ir, _, v1, _, v2, p3, v3, p4, _⟩ := h
  have hocv : Usable a.ocv.ref [rows a.ocv.refTemp] ∧ (new.temp.isSome → Usable a.ocv.ent []) := by
    unfold OCV.getValue at p1
    simp only [bind_ok] at p1
    obtain ⟨ref, e1, e⟩ := p1
    refine ⟨usable_of_getValue hB ha.ref (by simpa using (dim_rows ha.refTemp).1) hs.soc e1, ?_⟩
    intro ht
    obtain ⟨t, ht⟩ := Option.isSome_iff_exists.1 ht
    rw [ht] at e
    simp only [bind_ok] at e
    obtain ⟨_, _, en, e3, _⟩ := e
    exact usable_of_getValue hB ha.ent (by simp) hs.soc e3
  have hrc : (∀ rc ∈ a.rcs, UsableRes rc.r new.temp) ∧ ∃ P, ∀ rc ∈ a.rcs, rc.r.interp.rows = P := by
    by_cases h0 : a.rcs = []
    · rw [h0]; exact ⟨by simp, 0, by simp⟩
    · unfold addRC at p4
      rw [if_neg (by rw [hw]; simpa using h0)] at p4
      simp only [bind_ok] at p4
      obtain ⟨rs, e1, s, e2, _⟩ := p4
      obtain ⟨sh, hsh⟩ := stack_shapes e2
      have hu : ∀ rc ∈ a.rcs, UsableRes rc.r new.temp := by
        intro rc hrc
        obtain ⟨y, _, hy⟩ := allOk_mem e1 rc hrc
        exact usableRes_of_getValue hB (ha.rcs rc hrc).1 hs.soc hy
      refine ⟨hu, sh.getD 0 0, ?_⟩
      intro rc hrc
      obtain ⟨y, hm, hy⟩ := allOk_mem e1 rc hrc
      obtain ⟨y', k1, k2⟩ := resistance_ok hB (ha.rcs rc hrc).1 hs.soc hn.temp (hu rc hrc)
      rw [hy] at k1
      cases k1
      rw [hsh y hm] at k2
      rw [k2]
      rfl
  refine ⟨hocv.1, hocv.2, ?_, usableRes_of_getValue hB ha.r0 hs.soc p2, ?_, hrc.1, hrc.2⟩
  · intro t ht
    rw [show new.temp = some t from ht] at p1
    exact entFits_of_ok hB ha.ref ha.ent ha.refTemp hs.soc (hn.temp t ht) p1
  · intro hq
    obtain ⟨q, hq⟩ := Option.isSome_iff_exists.1 hq
    rw [hq] at p3
    unfold addC0 at p3
    cases hc : a.c0 with
    | none => rw [hc] at p3; cases p3
    | some c =>
      rw [hc] at p3
      simp only [bind_ok] at p3
      obtain ⟨z, e1, _⟩ := p3
      exact ⟨c, rfl, usable_of_getValue hB (ha.c0 c hc) (by simp) hs.soc e1⟩

/-- C29: the voltage of quantities that are each unbatched or batched with `B` rows is returned iff every curve in use can be
evaluated on its own, the entropic term fits in the reference curve's array, a stored charge comes with a series capacitor, and
the resistances of the RC elements are batched alike (`CanVoltage`).  With `C29_voltage_row_by_row_partial` this covers every
batching pattern: either the rows are right or the call raises.  Missing with respect to C29: the patterns excluded by
`CanVoltage` ought to work too. -/
theorem C29_voltage_returns_iff_partial {B : Nat} (hB : 0 < B) {a : ASOH} {new : Input} {st : State} (ha : Pars B a)
    (hn : Ins B new) (hs : Sts B a st) : (∃ v, voltage new st a = .ok v) ↔ CanVoltage new st a :=
  ⟨fun ⟨_, h⟩ => canVoltage_of_ok hB ha hn hs h, fun hc => voltage_ok hB ha hn hs hc⟩

-- The voltage of two cells is returned; with a batched ambient temperature it is not if the SOC is shared.
example : (∃ v, voltage (Demo.input 0 2) Demo.state Demo.circuit = .ok v) ∧
    CanVoltage (Demo.input 0 2) Demo.state Demo.circuit ∧
    ¬∃ v, voltage ⟨num2 0, num2 2, some (Demo.two 20 30)⟩ { Demo.state with soc := num2 0.5 } Demo.circuit = .ok v := by
  have hc := demo_canVoltage 0 2 Demo.state
  refine ⟨(C29_voltage_returns_iff_partial (B := 2) (by norm_num) Demo.pars (Demo.ins 0 2) Demo.sts).2 hc, hc, ?_⟩
  intro h
  have hs : Sts 2 Demo.circuit { Demo.state with soc := num2 0.5 } := ⟨.inl rfl, Demo.sts.2, Demo.sts.3, Demo.sts.4⟩
  have := (C29_voltage_returns_iff_partial (B := 2) (by norm_num) Demo.pars
    ⟨.inl rfl, .inl rfl, by intro t ht; cases ht; exact .inr rfl⟩ hs).1 h
  have := (this.entFits _ rfl).2.1
  simp [rows, Demo.two, num2] at this

end Verif.Cell
