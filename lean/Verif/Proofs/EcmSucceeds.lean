import Verif.Proofs.EcmVoltage
/-!
# When the equivalent-circuit code runs without raising
-/

namespace Verif.Cell
open Verif Nd Ecm

/-! ## Conditions (specification) -/

/-- A single number, i.e. unbatched. -/
def Single (a : Nd ℝ) : Prop := a.shape = [1, 1]

/-- A curve that can be evaluated: one constant per row, or one value per pinpoint and no other parameter of the same object
batched more finely than the curve itself. -/
def Usable (h : Interp) (others : List Nat) : Prop :=
  h.width = 1 ∨ (h.width ≠ 0 ∧ h.pinsUsed.length = h.width ∧ ∀ o ∈ others, o = 1 ∨ o = h.rows)

/-- A resistance that can be evaluated: when a temperature is given, its temperature factor must not be batched. -/
def UsableRes (r : Resistance) (temp : Option (Nd ℝ)) : Prop :=
  Usable r.interp [rows r.tdf] ∧ (temp.isSome → Single r.tdf)

/-- The batch axis of an RC element: that of its resistance or of its capacitance. -/
def rcRows (rc : Ecm.RC) : Nat := if rc.r.interp.rows = 1 then rc.c.rows else rc.r.interp.rows

open Classical in
/-- The other batch axis of a resistance: that of the SOC, or that of the temperature if only it is batched and has an effect. -/
noncomputable def stateRows (r : Resistance) (soc : Nd ℝ) (temp : Option (Nd ℝ)) : Nat :=
  match temp with
  | none => rows soc
  | some t => if r.tdf.get [0, 0] = 0 then rows soc else if rows soc = 1 then rows t else rows soc

/-- Conditions under which `update_transient_state` does not raise. -/
structure CanUpdate (beh : Behavior) (prev new : Input) (st : State) (a : ASOH) : Prop where
  time : Single prev.time ∧ Single new.time
  current : Single prev.current ∧ Single new.current
  moves : beh = .linear → new.time.get [0, 0] ≠ prev.time.get [0, 0]
  rcs : ∀ rc ∈ a.rcs, UsableRes rc.r prev.temp ∧ Usable rc.c []
  /-- all time constants have the same shape -/
  sameShape : ∃ P Q, ∀ rc ∈ a.rcs, rcRows rc = P ∧ stateRows rc.r st.soc prev.temp = Q
  hyst : Usable a.hyst [rows a.gamma]

/-- Conditions under which `calculate_terminal_voltage` does not raise. -/
structure CanVoltage (new : Input) (st : State) (a : ASOH) : Prop where
  ocvRef : Usable a.ocv.ref [rows a.ocv.refTemp]
  ocvEnt : new.temp.isSome → Usable a.ocv.ent []
  /-- the in-place `+=` of the entropic term must not need more batch axes than the reference curve has -/
  entFits : ∀ t ∈ new.temp, (a.ocv.ent.rows = 1 ∨ a.ocv.ent.rows = a.ocv.ref.rows) ∧
    (rows t = 1 ∨ rows t = rows st.soc) ∧ (rows a.ocv.refTemp = 1 ∨ rows a.ocv.refTemp = rows st.soc)
  r0 : UsableRes a.r0 new.temp
  c0 : st.q0.isSome → ∃ c, a.c0 = some c ∧ Usable c []
  rcs : ∀ rc ∈ a.rcs, UsableRes rc.r new.temp
  sameBatch : ∃ P, ∀ rc ∈ a.rcs, rc.r.interp.rows = P

/-! ## Proofs -/

theorem batchLoop_dims {B : Nat} (hB : 0 < B) {l : List Nat} (h : ∀ n ∈ l, Dim B n) : ∃ b, batchLoop 1 l = .ok b ∧ Dim B b ∧
    (∀ m, (∀ n ∈ l, n = 1 ∨ n = m) → m ∈ l → b = m ∨ (m = 0)) := by
  have gen : ∀ (l : List Nat) b, Dim B b → (∀ n ∈ l, Dim B n) → ∃ c, batchLoop b l = .ok c ∧ Dim B c ∧ b ≤ c ∧
      (∀ n ∈ l, n ≤ c) ∧ (c = b ∨ c ∈ l) := by
    intro l
    induction l with
    | nil => intro b hb _; exact ⟨b, rfl, hb, le_refl _, by simp, .inl rfl⟩
    | cons n l ih =>
      intro b hb hl
      have hn := hl n (by simp)
      have hm : Dim B (max b n) := by
        rcases hb with rfl | rfl <;> rcases hn with rfl | rfl
        · exact .inl rfl
        · right; omega
        · right; omega
        · right; omega
      obtain ⟨c, h1, h2, h3, h4, h5⟩ := ih (max b n) hm fun k hk => hl k (by simp [hk])
      refine ⟨c, ?_, h2, by omega, ?_, ?_⟩
      · unfold batchLoop
        rw [if_neg, h1]
        rintro ⟨g1, g2, g3⟩
        rcases hb with rfl | rfl
        · omega
        · rcases hn with h | h
          · exact g2 h
          · exact g3 h
      · intro k hk
        rcases List.mem_cons.1 hk with rfl | hk
        · omega
        · exact h4 k hk
      · rcases h5 with h5 | h5
        · rcases Nat.le_total b n with hle | hle
          · right; rw [h5]; simp [Nat.max_eq_right hle]
          · left; rw [h5]; omega
        · right; simp [h5]
  obtain ⟨c, h1, h2, h3, h4, h5⟩ := gen l 1 (dim_one B) h
  refine ⟨c, h1, h2, fun m hm hml => ?_⟩
  by_cases h0 : m = 0
  · exact .inr h0
  · left
    have := h4 m hml
    rcases h5 with rfl | h5
    · omega
    · rcases hm c h5 with h | h
      · omega
      · exact h

theorem reshape_ok {α : Type} {a : Nd α} {s : List Nat} (h : s.foldr (· * ·) 1 = a.size) : ∃ y, a.reshape s = .ok y :=
  ⟨_, by rw [reshape, if_pos h]⟩

theorem getValue_ok {B : Nat} (hB : 0 < B) {h : Interp} (hc : Curve B h) {others : List Nat} (ho : ∀ o ∈ others, Dim B o)
    (hu : Usable h others) {soc : Nd ℝ} {x : Nat → ℝ} (hx : Rel B soc x) (hl : soc.shape.length = 2) :
    ∃ y, h.getValue others soc = .ok y := by
  obtain ⟨hr, hshape⟩ := curve_dim hc
  obtain ⟨n, hn, hs, hv⟩ := hx.shape2 hl
  obtain ⟨ib, e1, e2, e3⟩ := batchLoop_dims hB (l := h.rows :: others) (by
    intro k hk
    rcases List.mem_cons.1 hk with rfl | hk
    · exact hr
    · exact ho k hk)
  unfold Interp.getValue
  simp only [hs, List.length_cons, List.length_nil]
  rw [if_neg (by omega), e1]
  simp only
  by_cases hw : h.width = 1
  · rw [if_pos hw]; exact ⟨_, rfl⟩
  · rw [if_neg hw]
    rcases hu with hu | ⟨hu1, hu2, hu3⟩
    · exact absurd hu hw
    · unfold Interp.interpFunc
      rw [if_neg (by simpa using hu2), if_neg hu1]
      have hib : ib = h.rows := by
        have hpos : h.rows ≠ 0 := by rcases hr with h | h <;> omega
        rcases e3 h.rows (by
          intro k hk
          rcases List.mem_cons.1 hk with rfl | hk
          · exact .inr rfl
          · exact hu3 k hk) (by simp) with h | h
        · exact h
        · exact absurd h hpos
      apply reshape_ok
      simp [size, hs, hib]

theorem map2_ok {α β γ : Type} {B : Nat} {a : Nd α} {c : Nd β} {x : Nat → α} {y : Nat → β} (f : α → β → γ) (ha : Rel B a x)
    (hc : Rel B c y) : ∃ r, map2 f a c = .ok r := by
  obtain ⟨r, h, _⟩ := rel_map2 f ha hc; exact ⟨r, h⟩

theorem truth_single {a : Nd Bool} (h : ∀ d ∈ a.shape, d = 1) : ∃ v, a.truth = .ok v := by
  have : a.size = 1 := by
    unfold size
    revert h
    generalize a.shape = s
    intro h
    induction s with
    | nil => rfl
    | cons d s ih =>
      rw [List.foldr_cons, ih fun k hk => h k (by simp [hk]), h d (by simp)]
  exact ⟨_, by unfold truth; rw [if_pos this]⟩

/-- Broadcast shapes of rank-3 with rank-2 arrays. -/
theorem shape_map2_32 {α β γ : Type} {B p q m : Nat} {a : Nd α} {c : Nd β} {r : Nd γ} {f : α → β → γ} (h : map2 f a c = .ok r)
    (ha : a.shape = [p, q, 1]) (hc : c.shape = [m, 1]) (hq : Dim B q) (hm : Dim B m) :
    r.shape = [p, if q = 1 then m else q, 1] := by
  have hb : bdim q m = some (if q = 1 then m else q) := by
    unfold bdim
    rcases hq with rfl | rfl <;> rcases hm with rfl | rfl <;> (repeat' split) <;> simp_all
  have h1 : bdim 1 1 = some 1 := rfl
  have hs : bshape a.shape c.shape = some [p, if q = 1 then m else q, 1] := by simp [bshape, ha, hc, bdims, hb, h1]
  unfold map2 at h
  rw [hs] at h
  cases h
  rfl

theorem shape_map2_22 {α β γ : Type} {B q m : Nat} {a : Nd α} {c : Nd β} {r : Nd γ} {f : α → β → γ} (h : map2 f a c = .ok r)
    (ha : a.shape = [q, 1]) (hc : c.shape = [m, 1]) (hq : Dim B q) (hm : Dim B m) :
    r.shape = [if q = 1 then m else q, 1] := by
  have hb : bdim q m = some (if q = 1 then m else q) := by
    unfold bdim
    rcases hq with rfl | rfl <;> rcases hm with rfl | rfl <;> (repeat' split) <;> simp_all
  have h1 : bdim 1 1 = some 1 := rfl
  have hs : bshape a.shape c.shape = some [if q = 1 then m else q, 1] := by simp [bshape, ha, hc, bdims, hb, h1]
  unfold map2 at h
  rw [hs] at h
  cases h
  rfl

theorem shape_map2_33 {α β γ : Type} {B p q p' q' : Nat} {a : Nd α} {c : Nd β} {r : Nd γ} {f : α → β → γ}
    (h : map2 f a c = .ok r) (ha : a.shape = [p, q, 1]) (hc : c.shape = [p', q', 1]) (hp : Dim B p) (hq : Dim B q)
    (hp' : Dim B p') (hq' : Dim B q') :
    r.shape = [if p = 1 then p' else p, if q = 1 then q' else q, 1] := by
  have hb : ∀ q m, Dim B q → Dim B m → bdim q m = some (if q = 1 then m else q) := by
    intro q m hq hm
    unfold bdim
    rcases hq with rfl | rfl <;> rcases hm with rfl | rfl <;> (repeat' split) <;> simp_all
  have h1 : bdim 1 1 = some 1 := rfl
  have hs : bshape a.shape c.shape = some [if p = 1 then p' else p, if q = 1 then q' else q, 1] := by
    simp [bshape, ha, hc, bdims, hb _ _ hp hp', hb _ _ hq hq', h1]
  unfold map2 at h
  rw [hs] at h
  cases h
  rfl

theorem dim_rows {B : Nat} {a : Nd ℝ} (h : Scalar B a) : Dim B (rows a) ∧ a.shape = [rows a, 1] := by
  rcases h with h | h
  · exact ⟨by simp [rows, h, Dim], by simp [rows, h]⟩
  · exact ⟨by simp [rows, h, Dim], by simp [rows, h]⟩

theorem stateRows_dim {B : Nat} {r : Resistance} {soc : Nd ℝ} (hsoc : Scalar B soc) {temp : Option (Nd ℝ)}
    (ht : ∀ t ∈ temp, Scalar B t) : Dim B (stateRows r soc temp) := by
  unfold stateRows
  cases temp with
  | none => exact (dim_rows hsoc).1
  | some t =>
    simp only
    have h1 := (dim_rows hsoc).1
    have h2 := (dim_rows (ht t rfl)).1
    split
    · exact h1
    · split <;> assumption

theorem stateRows_soc {r : Resistance} {soc : Nd ℝ} {temp : Option (Nd ℝ)} (htr : ∀ t ∈ temp, rows t = 1 ∨ rows t = rows soc) :
    stateRows r soc temp = rows soc := by
  unfold stateRows
  cases temp with
  | none => rfl
  | some t =>
    simp only
    split
    · rfl
    · split
      · rename_i h; rcases htr t rfl with h' | h' <;> omega
      · rfl

/-- The condition on the shapes is met when elements are batched alike and a batched temperature goes with a batched SOC. -/
theorem sameShape_of {rcs : List Ecm.RC} {soc : Nd ℝ} {temp : Option (Nd ℝ)} (hP : ∃ P, ∀ rc ∈ rcs, rcRows rc = P)
    (htr : ∀ t ∈ temp, rows t = 1 ∨ rows t = rows soc) :
    ∃ P Q, ∀ rc ∈ rcs, rcRows rc = P ∧ stateRows rc.r soc temp = Q := by
  obtain ⟨P, hP⟩ := hP
  exact ⟨P, rows soc, fun rc hrc => ⟨hP rc hrc, stateRows_soc htr⟩⟩

theorem resistance_ok {B : Nat} (hB : 0 < B) {r : Resistance} (hr : Res B r) {soc : Nd ℝ} (hsoc : Scalar B soc)
    {temp : Option (Nd ℝ)} (ht : ∀ t ∈ temp, Scalar B t) (hu : UsableRes r temp) :
    ∃ y, r.getValue soc temp = .ok y ∧ y.shape = [r.interp.rows, stateRows r soc temp, 1] := by
  classical
  obtain ⟨rs, ls⟩ := rel_scalar hsoc
  obtain ⟨dr, _⟩ := dim_rows hr.2
  obtain ⟨ref, h1⟩ := getValue_ok hB hr.1 (others := [rows r.tdf]) (by simpa using dr) hu.1 rs ls
  obtain ⟨g1, g2⟩ := getValue_rel hB hr.1 rs ls h1
  unfold Resistance.getValue
  rw [h1]
  cases temp with
  | none => exact ⟨ref, rfl, g2⟩
  | some a =>
    have hsing : r.tdf.shape = [1, 1] := hu.2 rfl
    have hv : truth (r.tdf.map fun g => decide (g = 0)) = .ok (decide (r.tdf.get [0, 0] = 0)) := by
      simp [truth, size, Nd.map, hsing]
    simp only [bind, Except.bind, hv]
    by_cases h0 : r.tdf.get [0, 0] = 0
    · refine ⟨ref, by simp only [h0, decide_true, if_true]; rfl, ?_⟩
      simp only [stateRows, h0, if_true]
      exact g2
    · obtain ⟨rt, lt⟩ := rel_scalar (ht a rfl)
      obtain ⟨rtd, ltd⟩ := rel_scalar hr.2
      obtain ⟨e, he⟩ := map2_ok (· * ·) (rel_map (fun g => -g) rtd) (rel_map (· - r.refTemp) rt)
      obtain ⟨re, le⟩ := rel_map2' he (rel_map (fun g => -g) rtd) (rel_map (· - r.refTemp) rt)
      obtain ⟨y, hy⟩ := map2_ok (· * ·) g1 (rel_map Real.exp re)
      have : mul (r.tdf.map fun g => -g) (a.map (· - r.refTemp)) = .ok e := he
      simp only [h0, decide_false, Bool.false_eq_true, if_false, this]
      refine ⟨y, hy, ?_⟩
      obtain ⟨da, sa⟩ := dim_rows (ht a rfl)
      have se := shape_map2_22 (B := B) he (q := 1) (m := rows a) hsing sa (dim_one B) da
      rw [if_pos rfl] at se
      have sy := shape_map2_32 (B := B) hy g2 (c := e.map Real.exp) se (dim_rows hsoc).1 da
      rw [sy]
      simp only [stateRows, h0, if_false]

theorem timeConstant_ok {B : Nat} (hB : 0 < B) {rc : Ecm.RC} (hr : Res B rc.r) (hc : Curve B rc.c) {soc : Nd ℝ}
    (hsoc : Scalar B soc) {temp : Option (Nd ℝ)} (ht : ∀ t ∈ temp, Scalar B t) (hu : UsableRes rc.r temp)
    (hu' : Usable rc.c []) :
    ∃ y, rc.timeConstant soc temp = .ok y ∧ y.shape = [rcRows rc, stateRows rc.r soc temp, 1] := by
  obtain ⟨rs, ls⟩ := rel_scalar hsoc
  obtain ⟨r, h1, s1⟩ := resistance_ok hB hr hsoc ht hu
  obtain ⟨c, h2⟩ := getValue_ok hB hc (others := []) (by simp) hu' rs ls
  obtain ⟨g1, g2⟩ := resistance_rel hB hr rs ls (tempRel ht) h1
  obtain ⟨k1, k2⟩ := getValue_rel hB hc rs ls h2
  obtain ⟨y, hy⟩ := map2_ok (· * ·) g1 k1
  have sy := shape_map2_33 (B := B) hy s1 k2 (curve_dim hr.1).1 (stateRows_dim hsoc ht) (curve_dim hc).1 (dim_rows hsoc).1
  refine ⟨y, ?_, ?_⟩
  · unfold RC.timeConstant
    rw [h1, h2]
    exact hy
  · rw [sy]
    have : (if stateRows rc.r soc temp = 1 then rows soc else stateRows rc.r soc temp) = stateRows rc.r soc temp := by
      split
      · rename_i h
        rw [h]
        unfold stateRows at h
        cases temp with
        | none => exact h
        | some t =>
          simp only at h
          split at h
          · exact h
          · split at h
            · assumption
            · exact h
      · rfl
    rw [this]
    unfold rcRows
    rfl

theorem mapM_ok_of {α β : Type} {f : α → Except Err β} {P : β → Prop} : ∀ {l : List α}, (∀ a ∈ l, ∃ y, f a = .ok y ∧ P y) →
    ∃ r, l.mapM f = .ok r ∧ ∀ y ∈ r, P y := by
  intro l
  induction l with
  | nil => intro _; exact ⟨[], rfl, by simp⟩
  | cons a l ih =>
    intro h
    obtain ⟨y, h1, h2⟩ := h a (by simp)
    obtain ⟨r, h3, h4⟩ := ih fun b hb => h b (by simp [hb])
    refine ⟨y :: r, by rw [List.mapM_cons, h1, h3]; rfl, ?_⟩
    intro z hz
    rcases List.mem_cons.1 hz with rfl | hz
    · exact h2
    · exact h4 z hz

theorem stack_ok {l : List (Nd ℝ)} {s : List Nat} (h : ∀ y ∈ l, y.shape = s) (hne : l ≠ []) :
    ∃ r, stack l = .ok r ∧ r.shape = l.length :: s := by
  cases l with
  | nil => exact absurd rfl hne
  | cons a l =>
    have h0 := h a (by simp)
    rw [stack, if_pos (fun b hb => by rw [h b (by simp [hb]), h0])]
    exact ⟨_, rfl, by simp [h0]⟩

theorem flattenTau_ok {B n p q : Nat} (hn : 0 < n) {s : Nd ℝ} (_ : Dim B p) (_ : Dim B q) (hs : s.shape = [n, p, q, 1]) :
    ∃ y, flattenTau s = .ok y := by
  unfold flattenTau
  rw [if_neg (by simp [hs])]
  have key : ∃ t, diagTau s = .ok t ∧ ∃ m, t.shape.getD 0 0 = n ∧ t.size = n * m := by
    by_cases hpq : p = q
    · subst hpq
      refine ⟨_, by simp [diagTau, hs, diagonal12, Except.map]; rfl, p, ?_⟩
      simp [swapaxes, swapAt, size]
    · exact ⟨s, by simp [diagTau, hs, hpq], p * q, by simp [hs], by simp [size, hs]⟩
  obtain ⟨t, ht, m, h1, h2⟩ := key
  obtain ⟨y, hy⟩ := reshape_ok (a := t) (s := [t.shape.getD 0 0, t.size / t.shape.getD 0 0]) (by
    rw [h1, h2, Nat.mul_div_cancel_left m hn]; simp)
  refine ⟨y.swapaxes 0 1, ?_⟩
  simp only [bind_ok, pure_ok]
  exact ⟨t, ht, y, hy, rfl⟩

theorem wide_map2_ok {B w n m : Nat} {a c : Nd ℝ} {x y : Nat → Nat → ℝ} (f : ℝ → ℝ → ℝ) (ha : Wide B w n a x)
    (hc : Wide B w m c y) : ∃ r, map2 f a c = .ok r := by
  obtain ⟨h1, N, h2, h3, h4⟩ := ha
  obtain ⟨k1, M, k2, k3, k4⟩ := hc
  obtain ⟨K, e1, e2, e3, e4⟩ := bdim_dim h2 k2
  have e5 : bdim n m = some (if n = 1 then m else n) := by
    unfold bdim
    by_cases hn : n = 1
    · subst hn
      by_cases hm : m = 1
      · simp [hm]
      · simp [Ne.symm hm]
    · have hnw : n = w := h1.resolve_right hn
      by_cases hm : m = 1
      · subst hm; simp [hn]
      · have : m = w := k1.resolve_right hm
        simp [hnw, this]
  have hsh : bshape a.shape c.shape = some [K, if n = 1 then m else n] := by
    simp [bshape, h3, k3, bdims, e1, e5]
  unfold map2
  rw [hsh]
  exact ⟨_, rfl⟩

theorem updateRC_ok {B : Nat} (hB : 0 < B) {dt cur slope soc irc : Nd ℝ} {xd xc xs : Nat → ℝ} {rcs : List Ecm.RC}
    {temp : Option (Nd ℝ)} (hrcs : ∀ rc ∈ rcs, Res B rc.r ∧ Curve B rc.c)
    (r1 : Rel B dt xd) (l1 : dt.shape.length = 2) (r2 : Rel B cur xc) (l2 : cur.shape.length = 2)
    (r3 : Rel B slope xs) (l3 : slope.shape.length = 2) (hsoc : Scalar B soc)
    (ht : ∀ t ∈ temp, Scalar B t) {xi : Nat → Nat → ℝ} (hi : Wide B rcs.length rcs.length irc xi)
    (hu : ∀ rc ∈ rcs, UsableRes rc.r temp ∧ Usable rc.c [])
    (hP : ∃ P Q, ∀ rc ∈ rcs, rcRows rc = P ∧ stateRows rc.r soc temp = Q) : ∃ y, updateRC dt cur slope soc irc temp rcs = .ok y := by
  unfold updateRC
  have hw : irc.shape.getD 1 0 = rcs.length := by obtain ⟨_, N, _, hs, _⟩ := hi; simp [hs]
  rw [hw]
  by_cases h0 : rcs.length = 0
  · rw [if_pos h0]; exact ⟨_, rfl⟩
  · rw [if_neg h0]
    obtain ⟨P, Q, hP⟩ := hP
    obtain ⟨taus, a1, hall⟩ := mapM_ok_of (f := fun rc : Ecm.RC => rc.timeConstant soc temp)
      (P := fun y => y.shape = [P, Q, 1]) (l := rcs) (by
        intro rc hrc
        obtain ⟨y, e1, e2⟩ := timeConstant_ok hB (hrcs rc hrc).1 (hrcs rc hrc).2 hsoc ht (hu rc hrc).1 (hu rc hrc).2
        exact ⟨y, e1, by rw [e2, (hP rc hrc).1, (hP rc hrc).2]⟩)
    have hf := mapM_ok a1
    have hlen : taus.length = rcs.length := hf.length_eq.symm
    have hne : taus ≠ [] := by intro he; rw [he] at hlen; exact h0 hlen.symm
    obtain ⟨st, a2, hst⟩ := stack_ok hall hne
    have hPd : Dim B P ∧ Dim B Q := by
      obtain ⟨rc, hrc⟩ : ∃ rc, rc ∈ rcs := by
        cases rcs with
        | nil => exact absurd rfl h0
        | cons rc _ => exact ⟨rc, by simp⟩
      rw [← (hP rc hrc).1, ← (hP rc hrc).2]
      refine ⟨?_, stateRows_dim hsoc ht⟩
      unfold rcRows
      split
      · exact (curve_dim (hrcs rc hrc).2).1
      · exact (curve_dim (hrcs rc hrc).1.1).1
    obtain ⟨tau, a3⟩ := flattenTau_ok (B := B) (by omega) hPd.1 hPd.2 hst
    obtain ⟨rs, ls⟩ := rel_scalar hsoc
    have hstr := stack_rel (B := B) (l := taus) (s := st) (x := fun j b => match rcs[j]? with
        | some rc => resAt rc.r b (at2 soc b) ((temp.map fun t => at2 t b)) * curveAt rc.c b (at2 soc b)
        | none => 0) hne (by
      intro j hj
      have hj' : j < rcs.length := by omega
      have := hf.get hj' hj
      have hm : rcs[j] ∈ rcs := List.getElem_mem hj'
      obtain ⟨z1, z2⟩ := timeConstant_rel hB (hrcs _ hm).1 (hrcs _ hm).2 rs ls (tempRel ht) this
      refine ⟨z1.congr fun b _ => ?_, z2⟩
      simp [List.getElem?_eq_getElem hj']) a2
    obtain ⟨p, q', hp, hq, hs, hv⟩ := hstr
    rw [hlen] at hs hv
    have wt := flattenTau_wide (by omega) hp hq hs hv a3
    have nn : ∀ n : Nat, (if n = 1 then n else n) = n := fun n => by split <;> rfl
    obtain ⟨q, a4⟩ := wide_map2_ok (· / ·) (wide_map (fun x => -x) (wide_of_rel r1 l1)) wt
    have wq := wide_map2 a4 (wide_map (fun x => -x) (wide_of_rel r1 l1)) wt
    rw [if_pos rfl] at wq
    have wf := wide_map Real.exp wq
    obtain ⟨i1, a5⟩ := wide_map2_ok (· * ·) hi wf
    have wi1 := wide_map2 a5 hi wf
    rw [nn] at wi1
    obtain ⟨stau, a6⟩ := wide_map2_ok (· * ·) (wide_of_rel r3 l3) wt
    have wst := wide_map2 a6 (wide_of_rel r3 l3) wt
    rw [if_pos rfl] at wst
    obtain ⟨dr, a7⟩ := wide_map2_ok (· - ·) (wide_of_rel r2 l2) wst
    have wdr := wide_map2 a7 (wide_of_rel r2 l2) wst
    rw [if_pos rfl] at wdr
    obtain ⟨fd, a8⟩ := wide_map2_ok (· * ·) (wide_map (fun x => 1 - x) wf) wdr
    have wfd := wide_map2 a8 (wide_map (fun x => 1 - x) wf) wdr
    rw [nn] at wfd
    obtain ⟨i2, a9⟩ := wide_map2_ok (· + ·) wi1 wfd
    have wi2 := wide_map2 a9 wi1 wfd
    rw [nn] at wi2
    obtain ⟨sd, a10⟩ := wide_map2_ok (· * ·) (wide_of_rel r3 l3) (wide_of_rel r1 l1 (w := rcs.length))
    have wsd := wide_map2 a10 (wide_of_rel r3 l3) (wide_of_rel r1 l1 (w := rcs.length))
    rw [if_pos rfl] at wsd
    obtain ⟨y, a11⟩ := wide_map2_ok (· + ·) wi2 wsd
    refine ⟨y, ?_⟩
    simp only [bind_ok]
    exact ⟨taus, a1, st, a2, tau, a3, q, a4, i1, a5, stau, a6, dr, a7, fd, a8, i2, a9, sd, a10, a11⟩

/-- Arrays all of whose axes have length 1. -/
def AllOne {α : Type} (a : Nd α) : Prop := ∀ d ∈ a.shape, d = 1

theorem allOne_map2 {α β γ : Type} {a : Nd α} {c : Nd β} {r : Nd γ} {f : α → β → γ} (h : map2 f a c = .ok r)
    (ha : AllOne a) (hc : AllOne c) : AllOne r := by
  obtain ⟨s, g1, g2, _⟩ := bdims_rel (B := 1) (s := a.shape.reverse) (t := c.shape.reverse)
    (fun d hd => .inl (ha d (by simpa using hd))) (fun d hd => .inl (hc d (by simpa using hd)))
  unfold map2 bshape at h
  rw [g1] at h
  cases h
  intro d hd
  simp only [List.mem_reverse] at hd
  rcases g2 d hd with h | h <;> exact h

theorem hystSolver_ok {B : Nat} (hB : 0 < B) {h0 M kappa d i0 alpha : Nd ℝ} {xh xM xk xd xi xa : Nat → ℝ} (r1 : Rel B h0 xh)
    (r2 : Rel B M xM) (r3 : Rel B kappa xk) (r4 : Rel B d xd) (r5 : Rel B i0 xi) (r6 : Rel B alpha xa)
    (o4 : AllOne d) (o5 : AllOne i0) (o6 : AllOne alpha) (hpos : ∀ b < B, 0 ≤ xi b * (xi b + xa b * xd b)) :
    ∃ y, hystSolver h0 M kappa d i0 alpha = .ok y := by
  classical
  obtain ⟨ad, a1⟩ := map2_ok (· * ·) r6 r4
  obtain ⟨b1, _⟩ := rel_map2' a1 r6 r4
  have p1 := allOne_map2 a1 o6 o4
  obtain ⟨en, a2⟩ := map2_ok (· + ·) r5 b1
  obtain ⟨b2, _⟩ := rel_map2' a2 r5 b1
  have p2 := allOne_map2 a2 o5 p1
  obtain ⟨pr, a3⟩ := map2_ok (· * ·) r5 b2
  obtain ⟨b3, _⟩ := rel_map2' a3 r5 b2
  have p3 := allOne_map2 a3 o5 p2
  obtain ⟨v, a4⟩ := truth_single (a := pr.map fun x => decide (x ≥ 0)) p3
  have hv : v = true := by
    have := (truth_rel (rel_map (fun x => decide (x ≥ 0)) b3) a4).2 0 hB
    rw [← this]
    simpa using hpos 0 hB
  subst hv
  obtain ⟨e1, a5⟩ := map2_ok (· * ·) r3 r4
  obtain ⟨b5, _⟩ := rel_map2' a5 r3 r4
  obtain ⟨hd, a6⟩ := map2_ok (· * ·) (rel_map (0.5 * ·) r6) r4
  obtain ⟨b6, _⟩ := rel_map2' a6 (rel_map (0.5 * ·) r6) r4
  obtain ⟨mid, a7⟩ := map2_ok (· + ·) r5 b6
  obtain ⟨b7, _⟩ := rel_map2' a7 r5 b6
  obtain ⟨e2, a8⟩ := map2_ok (· * ·) b5 b7
  obtain ⟨b8, _⟩ := rel_map2' a8 b5 b7
  obtain ⟨cmp, a10⟩ := map2_ok (fun x y => decide (x > y)) r5 (rel_map (fun x => -x) b1)
  have p10 := allOne_map2 a10 o5 (c := ad.map fun x => -x) p1
  obtain ⟨pos, a11⟩ := truth_single p10
  have key : ∃ z, Rel B (if pos then e2.map fun x => -x else e2) z := by
    cases pos with
    | true => exact ⟨_, rel_map (fun x => -x) b8⟩
    | false => exact ⟨_, b8⟩
  obtain ⟨z, key⟩ := key
  obtain ⟨h1, a12⟩ := map2_ok (· * ·) (rel_map Real.exp key) r1
  obtain ⟨b12, _⟩ := rel_map2' a12 (rel_map Real.exp key) r1
  obtain ⟨h2, a13⟩ := map2_ok (· * ·) (rel_map (fun x => 1 - x) (rel_map Real.exp key)) r2
  obtain ⟨b13, _⟩ := rel_map2' a13 (rel_map (fun x => 1 - x) (rel_map Real.exp key)) r2
  obtain ⟨y, a14⟩ := map2_ok (· + ·) b12 b13
  refine ⟨y, ?_⟩
  unfold hystSolver
  simp only [bind_ok]
  refine ⟨ad, a1, en, a2, pr, a3, true, a4, ?_⟩
  simp only [Bool.not_true, Bool.false_eq_true, if_false, bind_ok]
  exact ⟨e1, a5, hd, a6, mid, a7, e2, a8, ad, a1, cmp, a10, pos, a11, h1, a12, h2, a13, a14⟩

theorem flattenHyst_ok {B : Nat} {h : Nd ℝ} {x : Nat → ℝ} (hr : Rel B h x) (hl : h.shape.length = 3) :
    ∃ y, flattenHyst h = .ok y := by
  obtain ⟨p, q, hp, hq, hs, hv⟩ := hr.shape3 hl
  unfold flattenHyst
  rw [if_neg (by omega)]
  have : ∃ h', diag01 h = .ok h' := by
    unfold diag01
    split
    · unfold diagonal01; rw [hs]; exact ⟨_, rfl⟩
    · exact ⟨_, rfl⟩
  obtain ⟨h', hd⟩ := this
  rw [hd]
  exact reshape_ok (by simp)

theorem updateHyst_ok {B : Nat} (hB : 0 < B) {beh : Behavior} {dt ck ck1 slope eff qt soc hyst gamma : Nd ℝ} {par : Interp}
    {xd xk xk1 xs xe xq xh xg : Nat → ℝ} (hpar : Curve B par) (hu : Usable par [rows gamma])
    (r1 : Rel B dt xd) (o1 : AllOne dt) (r2 : Rel B ck xk) (l2 : ck.shape.length = 2) (o2 : AllOne ck) (r3 : Rel B ck1 xk1)
    (o3 : AllOne ck1) (r4 : Rel B slope xs) (o4 : AllOne slope) (r5 : Rel B eff xe) (l5 : eff.shape.length = 2)
    (r6 : Rel B qt xq) (l6 : qt.shape.length = 2) (hsoc : Scalar B soc) (r8 : Rel B hyst xh) (l8 : hyst.shape.length = 2)
    (r9 : Rel B gamma xg) (l9 : gamma.shape.length = 2) (dg : Dim B (rows gamma))
    (l1 : dt.shape.length = 2) (l4 : slope.shape.length = 2)
    (hsame : ∀ b < B, (0 ≤ xk b * xk1 b ∨ beh = .constant) → 0 ≤ xk b * (xk b + xs b * xd b))
    (hflip : ∀ b < B, ¬ (0 ≤ xk b * xk1 b) → beh = .linear → xs b ≠ 0) :
    ∃ y, updateHyst beh dt ck ck1 slope eff qt soc hyst par gamma = .ok y := by
  classical
  obtain ⟨rs, ls⟩ := rel_scalar hsoc
  obtain ⟨m0, a1⟩ := getValue_ok hB hpar (others := [rows gamma]) (by simpa using dg) hu rs ls
  obtain ⟨g1, g2⟩ := getValue_rel hB hpar rs ls a1
  obtain ⟨m1, a2⟩ := map2_ok (· * ·) g1 r2
  obtain ⟨b2, c2⟩ := rel_map2' a2 g1 r2
  have c2' : m1.shape.length = 3 := by rw [c2, g2, l2]; rfl
  have hM : ∃ M z, normaliseM m1 ck = .ok M ∧ Rel B M z ∧ M.shape.length = 3 := by
    unfold normaliseM
    split
    · exact ⟨m1, _, rfl, b2, c2'⟩
    · obtain ⟨M, a3⟩ := map2_ok (· / ·) b2 (rel_map abs r2)
      obtain ⟨b3, c3⟩ := rel_map2' a3 b2 (rel_map abs r2)
      exact ⟨M, _, a3, b3, by rw [c3, c2']; show max 3 ck.shape.length = 3; rw [l2]; rfl⟩
  obtain ⟨M, z, a3, rM, lM⟩ := hM
  obtain ⟨eg, a4⟩ := map2_ok (· * ·) r5 r9
  obtain ⟨b4, c4⟩ := rel_map2' a4 r5 r9
  obtain ⟨kap, a5⟩ := map2_ok (· / ·) b4 r6
  obtain ⟨b5, c5⟩ := rel_map2' a5 b4 r6
  have lk : kap.shape.length = 2 := by rw [c5, c4, l5, l9, l6]; rfl
  obtain ⟨pr, a6⟩ := map2_ok (· * ·) r2 r3
  obtain ⟨b6, _⟩ := rel_map2' a6 r2 r3
  obtain ⟨same, a7⟩ := truth_single (a := pr.map fun x => decide (x ≥ 0))
    (show AllOne pr from allOne_map2 a6 o2 o3)
  have b7 := (truth_rel (rel_map (fun x => decide (x ≥ 0)) b6) a7).2
  have hh : ∃ h z, hystEvolve beh same hyst M kap dt ck slope = .ok h ∧ Rel B h z ∧ h.shape.length = 3 := by
    unfold hystEvolve
    split
    · rename_i hc
      have hp : ∀ b < B, 0 ≤ xk b * (xk b + xs b * xd b) := by
        intro b hb
        apply hsame b hb
        rcases hc with hc | hc
        · left
          have := b7 b hb
          rw [hc] at this
          simpa using this
        · exact .inr hc
      obtain ⟨h, e⟩ := hystSolver_ok hB r8 rM b5 r1 r2 r4 o1 o2 o4 hp
      obtain ⟨s1, s2, s3⟩ := hystSolver_rel r8 rM b5 r1 r2 r4 e
      exact ⟨h, _, e, s1, by omega⟩
    · rename_i hc
      have hns : ∀ b < B, ¬ (0 ≤ xk b * xk1 b) := by
        intro b hb hneg
        apply hc
        left
        rw [← b7 b hb]
        simpa using hneg
      have hlin : beh = .linear := by
        cases beh with
        | constant => exact absurd (.inr rfl) hc
        | linear => rfl
      obtain ⟨phi, d1⟩ := map2_ok (· / ·) (rel_map (fun x => -x) r2) r4
      obtain ⟨e1, f1⟩ := rel_map2' d1 (rel_map (fun x => -x) r2) r4
      replace f1 : phi.shape.length = max ck.shape.length slope.shape.length := f1
      have q1 := allOne_map2 d1 (a := ck.map fun x => -x) o2 o4
      obtain ⟨mid, d2⟩ := hystSolver_ok hB r8 rM b5 e1 r2 r4 q1 o2 o4 (by
        intro b hb
        have := hflip b hb (hns b hb) hlin
        have : xs b * (-xk b / xs b) = -xk b := by field_simp
        rw [this]; simp)
      obtain ⟨s1, s2, s3⟩ := hystSolver_rel r8 rM b5 e1 r2 r4 d2
      obtain ⟨rest, d3⟩ := map2_ok (· - ·) r1 e1
      obtain ⟨e3, f3⟩ := rel_map2' d3 r1 e1
      have q3 := allOne_map2 d3 o1 q1
      obtain ⟨h, d4⟩ := hystSolver_ok hB s1 (rel_map (fun x => -x) rM) b5 e3 (rel_num B (0 : ℝ)) r4 q3
        (by intro d hd; simp [num] at hd) o4 (by intro b hb; simp)
      obtain ⟨s4, s5, s6⟩ := hystSolver_rel s1 (rel_map (fun x => -x) rM) b5 e3 (rel_num B (0 : ℝ)) r4 d4
      refine ⟨h, _, ?_, s4, ?_⟩
      · simp only [bind_ok]
        exact ⟨phi, d1, mid, d2, rest, d3, d4⟩
      · have : (num (0 : ℝ)).shape.length = 0 := rfl
        have : (M.map fun x => -x).shape.length = 3 := lM
        omega
  obtain ⟨h, _, a8, rh, lh⟩ := hh
  obtain ⟨y, a9⟩ := flattenHyst_ok rh lh
  refine ⟨y, ?_⟩
  unfold updateHyst
  simp only [bind_ok]
  exact ⟨m0, a1, m1, a2, M, a3, eg, a4, kap, a5, pr, a6, same, a7, h, a8, a9⟩

theorem enforce0_ok {B : Nat} {a : Nd ℝ} {x : Nat → ℝ} (hr : Rel B a x) (hl : a.shape.length = 2) :
    ∃ y, enforce0 a = .ok y := by
  obtain ⟨n, hn, hs, hv⟩ := hr.shape2 hl
  unfold enforce0
  rw [if_neg, reshape, if_pos]
  · exact ⟨_, rfl⟩
  · simp
  · rw [hs]
    by_cases h : n = 1 <;> simp [h]

/-- Under `CanUpdate` the update does not raise. -/
theorem update_ok {B : Nat} (hB : 0 < B) {beh : Behavior} {prev new : Input} {st : State} {a : ASOH} (ha : Pars B a)
    (hp : Ins B prev) (hn : Ins B new) (hs : Sts B a st) (hc : CanUpdate beh prev new st a) :
    ∃ st', update beh prev new st a = .ok st' := by
  classical
  obtain ⟨t1, u1⟩ := rel_scalar hp.time
  obtain ⟨t2, u2⟩ := rel_scalar hn.time
  obtain ⟨t3, u3⟩ := rel_scalar hp.current
  obtain ⟨t4, u4⟩ := rel_scalar hn.current
  obtain ⟨t5, u5⟩ := rel_scalar ha.ce
  obtain ⟨t6, u6⟩ := rel_scalar ha.qt
  obtain ⟨t7, u7⟩ := rel_scalar ha.gamma
  obtain ⟨t8, u8⟩ := rel_scalar hs.soc
  obtain ⟨t9, u9⟩ := rel_scalar hs.hyst
  have single : ∀ {x : Nd ℝ}, Single x → AllOne x := fun h d hd => by
    rw [show _ = [1, 1] from h] at hd; simpa using hd
  have hat : ∀ {x : Nd ℝ} (b : Nat), Single x → at2 x b = x.get [0, 0] := fun b h => by
    have : _ = [1, 1] := h
    simp [at2, rows, this]
  obtain ⟨dt, a1⟩ := map2_ok (· - ·) t2 t1
  obtain ⟨b1, c1⟩ := rel_map2' a1 t2 t1
  have o1 := allOne_map2 a1 (single hc.time.2) (single hc.time.1)
  have l1 : dt.shape.length = 2 := by rw [c1, u1, u2]; rfl
  have hslope : ∃ s, currentSlope beh prev new dt = .ok s ∧ AllOne s := by
    unfold currentSlope
    cases beh with
    | constant => exact ⟨_, rfl, by intro d hd; simp [num2] at hd; exact hd⟩
    | linear =>
      obtain ⟨d, e1⟩ := map2_ok (· - ·) t4 t3
      obtain ⟨f1, _⟩ := rel_map2' e1 t4 t3
      obtain ⟨s, e2⟩ := map2_ok (· / ·) f1 b1
      refine ⟨s, ?_, allOne_map2 e2 (allOne_map2 e1 (single hc.current.2) (single hc.current.1)) o1⟩
      simp only [bind_ok]
      exact ⟨d, e1, e2⟩
  obtain ⟨slp, a2, o2⟩ := hslope
  obtain ⟨b2, c2⟩ := slope_rel hp hn a1 a2
  obtain ⟨neg, a3⟩ := truth_single (a := prev.current.map fun x => decide (x < 0)) (single hc.current.1)
  have heff : ∃ z, Rel B (if neg then num2 1 else a.ce) z ∧ (if neg then num2 1 else a.ce).shape.length = 2 := by
    cases neg with
    | true => exact ⟨_, rel_num2 B 1, rfl⟩
    | false => exact ⟨_, t5, u5⟩
  obtain ⟨ze, reff, leff⟩ := heff
  obtain ⟨sd, a4⟩ := map2_ok (· * ·) b2 b1
  obtain ⟨b4, c4⟩ := rel_map2' a4 b2 b1
  obtain ⟨cd, a5⟩ := map2_ok (· + ·) t3 (rel_map (· / 2) b4)
  obtain ⟨b5, c5⟩ := rel_map2' a5 t3 (rel_map (· / 2) b4)
  obtain ⟨ch, a6⟩ := map2_ok (· * ·) b1 b5
  obtain ⟨b6, c6⟩ := rel_map2' a6 b1 b5
  have rq : Rel B (capacityValue a.qt) (fun b => 3600 * at2 a.qt b) := rel_map (3600 * ·) t6
  obtain ⟨cq, a7⟩ := map2_ok (· / ·) b6 rq
  obtain ⟨b7, c7⟩ := rel_map2' a7 b6 rq
  obtain ⟨ec, a8⟩ := map2_ok (· * ·) reff b7
  obtain ⟨b8, c8⟩ := rel_map2' a8 reff b7
  obtain ⟨soc, a9⟩ := map2_ok (· + ·) t8 b8
  obtain ⟨b9, c9⟩ := rel_map2' a9 t8 b8
  have l6 : ch.shape.length = 2 := by
    replace c5 : cd.shape.length = max prev.current.shape.length sd.shape.length := c5
    rw [c6, c5, c4, l1, c2, u3]; rfl
  have l9 : soc.shape.length = 2 := by
    replace c7 : cq.shape.length = max ch.shape.length a.qt.shape.length := c7
    rw [c9, c8, c7, leff, u8, u6, l6]; rfl
  have hq : ∃ q0, updateQ0 st.q0 ch = .ok q0 := by
    unfold updateQ0
    cases hq0 : st.q0 with
    | none => exact ⟨_, rfl⟩
    | some q =>
      obtain ⟨tq, uq⟩ := rel_scalar (hs.q0 q (by rw [hq0]; rfl))
      obtain ⟨q1, d1⟩ := map2_ok (· + ·) tq b6
      obtain ⟨bq, cq'⟩ := rel_map2' d1 tq b6
      obtain ⟨q2, d2⟩ := enforce0_ok bq (by rw [cq', uq, l6]; rfl)
      refine ⟨some q2, ?_⟩
      simp only [bind_ok, pure_ok]
      exact ⟨q1, d1, q2, d2, rfl⟩
  obtain ⟨q0, a10⟩ := hq
  obtain ⟨irc, a11⟩ := updateRC_ok hB ha.rcs b1 l1 t4 u4 b2 c2 hs.soc hp.temp (wide_irc hs.irc) hc.rcs hc.sameShape
  have hdt : ∀ b, at2 new.time b - at2 prev.time b = new.time.get [0, 0] - prev.time.get [0, 0] := fun b => by
    rw [hat b hc.time.1, hat b hc.time.2]
  obtain ⟨hy, a12⟩ := updateHyst_ok hB (beh := beh) ha.hyst hc.hyst b1 o1 t3 u3 (single hc.current.1) t4 (single hc.current.2)
    b2 o2 reff leff rq u6 hs.soc t9 u9 t7 u7 (dim_rows ha.gamma).1 l1 c2
    (by
      intro b hb h
      cases beh with
      | constant =>
        show 0 ≤ at2 prev.current b * (at2 prev.current b + 0 * _)
        rw [zero_mul, add_zero]; exact mul_self_nonneg _
      | linear =>
        have hne : at2 new.time b - at2 prev.time b ≠ 0 := by rw [hdt]; exact sub_ne_zero.2 (hc.moves rfl)
        have e : slope .linear (inAt prev b) (inAt new b) * (at2 new.time b - at2 prev.time b) =
            at2 new.current b - at2 prev.current b := by
          show (at2 new.current b - at2 prev.current b) / (at2 new.time b - at2 prev.time b) * _ = _
          field_simp
        rw [e]
        rcases h with h | h
        · convert h using 2; ring
        · cases h)
    (by
      intro b hb h hl
      subst hl
      have hne : at2 new.time b - at2 prev.time b ≠ 0 := by rw [hdt]; exact sub_ne_zero.2 (hc.moves rfl)
      show (at2 new.current b - at2 prev.current b) / (at2 new.time b - at2 prev.time b) ≠ 0
      refine div_ne_zero (fun h0 => h ?_) hne
      have : at2 new.current b = at2 prev.current b := by linarith
      rw [this]; exact mul_self_nonneg _)
  obtain ⟨b12, c12⟩ := updateHyst_rel hB ha.hyst b1 t3 u3 t4 b2 reff leff rq u6 t8 u8 t9 t7 u7 (single hc.current.1) a12
  obtain ⟨soc', a14⟩ := enforce0_ok b9 l9
  obtain ⟨hy', a15⟩ := enforce0_ok b12 c12
  refine ⟨⟨soc', q0, irc, hy'⟩, ?_⟩
  unfold update
  simp only [bind_ok, pure_ok]
  exact ⟨dt, a1, slp, a2, neg, a3, sd, a4, cd, a5, ch, a6, cq, a7, ec, a8, soc, a9, q0, a10, irc, a11, hy, a12,
    soc', a14, hy', a15, rfl⟩

theorem shape_map2_23 {α β γ : Type} {B p q m : Nat} {a : Nd α} {c : Nd β} {r : Nd γ} {f : α → β → γ} (h : map2 f a c = .ok r)
    (ha : a.shape = [m, 1]) (hc : c.shape = [p, q, 1]) (hq : Dim B q) (hm : Dim B m) :
    r.shape = [p, if m = 1 then q else m, 1] := by
  have hb : bdim m q = some (if m = 1 then q else m) := by
    unfold bdim
    rcases hq with rfl | rfl <;> rcases hm with rfl | rfl <;> (repeat' split) <;> simp_all
  have h1 : bdim 1 1 = some 1 := rfl
  have hs : bshape a.shape c.shape = some [p, if m = 1 then q else m, 1] := by simp [bshape, ha, hc, bdims, hb, h1]
  unfold map2 at h
  rw [hs] at h
  cases h
  rfl

theorem ocv_ok {B : Nat} (hB : 0 < B) {o : OCV} (h1 : Curve B o.ref) (h2 : Scalar B o.refTemp) (h3 : Curve B o.ent)
    {soc : Nd ℝ} (hsoc : Scalar B soc) {temp : Option (Nd ℝ)} (ht : ∀ t ∈ temp, Scalar B t)
    (hu : Usable o.ref [rows o.refTemp]) (hu' : temp.isSome → Usable o.ent [])
    (hf : ∀ t ∈ temp, (o.ent.rows = 1 ∨ o.ent.rows = o.ref.rows) ∧
      (rows t = 1 ∨ rows t = rows soc) ∧ (rows o.refTemp = 1 ∨ rows o.refTemp = rows soc)) :
    ∃ y, o.getValue soc temp = .ok y := by
  obtain ⟨rs, ls⟩ := rel_scalar hsoc
  obtain ⟨ref, e1⟩ := getValue_ok hB h1 (others := [rows o.refTemp]) (by simpa using (dim_rows h2).1) hu rs ls
  obtain ⟨g1, g2⟩ := getValue_rel hB h1 rs ls e1
  unfold OCV.getValue
  rw [e1]
  cases temp with
  | none => exact ⟨ref, rfl⟩
  | some a =>
    obtain ⟨rt, lt⟩ := rel_scalar (ht a rfl)
    obtain ⟨rr, lr⟩ := rel_scalar h2
    obtain ⟨f1, f2, f3⟩ := hf a rfl
    obtain ⟨da, sa⟩ := dim_rows (ht a rfl)
    obtain ⟨dr, sr⟩ := dim_rows h2
    obtain ⟨d, e3⟩ := map2_ok (· - ·) rt rr
    obtain ⟨k1, k2⟩ := rel_map2' e3 rt rr
    have s3 := shape_map2_22 (B := B) e3 sa sr da dr
    obtain ⟨en, e4⟩ := getValue_ok hB h3 (others := []) (by simp) (hu' rfl) rs ls
    obtain ⟨k3, k4⟩ := getValue_rel hB h3 rs ls e4
    obtain ⟨co, e5⟩ := map2_ok (· * ·) k1 k3
    obtain ⟨k5, k6⟩ := rel_map2' e5 k1 k3
    have dd : Dim B (if rows a = 1 then rows o.refTemp else rows a) := by split <;> assumption
    have ds := (dim_rows hsoc).1
    have s5 := shape_map2_23 (B := B) e5 s3 k4 ds dd
    have hsec : (if (if rows a = 1 then rows o.refTemp else rows a) = 1 then rows soc
        else (if rows a = 1 then rows o.refTemp else rows a)) = rows soc := by
      split_ifs <;> omega
    rw [hsec] at s5
    obtain ⟨y, e6⟩ := map2_ok (· + ·) g1 k5
    have s6 := shape_map2_33 (B := B) e6 g2 s5 (curve_dim h1).1 ds (curve_dim h3).1 ds
    have hfst : (if o.ref.rows = 1 then o.ent.rows else o.ref.rows) = o.ref.rows := by
      split
      · rename_i h; rcases f1 with f | f <;> omega
      · rfl
    rw [hfst] at s6
    simp only [ite_self] at s6
    refine ⟨y, ?_⟩
    show (do
      let deltaT ← sub a o.refTemp
      let ent ← o.ent.getValue [] soc
      let corr ← mul deltaT ent
      inplace (· + ·) ref corr) = _
    simp only [bind_ok]
    refine ⟨d, e3, en, e4, co, e5, ?_⟩
    unfold inplace
    rw [e6]
    simp only
    rw [if_pos (by rw [s6]; exact g2.symm)]

theorem addRC_ok {B : Nat} (hB : 0 < B) {vt soc irc : Nd ℝ} {xv : Nat → ℝ} {rcs : List Ecm.RC}
    {temp : Option (Nd ℝ)} {xi : Nat → Nat → ℝ} (hrcs : ∀ rc ∈ rcs, Res B rc.r)
    (rv : Rel B vt xv) (hsoc : Scalar B soc) (ht : ∀ t ∈ temp, Scalar B t) (hi : Wide B rcs.length rcs.length irc xi)
    (hu : ∀ rc ∈ rcs, UsableRes rc.r temp) (htr : ∀ t ∈ temp, rows t = 1 ∨ rows t = rows soc)
    (hP : ∃ P, ∀ rc ∈ rcs, rc.r.interp.rows = P) : ∃ y, addRC vt soc irc temp rcs = .ok y := by
  unfold addRC
  obtain ⟨_, N, hN, hsi, hvi⟩ := hi
  rw [hsi]
  simp only [List.getD_cons_zero, List.getD_cons_succ]
  by_cases h0 : rcs.length = 0
  · rw [if_pos h0]; exact ⟨_, rfl⟩
  · rw [if_neg h0]
    obtain ⟨P, hP⟩ := hP
    obtain ⟨l, a1, hall⟩ := mapM_ok_of (f := fun rc : Ecm.RC => rc.r.getValue soc temp)
      (P := fun y => y.shape = [P, rows soc, 1]) (l := rcs) (by
        intro rc hrc
        obtain ⟨y, e1, e2⟩ := resistance_ok hB (hrcs rc hrc) hsoc ht (hu rc hrc)
        exact ⟨y, e1, by rw [e2, hP rc hrc, stateRows_soc htr]⟩)
    have hlen : l.length = rcs.length := (mapM_ok a1).length_eq.symm
    obtain ⟨st, a2, hst⟩ := stack_ok hall (by intro he; rw [he] at hlen; exact h0 hlen.symm)
    rw [hlen] at hst
    have hPd : Dim B P := by
      obtain ⟨rc, hrc⟩ : ∃ rc, rc ∈ rcs := by
        cases rcs with
        | nil => exact absurd rfl h0
        | cons rc _ => exact ⟨rc, by simp⟩
      rw [← hP rc hrc]
      exact (curve_dim (hrcs rc hrc).1).1
    obtain ⟨K, e1, e2, e3, e4⟩ := bdim_dim hN (dim_rows hsoc).1
    have hsw : (st.swapaxes 0 1).shape = [P, rcs.length, rows soc, 1] := by simp [swapaxes, swapAt, hst]
    have htrs : (transposeNew irc).shape = [rcs.length, N, 1] := by simp [transposeNew, hsi]
    have hsh : bshape (transposeNew irc).shape (st.swapaxes 0 1).shape = some [P, rcs.length, K, 1] := by
      rw [hsw, htrs]
      have self : ∀ n, bdim n n = some n := fun n => by simp [bdim]
      simp [bshape, bdims, e1, self]
    have a3 : ∃ dr, mul (transposeNew irc) (st.swapaxes 0 1) = .ok dr ∧ dr.shape = [P, rcs.length, K, 1] := by
      unfold mul map2
      rw [hsh]
      exact ⟨_, rfl, rfl⟩
    obtain ⟨dr, a3, s3⟩ := a3
    have a4 : ∃ sm, sumAxis1 dr = .ok sm ∧ sm.shape = [P, K, 1] := by
      unfold sumAxis1
      rw [s3]
      exact ⟨_, rfl, rfl⟩
    obtain ⟨sm, a4, s4⟩ := a4
    have rsm : Rel B sm (fun b => sm.get [clip P b, clip K b, 0]) := Rel.of3 hPd e2 s4 fun b _ => rfl
    obtain ⟨y, a5⟩ := map2_ok (· + ·) rv rsm
    refine ⟨y, ?_⟩
    simp only [bind_ok]
    exact ⟨l, a1, st, a2, dr, a3, sm, a4, a5⟩

theorem flattenVt_ok {B : Nat} {h : Nd ℝ} {x : Nat → ℝ} (hr : Rel B h x) (hl : h.shape.length = 3) :
    ∃ y, flattenVt h = .ok y := by
  obtain ⟨p, q, hp, hq, hs, hv⟩ := hr.shape3 hl
  have : ∃ h', diag01 h = .ok h' := by
    unfold diag01
    split
    · unfold diagonal01; rw [hs]; exact ⟨_, rfl⟩
    · exact ⟨_, rfl⟩
  obtain ⟨h', hd⟩ := this
  unfold flattenVt
  rw [hd]
  simp only [bind, Except.bind]
  split
  · exact reshape_ok (by simp)
  · exact ⟨_, rfl⟩

/-- Under `CanVoltage` the terminal voltage does not raise. -/
theorem voltage_ok {B : Nat} (hB : 0 < B) {new : Input} {st : State} {a : ASOH} (ha : Pars B a) (hn : Ins B new)
    (hs : Sts B a st) (hc : CanVoltage new st a) : ∃ v, voltage new st a = .ok v := by
  obtain ⟨t1, u1⟩ := rel_scalar hn.current
  obtain ⟨t2, u2⟩ := rel_scalar hs.soc
  obtain ⟨t3, u3⟩ := rel_scalar hs.hyst
  have ht := tempRel hn.temp
  have htr : ∀ t ∈ new.temp, rows t = 1 ∨ rows t = rows st.soc := fun t h => (hc.entFits t h).2.1
  obtain ⟨v1, a1⟩ := ocv_ok hB ha.ref ha.refTemp ha.ent hs.soc hn.temp hc.ocvRef hc.ocvEnt hc.entFits
  obtain ⟨b1, c1⟩ := ocv_rel hB ha.ref ha.refTemp ha.ent t2 u2 ht a1
  obtain ⟨r0, a2, s2⟩ := resistance_ok hB ha.r0 hs.soc hn.temp hc.r0
  obtain ⟨b2, c2⟩ := resistance_rel hB ha.r0 t2 u2 ht a2
  obtain ⟨ir, a3⟩ := map2_ok (· * ·) t1 b2
  obtain ⟨b3, c3⟩ := rel_map2' a3 t1 b2
  obtain ⟨v2, a4⟩ := map2_ok (· + ·) b1 b3
  obtain ⟨b4, c4⟩ := rel_map2' a4 b1 b3
  have l4 : v2.shape.length = 3 := by rw [c4, c3, c1, c2, u1]; rfl
  have h5 : ∃ v3 z, addC0 v2 st.soc st.q0 a.c0 = .ok v3 ∧ Rel B v3 z ∧ v3.shape.length = 3 := by
    unfold addC0
    cases hq : st.q0 with
    | none => exact ⟨v2, _, rfl, b4, l4⟩
    | some q =>
      obtain ⟨c, hcc, hcu⟩ := hc.c0 (by rw [hq]; rfl)
      rw [hcc]
      have hcv := ha.c0 c (by rw [hcc]; rfl)
      obtain ⟨tq, uq⟩ := rel_scalar (hs.q0 q (by rw [hq]; rfl))
      obtain ⟨cv, d1⟩ := getValue_ok hB hcv (others := []) (by simp) hcu t2 u2
      obtain ⟨e1, f1⟩ := getValue_rel hB hcv t2 u2 d1
      obtain ⟨qc, d2⟩ := map2_ok (· / ·) tq e1
      obtain ⟨e2, f2⟩ := rel_map2' d2 tq e1
      obtain ⟨v3, d3⟩ := map2_ok (· + ·) b4 e2
      obtain ⟨e3, f3⟩ := rel_map2' d3 b4 e2
      refine ⟨v3, _, ?_, e3, by rw [f3, f2, f1, uq, l4]; rfl⟩
      simp only [bind_ok]
      exact ⟨cv, d1, qc, d2, d3⟩
  obtain ⟨v3, _, a5, b5, l5⟩ := h5
  obtain ⟨v4, a6⟩ := addRC_ok hB (fun rc hrc => (ha.rcs rc hrc).1) b5 hs.soc hn.temp (wide_irc hs.irc) hc.rcs htr hc.sameBatch
  obtain ⟨b6, l6⟩ := addRC_rel hB (fun rc hrc => (ha.rcs rc hrc).1) b5 l5 t2 u2 ht (wide_irc hs.irc) a6
  obtain ⟨v5, a7⟩ := map2_ok (· + ·) b6 t3
  obtain ⟨b7, c7⟩ := rel_map2' a7 b6 t3
  have l7 : v5.shape.length = 3 := by rw [c7, l6, u3]; rfl
  obtain ⟨v6, a8⟩ := flattenVt_ok b7 l7
  obtain ⟨b8, l8⟩ := flattenVt_rel b7 l7 a8
  obtain ⟨v, a9⟩ := enforce0_ok b8 l8
  refine ⟨v, ?_⟩
  unfold voltage
  simp only [bind_ok]
  exact ⟨v1, a1, r0, a2, ir, a3, v2, a4, v3, a5, v4, a6, v5, a7, v6, a8, a9⟩

end Verif.Cell
