import Verif.Props.TheveninOde
import Mathlib.Analysis.Calculus.Deriv.MeanValue
/-!
# C152: a Thevenin cell shows more than its open-circuit voltage on charge, less on discharge, and relaxes to it at rest
-/

namespace Verif.Thevenin
open Verif Nd Spec Set Verif.Cell

/-! ## One equation -/

/-- A quantity that is never pushed up and starts at most at 0 stays there. -/
theorem stays_nonpos {α a : ℝ → ℝ} {s e : ℝ} (h : s ≤ e) (ha : ContinuousOn a (Icc s e)) {x : ℝ → ℝ} (h0 : x s ≤ 0) (hα : ∀ t ∈ Icc s e, α t ≤ 0)
    (hx : ∀ t ∈ Icc s e, HasDerivWithinAt x (α t - a t * x t) (Icc s e) t) : ∀ t ∈ Icc s e, x t ≤ 0 := by
  obtain ⟨A, -, hA⟩ := LinearOde.exists_solution (α := a) (a := fun _ => 0) h ha continuousOn_const 0
  have hd : ∀ t ∈ Icc s e, HasDerivWithinAt (fun t => Real.exp (A t) * x t) (Real.exp (A t) * α t) (Icc s e) t := fun t ht => by
    refine (((hA t ht).exp).mul (hx t ht)).congr_deriv ?_
    ring
  have mono : AntitoneOn (fun t => Real.exp (A t) * x t) (Icc s e) :=
    antitoneOn_of_hasDerivWithinAt_nonpos (convex_Icc s e) (fun t ht => (hd t ht).continuousWithinAt)
      (fun t ht => (hd t (interior_subset ht)).mono interior_subset)
      fun t ht => mul_nonpos_of_nonneg_of_nonpos (Real.exp_pos _).le (hα t (interior_subset ht))
  intro t ht
  have h1 := mono ⟨le_rfl, h⟩ ht ht.1
  have h2 : Real.exp (A s) * x s ≤ 0 := mul_nonpos_of_nonneg_of_nonpos (Real.exp_pos _).le h0
  exact nonpos_of_mul_nonpos_right (h1.trans h2) (Real.exp_pos _)

/-! ## One step -/

theorem eta_obeys {c : TCell} {amb I s e : ℝ} {x : Course} (h : Obeys c true amb I s e x) {j : Nat} (hj : j < c.rcs.length) :
    ∀ t ∈ Icc s e, HasDerivWithinAt (x.eta j) (I / c.rcs[j].2 (x.soc t) amb -
      1 / (c.rcs[j].1 (x.soc t) amb * c.rcs[j].2 (x.soc t) amb) * x.eta j t) (Icc s e) t := fun t ht => by
  refine (h.eta j hj t ht).congr_deriv ?_
  simp only [Course.heat, if_true]
  ring

theorem eta_nonpos {c : TCell} (hr : Regular c true) {amb I s e : ℝ} (hse : s ≤ e) {x : Course} (h : Obeys c true amb I s e x) {j : Nat}
    (hj : j < c.rcs.length) (hI : I ≤ 0) (h0 : x.eta j s ≤ 0) : x.eta j e ≤ 0 :=
  stays_nonpos hse (rate_continuous hr h hj) h0
    (fun t ht => div_nonpos_of_nonpos_of_nonneg hI (h.positive _ (List.getElem_mem hj) t ht).2.le) (eta_obeys h hj) e ⟨hse, le_rfl⟩

theorem eta_nonneg {c : TCell} (hr : Regular c true) {amb I s e : ℝ} (hse : s ≤ e) {x : Course} (h : Obeys c true amb I s e x) {j : Nat}
    (hj : j < c.rcs.length) (hI : 0 ≤ I) (h0 : 0 ≤ x.eta j s) : 0 ≤ x.eta j e := by
  have := stays_nonpos (α := fun t => -(I / c.rcs[j].2 (x.soc t) amb)) (x := fun t => -x.eta j t) hse (rate_continuous hr h hj) (by simpa using h0)
    (fun t ht => neg_nonpos.2 (div_nonneg hI (h.positive _ (List.getElem_mem hj) t ht).2.le))
    (fun t ht => (eta_obeys h hj t ht).neg.congr_deriv (by ring)) e ⟨hse, le_rfl⟩
  simpa using this

theorem eta_rest {c : TCell} (hr : Regular c true) {amb s e : ℝ} (hse : s ≤ e) {x : Course} (h : Obeys c true amb 0 s e x) :
    x.soc e = x.soc s ∧ ∀ (j : Nat) (hj : j < c.rcs.length),
      x.eta j e = x.eta j s * Real.exp (-(e - s) / (c.rcs[j].1 (x.soc s) amb * c.rcs[j].2 (x.soc s) amb)) := by
  have hz : ∀ t ∈ Icc s e, x.soc t = x.soc s := fun t ht => by rw [soc_obeys hse h t ht]; simp
  refine ⟨hz e ⟨hse, le_rfl⟩, fun j hj => ?_⟩
  let k := 1 / (c.rcs[j].1 (x.soc s) amb * c.rcs[j].2 (x.soc s) amb)
  have := LinearOde.unique_solution (α := fun _ => 0) (a := fun _ => k) (x := x.eta j) (y := fun t => x.eta j s * Real.exp (-(t - s) * k)) hse continuousOn_const
    (by simp) (fun t ht => by
      have := eta_obeys h hj t ht
      rw [hz t ht, zero_div] at this
      exact this) (fun t ht => by
      have := ((((hasDerivAt_id t).sub_const s).neg.mul_const k).exp.const_mul (x.eta j s)).hasDerivWithinAt (s := Icc s e)
      refine this.congr_deriv ?_
      show x.eta j s * (Real.exp (-(t - s) * k) * (-1 * k)) = 0 - k * (x.eta j s * Real.exp (-(t - s) * k))
      ring) e ⟨hse, le_rfl⟩
  rw [this]
  simp only [k]
  ring_nf

/-! ## Runs -/

theorem follows_nonpos {c : TCell} (hr : Regular c true) {x : Course} {b : Nat} : ∀ {us : List Input} {u : Input}, FollowsAll c true x b u us →
    (∀ v ∈ us, 0 ≤ entry v.current b) → ∀ j < c.rcs.length, x.eta j (entry u.time b) ≤ 0 → x.eta j (entry (us.getLastD u).time b) ≤ 0 := by
  intro us
  induction us with
  | nil => intro u _ _ j _ h; exact h
  | cons v us ih =>
    rintro u ⟨k1, k2, k3⟩ hc j hj h0
    rw [show (v :: us).getLastD u = us.getLastD v by cases us <;> rfl]
    exact ih k3 (fun w hw => hc w (List.mem_cons_of_mem _ hw)) j hj (eta_nonpos hr k1 k2 hj (by simpa using hc v (by simp)) h0)

theorem follows_nonneg {c : TCell} (hr : Regular c true) {x : Course} {b : Nat} : ∀ {us : List Input} {u : Input}, FollowsAll c true x b u us →
    (∀ v ∈ us, entry v.current b ≤ 0) → ∀ j < c.rcs.length, 0 ≤ x.eta j (entry u.time b) → 0 ≤ x.eta j (entry (us.getLastD u).time b) := by
  intro us
  induction us with
  | nil => intro u _ _ j _ h; exact h
  | cons v us ih =>
    rintro u ⟨k1, k2, k3⟩ hc j hj h0
    rw [show (v :: us).getLastD u = us.getLastD v by cases us <;> rfl]
    exact ih k3 (fun w hw => hc w (List.mem_cons_of_mem _ hw)) j hj (eta_nonneg hr k1 k2 hj (by simpa using hc v (by simp)) h0)

theorem follows_rest {c : TCell} (hr : Regular c true) {x : Course} {b : Nat} {amb : ℝ} : ∀ {us : List Input} {u : Input}, FollowsAll c true x b u us →
    (∀ v ∈ us, entry v.current b = 0 ∧ entry v.tInf b = amb) →
    x.soc (entry (us.getLastD u).time b) = x.soc (entry u.time b) ∧ ∀ (j : Nat) (hj : j < c.rcs.length),
      x.eta j (entry (us.getLastD u).time b) = x.eta j (entry u.time b) * Real.exp (-(entry (us.getLastD u).time b - entry u.time b) /
        (c.rcs[j].1 (x.soc (entry u.time b)) amb * c.rcs[j].2 (x.soc (entry u.time b)) amb)) := by
  intro us
  induction us with
  | nil => intro u _ _; exact ⟨rfl, fun j _ => by simp⟩
  | cons v us ih =>
    rintro u ⟨k1, k2, k3⟩ hc
    rw [show (v :: us).getLastD u = us.getLastD v by cases us <;> rfl]
    obtain ⟨e1, e2⟩ := hc v (by simp)
    rw [e1, e2, neg_zero] at k2
    obtain ⟨s1, s2⟩ := eta_rest hr k1 k2
    obtain ⟨i1, i2⟩ := ih k3 fun w hw => hc w (List.mem_cons_of_mem _ hw)
    refine ⟨i1.trans s1, fun j hj => ?_⟩
    rw [i2 j hj, s2 j hj, s1, mul_assoc, ← Real.exp_add]
    congr 2
    ring

/-- The voltage of every cell of a batch. -/
theorem voltage_many {a : ASOH} (hr0 : Tables a.r0) (hocv : ∃ n d, a.ocv.coeffs.shape = [n, d] ∧ 1 ≤ d) {B : Nat} (ha : a.Batched B) {st : State}
    (hst : Many B a st) {new : Input} (hn : new.Batched B) (hc : ∃ n, new.current.shape = [n, 1]) :
    ∃ v, voltage new st a = .ok v ∧ ∀ b < B, entry v b = rowPoly a.ocv.coeffs b (st.soc.get [b, 0]) +
      entry new.current b * polyAt a.r0 b (st.soc.get [b, 0]) (st.temp.get [b, 0]) - ∑ j ∈ Finset.range a.rcs.length, st.eta.get [b, j] := by
  obtain ⟨⟨n₁, h1⟩, ⟨n₂, d₂, h2, e2⟩, n₃, d₃, h3, e3⟩ := hr0
  obtain ⟨no, d, ho, hd⟩ := hocv
  obtain ⟨nc, hc⟩ := hc
  have dn := ha.ocv
  have dc := hn.current
  have k1 := ha.r0 (Ecm.rows a.r0.tRef) (by simp [PolySocT.rowCounts])
  have k2 := ha.r0 (Ecm.rows a.r0.socCoeffs) (by simp [PolySocT.rowCounts])
  have k3 := ha.r0 (Ecm.rows a.r0.tCoeffs) (by simp [PolySocT.rowCounts])
  simp only [Ecm.rows, h1, h2, h3, ho, hc, List.getD_cons_zero] at dn dc k1 k2 k3
  obtain ⟨v, n, v1, v2, v3, v4⟩ := C38_voltage B new st a nc B B B a.rcs.length hc hst.soc hst.temp hst.eta dc (.inr rfl) (.inr rfl) (.inr rfl)
    no d ho hd dn n₁ n₂ n₃ d₂ d₃ h1 h2 h3 e2 e3 k1 k2 k3
  refine ⟨v, v1, fun b hb => ?_⟩
  have eB : clip B b = b := by rw [← mod_clip (.inr rfl) hb, Nat.mod_eq_of_lt hb]
  have := v4 b hb
  simp only [← mod_clip v3 hb, ← mod_clip dn hb, ← mod_clip dc hb, ← mod_clip k1 hb, ← mod_clip k2 hb, ← mod_clip k3 hb, eB] at this
  simp only [polyAt, rowPoly, entry, Ecm.rows, h1, h2, h3, ho, hc, v2]
  exact this

/-- The state and voltage at the end of any run, for courses of the cells. -/
theorem run_courses {solver : Solver} (hsol : ExactSolver solver) {a : ASOH} (hr0 : Tables a.r0) (hrcs : ∀ p ∈ a.rcs, Tables p.1 ∧ Tables p.2)
    (hocv : ∃ n d, a.ocv.coeffs.shape = [n, d] ∧ 1 ≤ d) {B : Nat} (hB : 1 ≤ B) (ha : a.Batched B) (hp : ∀ b < B, Positive (tCellAt a b)) {us : List Input}
    {u : Input} {st : State} (hst : Many B a st) (hne : us ≠ []) (hus : ∀ v ∈ us, v.Batched B ∧ ∃ n, v.current.shape = [n, 1])
    (times : ∀ b < B, (u :: us).IsChain fun v w => entry v.time b ≤ entry w.time b) :
    ∃ st' v, runs solver true a u st us = .ok st' ∧ voltage (us.getLastD u) st' a = .ok v ∧ ∀ b < B, ∃ x : Course,
      x.soc (entry u.time b) = st.soc.get [b, 0] ∧ (∀ j < a.rcs.length, x.eta j (entry u.time b) = st.eta.get [b, j]) ∧
      FollowsAll (tCellAt a b) true x b u us ∧ st'.soc.get [b, 0] = x.soc (entry (us.getLastD u).time b) ∧
      (∀ j < a.rcs.length, st'.eta.get [b, j] = x.eta j (entry (us.getLastD u).time b)) ∧
      entry v b = rowPoly a.ocv.coeffs b (st'.soc.get [b, 0]) + entry (us.getLastD u).current b *
        polyAt a.r0 b (st'.soc.get [b, 0]) (entry (us.getLastD u).tInf b) - ∑ j ∈ Finset.range a.rcs.length, st'.eta.get [b, j] := by
  have ex : ∀ b, ∃ x : Course, b < B → x.soc (entry u.time b) = st.soc.get [b, 0] ∧ (∀ j < a.rcs.length, x.eta j (entry u.time b) = st.eta.get [b, j]) ∧
      FollowsAll (tCellAt a b) true x b u us := fun b => by
    by_cases hb : b < B
    · obtain ⟨x, hx⟩ := C151_course_exists a b (hp b hb) us u (st.soc.get [b, 0]) (fun j => st.eta.get [b, j]) (times b hb)
      exact ⟨x, fun _ => hx⟩
    · exact ⟨⟨fun _ => 0, fun _ => 0, fun _ _ => 0⟩, fun h => absurd h hb⟩
  choose x hx using ex
  obtain ⟨st', e, t1, t2, t3, r⟩ := C151_follows_equations_partial hsol hr0 hrcs hB ha us u st hst.soc hst.temp hst.eta (fun v hv => (hus v hv).1) hx
  have hl : us.getLastD u ∈ us := by
    rw [List.getLastD_eq_getLast?, List.getLast?_eq_some_getLast hne]
    exact List.getLast_mem hne
  obtain ⟨v, v1, v2⟩ := voltage_many hr0 hocv ha ⟨t1, t2, t3⟩ (hus _ hl).1 (hus _ hl).2
  refine ⟨st', v, e, v1, fun b hb => ⟨x b, (hx b hb).1, (hx b hb).2.1, (hx b hb).2.2, (r b hb).1, (r b hb).2.1, ?_⟩⟩
  rw [v2 b hb, (r b hb).2.2 hne]

/-- C152.  A batch of isothermal cells is simulated through any inputs.  A cell that is never discharged and starts without overpotentials (or with such
of the sign of charging) ends with a voltage not below the open-circuit voltage of its SOC; one that is never charged ends not above it. -/
theorem C152_sides {solver : Solver} (hsol : ExactSolver solver) {a : ASOH} (hr0 : Tables a.r0) (hrcs : ∀ p ∈ a.rcs, Tables p.1 ∧ Tables p.2)
    (hocv : ∃ n d, a.ocv.coeffs.shape = [n, d] ∧ 1 ≤ d) {B : Nat} (hB : 1 ≤ B) (ha : a.Batched B) (hp : ∀ b < B, Positive (tCellAt a b))
    (_hQ : ∀ b < B, entry a.capacity b ≠ 0) (hR : ∀ b < B, ∀ z T, 0 ≤ polyAt a.r0 b z T) {us : List Input} {u : Input} {st : State}
    (h1 : st.soc.shape = [B, 1]) (h2 : st.temp.shape = [B, 1]) (h3 : st.eta.shape = [B, a.rcs.length]) (hne : us ≠ [])
    (hus : ∀ v ∈ us, v.Batched B ∧ ∃ n, v.current.shape = [n, 1]) (times : ∀ b < B, (u :: us).IsChain fun v w => entry v.time b ≤ entry w.time b) :
    ∃ st' v, runs solver true a u st us = .ok st' ∧ voltage (us.getLastD u) st' a = .ok v ∧ ∀ b < B,
      ((∀ w ∈ us, 0 ≤ entry w.current b) → (∀ j < a.rcs.length, st.eta.get [b, j] ≤ 0) → rowPoly a.ocv.coeffs b (st'.soc.get [b, 0]) ≤ entry v b) ∧
      ((∀ w ∈ us, entry w.current b ≤ 0) → (∀ j < a.rcs.length, 0 ≤ st.eta.get [b, j]) → entry v b ≤ rowPoly a.ocv.coeffs b (st'.soc.get [b, 0])) := by
  obtain ⟨st', v, e1, e2, r⟩ := run_courses hsol hr0 hrcs hocv hB ha hp ⟨h1, h2, h3⟩ hne hus times
  have hl : us.getLastD u ∈ us := by
    rw [List.getLastD_eq_getLast?, List.getLast?_eq_some_getLast hne]
    exact List.getLast_mem hne
  refine ⟨st', v, e1, e2, fun b hb => ?_⟩
  obtain ⟨x, x1, x2, x3, x4, x5, x6⟩ := r b hb
  have hn : (tCellAt a b).rcs.length = a.rcs.length := by simp [tCellAt]
  refine ⟨fun hc he => ?_, fun hc he => ?_⟩
  · have k1 := mul_nonneg (hc _ hl) (hR b hb (st'.soc.get [b, 0]) (entry (us.getLastD u).tInf b))
    have k2 : ∑ j ∈ Finset.range a.rcs.length, st'.eta.get [b, j] ≤ 0 := Finset.sum_nonpos fun j hj => by
      have hj := Finset.mem_range.1 hj
      rw [x5 j hj]
      exact follows_nonpos (regular_poly a b) x3 hc j (hn ▸ hj) (by rw [x2 j hj]; exact he j hj)
    rw [x6]; linarith
  · have k1 := mul_nonpos_of_nonpos_of_nonneg (hc _ hl) (hR b hb (st'.soc.get [b, 0]) (entry (us.getLastD u).tInf b))
    have k2 : 0 ≤ ∑ j ∈ Finset.range a.rcs.length, st'.eta.get [b, j] := Finset.sum_nonneg fun j hj => by
      have hj := Finset.mem_range.1 hj
      rw [x5 j hj]
      exact follows_nonneg (regular_poly a b) x3 hc j (hn ▸ hj) (by rw [x2 j hj]; exact he j hj)
    rw [x6]; linarith

/-- C152.  Cells at rest at constant ambient temperatures keep their SOCs, every overpotential decays exponentially with its resistance and capacitance
at that SOC and temperature, whatever the number of steps, and the voltage is the open-circuit voltage less what is left of them. -/
theorem C152_rest {solver : Solver} (hsol : ExactSolver solver) {a : ASOH} (hr0 : Tables a.r0) (hrcs : ∀ p ∈ a.rcs, Tables p.1 ∧ Tables p.2)
    (hocv : ∃ n d, a.ocv.coeffs.shape = [n, d] ∧ 1 ≤ d) {B : Nat} (hB : 1 ≤ B) (ha : a.Batched B) (hp : ∀ b < B, Positive (tCellAt a b))
    (_hQ : ∀ b < B, entry a.capacity b ≠ 0) {us : List Input} {u : Input} {st : State} {amb : Nat → ℝ}
    (h1 : st.soc.shape = [B, 1]) (h2 : st.temp.shape = [B, 1]) (h3 : st.eta.shape = [B, a.rcs.length]) (hne : us ≠ [])
    (hus : ∀ v ∈ us, v.Batched B ∧ ∃ n, v.current.shape = [n, 1]) (times : ∀ b < B, (u :: us).IsChain fun v w => entry v.time b ≤ entry w.time b)
    (rest : ∀ v ∈ us, ∀ b < B, entry v.current b = 0 ∧ entry v.tInf b = amb b) :
    ∃ st' v, runs solver true a u st us = .ok st' ∧ voltage (us.getLastD u) st' a = .ok v ∧ ∀ b < B,
      let z := st.soc.get [b, 0]
      st'.soc.get [b, 0] = z ∧
      (∀ (j : Nat) (hj : j < a.rcs.length), st'.eta.get [b, j] = st.eta.get [b, j] *
        Real.exp (-(entry (us.getLastD u).time b - entry u.time b) / (polyAt a.rcs[j].1 b z (amb b) * polyAt a.rcs[j].2 b z (amb b)))) ∧
      entry v b = rowPoly a.ocv.coeffs b z - ∑ j ∈ Finset.range a.rcs.length, st'.eta.get [b, j] := by
  obtain ⟨st', v, e1, e2, r⟩ := run_courses hsol hr0 hrcs hocv hB ha hp ⟨h1, h2, h3⟩ hne hus times
  have hl : us.getLastD u ∈ us := by
    rw [List.getLastD_eq_getLast?, List.getLast?_eq_some_getLast hne]
    exact List.getLast_mem hne
  refine ⟨st', v, e1, e2, fun b hb => ?_⟩
  obtain ⟨x, x1, x2, x3, x4, x5, x6⟩ := r b hb
  have hn : (tCellAt a b).rcs.length = a.rcs.length := by simp [tCellAt]
  obtain ⟨f1, f2⟩ := follows_rest (regular_poly a b) x3 fun w hw => rest w hw b hb
  have hz : st'.soc.get [b, 0] = st.soc.get [b, 0] := by rw [x4, f1, x1]
  refine ⟨hz, fun j hj => ?_, ?_⟩
  · rw [x5 j hj, f2 j (hn ▸ hj), x2 j hj, x1]
    simp [tCellAt]
  · rw [x6, hz, (rest _ hl b hb).1]
    ring

/-- C152.  Rested for long enough, in any number of steps, the cells show their open-circuit voltages as closely as wanted. -/
theorem C152_relaxes {solver : Solver} (hsol : ExactSolver solver) {a : ASOH} (hr0 : Tables a.r0) (hrcs : ∀ p ∈ a.rcs, Tables p.1 ∧ Tables p.2)
    (hocv : ∃ n d, a.ocv.coeffs.shape = [n, d] ∧ 1 ≤ d) {B : Nat} (hB : 1 ≤ B) (ha : a.Batched B) (hp : ∀ b < B, Positive (tCellAt a b))
    (_hQ : ∀ b < B, entry a.capacity b ≠ 0) {st : State} (amb : Nat → ℝ)
    (h1 : st.soc.shape = [B, 1]) (h2 : st.temp.shape = [B, 1]) (h3 : st.eta.shape = [B, a.rcs.length]) {ε : ℝ} (hε : 0 < ε) :
    ∃ D : ℝ, ∀ (us : List Input) (u : Input), us ≠ [] → (∀ v ∈ us, v.Batched B ∧ ∃ n, v.current.shape = [n, 1]) →
      (∀ b < B, (u :: us).IsChain fun v w => entry v.time b ≤ entry w.time b) → (∀ v ∈ us, ∀ b < B, entry v.current b = 0 ∧ entry v.tInf b = amb b) →
      (∀ b < B, D ≤ entry (us.getLastD u).time b - entry u.time b) →
      ∃ st' v, runs solver true a u st us = .ok st' ∧ voltage (us.getLastD u) st' a = .ok v ∧ ∀ b < B,
        |entry v b - rowPoly a.ocv.coeffs b (st.soc.get [b, 0])| < ε := by
  have lim : ∀ b < B, ∃ D : ℝ, ∀ d ≥ D, |∑ j : Fin a.rcs.length, st.eta.get [b, j] *
      Real.exp (-d / (polyAt a.rcs[j].1 b (st.soc.get [b, 0]) (amb b) * polyAt a.rcs[j].2 b (st.soc.get [b, 0]) (amb b)))| < ε := fun b hb => by
    have ht : Filter.Tendsto (fun d : ℝ => ∑ j : Fin a.rcs.length, st.eta.get [b, j] *
        Real.exp (-d / (polyAt a.rcs[j].1 b (st.soc.get [b, 0]) (amb b) * polyAt a.rcs[j].2 b (st.soc.get [b, 0]) (amb b)))) Filter.atTop (nhds 0) := by
      rw [show (0 : ℝ) = ∑ j : Fin a.rcs.length, st.eta.get [b, j] * 0 by simp]
      refine tendsto_finsetSum _ fun j _ => Filter.Tendsto.const_mul _ (Real.tendsto_exp_atBot.comp ?_)
      have hq := hp b hb (polyAt a.rcs[j].1 b, polyAt a.rcs[j].2 b) (List.mem_map.2 ⟨a.rcs[j], List.getElem_mem j.2, rfl⟩) (st.soc.get [b, 0]) (amb b)
      exact Filter.tendsto_neg_atTop_atBot.atBot_div_const (mul_pos hq.1 hq.2)
    obtain ⟨D, hD⟩ := Filter.eventually_atTop.1 ((Metric.tendsto_nhds.1 ht) ε hε)
    exact ⟨D, fun d hd => by simpa [Real.dist_eq] using hD d hd⟩
  choose! D hD using lim
  refine ⟨∑ b ∈ Finset.range B, |D b|, fun us u hne hus times rest long => ?_⟩
  obtain ⟨st', v, e1, e2, r⟩ := C152_rest hsol hr0 hrcs hocv hB ha hp _hQ h1 h2 h3 hne hus times rest
  refine ⟨st', v, e1, e2, fun b hb => ?_⟩
  obtain ⟨-, r2, r3⟩ := r b hb
  have hd : D b ≤ entry (us.getLastD u).time b - entry u.time b :=
    ((le_abs_self _).trans (Finset.single_le_sum (f := fun b => |D b|) (fun _ _ => abs_nonneg _) (Finset.mem_range.2 hb))).trans (long b hb)
  have := hD b hb _ hd
  rw [r3, sub_sub_cancel_left, abs_neg, Finset.sum_range]
  have eq : ∀ j : Fin a.rcs.length, _ := fun j => r2 j j.2
  simp only [eq]
  exact this

/-! ## Examples -/

theorem twoCells_batched : twoCells.Batched 2 := by
  refine ⟨.inl rfl, .inl rfl, .inl rfl, .inl rfl, .inl rfl, .inl rfl, fun n hn => ?_, fun p hp => ?_⟩
  · simp only [twoCells, PolySocT.rowCounts, List.mem_cons, List.not_mem_nil, or_false] at hn
    rcases hn with rfl | rfl | rfl <;> exact .inl rfl
  · rw [List.mem_singleton.1 hp]
    constructor <;> intro n hn <;> simp only [PolySocT.rowCounts, List.mem_cons, List.not_mem_nil, or_false] at hn <;> rcases hn with rfl | rfl | rfl <;>
      first | exact .inl rfl | exact .inr rfl

theorem twoCells_tables : ∀ p ∈ twoCells.rcs, Tables p.1 ∧ Tables p.2 := fun p hp => by
  rw [List.mem_singleton.1 hp]
  exact ⟨⟨⟨1, rfl⟩, ⟨2, 3, rfl, by norm_num⟩, 1, 1, rfl, le_rfl⟩, ⟨1, rfl⟩, ⟨1, 1, rfl, le_rfl⟩, 1, 1, rfl, le_rfl⟩

-- The two cells of `TheveninOde` with overpotentials of 0.1 V rest in any number of steps of one hour: the second has R C = (3 + 0.64) 7 s.
example (n : Nat) : ∃ solver, ExactSolver solver ∧
    let u : Nat → Input := fun k => ⟨num2 (3600 * k), num2 0, num2 298⟩
    let st : State := ⟨⟨[2, 1], fun idx => [0.2, 0.8].getD (idx.getD 0 0) 0⟩, ⟨[2, 1], fun _ => 298⟩, ⟨[2, 1], fun _ => 0.1⟩⟩
    ∃ st' v, runs solver true twoCells (u 0) st ((List.range (n + 1)).map fun k => u (k + 1)) = .ok st' ∧
      voltage (u (n + 1)) st' twoCells = .ok v ∧ entry v 1 = 3 - 0.1 * Real.exp (-(3600 * (n + 1)) / ((3 + 0.64) * 7)) := by
  obtain ⟨solver, hsol⟩ := C151_solver_possible
  refine ⟨solver, hsol, ?_⟩
  intro u st
  have last : ((List.range (n + 1)).map fun k => u (k + 1)).getLastD (u 0) = u (n + 1) := by
    rw [List.range_succ, List.map_append]
    simp
  obtain ⟨st', v, e1, e2, r⟩ := C152_rest hsol ⟨⟨1, rfl⟩, ⟨1, 1, rfl, le_rfl⟩, 1, 1, rfl, le_rfl⟩ twoCells_tables ⟨1, 1, rfl, le_rfl⟩ (B := 2) (by norm_num) twoCells_batched
    (fun b _ => twoCells_positive b) (fun b _ => by simp [twoCells, entry, num2]) (us := (List.range (n + 1)).map fun k => u (k + 1)) (u := u 0) (st := st)
    (amb := fun _ => 298) rfl rfl rfl (by simp) (fun v hv => by
      obtain ⟨k, -, rfl⟩ := List.mem_map.1 hv
      exact ⟨⟨.inl rfl, .inl rfl, .inl rfl⟩, 1, rfl⟩) (fun b _ => by
      have e : u 0 :: (List.range (n + 1)).map (fun k => u (k + 1)) = (List.range (n + 2)).map u := by
        rw [List.range_succ_eq_map (n := n + 1), List.map_cons, List.map_map]
        rfl
      rw [e, List.isChain_map]
      refine List.Pairwise.isChain (List.pairwise_lt_range.imp fun {i j} hij => ?_)
      show (3600 * i : ℝ) ≤ 3600 * j
      have : (i : ℝ) ≤ j := by exact_mod_cast hij.le
      linarith) (fun v hv b _ => by
      obtain ⟨k, -, rfl⟩ := List.mem_map.1 hv
      exact ⟨rfl, rfl⟩)
  rw [last] at e2 r
  refine ⟨st', v, e1, e2, ?_⟩
  obtain ⟨-, r2, r3⟩ := r 1 (by norm_num)
  rw [r3, show twoCells.rcs.length = 1 from rfl, Finset.sum_range_one, r2 0 (by simp [twoCells])]
  have k1 : polyAt (twoCells.rcs[0]'(by simp [twoCells])).1 1 (st.soc.get [1, 0]) 298 = 3 + 0.64 := by
    simp [twoCells, polyAt, rowPoly, num2, Ecm.rows, Finset.sum_range_succ, st]; norm_num
  have k2 : polyAt (twoCells.rcs[0]'(by simp [twoCells])).2 1 (st.soc.get [1, 0]) 298 = 7 := by
    simp [twoCells, polyAt, rowPoly, num2]
  have k3 : rowPoly twoCells.ocv.coeffs 1 (st.soc.get [1, 0]) = 3 := by simp [twoCells, rowPoly, num2]
  have k4 : entry (u (n + 1)).time 1 - entry (u 0).time 1 = 3600 * (n + 1) := by simp [u, entry, num2]
  rw [k1, k2, k3, k4]

-- The two cells are charged with 2 A for one second and with 1 A for another: the voltages are at least 3 V.
example : ∃ solver, ExactSolver solver ∧
    let u : ℝ → ℝ → Input := fun t i => ⟨num2 t, num2 i, num2 298⟩
    let st : State := ⟨⟨[2, 1], fun idx => [0.2, 0.8].getD (idx.getD 0 0) 0⟩, ⟨[2, 1], fun _ => 298⟩, ⟨[2, 1], fun _ => 0⟩⟩
    ∃ st' v, runs solver true twoCells (u 0 0) st [u 1 2, u 2 1] = .ok st' ∧ voltage (u 2 1) st' twoCells = .ok v ∧ ∀ b < 2, 3 ≤ entry v b := by
  obtain ⟨solver, hsol⟩ := C151_solver_possible
  refine ⟨solver, hsol, ?_⟩
  intro u st
  have hu : ∀ w ∈ [u 1 2, u 2 1], ∃ t i, w = u t i ∧ 0 ≤ i := fun w hw => by
    rcases List.mem_cons.1 hw with rfl | hw
    · exact ⟨1, 2, rfl, by norm_num⟩
    · exact ⟨2, 1, List.mem_singleton.1 hw, by norm_num⟩
  obtain ⟨st', v, e1, e2, r⟩ := C152_sides hsol ⟨⟨1, rfl⟩, ⟨1, 1, rfl, le_rfl⟩, 1, 1, rfl, le_rfl⟩ twoCells_tables ⟨1, 1, rfl, le_rfl⟩ (B := 2) (by norm_num)
    twoCells_batched (fun b _ => twoCells_positive b) (fun b _ => by simp [twoCells, entry, num2])
    (fun b _ z T => by simp [twoCells, polyAt, rowPoly, num2]) (us := [u 1 2, u 2 1]) (u := u 0 0) (st := st) rfl rfl rfl (by simp)
    (fun w hw => by
      obtain ⟨t, i, rfl, -⟩ := hu w hw
      exact ⟨⟨.inl rfl, .inl rfl, .inl rfl⟩, 1, rfl⟩) (fun b _ => by simp [u, entry, num2])
  refine ⟨st', v, e1, e2, fun b hb => ?_⟩
  have := (r b hb).1 (fun w hw => by
    obtain ⟨t, i, rfl, hi⟩ := hu w hw
    exact hi) (fun j _ => le_rfl)
  simpa [twoCells, rowPoly, num2] using this

end Verif.Thevenin
