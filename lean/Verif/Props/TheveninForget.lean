import Verif.Props.TheveninRest
/-!
# C153: a Thevenin cell forgets its overpotentials, but never its SOC
-/

namespace Verif.Thevenin
open Verif Nd Spec Set

/-! ## One equation -/

theorem decays_nonneg {a : ℝ → ℝ} {k s e : ℝ} (h : s ≤ e) (ha : ContinuousOn a (Icc s e)) (hk : ∀ t ∈ Icc s e, k ≤ a t) {w : ℝ → ℝ} (h0 : 0 ≤ w s)
    (hw : ∀ t ∈ Icc s e, HasDerivWithinAt w (-(a t * w t)) (Icc s e) t) : 0 ≤ w e ∧ w e ≤ w s * Real.exp (-k * (e - s)) := by
  have h1 := stays_nonpos (α := fun _ => 0) (a := a) (x := fun t => -w t) h ha (by simpa using h0) (fun _ _ => le_rfl)
    (fun t ht => (hw t ht).neg.congr_deriv (by ring)) e ⟨h, le_rfl⟩
  have h2 := stays_nonpos (α := fun t => (k - a t) * (w s * Real.exp (-k * (t - s)))) (a := a) (x := fun t => w t - w s * Real.exp (-k * (t - s))) h ha (by simp)
    (fun t ht => mul_nonpos_of_nonpos_of_nonneg (sub_nonpos.2 (hk t ht)) (mul_nonneg h0 (Real.exp_pos _).le))
    (fun t ht => by
      have h3 := ((((hasDerivAt_id t).sub_const s).const_mul (-k)).exp.const_mul (w s)).hasDerivWithinAt (s := Icc s e)
      refine ((hw t ht).sub h3).congr_deriv ?_
      show -(a t * w t) - w s * (Real.exp (-k * (t - s)) * (-k * 1)) = _
      ring) e ⟨h, le_rfl⟩
  exact ⟨by simpa using h1, by linarith⟩

theorem decays {a : ℝ → ℝ} {k s e : ℝ} (h : s ≤ e) (ha : ContinuousOn a (Icc s e)) (hk : ∀ t ∈ Icc s e, k ≤ a t) {w : ℝ → ℝ}
    (hw : ∀ t ∈ Icc s e, HasDerivWithinAt w (-(a t * w t)) (Icc s e) t) : |w e| ≤ |w s| * Real.exp (-k * (e - s)) := by
  rcases le_total 0 (w s) with h0 | h0
  · obtain ⟨h1, h2⟩ := decays_nonneg h ha hk h0 hw
    rwa [abs_of_nonneg h1, abs_of_nonneg h0]
  · obtain ⟨h1, h2⟩ := decays_nonneg (w := fun t => -w t) h ha hk (by simpa using h0) (fun t ht => (hw t ht).neg.congr_deriv (by ring))
    rw [← abs_neg (w e), ← abs_neg (w s), abs_of_nonneg h1, abs_of_nonneg (by simpa using h0)]
    exact h2

/-! ## One step -/

/-- The overpotentials of two courses with the same SOC. -/
theorem eta_decays {c : TCell} (hr : Regular c true) {amb I s e : ℝ} (hse : s ≤ e) {x y : Course} (hx : Obeys c true amb I s e x)
    (hy : Obeys c true amb I s e y) (h0 : x.soc s = y.soc s) {lo hi : ℝ} (hs : x.soc s ∈ Icc lo hi) (he : x.soc e ∈ Icc lo hi) {j : Nat}
    (hj : j < c.rcs.length) {τ : ℝ} (hτ : ∀ z ∈ Icc lo hi, c.rcs[j].1 z amb * c.rcs[j].2 z amb ≤ τ) :
    x.soc e = y.soc e ∧ |x.eta j e - y.eta j e| ≤ |x.eta j s - y.eta j s| * Real.exp (-(e - s) / τ) := by
  have hz : ∀ t ∈ Icc s e, x.soc t = y.soc t := fun t ht => by rw [soc_obeys hse hx t ht, soc_obeys hse hy t ht, h0]
  refine ⟨hz e ⟨hse, le_rfl⟩, ?_⟩
  have between : ∀ t ∈ Icc s e, x.soc t ∈ Icc lo hi := fun t ht => by
    have k1 := soc_obeys hse hx t ht
    have k2 := soc_obeys hse hx e ⟨hse, le_rfl⟩
    rcases le_total 0 (I / (3600 * c.capacity)) with hg | hg
    · have := mul_nonneg hg (sub_nonneg.2 ht.1)
      have := mul_nonneg hg (sub_nonneg.2 ht.2)
      exact ⟨by nlinarith [he.1], by nlinarith [hs.2]⟩
    · have := mul_nonneg_of_nonpos_of_nonpos hg (sub_nonpos.2 ht.1)
      have := mul_nonneg_of_nonpos_of_nonpos hg (sub_nonpos.2 ht.2)
      exact ⟨by nlinarith [hs.1], by nlinarith [he.2]⟩
  have := decays (k := 1 / τ) (w := fun t => x.eta j t - y.eta j t) hse (rate_continuous hr hx hj) (fun t ht => by
    have hp := hx.positive _ (List.getElem_mem hj) t ht
    exact one_div_le_one_div_of_le (mul_pos hp.1 hp.2) (hτ _ (between t ht))) fun t ht => by
    refine ((eta_obeys hx hj t ht).sub (eta_obeys hy hj t ht)).congr_deriv ?_
    rw [← hz t ht]
    ring
  rw [show -(e - s) / τ = -(1 / τ) * (e - s) by ring]
  exact this

theorem follows_decays {c : TCell} (hr : Regular c true) {x y : Course} {b : Nat} {lo hi : ℝ} {j : Nat} (hj : j < c.rcs.length) {τ : ℝ} :
    ∀ {us : List Input} {u : Input}, FollowsAll c true x b u us → FollowsAll c true y b u us → x.soc (entry u.time b) = y.soc (entry u.time b) →
    (∀ n ≤ us.length, x.soc (entry ((us.take n).getLastD u).time b) ∈ Icc lo hi) →
    (∀ v ∈ us, ∀ z ∈ Icc lo hi, c.rcs[j].1 z (entry v.tInf b) * c.rcs[j].2 z (entry v.tInf b) ≤ τ) →
    |x.eta j (entry (us.getLastD u).time b) - y.eta j (entry (us.getLastD u).time b)| ≤
      |x.eta j (entry u.time b) - y.eta j (entry u.time b)| * Real.exp (-(entry (us.getLastD u).time b - entry u.time b) / τ) := by
  intro us
  induction us with
  | nil => intro u _ _ _ _ _; simp
  | cons v us ih =>
    rintro u ⟨k1, k2, k3⟩ ⟨-, l2, l3⟩ h0 hin hτ
    have el : ∀ l : List Input, (v :: l).getLastD u = l.getLastD v := fun l => by cases l <;> rfl
    rw [el]
    have hs := hin 0 (by simp)
    have he := hin 1 (by simp)
    obtain ⟨s1, s2⟩ := eta_decays hr k1 k2 l2 h0 hs he hj (hτ v (by simp))
    have := ih k3 l3 s1 (fun n hn => by
      have := hin (n + 1) (by simpa using hn)
      rwa [List.take_succ_cons, el] at this) fun w hw => hτ w (List.mem_cons_of_mem _ hw)
    refine this.trans ((mul_le_mul_of_nonneg_right s2 (Real.exp_pos _).le).trans_eq ?_)
    rw [mul_assoc, ← Real.exp_add]
    congr 2
    ring

theorem follows_take {c : TCell} {x : Course} {b : Nat} : ∀ {us : List Input} {u : Input} (n : Nat), FollowsAll c true x b u us →
    FollowsAll c true x b u (us.take n) := by
  intro us
  induction us with
  | nil => intro u n _; simp [FollowsAll]
  | cons v us ih =>
    rintro u (_ | n) ⟨k1, k2, k3⟩
    · trivial
    · exact ⟨k1, k2, ih n k3⟩

/-! ## Runs -/

/-- C153.  Two batches of the same isothermal cells at the same SOCs, but with different overpotentials, get the same inputs, whatever they are.  If the
products R C do not exceed `τ` at the SOCs that are passed and the ambient temperatures, then the differences of the overpotentials at the end are at most
those at the start times `exp (-T / τ)`, with the time `T` that has passed, and the voltages differ by at most their sum.  The SOCs are still the same. -/
theorem C153_forgets {solver : Solver} (hsol : ExactSolver solver) {a : ASOH} (hr0 : Tables a.r0) (hrcs : ∀ p ∈ a.rcs, Tables p.1 ∧ Tables p.2)
    (hocv : ∃ n d, a.ocv.coeffs.shape = [n, d] ∧ 1 ≤ d) {B : Nat} (hB : 1 ≤ B) (ha : a.Batched B) (hp : ∀ b < B, Positive (tCellAt a b))
    (_hQ : ∀ b < B, entry a.capacity b ≠ 0) {us : List Input} {u : Input} {st₁ st₂ : State}
    (h1 : st₁.soc.shape = [B, 1]) (h2 : st₁.temp.shape = [B, 1]) (h3 : st₁.eta.shape = [B, a.rcs.length])
    (g1 : st₂.soc.shape = [B, 1]) (g2 : st₂.temp.shape = [B, 1]) (g3 : st₂.eta.shape = [B, a.rcs.length])
    (same : ∀ b < B, st₁.soc.get [b, 0] = st₂.soc.get [b, 0]) (hne : us ≠ [])
    (hus : ∀ v ∈ us, v.Batched B ∧ ∃ n, v.current.shape = [n, 1]) (times : ∀ b < B, (u :: us).IsChain fun v w => entry v.time b ≤ entry w.time b)
    {lo hi : Nat → ℝ} {τ : Nat → Nat → ℝ}
    (passed : ∀ b < B, ∀ n ≤ us.length, st₁.soc.get [b, 0] + (((u :: us.take n).zip (us.take n)).map fun p =>
      entry p.2.current b * (entry p.2.time b - entry p.1.time b)).sum / (3600 * entry a.capacity b) ∈ Icc (lo b) (hi b))
    (bound : ∀ b < B, ∀ v ∈ us, ∀ z ∈ Icc (lo b) (hi b), ∀ (j : Nat) (hj : j < a.rcs.length),
      polyAt a.rcs[j].1 b z (entry v.tInf b) * polyAt a.rcs[j].2 b z (entry v.tInf b) ≤ τ b j) :
    ∃ end₁ end₂ v₁ v₂, runs solver true a u st₁ us = .ok end₁ ∧ runs solver true a u st₂ us = .ok end₂ ∧
      voltage (us.getLastD u) end₁ a = .ok v₁ ∧ voltage (us.getLastD u) end₂ a = .ok v₂ ∧ ∀ b < B,
      let T := entry (us.getLastD u).time b - entry u.time b
      end₁.soc.get [b, 0] = end₂.soc.get [b, 0] ∧
      (∀ j < a.rcs.length, |end₁.eta.get [b, j] - end₂.eta.get [b, j]| ≤ |st₁.eta.get [b, j] - st₂.eta.get [b, j]| * Real.exp (-T / τ b j)) ∧
      |entry v₁ b - entry v₂ b| ≤ ∑ j ∈ Finset.range a.rcs.length, |st₁.eta.get [b, j] - st₂.eta.get [b, j]| * Real.exp (-T / τ b j) := by
  obtain ⟨end₁, v₁, e1, e2, r⟩ := run_courses hsol hr0 hrcs hocv hB ha hp ⟨h1, h2, h3⟩ hne hus times
  obtain ⟨end₂, v₂, f1, f2, q⟩ := run_courses hsol hr0 hrcs hocv hB ha hp ⟨g1, g2, g3⟩ hne hus times
  refine ⟨end₁, end₂, v₁, v₂, e1, f1, e2, f2, fun b hb => ?_⟩
  obtain ⟨x, x1, x2, x3, x4, x5, x6⟩ := r b hb
  obtain ⟨y, y1, y2, y3, y4, y5, y6⟩ := q b hb
  have hn : (tCellAt a b).rcs.length = a.rcs.length := by simp [tCellAt]
  have h0 : x.soc (entry u.time b) = y.soc (entry u.time b) := by rw [x1, y1, same b hb]
  have hz : end₁.soc.get [b, 0] = end₂.soc.get [b, 0] := by rw [x4, y4, soc_follows x3, soc_follows y3, h0]
  have hd : ∀ j < a.rcs.length, |end₁.eta.get [b, j] - end₂.eta.get [b, j]| ≤ |st₁.eta.get [b, j] - st₂.eta.get [b, j]| *
      Real.exp (-(entry (us.getLastD u).time b - entry u.time b) / τ b j) := fun j hj => by
    rw [x5 j hj, y5 j hj, ← x2 j hj, ← y2 j hj]
    refine follows_decays (regular_poly a b) (hn ▸ hj) x3 y3 h0 (lo := lo b) (hi := hi b) (fun n hn => ?_) fun v hv z hz => ?_
    · rw [soc_follows (follows_take n x3), x1]
      exact passed b hb n hn
    · simpa [tCellAt] using bound b hb v hv z hz j hj
  refine ⟨hz, hd, ?_⟩
  have : entry v₁ b - entry v₂ b = -∑ j ∈ Finset.range a.rcs.length, (end₁.eta.get [b, j] - end₂.eta.get [b, j]) := by
    rw [x6, y6, hz, Finset.sum_sub_distrib]
    ring
  rw [this, abs_neg]
  exact (Finset.abs_sum_le_sum_abs _ _).trans (Finset.sum_le_sum fun j hj => hd j (Finset.mem_range.1 hj))

/-- C153.  A difference of the SOCs stays for ever as it is, whatever the inputs. -/
theorem C153_soc_kept {solver : Solver} (hsol : ExactSolver solver) {a : ASOH} (hr0 : Tables a.r0) (hrcs : ∀ p ∈ a.rcs, Tables p.1 ∧ Tables p.2) {B : Nat}
    (hB : 1 ≤ B) (ha : a.Batched B) (hp : ∀ b < B, Positive (tCellAt a b)) (hQ : ∀ b < B, entry a.capacity b ≠ 0) {us : List Input} {u : Input}
    {st₁ st₂ : State} (h1 : st₁.soc.shape = [B, 1]) (h2 : st₁.temp.shape = [B, 1]) (h3 : st₁.eta.shape = [B, a.rcs.length])
    (g1 : st₂.soc.shape = [B, 1]) (g2 : st₂.temp.shape = [B, 1]) (g3 : st₂.eta.shape = [B, a.rcs.length]) (hus : ∀ v ∈ us, v.Batched B)
    (times : ∀ b < B, (u :: us).IsChain fun v w => entry v.time b ≤ entry w.time b) :
    ∃ end₁ end₂, runs solver true a u st₁ us = .ok end₁ ∧ runs solver true a u st₂ us = .ok end₂ ∧ ∀ b < B,
      end₁.soc.get [b, 0] - end₂.soc.get [b, 0] = st₁.soc.get [b, 0] - st₂.soc.get [b, 0] := by
  obtain ⟨end₁, e1, r1⟩ := C151_charge hsol hr0 hrcs hB ha hp hQ h1 h2 h3 hus times
  obtain ⟨end₂, e2, r2⟩ := C151_charge hsol hr0 hrcs hB ha hp hQ g1 g2 g3 hus times
  exact ⟨end₁, end₂, e1, e2, fun b hb => by rw [r1 b hb, r2 b hb]; ring⟩

/-! ## Example -/

-- The two cells of `TheveninOde` at 298 K, once with overpotentials 0 and once with 0.1 V, are charged with 1 A for 36 s in two steps: the SOCs stay between
-- 0 and 1, where R C is at most 28 s.
example : ∃ solver, ExactSolver solver ∧
    let u : ℝ → ℝ → Input := fun t i => ⟨num2 t, num2 i, num2 298⟩
    let st : ℝ → State := fun η => ⟨⟨[2, 1], fun idx => [0.2, 0.8].getD (idx.getD 0 0) 0⟩, ⟨[2, 1], fun _ => 298⟩, ⟨[2, 1], fun _ => η⟩⟩
    ∃ end₁ end₂ v₁ v₂, runs solver true twoCells (u 0 0) (st 0) [u 10 1, u 36 1] = .ok end₁ ∧
      runs solver true twoCells (u 0 0) (st 0.1) [u 10 1, u 36 1] = .ok end₂ ∧ voltage (u 36 1) end₁ twoCells = .ok v₁ ∧
      voltage (u 36 1) end₂ twoCells = .ok v₂ ∧ ∀ b < 2, |entry v₁ b - entry v₂ b| ≤ 0.1 * Real.exp (-36 / 28) := by
  obtain ⟨solver, hsol⟩ := C151_solver_possible
  refine ⟨solver, hsol, ?_⟩
  intro u st
  obtain ⟨end₁, end₂, v₁, v₂, e1, e2, e3, e4, r⟩ := C153_forgets hsol ⟨⟨1, rfl⟩, ⟨1, 1, rfl, le_rfl⟩, 1, 1, rfl, le_rfl⟩ twoCells_tables ⟨1, 1, rfl, le_rfl⟩
    (B := 2) (by norm_num) twoCells_batched (fun b _ => twoCells_positive b) (fun b _ => by simp [twoCells, entry, num2])
    (us := [u 10 1, u 36 1]) (u := u 0 0) (st₁ := st 0) (st₂ := st 0.1) rfl rfl rfl rfl rfl rfl (fun _ _ => rfl) (by simp)
    (fun w hw => by
      rcases List.mem_cons.1 hw with rfl | hw
      · exact ⟨⟨.inl rfl, .inl rfl, .inl rfl⟩, 1, rfl⟩
      · rw [List.mem_singleton.1 hw]
        exact ⟨⟨.inl rfl, .inl rfl, .inl rfl⟩, 1, rfl⟩) (fun b _ => by simp [u, entry, num2]; norm_num)
    (lo := fun _ => 0) (hi := fun _ => 1) (τ := fun _ _ => 28)
    (fun b hb n hn => by
      have hb : b = 0 ∨ b = 1 := by omega
      have hn : n = 0 ∨ n = 1 ∨ n = 2 := by
        have : n ≤ 2 := hn
        omega
      rcases hb with rfl | rfl <;> rcases hn with rfl | rfl | rfl <;> simp [st, u, entry, num2, twoCells] <;> norm_num)
    (fun b hb v hv z hz j hj => by
      have hj : j = 0 := by simpa [twoCells] using hj
      subst hj
      have hb : b = 0 ∨ b = 1 := by omega
      have h7 : polyAt (twoCells.rcs[0]'(by simp [twoCells])).2 b z (entry v.tInf b) = 7 := by simp [twoCells, polyAt, rowPoly, num2]
      have h4 : polyAt (twoCells.rcs[0]'(by simp [twoCells])).1 b z (entry v.tInf b) ≤ 4 := by
        have : z ^ 2 ≤ 1 := by nlinarith [hz.1, hz.2]
        rcases hb with rfl | rfl <;> simp [twoCells, polyAt, rowPoly, num2, Ecm.rows, Finset.sum_range_succ] <;> nlinarith [hz.1, hz.2]
      rw [h7]
      linarith)
  refine ⟨end₁, end₂, v₁, v₂, e1, e2, e3, e4, fun b hb => (r b hb).2.2.trans (le_of_eq ?_)⟩
  rw [show twoCells.rcs.length = 1 from rfl, Finset.sum_range_one]
  simp only [st, List.getLastD, u, entry, num2]
  norm_num

end Verif.Thevenin
