import Mathlib.Analysis.ODE.Gronwall
import Mathlib.MeasureTheory.Integral.IntervalIntegral.FundThmCalculus
import Mathlib.Analysis.SpecialFunctions.Integrals.Basic
/-!
# Linear differential equations of one unknown
-/

namespace Verif.LinearOde
open Set MeasureTheory

/-- `x' = α - a x` has a solution with every initial value. -/
theorem exists_solution {α a : ℝ → ℝ} {s e : ℝ} (h : s ≤ e) (hα : ContinuousOn α (Icc s e)) (ha : ContinuousOn a (Icc s e)) (x₀ : ℝ) :
    ∃ x : ℝ → ℝ, x s = x₀ ∧ ∀ t ∈ Icc s e, HasDerivWithinAt x (α t - a t * x t) (Icc s e) t := by
  let α' : ℝ → ℝ := IccExtend h ((Icc s e).restrict α)
  let a' : ℝ → ℝ := IccExtend h ((Icc s e).restrict a)
  have hα' : Continuous α' := (continuousOn_iff_continuous_restrict.1 hα).Icc_extend'
  have ha' : Continuous a' := (continuousOn_iff_continuous_restrict.1 ha).Icc_extend'
  let A : ℝ → ℝ := fun t => ∫ τ in s..t, a' τ
  have hA : ∀ t, HasDerivAt A (a' t) t := fun t => (ha'.integral_hasStrictDerivAt s t).hasDerivAt
  have cA : Continuous A := continuous_iff_continuousAt.2 fun t => (hA t).continuousAt
  have cg : Continuous fun τ => Real.exp (A τ) * α' τ := (Real.continuous_exp.comp cA).mul hα'
  have hG : ∀ t, HasDerivAt (fun t => ∫ τ in s..t, Real.exp (A τ) * α' τ) (Real.exp (A t) * α' t) t :=
    fun t => (cg.integral_hasStrictDerivAt s t).hasDerivAt
  refine ⟨fun t => Real.exp (-A t) * (x₀ + ∫ τ in s..t, Real.exp (A τ) * α' τ), ?_, fun t ht => ?_⟩
  · simp [A]
  · have h1 := ((hA t).neg.exp).mul ((hG t).const_add x₀)
    have e1 : α' t = α t := IccExtend_of_mem h _ ht
    have e2 : a' t = a t := IccExtend_of_mem h _ ht
    refine (h1.congr_deriv ?_).hasDerivWithinAt
    rw [e1, e2]
    have : Real.exp (-A t) * Real.exp (A t) = 1 := by rw [← Real.exp_add]; simp
    linear_combination (α t) * this

/-- `x' = α - a x` has at most one solution with a given initial value. -/
theorem unique_solution {α a : ℝ → ℝ} {s e : ℝ} (h : s ≤ e) (ha : ContinuousOn a (Icc s e)) {x y : ℝ → ℝ} (h0 : x s = y s)
    (hx : ∀ t ∈ Icc s e, HasDerivWithinAt x (α t - a t * x t) (Icc s e) t)
    (hy : ∀ t ∈ Icc s e, HasDerivWithinAt y (α t - a t * y t) (Icc s e) t) : ∀ t ∈ Icc s e, x t = y t := by
  obtain ⟨K, hK⟩ := (isCompact_Icc.image_of_continuousOn ha.norm).bddAbove
  have hd : ∀ t ∈ Icc s e, HasDerivWithinAt (fun t => x t - y t) (-(a t) * (x t - y t)) (Icc s e) t := fun t ht =>
    ((hx t ht).sub (hy t ht)).congr_deriv (by ring)
  intro t ht
  have := norm_le_gronwallBound_of_norm_deriv_right_le (f := fun t => x t - y t) (f' := fun t => -(a t) * (x t - y t)) (δ := 0) (K := K) (ε := 0)
    (a := s) (b := e) (fun t ht => (hd t ht).continuousWithinAt)
    (fun t ht => (hd t (Ico_subset_Icc_self ht)).mono_of_mem_nhdsWithin (Icc_mem_nhdsGE_of_mem ht))
    (by simp [h0]) (fun t ht => by
      rw [norm_mul, norm_neg, add_zero]
      exact mul_le_mul_of_nonneg_right (hK ⟨t, Ico_subset_Icc_self ht, rfl⟩) (norm_nonneg _)) t ht
  rw [gronwallBound_ε0_δ0] at this
  exact sub_eq_zero.1 (norm_le_zero_iff.1 this)

end Verif.LinearOde
