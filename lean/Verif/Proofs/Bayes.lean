import Verif.Spec.Bayes
import Verif.Proofs.Cholesky
import Mathlib.Analysis.SpecialFunctions.Gaussian.GaussianIntegral
import Mathlib.MeasureTheory.Integral.Pi
import Mathlib.LinearAlgebra.Matrix.SchurComplement
/-!
# Normal densities under linear maps (C145)
-/

namespace Verif
open Matrix Spec MeasureTheory

variable {n o : Nat}

theorem misfit_continuous (P : Matrix (Fin n) (Fin n) ℝ) : Continuous fun x : Fin n → ℝ => misfit x P := by
  simp only [misfit, dotProduct, mulVec]
  fun_prop

theorem normal_pos {b : Belief n} (hb : b.cov.PosDef) (x : Fin n → ℝ) : 0 < normal b x :=
  div_pos (Real.exp_pos _) (Real.sqrt_pos.2 (mul_pos (pow_pos (by positivity) _) hb.det_pos))

theorem integral_standard : ∫ y : Fin n → ℝ, Real.exp (-(y ⬝ᵥ y) / 2) = √((2 * Real.pi) ^ n) := by
  have : ∀ y : Fin n → ℝ, Real.exp (-(y ⬝ᵥ y) / 2) = ∏ i, Real.exp (-(1 / 2) * y i ^ 2) := fun y => by
    rw [← Real.exp_sum]
    congr 1
    rw [← Finset.mul_sum, dotProduct, neg_div, div_eq_mul_inv, mul_comm, neg_mul_comm, ]
    simp only [pow_two]
    ring
  simp only [this]
  rw [integral_fintype_prod_volume_eq_pow (fun t : ℝ => Real.exp (-(1 / 2) * t ^ 2)), integral_gaussian, Fintype.card_fin,
    show Real.pi / (1 / 2) = 2 * Real.pi by ring, ← Real.sqrt_sq (pow_nonneg (Real.sqrt_nonneg _) n), ← pow_mul, mul_comm n 2, pow_mul,
    Real.sq_sqrt (by positivity)]

theorem integral_linear {L : Matrix (Fin n) (Fin n) ℝ} (hL : L.det ≠ 0) {g : (Fin n → ℝ) → ℝ} (hg : Continuous g) :
    ∫ x, g x = |L.det| * ∫ y, g (L *ᵥ y) := by
  have h := Real.map_matrix_volume_pi_eq_smul_volume_pi hL
  have hc : Continuous (toLin' L) := LinearMap.continuous_of_finiteDimensional _
  have e : ∫ y, g (L *ᵥ y) = ∫ x, g x ∂(Measure.map (toLin' L) volume) := by
    rw [integral_map hc.aemeasurable hg.aestronglyMeasurable]
    rfl
  rw [e, h, integral_smul_measure, smul_eq_mul, ENNReal.toReal_ofReal (abs_nonneg _), ← mul_assoc, ← abs_mul, mul_inv_cancel₀ hL, abs_one, one_mul]

theorem integral_normal {b : Belief n} (hb : b.cov.PosDef) : ∫ x, normal b x = 1 := by
  obtain ⟨L, hL⟩ := exists_isCholesky hb
  have hd := hL.det_ne_zero
  have hP := hL.mul_transpose (posDef_isSymm hb)
  have hdet : b.cov.det = L.det ^ 2 := by rw [← hP, det_mul, det_transpose, pow_two]
  have e : ∀ y, misfit (L *ᵥ y) b.cov = y ⬝ᵥ y := fun y => by
    have u : IsUnit L.det := isUnit_iff_ne_zero.2 hd
    have ut : IsUnit Lᵀ.det := by rw [det_transpose]; exact u
    rw [misfit, ← hP, Matrix.mul_inv_rev, mulVec_mulVec, Matrix.mul_assoc, nonsing_inv_mul _ u, Matrix.mul_one, dotProduct_comm, dotProduct_mulVec,
      ← mulVec_transpose, mulVec_mulVec, mul_nonsing_inv _ ut, one_mulVec]
  have key : ∫ x, Real.exp (-misfit (x - b.mean) b.cov / 2) = √((2 * Real.pi) ^ n * b.cov.det) := by
    rw [integral_sub_right_eq_self (fun x => Real.exp (-misfit x b.cov / 2)) b.mean, integral_linear hd (by have := misfit_continuous b.cov; fun_prop)]
    simp only [e]
    rw [integral_standard, Real.sqrt_mul (by positivity), hdet, Real.sqrt_sq_eq_abs, mul_comm]
  simp only [normal]
  rw [integral_div, key, div_self]
  exact (Real.sqrt_pos.2 (mul_pos (pow_pos (by positivity) _) hb.det_pos)).ne'

theorem det_correct {P : Matrix (Fin n) (Fin n) ℝ} {R : Matrix (Fin o) (Fin o) ℝ} (hP : P.PosDef) (hR : R.PosDef) (H : Matrix (Fin o) (Fin n) ℝ) (d z : Fin o → ℝ)
    (μ : Fin n → ℝ) : R.det * P.det = (kalmanOutput H d R ⟨μ, P⟩).cov.det * (kalmanCorrect H d R ⟨μ, P⟩ z).cov.det := by
  have hS : (kalmanOutput H d R ⟨μ, P⟩).cov.PosDef := Ukf.innovation_posDef hP hR H
  obtain ⟨S, hS'⟩ : ∃ S, S = (kalmanOutput H d R ⟨μ, P⟩).cov := ⟨_, rfl⟩
  have eS : S = H * P * Hᵀ + R := hS'
  have uS : IsUnit S.det := by rw [hS']; exact isUnit_iff_ne_zero.2 hS.det_pos.ne'
  show _ = _ * ((1 - P * Hᵀ * (H * P * Hᵀ + R)⁻¹ * H) * P).det
  rw [← hS', ← eS, det_mul, det_one_sub_mul_comm]
  have : 1 - H * (P * Hᵀ * S⁻¹) = R * S⁻¹ := by
    rw [← mul_nonsing_inv _ uS, ← Matrix.mul_assoc, ← Matrix.mul_assoc, ← Matrix.sub_mul]
    congr 1
    rw [eS]; abel
  rw [this, det_mul, det_nonsing_inv]
  linear_combination (-(R.det * P.det)) * Ring.mul_inverse_cancel _ uS

/-- Bayes' rule: what is believed and what is measured then. -/
theorem normal_correct {P : Matrix (Fin n) (Fin n) ℝ} {R : Matrix (Fin o) (Fin o) ℝ} (hP : P.PosDef) (hR : R.PosDef) (H : Matrix (Fin o) (Fin n) ℝ) (d z : Fin o → ℝ)
    (μ x : Fin n → ℝ) : normal ⟨H *ᵥ x + d, R⟩ z * normal ⟨μ, P⟩ x =
      normal (kalmanOutput H d R ⟨μ, P⟩) z * normal (kalmanCorrect H d R ⟨μ, P⟩ z) x := by
  have h := misfit_correct hP hR H d z μ x
  have hdet := det_correct hP hR H d z μ
  have hS : (kalmanOutput H d R ⟨μ, P⟩).cov.PosDef := Ukf.innovation_posDef hP hR H
  simp only at h
  simp only [normal]
  rw [div_mul_div_comm, div_mul_div_comm, ← Real.exp_add, ← Real.exp_add, ← Real.sqrt_mul (mul_nonneg (by positivity) hR.det_pos.le),
    ← Real.sqrt_mul (x := _ * (kalmanOutput H d R ⟨μ, P⟩).cov.det) (mul_nonneg (by positivity) hS.det_pos.le)]
  congr 2
  · linarith
  · linear_combination ((2 * Real.pi) ^ o * (2 * Real.pi) ^ n) * hdet

theorem integral_predict {P Q : Matrix (Fin n) (Fin n) ℝ} (hP : P.PosDef) (hQ : Q.PosDef) (F : Matrix (Fin n) (Fin n) ℝ) (c μ x' : Fin n → ℝ) :
    ∫ x, normal ⟨F *ᵥ x + c, Q⟩ x' * normal ⟨μ, P⟩ x = normal (kalmanPredict F c Q ⟨μ, P⟩) x' := by
  simp only [normal_correct hP hQ F c x' μ]
  rw [integral_const_mul, integral_normal (Ukf.correct_posDef hP hQ), mul_one]
  rfl

variable {Q : Matrix (Fin n) (Fin n) ℝ} {R : Matrix (Fin o) (Fin o) ℝ}

theorem learn_normal {b : Belief n} (hb : b.cov.PosDef) (hQ : Q.PosDef) (hR : R.PosDef) {F : Matrix (Fin n) (Fin n) ℝ} {c : Fin n → ℝ}
    {H : Matrix (Fin o) (Fin n) ℝ} {d : Fin o → ℝ} {g : (Fin n → ℝ) → Fin n → ℝ} (hg : ∀ x, g x = F *ᵥ x + c) {v : (Fin n → ℝ) → Fin o → ℝ}
    (hv : ∀ x, v x = H *ᵥ x + d) (z : Fin o → ℝ) :
    learn Q R g v z (normal b) = fun x' => normal (kalmanOutput H d R (kalmanPredict F c Q b)) z * normal (kalmanCorrect H d R (kalmanPredict F c Q b) z) x' := by
  funext x'
  obtain ⟨μ, P⟩ := b
  simp only [learn, hg, hv]
  rw [integral_predict hb hQ]
  exact normal_correct (P := (kalmanPredict F c Q ⟨μ, P⟩).cov) (Ukf.predict_posDef (F := F) (c := c) (b := ⟨μ, P⟩) hb hQ) hR H d z _ x'

theorem learn_const_mul (k : ℝ) (g : (Fin n → ℝ) → Fin n → ℝ) (v : (Fin n → ℝ) → Fin o → ℝ) (z : Fin o → ℝ) (π : (Fin n → ℝ) → ℝ) :
    learn Q R g v z (fun x => k * π x) = fun x => k * learn Q R g v z π x := by
  funext x'
  simp only [learn, mul_left_comm _ k]
  rw [integral_const_mul]
  ring

end Verif
