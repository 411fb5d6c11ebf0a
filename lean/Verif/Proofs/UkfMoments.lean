import Verif.Proofs.Ukf
/-!
# Moments of converted points, and corrected covariances
-/

namespace Verif
open Matrix

/-! ## Block algebra -/

theorem append_vecMul_stack {a b n : Nat} (x : Fin a → ℝ) (y : Fin b → ℝ) (A : Matrix (Fin a) (Fin n) ℝ) (B : Matrix (Fin b) (Fin n) ℝ) :
    Fin.append x y ᵥ* stack A B = x ᵥ* A + y ᵥ* B := by
  funext j
  simp only [Matrix.vecMul, dotProduct, Pi.add_apply]
  rw [Fin.sum_univ_add]
  simp only [Fin.append_left, Fin.append_right, stack_left, stack_right]

theorem stack_blk2_stack {a b n k : Nat} (A : Matrix (Fin a) (Fin n) ℝ) (B : Matrix (Fin b) (Fin n) ℝ) (X : Matrix (Fin a) (Fin a) ℝ)
    (Y : Matrix (Fin b) (Fin b) ℝ) (A' : Matrix (Fin a) (Fin k) ℝ) (B' : Matrix (Fin b) (Fin k) ℝ) :
    (stack A B)ᵀ * blk2 X Y * stack A' B' = Aᵀ * X * A' + Bᵀ * Y * B' := by
  have h : (stack A B)ᵀ * blk2 X Y = (stack (Xᵀ * A) (Yᵀ * B))ᵀ := by
    ext i j
    rw [Matrix.mul_apply, Fin.sum_univ_add]
    simp only [Matrix.transpose_apply, stack_left, stack_right]
    refine Fin.addCases (fun j => ?_) (fun j => ?_) j
    · simp only [blk2_ll, blk2_rl, mul_zero, Finset.sum_const_zero, add_zero, stack_left, Matrix.mul_apply, Matrix.transpose_apply]
      exact Finset.sum_congr rfl fun _ _ => mul_comm _ _
    · simp only [blk2_lr, blk2_rr, mul_zero, Finset.sum_const_zero, zero_add, stack_right, Matrix.mul_apply, Matrix.transpose_apply]
      exact Finset.sum_congr rfl fun _ _ => mul_comm _ _
  rw [h]
  ext i j
  rw [Matrix.mul_apply, Fin.sum_univ_add]
  have e1 : Aᵀ * X = (Xᵀ * A)ᵀ := by rw [Matrix.transpose_mul, Matrix.transpose_transpose]
  have e2 : Bᵀ * Y = (Yᵀ * B)ᵀ := by rw [Matrix.transpose_mul, Matrix.transpose_transpose]
  rw [e1, e2, Matrix.add_apply, Matrix.mul_apply, Matrix.mul_apply]
  simp only [Matrix.transpose_apply, stack_left, stack_right]

theorem wcross_affine {K n k l : Nat} (v : Fin K → ℝ) (X : Matrix (Fin K) (Fin n) ℝ) (μ : Fin n → ℝ) (M : Matrix (Fin n) (Fin k) ℝ)
    (b : Fin k → ℝ) (N : Matrix (Fin n) (Fin l) ℝ) (c : Fin l → ℝ) :
    wcross v (fun i => X i ᵥ* M + b) (μ ᵥ* M + b) (fun i => X i ᵥ* N + c) (μ ᵥ* N + c) = Mᵀ * wcov v X μ * N := by
  ext a d
  have h : ∀ (l : Nat) (M : Matrix (Fin n) (Fin l) ℝ) (b : Fin l → ℝ) (i : Fin K) (c : Fin l),
      (X i ᵥ* M + b) c - (μ ᵥ* M + b) c = ∑ p, (X i p - μ p) * M p c := by
    intro l M b i c
    simp only [Pi.add_apply, Matrix.vecMul, dotProduct, add_sub_add_right_eq_sub, sub_mul, Finset.sum_sub_distrib]
  simp only [wcov, wcross, h, Matrix.mul_apply, Matrix.transpose_apply, Finset.sum_mul, Finset.mul_sum]
  rw [Finset.sum_comm]
  refine Finset.sum_congr rfl fun q _ => ?_
  rw [Finset.sum_comm]
  exact Finset.sum_congr rfl fun p _ => Finset.sum_congr rfl fun i _ => by ring

/-- The quadratic form of the joint covariance of two arrays of samples. -/
theorem joint_form {K n k : Nat} (v : Fin K → ℝ) (X : Matrix (Fin K) (Fin n) ℝ) (μ : Fin n → ℝ) (Y : Matrix (Fin K) (Fin k) ℝ)
    (ν : Fin k → ℝ) (a : Fin n → ℝ) (b : Fin k → ℝ) :
    Sum.elim a b ⬝ᵥ Matrix.fromBlocks (wcov v X μ) (wcross v X μ Y ν) (wcross v X μ Y ν)ᵀ (wcov v Y ν) *ᵥ Sum.elim a b =
      ∑ i, v i * (∑ p, a p * (X i p - μ p) + ∑ q, b q * (Y i q - ν q)) ^ 2 := by
  have key : ∀ {n k : Nat} (X : Matrix (Fin K) (Fin n) ℝ) (μ : Fin n → ℝ) (Y : Matrix (Fin K) (Fin k) ℝ) (ν : Fin k → ℝ) (a : Fin n → ℝ)
      (b : Fin k → ℝ), a ⬝ᵥ wcross v X μ Y ν *ᵥ b = ∑ i, v i * (∑ p, a p * (X i p - μ p)) * ∑ q, b q * (Y i q - ν q) := by
    intro n k X μ Y ν a b
    have h : ∀ p, ∑ q, wcross v X μ Y ν p q * b q = ∑ i, v i * (X i p - μ p) * ∑ q, b q * (Y i q - ν q) := by
      intro p
      simp only [wcross, Finset.sum_mul, Finset.mul_sum]
      rw [Finset.sum_comm]
      exact Finset.sum_congr rfl fun i _ => Finset.sum_congr rfl fun q _ => by ring
    simp only [dotProduct, Matrix.mulVec]
    have h2 : ∀ p, a p * ∑ q, wcross v X μ Y ν p q * b q = ∑ i, v i * (a p * (X i p - μ p)) * ∑ q, b q * (Y i q - ν q) := by
      intro p
      rw [h, Finset.mul_sum]
      exact Finset.sum_congr rfl fun i _ => by ring
    rw [Finset.sum_congr rfl fun p _ => h2 p, Finset.sum_comm]
    refine Finset.sum_congr rfl fun i _ => ?_
    rw [← Finset.sum_mul, ← Finset.mul_sum]
  have flip : a ⬝ᵥ wcross v X μ Y ν *ᵥ b = b ⬝ᵥ (wcross v X μ Y ν)ᵀ *ᵥ a := by
    rw [Matrix.mulVec_transpose, dotProduct_comm b, ← Matrix.dotProduct_mulVec]
  rw [Matrix.fromBlocks_mulVec, sumElim_dotProduct_sumElim]
  simp only [Sum.elim_comp_inl, Sum.elim_comp_inr, dotProduct_add]
  rw [← flip, key, wcov_eq_wcross, wcov_eq_wcross, key, key, ← Finset.sum_add_distrib, ← Finset.sum_add_distrib, ← Finset.sum_add_distrib]
  exact Finset.sum_congr rfl fun i _ => by ring

theorem wcov_isSymm {K n : Nat} (v : Fin K → ℝ) (X : Matrix (Fin K) (Fin n) ℝ) (μ : Fin n → ℝ) : (wcov v X μ).IsSymm := by
  ext a b
  rw [Matrix.transpose_apply]
  exact Finset.sum_congr rfl fun i _ => by ring

theorem joint_isHermitian {K n k : Nat} (v : Fin K → ℝ) (X : Matrix (Fin K) (Fin n) ℝ) (μ : Fin n → ℝ) (Y : Matrix (Fin K) (Fin k) ℝ)
    (ν : Fin k → ℝ) :
    (Matrix.fromBlocks (wcov v X μ) (wcross v X μ Y ν) (wcross v X μ Y ν)ᵀ (wcov v Y ν)).IsHermitian := by
  rw [Matrix.IsHermitian, Matrix.conjTranspose_eq_transpose_of_trivial, Matrix.fromBlocks_transpose, Matrix.transpose_transpose,
    (wcov_isSymm v X μ).eq, (wcov_isSymm v Y ν).eq]

theorem sumElim_ext {n k : Nat} (z : Fin n ⊕ Fin k → ℝ) : z = Sum.elim (fun i => z (.inl i)) (fun i => z (.inr i)) := by
  funext i
  cases i <;> rfl

/-- Weighting samples with non-negative weights gives a positive semi-definite joint covariance. -/
theorem joint_posSemidef {K n k : Nat} {v : Fin K → ℝ} (hv : ∀ i, 0 ≤ v i) (X : Matrix (Fin K) (Fin n) ℝ) (μ : Fin n → ℝ)
    (Y : Matrix (Fin K) (Fin k) ℝ) (ν : Fin k → ℝ) :
    (Matrix.fromBlocks (wcov v X μ) (wcross v X μ Y ν) (wcross v X μ Y ν)ᵀ (wcov v Y ν)).PosSemidef := by
  refine Matrix.PosSemidef.of_dotProduct_mulVec_nonneg (joint_isHermitian v X μ Y ν) fun z => ?_
  rw [sumElim_ext z, star_trivial, joint_form]
  exact Finset.sum_nonneg fun i _ => mul_nonneg (hv i) (sq_nonneg _)

/-- The joint covariance is positive definite when only the zero combination of the two arrays has no spread. -/
theorem joint_posDef {K n k : Nat} {v : Fin K → ℝ} (hv : ∀ i, 0 ≤ v i) (X : Matrix (Fin K) (Fin n) ℝ) (μ : Fin n → ℝ)
    (Y : Matrix (Fin K) (Fin k) ℝ) (ν : Fin k → ℝ)
    (h : ∀ (a : Fin n → ℝ) (b : Fin k → ℝ), (∀ i, v i ≠ 0 → ∑ p, a p * (X i p - μ p) + ∑ q, b q * (Y i q - ν q) = 0) → a = 0 ∧ b = 0) :
    (Matrix.fromBlocks (wcov v X μ) (wcross v X μ Y ν) (wcross v X μ Y ν)ᵀ (wcov v Y ν)).PosDef := by
  refine Matrix.PosDef.of_dotProduct_mulVec_pos (joint_isHermitian v X μ Y ν) fun z hz => ?_
  rw [sumElim_ext z, star_trivial, joint_form]
  have h0 : ∀ i ∈ Finset.univ, 0 ≤ v i * (∑ p, z (.inl p) * (X i p - μ p) + ∑ q, z (.inr q) * (Y i q - ν q)) ^ 2 :=
    fun i _ => mul_nonneg (hv i) (sq_nonneg _)
  refine lt_of_le_of_ne (Finset.sum_nonneg h0) fun he => hz ?_
  have := (Finset.sum_eq_zero_iff_of_nonneg h0).1 he.symm
  have hab := h (fun i => z (.inl i)) (fun i => z (.inr i)) fun i hi => by
    rcases mul_eq_zero.1 (this i (Finset.mem_univ i)) with h | h
    · exact absurd h hi
    · exact pow_eq_zero_iff (two_ne_zero) |>.1 h
  rw [sumElim_ext z, hab.1, hab.2]
  funext i
  cases i <;> rfl

/-! ## The corrected covariance -/

theorem gain_form {n o : Nat} (C : Matrix (Fin n) (Fin o) ℝ) {S : Matrix (Fin o) (Fin o) ℝ} (hs : S.IsSymm) (hd : S.det ≠ 0) :
    Ukf.gain C S * (S * (Ukf.gain C S)ᵀ) = C * S⁻¹ * Cᵀ := by
  have hu : IsUnit S.det := isUnit_iff_ne_zero.2 hd
  rw [Ukf.gain, Matrix.transpose_mul, Matrix.transpose_nonsing_inv, hs.eq, ← Matrix.mul_assoc S, Matrix.mul_nonsing_inv _ hu, Matrix.one_mul]

theorem posDef_blocks {n k : Nat} {A : Matrix (Fin n) (Fin n) ℝ} {B : Matrix (Fin n) (Fin k) ℝ} {D : Matrix (Fin k) (Fin k) ℝ}
    (h : (Matrix.fromBlocks A B Bᵀ D).PosDef) : A.PosDef ∧ D.PosDef := by
  constructor
  · exact h.submatrix (e := (Sum.inl : Fin n → Fin n ⊕ Fin k)) Sum.inl_injective
  · exact h.submatrix (e := (Sum.inr : Fin k → Fin n ⊕ Fin k)) Sum.inr_injective

theorem schur_posDef {n k : Nat} {A : Matrix (Fin n) (Fin n) ℝ} {B : Matrix (Fin n) (Fin k) ℝ} {D : Matrix (Fin k) (Fin k) ℝ}
    (h : (Matrix.fromBlocks A B Bᵀ D).PosDef) : (A - B * D⁻¹ * Bᵀ).PosDef := by
  obtain ⟨hA, hD⟩ := posDef_blocks h
  have hu : IsUnit D := hD.isUnit
  letI := hu.invertible
  have hD' := hD.isHermitian
  have ht : Bᴴ = Bᵀ := Matrix.conjTranspose_eq_transpose_of_trivial B
  have hh := (Matrix.IsHermitian.fromBlocks₂₂ A B hD').1 (by rw [ht]; exact h.isHermitian)
  rw [ht] at hh
  refine Matrix.PosDef.of_dotProduct_mulVec_pos hh fun x hx => ?_
  have := Matrix.schur_complement_eq₂₂ A B x (-((D⁻¹ * Bᴴ) *ᵥ x)) hD'
  rw [add_neg_cancel, star_zero, Matrix.zero_vecMul, zero_dotProduct, zero_add, ht] at this
  rw [Matrix.dotProduct_mulVec, ← this, ← Matrix.dotProduct_mulVec]
  refine h.dotProduct_mulVec_pos fun h0 => hx ?_
  funext i
  exact congrFun h0 (.inl i)

end Verif
