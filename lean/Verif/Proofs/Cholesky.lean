import Verif.Model.Ukf
import Verif.Proofs.Linear
import Mathlib.Analysis.Matrix.LDL
import Mathlib.LinearAlgebra.Matrix.Block
import Mathlib.Algebra.Order.Star.Real
/-!
# Cholesky factors: unique, and present exactly for positive definite matrices
-/

namespace Verif
open Matrix
variable {n : Nat}

theorem IsCholesky.entry {A L : Matrix (Fin n) (Fin n) ℝ} (h : IsCholesky A L) (i j : Fin n) :
    (L * Lᵀ) i j = ∑ k ∈ Finset.univ.filter (· < j), L i k * L j k + L i j * L j j := by
  rw [Matrix.mul_apply]
  simp only [Matrix.transpose_apply]
  have h1 : ∀ k ∈ (Finset.univ : Finset (Fin n)), k ∉ Finset.univ.filter (· ≤ j) → L i k * L j k = 0 := by
    intro k _ hk
    simp only [Finset.mem_filter, Finset.mem_univ, true_and, not_le] at hk
    rw [h.1 j k hk, mul_zero]
  rw [← Finset.sum_subset (Finset.subset_univ (Finset.univ.filter (· ≤ j))) h1]
  have h2 : Finset.univ.filter (· ≤ j) = insert j (Finset.univ.filter (· < j)) := by
    ext k; simp only [Finset.mem_filter, Finset.mem_univ, true_and, Finset.mem_insert]
    exact le_iff_eq_or_lt
  rw [h2, Finset.sum_insert (by simp), add_comm]

theorem IsCholesky.unique {A L M : Matrix (Fin n) (Fin n) ℝ} (h : IsCholesky A L) (h' : IsCholesky A M) : L = M := by
  have key : ∀ k : Nat, ∀ j : Fin n, j.1 = k → ∀ i, L i j = M i j := by
    intro k
    induction k using Nat.strong_induction_on with
    | _ k ih =>
      intro j hj
      have ih' : ∀ l : Fin n, l < j → ∀ i, L i l = M i l := fun l hl i => ih l.1 (hj ▸ hl) l rfl i
      have e : ∀ i, j ≤ i → L i j * L j j = M i j * M j j := by
        intro i hi
        have h1 := h.2.2 i j hi
        have h2 := h'.2.2 i j hi
        rw [h.entry] at h1
        rw [h'.entry] at h2
        have h3 : ∑ k ∈ Finset.univ.filter (· < j), L i k * L j k = ∑ k ∈ Finset.univ.filter (· < j), M i k * M j k :=
          Finset.sum_congr rfl fun l hl => by
            have hl := (Finset.mem_filter.1 hl).2
            rw [ih' l hl i, ih' l hl j]
        linarith
      have hd : L j j = M j j := by
        have := e j le_rfl
        nlinarith [h.2.1 j, h'.2.1 j]
      intro i
      rcases lt_or_ge i j with hij | hij
      · rw [h.1 i j hij, h'.1 i j hij]
      · have := e i hij
        rw [hd] at this
        exact mul_right_cancel₀ (h'.2.1 j).ne' this
  ext i j
  exact key j.1 j rfl i

theorem IsCholesky.isLowerTriangular {A L : Matrix (Fin n) (Fin n) ℝ} (h : IsCholesky A L) : L.IsLowerTriangular :=
  fun i j hij => h.1 i j hij

theorem IsCholesky.det_ne_zero {A L : Matrix (Fin n) (Fin n) ℝ} (h : IsCholesky A L) : L.det ≠ 0 := by
  rw [Matrix.det_of_isLowerTriangular L h.isLowerTriangular]
  exact Finset.prod_ne_zero_iff.2 fun i _ => (h.2.1 i).ne'

/-- For a symmetric matrix the factor gives the whole matrix. -/
theorem IsCholesky.mul_transpose {A L : Matrix (Fin n) (Fin n) ℝ} (h : IsCholesky A L) (hA : A.IsSymm) : L * Lᵀ = A := by
  ext i j
  rcases le_total j i with hij | hij
  · exact h.2.2 i j hij
  · have h1 : (L * Lᵀ) i j = (L * Lᵀ) j i := by
      have : (L * Lᵀ)ᵀ = L * Lᵀ := by rw [Matrix.transpose_mul, Matrix.transpose_transpose]
      rw [← Matrix.transpose_apply (L * Lᵀ) j i, this]
    rw [h1, h.2.2 j i hij, hA.apply]

/-- A symmetric matrix with a Cholesky factor is positive definite. -/
theorem IsCholesky.posDef {A L : Matrix (Fin n) (Fin n) ℝ} (h : IsCholesky A L) (hA : A.IsSymm) : A.PosDef := by
  rw [← h.mul_transpose hA, ← Matrix.conjTranspose_eq_transpose_of_trivial]
  apply Matrix.PosDef.mul_conjTranspose_self
  rw [Matrix.vecMul_injective_iff_isUnit, Matrix.isUnit_iff_isUnit_det]
  exact isUnit_iff_ne_zero.2 h.det_ne_zero

/-- Every positive definite matrix has a Cholesky factor. -/
theorem exists_isCholesky {A : Matrix (Fin n) (Fin n) ℝ} (hA : A.PosDef) : ∃ L, IsCholesky A L := by
  have hinv : Invertible (LDL.lowerInv hA) := inferInstance
  have hlowInv : (LDL.lowerInv hA).IsLowerTriangular := fun i j hij => LDL.lowerInv_triangular hA hij
  have hlow : (LDL.lower hA).IsLowerTriangular := Matrix.blockTriangular_inv_of_blockTriangular hlowInv
  have hdetInv : (LDL.lowerInv hA).det ≠ 0 := (Matrix.isUnit_iff_isUnit_det _).1 (isUnit_of_invertible _) |>.ne_zero
  have hdet : (LDL.lower hA).det ≠ 0 := by
    rw [LDL.lower, Matrix.det_nonsing_inv, Ring.inverse_eq_inv']
    exact inv_ne_zero hdetInv
  have hD : (LDL.diag hA).PosDef := by
    rw [LDL.diag_eq_lowerInv_conj]
    apply hA.mul_mul_conjTranspose_same
    rw [Matrix.vecMul_injective_iff_isUnit]
    exact isUnit_of_invertible _
  have hd : ∀ i, 0 < LDL.diagEntries hA i := Matrix.posDef_diagonal_iff.1 hD
  have hne : ∀ i, LDL.lower hA i i ≠ 0 := by
    rw [Matrix.det_of_isLowerTriangular _ hlow] at hdet
    exact fun i => Finset.prod_ne_zero_iff.1 hdet i (Finset.mem_univ i)
  let c : Fin n → ℝ := fun j => (if 0 < LDL.lower hA j j then 1 else -1) * Real.sqrt (LDL.diagEntries hA j)
  have hc : ∀ j, c j * c j = LDL.diagEntries hA j := by
    intro j
    have := Real.mul_self_sqrt (hd j).le
    simp only [c]
    split <;> linarith
  refine ⟨LDL.lower hA * Matrix.diagonal c, fun i j hij => ?_, fun i => ?_, fun i j _ => ?_⟩
  · rw [Matrix.mul_diagonal, hlow hij, zero_mul]
  · rw [Matrix.mul_diagonal]
    have hs := Real.sqrt_pos.2 (hd i)
    simp only [c]
    split
    · rename_i h; rw [one_mul]; exact mul_pos h hs
    · rename_i h
      have : LDL.lower hA i i < 0 := lt_of_le_of_ne (not_lt.1 h) (hne i)
      nlinarith
  · have : LDL.lower hA * Matrix.diagonal c * (LDL.lower hA * Matrix.diagonal c)ᵀ = A := by
      rw [Matrix.transpose_mul, Matrix.diagonal_transpose, Matrix.mul_assoc, ← Matrix.mul_assoc (Matrix.diagonal c),
        Matrix.diagonal_mul_diagonal, ← Matrix.mul_assoc]
      have h := LDL.lower_conj_diag hA
      rw [Matrix.conjTranspose_eq_transpose_of_trivial, LDL.diag] at h
      simpa only [hc] using h
    rw [this]

/-- `np.linalg.cholesky` of a matrix with a factor. -/
theorem cholesky_ok {A L : Matrix (Fin n) (Fin n) ℝ} (h : IsCholesky A L) : cholesky ⟨n, n, A⟩ = .ok ⟨n, n, L⟩ := by
  unfold cholesky
  simp only [dite_true, Fin.cast_eq_self]
  have he : ∃ L, IsCholesky A L := ⟨L, h⟩
  rw [dif_pos he]
  exact congrArg (fun M => Except.ok (Mat.mk n n M)) (he.choose_spec.unique h)

theorem cholesky_none {A : Matrix (Fin n) (Fin n) ℝ} (h : ¬ ∃ L, IsCholesky A L) : cholesky ⟨n, n, A⟩ = .error .linAlgError := by
  unfold cholesky
  simp only [dite_true, Fin.cast_eq_self]
  rw [dif_neg h]

theorem allCloseT_of_isSymm {A : Matrix (Fin n) (Fin n) ℝ} (h : A.IsSymm) : AllCloseT ⟨n, n, A⟩ := by
  refine ⟨rfl, fun i hi j hj => ?_⟩
  rw [Mat.at_lt hi hj, Mat.at_lt (A := ⟨n, n, A⟩) hj hi]
  have : A ⟨i, hi⟩ ⟨j, hj⟩ = A ⟨j, hj⟩ ⟨i, hi⟩ := h.apply _ _
  simp only [this, sub_self, abs_zero]
  positivity

theorem posDef_isSymm {A : Matrix (Fin n) (Fin n) ℝ} (h : A.PosDef) : A.IsSymm := by
  have := h.isHermitian
  rwa [Matrix.IsHermitian, Matrix.conjTranspose_eq_transpose_of_trivial] at this

theorem ensurePsd_posDef (svd : Mat → Vec × Mat) {A : Matrix (Fin n) (Fin n) ℝ} (h : A.PosDef) :
    ensurePsd svd ⟨n, n, A⟩ = .ok ⟨n, n, A⟩ := by
  obtain ⟨L, hL⟩ := exists_isCholesky h
  unfold ensurePsd
  rw [if_pos (allCloseT_of_isSymm (posDef_isSymm h)), cholesky_ok hL]

end Verif
