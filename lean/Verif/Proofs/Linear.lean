import Verif.NumPy.Linear
import Mathlib.LinearAlgebra.Matrix.PosDef
import Mathlib.Data.Real.Star
/-!
# On arrays that fit, the array operations are Mathlib's
-/

namespace Verif
open Matrix

theorem bdim_self (n : Nat) : Nd.bdim n n = some n := by simp [Nd.bdim]

namespace Vec

theorem at_lt {v : Vec} {i : Nat} (h : i < v.n) : v.at' i = v.get ⟨i, h⟩ := by simp [at', h]

@[simp] theorem at_fin {n : Nat} (f : Fin n → ℝ) (i : Fin n) : at' ⟨n, f⟩ i = f i := by simp [at']

theorem ext_at {a b : Vec} (h : a.n = b.n) (he : ∀ i < a.n, a.at' i = b.at' i) : a = b := by
  obtain ⟨n, f⟩ := a
  obtain ⟨m, g⟩ := b
  simp only at h
  subst h
  congr 1
  funext i
  have := he i i.2
  simpa using this

theorem bop_of (f : ℝ → ℝ → ℝ) {n : Nat} (a b : Fin n → ℝ) : bop f ⟨n, a⟩ ⟨n, b⟩ = .ok ⟨n, fun i => f (a i) (b i)⟩ := by
  unfold bop
  simp only [bdim_self]
  congr 2
  funext i
  have : (if n = 1 then 0 else (i : Nat)) = i := by
    split
    · have := i.2; omega
    · rfl
  simp only [this, at_fin]

theorem bop_one (f : ℝ → ℝ → ℝ) {n : Nat} (a : Fin n → ℝ) (b : Fin 1 → ℝ) :
    bop f ⟨n, a⟩ ⟨1, b⟩ = .ok ⟨n, fun i => f (a i) (b 0)⟩ := by
  by_cases h : n = 1
  · subst h
    rw [bop_of]
    congr 2
    funext i
    rw [Subsingleton.elim i 0]
  · have hd : Nd.bdim n 1 = some n := by simp [Nd.bdim, h]
    unfold bop
    simp only [hd]
    congr 2
    funext i
    simp only [h, if_false, if_true, at_fin]
    have : at' ⟨1, b⟩ 0 = b 0 := at_fin b 0
    rw [this]

end Vec

namespace Mat

theorem at_lt {A : Mat} {i j : Nat} (hi : i < A.m) (hj : j < A.n) : A.at' i j = A.get ⟨i, hi⟩ ⟨j, hj⟩ := by simp [at', hi, hj]

@[simp] theorem at_fin {m n : Nat} (A : Matrix (Fin m) (Fin n) ℝ) (i : Fin m) (j : Fin n) : at' ⟨m, n, A⟩ i j = A i j := by simp [at']

theorem ext_at {A B : Mat} (hm : A.m = B.m) (hn : A.n = B.n) (he : ∀ i < A.m, ∀ j < A.n, A.at' i j = B.at' i j) : A = B := by
  obtain ⟨m, n, f⟩ := A
  obtain ⟨m', n', g⟩ := B
  simp only at hm hn
  subst hm hn
  congr 1
  funext i j
  have := he i i.2 j j.2
  simpa using this

theorem clip_fin {n : Nat} (i : Fin n) : (if n = 1 then 0 else (i : Nat)) = i := by
  split
  · have := i.2; omega
  · rfl

theorem bop_of (f : ℝ → ℝ → ℝ) {m n : Nat} (A B : Matrix (Fin m) (Fin n) ℝ) :
    bop f ⟨m, n, A⟩ ⟨m, n, B⟩ = .ok ⟨m, n, fun i j => f (A i j) (B i j)⟩ := by
  unfold bop
  simp only [bdim_self]
  congr 2
  funext i j
  simp only [clip_fin, at_fin]

theorem bopInto_of (f : ℝ → ℝ → ℝ) {m n : Nat} (A B : Matrix (Fin m) (Fin n) ℝ) :
    bopInto f ⟨m, n, A⟩ ⟨m, n, B⟩ = .ok ⟨m, n, fun i j => f (A i j) (B i j)⟩ := by
  unfold bopInto
  rw [bop_of]
  simp

/-- Adding a row vector to every row. -/
theorem bop_row (f : ℝ → ℝ → ℝ) {m n : Nat} (A : Matrix (Fin m) (Fin n) ℝ) (b : Fin n → ℝ) :
    bop f ⟨m, n, A⟩ (.ofRow ⟨n, b⟩) = .ok ⟨m, n, fun i j => f (A i j) (b j)⟩ := by
  have hd : Nd.bdim m 1 = some m := by unfold Nd.bdim; split <;> simp_all
  unfold bop ofRow
  simp only [hd, bdim_self]
  congr 2
  funext i j
  simp only [clip_fin, at_fin, if_true]
  have : at' ⟨1, n, fun _ j => b j⟩ 0 j = b j := at_fin (m := 1) (fun _ j => b j) 0 j
  rw [this]

/-- Adding a single number to every entry. -/
theorem bop_row_one (f : ℝ → ℝ → ℝ) {m n : Nat} (A : Matrix (Fin m) (Fin n) ℝ) (b : Fin 1 → ℝ) :
    bop f ⟨m, n, A⟩ (.ofRow ⟨1, b⟩) = .ok ⟨m, n, fun i j => f (A i j) (b 0)⟩ := by
  have hd : Nd.bdim m 1 = some m := by unfold Nd.bdim; split <;> simp_all
  have hd' : Nd.bdim n 1 = some n := by unfold Nd.bdim; split <;> simp_all
  unfold bop ofRow
  simp only [hd, hd']
  congr 2
  funext i j
  simp only [clip_fin, at_fin, if_true]
  have : at' ⟨1, 1, fun _ j => b j⟩ 0 0 = b 0 := at_fin (m := 1) (n := 1) (fun _ j => b j) 0 0
  rw [this]

theorem mul_of {m n k : Nat} (A : Matrix (Fin m) (Fin n) ℝ) (B : Matrix (Fin n) (Fin k) ℝ) :
    mul ⟨m, n, A⟩ ⟨n, k, B⟩ = .ok ⟨m, k, A * B⟩ := by
  unfold mul
  rw [if_pos rfl]
  congr 2
  funext i j
  simp only [at_fin, Matrix.mul_apply]

theorem mulVec_of {m n : Nat} (A : Matrix (Fin m) (Fin n) ℝ) (v : Fin n → ℝ) :
    mulVec ⟨m, n, A⟩ ⟨n, v⟩ = .ok ⟨m, A *ᵥ v⟩ := by
  unfold mulVec
  rw [if_pos rfl]
  congr 2
  funext i
  simp only [Vec.at_fin, Matrix.mulVec, dotProduct]

theorem vecMul_of {m n : Nat} (v : Fin m → ℝ) (A : Matrix (Fin m) (Fin n) ℝ) :
    vecMul ⟨m, v⟩ ⟨m, n, A⟩ = .ok ⟨n, v ᵥ* A⟩ := by
  unfold vecMul
  rw [if_pos rfl]
  congr 2
  funext i
  simp only [at_fin, Matrix.vecMul, dotProduct]

theorem transpose_of {m n : Nat} (A : Matrix (Fin m) (Fin n) ℝ) : transpose ⟨m, n, A⟩ = ⟨n, m, Aᵀ⟩ := rfl

theorem diag_of {n : Nat} (v : Fin n → ℝ) : diag ⟨n, v⟩ = ⟨n, n, Matrix.diagonal v⟩ := by
  unfold diag
  rfl

theorem eye_of (n : Nat) : eye n = ⟨n, n, 1⟩ := by
  unfold eye
  rw [diag_of]
  exact congrArg (Mat.mk n n) Matrix.diagonal_one

theorem inv_of {n : Nat} (A : Matrix (Fin n) (Fin n) ℝ) (h : A.det ≠ 0) : inv ⟨n, n, A⟩ = .ok ⟨n, n, A⁻¹⟩ := by
  unfold inv
  simp only [dite_true, Fin.cast_eq_self]
  rw [if_neg h]

theorem inv_singular {n : Nat} (A : Matrix (Fin n) (Fin n) ℝ) (h : A.det = 0) : inv ⟨n, n, A⟩ = .error .linAlgError := by
  unfold inv
  simp only [dite_true, Fin.cast_eq_self]
  rw [if_pos h]

end Mat

/-- Sequencing of computations that succeed. -/
@[simp] theorem ok_bind {α β : Type} (a : α) (f : α → Except Err β) : (Except.ok a >>= f) = f a := rfl

@[simp] theorem error_bind {α β : Type} (e : Err) (f : α → Except Err β) : ((Except.error e : Except Err α) >>= f) = .error e := rfl

@[simp] theorem pure_eq_ok {α : Type} (a : α) : (pure a : Except Err α) = .ok a := rfl

end Verif
