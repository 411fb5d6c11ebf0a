import Verif.NumPy.Nd
import Mathlib.Data.Real.Basic
import Mathlib.LinearAlgebra.Matrix.NonsingularInverse
/-!
# Real vectors and matrices as NumPy sees them

1D and 2D arrays carry their own lengths, so that operations on arrays that do not fit raise as in NumPy.  For arrays that fit, every
operation is the one of Mathlib's matrices (`Verif/Proofs/Linear.lean`).
-/

namespace Verif

/-- A 1D array (moirae/estimators/online/filters/distributions.py:119). -/
structure Vec where
  n : Nat
  get : Fin n → ℝ

/-- A 2D array (moirae/estimators/online/filters/distributions.py:122). -/
structure Mat where
  m : Nat
  n : Nat
  get : Matrix (Fin m) (Fin n) ℝ

namespace Vec

/-- Entry at a position (0 outside) (used with the functions below in moirae/estimators/online/filters/kalman/unscented.py:16-362). -/
noncomputable def at' (v : Vec) (i : Nat) : ℝ := if h : i < v.n then v.get ⟨i, h⟩ else 0

/-- `np.zeros(n)` (moirae/estimators/online/filters/kalman/unscented.py:200,210). -/
def zeros (n : Nat) : Vec := ⟨n, fun _ => 0⟩

/-- Element-wise function
(moirae/estimators/online/filters/kalman/unscented.py:152-160; moirae/estimators/online/filters/conversions.py:253-258). -/
def map (f : ℝ → ℝ) (v : Vec) : Vec := ⟨v.n, fun i => f (v.get i)⟩

/-- Element-wise binary operator with broadcasting; ValueError when the lengths do not fit
(moirae/estimators/online/filters/kalman/unscented.py:353-357; moirae/estimators/online/filters/conversions.py:161,174). -/
noncomputable def bop (f : ℝ → ℝ → ℝ) (a b : Vec) : Except Err Vec :=
  match Nd.bdim a.n b.n with
  | none => .error .valueError
  | some n => .ok ⟨n, fun i => f (a.at' (if a.n = 1 then 0 else i)) (b.at' (if b.n = 1 then 0 else i))⟩

/-- `np.hstack((a, b))`, `np.concatenate`
(moirae/estimators/online/filters/kalman/unscented.py:199; moirae/estimators/online/joint.py:130,208). -/
noncomputable def append (a b : Vec) : Vec :=
  ⟨a.n + b.n, fun i => if i.1 < a.n then a.at' i else b.at' (i - a.n)⟩

/-- `np.concatenate([…], axis=None)` of 1D arrays (moirae/estimators/online/filters/distributions.py:99,171). -/
noncomputable def concat : List Vec → Vec
  | [] => ⟨0, Fin.elim0⟩
  | [v] => v
  | v :: vs => v.append (concat vs)

end Vec

namespace Mat

/-- Entry at a position (0 outside) (used with the functions below in moirae/estimators/online/filters/kalman/unscented.py:16-362). -/
noncomputable def at' (A : Mat) (i j : Nat) : ℝ := if h : i < A.m ∧ j < A.n then A.get ⟨i, h.1⟩ ⟨j, h.2⟩ else 0

/-- `np.zeros((m, n))` (moirae/estimators/online/filters/distributions.py:94; moirae/interface/__init__.py:106-109). -/
def zeros (m n : Nat) : Mat := ⟨m, n, fun _ _ => 0⟩

/-- `np.diag(v)`
(moirae/estimators/online/filters/kalman/unscented.py:50; moirae/estimators/online/filters/conversions.py:135; moirae/interface/hdf5.py:279). -/
noncomputable def diag (v : Vec) : Mat := ⟨v.n, v.n, fun i j => if i = j then v.get i else 0⟩

/-- `np.eye(n)` (moirae/estimators/online/filters/kalman/unscented.py:126-128; moirae/estimators/online/filters/conversions.py:263). -/
noncomputable def eye (n : Nat) : Mat := diag ⟨n, fun _ => 1⟩

/-- `A.T` (moirae/estimators/online/filters/kalman/unscented.py:50,209,358; moirae/estimators/online/filters/kalman/utils.py:40-41). -/
def transpose (A : Mat) : Mat := ⟨A.n, A.m, fun i j => A.get j i⟩

/-- Element-wise function
(moirae/estimators/online/filters/kalman/unscented.py:126-128,210-212; moirae/estimators/online/filters/kalman/utils.py:41). -/
def map (f : ℝ → ℝ) (A : Mat) : Mat := ⟨A.m, A.n, fun i j => f (A.get i j)⟩

/-- Element-wise binary operator with broadcasting; ValueError when the shapes do not fit
(moirae/estimators/online/filters/kalman/unscented.py:35,358; moirae/estimators/online/filters/kalman/utils.py:41). -/
noncomputable def bop (f : ℝ → ℝ → ℝ) (A B : Mat) : Except Err Mat :=
  match Nd.bdim A.m B.m, Nd.bdim A.n B.n with
  | some m, some n => .ok ⟨m, n, fun i j =>
      f (A.at' (if A.m = 1 then 0 else i) (if A.n = 1 then 0 else j)) (B.at' (if B.m = 1 then 0 else i) (if B.n = 1 then 0 else j))⟩
  | _, _ => .error .valueError

/-- A 1D array in an element-wise operation with a 2D array counts as a single row
(moirae/estimators/online/filters/kalman/unscented.py:35,213; moirae/estimators/online/filters/conversions.py:161). -/
def ofRow (v : Vec) : Mat := ⟨1, v.n, fun _ j => v.get j⟩

/-- `A += B`: the result must have the shape of `A` (moirae/estimators/online/filters/kalman/unscented.py:316,324). -/
noncomputable def bopInto (f : ℝ → ℝ → ℝ) (A B : Mat) : Except Err Mat :=
  match bop f A B with
  | .error e => .error e
  | .ok C => if C.m = A.m ∧ C.n = A.n then .ok C else .error .valueError

/-- `np.matmul(A, B)`
(moirae/estimators/online/filters/kalman/unscented.py:50,358; moirae/estimators/online/filters/kalman/utils.py:53; moirae/estimators/online/filters/conversions.py:161-183). -/
noncomputable def mul (A B : Mat) : Except Err Mat :=
  if A.n = B.m then .ok ⟨A.m, B.n, fun i j => ∑ k : Fin A.n, A.get i k * B.at' k j⟩ else .error .valueError

/-- `np.matmul(A, v)` for a 1D `v`
(moirae/estimators/online/filters/kalman/unscented.py:357; moirae/estimators/online/filters/kalman/utils.py:40). -/
noncomputable def mulVec (A : Mat) (v : Vec) : Except Err Vec :=
  if A.n = v.n then .ok ⟨A.m, fun i => ∑ k : Fin A.n, A.get i k * v.at' k⟩ else .error .valueError

/-- `np.matmul(v, A)` for a 1D `v`
(moirae/estimators/online/filters/kalman/utils.py:40; moirae/estimators/online/filters/conversions.py:161,175). -/
noncomputable def vecMul (v : Vec) (A : Mat) : Except Err Vec :=
  if v.n = A.m then .ok ⟨A.n, fun j => ∑ k : Fin v.n, v.get k * A.at' k j⟩ else .error .valueError

/-- `np.vstack((A, B))`; ValueError when the widths differ (moirae/estimators/online/filters/kalman/unscented.py:210-212). -/
noncomputable def vstack (A B : Mat) : Except Err Mat :=
  if A.n = B.n then .ok ⟨A.m + B.m, A.n, fun i j => if i.1 < A.m then A.at' i j else B.at' (i - A.m) j⟩ else .error .valueError

/-- Columns `[a:b]` (moirae/estimators/online/filters/kalman/unscented.py:229-231). -/
noncomputable def cols (A : Mat) (a b : Nat) : Mat := ⟨A.m, min b A.n - min a A.n, fun i j => A.at' i (min a A.n + j)⟩

/-- `block_diag(A, B)`
(moirae/estimators/online/filters/distributions.py:172; moirae/estimators/online/filters/kalman/unscented.py:203; moirae/estimators/online/joint.py:194-199). -/
noncomputable def block2 (A B : Mat) : Mat :=
  ⟨A.m + B.m, A.n + B.n, fun i j => if i.1 < A.m then (if j.1 < A.n then A.at' i j else 0)
    else if j.1 < A.n then 0 else B.at' (i - A.m) (j - A.n)⟩

/-- `scipy.linalg.block_diag(*As)` (external), for at least one matrix
(moirae/estimators/online/filters/distributions.py:172; moirae/estimators/online/filters/kalman/unscented.py:203; moirae/estimators/online/joint.py:194-199). -/
noncomputable def blockDiag : List Mat → Mat
  | [] => ⟨0, 0, fun i => i.elim0⟩
  | [A] => A
  | A :: As => A.block2 (blockDiag As)

/-- `np.linalg.inv(A)` (external): LinAlgError when `A` is not square or is singular
(moirae/estimators/online/filters/kalman/utils.py:53). -/
noncomputable def inv (A : Mat) : Except Err Mat :=
  if h : A.m = A.n then
    let A' : Matrix (Fin A.n) (Fin A.n) ℝ := fun i j => A.get (Fin.cast h.symm i) j
    if A'.det = 0 then .error .linAlgError else .ok ⟨A.n, A.n, A'⁻¹⟩
  else .error .linAlgError

end Mat
end Verif
