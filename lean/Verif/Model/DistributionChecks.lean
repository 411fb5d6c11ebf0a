import Verif.Model.Distributions
import Verif.NumPy.NDArray
/-!
# What distributions and conversion operators accept (moirae/estimators/online/filters/{distributions,conversions}.py)

The validation of arrays of any number of dimensions.  pydantic (external) turns every ValueError of a validator into its own
ValidationError, which is a ValueError; other exceptions pass through it.
-/

namespace Verif

/-- `x.flatten()` (moirae/estimators/online/filters/distributions.py:87,139; moirae/estimators/online/filters/conversions.py:124). -/
def NDArray.flatten (x : NDArray ℝ) : Vec := ⟨x.data.length, fun i => x.data.get i⟩

/-- An array with shape `(m, n)` as a 2D array
(moirae/estimators/online/filters/distributions.py:145-148; moirae/estimators/online/filters/conversions.py:133-138). -/
noncomputable def NDArray.toMat (x : NDArray ℝ) (m n : Nat) : Mat := ⟨m, n, fun i j => x.data.getD (i * n + j) 0⟩

/-- `Field(min_length=1)` (moirae/estimators/online/filters/distributions.py:119-124): pydantic takes `len(x)`, a TypeError for an
array without dimensions. -/
def minLength1 (x : NDArray ℝ) : Except Err Unit :=
  match x.shape with
  | [] => .error .typeError
  | n :: _ => if n < 1 then .error .valueError else .ok ()

/-- `mean_1d` (moirae/estimators/online/filters/distributions.py:74-87 and 126-139, the same code twice). -/
def mean1d (mu : NDArray ℝ) : Except Err Vec :=
  if mu.shape = [] then .error .valueError
  else if mu.ndim > 2 ∨ (mu.ndim = 2 ∧ 1 ∉ mu.shape) then .error .valueError
  else if mu.ndim = 2 then .error .valueError
  else .ok mu.flatten

/-- `cov_2d` (moirae/estimators/online/filters/distributions.py:141-148). -/
noncomputable def cov2d (sigma : NDArray ℝ) : Except Err Mat :=
  match sigma.shape with
  | [m, n] => .ok (sigma.toMat m n)
  | _ => .error .valueError

/-- `DeltaDistribution(mean=mu)` (moirae/estimators/online/filters/distributions.py:63-87). -/
def Delta.validate (mu : NDArray ℝ) : Except Err Delta := do return ⟨← mean1d mu⟩

/-- `MultivariateGaussian(mean=mu, covariance=sigma)` (moirae/estimators/online/filters/distributions.py:110-158): pydantic validates
both fields before it reports a ValueError of either, and runs `fields_dim` only when both are valid. -/
noncomputable def Gaussian.validate (mu sigma : NDArray ℝ) : Except Err Gaussian :=
  match (minLength1 mu >>= fun _ => mean1d mu), (minLength1 sigma >>= fun _ => cov2d sigma) with
  | .ok m, .ok c => if c.m = m.n ∧ c.n = m.n then .ok ⟨m, c⟩ else .error .valueError
  | .error .typeError, _ => .error .typeError
  | _, .error .typeError => .error .typeError
  | _, _ => .error .valueError

/-- `additive_1d` (moirae/estimators/online/filters/conversions.py:116-124): `None`, which the annotation of the field admits, has no
`ndim`. -/
def additive1d : Option (NDArray ℝ) → Except Err Vec
  | none => .error .attributeError
  | some b => if b.ndim > 1 then .error .valueError else .ok b.flatten

/-- `multiplicative_2d` (moirae/estimators/online/filters/conversions.py:126-136): a number or a 2D array. -/
noncomputable def multiplicative2d (M : NDArray ℝ) : Except Err (ℝ ⊕ Mat) :=
  match M.shape with
  | [] => .ok (.inl (M.data.getD 0 0))
  | [_] => .ok (.inr (.diag M.flatten))
  | [m, n] => .ok (.inr (M.toMat m n))
  | _ => .error .valueError

/-- `LinearConversionOperator(multiplicative_array=M, additive_array=b)` (moirae/estimators/online/filters/conversions.py:103-184).  The
fields are validated in this order; an AttributeError passes even when the first field is invalid. -/
noncomputable def Operator.linearOf (pinv : Mat → Mat) (M : NDArray ℝ) (b : Option (NDArray ℝ)) : Except Err Operator :=
  match multiplicative2d M, additive1d b with
  | .ok (.inl c), .ok b => .ok (.linearScalar c b)
  | .ok (.inr M), .ok b => .ok (.linear pinv M b)
  | _, .error .attributeError => .error .attributeError
  | _, _ => .error .valueError

end Verif
