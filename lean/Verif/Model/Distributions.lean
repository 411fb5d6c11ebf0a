import Verif.NumPy.Linear
/-!
# Random distributions and coordinate conversions (moirae/estimators/online/filters/{distributions,conversions}.py)
-/

namespace Verif

/-! ## Conversion operators -/

/-- What a `ConversionOperator` offers (moirae/estimators/online/filters/conversions.py:10-81): conversion of a 1D sample, of a 2D array
of samples, and of a covariance around a pivot, and their inverses. -/
structure Operator where
  samples1 : Vec → Except Err Vec
  samples2 : Mat → Except Err Mat
  covariance : Mat → Vec → Except Err Mat
  invSamples1 : Vec → Except Err Vec
  invSamples2 : Mat → Except Err Mat
  invCovariance : Mat → Vec → Except Err Mat

namespace Operator

/-- `IdentityConversionOperator` (moirae/estimators/online/filters/conversions.py:84-100). -/
def identity : Operator where
  samples1 v := .ok v
  samples2 X := .ok X
  covariance C _ := .ok C
  invSamples1 v := .ok v
  invSamples2 X := .ok X
  invCovariance C _ := .ok C

/-- `LinearConversionOperator` with a scalar `multiplicative_array` `c` (moirae/estimators/online/filters/conversions.py:143-184); `b` is
the flattened `additive_array` (line 124).  `1 / c` with `c = 0` is infinite in NumPy and 0 here. -/
noncomputable def linearScalar (c : ℝ) (b : Vec) : Operator where
  samples1 v := Vec.bop (· + ·) (v.map (c * ·)) b
  samples2 X := Mat.bop (· + ·) (X.map (c * ·)) (.ofRow b)
  covariance C _ := .ok (C.map (c * c * ·))
  invSamples1 v := do return (← Vec.bop (· - ·) v b).map (· * (1 / c))
  invSamples2 X := do return (← Mat.bop (· - ·) X (.ofRow b)).map (· * (1 / c))
  invCovariance C _ := .ok (C.map (1 / c * (1 / c) * ·))

/-- `LinearConversionOperator` with a 2D `multiplicative_array` `M` (moirae/estimators/online/filters/conversions.py:143-184).
`np.linalg.pinv` is the parameter `pinv`.  (`inv_multi` is a cached property; the fields are never reassigned in the package.) -/
noncomputable def linear (pinv : Mat → Mat) (M : Mat) (b : Vec) : Operator where
  samples1 v := do Vec.bop (· + ·) (← Mat.vecMul v M) b
  samples2 X := do Mat.bop (· + ·) (← X.mul M) (.ofRow b)
  covariance C _ := do (← M.transpose.mul C).mul M
  invSamples1 v := do Mat.vecMul (← Vec.bop (· - ·) v b) (pinv M)
  invSamples2 X := do (← Mat.bop (· - ·) X (.ofRow b)).mul (pinv M)
  invCovariance C _ := do (← (pinv M).transpose.mul C).mul (pinv M)

/-- A 1D `multiplicative_array` is stored as a diagonal matrix (moirae/estimators/online/filters/conversions.py:126-136). -/
noncomputable def linear1d (pinv : Mat → Mat) (d : Vec) (b : Vec) : Operator := linear pinv (.diag d) b

/-- `FirstOrderTaylorConversionOperator` (moirae/estimators/online/filters/conversions.py:187-233): sub-classes give the conversion of
samples and the two Jacobians. -/
noncomputable def taylor (s1 : Vec → Except Err Vec) (s2 : Mat → Except Err Mat) (i1 : Vec → Except Err Vec) (i2 : Mat → Except Err Mat)
    (jac invJac : Vec → Except Err Mat) : Operator where
  samples1 := s1
  samples2 := s2
  covariance C p := do let J ← jac p; (← J.transpose.mul C).mul J
  invSamples1 := i1
  invSamples2 := i2
  invCovariance C p := do let J ← invJac p; (← J.transpose.mul C).mul J

/-- One index of NumPy's list indexing along an axis of length `n`: negative ones count from the end; IndexError outside
(moirae/estimators/online/filters/conversions.py:253-258). -/
def resolve1 (n : Nat) (i : Int) : Except Err Nat :=
  if 0 ≤ i ∧ i < n then .ok i.toNat
  else if i < 0 ∧ 0 ≤ i + n then .ok (i + n).toNat
  else .error .indexError

/-- The positions selected by `indices` (moirae/estimators/online/filters/conversions.py:254-257). -/
def resolve (n : Nat) : Option (List Int) → Except Err (List Nat)
  | none => .ok (List.range n)
  | some is => is.mapM (resolve1 n)

/-- `AbsoluteValueConversionOperator.get_jacobian` (moirae/estimators/online/filters/conversions.py:251-258). -/
noncomputable def absJacobian (indices : Option (List Int)) (p : Vec) : Except Err Mat := do
  let sel ← resolve p.n indices
  return .diag ⟨p.n, fun i => if i.1 ∈ sel then (if 0 ≤ p.get i then 1 else -1) else 1⟩

/-- `AbsoluteValueConversionOperator.transform_samples` of a 1D array (moirae/estimators/online/filters/conversions.py:265-274). -/
noncomputable def absSamples1 (indices : Option (List Int)) (v : Vec) : Except Err Vec := do
  let sel ← resolve v.n indices
  return ⟨v.n, fun i => if i.1 ∈ sel then |v.get i| else v.get i⟩

/-- `AbsoluteValueConversionOperator.transform_samples` of a 2D array (moirae/estimators/online/filters/conversions.py:265-274). -/
noncomputable def absSamples2 (indices : Option (List Int)) (X : Mat) : Except Err Mat := do
  let sel ← resolve X.n indices
  return ⟨X.m, X.n, fun i j => if j.1 ∈ sel then |X.get i j| else X.get i j⟩

/-- `AbsoluteValueConversionOperator` (moirae/estimators/online/filters/conversions.py:236-278). -/
noncomputable def abs (indices : Option (List Int)) : Operator :=
  taylor (absSamples1 indices) (absSamples2 indices) (fun v => .ok v) (fun X => .ok X) (absJacobian indices) (fun p => .ok (.eye p.n))

end Operator

/-! ## Distributions -/

/-- `MultivariateGaussian` (moirae/estimators/online/filters/distributions.py:110-124). -/
structure Gaussian where
  mean : Vec
  cov : Mat

/-- `DeltaDistribution` (moirae/estimators/online/filters/distributions.py:63-72). -/
structure Delta where
  mean : Vec

namespace Gaussian

/-- The validation of a `MultivariateGaussian` (moirae/estimators/online/filters/distributions.py:119-158) of a 1D mean and a 2D
covariance: not empty, and of matching dimensions; ValueError (pydantic's ValidationError) otherwise. -/
def make (mean : Vec) (cov : Mat) : Except Err Gaussian :=
  if 1 ≤ mean.n ∧ 1 ≤ cov.m ∧ cov.m = mean.n ∧ cov.n = mean.n then .ok ⟨mean, cov⟩ else .error .valueError

/-- `num_dimensions` (moirae/estimators/online/filters/distributions.py:18-21). -/
def dim (g : Gaussian) : Nat := g.mean.n

/-- `combine_with` (moirae/estimators/online/filters/distributions.py:166-173). -/
noncomputable def combine (g : Gaussian) (gs : List Gaussian) : Except Err Gaussian :=
  make (Vec.concat (g.mean :: gs.map (·.mean))) (Mat.blockDiag (g.cov :: gs.map (·.cov)))

/-- `convert` (moirae/estimators/online/filters/distributions.py:175-185). -/
def convert (g : Gaussian) (op : Operator) (inverse : Bool := false) : Except Err Gaussian :=
  if inverse then do
    let m ← op.invSamples1 g.mean
    let c ← op.invCovariance g.cov g.mean
    make m c
  else do
    let m ← op.samples1 g.mean
    let c ← op.covariance g.cov g.mean
    make m c

end Gaussian

namespace Delta

/-- `num_dimensions` (moirae/estimators/online/filters/distributions.py:18-21). -/
def dim (d : Delta) : Nat := d.mean.n

/-- `get_covariance` (moirae/estimators/online/filters/distributions.py:92-94). -/
def cov (d : Delta) : Mat := .zeros d.mean.n d.mean.n

/-- `combine_with` (moirae/estimators/online/filters/distributions.py:96-100). -/
noncomputable def combine (d : Delta) (ds : List Delta) : Delta := ⟨Vec.concat (d.mean :: ds.map (·.mean))⟩

/-- `convert` (moirae/estimators/online/filters/distributions.py:102-107). -/
def convert (d : Delta) (op : Operator) (inverse : Bool := false) : Except Err Delta :=
  if inverse then do return ⟨← op.invSamples1 d.mean⟩ else do return ⟨← op.samples1 d.mean⟩

end Delta
end Verif
