import Verif.Model.Distributions
import Mathlib.Analysis.Real.Sqrt
/-!
# Unscented Kalman filter (moirae/estimators/online/filters/{base.py,kalman/utils.py,kalman/unscented.py})

Real numbers instead of floating point.  `np.linalg.svd` is the parameter `svd`, giving the singular values and the transposed right
singular vectors.  Arrays that are only read are not copied.  No extra keyword arguments are passed to `step` (with any,
`correction_update`, which takes none, raises TypeError).
-/

namespace Verif

/-! ## Covariance repair and gain -/

/-- `L` is a Cholesky factor of `A`: lower triangular with positive diagonal, and `L Lᵀ` agrees with the lower triangle of `A`, the only
part of `A` that LAPACK reads
(moirae/estimators/online/filters/kalman/utils.py:19; moirae/estimators/online/filters/kalman/unscented.py:209). -/
def IsCholesky {n : Nat} (A L : Matrix (Fin n) (Fin n) ℝ) : Prop :=
  (∀ i j, i < j → L i j = 0) ∧ (∀ i, 0 < L i i) ∧ ∀ i j, j ≤ i → (L * L.transpose) i j = A i j

open Classical in
/-- `np.linalg.cholesky(A)` (external): the Cholesky factor, or LinAlgError when there is none or `A` is not square.  There is at most
one factor (`IsCholesky.unique`)
(moirae/estimators/online/filters/kalman/utils.py:19; moirae/estimators/online/filters/kalman/unscented.py:209). -/
noncomputable def cholesky (A : Mat) : Except Err Mat :=
  if h : A.m = A.n then
    let A' : Matrix (Fin A.n) (Fin A.n) ℝ := fun i j => A.get (Fin.cast h.symm i) j
    if h' : ∃ L, IsCholesky A' L then .ok ⟨A.n, A.n, h'.choose⟩ else .error .linAlgError
  else .error .linAlgError

/-- `np.allclose(A, A.T)` with NumPy's default tolerances (external), for a square matrix
(moirae/estimators/online/filters/kalman/utils.py:16). -/
def AllCloseT (A : Mat) : Prop :=
  A.m = A.n ∧ ∀ i < A.m, ∀ j < A.n, |A.at' i j - A.at' j i| ≤ 1 / 10 ^ 8 + 1 / 10 ^ 5 * |A.at' j i|

/-- `enforce_positive_semi_defiteness` (moirae/estimators/online/filters/kalman/utils.py:27-41).  `S_diagonal` is a 1D array, so that both
products are 1D arrays; adding them to a matrix adds them to every row. -/
noncomputable def enforcePsd (svd : Mat → Vec × Mat) (Sig : Mat) : Except Err Mat := do
  let sv := svd Sig
  let h ← Mat.mulVec sv.2.transpose (← Mat.vecMul sv.1 sv.2)
  let a ← Mat.bop (· + ·) Sig Sig.transpose
  let b ← Mat.bop (· + ·) a (.ofRow h)
  let c ← Mat.bop (· + ·) b (.ofRow h)
  return c.map (· / 4)

open Classical in
/-- `ensure_positive_semi_definite` (moirae/estimators/online/filters/kalman/utils.py:5-24). -/
noncomputable def ensurePsd (svd : Mat → Vec × Mat) (Sig : Mat) : Except Err Mat :=
  if AllCloseT Sig then
    match cholesky Sig with
    | .ok _ => .ok Sig
    | .error _ => enforcePsd svd Sig
  else enforcePsd svd Sig

/-- `calculate_gain_matrix` (moirae/estimators/online/filters/kalman/utils.py:44-53). -/
noncomputable def gainMatrix (covXY covY : Mat) : Except Err Mat := do covXY.mul (← covY.inv)

/-! ## Unscented estimates -/

/-- `np.average(samples, axis=0, weights=w)` (external): ValueError when the number of weights is not the number of samples, and
ZeroDivisionError when they sum to 0 (moirae/estimators/online/filters/kalman/unscented.py:32). -/
noncomputable def average (X : Mat) (w : Vec) : Except Err Vec :=
  if w.n ≠ X.m then .error .valueError
  else if ∑ i, w.get i = 0 then .error .zeroDivisionError
  else .ok ⟨X.n, fun j => (∑ i, X.get i j * w.at' i) / ∑ i, w.get i⟩

/-- `compute_unscented_covariance` (moirae/estimators/online/filters/kalman/unscented.py:40-51). -/
noncomputable def unscentedCov (w : Vec) (a0 a1 : Mat) : Except Err Mat := do a0.transpose.mul (← (Mat.diag w).mul a1)

/-- `assemble_unscented_estimate_from_samples` (moirae/estimators/online/filters/kalman/unscented.py:16-36). -/
noncomputable def assemble (X : Mat) (wm wc : Vec) : Except Err (Vec × Mat) := do
  let mu ← average X wm
  let diffs ← Mat.bop (· - ·) X (.ofRow mu)
  let cov ← unscentedCov wc diffs diffs
  return (mu, cov)

/-! ## The filter -/

/-- A `MultivariateRandomDistribution` (moirae/estimators/online/filters/distributions.py:13-60): one of the two kinds. -/
inductive Dist where
  | gaussian (g : Gaussian)
  | delta (d : Delta)

/-- `get_mean` (moirae/estimators/online/filters/distributions.py:89-90,160-161). -/
def Dist.mean : Dist → Vec
  | .gaussian g => g.mean
  | .delta d => d.mean

/-- What a filter needs of a `ModelWrapper` (moirae/estimators/online/filters/base.py:24-93).  A wrapper may remember things between
calls (`DegradationModelWrapper` does): `σ` is what it remembers. -/
structure Wrapper (σ : Type) where
  nHidden : Nat
  nOut : Nat
  update : σ → Mat → Vec → Vec → Except Err (Mat × σ)
  predict : σ → Mat → Vec → Except Err Mat

/-- `UnscentedKalmanFilter` (moirae/estimators/online/filters/kalman/unscented.py:73-140). -/
structure Ukf (σ : Type) where
  model : Wrapper σ
  mem : σ
  hidden : Gaussian
  controls : Dist
  augLen : Nat
  alpha : ℝ
  beta : ℝ
  kappa : ℝ
  covW : Mat
  covV : Mat

namespace Ukf
variable {σ : Type}

/-- The checks of the covariances and the end of `__init__` (moirae/estimators/online/filters/kalman/unscented.py:122-140). -/
noncomputable def makeNoise (model : Wrapper σ) (mem : σ) (hidden : Gaussian) (controls : Dist) (covW covV : Option Mat)
    (alpha beta kappa : ℝ) : Except Err (Ukf σ) :=
  let cw := covW.getD ((Mat.eye model.nHidden).map (1 / 10 ^ 8 * ·))
  let cv := covV.getD ((Mat.eye model.nOut).map (1 / 10 ^ 8 * ·))
  if cw.m ≠ cw.n then .error .assertionError
  else if cv.m ≠ cv.n then .error .assertionError
  else if cw.m ≠ model.nHidden then .error .assertionError
  else if cv.m ≠ model.nOut then .error .assertionError
  else .ok ⟨model, mem, hidden, controls, 2 * model.nHidden + model.nOut, alpha, beta, kappa, cw, cv⟩

open Classical in
/-- `UnscentedKalmanFilter.__init__` (moirae/estimators/online/filters/kalman/unscented.py:91-140); `kappa = none` is `'automatic'`. -/
noncomputable def make (model : Wrapper σ) (mem : σ) (hidden : Gaussian) (controls : Dist) (covW covV : Option Mat) (alpha : ℝ)
    (kappa : Option ℝ) (beta : ℝ) : Except Err (Ukf σ) :=
  if model.nHidden ≠ hidden.dim then .error .assertionError
  else if ¬ 1 / 1000 ≤ alpha then .error .assertionError
  else if ¬ alpha ≤ 1 then .error .assertionError
  else if ¬ 0 ≤ beta then .error .assertionError
  else match kappa with
    | none => makeNoise model mem hidden controls covW covV alpha beta (3 - (2 * model.nHidden + model.nOut : Nat))
    | some k =>
      if ¬ 0 < (2 * model.nHidden + model.nOut : Nat) + k then .error .assertionError
      else makeNoise model mem hidden controls covW covV alpha beta k

/-- `gamma_param` (moirae/estimators/online/filters/kalman/unscented.py:142-144). -/
noncomputable def gamma (f : Ukf σ) : ℝ := f.alpha * Real.sqrt (f.augLen + f.kappa)

/-- `lambda_param` (moirae/estimators/online/filters/kalman/unscented.py:146-148). -/
noncomputable def lambda (f : Ukf σ) : ℝ := f.alpha * f.alpha * (f.augLen + f.kappa) - f.augLen

/-- `mean_weights` (moirae/estimators/online/filters/kalman/unscented.py:150-155). -/
noncomputable def meanWeights (f : Ukf σ) : Vec :=
  ⟨2 * f.augLen + 1, fun i => (if i.1 = 0 then f.lambda else 1 / 2) / (f.alpha * f.alpha * (f.augLen + f.kappa))⟩

/-- `cov_weights` (moirae/estimators/online/filters/kalman/unscented.py:157-161). -/
noncomputable def covWeights (f : Ukf σ) : Vec :=
  ⟨f.meanWeights.n, fun i => if i.1 = 0 then f.meanWeights.get i + (1 - f.alpha * f.alpha + f.beta) else f.meanWeights.get i⟩

/-- `build_sigma_points` (moirae/estimators/online/filters/kalman/unscented.py:190-214). -/
noncomputable def buildSigma (svd : Mat → Vec × Mat) (f : Ukf σ) : Except Err Mat := do
  let xAug := f.hidden.mean.append (.zeros (f.model.nHidden + f.model.nOut))
  let covAug ← ensurePsd svd (Mat.blockDiag [f.hidden.cov, f.covW, f.covV])
  let chol ← cholesky covAug
  let S := chol.transpose
  let a ← Mat.vstack (.ofRow (.zeros f.augLen)) (S.map (f.gamma * ·))
  let b ← a.vstack (S.map (-f.gamma * ·))
  Mat.bop (· + ·) (.ofRow xAug) b

/-- What `estimation_update` returns: the predicted state, the predicted output and their cross-covariance; and what the wrapper
remembers (moirae/estimators/online/filters/kalman/unscented.py:295-333). -/
structure Prediction (σ : Type) where
  x : Gaussian
  y : Gaussian
  covXY : Mat
  mem : σ

/-- `estimation_update` with `_break_sigma_pts`, `_evolve_hidden`, `_predict_outputs` and `_assemble_unscented_estimate`
(moirae/estimators/online/filters/kalman/unscented.py:216-333). -/
noncomputable def estimationUpdate (f : Ukf σ) (sigma : Mat) (new : Dist) : Except Err (Prediction σ) := do
  let dim := f.model.nHidden
  let xHid := sigma.cols 0 dim
  let wHid := sigma.cols dim (2 * dim)
  let vHid := sigma.cols (2 * dim) sigma.n
  let upd ← f.model.update f.mem xHid f.controls.mean new.mean
  let xUpdated ← Mat.bopInto (· + ·) upd.1 wHid
  let xInfo ← assemble xUpdated f.meanWeights f.covWeights
  let xMinus ← Gaussian.make xInfo.1 xInfo.2
  let yRaw ← f.model.predict upd.2 xUpdated new.mean
  let yPreds ← Mat.bopInto (· + ·) yRaw vHid
  let yInfo ← assemble yPreds f.meanWeights f.covWeights
  let yHat ← Gaussian.make yInfo.1 yInfo.2
  let dx ← Mat.bop (· - ·) xUpdated (.ofRow xMinus.mean)
  let dy ← Mat.bop (· - ·) yPreds (.ofRow yHat.mean)
  let covXY ← unscentedCov f.covWeights dx dy
  return ⟨xMinus, yHat, covXY, upd.2⟩

/-- `correction_update` (moirae/estimators/online/filters/kalman/unscented.py:335-362): the new `hidden`. -/
noncomputable def correctionUpdate (svd : Mat → Vec × Mat) (x y : Gaussian) (covXY : Mat) (meas : Dist) : Except Err Gaussian := do
  let l ← gainMatrix covXY y.cov
  let innovation ← Vec.bop (· - ·) meas.mean y.mean
  let mean ← Vec.bop (· + ·) x.mean (← l.mulVec innovation)
  let cov ← Mat.bop (· - ·) x.cov (← l.mul (← y.cov.mul l.transpose))
  let cov ← ensurePsd svd cov
  Gaussian.make mean cov

/-- `step` (moirae/estimators/online/filters/kalman/unscented.py:163-188): the filter afterwards and the returned pair. -/
noncomputable def step (svd : Mat → Vec × Mat) (f : Ukf σ) (new meas : Dist) : Except Err (Ukf σ × (Gaussian × Gaussian)) := do
  let sigma ← f.buildSigma svd
  let p ← f.estimationUpdate sigma new
  let hidden ← correctionUpdate svd p.x p.y p.covXY meas
  return ({ f with hidden := hidden, mem := p.mem, controls := new }, (hidden, p.y))

/-- Any number of steps, with everything returned on the way
(calls of step, moirae/estimators/online/filters/kalman/unscented.py:163-188). -/
noncomputable def run (svd : Mat → Vec × Mat) (f : Ukf σ) : List (Dist × Dist) → Except Err (Ukf σ × List (Gaussian × Gaussian))
  | [] => .ok (f, [])
  | (u, y) :: rest => do
    let r ← f.step svd u y
    let s ← run svd r.1 rest
    return (s.1, r.2 :: s.2)

end Ukf
end Verif
