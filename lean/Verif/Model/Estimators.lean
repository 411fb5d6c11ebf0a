import Verif.Model.Wrappers
/-!
# Online estimators (moirae/estimators/online/{__init__,joint,dual}.py)

Only filters of the package's one kind, `UnscentedKalmanFilter`.  An estimator whose step raises is not used any more.
-/

namespace Verif

/-! ## What all estimators have in common -/

/-- `OnlineEstimator` (moirae/estimators/online/__init__.py:13-55). -/
structure Online where
  cell : Cell
  asoh : HV ℝ
  transients : Container ℝ
  inputs : Container ℝ
  nOutputs : Nat
  outputNames : List Name
  names : List Name

namespace Online

/-- `OnlineEstimator.__init__` (moirae/estimators/online/__init__.py:27-55) with a list of parameters to estimate, the only way it is
called by the estimators of the package. -/
def make (cell : Cell) (asoh : HV ℝ) (transients inputs : Container ℝ) (names : List Name) : Except Err Online := do
  let y ← cell.output inputs transients asoh
  let yn ← y.allNames
  let bt ← transients.batchSize
  if bt ≠ 1 then .error .assertionError
  else do
    let ba ← asoh.batchSize
    if ba ≠ 1 then .error .assertionError
    else return ⟨cell, asoh, transients, inputs, y.len, yn, names⟩

/-- `OnlineEstimator.__init__` (moirae/estimators/online/__init__.py:27-55) with `updatable_asoh` a bool or a list of names. -/
def init (cell : Cell) (asoh : HV ℝ) (transients inputs : Container ℝ) (updatable : Bool ⊕ List Name) : Except Err Online :=
  make cell asoh transients inputs <|
    match updatable with
    | .inl true => asoh.updatableNames
    | .inl false => []
    | .inr names => names

/-- `state_names` (moirae/estimators/online/__init__.py:67-72). -/
def stateNames (o : Online) : Except Err (List Name) := do
  let t ← o.transients.allNames
  let a ← o.asoh.expandNames o.names
  return t ++ a

/-- `num_state_dimensions` (moirae/estimators/online/__init__.py:57-60). -/
def nState (o : Online) : Except Err Nat := do return (← o.stateNames).length

/-- `control_names` (moirae/estimators/online/__init__.py:79-82). -/
def controlNames (o : Online) : Except Err (List Name) := o.inputs.allNames

end Online

/-- The covariance of a noise in filter coordinates (moirae/estimators/online/joint.py:214-225, dual.py:276-287). -/
def noiseToFilter (op : Operator) : Option Mat → Except Err (Option Mat)
  | none => .ok none
  | some c => do return some (← op.invCovariance c (.zeros c.m))

/-- The tuning parameters of a filter (moirae/estimators/online/filters/kalman/unscented.py:54-70). -/
structure Tuning where
  alpha : ℝ
  kappa : Option ℝ
  beta : ℝ

/-- The scales of `normalize_asoh` (moirae/estimators/online/joint.py:124-131, dual.py:184-188): every value, but 1 for a 0. -/
noncomputable def normalizer (asoh : HV ℝ) : Except Err Vec := do
  return (← asoh.getParameters none).flat.map fun x => if x = 0 then 1 else x

/-! ## Joint estimation -/

/-- `JointEstimator` (moirae/estimators/online/joint.py:18-41).  `wrapper` is `filter.model`, both as the wrapper it is and
as what the filter sees of it. -/
structure Joint where
  base : Online
  wrapper : JointWrapper
  filter : Ukf Unit

namespace Joint

/-- `JointEstimator.__init__` (moirae/estimators/online/joint.py:28-41), for a filter using the wrapper `w`. -/
def make (w : JointWrapper) (f : Ukf Unit) : Except Err Joint := do
  let o ← Online.make w.cell w.asoh w.transients w.inputs w.names
  return ⟨o, w, f⟩

/-- `state` (moirae/estimators/online/joint.py:43-45). -/
def state (e : Joint) : Gaussian := e.filter.hidden

/-- `get_estimated_state` (moirae/estimators/online/joint.py:47-51). -/
def getEstimatedState (e : Joint) : Except Err (Container ℝ × HV ℝ) := do
  let r ← e.wrapper.createInputs (.ofRow e.state.mean)
  return (r.2, r.1)

/-- `step` (moirae/estimators/online/joint.py:53-70): the estimator afterwards, the estimate and the predicted output. -/
noncomputable def step (svd : Mat → Vec × Mat) (e : Joint) (inputs meas : Container ℝ) :
    Except Err (Joint × Gaussian × Gaussian) := do
  let u ← convertVals inputs none
  let y ← convertVals meas none
  let u ← u.convert e.wrapper.controlConv true
  let y ← y.convert e.wrapper.outputConv true
  let r ← e.filter.step svd u y
  let est ← r.2.1.convert e.wrapper.hiddenConv
  let out ← r.2.2.convert e.wrapper.outputConv
  return ({ e with filter := r.1 }, est, out)

/-- Any number of steps: the estimator afterwards and everything returned on the way
(calls of step, moirae/estimators/online/joint.py:54-70). -/
noncomputable def run (svd : Mat → Vec × Mat) (e : Joint) :
    List (Container ℝ × Container ℝ) → Except Err (Joint × List (Gaussian × Gaussian))
  | [] => .ok (e, [])
  | (u, y) :: rest => do
    let r ← e.step svd u y
    let s ← run svd r.1 rest
    return (s.1, r.2 :: s.2)

/-- The initial covariance: for the whole state, or for its two parts (moirae/estimators/online/joint.py:192-196).  (Leaving out a part
makes `block_diag` fail or produce an array of objects; not modelled.) -/
noncomputable def jointCov : Mat ⊕ (Mat × Mat) → Mat
  | .inl c => c
  | .inr (t, a) => Mat.blockDiag [t, a]

/-- The process noise (moirae/estimators/online/joint.py:197-200): two parts count only together. -/
noncomputable def jointNoise (whole t a : Option Mat) : Option Mat :=
  match whole with
  | some c => some c
  | none =>
    match t, a with
    | some t, some a => some (Mat.blockDiag [t, a])
    | _, _ => none

/-- `initialize_ukf_from_wrapper` (moirae/estimators/online/joint.py:153-235). -/
noncomputable def fromWrapper (w : JointWrapper) (cov : Mat ⊕ (Mat × Mat)) (inputsCov noise noiseT noiseA sensor : Option Mat)
    (tune : Tuning) : Except Err Joint := do
  let u ← convertVals w.inputs inputsCov
  let t ← w.transients.toNumpy
  let a ← w.asoh.getParameters (some w.names)
  let g ← Gaussian.make (t.flat.append a.flat) (jointCov cov)
  let g ← g.convert w.hiddenConv true
  let u ← u.convert w.controlConv true
  let q ← noiseToFilter w.hiddenConv (jointNoise noise noiseT noiseA)
  let r ← noiseToFilter w.outputConv sensor
  let f ← Ukf.make w.toWrapper () g u q r tune.alpha tune.kappa tune.beta
  make w f

/-- The converter of the hidden state (moirae/estimators/online/joint.py:122-131): the transient states are left alone. -/
noncomputable def converter (pinv : Mat → Mat) (asoh : HV ℝ) (transients : Container ℝ) : Bool → Except Err Operator
  | true => do
    let d ← normalizer asoh
    let t ← transients.toNumpy
    return Operator.linear1d pinv (Vec.append ⟨t.ncol, fun _ => 1⟩ d) (.zeros 1)
  | false => return Operator.identity

/-- `initialize_unscented_kalman_filter` (moirae/estimators/online/joint.py:72-151). -/
noncomputable def initializeUkf (pinv : Mat → Mat) (cell : Cell) (asoh : HV ℝ) (transients inputs : Container ℝ) (cov : Mat ⊕ (Mat × Mat))
    (inputsCov noise noiseT noiseA sensor : Option Mat) (normalize : Bool) (tune : Tuning) : Except Err Joint := do
  let conv ← converter pinv asoh transients normalize
  let w ← JointWrapper.make cell asoh transients inputs none (NoDegradation _ _ _ _) conv .identity .identity
  fromWrapper w cov inputsCov noise noiseT noiseA sensor tune

end Joint

/-! ## Dual estimation -/

/-- `DualEstimator` (moirae/estimators/online/dual.py:34-67).  What the wrappers hold at present (`cell_wrapper.asoh`,
`asoh_wrapper.transients`, `asoh_wrapper._previous_inputs`) is the memory of the filters. -/
structure Dual where
  base : Online
  cellW : CellWrapper
  asohW : DegradationWrapper
  trans : Ukf (HV ℝ)
  asoh : Ukf (Container ℝ × Container ℝ)

/-- What iterating over the argument of `combine_with` may yield: distributions, or the pairs (field, value) that a pydantic model
yields (moirae/estimators/online/filters/distributions.py:168-170). -/
inductive Item where
  | dist (g : Gaussian)
  | pair

/-- `for gaussian in g`: a pydantic model yields its fields `mean` and `covariance` with their values (external)
(moirae/estimators/online/filters/distributions.py:168-170). -/
def Gaussian.items (_ : Gaussian) : List Item := [.pair, .pair]

/-- `gaussian.get_mean()`: a tuple has no such attribute (moirae/estimators/online/filters/distributions.py:168-170). -/
def Item.gaussian : Item → Except Err Gaussian
  | .dist g => .ok g
  | .pair => .error .attributeError

/-- `combine_with` of any iterable (moirae/estimators/online/filters/distributions.py:166-173). -/
noncomputable def Gaussian.combineWith (g : Gaussian) (items : List Item) : Except Err Gaussian := do
  let gs ← items.mapM Item.gaussian
  g.combine gs

namespace Dual

/-- `DualEstimator.__init__` (moirae/estimators/online/dual.py:46-67) for filters using the wrappers `cw` and `aw`. -/
def make (cw : CellWrapper) (aw : DegradationWrapper) (ft : Ukf (HV ℝ)) (fa : Ukf (Container ℝ × Container ℝ)) : Except Err Dual := do
  let o ← Online.make cw.cell aw.asoh cw.transients cw.inputs aw.names
  return ⟨o, cw, aw, ft, fa⟩

/-- `_get_converted_states` (moirae/estimators/online/dual.py:69-87). -/
def converted (e : Dual) : Except Err (Gaussian × Gaussian) := do
  let t ← e.trans.hidden.convert e.cellW.hiddenConv
  let a ← e.asoh.hidden.convert e.asohW.hiddenConv
  return (t, a)

/-- `state` (moirae/estimators/online/dual.py:89-93): the A-SOH distribution itself is given to `combine_with`. -/
noncomputable def state (e : Dual) : Except Err Gaussian := do
  let c ← e.converted
  c.1.combineWith c.2.items

/-- `get_estimated_state` (moirae/estimators/online/dual.py:95-102): no names are given to `make_copy`. -/
def getEstimatedState (e : Dual) : Except Err (Container ℝ × HV ℝ) := do
  let c ← e.converted
  let a ← e.base.asoh.makeCopy c.2.mean.vals none
  return (e.base.transients.makeCopy c.1.mean.vals, a)

/-- `step` (moirae/estimators/online/dual.py:104-137). -/
noncomputable def step (svd : Mat → Vec × Mat) (e : Dual) (inputs meas : Container ℝ) : Except Err (Dual × Gaussian × Gaussian) := do
  let u ← convertVals inputs none
  let y ← convertVals meas none
  let post ← e.getEstimatedState
  let ft := { e.trans with mem := post.2 }
  let fa := { e.asoh with mem := (post.1, e.asoh.mem.2) }
  let rt ← ft.step svd (← u.convert e.cellW.controlConv true) (← y.convert e.cellW.outputConv true)
  let ra ← fa.step svd (← u.convert e.asohW.controlConv true) (← y.convert e.asohW.outputConv true)
  let t ← rt.2.1.convert e.cellW.hiddenConv
  let a ← ra.2.1.convert e.asohW.hiddenConv
  let out ← rt.2.2.convert e.cellW.outputConv
  let _ ← ra.2.2.convert e.asohW.outputConv
  let est ← t.combineWith [.dist a]
  return ({ e with trans := rt.1, asoh := ra.1 }, est, out)

/-- Any number of steps: the estimator afterwards and everything returned on the way
(calls of step, moirae/estimators/online/dual.py:94-137). -/
noncomputable def run (svd : Mat → Vec × Mat) (e : Dual) :
    List (Container ℝ × Container ℝ) → Except Err (Dual × List (Gaussian × Gaussian))
  | [] => .ok (e, [])
  | (u, y) :: rest => do
    let r ← e.step svd u y
    let s ← run svd r.1 rest
    return (s.1, r.2 :: s.2)

open Classical in
/-- `np.allclose(A, B)` with NumPy's default tolerances (external): ValueError when the shapes cannot be broadcast
(moirae/estimators/online/dual.py:253). -/
noncomputable def allClose (A B : Mat) : Except Err Bool := do
  let d ← Mat.bop (fun a b => if |a - b| ≤ 1 / 10 ^ 8 + 1 / 10 ^ 5 * |b| then 0 else 1) A B
  return decide (∀ i j, d.get i j = 0)

/-- `initialize_ukf_from_wrappers` (moirae/estimators/online/dual.py:213-296). -/
noncomputable def fromWrappers (cw : CellWrapper) (aw : DegradationWrapper) (covT covA : Mat) (inputsCov noiseT noiseA sensor : Option Mat)
    (tuneT tuneA : Tuning) : Except Err Dual := do
  let it ← cw.inputs.toNumpy
  let ia ← aw.inputs.toNumpy
  if !(← allClose it.toMat ia.toMat) then .error .assertionError
  else do
    let u ← convertVals cw.inputs inputsCov
    let t ← Gaussian.make (← cw.transients.toNumpy).flat covT
    let a ← Gaussian.make (← aw.asoh.getParameters (some aw.names)).flat covA
    let ft ← Ukf.make cw.toWrapper cw.asoh (← t.convert cw.hiddenConv true) (← u.convert cw.controlConv true)
      (← noiseToFilter cw.hiddenConv noiseT) (← noiseToFilter cw.outputConv sensor) tuneT.alpha tuneT.kappa tuneT.beta
    let fa ← Ukf.make aw.toWrapper (aw.transients, aw.inputs) (← a.convert aw.hiddenConv true) (← u.convert aw.controlConv true)
      (← noiseToFilter aw.hiddenConv noiseA) (← noiseToFilter aw.outputConv sensor) tuneA.alpha tuneA.kappa tuneA.beta
    make cw aw ft fa

/-- The converter of the state of health (moirae/estimators/online/dual.py:182-188). -/
noncomputable def converter (pinv : Mat → Mat) (asoh : HV ℝ) : Bool → Except Err Operator
  | true => do return Operator.linear1d pinv (← normalizer asoh) (.zeros 1)
  | false => return Operator.identity

/-- `initialize_unscented_kalman_filter` (moirae/estimators/online/dual.py:139-211). -/
noncomputable def initializeUkf (pinv : Mat → Mat) (cell : Cell) (asoh : HV ℝ) (transients inputs : Container ℝ) (covT covA : Mat)
    (inputsCov noiseT noiseA sensor : Option Mat) (normalize : Bool) (tuneT tuneA : Tuning) : Except Err Dual := do
  let conv ← converter pinv asoh normalize
  let cw ← CellWrapper.make cell asoh transients inputs .identity .identity .identity
  let aw ← DegradationWrapper.make cell asoh transients inputs none (NoDegradation _ _ _ _) conv .identity .identity
  fromWrappers cw aw covT covA inputsCov noiseT noiseA sensor tuneT tuneA

end Dual
end Verif
