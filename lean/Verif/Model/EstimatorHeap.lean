import Verif.Model.Estimators
import Verif.Model.SimulatorHeap
/-!
# The objects of an online estimator and of its caller

The wrappers of the estimators keep references to the objects they are given (moirae/estimators/online/utils/model.py:68-71), the estimators
themselves and the filters make copies.  Objects and references are those of `Verif/Model/SimulatorHeap.lean`: a state of health, a container, a
distribution or a covariance matrix is one object, whose arrays are not shared with other objects.  Cell models, degradation models, conversion
operators (copied, moirae/estimators/online/filters/base.py:44-46) and numbers are values.  As in `Verif/Model/Estimators.lean` an
estimator is not used any more once a call has raised.
-/

namespace Verif.EstObjects
open Verif SimObjects

/-- All objects (moirae/estimators/online/utils/model.py:53-77). -/
structure Heap where
  asohs : Store (HV ℝ)
  containers : Store (Container ℝ)
  gaussians : Store Gaussian
  controls : Store Dist
  arrays : Store Mat

/-! ## Joint estimation -/

/-- `JointEstimator` with references in place of objects (moirae/estimators/online/joint.py:28-41): those of the wrapper
(moirae/estimators/online/utils/model.py:68-71), those of `OnlineEstimator` (moirae/estimators/online/__init__.py:33-36) and those of the filter
(moirae/estimators/online/filters/base.py:112-115, kalman/unscented.py:139-140).  `rest` has everything else; the objects in it are not looked at. -/
structure JointRefs where
  asoh : Nat
  transients : Nat
  inputs : Nat
  baseAsoh : Nat
  baseTransients : Nat
  baseInputs : Nat
  hidden : Nat
  controls : Nat
  covW : Nat
  covV : Nat
  rest : Joint

/-- The estimator as it is at present: what its references lead to (moirae/estimators/online/joint.py:28-41). -/
noncomputable def JointRefs.view (h : Heap) (e : JointRefs) : Joint :=
  let w : JointWrapper := { e.rest.wrapper with
    asoh := h.asohs.val e.asoh, transients := h.containers.val e.transients, inputs := h.containers.val e.inputs }
  { base := { e.rest.base with
      asoh := h.asohs.val e.baseAsoh, transients := h.containers.val e.baseTransients, inputs := h.containers.val e.baseInputs }
    wrapper := w
    filter := { e.rest.filter with
      model := w.toWrapper, hidden := h.gaussians.val e.hidden, controls := h.controls.val e.controls, covW := h.arrays.val e.covW,
      covV := h.arrays.val e.covV } }

/-- `JointEstimator.step` (moirae/estimators/online/joint.py:53-70) with the caller's objects at `inputs` and `meas`: the filter has new objects for
its estimate and its controls (moirae/estimators/online/filters/kalman/unscented.py:182-188,341), and copies of the estimate and of the predicted
output are converted and returned. -/
noncomputable def JointRefs.step (svd : Mat → Vec × Mat) (h : Heap) (e : JointRefs) (inputs meas : Nat) :
    Except Err (JointRefs × Heap × Nat × Nat) := do
  let r ← (e.view h).step svd (h.containers.val inputs) (h.containers.val meas)
  let (hid, hg) := h.gaussians.alloc r.1.filter.hidden
  let (ctl, hc) := h.controls.alloc r.1.filter.controls
  let (est, hg) := hg.alloc r.2.1
  let (out, hg) := hg.alloc r.2.2
  return ({ e with hidden := hid, controls := ctl }, { h with gaussians := hg, controls := hc }, est, out)

/-- `JointEstimator.get_estimated_state` (moirae/estimators/online/joint.py:47-51): `make_copy` makes new objects. -/
noncomputable def JointRefs.estimated (h : Heap) (e : JointRefs) : Except Err (Heap × Nat × Nat) := do
  let r ← (e.view h).getEstimatedState
  let (x, hx) := h.containers.alloc r.1
  let (a, ha) := h.asohs.alloc r.2
  return ({ h with containers := hx, asohs := ha }, x, a)

/-- `JointEstimator.state` (moirae/estimators/online/joint.py:43-45): a copy. -/
noncomputable def JointRefs.state (h : Heap) (e : JointRefs) : Except Err (Heap × Nat) :=
  let (g, hg) := h.gaussians.copy e.hidden
  .ok ({ h with gaussians := hg }, g)

/-! ## Dual estimation -/

/-- `DualEstimator` with references in place of objects (moirae/estimators/online/dual.py:46-67): the templates of the two wrappers
(moirae/estimators/online/utils/model.py:68-71), what the wrappers have been given for the present step and `_previous_inputs` (:188), the objects of
`OnlineEstimator` (moirae/estimators/online/__init__.py:33-36) and those of the two filters. -/
structure DualRefs where
  cellTransients : Nat
  cellInputs : Nat
  asohAsoh : Nat
  asohInputs : Nat
  cellAsoh : Nat
  asohTransients : Nat
  previousInputs : Nat
  baseAsoh : Nat
  baseTransients : Nat
  baseInputs : Nat
  hiddenT : Nat
  controlsT : Nat
  covWT : Nat
  covVT : Nat
  hiddenA : Nat
  controlsA : Nat
  covWA : Nat
  covVA : Nat
  rest : Dual

/-- The estimator as it is at present (moirae/estimators/online/dual.py:46-67).  As in `Dual`, what the wrappers have been given for a step is the
memory of the filters. -/
noncomputable def DualRefs.view (h : Heap) (e : DualRefs) : Dual :=
  let cw : CellWrapper := { e.rest.cellW with transients := h.containers.val e.cellTransients, inputs := h.containers.val e.cellInputs }
  let aw : DegradationWrapper := { e.rest.asohW with asoh := h.asohs.val e.asohAsoh, inputs := h.containers.val e.asohInputs }
  { base := { e.rest.base with
      asoh := h.asohs.val e.baseAsoh, transients := h.containers.val e.baseTransients, inputs := h.containers.val e.baseInputs }
    cellW := cw
    asohW := aw
    trans := { e.rest.trans with
      model := cw.toWrapper, mem := h.asohs.val e.cellAsoh, hidden := h.gaussians.val e.hiddenT, controls := h.controls.val e.controlsT,
      covW := h.arrays.val e.covWT, covV := h.arrays.val e.covVT }
    asoh := { e.rest.asoh with
      model := aw.toWrapper, mem := (h.containers.val e.asohTransients, h.containers.val e.previousInputs), hidden := h.gaussians.val e.hiddenA,
      controls := h.controls.val e.controlsA, covW := h.arrays.val e.covWA, covV := h.arrays.val e.covVA } }

/-- `DualEstimator.step` (moirae/estimators/online/dual.py:104-137): the wrappers are given copies of the estimates before the step (:114-115), the
filters have new objects for their estimates and controls, and what is returned is made of copies. -/
noncomputable def DualRefs.step (svd : Mat → Vec × Mat) (h : Heap) (e : DualRefs) (inputs meas : Nat) :
    Except Err (DualRefs × Heap × Nat × Nat) := do
  let r ← (e.view h).step svd (h.containers.val inputs) (h.containers.val meas)
  let (ca, hh) := h.asohs.alloc r.1.trans.mem
  let (at', hx) := h.containers.alloc r.1.asoh.mem.1
  let (pi, hx) := hx.alloc r.1.asoh.mem.2
  let (ht, hg) := h.gaussians.alloc r.1.trans.hidden
  let (ha, hg) := hg.alloc r.1.asoh.hidden
  let (ct, hc) := h.controls.alloc r.1.trans.controls
  let (cA, hc) := hc.alloc r.1.asoh.controls
  let (est, hg) := hg.alloc r.2.1
  let (out, hg) := hg.alloc r.2.2
  return ({ e with cellAsoh := ca, asohTransients := at', previousInputs := pi, hiddenT := ht, hiddenA := ha, controlsT := ct, controlsA := cA },
    { h with asohs := hh, containers := hx, gaussians := hg, controls := hc }, est, out)

/-- `DualEstimator.get_estimated_state` (moirae/estimators/online/dual.py:95-102): `make_copy` makes new objects. -/
noncomputable def DualRefs.estimated (h : Heap) (e : DualRefs) : Except Err (Heap × Nat × Nat) := do
  let r ← (e.view h).getEstimatedState
  let (x, hx) := h.containers.alloc r.1
  let (a, ha) := h.asohs.alloc r.2
  return ({ h with containers := hx, asohs := ha }, x, a)

/-- `DualEstimator.state` (moirae/estimators/online/dual.py:89-93), made of copies. -/
noncomputable def DualRefs.state (h : Heap) (e : DualRefs) : Except Err (Heap × Nat) := do
  let g ← (e.view h).state
  let (l, hg) := h.gaussians.alloc g
  return ({ h with gaussians := hg }, l)

/-! ## The caller -/

/-- The methods of an estimator made of references (moirae/estimators/online/__init__.py:84-112). -/
structure Methods (E : Type) where
  step : Heap → E → Nat → Nat → Except Err (E × Heap × Nat × Nat)
  estimated : Heap → E → Except Err (Heap × Nat × Nat)
  state : Heap → E → Except Err (Heap × Nat)

/-- Those of the joint estimator (moirae/estimators/online/joint.py:43-70). -/
noncomputable def joint (svd : Mat → Vec × Mat) : Methods JointRefs := ⟨JointRefs.step svd, JointRefs.estimated, JointRefs.state⟩

/-- Those of the dual estimator (moirae/estimators/online/dual.py:89-137). -/
noncomputable def dual (svd : Mat → Vec × Mat) : Methods DualRefs := ⟨DualRefs.step svd, DualRefs.estimated, DualRefs.state⟩

/-- The references a caller holds: the state of health, the transient state and the inputs it built the estimator from, further inputs and
measurements it made, the covariance matrices it passed, and everything it got back (moirae/estimators/online/joint.py:72-151, dual.py:139-211). -/
structure Caller where
  asoh : Nat
  transients : Nat
  inputs : Nat
  made : List Nat
  arrays : List Nat
  gotTransients : List Nat
  gotAsohs : List Nat
  gotGaussians : List Nat

/-- The inputs and measurements a caller may pass: the inputs the estimator was built from, then those made later
(moirae/estimators/online/__init__.py:98-112). -/
def Caller.mine (c : Caller) : List Nat := c.inputs :: c.made

/-- What a caller does: make an object for inputs or measurements; change one in place (number 0 is the one the estimator was built from); change
the state of health or the transient state the estimator was built from, one of the covariance matrices, or anything returned; call `step` with two of
its objects, `get_estimated_state` or `state` (moirae/estimators/online/__init__.py:84-112). -/
inductive Op where
  | make (v : Container ℝ)
  | setMine (k : Nat) (v : Container ℝ)
  | setAsoh (m : HV ℝ)
  | setTransients (v : Container ℝ)
  | setArray (k : Nat) (A : Mat)
  | setGotTransients (k : Nat) (v : Container ℝ)
  | setGotAsoh (k : Nat) (m : HV ℝ)
  | setGotGaussian (k : Nat) (g : Gaussian)
  | step (i j : Nat)
  | estimated
  | state

/-- What a call returned, as the caller saw it then (moirae/estimators/online/__init__.py:84-112). -/
inductive Result where
  | step (est out : Gaussian)
  | estimated (x : Container ℝ) (m : HV ℝ)
  | state (g : Gaussian)

/-- The program: objects, estimator, caller, and what the calls so far returned (moirae/estimators/online/__init__.py:84-112). -/
structure World (E : Type) where
  heap : Heap
  est : E
  caller : Caller
  seen : List Result

/-- One operation; one on a reference that does not exist does nothing (moirae/estimators/online/__init__.py:84-112). -/
def act {E : Type} (M : Methods E) (w : World E) : Op → Except Err (World E)
  | .make v =>
    let (l, hx) := w.heap.containers.alloc v
    .ok { w with heap := { w.heap with containers := hx }, caller := { w.caller with made := w.caller.made ++ [l] } }
  | .setMine k v =>
    match w.caller.mine[k]? with
    | none => .ok w
    | some l => .ok { w with heap := { w.heap with containers := w.heap.containers.write l v } }
  | .setAsoh m => .ok { w with heap := { w.heap with asohs := w.heap.asohs.write w.caller.asoh m } }
  | .setTransients v => .ok { w with heap := { w.heap with containers := w.heap.containers.write w.caller.transients v } }
  | .setArray k A =>
    match w.caller.arrays[k]? with
    | none => .ok w
    | some l => .ok { w with heap := { w.heap with arrays := w.heap.arrays.write l A } }
  | .setGotTransients k v =>
    match w.caller.gotTransients[k]? with
    | none => .ok w
    | some l => .ok { w with heap := { w.heap with containers := w.heap.containers.write l v } }
  | .setGotAsoh k m =>
    match w.caller.gotAsohs[k]? with
    | none => .ok w
    | some l => .ok { w with heap := { w.heap with asohs := w.heap.asohs.write l m } }
  | .setGotGaussian k g =>
    match w.caller.gotGaussians[k]? with
    | none => .ok w
    | some l => .ok { w with heap := { w.heap with gaussians := w.heap.gaussians.write l g } }
  | .step i j =>
    match w.caller.mine[i]?, w.caller.mine[j]? with
    | some u, some y => do
      let (e, h, est, out) ← M.step w.heap w.est u y
      return ⟨h, e, { w.caller with gotGaussians := w.caller.gotGaussians ++ [est, out] },
        w.seen ++ [.step (h.gaussians.val est) (h.gaussians.val out)]⟩
    | _, _ => .ok w
  | .estimated => do
    let (h, x, a) ← M.estimated w.heap w.est
    return ⟨h, w.est, { w.caller with gotTransients := w.caller.gotTransients ++ [x], gotAsohs := w.caller.gotAsohs ++ [a] },
      w.seen ++ [.estimated (h.containers.val x) (h.asohs.val a)]⟩
  | .state => do
    let (h, g) ← M.state w.heap w.est
    return ⟨h, w.est, { w.caller with gotGaussians := w.caller.gotGaussians ++ [g] }, w.seen ++ [.state (h.gaussians.val g)]⟩

/-- Any sequence of operations, until a call raises (moirae/estimators/online/__init__.py:84-112). -/
def exec {E : Type} (M : Methods E) (w : World E) : List Op → Except Err (World E)
  | [] => .ok w
  | op :: ops => do exec M (← act M w op) ops

/-! ## Building an estimator -/

/-- The references among the optional arguments (moirae/estimators/online/joint.py:153-165). -/
def refs (l : List (Option Nat)) : List Nat := l.filterMap id

/-- The program right after `JointCellModelWrapper(...)` and `initialize_ukf_from_wrapper` (moirae/estimators/online/utils/model.py:290-306,
joint.py:153-235; `initialize_unscented_kalman_filter` is this with the converter of moirae/estimators/online/joint.py:122-131) were called with the
caller's objects at `asoh`, `transients`, `inputs` and the arrays at `cov`, `inputsCov`, `noise` and `sensor`.  The wrapper keeps the first three
themselves; everything else is copied. -/
noncomputable def startJoint (h : Heap) (cell : Cell) (names : Option (List Name)) (deg : Degradation) (hiddenConv controlConv outputConv : Operator)
    (asoh transients inputs cov : Nat) (inputsCov noise sensor : Option Nat) (tune : Tuning) : Except Err (World JointRefs) := do
  let w ← JointWrapper.make cell (h.asohs.val asoh) (h.containers.val transients) (h.containers.val inputs) names deg hiddenConv controlConv outputConv
  let v ← Joint.fromWrapper w (.inl (h.arrays.val cov)) (inputsCov.map h.arrays.val) (noise.map h.arrays.val) none none (sensor.map h.arrays.val) tune
  let (hid, hg) := h.gaussians.alloc v.filter.hidden
  let (ctl, hc) := h.controls.alloc v.filter.controls
  let (cw, har) := h.arrays.alloc v.filter.covW
  let (cv, har) := har.alloc v.filter.covV
  let (oa, hh) := h.asohs.copy asoh
  let (ot, hx) := h.containers.copy transients
  let (oi, hx) := hx.copy inputs
  return ⟨⟨hh, hx, hg, hc, har⟩, ⟨asoh, transients, inputs, oa, ot, oi, hid, ctl, cw, cv, v⟩,
    ⟨asoh, transients, inputs, [], cov :: refs [inputsCov, noise, sensor], [], [], []⟩, []⟩

/-- The program right after the two wrappers were made of the caller's objects and `initialize_ukf_from_wrappers` was called
(moirae/estimators/online/utils/model.py:88-96,169-189, dual.py:213-296; `initialize_unscented_kalman_filter` is this with the converter of
moirae/estimators/online/dual.py:182-188 and no others).  Both wrappers keep the caller's objects; `_previous_inputs` is a copy. -/
noncomputable def startDual (h : Heap) (cell : Cell) (names : Option (List Name)) (deg : Degradation)
    (hiddenConv controlConv outputConv hiddenConvA controlConvA outputConvA : Operator) (asoh transients inputs covT covA : Nat)
    (inputsCov noiseT noiseA sensor : Option Nat) (tuneT tuneA : Tuning) : Except Err (World DualRefs) := do
  let cw ← CellWrapper.make cell (h.asohs.val asoh) (h.containers.val transients) (h.containers.val inputs) hiddenConv controlConv outputConv
  let aw ← DegradationWrapper.make cell (h.asohs.val asoh) (h.containers.val transients) (h.containers.val inputs) names deg
    hiddenConvA controlConvA outputConvA
  let v ← Dual.fromWrappers cw aw (h.arrays.val covT) (h.arrays.val covA) (inputsCov.map h.arrays.val) (noiseT.map h.arrays.val)
    (noiseA.map h.arrays.val) (sensor.map h.arrays.val) tuneT tuneA
  let (ht, hg) := h.gaussians.alloc v.trans.hidden
  let (ha, hg) := hg.alloc v.asoh.hidden
  let (ct, hc) := h.controls.alloc v.trans.controls
  let (ca, hc) := hc.alloc v.asoh.controls
  let (wt, har) := h.arrays.alloc v.trans.covW
  let (vt, har) := har.alloc v.trans.covV
  let (wa, har) := har.alloc v.asoh.covW
  let (va, har) := har.alloc v.asoh.covV
  let (oa, hh) := h.asohs.copy asoh
  let (ot, hx) := h.containers.copy transients
  let (oi, hx) := hx.copy inputs
  let (pi, hx) := hx.copy inputs
  return ⟨⟨hh, hx, hg, hc, har⟩,
    ⟨transients, inputs, asoh, inputs, asoh, transients, pi, oa, ot, oi, ht, ct, wt, vt, ha, ca, wa, va, v⟩,
    ⟨asoh, transients, inputs, [], covT :: covA :: refs [inputsCov, noiseT, noiseA, sensor], [], [], []⟩, []⟩

end Verif.EstObjects
