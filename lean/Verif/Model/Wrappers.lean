import Verif.Model.Container
import Verif.Model.Expand
import Verif.Model.Simulator
import Verif.Model.Ukf
/-!
# Wrappers between cell models and filters (moirae/estimators/online/utils/model.py)

The arrays inside model objects (`Arr2`) and the arrays the filters work on (`Mat`, `Vec`) are the same NumPy objects; `Mat.toArr2` and
`Arr2.toMat` pass from one description to the other.  Cell models are functions of values; every `model_copy(deep=True)` disappears.
-/

namespace Verif

/-! ## Arrays -/

/-- A 2D array of the filters as a 2D array of the model objects (same entries) (moirae/estimators/online/utils/model.py:107-112). -/
def Mat.toArr2 (A : Mat) : Arr2 ℝ := ⟨A.n, List.ofFn fun i => List.ofFn (A.get i), by
  intro r hr
  obtain ⟨i, rfl⟩ := (List.mem_ofFn' _ _).1 hr
  simp⟩

/-- The other way round (moirae/estimators/online/utils/model.py:121). -/
def Arr2.toMat (a : Arr2 ℝ) : Mat := ⟨a.nrow, a.ncol, fun i j => (a.rows.getD i []).getD j 0⟩

/-- A 1D array given to `make_copy` (moirae/estimators/online/utils/model.py:109-112). -/
def Vec.vals (v : Vec) : Vals ℝ := .d1 (List.ofFn v.get)

/-- `a.flatten()` of a 2D array (moirae/estimators/online/utils/model.py:28-29). -/
def Arr2.flat (a : Arr2 ℝ) : Vec := ⟨a.rows.flatten.length, fun i => a.rows.flatten.get i⟩

/-- `A[:, lo:hi] = B` for `lo ≤ hi`: `B` is broadcast to the selected columns; ValueError when it does not fit
(moirae/estimators/online/utils/model.py:386-387). -/
noncomputable def Mat.setCols (A : Mat) (lo hi : Nat) (B : Mat) : Except Err Mat :=
  if (B.m = A.m ∨ B.m = 1) ∧ (B.n = min hi A.n - min lo A.n ∨ B.n = 1) then
    .ok ⟨A.m, A.n, fun i j => if lo ≤ j.1 ∧ j.1 < hi then
      B.at' (if B.m = 1 then 0 else i) (if B.n = 1 then 0 else j - lo) else A.get i j⟩
  else .error .valueError

/-! ## Distributions of model quantities -/

/-- `convert` of either kind of distribution (moirae/estimators/online/filters/distributions.py:102-107,175-185). -/
def Dist.convert (d : Dist) (op : Operator) (inverse : Bool := false) : Except Err Dist :=
  match d with
  | .gaussian g => (g.convert op inverse).map .gaussian
  | .delta d => (d.convert op inverse).map .delta

/-- `convert_vals_model_to_filter` (moirae/estimators/online/utils/model.py:12-29). -/
def convertVals (q : Container ℝ) (uncertainty : Option Mat) : Except Err Dist := do
  let v ← q.toNumpy
  match uncertainty with
  | none => return .delta ⟨v.flat⟩
  | some c => return .gaussian (← Gaussian.make v.flat c)

/-! ## The common part -/

/-- A cell model acting on containers and health variables (moirae/models/base.py:568-613). -/
abbrev Cell := CellModel (Container ℝ) (Container ℝ) (HV ℝ) (Container ℝ)

/-- A degradation model acting on them (moirae/models/base.py:616-642). -/
abbrev Degradation := DegradationModel (Container ℝ) (Container ℝ) (HV ℝ) (Container ℝ)

/-- `BaseCellWrapper` (moirae/estimators/online/utils/model.py:32-77) with the converters of `ModelWrapper`
(moirae/estimators/online/filters/base.py:41-53). -/
structure BaseWrapper where
  cell : Cell
  asoh : HV ℝ
  transients : Container ℝ
  inputs : Container ℝ
  hiddenConv : Operator
  controlConv : Operator
  outputConv : Operator
  nOut : Nat

namespace BaseWrapper

/-- `BaseCellWrapper.__init__` (moirae/estimators/online/utils/model.py:53-77). -/
def make (cell : Cell) (asoh : HV ℝ) (transients inputs : Container ℝ) (hiddenConv controlConv outputConv : Operator) :
    Except Err BaseWrapper := do
  let ba ← asoh.batchSize
  if ba > 1 then .error .valueError
  else do
    let bt ← transients.batchSize
    if bt > 1 then .error .valueError
    else do
      let y ← cell.output inputs transients asoh
      let v ← y.toNumpy
      return ⟨cell, asoh, transients, inputs, hiddenConv, controlConv, outputConv, v.ncol⟩

/-- Controls of the filter as inputs of the model (moirae/estimators/online/utils/model.py:109-112 and elsewhere). -/
def toInputs (b : BaseWrapper) (u : Vec) : Except Err (Container ℝ) := do
  return b.inputs.makeCopy (← b.controlConv.samples1 u).vals

/-- Outputs of the model as outputs of the filter (moirae/estimators/online/utils/model.py:141,262,403). -/
def fromOutputs (b : BaseWrapper) (y : Container ℝ) : Except Err Mat := do
  b.outputConv.invSamples2 (← y.toNumpy).toMat

end BaseWrapper

/-! ## Transient states only -/

/-- `CellModelWrapper` (moirae/estimators/online/utils/model.py:84-100). -/
structure CellWrapper extends BaseWrapper where
  nTransients : Nat

namespace CellWrapper

/-- `CellModelWrapper.__init__` (moirae/estimators/online/utils/model.py:88-96). -/
def make (cell : Cell) (asoh : HV ℝ) (transients inputs : Container ℝ) (hiddenConv controlConv outputConv : Operator) :
    Except Err CellWrapper := do
  let b ← BaseWrapper.make cell asoh transients inputs hiddenConv controlConv outputConv
  let v ← transients.toNumpy
  return ⟨b, v.ncol⟩

/-- `CellModelWrapper.update_hidden_states` (moirae/estimators/online/utils/model.py:102-123) with the current `self.asoh`. -/
def update (w : CellWrapper) (asoh : HV ℝ) (hidden : Mat) (prev new : Vec) : Except Err Mat := do
  let x ← w.hiddenConv.samples2 hidden
  let tr := w.transients.makeCopy (.d2 x.toArr2)
  let prevIn ← w.toInputs prev
  let newIn ← w.toInputs new
  let tr' ← w.cell.update prevIn newIn tr asoh
  w.hiddenConv.invSamples2 (← tr'.toNumpy).toMat

/-- `CellModelWrapper.predict_measurement` (moirae/estimators/online/utils/model.py:125-143). -/
def predict (w : CellWrapper) (asoh : HV ℝ) (hidden : Mat) (u : Vec) : Except Err Mat := do
  let x ← w.hiddenConv.samples2 hidden
  let tr := w.transients.makeCopy (.d2 x.toArr2)
  let inp ← w.toInputs u
  let y ← w.cell.output inp tr asoh
  w.fromOutputs y

/-- What the filter sees.  `self.asoh`, which the dual estimator replaces before every step, is the wrapper's memory
(moirae/estimators/online/utils/model.py:98-143). -/
def toWrapper (w : CellWrapper) : Wrapper (HV ℝ) where
  nHidden := w.nTransients
  nOut := w.nOut
  update asoh hidden prev new := do return (← w.update asoh hidden prev new, asoh)
  predict asoh hidden u := w.predict asoh hidden u

end CellWrapper

/-! ## State of health only -/

/-- `DegradationModelWrapper` (moirae/estimators/online/utils/model.py:146-193). -/
structure DegradationWrapper extends BaseWrapper where
  names : List Name
  nTransients : Nat
  nAsoh : Nat
  deg : Degradation

namespace DegradationWrapper

/-- `DegradationModelWrapper.__init__` (moirae/estimators/online/utils/model.py:169-189). -/
def make (cell : Cell) (asoh : HV ℝ) (transients inputs : Container ℝ) (names : Option (List Name)) (deg : Degradation)
    (hiddenConv controlConv outputConv : Operator) : Except Err DegradationWrapper := do
  let b ← BaseWrapper.make cell asoh transients inputs hiddenConv controlConv outputConv
  let ns := names.getD asoh.updatableNames
  let v ← transients.toNumpy
  let p ← asoh.getParameters (some ns)
  return ⟨b, ns, v.ncol, p.ncol, deg⟩

/-- `_convert_hidden_to_asoh` (moirae/estimators/online/utils/model.py:195-201). -/
def toAsoh (w : DegradationWrapper) (hidden : Mat) : Except Err (HV ℝ) := do
  w.asoh.makeCopy (.d2 (← w.hiddenConv.samples2 hidden).toArr2) (some w.names)

/-- `DegradationModelWrapper.update_hidden_states` (moirae/estimators/online/utils/model.py:203-235) with the current
`self.transients`: the new hidden states and `self._previous_inputs`. -/
def update (w : DegradationWrapper) (transients : Container ℝ) (hidden : Mat) (prev new : Vec) : Except Err (Mat × Container ℝ) := do
  let prevIn ← w.toInputs prev
  let asoh ← w.toAsoh hidden
  let newIn ← w.toInputs new
  let y ← w.cell.output newIn transients asoh
  let asoh' ← w.deg.update asoh newIn transients y
  let h ← w.hiddenConv.invSamples2 (← asoh'.getParameters (some w.names)).toMat
  return (h, prevIn)

/-- `DegradationModelWrapper.predict_measurement` (moirae/estimators/online/utils/model.py:237-263) with the current
`self.transients` and `self._previous_inputs`. -/
def predict (w : DegradationWrapper) (transients prevIn : Container ℝ) (hidden : Mat) (u : Vec) : Except Err Mat := do
  let inp ← w.toInputs u
  let asoh ← w.toAsoh hidden
  let tr ← w.cell.update prevIn inp transients asoh
  let y ← w.cell.output inp tr asoh
  w.fromOutputs y

/-- What the filter sees.  The wrapper's memory is `self.transients`, which the dual estimator replaces before every step, and
`self._previous_inputs` (moirae/estimators/online/utils/model.py:203-263). -/
def toWrapper (w : DegradationWrapper) : Wrapper (Container ℝ × Container ℝ) where
  nHidden := w.nAsoh
  nOut := w.nOut
  update mem hidden prev new := do
    let r ← w.update mem.1 hidden prev new
    return (r.1, (mem.1, r.2))
  predict mem hidden u := w.predict mem.1 mem.2 hidden u

end DegradationWrapper

/-! ## Both together -/

/-- `JointCellModelWrapper` (moirae/estimators/online/utils/model.py:266-310). -/
structure JointWrapper extends BaseWrapper where
  names : List Name
  nTransients : Nat
  nAsoh : Nat
  deg : Degradation

namespace JointWrapper

/-- `JointCellModelWrapper.__init__` (moirae/estimators/online/utils/model.py:290-306). -/
def make (cell : Cell) (asoh : HV ℝ) (transients inputs : Container ℝ) (names : Option (List Name)) (deg : Degradation)
    (hiddenConv controlConv outputConv : Operator) : Except Err JointWrapper := do
  let b ← BaseWrapper.make cell asoh transients inputs hiddenConv controlConv outputConv
  let ns := names.getD asoh.updatableNames
  let v ← transients.toNumpy
  let p ← asoh.getParameters (some ns)
  return ⟨b, ns, v.ncol, p.ncol, deg⟩

/-- `create_hidden_state` (moirae/estimators/online/utils/model.py:312-333). -/
def createHidden (w : JointWrapper) (asoh : HV ℝ) (transients : Container ℝ) : Except Err Mat := do
  let t ← transients.toNumpy
  let a ← asoh.getParameters (some w.names)
  let j ← Arr2.hcat [t, a]
  w.hiddenConv.invSamples2 j.toMat

/-- `create_cell_model_inputs` (moirae/estimators/online/utils/model.py:335-354). -/
def createInputs (w : JointWrapper) (hidden : Mat) : Except Err (HV ℝ × Container ℝ) := do
  let j := (← w.hiddenConv.samples2 hidden).toArr2
  let tr := w.transients.makeCopy (.d2 (j.cols 0 w.nTransients))
  let asoh ← w.asoh.makeCopy (.d2 (j.cols w.nTransients j.ncol)) (some w.names)
  return (asoh, tr)

/-- `JointCellModelWrapper.update_hidden_states` (moirae/estimators/online/utils/model.py:356-389).  The state of health is degraded
with the previous inputs and the transient states before the update. -/
noncomputable def update (w : JointWrapper) (hidden : Mat) (prev new : Vec) : Except Err Mat := do
  let prevIn ← w.toInputs prev
  let newIn ← w.toInputs new
  let (asoh, tr) ← w.createInputs hidden
  let out ← w.hiddenConv.samples2 hidden
  let tr' ← w.cell.update prevIn newIn tr asoh
  let y ← w.cell.output prevIn tr asoh
  let asoh' ← w.deg.update asoh prevIn tr y
  let out ← out.setCols 0 w.nTransients (← tr'.toNumpy).toMat
  let out ← out.setCols w.nTransients out.n (← asoh'.getParameters (some w.names)).toMat
  w.hiddenConv.invSamples2 out

/-- `JointCellModelWrapper.predict_measurement` (moirae/estimators/online/utils/model.py:391-404). -/
def predict (w : JointWrapper) (hidden : Mat) (u : Vec) : Except Err Mat := do
  let inp ← w.toInputs u
  let (asoh, tr) ← w.createInputs hidden
  let y ← w.cell.output inp tr asoh
  w.fromOutputs y

/-- What the filter sees; nothing is remembered between calls (moirae/estimators/online/utils/model.py:312-404). -/
noncomputable def toWrapper (w : JointWrapper) : Wrapper Unit where
  nHidden := w.nTransients + w.nAsoh
  nOut := w.nOut
  update _ hidden prev new := do return (← w.update hidden prev new, ())
  predict _ hidden u := w.predict hidden u

end JointWrapper
end Verif
