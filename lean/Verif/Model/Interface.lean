import Verif.Model.Hdf5
import Verif.Model.Estimators
/-!
# Running an estimator over a dataset (moirae/interface/__init__.py)
-/

namespace Verif

/-! ## Rows of a dataset -/

/-- A row of the time series: a `pd.Series` (external) of numbers by column name (moirae/interface/__init__.py:24,88-91). -/
abbrev Row := List (Name × Num)

/-- `row[name]`; KeyError if there is no such column (moirae/interface/__init__.py:36-45,139). -/
def Row.get (r : Row) (name : Name) : Except Err Num :=
  match lookupKey name r with
  | some x => .ok x
  | none => .error .keyError

/-- An `ECMInput` of three scalars (moirae/models/ecm/ins_outs.py:8-12, moirae/models/base.py:551-556). -/
structure CellInput where
  time : Num
  current : Num
  temperature : Num

/-- An `ECMMeasurement` (moirae/models/ecm/ins_outs.py:17-21, moirae/models/base.py:559-565). -/
structure CellMeasurement where
  terminalVoltage : Num

/-- `row_to_inputs` (moirae/interface/__init__.py:24-47). -/
noncomputable def rowToInputs (row : Row) (defaultTemperature : Num := .fin 25) : Except Err (CellInput × CellMeasurement) := do
  let useTemp ← match lookupKey "temperature".toList row with
    | none => pure false
    | some t => pure t.isFinite
  let time ← row.get "test_time".toList
  let current ← row.get "current".toList
  let temperature ← if useTemp then row.get "temperature".toList else pure defaultTemperature
  let voltage ← row.get "voltage".toList
  return (⟨time, current, temperature⟩, ⟨voltage⟩)

/-! ## Estimators -/

/-- What `run_online_estimate` uses of an `OnlineEstimator` (moirae/estimators/online/__init__.py:13-114); `σ` is everything the estimator
remembers.  Its attribute `_u` is not part of `σ`, as nothing in the package ever reads it. -/
structure EstimatorOps (σ : Type) where
  step : σ → CellInput → CellMeasurement → Except Err (σ × Gaussian × Gaussian)
  info : σ → EstimatorInfo

/-- A 1 × 1 array of a number that is finite.  Others are not represented in the models of the estimators; ValueError here
(moirae/interface/__init__.py:38-45). -/
def Num.arr2 : Num → Except Err (Arr2 ℝ)
  | .fin x => .ok (Arr2.ofRow [x])
  | _ => .error .valueError

/-- The container of an `ECMInput` (moirae/interface/__init__.py:38-42). -/
def CellInput.container (u : CellInput) : Except Err (Container ℝ) := do
  let t ← u.time.arr2
  let i ← u.current.arr2
  let temp ← u.temperature.arr2
  return ⟨[("time".toList, some t), ("current".toList, some i), ("temperature".toList, some temp)]⟩

/-- The container of an `ECMMeasurement` (moirae/interface/__init__.py:43-45). -/
def CellMeasurement.container (y : CellMeasurement) : Except Err (Container ℝ) := do
  let v ← y.terminalVoltage.arr2
  return ⟨[("terminal_voltage".toList, some v)]⟩

/-- A `JointEstimator` (moirae/estimators/online/joint.py:18-70) as such an estimator. -/
noncomputable def Joint.ops (svd : Mat → Vec × Mat) : EstimatorOps Joint where
  step e u y := do e.step svd (← u.container) (← y.container)
  info e := ⟨e.base.stateNames, e.base.outputNames, .ok e.state, e.base.nOutputs⟩

/-- A `DualEstimator` (moirae/estimators/online/dual.py:34-137) as such an estimator. -/
noncomputable def Dual.ops (svd : Mat → Vec × Mat) : EstimatorOps Dual where
  step e u y := do e.step svd (← u.container) (← y.container)
  info e := ⟨e.base.stateNames, e.base.outputNames, e.state, e.base.nOutputs⟩

/-! ## The run -/

/-- A dataset: in memory, possibly without time series, or in a file.  The index of the frame in memory has no name, so that the column
added by `reset_index` is none of those used (moirae/interface/__init__.py:79-98). -/
inductive Data where
  | memory (raw : Option (List Name × List (List Num)))
  | file (rows : List Row)

/-- The rows, as iterated (moirae/interface/__init__.py:79-98). -/
def Data.rows : Data → Except Err (List Row)
  | .memory none => .error .valueError
  | .memory (some (cols, rows)) => .ok (rows.map fun r => cols.zip r)
  | .file rows => .ok rows

/-- `num_cycles` (moirae/interface/__init__.py:85,96), for a column of non-negative integers. -/
noncomputable def Data.numCycles : Data → Option Nat
  | .memory none => none
  | .memory (some (cols, rows)) =>
    some <| (rows.map fun r =>
      match lookupKey "cycle_number".toList (cols.zip r) with
      | some (.fin x) => ⌊x⌋₊ + 1
      | _ => 0).foldl max 0
  | .file _ => none

/-- `array[i, :] = v` for a row of `n` zeros (moirae/interface/__init__.py:132-135): a single value fills the row; ValueError if the length
does not match. -/
noncomputable def assignRow (n : Nat) (v : Vec) : Except Err (List ℝ) :=
  if v.n = n then .ok (List.ofFn v.get)
  else if v.n = 1 then .ok (List.replicate n (v.at' 0))
  else .error .valueError

/-- One row of the four arrays, side by side (moirae/interface/__init__.py:131-135,145). -/
noncomputable def tableRow (nS nO : Nat) (s o : Gaussian) : Except Err (List ℝ) := do
  let sm ← assignRow nS s.mean
  let sv ← assignRow nS s.cov.diagonal
  let om ← assignRow nO o.mean
  let ov ← assignRow nO o.cov.diagonal
  return sm ++ sv ++ om ++ ov

/-- A `pd.DataFrame` of numbers (external) (moirae/interface/__init__.py:144-150). -/
structure Table where
  columns : List Name
  rows : List (List ℝ)

/-- The row of the table, if the states are to be returned (moirae/interface/__init__.py:131-135). -/
noncomputable def lineFor (dims : Option (Nat × Nat)) (s o : Gaussian) : Except Err (List ℝ) :=
  match dims with
  | some (nS, nO) => tableRow nS nO s o
  | none => .ok []

/-- Storing the estimates of a row, if there is a writer (moirae/interface/__init__.py:137-139).  What is in the file after an error:
Model/Interrupted.lean. -/
noncomputable def storeRow (row : Row) (s o : Gaussian) : Option Writer → Except Err (Option Writer)
  | none => .ok none
  | some w => do
    let t ← row.get "test_time".toList
    let c ← row.get "cycle_number".toList
    match w.append t c s o with
    | (w', none) => .ok (some w')
    | (_, some err) => .error err

/-- The loop (moirae/interface/__init__.py:125-139): the estimator, the writer and the rows of the table afterwards.  `dims` is `none` if
the states are not to be returned. -/
noncomputable def runLoop {σ : Type} (ops : EstimatorOps σ) (dims : Option (Nat × Nat)) :
    σ → Option Writer → List Row → Except Err (σ × Option Writer × List (List ℝ))
  | e, w, [] => .ok (e, w, [])
  | e, w, row :: rest => do
    let io ← rowToInputs row
    let r ← ops.step e io.1 io.2
    let line ← lineFor dims r.2.1 r.2.2
    let w' ← storeRow row r.2.1 r.2.2 w
    let q ← runLoop ops dims r.1 w' rest
    return (q.1, q.2.1, line :: q.2.2)

/-- The names of the columns (moirae/interface/__init__.py:146-149). -/
def tableColumns (stateNames outputNames : List Name) : List Name :=
  stateNames ++ stateNames.map (· ++ "_std".toList) ++ outputNames ++ outputNames.map (· ++ "_std".toList)

/-- Opening and preparing the file (moirae/interface/__init__.py:120-123). -/
noncomputable def openWriter (chunkOf : List Nat → Nat) (info : EstimatorInfo) (numRows : Nat) (numCycles : Option Nat) :
    Option Writer → Except Err (Option Writer)
  | none => .ok none
  | some w =>
    match w.enter.prepare chunkOf info (some numRows) numCycles with
    | (w, none) => .ok (some w)
    | (_, some err) => .error err

/-- The sizes of the arrays, if the states are to be returned (moirae/interface/__init__.py:105-109). -/
def dimsOf (info : EstimatorInfo) (outputStates : Bool) : Except Err (Option (Nat × Nat)) :=
  match outputStates with
  | true => do return some ((← info.stateNames).length, info.nOutputs)
  | false => .ok none

/-- The table: the rows filled in the loop, followed by those left at zero (moirae/interface/__init__.py:106-109,142-150). -/
def makeTable (info : EstimatorInfo) (numRows : Nat) (lines : List (List ℝ)) : Option (Nat × Nat) → Except Err (Option Table)
  | none => .ok none
  | some (nS, nO) => do
    let cols := tableColumns (← info.stateNames) info.outputNames
    let width := nS + nS + nO + nO
    if cols.length ≠ width then .error .valueError
    else return some ⟨cols, lines ++ List.replicate (numRows - lines.length) (List.replicate width 0)⟩

/-- `run_online_estimate` (moirae/interface/__init__.py:51-151): the table if asked for, the estimator, what its attribute `_u` was set to,
and the writer, closed. -/
noncomputable def runOnline {σ : Type} (chunkOf : List Nat → Nat) (ops : EstimatorOps σ) (data : Data) (e : σ) (outputStates : Bool)
    (writer : Option Writer) : Except Err (Option Table × σ × CellInput × Option Writer) := do
  match ← data.rows with
  | [] => .error .stopIteration
  | first :: rest => do
    let u ← rowToInputs first
    let dims ← dimsOf (ops.info e) outputStates
    let w ← openWriter chunkOf (ops.info e) (rest.length + 1) data.numCycles writer
    let q ← runLoop ops dims e w rest
    let table ← makeTable (ops.info q.1) (rest.length + 1) q.2.2 dims
    return (table, q.1, u.1, q.2.1.map (·.exit))

end Verif
