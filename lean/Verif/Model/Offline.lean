import Verif.Model.Interface
/-!
# Offline estimation (moirae/estimators/offline)
-/

namespace Verif

/-- `MeanSquaredLoss` (moirae/estimators/offline/loss.py:12-39,66): the model and the initial guesses (deep copies of what was passed in), and
the table `raw_data` of the observations, if it is there. -/
structure Loss where
  cell : Cell
  asoh : HV ℝ
  state : Container ℝ
  rawData : Option (List Row)

namespace Loss

/-- `array[0, :]`; IndexError if there is no row (moirae/estimators/offline/loss.py:50). -/
def firstRow (a : Arr2 ℝ) : Except Err (List ℝ) :=
  match a.rows with
  | [] => .error .indexError
  | r :: _ => .ok r

/-- `get_x0` (moirae/estimators/offline/loss.py:42-50). -/
def getX0 (L : Loss) : Except Err (List ℝ) :=
  if L.asoh.numUpdatable = 0 then do firstRow (← L.state.toNumpy)
  else do
    let s ← L.state.toNumpy
    let p ← L.asoh.getParameters none
    firstRow (← Arr2.hcat [s, p])

/-- `row_to_inputs(row)` with the containers it returns (moirae/estimators/offline/loss.py:80,99): the inputs and the voltage.  Numbers that
are not finite are not represented; ValueError here. -/
noncomputable def readRow (row : Row) : Except Err (Container ℝ × ℝ) := do
  let io ← rowToInputs row
  let i ← io.1.container
  match io.2.terminalVoltage with
  | .fin v => .ok (i, v)
  | _ => .error .valueError

/-- `pred_y[i, :] = y` for the row of shape `(1, 1)` (moirae/estimators/offline/loss.py:90,95,103): ValueError for any other shape. -/
def assignPred (y : Arr2 ℝ) : Except Err ℝ :=
  match y.rows with
  | [[v]] => .ok v
  | _ => .error .valueError

/-- The loop (moirae/estimators/offline/loss.py:98-103): the predicted and the observed voltages of the rows. -/
noncomputable def predictLoop : Simulator (Container ℝ) (Container ℝ) (HV ℝ) (Container ℝ) → List Row → Except Err (List (ℝ × ℝ))
  | _, [] => .ok []
  | sim, row :: rest => do
    let io ← readRow row
    match sim.step io.1 with
    | (_, .error e) => .error e
    | (sim', .ok (_, y)) => do
      let v ← assignPred (← y.toNumpy)
      let vs ← predictLoop sim' rest
      return (v, io.2) :: vs

/-- The average of the squared differences over the steps (moirae/estimators/offline/loss.py:106-107). -/
noncomputable def meanSquare (vs : List (ℝ × ℝ)) : ℝ := (vs.map fun p => (p.1 - p.2) ^ 2).sum / vs.length

/-- `MeanSquaredLoss.__call__` (moirae/estimators/offline/loss.py:72-107).  The predictions have one row and the observations are repeated
for every member of the batch, so that all members get the same number. -/
noncomputable def call (L : Loss) (x : Arr2 ℝ) : Except Err (List ℝ) := do
  let state := L.state.makeCopy (.d2 (x.cols 0 L.state.len))
  let asoh ← L.asoh.makeCopy (.d2 (x.cols L.state.len x.ncol)) none
  match L.rawData with
  | none => .error .keyError
  | some [] => .error .indexError
  | some (first :: rest) => do
    let io ← readRow first
    let sim ← Simulator.init L.cell (NoDegradation _ _ _ _) asoh state io.1 false
    let y ← L.cell.output io.1 state asoh
    let v ← assignPred (← y.toNumpy)
    let vs ← predictLoop sim rest
    return List.replicate x.nrow (meanSquare ((v, io.2) :: vs))

/-- `array.item()`; ValueError unless there is exactly one number (moirae/estimators/offline/scipy.py:28,32). -/
def item : List ℝ → Except Err ℝ
  | [v] => .ok v
  | _ => .error .valueError

/-- `objective(x[None, :]).item()` (moirae/estimators/offline/scipy.py:28,32). -/
noncomputable def value (L : Loss) (x : List ℝ) : Except Err ℝ := do item (← L.call (.ofRow x))

/-- What is passed to `minimize` (moirae/estimators/offline/scipy.py:32). -/
noncomputable def scaled (L : Loss) (y0 : ℝ) (x : List ℝ) : Except Err ℝ := do return (← L.value x) / max |y0| 1e-12

/-- `ScipyMinimizer.estimate` (moirae/estimators/offline/scipy.py:25-41).  `minimize` is SciPy's (external): any function of the objective and
the starting point that returns a point or raises. -/
noncomputable def estimate (L : Loss) (minimize : (List ℝ → Except Err ℝ) → List ℝ → Except Err (List ℝ)) :
    Except Err (Container ℝ × HV ℝ × List ℝ) := do
  let x0 ← L.getX0
  let y0 ← L.value x0
  let x ← minimize (L.scaled y0) x0
  let state := L.state.makeCopy (.d2 (.ofRow (x.take L.state.len)))
  let asoh ← L.asoh.makeCopy (.d2 (.ofRow (x.drop L.state.len))) none
  return (state, asoh, x)

end Loss
end Verif
