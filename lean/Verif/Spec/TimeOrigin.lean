import Verif.Model.Interface
/-!
# Measuring time by another clock
-/

namespace Verif

/-- Inputs at the time `t`: the field `time`, and then other fields. -/
def Spec.clockAt (t : ℝ) (rest : List (Name × Option (Arr2 ℝ))) : Container ℝ := ⟨("time".toList, some (.scalar t)) :: rest⟩

/-- A number read from a clock that is `c` seconds ahead; a missing number stays missing. -/
noncomputable def Spec.ahead (c : ℝ) : Num → Num
  | .fin x => .fin (x + c)
  | x => x

/-- A row of a dataset, the time being read from a clock that is `c` seconds ahead. -/
noncomputable def Spec.laterRow (c : ℝ) (r : Row) : Row := r.map fun p => if p.1 = "test_time".toList then (p.1, Spec.ahead c p.2) else p

/-- A cell model that only uses differences of times. -/
structure Spec.TimeFree (cell : Cell) : Prop where
  update : ∀ t t' c rest rest' tr asoh, cell.update (clockAt (t + c) rest) (clockAt (t' + c) rest') tr asoh =
    cell.update (clockAt t rest) (clockAt t' rest') tr asoh
  output : ∀ t c rest tr asoh, cell.output (clockAt (t + c) rest) tr asoh = cell.output (clockAt t rest) tr asoh

/-- Making a joint estimator and running it on a dataset: the table and the final estimate, or the error. -/
noncomputable def Spec.jointPipeline (make : Except Err Joint) (svd : Mat → Vec × Mat) (chunkOf : List Nat → Nat) (data : Data)
    (outputStates : Bool) : Except Err (Option Table × Gaussian) := do
  let E ← make
  let r ← runOnline chunkOf (Joint.ops svd) data E outputStates none
  return (r.1, r.2.1.state)

/-- Making a dual estimator and running it on a dataset: the table and the final estimates of both filters, or the error. -/
noncomputable def Spec.dualPipeline (make : Except Err Dual) (svd : Mat → Vec × Mat) (chunkOf : List Nat → Nat) (data : Data)
    (outputStates : Bool) : Except Err (Option Table × Gaussian × Gaussian) := do
  let E ← make
  let r ← runOnline chunkOf (Dual.ops svd) data E outputStates none
  return (r.1, r.2.1.trans.hidden, r.2.1.asoh.hidden)

end Verif
