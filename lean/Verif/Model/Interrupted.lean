import Verif.Model.Interface
/-!
# Runs with a file that may raise: what is in the file afterwards

`runOnline` (Model/Interface.lean) returns the writer of runs that succeed.  The definitions here follow the same code and also return the writer of runs
that raise; the `with` statement closes it in every case.
-/

namespace Verif

/-- The loop with a writer (moirae/interface/__init__.py:125-139): the writer as it was when the loop ended or raised; the estimator and the rows of the
table, or the exception. -/
noncomputable def fileLoop {σ : Type} (ops : EstimatorOps σ) (dims : Option (Nat × Nat)) :
    σ → Writer → List Row → Writer × Except Err (σ × List (List ℝ))
  | e, w, [] => (w, .ok (e, []))
  | e, w, row :: rest =>
    match rowToInputs row with
    | .error err => (w, .error err)
    | .ok io =>
      match ops.step e io.1 io.2 with
      | .error err => (w, .error err)
      | .ok r =>
        match lineFor dims r.2.1 r.2.2 with
        | .error err => (w, .error err)
        | .ok line =>
          match row.get "test_time".toList with
          | .error err => (w, .error err)
          | .ok t =>
            match row.get "cycle_number".toList with
            | .error err => (w, .error err)
            | .ok c =>
              match w.append t c r.2.1 r.2.2 with
              | (w', some err) => (w', .error err)
              | (w', none) =>
                match fileLoop ops dims r.1 w' rest with
                | (w'', .error err) => (w'', .error err)
                | (w'', .ok q) => (w'', .ok (q.1, line :: q.2))

/-- `run_online_estimate` with a file (moirae/interface/__init__.py:78-151): the writer, closed if it was opened (moirae/interface/__init__.py:120;
moirae/interface/hdf5.py:97-102); the table, the estimator and what its attribute `_u` was set to, or the exception. -/
noncomputable def runFile {σ : Type} (chunkOf : List Nat → Nat) (ops : EstimatorOps σ) (data : Data) (e : σ) (outputStates : Bool) (writer : Writer) :
    Writer × Except Err (Option Table × σ × CellInput) :=
  match data.rows with
  | .error err => (writer, .error err)
  | .ok [] => (writer, .error .stopIteration)
  | .ok (first :: rest) =>
    match rowToInputs first with
    | .error err => (writer, .error err)
    | .ok u =>
      match dimsOf (ops.info e) outputStates with
      | .error err => (writer, .error err)
      | .ok dims =>
        match writer.enter.prepare chunkOf (ops.info e) (some (rest.length + 1)) data.numCycles with
        | (w, some err) => (w.exit, .error err)
        | (w, none) =>
          match fileLoop ops dims e w rest with
          | (w', .error err) => (w'.exit, .error err)
          | (w', .ok q) =>
            match makeTable (ops.info q.1) (rest.length + 1) q.2 dims with
            | .error err => (w'.exit, .error err)
            | .ok table => (w'.exit, .ok (table, q.1, u.1))

end Verif
