import Verif.Model.EstimatorHeap
import Verif.Proofs.Wrappers
/-!
# What a caller's program means if objects were values (C143)
-/

namespace Verif.EstObjects
open Verif

/-- The objects an estimator was built from, as they are at some time. -/
structure Spec.Templates where
  asoh : HV ℝ
  transients : Container ℝ
  inputs : Container ℝ

/-- A call with the values of its arguments. -/
inductive Spec.Call where
  | step (u y : Container ℝ)
  | estimated
  | state

open Spec

/-- The calls in a program, with the values of the arguments and of the objects the estimator was built from at the time of the call; `t` and `vals` are
these objects and the other inputs and measurements as they are at the beginning. -/
def Spec.calls (t : Templates) (vals : List (Container ℝ)) : List Op → List (Templates × Call)
  | [] => []
  | .make v :: ops => calls t (vals ++ [v]) ops
  | .setMine 0 v :: ops => calls { t with inputs := v } vals ops
  | .setMine (k + 1) v :: ops => calls t (vals.set k v) ops
  | .setAsoh m :: ops => calls { t with asoh := m } vals ops
  | .setTransients v :: ops => calls { t with transients := v } vals ops
  | .step i j :: ops =>
    match (t.inputs :: vals)[i]?, (t.inputs :: vals)[j]? with
    | some u, some y => (t, .step u y) :: calls t vals ops
    | _, _ => calls t vals ops
  | .estimated :: ops => (t, .estimated) :: calls t vals ops
  | .state :: ops => (t, .state) :: calls t vals ops
  | .setArray _ _ :: ops => calls t vals ops
  | .setGotTransients _ _ :: ops => calls t vals ops
  | .setGotAsoh _ _ :: ops => calls t vals ops
  | .setGotGaussian _ _ :: ops => calls t vals ops

/-- A call of a joint estimator that is a value. -/
noncomputable def Spec.callJoint (svd : Mat → Vec × Mat) (e : Joint) : Call → Except Err (Joint × Result)
  | .step u y => do
    let r ← e.step svd u y
    return (r.1, .step r.2.1 r.2.2)
  | .estimated => do
    let r ← e.getEstimatedState
    return (e, .estimated r.1 r.2)
  | .state => .ok (e, .state e.state)

/-- A call of a dual estimator that is a value. -/
noncomputable def Spec.callDual (svd : Mat → Vec × Mat) (e : Dual) : Call → Except Err (Dual × Result)
  | .step u y => do
    let r ← e.step svd u y
    return (r.1, .step r.2.1 r.2.2)
  | .estimated => do
    let r ← e.getEstimatedState
    return (e, .estimated r.1 r.2)
  | .state => do
    let g ← e.state
    return (e, .state g)

/-- What an estimator that shares nothing with anybody returns to these calls, until one raises. -/
def Spec.undisturbed {V : Type} (call : V → Call → Except Err (V × Result)) (v : V) : List Call → Except Err (List Result)
  | [] => .ok []
  | c :: cs => do
    let r ← call v c
    let rs ← undisturbed call r.1 cs
    return r.2 :: rs

/-- What an estimator returns to these calls whose wrappers are given other templates (by `put`) before every call. -/
def Spec.following {V : Type} (call : V → Call → Except Err (V × Result)) (put : V → Templates → V) (v : V) :
    List (Templates × Call) → Except Err (List Result)
  | [] => .ok []
  | (t, c) :: cs => do
    let r ← call (put v t) c
    let rs ← following call put r.1 cs
    return r.2 :: rs

/-- The joint estimator with other templates in its wrapper. -/
noncomputable def Spec.putJoint (e : Joint) (t : Templates) : Joint :=
  let w : JointWrapper := { e.wrapper with asoh := t.asoh, transients := t.transients, inputs := t.inputs }
  { e with wrapper := w, filter := { e.filter with model := w.toWrapper } }

/-- The dual estimator with other templates in its wrappers: of the transient state and the inputs in the one, of the state of health and the inputs
in the other. -/
def Spec.putDual (e : Dual) (t : Templates) : Dual :=
  let cw : CellWrapper := { e.cellW with transients := t.transients, inputs := t.inputs }
  let aw : DegradationWrapper := { e.asohW with asoh := t.asoh, inputs := t.inputs }
  { e with cellW := cw, asohW := aw, trans := { e.trans with model := cw.toWrapper }, asoh := { e.asoh with model := aw.toWrapper } }

/-- An operation that changes nothing of the objects the estimator was built from (`t`) but values that are estimated: those of the parameters called
`names`, those of the transient state, and those of the inputs; their fields and the sizes of their fields stay. -/
def Spec.Harmless (names : List Name) (t : Templates) : Op → Prop
  | .setAsoh m => ∃ v : List ℝ, t.asoh.makeCopy (.d1 v) (some names) = .ok m
  | .setTransients x => SameLayout x t.transients
  | .setMine 0 u => SameLayout u t.inputs
  | _ => True

end Verif.EstObjects
