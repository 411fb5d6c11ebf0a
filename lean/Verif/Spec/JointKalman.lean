import Verif.Spec.Straight
/-!
# The Kalman filter for the states and the parameters of a cell together (specification)
-/

namespace Verif
open Ecm Cell Matrix

open Classical in
/-- The numbers of a cell – its transient state and the values of its estimated parameters – one step later: the state of the cell with these
parameters one step later, and the same values. -/
noncomputable def Spec.jointStep (w : JointWrapper) (x : Fixed) (beh : Behavior) (series : Bool) (k : Nat) (prev new : In) {N : Nat}
    (y : Fin N → ℝ) : Fin N → ℝ :=
  fun i => if h : ∃ p, CellWith w x ((List.ofFn y).drop w.nTransients) p then
    ((step beh prev new (St.ofVec series k (List.ofFn y)) h.choose).toVec ++ (List.ofFn y).drop w.nTransients).getD i 0 else 0

open Classical in
/-- The voltage of the cell with these numbers. -/
noncomputable def Spec.jointVolt (w : JointWrapper) (x : Fixed) (series : Bool) (k : Nat) (new : In) {N : Nat} (y : Fin N → ℝ) : Fin 1 → ℝ :=
  fun _ => if h : ∃ p, CellWith w x ((List.ofFn y).drop w.nTransients) p then
    volt new (St.ofVec series k (List.ofFn y)) h.choose else 0

/-- One step of the Kalman filter for these numbers, from the belief `b` at the input `prev` to the input `new` and the measured voltage `z`: the
posterior belief and the predicted voltage. -/
noncomputable def Spec.jointKalman (w : JointWrapper) (x : Fixed) (beh : Behavior) (series : Bool) (k : Nat) {N : Nat} (Q : Matrix (Fin N) (Fin N) ℝ)
    (R : Matrix (Fin 1) (Fin 1) ℝ) (prev new : In) (b : Belief N) (z : Fin 1 → ℝ) : Belief N × Belief 1 :=
  let next : (Fin N → ℝ) → Fin N → ℝ := jointStep w x beh series k prev new
  let v : (Fin N → ℝ) → Fin 1 → ℝ := jointVolt w x series k new
  let pred := kalmanPredict (slopes next) (next 0) Q b
  (kalmanCorrect (slopes v) (v 0) R pred z, kalmanOutput (slopes v) (v 0) R pred)

/-- The Kalman filter over a history of inputs and measured voltages. -/
noncomputable def Spec.jointHistory (w : JointWrapper) (x : Fixed) (beh : Behavior) (series : Bool) (k : Nat) {N : Nat} (Q : Matrix (Fin N) (Fin N) ℝ)
    (R : Matrix (Fin 1) (Fin 1) ℝ) : In → Belief N → List (In × (Fin 1 → ℝ)) → List (Belief N × Belief 1)
  | _, _, [] => []
  | prev, b, (new, z) :: rest =>
    let r := jointKalman w x beh series k Q R prev new b z
    r :: jointHistory w x beh series k Q R new r.1 rest

/-- The named parameters of a circuit are values of the open-circuit voltage, of R0 or of the maximum hysteresis, each of a curve with one value; the
other curves are straight, and the series capacitor and the RC elements have one value each, and nothing is divided by zero. -/
structure Spec.JointlyStraight (ns : List Name) (a : ASOH) : Prop where
  only : ∀ n ∈ ns, n ∈ [[kOcv, kOcvRef, kBase], [kOcv, kOcvEnt, kBase], [kR0, kBase], [kH0, kBase]].map pathName
  ref : (OnLine a.ocv.ref ∧ ¬ Named ns [kOcv, kOcvRef, kBase]) ∨ a.ocv.ref.width = 1
  ent : (OnLine a.ocv.ent ∧ ¬ Named ns [kOcv, kOcvEnt, kBase]) ∨ a.ocv.ent.width = 1
  r0 : (OnLine a.r0.interp ∧ ¬ Named ns [kR0, kBase]) ∨ a.r0.interp.width = 1
  hyst : (OnLine a.hyst ∧ ¬ Named ns [kH0, kBase]) ∨ a.hyst.width = 1
  c0 : ∀ c ∈ a.c0, c.width = 1
  rcs : ∀ rc ∈ a.rcs, rc.r.interp.width = 1 ∧ rc.c.width = 1
  divisors : Divisors (parAt a 0)

end Verif
