import Verif.Spec.EcmCell
import Verif.Props.Ukf
/-!
# Cells whose curves are straight lines, and the Kalman filter for them (specification)
-/

namespace Verif
open Ecm Cell Matrix

/-- No quantity that the cell divides by – the capacity, the RC resistances and capacitances, the series capacitance – vanishes.  (Otherwise the code
computes infinities or NaN with a warning, which the model does not represent.) -/
structure Spec.Divisors (p : Par) : Prop where
  qt : p.qt ≠ 0
  rcs : ∀ rc ∈ p.rcs, ∀ s t, rc.r s t ≠ 0 ∧ rc.c s ≠ 0
  c0 : ∀ c ∈ p.c0, ∀ s, c s ≠ 0

/-- Open-circuit voltage, R0 and maximum hysteresis depend on the SOC at most along straight lines (for every temperature one), the series
capacitor and the RC elements not at all; nothing is divided by zero. -/
structure Spec.Straight (p : Par) : Prop where
  ocv : ∀ t, ∃ e, ∀ s, p.ocv s t = p.ocv 0 t + e * s
  r0 : ∀ t, ∃ e, ∀ s, p.r0 s t = p.r0 0 t + e * s
  hyst : ∃ e, ∀ s, p.hystMax s = p.hystMax 0 + e * s
  c0 : ∀ c ∈ p.c0, ∀ s, c s = c 0
  rcs : ∀ rc ∈ p.rcs, ∀ s, (∀ t, rc.r s t = rc.r 0 t) ∧ rc.c s = rc.c 0
  divisors : Divisors p

/-- A curve over the SOC whose values lie on a straight line: it has one value, or is interpolated linearly between distinct pinpoints with
values on a line. -/
def Spec.OnLine (h : Interp) : Prop :=
  h.width = 1 ∨ (h.style = .linear ∧ 2 ≤ h.width ∧ h.pinsUsed.length = h.width ∧ h.pinsUsed.Nodup ∧
    ∃ α β, ∀ p ∈ h.pinsUsed.zip (h.row 0), p.2 = α + β * p.1)

/-- The state vector of the cell one step later. -/
noncomputable def Spec.cellStep (beh : Behavior) (p : Par) (series : Bool) (prev new : In) {N : Nat} (y : Fin N → ℝ) : Fin N → ℝ :=
  fun i => (step beh prev new (St.ofVec series p.rcs.length (List.ofFn y)) p).toVec.getD i 0

/-- The voltage of the cell with this state vector. -/
noncomputable def Spec.cellVolt (p : Par) (series : Bool) (new : In) {N : Nat} (y : Fin N → ℝ) : Fin 1 → ℝ :=
  fun _ => volt new (St.ofVec series p.rcs.length (List.ofFn y)) p

/-- By how much a function of a vector changes from 0 to each of the unit vectors. -/
noncomputable def Spec.slopes {N k : Nat} (g : (Fin N → ℝ) → Fin k → ℝ) : Matrix (Fin k) (Fin N) ℝ := fun i j => g (Pi.single j 1) i - g 0 i

/-- One step of the Kalman filter for the transient states of a cell, from the belief `b` at the input `prev` to the input `new` and the
measured voltage `z`: the posterior belief and the predicted voltage. -/
noncomputable def Spec.kalmanStep (beh : Behavior) (p : Par) (series : Bool) {N : Nat} (Q : Matrix (Fin N) (Fin N) ℝ)
    (R : Matrix (Fin 1) (Fin 1) ℝ) (prev new : In) (b : Belief N) (z : Fin 1 → ℝ) : Belief N × Belief 1 :=
  let pred := kalmanPredict (slopes (cellStep beh p series prev new)) (cellStep beh p series prev new 0) Q b
  let v : (Fin N → ℝ) → Fin 1 → ℝ := cellVolt p series new
  (kalmanCorrect (slopes v) (v 0) R pred z, kalmanOutput (slopes v) (v 0) R pred)

/-- The Kalman filter over a history of inputs and measured voltages. -/
noncomputable def Spec.kalmanHistory (beh : Behavior) (p : Par) (series : Bool) {N : Nat} (Q : Matrix (Fin N) (Fin N) ℝ)
    (R : Matrix (Fin 1) (Fin 1) ℝ) : In → Belief N → List (In × (Fin 1 → ℝ)) → List (Belief N × Belief 1)
  | _, _, [] => []
  | prev, b, (new, z) :: rest =>
    let r := kalmanStep beh p series Q R prev new b z
    r :: kalmanHistory beh p series Q R new r.1 rest

/-- The state vectors and voltages of a cell over a history of inputs. -/
noncomputable def Spec.cellRun (beh : Behavior) (p : Par) (series : Bool) {N : Nat} : In → (Fin N → ℝ) → List In → List ((Fin N → ℝ) × (Fin 1 → ℝ))
  | _, _, [] => []
  | prev, y, new :: rest =>
    let y' := cellStep beh p series prev new y
    (y', cellVolt p series new y') :: cellRun beh p series new y' rest

end Verif
