import Verif.Spec.EcmDual
import Verif.Spec.Straight
import Verif.Model.Simulator
/-!
# Simulating equivalent circuits (specification)
-/

namespace Verif
open Ecm Cell

/-- The voltages of one cell over a history of inputs. -/
noncomputable def Spec.cellVolts (beh : Behavior) (p : Par) : In → List In → St → List ℝ
  | _, [], _ => []
  | prev, new :: rest, s => volt new (step beh prev new s p) p :: cellVolts beh p new rest (step beh prev new s p)

/-- Member `b` of the voltage in a measurement. -/
def Spec.voltageAt (y : Container ℝ) (b : Nat) : Option ℝ := (assoc "terminal_voltage".toList y.fields).join.map fun V => at2 V.toNd b

/-- The measurement of a single voltage. -/
def Spec.voltageOf (V : ℝ) : Container ℝ := ⟨[("terminal_voltage".toList, some (.ofRow [V]))]⟩

/-- A simulator of `B` circuits without degradation, with parameters `a`, last input `u` and transient states `st`. -/
structure Spec.SimulatesCircuits (s : Simulator (Container ℝ) (Container ℝ) (HV ℝ) (Container ℝ)) (beh : Behavior) (x : Fixed) (B : Nat) (a : ASOH)
    (u : Input) (st : State) : Prop where
  model : s.model = Ecm.cell beh x
  degradation : s.degradation = NoDegradation _ _ _ _
  health : readASOH x s.asoh = .ok a
  pars : Pars B a
  input : readInput s.input = .ok u
  ins : Ins B u
  state : readState s.transient = .ok st
  sts : Sts B a st

/-- An `ECMInput`, with or without a temperature, that holds the single values `v`. -/
structure Spec.HoldsInput (c : Container ℝ) (measured : Bool) (v : Fin (2 + (if measured then 1 else 0)) → ℝ) : Prop where
  layout : Spec.SameLayout c (circuitInput measured)
  single : c.Single
  value : c.toNumpy = .ok (.ofRow (List.ofFn v))

/-- An `ECMTransientVector` for `n` RC elements, with or without the charge of a series capacitor, that holds the single values `y`. -/
structure Spec.HoldsTransients (c : Container ℝ) (series : Bool) (n : Nat) {N : Nat} (y : Fin N → ℝ) : Prop where
  layout : Spec.SameLayout c (circuitState series n)
  single : c.Single
  value : c.toNumpy = .ok (.ofRow (List.ofFn y))

/-- A simulator of one circuit without degradation: attributes `x` and parameters `a`, transient states `y`, last input `v`. -/
structure Spec.SimulatesCircuit (s : Simulator (Container ℝ) (Container ℝ) (HV ℝ) (Container ℝ)) (beh : Behavior) (x : Fixed) (measured series : Bool)
    (a : ASOH) (v : Fin (2 + (if measured then 1 else 0)) → ℝ) {N : Nat} (y : Fin N → ℝ) : Prop where
  model : s.model = Ecm.cell beh x
  degradation : s.degradation = NoDegradation _ _ _ _
  health : HoldsCircuit x s.asoh a
  input : HoldsInput s.input measured v
  state : HoldsTransients s.transient series a.rcs.length y

end Verif
