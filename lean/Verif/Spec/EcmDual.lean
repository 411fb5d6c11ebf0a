import Verif.Spec.EcmCell
import Verif.Props.FreshEstimator
/-!
# The two halves of dual estimation of an equivalent circuit (specification)
-/

namespace Verif
open Ecm

/-! ## Transient states as hidden states -/

/-- A wrapper for the transient states of an equivalent circuit with attributes `x` and `n` RC elements: the hidden states are an
`ECMTransientVector` (with or without the charge of a series capacitor), the inputs an `ECMInput` (with or without a temperature). -/
structure Spec.TracksCircuit (w : CellWrapper) (beh : Behavior) (x : Fixed) (measured series : Bool) (n : Nat) : Prop where
  cell : w.cell = Ecm.cell beh x
  transients : Spec.SameLayout w.transients (circuitState series n)
  inputs : Spec.SameLayout w.inputs (circuitInput measured)
  nTransients_eq : ∃ T, w.transients.toNumpy = .ok T ∧ T.ncol = w.nTransients

/-- A state of health describing one cell with the parameters `a`. -/
structure Spec.HoldsCircuit (x : Fixed) (m : HV ℝ) (a : ASOH) : Prop where
  wf : m.WF
  unbatched : Spec.Unbatched m
  read : readASOH x m = .ok a
  single : Cell.Pars 1 a

/-! ## Parameters as hidden states -/

/-- A wrapper for parameters of an equivalent circuit whose template holds one cell with the attributes `x` and parameters `a`: at least one
parameter is estimated and none degrades. -/
structure Spec.TracksHealth (w : DegradationWrapper) (beh : Behavior) (x : Fixed) (measured : Bool) (a : ASOH) : Prop where
  cell : w.cell = Ecm.cell beh x
  asoh : HoldsCircuit x w.asoh a
  inputs : Spec.SameLayout w.inputs (circuitInput measured)
  names_updatable : ∀ n ∈ w.names, n ∈ w.asoh.updatableNames
  names_distinct : w.names.Nodup
  nAsoh_eq : ∃ A, w.asoh.getParameters (some w.names) = .ok A ∧ A.ncol = w.nAsoh
  estimates : w.names ≠ []
  deg : w.deg = NoDegradation _ _ _ _

/-- Transient states holding the single state `s` of a cell with `n` RC elements. -/
structure Spec.HoldsState (tr : Container ℝ) (series : Bool) (n : Nat) (s : Cell.St) : Prop where
  layout : Spec.SameLayout tr (circuitState series n)
  single : tr.Single
  value : ∃ t, tr.toNumpy = .ok (.ofRow t) ∧ s = Cell.St.ofVec series n t

/-- The cell with the values `z` of the named parameters: the state of health with these values, read as a circuit. -/
def Spec.CircuitWith (m : HV ℝ) (names : List Name) (x : Fixed) (z : List ℝ) (p : Cell.Par) : Prop :=
  ∃ m' b, m.makeCopy (.d1 z) (some names) = .ok m' ∧ readASOH x m' = .ok b ∧ p = Cell.parAt b 0

/-- The choices of parameters for which batches of them can be computed from one transient state: `Estimable`, and with a temperature not its
reference. -/
def Spec.DualEstimable (ns : List Name) (measured series : Bool) (a : ASOH) : Prop :=
  Estimable ns measured series a ∧ (measured → ¬ Named ns [kOcv, kOcvRef, kRefTemp])

/-- At least one of the parameters takes part in the voltage that a cell with `n` RC elements shows one step after the input `prev`.  Reference
temperature, entropic curve and temperature factors do not count; the Coulombic efficiency counts while not discharging, the series capacitor
if there is one. -/
def Spec.Reaches (ns : List Name) (prev : Cell.In) (series : Bool) (n : Nat) : Prop :=
  Named ns [kQt, kBase] ∨ (0 ≤ prev.current ∧ Named ns [kCe]) ∨ Named ns [kOcv, kOcvRef, kBase] ∨ Named ns [kR0, kBase] ∨
  (series ∧ Named ns [kC0, kBase]) ∨
  (∃ j < n, Named ns [kRcs, Py.natStr j, kR, kBase] ∨ Named ns [kRcs, Py.natStr j, kC, kBase]) ∨
  Named ns [kH0, kBase] ∨ Named ns [kH0, kGamma]

end Verif
