import Verif.Spec.Cell
import Verif.Spec.Health
import Verif.Model.EcmCell
import Verif.Props.Wrappers
/-!
# Hidden states of an equivalent circuit as single cells (specification)
-/

namespace Verif
open Ecm

/-! ## Vectors -/

/-- The transient state of one cell as a vector, in the order of `ECMTransientVector`. -/
def Cell.St.toVec (s : Cell.St) : List ℝ := s.soc :: (s.q0.toList ++ (s.irc ++ [s.hyst]))

/-- The transient state of one cell with `n` RC elements, from a vector. -/
def Cell.St.ofVec (series : Bool) (n : Nat) (y : List ℝ) : Cell.St :=
  let q := if series then 1 else 0
  ⟨y.getD 0 0, if series then some (y.getD 1 0) else none, (y.drop (1 + q)).take n, y.getD (1 + q + n) 0⟩

/-- The inputs of one cell from a vector: time, current, and the temperature if it is measured. -/
def Cell.In.ofVec (measured : Bool) (v : List ℝ) : Cell.In :=
  ⟨v.getD 0 0, v.getD 1 0, if measured then some (v.getD 2 0) else none⟩

/-- The fields of an `ECMTransientVector`, with or without the charge of a series capacitor, for `n` RC elements. -/
def Spec.circuitState (series : Bool) (n : Nat) : Container ℝ :=
  ⟨[("soc".toList, some (.scalar 0)), ("q0".toList, if series then some (.scalar 0) else none),
    ("i_rc".toList, some (.ofRow (List.replicate n 0))), ("hyst".toList, some (.scalar 0))]⟩

/-- The fields of an `ECMInput`, with or without a temperature. -/
def Spec.circuitInput (measured : Bool) : Container ℝ :=
  ⟨[("time".toList, some (.scalar 0)), ("current".toList, some (.scalar 0)),
    ("temperature".toList, if measured then some (.scalar 0) else none)]⟩

-- The names of the parameters of an `ECMASOH` that are used below.
example : [kBase, kTdf, kRefTemp, kGamma, kR, kC, kOcvRef, kOcvEnt, kQt, kCe, kOcv, kR0, kC0, kRcs, kH0] =
    ["base_values", "temperature_dependence_factor", "reference_temperature", "gamma", "r", "c", "ocv_ref", "ocv_ent", "q_t", "ce",
      "ocv", "r0", "c0", "rc_elements", "h0"].map (·.toList) := rfl

/-! ## Which parameters can be estimated together -/

/-- The parameter at a path is among the names. -/
abbrev Spec.Named (ns : List Name) (p : List Name) : Prop := pathName p ∈ ns

/-- A curve with one value, or one value per pinpoint. -/
def Spec.Evaluable (h : Interp) : Prop := h.width = 1 ∨ (h.width ≠ 0 ∧ h.pinsUsed.length = h.width)

/-- A number stored with a curve of several values is estimated only together with the curve. -/
def Spec.With (ns : List Name) (h : Interp) (number base : List Name) : Prop := Spec.Named ns number → h.width = 1 ∨ Spec.Named ns base

/-- The choices of parameters `ns` of the circuit `a` for which batches of hidden states can be computed, when temperatures are measured or
not and with or without a series capacitor. -/
structure Spec.Estimable (ns : List Name) (measured series : Bool) (a : ASOH) : Prop where
  ocv : Evaluable a.ocv.ref
  ent : measured → Evaluable a.ocv.ent
  r0 : Evaluable a.r0.interp
  c0 : series → ∃ c, a.c0 = some c ∧ Evaluable c
  rcs : ∀ rc ∈ a.rcs, Evaluable rc.r.interp ∧ Evaluable rc.c
  hyst : Evaluable a.hyst
  gamma_with : With ns a.hyst [kH0, kGamma] [kH0, kBase]
  refTemp_with : With ns a.ocv.ref [kOcv, kOcvRef, kRefTemp] [kOcv, kOcvRef, kBase]
  r0_with : With ns a.r0.interp [kR0, kTdf] [kR0, kBase]
  rcs_with : ∀ (j : Nat) rc, a.rcs[j]? = some rc → With ns rc.r.interp [kRcs, Py.natStr j, kR, kTdf] [kRcs, Py.natStr j, kR, kBase]
  /-- with a temperature, no temperature factor -/
  r0_tdf : measured → ¬ Named ns [kR0, kTdf]
  rcs_tdf : measured → ∀ j < a.rcs.length, ¬ Named ns [kRcs, Py.natStr j, kR, kTdf]
  /-- with a temperature, the entropic curve only together with the reference curve -/
  ent_with : measured → Named ns [kOcv, kOcvEnt, kBase] → Named ns [kOcv, kOcvRef, kBase]
  /-- the RC resistances all or none -/
  rcs_r : ∀ j < a.rcs.length, ∀ k < a.rcs.length, Named ns [kRcs, Py.natStr j, kR, kBase] → Named ns [kRcs, Py.natStr k, kR, kBase]
  /-- the RC time constants all or none -/
  rcs_tau : ∀ j < a.rcs.length, ∀ k < a.rcs.length,
    Named ns [kRcs, Py.natStr j, kR, kBase] ∨ Named ns [kRcs, Py.natStr j, kC, kBase] →
    Named ns [kRcs, Py.natStr k, kR, kBase] ∨ Named ns [kRcs, Py.natStr k, kC, kBase]

/-! ## Joint estimation of a circuit -/

/-- A joint wrapper around an equivalent circuit whose templates hold one cell with the attributes `x` and parameters `a`: the transient
states are an `ECMTransientVector` for its RC elements (with or without the charge of a series capacitor), the inputs an `ECMInput` (with or
without a temperature), at least one parameter is estimated and none degrades. -/
structure Spec.EstimatesCircuit (w : JointWrapper) (beh : Behavior) (x : Fixed) (measured series : Bool) (a : ASOH) : Prop where
  ready : w.Ready
  cell : w.cell = Ecm.cell beh x
  read : readASOH x w.asoh = .ok a
  single : Cell.Pars 1 a
  transients : Spec.SameLayout w.transients (circuitState series a.rcs.length)
  inputs : Spec.SameLayout w.inputs (circuitInput measured)
  estimates : w.names ≠ []
  deg : w.deg = NoDegradation _ _ _ _

/-- The cell with the estimated parameters `z`: the template with these values, read as a circuit. -/
def Spec.CellWith (w : JointWrapper) (x : Fixed) (z : List ℝ) (p : Cell.Par) : Prop :=
  ∃ m b, w.asoh.makeCopy (.d1 z) (some w.names) = .ok m ∧ readASOH x m = .ok b ∧ p = Cell.parAt b 0

end Verif
