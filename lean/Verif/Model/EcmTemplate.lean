import Verif.Model.Ecm
import Mathlib.Analysis.SpecialFunctions.Log.Basic
/-!
# Templates of circuits and states; capacity in two units
-/

namespace Verif.Ecm
open Verif Nd

/-- `np.atleast_2d(x)` = `enforce_dimensions(x, 1)` (moirae/models/base.py:36-37), run by pydantic on list fields. -/
def atleast2d (a : Nd ℝ) : Nd ℝ :=
  match a.shape with
  | [] => ⟨[1, 1], fun _ => a.get []⟩
  | [n] => ⟨[1, n], fun idx => a.get [idx.getD 1 0]⟩
  | _ => a

/-! ## Capacity (moirae/models/ecm/components.py:11-35) -/

/-- The setter of `MaxTheoreticalCapacity.value` (moirae/models/ecm/components.py:23-28): `base_values = amp_seconds / 3600.`; the class does not validate
assignments, so the shape stays as given (a Python number has rank 0).  The getter is `capacityValue`. -/
noncomputable def setCapacityValue (ampSeconds : Nd ℝ) : Nd ℝ := ampSeconds.map (· / 3600)

/-- `MaxTheoreticalCapacity.amp_hour` (moirae/models/ecm/components.py:30-35). -/
def ampHour (base : Nd ℝ) : Nd ℝ := base

/-! ## Transient states (moirae/models/ecm/transient.py:19-70) -/

/-- The argument `i_rc` of `ECMTransientVector.provide_template` (moirae/models/ecm/transient.py:25,43-52). -/
inductive Currents where
  | none
  | number (x : ℝ)
  | array (a : Nd ℝ)

/-- The starting currents (moirae/models/ecm/transient.py:43-52).  `len` of an array is the length of its first axis; TypeError for rank 0. -/
def startCurrents (n : Nat) : Currents → Except Err (Nd ℝ)
  | .none => .ok ⟨[n], fun _ => 0⟩
  | .number x => .ok ⟨[n], fun _ => x⟩
  | .array a => match a.shape with
    | [] => .error .typeError
    | d :: _ => if d ≠ n then .error .valueError else .ok a

/-- `ECMTransientVector.provide_template` (moirae/models/ecm/transient.py:19-54). -/
def transientTemplate (hasC0 : Bool) (n : Nat) (soc q0 : ℝ) (irc : Currents) (hyst : ℝ) : Except Err State := do
  let i ← startCurrents n irc
  return { soc := num2 soc, q0 := if hasC0 then some (num2 q0) else none, irc := atleast2d i, hyst := num2 hyst }

/-- `ECMTransientVector.from_asoh` (moirae/models/ecm/transient.py:56-70). -/
def fromAsoh (a : ASOH) : Except Err State := transientTemplate a.c0.isSome a.rcs.length 0 0 .none 0

/-! ## Circuits (moirae/models/ecm/advancedSOH.py:56-131) -/

/-- `realistic_fake_ocv` of one SOC (moirae/models/ecm/utils.py:91-106). -/
noncomputable def realisticFakeOcv (soc : ℝ) : ℝ :=
  let m := 0.9 * soc + 0.05
  Real.log (m / (1 - m)) * 0.1 + 3.5

/-- A resistance as made by the template: reference 25 °C, factor 0.0025 (moirae/models/ecm/advancedSOH.py:88,113,126). -/
noncomputable def templateRes (r : Nd ℝ) : Resistance := ⟨⟨atleast2d r, none, .linear⟩, 25, num2 0.0025⟩

/-- The RC elements (moirae/models/ecm/advancedSOH.py:109-129), as values; which objects they share is modelled in `Verif/Model/Heap.lean`. -/
noncomputable def templateRCs (n : Nat) (rc : Option (List (Nd ℝ × Nd ℝ))) : Except Err (List RC) :=
  if n = 0 then .ok []
  else match rc with
    | none => .ok (List.replicate n ⟨templateRes (num 0.01), ⟨atleast2d (num 2500), none, .linear⟩⟩)
    | some l =>
      if l.length ≠ n then .error .valueError
      else .ok (l.map fun p => ⟨templateRes p.1, ⟨atleast2d p.2, none, .linear⟩⟩)

/-- The reference open-circuit voltage (moirae/models/ecm/advancedSOH.py:91-96): 20 values of `realistic_fake_ocv`, or the values given. -/
noncomputable def templateOcv (cubic : List ℝ → List ℝ → ℝ → ℝ) : Option (Nd ℝ) → Interp
  | none => ⟨⟨[1, 20], fun idx => realisticFakeOcv ((idx.getD 1 0 : ℝ) / 19)⟩, none, .other cubic⟩
  | some v => ⟨atleast2d v, none, .linear⟩

/-- `ECMASOH.provide_template` (moirae/models/ecm/advancedSOH.py:56-131); `cubic` is scipy's cubic interpolation of one curve. -/
noncomputable def asohTemplate (cubic : List ℝ → List ℝ → ℝ → ℝ) (hasC0 : Bool) (n : Nat) (qt ce : ℝ) (ocv : Option (Nd ℝ))
    (r0 : Nd ℝ) (c0 : Option (Nd ℝ)) (h0 : Nd ℝ) (rc : Option (List (Nd ℝ × Nd ℝ))) : Except Err ASOH := do
  let rcs ← templateRCs n rc
  return {
    qt := num2 qt
    ce := num2 ce
    ocv := {
      ref := templateOcv cubic ocv
      refTemp := num2 25
      ent := ⟨atleast2d (num 0.005), none, .linear⟩ }
    r0 := templateRes r0
    c0 := if hasC0 then some ⟨atleast2d (c0.getD ((capacityValue (num2 qt)).map (· / 0.01))), none, .linear⟩ else none
    rcs := rcs
    hyst := ⟨atleast2d h0, none, .linear⟩
    gamma := num2 0.9 }

end Verif.Ecm
