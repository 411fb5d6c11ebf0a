import Verif.Model.Ecm
import Verif.Model.Wrappers
/-!
# The equivalent circuit as a cell model of the estimators

`Verif/Model/Ecm.lean` describes `EquivalentCircuitModel` on records of arrays.  Simulators, wrappers and estimators hand it
`ECMInput`, `ECMTransientVector` and `ECMASOH` objects; here the attributes the code reads are looked up in those objects and the
results are put back into objects.
-/

namespace Verif

/-- A 2D array of a model object as the array the circuit code computes with (same entries) (moirae/models/ecm/__init__.py:49-68). -/
def Arr2.toNd (a : Arr2 ℝ) : Nd ℝ :=
  ⟨[a.nrow, a.ncol], fun idx => (a.rows.getD (idx.getD 0 0) []).getD (idx.getD 1 0) 0⟩

/-- The other way round, for 2D arrays (moirae/models/ecm/__init__.py:148-151,208). -/
def Nd.toArr2 (a : Nd ℝ) : Arr2 ℝ :=
  ⟨a.shape.getD 1 0, (List.range (a.shape.getD 0 0)).map fun i => (List.range (a.shape.getD 1 0)).map fun j => a.get [i, j], by
    intro r hr
    obtain ⟨i, _, rfl⟩ := List.mem_map.1 hr
    simp⟩

namespace Ecm

/-! ## Names of the attributes -/

/-- `base_values` (moirae/models/ecm/components.py:12-15,42-44,76-77). -/
def kBase : Name := "base_values".toList
/-- `temperature_dependence_factor` (moirae/models/ecm/components.py:48-50). -/
def kTdf : Name := "temperature_dependence_factor".toList
/-- `reference_temperature` of the open-circuit voltage (moirae/models/ecm/components.py:109-111). -/
def kRefTemp : Name := "reference_temperature".toList
/-- `gamma` (moirae/models/ecm/components.py:157-159). -/
def kGamma : Name := "gamma".toList
/-- `r` and `c` of an RC element (moirae/models/ecm/components.py:84-85). -/
def kR : Name := "r".toList
/-- See `kR` (moirae/models/ecm/components.py:84-85). -/
def kC : Name := "c".toList
/-- `ocv_ref` (moirae/models/ecm/components.py:123-124). -/
def kOcvRef : Name := "ocv_ref".toList
/-- `ocv_ent` (moirae/models/ecm/components.py:125-127). -/
def kOcvEnt : Name := "ocv_ent".toList
/-- `q_t` (moirae/models/ecm/advancedSOH.py:22). -/
def kQt : Name := "q_t".toList
/-- `ce` (moirae/models/ecm/advancedSOH.py:23). -/
def kCe : Name := "ce".toList
/-- `ocv` (moirae/models/ecm/advancedSOH.py:24). -/
def kOcv : Name := "ocv".toList
/-- `r0` (moirae/models/ecm/advancedSOH.py:25). -/
def kR0 : Name := "r0".toList
/-- `c0` (moirae/models/ecm/advancedSOH.py:26). -/
def kC0 : Name := "c0".toList
/-- `rc_elements` (moirae/models/ecm/advancedSOH.py:27). -/
def kRcs : Name := "rc_elements".toList
/-- `h0` (moirae/models/ecm/advancedSOH.py:28-29). -/
def kH0 : Name := "h0".toList
/-- `soc` (moirae/models/ecm/transient.py:14). -/
def kSoc : Name := "soc".toList
/-- `q0` (moirae/models/ecm/transient.py:15). -/
def kQ0 : Name := "q0".toList
/-- `i_rc` (moirae/models/ecm/transient.py:16). -/
def kIrc : Name := "i_rc".toList
/-- `hyst` (moirae/models/ecm/transient.py:17). -/
def kHyst : Name := "hyst".toList
/-- `time` (moirae/models/base.py:555). -/
def kTime : Name := "time".toList
/-- `current` (moirae/models/base.py:556). -/
def kCurrent : Name := "current".toList
/-- `temperature` (moirae/models/ecm/ins_outs.py:12). -/
def kTemp : Name := "temperature".toList
/-- `terminal_voltage` (moirae/models/base.py:564-565). -/
def kVoltage : Name := "terminal_voltage".toList

/-! ## Attributes of health variables -/

/-- An attribute holding an array.  (Objects of another class than the code expects: AttributeError.)
(moirae/models/ecm/components.py:21,63-68,137-140) -/
def arrAt (m : HV ℝ) (k : Name) : Except Err (Nd ℝ) :=
  match m.getField k with
  | some (.arr a) => .ok a.toNd
  | _ => .error .attributeError

/-- An attribute holding a health variable (moirae/models/ecm/__init__.py:65,98,163-167). -/
def subAt (m : HV ℝ) (k : Name) : Except Err (HV ℝ) :=
  match m.getField k with
  | some (.sub c) => .ok c
  | _ => .error .attributeError

/-- An attribute holding a health variable or None (moirae/models/ecm/advancedSOH.py:26). -/
def optAt (m : HV ℝ) (k : Name) : Except Err (Option (HV ℝ)) :=
  match m.getField k with
  | some (.sub c) => .ok (some c)
  | some .other => .ok none
  | _ => .error .attributeError

/-- An attribute holding a tuple of health variables (moirae/models/ecm/__init__.py:78-79,182-186). -/
def tupAt (m : HV ℝ) (k : Name) : Except Err (List (HV ℝ)) :=
  match m.getField k with
  | some (.tup ms) => .ok ms
  | _ => .error .attributeError

/-- What an interpolated parameter holds besides its parameters: `soc_pinpoints` and `interpolation_style`
(moirae/models/ecm/utils.py:15-19). -/
structure CurveInfo where
  pins : Option (List ℝ)
  style : Style

/-- As `CurveInfo`, for a resistance, with its `reference_temperature` (moirae/models/ecm/components.py:45-47). -/
structure ResInfo extends CurveInfo where
  refTemp : ℝ

/-- Everything the circuit reads from its state of health that is not a parameter, and that the tree `HV` leaves out
(`Field.other`): no update of parameters changes it (moirae/models/ecm/utils.py:15-28, moirae/models/ecm/components.py:45-47).
The RC elements are numbered. -/
structure Fixed where
  ocvRef : CurveInfo
  ocvEnt : CurveInfo
  r0 : ResInfo
  c0 : CurveInfo
  rcs : Nat → ResInfo × CurveInfo
  hyst : CurveInfo

/-- The attributes of an interpolated parameter (moirae/models/ecm/utils.py:11-19). -/
def readCurve (x : CurveInfo) (m : HV ℝ) : Except Err Interp := do
  return ⟨← arrAt m kBase, x.pins, x.style⟩

/-- The attributes of a resistance (moirae/models/ecm/components.py:38-50). -/
def readRes (x : ResInfo) (m : HV ℝ) : Except Err Resistance := do
  return ⟨← readCurve x.toCurveInfo m, x.refTemp, ← arrAt m kTdf⟩

/-- The attributes of an RC element (moirae/models/ecm/components.py:80-85). -/
def readRC (x : ResInfo × CurveInfo) (m : HV ℝ) : Except Err RC := do
  return ⟨← readRes x.1 (← subAt m kR), ← readCurve x.2 (← subAt m kC)⟩

/-- The attributes of the RC elements, the first one being number `i` (moirae/models/ecm/__init__.py:78-79,182-186). -/
def readRCs (x : Nat → ResInfo × CurveInfo) : Nat → List (HV ℝ) → Except Err (List RC)
  | _, [] => .ok []
  | i, m :: ms => do return (← readRC (x i) m) :: (← readRCs x (i + 1) ms)

/-- The attributes of an open-circuit voltage (moirae/models/ecm/components.py:106-127). -/
def readOCV (x y : CurveInfo) (m : HV ℝ) : Except Err OCV := do
  let ref ← subAt m kOcvRef
  return ⟨← readCurve x ref, ← arrAt ref kRefTemp, ← readCurve y (← subAt m kOcvEnt)⟩

/-- The series capacitance, if any (moirae/models/ecm/advancedSOH.py:26). -/
def readC0 (x : CurveInfo) : Option (HV ℝ) → Except Err (Option Interp)
  | none => .ok none
  | some m => do return some (← readCurve x m)

/-- The attributes of an `ECMASOH` (moirae/models/ecm/advancedSOH.py:20-29). -/
def readASOH (x : Fixed) (m : HV ℝ) : Except Err ASOH := do
  let h0 ← subAt m kH0
  return { qt := ← arrAt (← subAt m kQt) kBase
           ce := ← arrAt m kCe
           ocv := ← readOCV x.ocvRef x.ocvEnt (← subAt m kOcv)
           r0 := ← readRes x.r0 (← subAt m kR0)
           c0 := ← readC0 x.c0 (← optAt m kC0)
           rcs := ← readRCs x.rcs 0 (← tupAt m kRcs)
           hyst := ← readCurve x.hyst h0
           gamma := ← arrAt h0 kGamma }

/-! ## Attributes of containers -/

/-- A field holding an array or None (moirae/models/base.py:428-437). -/
def optField (c : Container ℝ) (k : Name) : Except Err (Option (Nd ℝ)) :=
  match assoc k c.fields with
  | some v => .ok (v.map Arr2.toNd)
  | none => .error .attributeError

/-- A field holding an array (moirae/models/base.py:428-437). -/
def arrField (c : Container ℝ) (k : Name) : Except Err (Nd ℝ) := do
  match ← optField c k with
  | some a => return a
  | none => .error .typeError

/-- The fields of an `ECMInput` (moirae/models/ecm/ins_outs.py:8-12, moirae/models/base.py:551-556). -/
def readInput (c : Container ℝ) : Except Err Input := do
  return ⟨← arrField c kTime, ← arrField c kCurrent, ← optField c kTemp⟩

/-- The fields of an `ECMTransientVector` (moirae/models/ecm/transient.py:11-17). -/
def readState (c : Container ℝ) : Except Err State := do
  return ⟨← arrField c kSoc, ← optField c kQ0, ← arrField c kIrc, ← arrField c kHyst⟩

/-- The `ECMTransientVector` with the given values (moirae/models/ecm/__init__.py:148-151). -/
def State.toContainer (s : State) : Container ℝ :=
  ⟨[(kSoc, some s.soc.toArr2), (kQ0, s.q0.map Nd.toArr2), (kIrc, some s.irc.toArr2), (kHyst, some s.hyst.toArr2)]⟩

/-- The `ECMMeasurement` with the given voltage (moirae/models/ecm/__init__.py:208, moirae/models/base.py:559-565). -/
def voltageContainer (v : Nd ℝ) : Container ℝ := ⟨[(kVoltage, some v.toArr2)]⟩

/-- `EquivalentCircuitModel` (moirae/models/ecm/__init__.py:17-208) on the objects of the estimators.  Simplified: the attributes are
read before the computation; the code reads them as it goes along. -/
noncomputable def cell (beh : Behavior) (x : Fixed) : Cell where
  update prev new tr asoh := do
    let s ← update beh (← readInput prev) (← readInput new) (← readState tr) (← readASOH x asoh)
    return s.toContainer
  output new tr asoh := do
    let v ← voltage (← readInput new) (← readState tr) (← readASOH x asoh)
    return voltageContainer v

end Ecm
end Verif
