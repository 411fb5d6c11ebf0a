import Verif.Model.Interp
import Mathlib.Analysis.SpecialFunctions.Exp
/-!
# The equivalent circuit model

`update_transient_state` and `calculate_terminal_voltage` at the level of NumPy arrays, with every broadcast, reshape and
diagonal of the code.  Numbers are reals; a division by zero (NumPy: inf/nan with a warning) is outside the model and is
excluded by hypotheses where a property needs it.
-/

namespace Verif.Ecm
open Verif Nd

/-! ## Element-wise arithmetic on real arrays -/

/-- `a + b` (moirae/models/ecm/__init__.py:66-68). -/
noncomputable def add (a b : Nd ℝ) : Except Err (Nd ℝ) := map2 (· + ·) a b
/-- `a - b` (moirae/models/ecm/__init__.py:49,54). -/
noncomputable def sub (a b : Nd ℝ) : Except Err (Nd ℝ) := map2 (· - ·) a b
/-- `a * b` (moirae/models/ecm/__init__.py:66-68). -/
noncomputable def mul (a b : Nd ℝ) : Except Err (Nd ℝ) := map2 (· * ·) a b
/-- `a / b` (moirae/models/ecm/__init__.py:54,66-68). -/
noncomputable def div (a b : Nd ℝ) : Except Err (Nd ℝ) := map2 (· / ·) a b

/-- Number of rows of a 2D value (moirae/models/base.py:80). -/
def rows {α : Type} (a : Nd α) : Nat := a.shape.getD 0 0

/-- `enforce_dimensions(x, 0)` (moirae/models/base.py:30-35), run by pydantic on scalar fields. -/
def enforce0 (a : Nd ℝ) : Except Err (Nd ℝ) :=
  if 1 < (a.shape.filter (· ≠ 1)).length then .error .valueError else a.reshape [a.size, 1]

/-! ## Parameters -/

/-- `MaxTheoreticalCapacity.value` (moirae/models/ecm/components.py:16-21); `base` is in Ah. -/
noncomputable def capacityValue (base : Nd ℝ) : Nd ℝ := base.map (3600 * ·)

/-- `Resistance` (moirae/models/ecm/components.py:38-50).  `reference_temperature=None` is not modelled. -/
structure Resistance where
  interp : Interp
  refTemp : ℝ
  tdf : Nd ℝ

open Classical in
/-- `Resistance.get_value` (moirae/models/ecm/components.py:52-69). -/
noncomputable def Resistance.getValue (r : Resistance) (soc : Nd ℝ) (temp : Option (Nd ℝ)) : Except Err (Nd ℝ) := do
  let reference ← r.interp.getValue [rows r.tdf] soc
  match temp with
  | none => return reference
  | some t =>
    if ← truth (r.tdf.map fun g => decide (g = 0)) then return reference
    let deltaT := t.map (· - r.refTemp)
    let e ← mul (r.tdf.map fun g => -g) deltaT
    mul reference (e.map Real.exp)

/-- `RCComponent` (moirae/models/ecm/components.py:80-85); `Capacitance` has no parameter of its own (72-77). -/
structure RC where
  r : Resistance
  c : Interp

/-- `RCComponent.time_constant` (moirae/models/ecm/components.py:98-103). -/
noncomputable def RC.timeConstant (rc : RC) (soc : Nd ℝ) (temp : Option (Nd ℝ)) : Except Err (Nd ℝ) := do
  let r ← rc.r.getValue soc temp
  let c ← rc.c.getValue [] soc
  mul r c

/-- `OpenCircuitVoltage` with its `ReferenceOCV` and `EntropicOCV` (moirae/models/ecm/components.py:106-127). -/
structure OCV where
  ref : Interp
  refTemp : Nd ℝ
  ent : Interp

/-- `OpenCircuitVoltage.get_value` (moirae/models/ecm/components.py:129-141), with the in-place `+=`. -/
noncomputable def OCV.getValue (o : OCV) (soc : Nd ℝ) (temp : Option (Nd ℝ)) : Except Err (Nd ℝ) := do
  let ocv ← o.ref.getValue [rows o.refTemp] soc
  match temp with
  | none => return ocv
  | some t =>
    let deltaT ← sub t o.refTemp
    let ent ← o.ent.getValue [] soc
    let corr ← mul deltaT ent
    inplace (· + ·) ocv corr

/-- `ECMASOH` (moirae/models/ecm/advancedSOH.py:20-29); `hyst`/`gamma` are the fields of `h0`
(moirae/models/ecm/components.py:153-159). -/
structure ASOH where
  qt : Nd ℝ
  ce : Nd ℝ
  ocv : OCV
  r0 : Resistance
  c0 : Option Interp
  rcs : List RC
  hyst : Interp
  gamma : Nd ℝ

/-- `ECMInput` (moirae/models/ecm/ins_outs.py:8-12, moirae/models/base.py:551-556). -/
structure Input where
  time : Nd ℝ
  current : Nd ℝ
  temp : Option (Nd ℝ)

/-- `ECMTransientVector` (moirae/models/ecm/transient.py:11-17). -/
structure State where
  soc : Nd ℝ
  q0 : Option (Nd ℝ)
  irc : Nd ℝ
  hyst : Nd ℝ

/-- `current_behavior` (moirae/models/ecm/__init__.py:25-29). -/
inductive Behavior where
  | constant
  | linear
  deriving DecidableEq

/-! ## Update of the transient state -/

open Classical in
/-- `hysteresis_solver_const_sign` (moirae/models/ecm/utils.py:109-152). -/
noncomputable def hystSolver (h0 M kappa dt i0 alpha : Nd ℝ) : Except Err (Nd ℝ) := do
  let end' ← add i0 (← mul alpha dt)
  let prod ← mul i0 end'
  if !(← truth (prod.map fun x => decide (x ≥ 0))) then throw .assertionError
  let e1 ← mul kappa dt
  let mid ← add i0 (← mul (alpha.map (0.5 * ·)) dt)
  let e2 ← mul e1 mid
  let drop := (← mul alpha dt).map fun x => -x
  let pos ← truth (← map2 (fun x y => decide (x > y)) i0 drop)
  let e3 := if pos then e2.map fun x => -x else e2
  let f := e3.map Real.exp
  let h1 ← mul f h0
  let h2 ← mul (f.map fun x => 1 - x) M
  add h1 h2

/-- `if tau.shape[1] == tau.shape[2]: …` (moirae/models/ecm/__init__.py:82-84). -/
def diagTau (tau : Nd ℝ) : Except Err (Nd ℝ) :=
  if tau.shape.getD 1 0 = tau.shape.getD 2 0 then (diagonal12 tau).map (·.swapaxes 1 2) else .ok tau

/-- From `(num_rc, rc_batch, soc_batch, 1)` to `(batch, num_rc)` (moirae/models/ecm/__init__.py:80-90). -/
def flattenTau (tau : Nd ℝ) : Except Err (Nd ℝ) :=
  if tau.shape.length ≠ 4 then .error .assertionError
  else do
    let tau ← diagTau tau
    let tau ← tau.reshape [tau.shape.getD 0 0, tau.size / tau.shape.getD 0 0]
    return tau.swapaxes 0 1

/-- The RC branch (moirae/models/ecm/__init__.py:75-94). -/
noncomputable def updateRC (dt current slope : Nd ℝ) (soc irc : Nd ℝ) (temp : Option (Nd ℝ)) (rcs : List RC) :
    Except Err (Nd ℝ) := do
  if irc.shape.getD 1 0 = 0 then return irc
  let taus ← rcs.mapM fun rc => rc.timeConstant soc temp
  let tau ← flattenTau (← stack taus)
  let f := (← div (dt.map fun x => -x) tau).map Real.exp
  let i1 ← mul irc f
  let drive ← sub current (← mul slope tau)
  let i2 ← add i1 (← mul (f.map fun x => 1 - x) drive)
  add i2 (← mul slope dt)

/-- `if x.shape[0] == x.shape[1]: x = np.diagonal(x, axis1=0, axis2=1); x = x.T`
(moirae/models/ecm/__init__.py:141-143 and 202-204). -/
def diag01 (h : Nd ℝ) : Except Err (Nd ℝ) :=
  if h.shape.getD 0 0 = h.shape.getD 1 0 then (diagonal01 h).map (·.swapaxes 0 1) else .ok h

/-- From `(h0_batch, trans_batch, 1)` to `(batch, 1)` (moirae/models/ecm/__init__.py:139-146). -/
def flattenHyst (h : Nd ℝ) : Except Err (Nd ℝ) :=
  if h.shape.length ≠ 3 then .error .assertionError
  else do
    let h ← diag01 h
    h.squeeze.reshape [h.squeeze.size, 1]

open Classical in
/-- `if not np.allclose(current_k, 0): M = M / abs(current_k)` (moirae/models/ecm/__init__.py:104-105).
`np.allclose(x, 0)` is `|x| ≤ 1e-8` for every entry. -/
noncomputable def normaliseM (M current : Nd ℝ) : Except Err (Nd ℝ) :=
  if ∀ i < rows current, |current.get [i, 0]| ≤ 1e-8 then .ok M else div M (current.map abs)

/-- The two cases for the sign of the current (moirae/models/ecm/__init__.py:111-138). -/
noncomputable def hystEvolve (beh : Behavior) (sameSign : Bool) (hyst M kappa dt current slope : Nd ℝ) :
    Except Err (Nd ℝ) :=
  if sameSign = true ∨ beh = .constant then hystSolver hyst M kappa dt current slope
  else do
    let phi ← div (current.map fun x => -x) slope
    let mid ← hystSolver hyst M kappa phi current slope
    hystSolver mid (M.map fun x => -x) kappa (← sub dt phi) (num 0) slope

open Classical in
/-- The hysteresis branch (moirae/models/ecm/__init__.py:96-146). -/
noncomputable def updateHyst (beh : Behavior) (dt currentK currentKp1 slope eff qt : Nd ℝ) (soc hyst : Nd ℝ)
    (par : Interp) (gamma : Nd ℝ) : Except Err (Nd ℝ) := do
  let M ← normaliseM (← mul (← par.getValue [rows gamma] soc) currentK) currentK
  let kappa ← div (← mul eff gamma) qt
  let sameSign ← truth ((← mul currentK currentKp1).map fun x => decide (x ≥ 0))
  let h ← hystEvolve beh sameSign hyst M kappa dt currentK slope
  flattenHyst h

/-- `current_slope` (moirae/models/ecm/__init__.py:53-54). -/
noncomputable def currentSlope (beh : Behavior) (prev new : Input) (dt : Nd ℝ) : Except Err (Nd ℝ) :=
  match beh with
  | .constant => .ok (num2 0)
  | .linear => do div (← sub new.current prev.current) dt

/-- The update of `q0` (moirae/models/ecm/__init__.py:70-73) and the `enforce_dimensions` of its field. -/
noncomputable def updateQ0 (q0 : Option (Nd ℝ)) (charge : Nd ℝ) : Except Err (Option (Nd ℝ)) :=
  match q0 with
  | none => .ok none
  | some q => do return some (← enforce0 (← add q charge))

open Classical in
/-- `EquivalentCircuitModel.update_transient_state` (moirae/models/ecm/__init__.py:31-151), including the
`enforce_dimensions` pydantic runs on the fields of the result. -/
noncomputable def update (beh : Behavior) (prev new : Input) (st : State) (a : ASOH) : Except Err State := do
  let dt ← sub new.time prev.time
  let slope ← currentSlope beh prev new dt
  let discharging ← truth (prev.current.map fun x => decide (x < 0))
  let eff := if discharging then num2 1 else a.ce
  let qt := capacityValue a.qt
  let charge ← mul dt (← add prev.current ((← mul slope dt).map (· / 2)))
  let soc ← add st.soc (← mul eff (← div charge qt))
  let q0 ← updateQ0 st.q0 charge
  let irc ← updateRC dt new.current slope st.soc st.irc prev.temp a.rcs
  let hyst ← updateHyst beh dt prev.current new.current slope eff qt st.soc st.hyst a.hyst a.gamma
  return { soc := ← enforce0 soc, q0 := q0, irc := irc, hyst := ← enforce0 hyst }

/-- Repeated `update_transient_state` over a sequence of inputs with the health held fixed, as in the loops of
moirae/simulator.py:124-141 and moirae/estimators/offline/loss.py; each result is the next call's state and each input the
next call's previous input. -/
noncomputable def run (beh : Behavior) (a : ASOH) (prev : Input) (inputs : List Input) (st : State) : Except Err State :=
  match inputs with
  | [] => .ok st
  | new :: rest => do run beh a new rest (← update beh prev new st a)

/-! ## Terminal voltage -/

/-- `np.sum(a, axis=1)` of a rank-4 array (moirae/models/ecm/__init__.py:194). -/
noncomputable def sumAxis1 (a : Nd ℝ) : Except Err (Nd ℝ) :=
  match a.shape with
  | [p, n, q, r] => .ok ⟨[p, q, r], fun idx =>
      ((List.range n).map fun j => a.get [idx.getD 0 0, j, idx.getD 1 0, idx.getD 2 0]).sum⟩
  | _ => .error .valueError

/-- `i_rc.T[:, :, None]` (moirae/models/ecm/__init__.py:192). -/
def transposeNew (a : Nd ℝ) : Nd ℝ :=
  ⟨[a.shape.getD 1 0, a.shape.getD 0 0, 1], fun idx => a.get [idx.getD 1 0, idx.getD 0 0]⟩

/-- From `(asoh_batch, trans_batch, 1)` to `(batch, 1)` (moirae/models/ecm/__init__.py:201-206). -/
def flattenVt (v : Nd ℝ) : Except Err (Nd ℝ) := do
  let v ← diag01 v
  if v.shape.getD 0 0 = 1 ∨ v.shape.getD 1 0 = 1 then v.reshape [v.size, 1] else .ok v

/-- The series-capacitor term (moirae/models/ecm/__init__.py:173-178). -/
noncomputable def addC0 (vt soc : Nd ℝ) (q0 : Option (Nd ℝ)) (c0 : Option Interp) : Except Err (Nd ℝ) :=
  match q0 with
  | none => .ok vt
  | some q =>
    match c0 with
    | none => .error .attributeError
    | some c => do add vt (← div q (← c.getValue [] soc))

/-- The RC terms (moirae/models/ecm/__init__.py:180-195). -/
noncomputable def addRC (vt soc irc : Nd ℝ) (temp : Option (Nd ℝ)) (rcs : List RC) : Except Err (Nd ℝ) :=
  if irc.shape.getD 1 0 = 0 then .ok vt
  else do
    let rs ← stack (← rcs.mapM fun rc => rc.r.getValue soc temp)
    let drops ← mul (transposeNew irc) (rs.swapaxes 0 1)
    add vt (← sumAxis1 drops)

/-- `EquivalentCircuitModel.calculate_terminal_voltage` (moirae/models/ecm/__init__.py:153-208), followed by the
`enforce_dimensions` of the measurement's field. -/
noncomputable def voltage (new : Input) (st : State) (a : ASOH) : Except Err (Nd ℝ) := do
  let vt ← a.ocv.getValue st.soc new.temp
  let r0 ← a.r0.getValue st.soc new.temp
  let vt ← add vt (← mul new.current r0)
  let vt ← addC0 vt st.soc st.q0 a.c0
  let vt ← addRC vt st.soc st.irc new.temp a.rcs
  let vt ← add vt st.hyst
  enforce0 (← flattenVt vt)

end Verif.Ecm
