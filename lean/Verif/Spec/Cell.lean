import Mathlib.Analysis.SpecialFunctions.Exp
import Verif.Model.Ecm
/-!
# One cell: the circuit equations without arrays

What the equivalent circuit computes for a single cell, as plain formulas over the reals, and how a batch of cells is read
as single cells.
-/

namespace Verif.Cell
open Verif.Ecm (Behavior)

/-- Inputs of one cell: time (s), current (A), temperature (°C) if measured. -/
structure In where
  time : ℝ
  current : ℝ
  temp : Option ℝ

/-- Transient state of one cell. -/
structure St where
  soc : ℝ
  q0 : Option ℝ
  irc : List ℝ
  hyst : ℝ

/-- One RC element: resistance at SOC and temperature, capacitance at SOC. -/
structure RC where
  r : ℝ → Option ℝ → ℝ
  c : ℝ → ℝ

/-- Parameters of one cell: capacity (Ah), Coulombic efficiency, and the circuit's curves. -/
structure Par where
  qt : ℝ
  ce : ℝ
  ocv : ℝ → Option ℝ → ℝ
  r0 : ℝ → Option ℝ → ℝ
  c0 : Option (ℝ → ℝ)
  rcs : List RC
  hystMax : ℝ → ℝ
  gamma : ℝ

/-- Duration of a step. -/
noncomputable def dt (prev new : In) : ℝ := new.time - prev.time

/-- Slope of the current during a step. -/
noncomputable def slope (beh : Behavior) (prev new : In) : ℝ :=
  match beh with
  | .constant => 0
  | .linear => (new.current - prev.current) / dt prev new

/-- Efficiency applied to the charge of a step: 1 while discharging. -/
noncomputable def eff (prev : In) (p : Par) : ℝ := if prev.current < 0 then 1 else p.ce

/-- Charge that flows during a step. -/
noncomputable def charge (beh : Behavior) (prev new : In) : ℝ :=
  dt prev new * (prev.current + slope beh prev new * dt prev new / 2)

/-- New current of an RC element. -/
noncomputable def rcNext (beh : Behavior) (prev new : In) (soc : ℝ) (rc : RC) (i : ℝ) : ℝ :=
  let tau := rc.r soc prev.temp * rc.c soc
  let f := Real.exp (-dt prev new / tau)
  i * f + (1 - f) * (new.current - slope beh prev new * tau) + slope beh prev new * dt prev new

/-- Hysteresis after `d` seconds of a current starting at `i0` with slope `α`. -/
noncomputable def hystAfter (h0 M κ d i0 α : ℝ) : ℝ :=
  let e := κ * d * (i0 + 0.5 * α * d)
  let f := Real.exp (if i0 > -(α * d) then -e else e)
  f * h0 + (1 - f) * M

open Classical in
/-- Asymptote of the hysteresis: the maximum with the sign of the current; left un-normalised below 1e-8 A. -/
noncomputable def hystTarget (prev : In) (soc : ℝ) (p : Par) : ℝ :=
  if |prev.current| ≤ 1e-8 then p.hystMax soc * prev.current else p.hystMax soc * prev.current / |prev.current|

/-- Rate constant of the hysteresis. -/
noncomputable def kappa (prev : In) (p : Par) : ℝ := eff prev p * p.gamma / (3600 * p.qt)

open Classical in
/-- New hysteresis. -/
noncomputable def hystNext (beh : Behavior) (prev new : In) (s : St) (p : Par) : ℝ :=
  let M := hystTarget prev s.soc p
  let κ := kappa prev p
  let α := slope beh prev new
  if prev.current * new.current ≥ 0 ∨ beh = .constant then hystAfter s.hyst M κ (dt prev new) prev.current α
  else
    let φ := -prev.current / α
    hystAfter (hystAfter s.hyst M κ φ prev.current α) (-M) κ (dt prev new - φ) 0 α

/-- One step of one cell. -/
noncomputable def step (beh : Behavior) (prev new : In) (s : St) (p : Par) : St where
  soc := s.soc + eff prev p * (charge beh prev new / (3600 * p.qt))
  q0 := s.q0.map (· + charge beh prev new)
  irc := List.zipWith (rcNext beh prev new s.soc) p.rcs s.irc
  hyst := hystNext beh prev new s p

/-- Successive steps of one cell. -/
noncomputable def run (beh : Behavior) (p : Par) : In → List In → St → St
  | _, [], s => s
  | prev, new :: rest, s => run beh p new rest (step beh prev new s p)

/-- The steps of an input sequence: each input with its successor. -/
def steps {α : Type} (u : α) (us : List α) : List (α × α) := (u :: us).zip us

/-- Terminal voltage of one cell. -/
noncomputable def volt (new : In) (s : St) (p : Par) : ℝ :=
  p.ocv s.soc new.temp + new.current * p.r0 s.soc new.temp +
    (match s.q0, p.c0 with
      | some q, some c => q / c s.soc
      | _, _ => 0) +
    (List.zipWith (fun i (rc : RC) => i * rc.r s.soc new.temp) s.irc p.rcs).sum + s.hyst

/-! ## Reading member `b` of a batch -/

/-- Member `b` of a 2D value: row `b`, or the only row. -/
def at2 (a : Nd ℝ) (b : Nat) : ℝ := a.get [if Ecm.rows a = 1 then 0 else b, 0]

/-- The curve of member `b`. -/
noncomputable def curveAt (h : Interp) (b : Nat) (soc : ℝ) : ℝ :=
  let i := if h.rows = 1 then 0 else b
  if h.width = 1 then h.base.get [i, 0] else h.style.curve h.pinsUsed (h.row i) soc

open Classical in
/-- The resistance of member `b`. -/
noncomputable def resAt (r : Ecm.Resistance) (b : Nat) (soc : ℝ) (temp : Option ℝ) : ℝ :=
  match temp with
  | none => curveAt r.interp b soc
  | some t => curveAt r.interp b soc * Real.exp (-at2 r.tdf b * (t - r.refTemp))

/-- The open-circuit voltage of member `b`. -/
noncomputable def ocvAt (o : Ecm.OCV) (b : Nat) (soc : ℝ) (temp : Option ℝ) : ℝ :=
  match temp with
  | none => curveAt o.ref b soc
  | some t => curveAt o.ref b soc + (t - at2 o.refTemp b) * curveAt o.ent b soc

/-- The parameters of member `b`. -/
noncomputable def parAt (a : Ecm.ASOH) (b : Nat) : Par where
  qt := at2 a.qt b
  ce := at2 a.ce b
  ocv := ocvAt a.ocv b
  r0 := resAt a.r0 b
  c0 := a.c0.map fun c => curveAt c b
  rcs := a.rcs.map fun rc => ⟨resAt rc.r b, curveAt rc.c b⟩
  hystMax := curveAt a.hyst b
  gamma := at2 a.gamma b

/-- The inputs of member `b`. -/
def inAt (i : Ecm.Input) (b : Nat) : In := ⟨at2 i.time b, at2 i.current b, i.temp.map fun t => at2 t b⟩

/-- The transient state of member `b`. -/
def stAt (s : Ecm.State) (b : Nat) : St :=
  ⟨at2 s.soc b, s.q0.map fun q => at2 q b,
    (List.range (s.irc.shape.getD 1 0)).map fun j => s.irc.get [if Ecm.rows s.irc = 1 then 0 else b, j], at2 s.hyst b⟩

/-! ## Shapes of a batch of `B` cells -/

/-- A scalar quantity that is unbatched or has `B` rows. -/
def Scalar (B : Nat) (a : Nd ℝ) : Prop := a.shape = [1, 1] ∨ a.shape = [B, 1]

/-- A curve that is unbatched or has `B` rows. -/
def Curve (B : Nat) (h : Interp) : Prop := h.base.shape = [1, h.width] ∨ h.base.shape = [B, h.width]

def Res (B : Nat) (r : Ecm.Resistance) : Prop := Curve B r.interp ∧ Scalar B r.tdf

/-- Every parameter is unbatched or has `B` rows. -/
structure Pars (B : Nat) (a : Ecm.ASOH) : Prop where
  qt : Scalar B a.qt
  ce : Scalar B a.ce
  gamma : Scalar B a.gamma
  ref : Curve B a.ocv.ref
  refTemp : Scalar B a.ocv.refTemp
  ent : Curve B a.ocv.ent
  r0 : Res B a.r0
  c0 : ∀ c ∈ a.c0, Curve B c
  rcs : ∀ rc ∈ a.rcs, Res B rc.r ∧ Curve B rc.c
  hyst : Curve B a.hyst

/-- Every input is unbatched or has `B` rows. -/
structure Ins (B : Nat) (i : Ecm.Input) : Prop where
  time : Scalar B i.time
  current : Scalar B i.current
  temp : ∀ t ∈ i.temp, Scalar B t

/-- Every part of the state is unbatched or has `B` rows, with one RC current per RC element of the circuit. -/
structure Sts (B : Nat) (a : Ecm.ASOH) (s : Ecm.State) : Prop where
  soc : Scalar B s.soc
  q0 : ∀ q ∈ s.q0, Scalar B q
  irc : s.irc.shape = [1, a.rcs.length] ∨ s.irc.shape = [B, a.rcs.length]
  hyst : Scalar B s.hyst

end Verif.Cell
