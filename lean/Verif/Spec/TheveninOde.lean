import Verif.Model.Thevenin
import Mathlib.Analysis.Calculus.Deriv.Basic
import Mathlib.Algebra.BigOperators.Intervals
/-!
# The equations of a Thevenin circuit

What the documentation of the Thevenin package (the model description that `moirae/models/thevenin/__init__.py:105` refers to) says a circuit does,
and what a solver of these equations is.  The package is not in /repo: the equations and the initial temperature are assumptions about it.
-/

namespace Verif.Spec
open Verif.Thevenin Nd

/-- One cell: capacity (Ah), thermal mass and exchange, series resistance, and resistance and capacitance of the RC elements as functions of SOC and
temperature. -/
structure TCell where
  capacity : ℝ
  mass : ℝ
  cp : ℝ
  h : ℝ
  area : ℝ
  r0 : ℝ → ℝ → ℝ
  rcs : List ((ℝ → ℝ → ℝ) × (ℝ → ℝ → ℝ))

/-- SOC, temperature and overpotentials as functions of time. -/
structure Course where
  soc : ℝ → ℝ
  temp : ℝ → ℝ
  eta : Nat → ℝ → ℝ

/-- The temperature of the cell: the ambient one if the cell is isothermal. -/
noncomputable def Course.heat (x : Course) (iso : Bool) (amb t : ℝ) : ℝ := if iso then amb else x.temp t

open Set (Icc) in
/-- The equations while the cell is discharged with `I` (A) at ambient temperature `amb` from time `s` to time `e`:
`SOC' = -I / (3600 Q)`, `η' = I / C - η / (R C)` for every RC element, and `m c T' = I (Σ η + I R₀) - h A (T - amb)` unless the temperature is held.
Resistances and capacitances of RC elements are positive. -/
structure Obeys (c : TCell) (iso : Bool) (amb I s e : ℝ) (x : Course) : Prop where
  soc : ∀ t ∈ Icc s e, HasDerivWithinAt x.soc (-I / (3600 * c.capacity)) (Icc s e) t
  eta : ∀ (j : Nat) (hj : j < c.rcs.length), ∀ t ∈ Icc s e, HasDerivWithinAt (x.eta j)
    (I / c.rcs[j].2 (x.soc t) (x.heat iso amb t) -
      x.eta j t / (c.rcs[j].1 (x.soc t) (x.heat iso amb t) * c.rcs[j].2 (x.soc t) (x.heat iso amb t))) (Icc s e) t
  temp : iso = false → ∀ t ∈ Icc s e, HasDerivWithinAt x.temp
    ((I * ((∑ j ∈ Finset.range c.rcs.length, x.eta j t) + I * c.r0 (x.soc t) (x.temp t)) - c.h * c.area * (x.temp t - amb)) / (c.mass * c.cp)) (Icc s e) t
  positive : ∀ rc ∈ c.rcs, ∀ t ∈ Icc s e, 0 < rc.1 (x.soc t) (x.heat iso amb t) ∧ 0 < rc.2 (x.soc t) (x.heat iso amb t)

/-- Resistances and capacitances change continuously with the SOC.  If the temperature is not held, they do not depend on it. -/
structure Regular (c : TCell) (iso : Bool) : Prop where
  cont : ∀ rc ∈ c.rcs, ∀ T, Continuous (fun z => rc.1 z T) ∧ Continuous (fun z => rc.2 z T)
  cold : iso = false → (∀ z T T', c.r0 z T = c.r0 z T') ∧ ∀ rc ∈ c.rcs, ∀ z T T', rc.1 z T = rc.1 z T' ∧ rc.2 z T = rc.2 z T'

/-- The value of a parameter that is given as a function of arrays. -/
def Gives (f : Nd ℝ → Nd ℝ → Except Err (Nd ℝ)) (g : ℝ → ℝ → ℝ) : Prop :=
  ∀ z T, ∃ v, f (num z) (num T) = .ok v ∧ v.shape = [] ∧ v.get [] = g z T

/-- The parameters with which a model is made are those of the cell. -/
structure Describes (m : Member) (c : TCell) : Prop where
  capacity : m.capacity = c.capacity
  mass : m.mass = c.mass
  cp : m.cp = c.cp
  h : m.hTherm = c.h
  area : m.aTherm = c.area
  r0 : Gives m.r0 c.r0
  rs : List.Forall₂ (fun f rc => Gives f rc.1) m.rs c.rcs
  cs : List.Forall₂ (fun f rc => Gives f rc.2) m.cs c.rcs

/-- A solver that returns the values at the end of the step, where the course starts with the SOC and overpotentials of the model and at the ambient
temperature (as `thevenin.Model` does). -/
def ExactSolver (solver : Solver) : Prop :=
  ∀ (m : Member) (c : TCell), Describes m c → Regular c m.isothermal → ∀ (I d : ℝ) (x : Course), 0 ≤ d → Obeys c m.isothermal m.tInf I 0 d x →
    x.soc 0 = m.soc0 → x.heat m.isothermal m.tInf 0 = m.tInf → (∀ j < c.rcs.length, x.eta j 0 = m.eta0.getD j 0) →
    ∃ sol, solver m I d = .ok sol ∧ sol.soc = x.soc d ∧ sol.temp = x.heat m.isothermal m.tInf d ∧ ∀ j < c.rcs.length, sol.eta j = x.eta j d

/-- `c₀ + c₁ x + c₂ x² + …` for row `b` of a table (its only row if it has one). -/
noncomputable def rowPoly (c : Nd ℝ) (b : Nat) (x : ℝ) : ℝ := ∑ i ∈ Finset.range (c.shape.getD 1 0), c.get [b % Ecm.rows c, i] * x ^ i

/-- The value of a polynomial parameter for member `b`. -/
noncomputable def polyAt (p : PolySocT) (b : Nat) (z T : ℝ) : ℝ := rowPoly p.tCoeffs b (T - entry p.tRef b) + rowPoly p.socCoeffs b z

/-- The cell that is member `b` of a batch. -/
noncomputable def tCellAt (a : Thevenin.ASOH) (b : Nat) : TCell where
  capacity := entry a.capacity b
  mass := entry a.mass b
  cp := entry a.cp b
  h := entry a.hThermal b
  area := entry a.aTherm b
  r0 := polyAt a.r0 b
  rcs := a.rcs.map fun p => (polyAt p.1 b, polyAt p.2 b)

/-- Tables of coefficients with at least one column. -/
def Tables (p : PolySocT) : Prop :=
  (∃ n, p.tRef.shape = [n, 1]) ∧ (∃ n d, p.socCoeffs.shape = [n, d] ∧ 1 ≤ d) ∧ ∃ n d, p.tCoeffs.shape = [n, d] ∧ 1 ≤ d

/-- A sequence of steps: with every new input the cell is charged by its current at its ambient temperature, from the time of the input before to its
time. -/
def FollowsAll (c : TCell) (iso : Bool) (x : Course) (b : Nat) : Thevenin.Input → List Thevenin.Input → Prop
  | _, [] => True
  | u, v :: us => entry u.time b ≤ entry v.time b ∧
      Obeys c iso (entry v.tInf b) (-entry v.current b) (entry u.time b) (entry v.time b) x ∧ FollowsAll c iso x b v us

end Verif.Spec
