import Verif.Spec.Cell
import Verif.Spec.TheveninOde
/-!
# One cell described to both cell models
-/

namespace Verif.Spec
open Verif.Thevenin

/-- The same cell in both models: `R₀` in series with RC elements `R j`, `C j`, all constant; a Coulombic efficiency of 1, no series capacitor and no
hysteresis in the equivalent circuit. -/
structure SameCell (p : Cell.Par) (a : Thevenin.ASOH) (b : Nat) (R₀ : ℝ) (R C : Nat → ℝ) : Prop where
  capacity : p.qt = entry a.capacity b
  efficiency : p.ce = 1
  noSeries : p.c0 = none
  noHysteresis : ∀ z, p.hystMax z = 0
  ocv : ∀ z T, p.ocv z T = rowPoly a.ocv.coeffs b z
  number : p.rcs.length = a.rcs.length
  circuitR0 : ∀ z T, p.r0 z T = R₀
  circuitR : ∀ (j : Nat) (h : j < p.rcs.length) (z : ℝ) (T : Option ℝ), p.rcs[j].r z T = R j
  circuitC : ∀ (j : Nat) (h : j < p.rcs.length) (z : ℝ), p.rcs[j].c z = C j
  theveninR0 : ∀ z T, polyAt a.r0 b z T = R₀
  theveninR : ∀ (j : Nat) (h : j < a.rcs.length) (z T : ℝ), polyAt a.rcs[j].1 b z T = R j
  theveninC : ∀ (j : Nat) (h : j < a.rcs.length) (z T : ℝ), polyAt a.rcs[j].2 b z T = C j

/-- The same time and current. -/
def SameInput (i : Cell.In) (u : Thevenin.Input) (b : Nat) : Prop := i.time = entry u.time b ∧ i.current = entry u.current b

/-- No hysteresis, and the overpotentials (counted positive on discharge) that the RC currents (positive on charge) cause. -/
structure SameRC (s : Cell.St) (η : Nat → ℝ) (R : Nat → ℝ) (n : Nat) : Prop where
  relaxed : s.hyst = 0
  number : s.irc.length = n
  eta : ∀ j < n, η j = -(R j * s.irc.getD j 0)

end Verif.Spec
