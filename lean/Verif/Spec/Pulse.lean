import Verif.Spec.Cell
import Verif.Spec.TheveninOde
/-!
# Cells of constant resistances, for pulse tests
-/

namespace Verif.Spec
open Verif.Thevenin

/-- An equivalent circuit of `R₀` in series with RC elements `R j`, `C j`, without series capacitor or hysteresis. -/
structure PlainCircuit (p : Cell.Par) (R₀ : ℝ) (n : Nat) (R C : Nat → ℝ) : Prop where
  noSeries : p.c0 = none
  noHysteresis : ∀ z, p.hystMax z = 0
  number : p.rcs.length = n
  r0 : ∀ z T, p.r0 z T = R₀
  r : ∀ (j : Nat) (h : j < p.rcs.length) (z : ℝ) (T : Option ℝ), p.rcs[j].r z T = R j
  c : ∀ (j : Nat) (h : j < p.rcs.length) (z : ℝ), p.rcs[j].c z = C j

/-- A Thevenin cell of `R₀` in series with RC elements `R j`, `C j`. -/
structure PlainThevenin (a : Thevenin.ASOH) (b : Nat) (R₀ : ℝ) (R C : Nat → ℝ) : Prop where
  r0 : ∀ z T, polyAt a.r0 b z T = R₀
  r : ∀ (j : Nat) (h : j < a.rcs.length) (z T : ℝ), polyAt a.rcs[j].1 b z T = R j
  c : ∀ (j : Nat) (h : j < a.rcs.length) (z T : ℝ), polyAt a.rcs[j].2 b z T = C j

/-- The resistance that a pulse of `d` seconds shows: at once `R₀`, and more of the others the longer it lasts. -/
noncomputable def pulseResistance (R₀ : ℝ) (n : Nat) (R C : Nat → ℝ) (d : ℝ) : ℝ :=
  R₀ + ∑ j ∈ Finset.range n, R j * (1 - Real.exp (-d / (R j * C j)))

end Verif.Spec
