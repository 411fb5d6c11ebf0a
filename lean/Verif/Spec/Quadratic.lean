import Verif.Spec.Statistics
import Verif.Spec.JointKalman
/-!
# Outputs to be expected from random states, and cells whose voltage is quadratic (C147)
-/

namespace Verif
open Ecm Cell Matrix MeasureTheory

/-- A number that depends on a vector as a constant, a linear form and a quadratic form do. -/
def Spec.Quadratic {N : Nat} (g : (Fin N → ℝ) → ℝ) : Prop :=
  ∃ (c : ℝ) (b : Fin N → ℝ) (A : Matrix (Fin N) (Fin N) ℝ), ∀ y, g y = c + b ⬝ᵥ y + y ⬝ᵥ A *ᵥ y

open Spec

/-- `y` is the output to be expected: whenever a random state has the mean and the covariance of the belief `b`, and the noise added to the state one step
later has mean 0 and covariance `Q` and is uncorrelated with the state – however the two are distributed otherwise –, the mean of the output is `y`. -/
def Spec.ExpectedOutput {n o : Nat} (next : (Fin n → ℝ) → Fin n → ℝ) (out : (Fin n → ℝ) → Fin o → ℝ) (Q : Matrix (Fin n) (Fin n) ℝ) (b : Belief n)
    (y : Fin o → ℝ) : Prop :=
  ∀ (Ω : Type) [MeasurableSpace Ω] (ℙ : Measure Ω) [IsProbabilityMeasure ℙ] (X W : Ω → Fin n → ℝ),
    Spread ℙ (fun ω => X ω - b.mean) b.cov → Spread ℙ W Q → Uncorrelated ℙ (fun ω => X ω - b.mean) W →
    ∀ i, Integrable (fun ω => out (next (X ω) + W ω) i) ℙ ∧ ∫ ω, out (next (X ω) + W ω) i ∂ℙ = y i

/-- Estimates and predicted outputs `outs` over a history of inputs, from the belief `b` at the input `prev`: every predicted output is the one to be
expected from the estimate before it. -/
def Spec.ExpectedOutputs {ι : Type} {n o : Nat} (next : ι → ι → (Fin n → ℝ) → Fin n → ℝ) (out : ι → (Fin n → ℝ) → Fin o → ℝ)
    (Q : Matrix (Fin n) (Fin n) ℝ) : ι → Belief n → List ι → List (Belief n × Belief o) → Prop
  | _, _, [], [] => True
  | prev, b, new :: ins, r :: outs => ExpectedOutput (next prev new) (out new) Q b r.2.mean ∧ ExpectedOutputs next out Q new r.1 ins outs
  | _, _, _, _ => False

/-- A curve over the SOC that makes the voltage quadratic: it is not estimated and itself quadratic, or has one value, or is interpolated linearly
between two values. -/
def Spec.Curved (ns : List Name) (k : List Name) (h : Interp) : Prop :=
  (¬ Named ns k ∧ ∃ α β γ, ∀ s, curveAt h 0 s = α + β * s + γ * s ^ 2) ∨ h.width = 1 ∨
    (h.style = .linear ∧ h.width = 2 ∧ h.pinsUsed.length = 2 ∧ h.pinsUsed.Nodup)

/-- The named parameters of a circuit are values of the open-circuit voltage, of R0 or of the maximum hysteresis.  The curves of the first two are such
as above; the last is a straight line that is not estimated, or has one value.  The series capacitor and the RC elements have one value each, and
nothing is divided by zero. -/
structure Spec.JointlyCurved (ns : List Name) (a : ASOH) : Prop where
  only : ∀ n ∈ ns, n ∈ [[kOcv, kOcvRef, kBase], [kOcv, kOcvEnt, kBase], [kR0, kBase], [kH0, kBase]].map pathName
  ref : Curved ns [kOcv, kOcvRef, kBase] a.ocv.ref
  ent : Curved ns [kOcv, kOcvEnt, kBase] a.ocv.ent
  r0 : Curved ns [kR0, kBase] a.r0.interp
  hyst : (OnLine a.hyst ∧ ¬ Named ns [kH0, kBase]) ∨ a.hyst.width = 1
  c0 : ∀ c ∈ a.c0, c.width = 1
  rcs : ∀ rc ∈ a.rcs, rc.r.interp.width = 1 ∧ rc.c.width = 1
  divisors : Divisors (parAt a 0)

end Verif
