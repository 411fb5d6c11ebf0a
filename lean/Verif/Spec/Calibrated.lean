import Verif.Spec.Statistics
import Mathlib.Probability.Distributions.Gaussian.Real
import Mathlib.Probability.Independence.Basic
/-!
# Normal noise, and standard deviations that mean what they say (C146)
-/

namespace Verif
open Matrix MeasureTheory
open ProbabilityTheory (gaussianReal IndepFun)

variable {Ω : Type} [MeasurableSpace Ω] {n m o : Nat}

/-- The numbers in a random vector. -/
def Spec.numbers (a : Ω → Fin n → ℝ) : Set (Ω → ℝ) := {X | ∃ i, X = fun ω => a ω i}

open Spec

/-- All random numbers there are: those of the error of the first estimate, and those of the noises of all steps. -/
def Spec.sources {ι : Type} (e : Ω → Fin n → ℝ) (ds : List (ι × (Ω → Fin n → ℝ) × (Ω → Fin o → ℝ))) : Set (Ω → ℝ) :=
  {X | X ∈ numbers e ∨ ∃ d ∈ ds, X ∈ numbers d.2.1 ∨ X ∈ numbers d.2.2}

/-- Random numbers are jointly normal around 0: so is every sum of multiples of some of them. -/
def Spec.JointlyNormal (ℙ : Measure Ω) (S : Set (Ω → ℝ)) : Prop :=
  ∀ X ∈ Submodule.span ℝ S, ∃ v, ℙ.map X = gaussianReal 0 v

/-- Whatever the measurements `ys` have been, `x` is normal around the estimate `b`, with the covariance that is reported: in any direction the deviation
is normal with the variance in this direction, and the deviation is independent of the measurements. -/
structure Spec.NormalAround (ℙ : Measure Ω) (ys : List (Ω → Fin o → ℝ)) (x : Ω → Fin n → ℝ) (b : Reported Ω n) : Prop where
  definite : b.cov.PosDef
  law : ∀ v, ℙ.map (fun ω => v ⬝ᵥ (x ω - b.mean ω)) = gaussianReal 0 (v ⬝ᵥ b.cov *ᵥ v).toNNReal
  indep : IndepFun (fun ω => x ω - b.mean ω) (fun ω (j : Fin ys.length) => ys[j] ω) ℙ

/-- The same of all states and measurements `truth`, and the estimates and predicted outputs `out`. -/
def Spec.Calibrated (ℙ : Measure Ω) (truth : List ((Ω → Fin n → ℝ) × (Ω → Fin o → ℝ))) (out : List (Reported Ω n × Reported Ω o)) : Prop :=
  out.length = truth.length ∧ ∀ k t b, truth[k]? = some t → out[k]? = some b →
    NormalAround ℙ ((truth.take (k + 1)).map (·.2)) t.1 b.1 ∧ NormalAround ℙ ((truth.take k).map (·.2)) t.2 b.2

end Verif
