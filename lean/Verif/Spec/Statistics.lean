import Verif.Props.Ukf
import Mathlib.MeasureTheory.Function.L1Space.Integrable
import Mathlib.MeasureTheory.Integral.Bochner.Basic
/-!
# Random noise, and what estimates of a noisy system should be (C144)
-/

namespace Verif
open Matrix MeasureTheory

variable {Ω : Type} [MeasurableSpace Ω] {n m o : Nat}

/-- A random vector of mean 0 and covariance `C`. -/
structure Spec.Spread (ℙ : Measure Ω) (a : Ω → Fin n → ℝ) (C : Matrix (Fin n) (Fin n) ℝ) : Prop where
  square : ∀ i, MemLp (fun ω => a ω i) 2 ℙ
  mean : ∀ i, ∫ ω, a ω i ∂ℙ = 0
  cov : ∀ i j, ∫ ω, a ω i * a ω j ∂ℙ = C i j

/-- Two random vectors of which one has mean 0 are uncorrelated. -/
def Spec.Uncorrelated (ℙ : Measure Ω) (a : Ω → Fin n → ℝ) (b : Ω → Fin m → ℝ) : Prop := ∀ i j, ∫ ω, a ω i * b ω j ∂ℙ = 0

open Spec

/-- What the matrices given to a Kalman filter are meant to describe: the error `e` of the first estimate has covariance `P`, the noise of the states
and of the measurements in the steps `ds` has covariances `Q` and `R`, and all of these are uncorrelated, in the same and in different steps. -/
structure Spec.White {ι : Type} (ℙ : Measure Ω) (e : Ω → Fin n → ℝ) (P Q : Matrix (Fin n) (Fin n) ℝ) (R : Matrix (Fin o) (Fin o) ℝ)
    (ds : List (ι × (Ω → Fin n → ℝ) × (Ω → Fin o → ℝ))) : Prop where
  first : Spread ℙ e P
  state : ∀ d ∈ ds, Spread ℙ d.2.1 Q
  sensor : ∀ d ∈ ds, Spread ℙ d.2.2 R
  apart : ∀ d ∈ ds, Uncorrelated ℙ e d.2.1 ∧ Uncorrelated ℙ e d.2.2 ∧ Uncorrelated ℙ d.2.1 d.2.2
  times : ds.Pairwise fun d d' => Uncorrelated ℙ d.2.1 d'.2.1 ∧ Uncorrelated ℙ d.2.1 d'.2.2 ∧ Uncorrelated ℙ d.2.2 d'.2.1 ∧ Uncorrelated ℙ d.2.2 d'.2.2

/-- The noises of all steps in one case. -/
def Spec.noiseAt {ι : Type} (ds : List (ι × (Ω → Fin n → ℝ) × (Ω → Fin o → ℝ))) (ω : Ω) : List (ι × (Fin n → ℝ) × (Fin o → ℝ)) :=
  ds.map fun d => (d.1, d.2.1 ω, d.2.2 ω)

/-- The random vector `g` is a sum of matrices times the random vectors `ys`, and a constant. -/
def Spec.MadeFrom : List (Ω → Fin o → ℝ) → (Ω → Fin n → ℝ) → Prop
  | [], g => ∃ c, ∀ ω, g ω = c
  | y :: ys, g => ∃ G : Matrix (Fin n) (Fin o) ℝ, MadeFrom ys fun ω => g ω - G *ᵥ y ω

/-- A random estimate with a covariance that is always the same. -/
structure Spec.Reported (Ω : Type) (n : Nat) where
  mean : Ω → Fin n → ℝ
  cov : Matrix (Fin n) (Fin n) ℝ

/-- The estimate in one case. -/
def Spec.Reported.at (b : Reported Ω n) (ω : Ω) : Belief n := ⟨b.mean ω, b.cov⟩

/-- The estimate `b` of `x` from measurements `ys`: its error has mean 0 and the covariance reported with it, which is positive definite, it is linear in the measurements, and no
other linear one is better, in any direction. -/
structure Spec.Best (ℙ : Measure Ω) (ys : List (Ω → Fin o → ℝ)) (x : Ω → Fin n → ℝ) (b : Reported Ω n) : Prop where
  definite : b.cov.PosDef
  error : Spread ℙ (fun ω => b.mean ω - x ω) b.cov
  linear : MadeFrom ys b.mean
  least : ∀ g, MadeFrom ys g → ∀ v, ∫ ω, (v ⬝ᵥ (b.mean ω - x ω)) ^ 2 ∂ℙ ≤ ∫ ω, (v ⬝ᵥ (g ω - x ω)) ^ 2 ∂ℙ

/-- States and measurements `truth`, estimates and predicted outputs `out`, in order: the estimates are the best ones from the measurements up to
theirs, the predictions are the best ones from the measurements before, and the errors of predictions are uncorrelated with these. -/
def Spec.Consistent (ℙ : Measure Ω) (past : List (Ω → Fin o → ℝ)) (truth : List ((Ω → Fin n → ℝ) × (Ω → Fin o → ℝ)))
    (out : List (Reported Ω n × Reported Ω o)) : Prop :=
  out.length = truth.length ∧ ∀ k t b, truth[k]? = some t → out[k]? = some b →
    Best ℙ (past ++ (truth.take (k + 1)).map (·.2)) t.1 b.1 ∧ Best ℙ (past ++ (truth.take k).map (·.2)) t.2 b.2 ∧
    ∀ y ∈ past ++ (truth.take k).map (·.2), Uncorrelated ℙ (fun ω => b.2.mean ω - t.2 ω) y

end Verif
