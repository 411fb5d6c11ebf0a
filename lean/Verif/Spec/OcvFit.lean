import Verif.Model.Extractors
import Mathlib.Algebra.Polynomial.Eval.Degree
import Mathlib.Analysis.Calculus.ContDiff.Defs
/-!
# Vocabulary for least squares splines
-/

namespace Verif.Spec

/-- `s` is a cubic spline with knots `t`: twice continuously differentiable, and a polynomial of degree at most three on every interval
without a knot inside. -/
def CubicSpline (t : List ℝ) (s : ℝ → ℝ) : Prop :=
  ContDiff ℝ 2 s ∧ ∀ a b, a < b → (∀ k ∈ t, ¬ (a < k ∧ k < b)) →
    ∃ p : Polynomial ℝ, p.natDegree ≤ 3 ∧ ∀ x, a ≤ x → x ≤ b → s x = p.eval x

/-- The sum of the squares of the weighted residuals `w (y - s(x))`. -/
def sumSquares : List ℝ → List ℝ → List ℝ → (ℝ → ℝ) → ℝ
  | x :: xs, y :: ys, w :: ws, s => (w * (y - s x)) ^ 2 + sumSquares xs ys ws s
  | _, _, _, _ => 0

/-- `s` is a cubic spline with knots `t` that fits the points `(x, y)` with weights `w` best. -/
def BestSpline (x y w t : List ℝ) (s : ℝ → ℝ) : Prop :=
  CubicSpline t s ∧ ∀ g, CubicSpline t g → sumSquares x y w s ≤ sumSquares x y w g

/-- What `scipy` promises of `LSQUnivariateSpline(x, y, w=w, t=t)` with increasing knots: the spline returned fits best.  (It may raise.) -/
def FitsBest (fit : List ℝ → List ℝ → List ℝ → List ℝ → Except Err (ℝ → ℝ)) : Prop :=
  ∀ x y w t s, t.Pairwise (· < ·) → fit x y w t = .ok s → BestSpline x y w t s

/-- At least four different SOCs are measured between any two neighbouring SOC points (ends included). -/
def WellSampled (E : OcvExtractor) (raw : List Sample) : Prop :=
  ∀ j a b, E.socPoints[j]? = some a → E.socPoints[j + 1]? = some b →
    ∃ xs : Finset ℝ, 4 ≤ xs.card ∧ ∀ x ∈ xs, a ≤ x ∧ x ≤ b ∧ ∃ s ∈ raw, s.cycleCapacity / E.capacity = x

/-- Every charge is measured as often with a current as with the opposite current: each measurement on charge has its partner on
discharge. -/
def Balanced (raw : List Sample) : Prop :=
  (raw.map fun s => (s.cycleCapacity, -s.current)).Perm (raw.map fun s => (s.cycleCapacity, s.current))

end Verif.Spec
