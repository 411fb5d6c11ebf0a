import Verif.Model.Interp
/-!
# A parameter given by its values at pinpoints
-/

namespace Verif

/-- `h` is a batch of `R` linearly interpolated curves, each through `W ≥ 2` points whose SOCs are `x 0, …, x (W-1)`, all
different and listed in any order.  Without pinpoints the SOCs are evenly spread on `[0, 1]`. -/
structure Pinned (h : Interp) (R W : Nat) (x : Nat → ℝ) : Prop where
  linear : h.style = .linear
  shape : h.base.shape = [R, W]
  two : 2 ≤ W
  pins : h.pins = some ((List.range W).map x) ∨ (h.pins = none ∧ ∀ k < W, x k = (k : ℝ) / ((W : ℝ) - 1))
  distinct : ∀ j < W, ∀ k < W, x j = x k → j = k

/-- Pinpoints `j` and `l` are neighbours, `j` on the left. -/
def Neighbours (W : Nat) (x : Nat → ℝ) (j l : Nat) : Prop :=
  j < W ∧ l < W ∧ x j < x l ∧ ∀ m < W, ¬ (x j < x m ∧ x m < x l)

/-- The line through `(x₀, y₀)` and `(x₁, y₁)`, at `s`. -/
noncomputable def lineThrough (x₀ y₀ x₁ y₁ s : ℝ) : ℝ := y₀ + (y₁ - y₀) * (s - x₀) / (x₁ - x₀)

end Verif
