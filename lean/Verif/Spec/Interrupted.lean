import Verif.Spec.Run
/-!
# Rows at which a run ends
-/

namespace Verif

variable {σ : Type}

/-- The estimator cannot observe the row: it has no inputs, or the step raises; or the row belongs to no cycle. -/
def Spec.Interrupts (ops : EstimatorOps σ) (e : σ) (row : Row) : Prop :=
  (∀ u y, rowToInputs row = .ok (u, y) → ∀ r, ops.step e u y ≠ .ok r) ∨ ∀ x : ℝ, lookupKey "cycle_number".toList row ≠ some (.fin x)

end Verif
