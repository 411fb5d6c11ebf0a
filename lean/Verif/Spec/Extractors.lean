import Verif.Model.Extractors
import Mathlib.Data.EReal.Operations
/-!
# Vocabulary for extracted parameters
-/

namespace Verif.Spec

/-- `x` is a number, not NaN, and its value is `v`. -/
inductive IsValue : Num → EReal → Prop
  | fin (x : ℝ) : IsValue (.fin x) x
  | posInf : IsValue .posInf ⊤
  | negInf : IsValue .negInf ⊥

/-- `q` is one of the numbers in the column and none of them exceeds it. -/
def Largest (col : List Num) (q : Num) : Prop :=
  q ∈ col ∧ ∃ v, IsValue q v ∧ ∀ x ∈ col, ∀ u, IsValue x u → u ≤ v

/-- The dataset comes with the capacities `col` in its table of cycles. -/
def Lists (d : CellData) (col : List Num) : Prop :=
  ∃ t, d.cycleStats = some t ∧ lookupKey "capacity_charge".toList t = some col

/-- The dataset has no table of cycles, or one without capacities. -/
def ListsNone (d : CellData) : Prop :=
  ∀ t, d.cycleStats = some t → lookupKey "capacity_charge".toList t = none

end Verif.Spec
