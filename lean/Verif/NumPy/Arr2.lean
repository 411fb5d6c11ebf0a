import Verif.Py
/-!
# Two-dimensional NumPy arrays `(batch, width)`

The values stored in `HealthVariable` and `GeneralContainer` objects.  An array is its number of columns and the list of
its rows, every row having that many entries; so equality of `Arr2` is equality of shape and of all entries.
-/

namespace Verif

/-- A 2D NumPy array of shape `(rows.length, ncol)` (moirae/models/base.py:47-57: every stored value has the batch
dimension first). -/
structure Arr2 (α : Type) where
  ncol : Nat
  rows : List (List α)
  wf : ∀ r ∈ rows, r.length = ncol

namespace Arr2
variable {α : Type}

/-- `x.shape[0]` (moirae/models/base.py:80). -/
def nrow (a : Arr2 α) : Nat := a.rows.length

/-- `np.size(x)` for an array (moirae/models/base.py:398). -/
def size (a : Arr2 α) : Nat := a.nrow * a.ncol

@[ext] theorem ext' {a b : Arr2 α} (h₁ : a.ncol = b.ncol) (h₂ : a.rows = b.rows) : a = b := by
  cases a; cases b; simp_all

instance [DecidableEq α] : DecidableEq (Arr2 α) := fun a b =>
  decidable_of_iff (a.ncol = b.ncol ∧ a.rows = b.rows)
    ⟨fun h => ext' h.1 h.2, fun h => by subst h; simp⟩

/-- `values[None, :]` for a 1D array (moirae/models/base.py:375). -/
def ofRow (r : List α) : Arr2 α := ⟨r.length, [r], by simp⟩

/-- The `(1, 1)` array holding `x` (moirae/models/base.py:35-37). -/
def scalar (x : α) : Arr2 α := ofRow [x]

/-- The `(n, 1)` column holding the given numbers (moirae/models/base.py:35). -/
def column (xs : List α) : Arr2 α := ⟨1, xs.map fun x => [x], by simp⟩

/-- `np.zeros((n, 0))` (moirae/models/base.py:346). -/
def empty (n : Nat) : Arr2 α := ⟨0, List.replicate n [], by simp⟩

/-- `np.repeat(x, n, axis=0)`: every row `n` times (moirae/models/base.py:359,513; moirae/simulator.py:158). -/
def repeatRows (a : Arr2 α) (n : Nat) : Arr2 α :=
  ⟨a.ncol, a.rows.flatMap (List.replicate n), by
    intro r hr
    simp only [List.mem_flatMap, List.mem_replicate] at hr
    obtain ⟨r', h, _, rfl⟩ := hr
    exact a.wf _ h⟩

/-- `x[:, lo:hi]` for `0 ≤ lo ≤ hi` (Python slices clip at the end of the array) (moirae/models/base.py:404,460-533). -/
def cols (a : Arr2 α) (lo hi : Nat) : Arr2 α :=
  ⟨min (hi - lo) (a.ncol - lo), a.rows.map fun r => (r.drop lo).take (hi - lo), by
    intro r hr
    simp only [List.mem_map] at hr
    obtain ⟨r', h, rfl⟩ := hr
    simp [a.wf _ h]⟩

/-- `np.concatenate([x, y], axis=1)`; `none` (ValueError) unless both have the same number of rows (moirae/models/base.py:361,515). -/
def hcat2 (a b : Arr2 α) : Except Err (Arr2 α) :=
  if a.nrow = b.nrow then
    .ok ⟨a.ncol + b.ncol, List.zipWith (· ++ ·) a.rows b.rows, by
      intro r hr
      rw [List.mem_iff_getElem] at hr
      obtain ⟨i, hi, rfl⟩ := hr
      simp only [List.length_zipWith] at hi
      simp [a.wf _ (List.getElem_mem _), b.wf _ (List.getElem_mem _)]⟩
  else .error .valueError

/-- `np.concatenate(arrays, axis=1)`; raises ValueError on an empty list and on unequal row counts (moirae/models/base.py:361,515). -/
def hcat : List (Arr2 α) → Except Err (Arr2 α)
  | [] => .error .valueError
  | [a] => .ok a
  | a :: b :: rest => do hcat2 a (← hcat (b :: rest))

end Arr2
end Verif
