import Verif.NumPy.Arr2
/-!
# NumPy arrays of any rank

A shape and the entries in row-major (C) order.
-/

namespace Verif

/-- `np.ndarray` of any rank: shape and entries in C order (moirae/models/base.py:30). -/
structure NDArray (α : Type) where
  shape : List Nat
  data : List α
  wf : data.length = shape.foldr (· * ·) 1

namespace NDArray
variable {α : Type}

@[ext] theorem ext' {a b : NDArray α} (h₁ : a.shape = b.shape) (h₂ : a.data = b.data) : a = b := by
  cases a; cases b; simp_all

/-- `x.ndim` (moirae/models/base.py:374). -/
def ndim (x : NDArray α) : Nat := x.shape.length

theorem prod_filter_one (s : List Nat) : (s.filter (· ≠ 1)).foldr (· * ·) 1 = s.foldr (· * ·) 1 := by
  induction s with
  | nil => rfl
  | cons n s ih =>
    by_cases h : n = 1
    · subst h; simpa using ih
    · simp only [List.filter_cons, decide_eq_true h, if_true, List.foldr_cons, ih]

/-- `np.squeeze(x)`: drop the axes of size 1 (moirae/models/base.py:32). -/
def squeeze (x : NDArray α) : NDArray α := ⟨x.shape.filter (· ≠ 1), x.data, by rw [x.wf, prod_filter_one]⟩

/-- `np.atleast_1d(x)` (moirae/models/base.py:35). -/
def atleast1d (x : NDArray α) : NDArray α :=
  match h : x.shape with
  | [] => ⟨[1], x.data, by rw [x.wf, h]; rfl⟩
  | _ :: _ => x

/-- `np.atleast_2d(x)`: a new axis is put in front (moirae/models/base.py:37). -/
def atleast2d (x : NDArray α) : NDArray α :=
  match h : x.shape with
  | [] => ⟨[1, 1], x.data, by rw [x.wf, h]; rfl⟩
  | [n] => ⟨[1, n], x.data, by rw [x.wf, h]; simp⟩
  | _ => x

theorem prod_append_one (s : List Nat) : (s ++ [1]).foldr (· * ·) 1 = s.foldr (· * ·) 1 := by
  induction s with
  | nil => rfl
  | cons n s ih => simp only [List.cons_append, List.foldr_cons, ih]

/-- `x[:, None]` for a 1D array (a new last axis) (moirae/models/base.py:35). -/
def newLastAxis (x : NDArray α) : NDArray α := ⟨x.shape ++ [1], x.data, by rw [x.wf, prod_append_one]⟩

/-- Cut a list into `n` consecutive pieces of length `w` (moirae/models/base.py:29-37). -/
def chunks (w : Nat) : Nat → List α → List (List α)
  | 0, _ => []
  | n + 1, l => l.take w :: chunks w n (l.drop w)

theorem chunks_length {w : Nat} : ∀ {n : Nat} {l : List α}, l.length = n * w → ∀ r ∈ chunks w n l, r.length = w := by
  intro n
  induction n with
  | zero => intro l _ r hr; simp [chunks] at hr
  | succ n ih =>
    intro l h r hr
    rw [Nat.succ_mul] at h
    rw [chunks, List.mem_cons] at hr
    rcases hr with rfl | hr
    · simp; omega
    · exact ih (by simp; omega) r hr

theorem chunks_nrow (w n : Nat) (l : List α) : (chunks w n l).length = n := by
  induction n generalizing l with
  | zero => rfl
  | succ n ih => simp [chunks, ih]

theorem chunks_flatten {w : Nat} : ∀ {n : Nat} {l : List α}, l.length = n * w → (chunks w n l).flatten = l := by
  intro n
  induction n with
  | zero => intro l h; simp at h; subst h; rfl
  | succ n ih =>
    intro l h
    rw [Nat.succ_mul] at h
    rw [chunks, List.flatten_cons, ih (by simp; omega), List.take_append_drop]

/-- A rank-2 array as rows (moirae/models/base.py:29-37). -/
def toArr2 (x : NDArray α) : Option (Arr2 α) :=
  match h : x.shape with
  | [n, w] => some ⟨w, chunks w n x.data, chunks_length (by rw [x.wf, h]; simp)⟩
  | _ => none

theorem toArr2_of_shape {x : NDArray α} {n w : Nat} (h : x.shape = [n, w]) :
    ∃ a : Arr2 α, x.toArr2 = some a ∧ a.nrow = n ∧ a.ncol = w ∧ a.rows.flatten = x.data := by
  unfold toArr2
  split
  · rename_i n' w' h'
    rw [h] at h'
    cases h'
    exact ⟨_, rfl, chunks_nrow _ _ _, rfl, chunks_flatten (by rw [x.wf, h]; simp)⟩
  · rename_i h'
    exact absurd h (h' n w)

end NDArray
end Verif
