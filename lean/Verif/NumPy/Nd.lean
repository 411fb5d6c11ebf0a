import Verif.Py
/-!
# NumPy arrays with broadcasting

An array is a shape and a function from index lists to entries (only indices inside the shape matter).  Used for the
cell models, where broadcasting, reshaping, `diagonal` and `swapaxes` decide which batch member gets which parameter.
-/

namespace Verif

/-- A NumPy array of any rank (moirae/models/ecm/__init__.py:49-213). -/
structure Nd (α : Type) where
  shape : List Nat
  get : List Nat → α

namespace Nd
variable {α β γ : Type}

/-- A Python number taking part in array arithmetic (rank 0) (moirae/models/ecm/__init__.py:53-61). -/
def num (x : α) : Nd α := ⟨[], fun _ => x⟩

/-- `np.atleast_2d(x)` of a number (moirae/models/ecm/__init__.py:53,61). -/
def num2 (x : α) : Nd α := ⟨[1, 1], fun _ => x⟩

/-- `x.size` (moirae/models/ecm/__init__.py:61,104). -/
def size (a : Nd α) : Nat := a.shape.foldr (· * ·) 1

/-- Element-wise function (`np.exp`, `abs`, unary minus) (moirae/models/ecm/__init__.py:61,94-101,118-127). -/
def map (f : α → β) (a : Nd α) : Nd β := ⟨a.shape, fun idx => f (a.get idx)⟩

/-- Broadcasting of one pair of axis lengths: equal, or one of them 1 (moirae/models/ecm/__init__.py:49-213). -/
def bdim (a b : Nat) : Option Nat := if a = b then some a else if a = 1 then some b else if b = 1 then some a else none

/-- Broadcasting of shapes, last axis first (moirae/models/ecm/__init__.py:49-213). -/
def bdims : List Nat → List Nat → Option (List Nat)
  | [], t => some t
  | s, [] => some s
  | a :: s, b :: t =>
    match bdim a b, bdims s t with
    | some d, some r => some (d :: r)
    | _, _ => none

/-- NumPy's broadcast shape: shapes aligned at their last axes (moirae/models/ecm/__init__.py:49-213). -/
def bshape (s t : List Nat) : Option (List Nat) := (bdims s.reverse t.reverse).map List.reverse

/-- The index read in an operand of shape `s` for the index `idx` of the broadcast result: aligned at the last axes, axes
of length 1 always read at 0 (moirae/models/ecm/__init__.py:49-213). -/
def bidx (s idx : List Nat) : List Nat := (List.zipWith (fun d i => if d = 1 then 0 else i) s.reverse idx.reverse).reverse

/-- A binary element-wise operator with broadcasting; ValueError when the shapes do not broadcast (moirae/models/ecm/__init__.py:49-213). -/
def map2 (f : α → β → γ) (a : Nd α) (b : Nd β) : Except Err (Nd γ) :=
  match bshape a.shape b.shape with
  | none => .error .valueError
  | some s => .ok ⟨s, fun idx => f (a.get (bidx a.shape idx)) (b.get (bidx b.shape idx))⟩

/-- `a += b`: as `map2`, but the result must fit in `a`'s memory; ValueError otherwise (moirae/models/ecm/components.py:140). -/
def inplace (f : α → β → α) (a : Nd α) (b : Nd β) : Except Err (Nd α) :=
  match map2 f a b with
  | .error e => .error e
  | .ok c => if c.shape = a.shape then .ok c else .error .valueError

/-- `bool(array)`: only arrays of exactly one entry have a truth value (moirae/models/ecm/__init__.py:61). -/
def truth (a : Nd Bool) : Except Err Bool :=
  if a.size = 1 then .ok (a.get (a.shape.map fun _ => 0)) else .error .valueError

/-- Position of an index in row-major order (moirae/models/ecm/__init__.py:86,146,206; moirae/models/ecm/utils.py:85). -/
def ravel : List Nat → List Nat → Nat
  | _ :: ds, i :: is => i * ds.foldr (· * ·) 1 + ravel ds is
  | _, _ => 0

/-- Index at a row-major position (moirae/models/ecm/__init__.py:86,146,206; moirae/models/ecm/utils.py:85). -/
def unravel : List Nat → Nat → List Nat
  | [], _ => []
  | _ :: ds, n => n / ds.foldr (· * ·) 1 :: unravel ds (n % ds.foldr (· * ·) 1)

/-- `a.reshape(s)` with all axes given: same entries in row-major order; ValueError when the sizes differ
(moirae/models/ecm/__init__.py:86,146,206; moirae/models/ecm/utils.py:85). -/
def reshape (a : Nd α) (s : List Nat) : Except Err (Nd α) :=
  if s.foldr (· * ·) 1 = a.size then .ok ⟨s, fun idx => a.get (unravel a.shape (ravel s idx))⟩ else .error .valueError

/-- `a.squeeze()`: drop the axes of length 1 (same entries in row-major order) (moirae/models/ecm/__init__.py:146). -/
def squeeze (a : Nd α) : Nd α :=
  let s := a.shape.filter (· ≠ 1)
  ⟨s, fun idx => a.get (unravel a.shape (ravel s idx))⟩

/-- `np.swapaxes(a, i, j)` (moirae/models/ecm/__init__.py:84,88,143,188). -/
def swapAt (l : List Nat) (i j : Nat) : List Nat := (l.set i (l.getD j 0)).set j (l.getD i 0)

/-- `np.swapaxes(a, i, j)` for existing axes (moirae/models/ecm/__init__.py:84,88,143,188; moirae/models/ecm/utils.py:79). -/
def swapaxes (a : Nd α) (i j : Nat) : Nd α := ⟨swapAt a.shape i j, fun idx => a.get (swapAt idx i j)⟩

/-- `np.diagonal(a, axis1=0, axis2=1)` of a rank-3 array: the diagonal axis comes last (moirae/models/ecm/__init__.py:142,203). -/
def diagonal01 (a : Nd α) : Except Err (Nd α) :=
  match a.shape with
  | [p, q, r] => .ok ⟨[r, min p q], fun idx => a.get [idx.getD 1 0, idx.getD 1 0, idx.getD 0 0]⟩
  | _ => .error .valueError

/-- `np.diagonal(a, axis1=1, axis2=2)` of a rank-4 array: the diagonal axis comes last (moirae/models/ecm/__init__.py:83). -/
def diagonal12 (a : Nd α) : Except Err (Nd α) :=
  match a.shape with
  | [n, p, q, r] => .ok ⟨[n, r, min p q], fun idx => a.get [idx.getD 0 0, idx.getD 2 0, idx.getD 2 0, idx.getD 1 0]⟩
  | _ => .error .valueError

/-- `np.array([a₀, a₁, …])`: stacking arrays along a new first axis; ValueError when their shapes differ
(moirae/models/ecm/__init__.py:78,182). -/
def stack [Inhabited α] : List (Nd α) → Except Err (Nd α)
  | [] => .ok ⟨[0], fun _ => default⟩
  | a :: l =>
    if ∀ b ∈ l, b.shape = a.shape then
      .ok ⟨(l.length + 1) :: a.shape, fun idx => match idx with
        | [] => default
        | j :: rest => match (a :: l)[j]? with
          | none => default
          | some b => b.get rest⟩
    else .error .valueError

/-- `np.tile(a, reps)` for `len(reps) ≥ a.ndim`: the shape is first padded with 1s on the left (moirae/models/ecm/utils.py:78). -/
def tile (a : Nd α) (reps : List Nat) : Nd α :=
  let s := List.replicate (reps.length - a.shape.length) 1 ++ a.shape
  ⟨List.zipWith (· * ·) s reps, fun idx => a.get ((List.zipWith (fun d i => i % d) s idx).drop (reps.length - a.shape.length))⟩

end Nd
end Verif
