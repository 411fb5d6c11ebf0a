import Verif.Model.Health
/-!
# `GeneralContainer` (moirae/models/base.py:428-548)
-/

namespace Verif
variable {α : Type}

/-- A container: its fields in declaration order (`model_fields`), each `None` or a 2D array
(moirae/models/base.py:428-437). -/
structure Container (α : Type) where
  fields : List (Name × Option (Arr2 α))

/-- The labels given to the columns of a value of width `w` called `name`: `name` itself for width 1, otherwise
`name[0]`, `name[1]`, … (moirae/models/base.py:460-464 and 141-144). -/
def expandLabel (name : Name) (w : Nat) : List Name :=
  if w = 1 then [name] else (List.range w).map fun i => name ++ '[' :: (Py.natStr i ++ [']'])

namespace Container

/-- `all_fields` (moirae/models/base.py:438-445). -/
def allFields (c : Container α) : List Name := c.fields.map (·.1)

/-- `expand_names(names)` (moirae/models/base.py:452-465). -/
def expandNames (c : Container α) : List Name → Except Err (List Name)
  | [] => .ok []
  | n :: ns =>
    match assoc n c.fields with
    | none => .error .attributeError
    | some none => c.expandNames ns
    | some (some a) => (c.expandNames ns).map (expandLabel n a.ncol ++ ·)

/-- `all_names` (moirae/models/base.py:447-450). -/
def allNames (c : Container α) : Except Err (List Name) := c.expandNames c.allFields

/-- `length_field` (moirae/models/base.py:490-498). -/
def lengthField (c : Container α) (n : Name) : Nat :=
  match assoc n c.fields with
  | some (some a) => a.ncol
  | _ => 0

/-- `__len__` (moirae/models/base.py:467-469). -/
def len (c : Container α) : Nat := (c.allFields.map c.lengthField).sum

/-- The fields that are not None, in order (the `continue` branches of moirae/models/base.py:478-479,508-509,530-531). -/
def present (c : Container α) : List (Name × Arr2 α) :=
  c.fields.filterMap fun p => p.2.map fun a => (p.1, a)

/-- `batch_size` (moirae/models/base.py:471-488). -/
def batchSize (c : Container α) : Except Err Nat := batchLoop 1 (c.present.map fun p => p.2.nrow)

/-- `to_numpy` (moirae/models/base.py:500-515). -/
def toNumpy (c : Container α) : Except Err (Arr2 α) := do
  let b ← c.batchSize
  Arr2.hcat (c.present.map fun p => if b > 1 ∧ p.2.nrow = 1 then p.2.repeatRows b else p.2)

/-- The loop of `from_numpy` (moirae/models/base.py:526-537) from column `pos`. -/
def fillFrom (v : Arr2 α) : Nat → List (Name × Option (Arr2 α)) → List (Name × Option (Arr2 α))
  | _, [] => []
  | pos, (k, none) :: rest => (k, none) :: fillFrom v pos rest
  | pos, (k, some a) :: rest => (k, some (v.cols pos (pos + a.ncol))) :: fillFrom v (pos + a.ncol) rest

/-- `from_numpy(values)` (moirae/models/base.py:517-537); a 1D array is one row. -/
def fromNumpy (c : Container α) (values : Vals α) : Container α := ⟨fillFrom values.to2d 0 c.fields⟩

/-- `make_copy(values)` (moirae/models/base.py:539-548). -/
def makeCopy (c : Container α) (values : Vals α) : Container α := c.fromNumpy values

end Container
end Verif
