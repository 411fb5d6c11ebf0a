import Verif.Model.Json
/-!
# Objects that are exactly what their annotations say

Spec side of C95.
-/

namespace Verif
namespace Json
variable {α : Type}

mutual
/-- A value that fits an annotation exactly: parameters have the shape `enforce_dimensions` gives them (with at least one row and no other
empty axis before the last), objects have exactly the fields of the annotated class and pass its validators. -/
def Fits (check : Cls → Obj α → Bool) : Ann → Val α → Prop
  | .scalar, v => ∃ x n, v = .arr x ∧ x.shape = [n, 1]
  | .optScalar, v => v = .none ∨ ∃ x n, v = .arr x ∧ x.shape = [n, 1]
  | .list, v => ∃ x, v = .arr x ∧ 2 ≤ x.shape.length ∧ 0 ∉ x.shape.dropLast
  | .ndarray, v => v = .none ∨ ∃ x n, v = .arr x ∧ x.shape = [n]
  | .number, v => v = .none ∨ ∃ x, v = .num x
  | .text, v => ∃ s, v = .text s
  | .names, v => ∃ ns, v = .names ns
  | .model c, v => ∃ o, v = .obj o ∧ FitsFields check c o ∧ check c o = true
  | .optModel c, v => v = .none ∨ ∃ o, v = .obj o ∧ FitsFields check c o ∧ check c o = true
  | .tuple c, v => ∃ os, v = .tuple os ∧ ∀ o ∈ os, FitsFields check c o ∧ check c o = true

/-- An object whose fields are exactly those of a class, each fitting its annotation. -/
def FitsFields (check : Cls → Obj α → Bool) : Cls → Obj α → Prop
  | .nil, o => o = []
  | .field n a rest, o => ∃ v o', o = (n, v) :: o' ∧ Fits check a v ∧ FitsFields check rest o'
end

mutual
/-- Some bare array (the pinpoints of an interpolated parameter) is set in the value. -/
def Pinned : Ann → Val α → Prop
  | .ndarray, v => v ≠ .none
  | .model c, v => ∃ o, v = .obj o ∧ PinnedFields c o
  | .optModel c, v => ∃ o, v = .obj o ∧ PinnedFields c o
  | .tuple c, v => ∃ os, v = .tuple os ∧ ∃ o ∈ os, PinnedFields c o
  | _, _ => False

/-- Some bare array is set in the object. -/
def PinnedFields : Cls → Obj α → Prop
  | .nil, _ => False
  | .field _ a rest, o => ∃ n v o', o = (n, v) :: o' ∧ (Pinned a v ∨ PinnedFields rest o')
end

/-- The names of the fields of a class. -/
def Cls.names : Cls → List Name
  | .nil => []
  | .field n _ rest => n :: rest.names

mutual
/-- No class has two fields of the same name, as in Python. -/
def Ann.Distinct : Ann → Prop
  | .model c => c.Distinct
  | .optModel c => c.Distinct
  | .tuple c => c.Distinct
  | _ => True

/-- No class has two fields of the same name, as in Python. -/
def Cls.Distinct : Cls → Prop
  | .nil => True
  | .field n a rest => n ∉ rest.names ∧ a.Distinct ∧ rest.Distinct
end

end Json
end Verif
