import Verif.Model.Health
/-!
# Specification vocabulary for `HealthVariable` objects

What a parameter of an object is, where it lives and when it is marked – stated over the object tree only, without any of
the functions of the model (no iteration, no name resolution).
-/

namespace Verif
variable {α : Type}

/-- `IsParam m path a`: following the attribute names / tuple positions / dictionary keys in `path` from `m` one reaches
the array `a`. -/
inductive IsParam : HV α → List Name → Arr2 α → Prop where
  | arr {u fs k a} : (k, Field.arr a) ∈ fs → IsParam (.mk u fs) [k] a
  | sub {u fs k c p a} : (k, Field.sub c) ∈ fs → IsParam c p a → IsParam (.mk u fs) (k :: p) a
  | tup {u fs k ms i c p a} : (k, Field.tup ms) ∈ fs → ms[i]? = some c → IsParam c p a →
      IsParam (.mk u fs) (k :: Py.natStr i :: p) a
  | lst {u fs k ms i c p a} : (k, Field.lst ms) ∈ fs → ms[i]? = some c → IsParam c p a →
      IsParam (.mk u fs) (k :: Py.natStr i :: p) a
  | dict {u fs k ms j c p a} : (k, Field.dict ms) ∈ fs → (j, c) ∈ ms → IsParam c p a →
      IsParam (.mk u fs) (k :: j :: p) a

/-- As `IsParam`, and every attribute on the way is marked as updatable in the object holding it. -/
inductive IsMarked : HV α → List Name → Arr2 α → Prop where
  | arr {u fs k a} : k ∈ u → (k, Field.arr a) ∈ fs → IsMarked (.mk u fs) [k] a
  | sub {u fs k c p a} : k ∈ u → (k, Field.sub c) ∈ fs → IsMarked c p a → IsMarked (.mk u fs) (k :: p) a
  | tup {u fs k ms i c p a} : k ∈ u → (k, Field.tup ms) ∈ fs → ms[i]? = some c → IsMarked c p a →
      IsMarked (.mk u fs) (k :: Py.natStr i :: p) a
  | lst {u fs k ms i c p a} : k ∈ u → (k, Field.lst ms) ∈ fs → ms[i]? = some c → IsMarked c p a →
      IsMarked (.mk u fs) (k :: Py.natStr i :: p) a
  | dict {u fs k ms j c p a} : k ∈ u → (k, Field.dict ms) ∈ fs → (j, c) ∈ ms → IsMarked c p a →
      IsMarked (.mk u fs) (k :: j :: p) a

/-- `IsGroup m path`: following `path` from `m` one reaches something that holds sub-models or is one: an attribute holding a sub-model,
a tuple or a dictionary of sub-models, or a member of such a collection. -/
inductive IsGroup : HV α → List Name → Prop where
  | sub {u fs k c} : (k, Field.sub c) ∈ fs → IsGroup (.mk u fs) [k]
  | tup {u fs k ms} : (k, Field.tup ms) ∈ fs → IsGroup (.mk u fs) [k]
  | dict {u fs k ms} : (k, Field.dict ms) ∈ fs → IsGroup (.mk u fs) [k]
  | tupMember {u fs k ms i c} : (k, Field.tup ms) ∈ fs → ms[i]? = some c → IsGroup (.mk u fs) [k, Py.natStr i]
  | dictMember {u fs k ms j c} : (k, Field.dict ms) ∈ fs → (j, c) ∈ ms → IsGroup (.mk u fs) [k, j]
  | inSub {u fs k c p} : (k, Field.sub c) ∈ fs → IsGroup c p → IsGroup (.mk u fs) (k :: p)
  | inTup {u fs k ms i c p} : (k, Field.tup ms) ∈ fs → ms[i]? = some c → IsGroup c p → IsGroup (.mk u fs) (k :: Py.natStr i :: p)
  | inDict {u fs k ms j c p} : (k, Field.dict ms) ∈ fs → (j, c) ∈ ms → IsGroup c p → IsGroup (.mk u fs) (k :: j :: p)

/-- A legal object: attribute names and dictionary keys are distinct (always true in Python) and contain no dot
(always true for attributes, a restriction for dictionary keys), and collections are tuples or dictionaries. -/
inductive HV.WF : HV α → Prop where
  | mk {u : List Name} {fs : List (Name × Field α)} :
      (fs.map (·.1)).Nodup →
      (∀ k f, (k, f) ∈ fs → '.' ∉ k) →
      (∀ k c, (k, Field.sub c) ∈ fs → HV.WF c) →
      (∀ k ms, (k, Field.tup ms) ∈ fs → ∀ c ∈ ms, HV.WF c) →
      (∀ k ms, (k, Field.dict ms) ∈ fs → (ms.map (·.1)).Nodup) →
      (∀ k ms, (k, Field.dict ms) ∈ fs → ∀ j c, (j, c) ∈ ms → '.' ∉ j) →
      (∀ k ms, (k, Field.dict ms) ∈ fs → ∀ j c, (j, c) ∈ ms → HV.WF c) →
      (∀ k ms, (k, Field.lst ms) ∉ fs) →
      HV.WF (.mk u fs)

/-- The name under which a path is known to the user. -/
def pathName (p : List Name) : Name := Py.joinDots p

end Verif

namespace Verif.Spec
variable {α : Type}

/-- The array with `b` rows meant by a stored value: a value with a single row stands for `b` copies of that row. -/
def broadcast (b : Nat) (a : Arr2 α) : Arr2 α :=
  match h : a.rows with
  | [r] => ⟨a.ncol, List.replicate b r, by
      intro r' hr'
      rw [List.mem_replicate] at hr'
      rw [hr'.2]
      exact a.wf r (by rw [h]; simp)⟩
  | _ => a

end Verif.Spec
