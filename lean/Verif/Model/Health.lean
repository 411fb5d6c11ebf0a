import Verif.NumPy.Arr2
/-!
# `HealthVariable` (moirae/models/base.py:62-425)

A `HealthVariable` is modelled as a tree.  Object identity is not visible here (see `Verif/Model/Heap.lean` for the
properties where sharing matters).  A parameter name is resolved along its dot-separated segments
(`Py.splitDots name`); the code peels the same segments off one or two at a time with `split(".", maxsplit=1)`.
-/

namespace Verif

/-! ## Objects -/

mutual
/-- A `HealthVariable` object (moirae/models/base.py:62-67): the set `updatable`, as a list, and its fields in
declaration order (`model_fields`, without `updatable`, which is never of a parameter type). -/
inductive HV (α : Type) where
  | mk (updatable : List Name) (fields : List (Name × Field α))

/-- Value of a field of a `HealthVariable`, by the run-time type tests of moirae/models/base.py:312-328:
`arr` a 2D `np.ndarray`; `sub` a `HealthVariable`; `tup`/`lst`/`dict` collections of `HealthVariable`s;
`other` anything else (None, str, float, and the 1D `soc_pinpoints` array, which
moirae/models/ecm/utils.py:25-28 hides from iteration). -/
inductive Field (α : Type) where
  | arr (a : Arr2 α)
  | sub (m : HV α)
  | tup (ms : List (HV α))
  | lst (ms : List (HV α))
  | dict (ms : List (Name × HV α))
  | other
end

variable {α : Type}

/-- Dictionary look-up (first entry with the key; Python dictionaries and class fields have distinct keys) (moirae/models/base.py:267). -/
def assoc {β : Type} (k : Name) : List (Name × β) → Option β
  | [] => none
  | (k', v) :: rest => if k' = k then some v else assoc k rest

/-- Overwrite the entry with key `k`; nothing happens if there is none (moirae/models/base.py:293,405). -/
def assocSet {β : Type} (k : Name) (v : β) : List (Name × β) → List (Name × β)
  | [] => []
  | (k', v') :: rest => if k' = k then (k', v) :: rest else (k', v') :: assocSet k v rest

namespace HV

/-- `self.updatable` (moirae/models/base.py:66). -/
def updatable : HV α → List Name | .mk u _ => u
/-- The fields of the class with their values (moirae/models/base.py:307,311). -/
def fields : HV α → List (Name × Field α) | .mk _ fs => fs

/-- `getattr(self, key)`; `none` is AttributeError.  Simplified: only fields are looked up, not methods/properties
(moirae/models/base.py:137,189,221,256,311). -/
def getField (m : HV α) (k : Name) : Option (Field α) := assoc k m.fields

/-- `setattr(self, key, value)` for an existing field (pydantic does not validate assignments here) (moirae/models/base.py:293,405). -/
def setField (m : HV α) (k : Name) (f : Field α) : HV α := .mk m.updatable (assocSet k f m.fields)

/-- `self.updatable.add(key)` on the set (moirae/models/base.py:191,214). -/
def addUpdatable (k : Name) (m : HV α) : HV α :=
  .mk (if k ∈ m.updatable then m.updatable else m.updatable ++ [k]) m.fields

end HV

/-! ## Iteration over parameters -/

mutual
/-- `HealthVariable.iter_parameters(updatable_only=u, recurse=True)` (moirae/models/base.py:295-329). -/
def iterParams (u : Bool) : HV α → List (Name × Arr2 α)
  | .mk upd fs => iterFields u upd fs

/-- The loop over `model_fields` (moirae/models/base.py:307-311). -/
def iterFields (u : Bool) (upd : List Name) : List (Name × Field α) → List (Name × Arr2 α)
  | [] => []
  | (k, f) :: rest =>
    (if u && !upd.contains k then [] else iterField u k f) ++ iterFields u upd rest

/-- The type cases of moirae/models/base.py:312-329. -/
def iterField (u : Bool) (k : Name) : Field α → List (Name × Arr2 α)
  | .arr a => [(k, a)]
  | .sub m => (iterParams u m).map fun p => (k ++ '.' :: p.1, p.2)
  | .tup ms => iterSeq u k 0 ms
  | .lst ms => iterSeq u k 0 ms
  | .dict ms => iterDict u k ms
  | .other => []

/-- moirae/models/base.py:318-322, `enumerate` starting at `i`. -/
def iterSeq (u : Bool) (k : Name) (i : Nat) : List (HV α) → List (Name × Arr2 α)
  | [] => []
  | m :: ms =>
    ((iterParams u m).map fun p => (k ++ '.' :: (Py.natStr i ++ '.' :: p.1), p.2)) ++ iterSeq u k (i + 1) ms

/-- moirae/models/base.py:323-327. -/
def iterDict (u : Bool) (k : Name) : List (Name × HV α) → List (Name × Arr2 α)
  | [] => []
  | (j, m) :: ms => ((iterParams u m).map fun p => (k ++ '.' :: (j ++ '.' :: p.1), p.2)) ++ iterDict u k ms
end

namespace HV

/-- `updatable_names` (moirae/models/base.py:94-97). -/
def updatableNames (m : HV α) : List Name := (iterParams true m).map (·.1)

/-- `all_names` (moirae/models/base.py:99-102). -/
def allNames (m : HV α) : List Name := (iterParams false m).map (·.1)

/-- `num_updatable` (moirae/models/base.py:89-92). -/
def numUpdatable (m : HV α) : Nat := ((iterParams true m).map fun p => p.2.ncol).sum

end HV

/-- The loop of `batch_size` (moirae/models/base.py:77-87 and 474-488) over the row counts, starting from `b`. -/
def batchLoop (b : Nat) : List Nat → Except Err Nat
  | [] => .ok b
  | n :: ns => if b > 1 ∧ n ≠ 1 ∧ n ≠ b then .error .valueError else batchLoop (max b n) ns

/-- `HealthVariable.batch_size` (moirae/models/base.py:74-87). -/
def HV.batchSize (m : HV α) : Except Err Nat := batchLoop 1 ((iterParams false m).map fun p => p.2.nrow)

/-! ## Resolving names -/

/-- `_get_model_chain` (moirae/models/base.py:231-273) on the segments of a name: the pairs of attribute name and the
model holding it, from `self` to the owner of the value.  (`[]` cannot arise from `split`.) -/
def chain : HV α → List Name → Except Err (List (Name × HV α))
  | _, [] => .error .valueError
  | m, [n] => .ok [(n, m)]
  | m, n :: s :: rest =>
    match m.getField n with
    | none => .error .attributeError
    | some (.sub c) => (chain c (s :: rest)).map ((n, m) :: ·)
    | some (.tup ms) =>
      if rest = [] then .error .valueError else
      match Py.intOf s with
      | none => .error .valueError
      | some z =>
        match Py.seqIndex ms.length z with
        | none => .error .indexError
        | some j =>
          match ms[j]? with
          | none => .error .indexError
          | some c => (chain c rest).map ((n, m) :: ·)
    | some (.dict ms) =>
      if rest = [] then .error .valueError else
      match assoc s ms with
      | none => .error .keyError
      | some c => (chain c rest).map ((n, m) :: ·)
    | some (.arr _) => .error .valueError
    | some (.lst _) => .error .valueError
    | some .other => .error .valueError

/-- Mutation along a model chain: `last n owner` replaces the owner of the value, `mid n parent` every other model of the
chain.  In Python the models of `_get_model_chain` are mutated in place; in the tree the changed children are put back
(moirae/models/base.py:213-214,284-293,384-405). -/
def alterChain (last mid : Name → HV α → HV α) : HV α → List Name → Except Err (HV α)
  | _, [] => .error .valueError
  | m, [n] => .ok (last n m)
  | m, n :: s :: rest =>
    match m.getField n with
    | none => .error .attributeError
    | some (.sub c) => (alterChain last mid c (s :: rest)).map fun c' => mid n (m.setField n (.sub c'))
    | some (.tup ms) =>
      if rest = [] then .error .valueError else
      match Py.intOf s with
      | none => .error .valueError
      | some z =>
        match Py.seqIndex ms.length z with
        | none => .error .indexError
        | some j =>
          match ms[j]? with
          | none => .error .indexError
          | some c => (alterChain last mid c rest).map fun c' => mid n (m.setField n (.tup (ms.set j c')))
    | some (.dict ms) =>
      if rest = [] then .error .valueError else
      match assoc s ms with
      | none => .error .keyError
      | some c => (alterChain last mid c rest).map fun c' => mid n (m.setField n (.dict (assocSet s c' ms)))
    | some (.arr _) => .error .valueError
    | some (.lst _) => .error .valueError
    | some .other => .error .valueError

/-- `getattr(models[-1], names[-1])` for a model chain (moirae/models/base.py:288,355,397). -/
def lastField (ch : List (Name × HV α)) : Except Err (Field α) :=
  match ch.getLast? with
  | none => .error .indexError
  | some (n, m) =>
    match m.getField n with
    | none => .error .attributeError
    | some f => .ok f

namespace HV

/-- The value of a name: `getattr(my_models[-1], my_names[-1])` (moirae/models/base.py:354-355). -/
def lookup (m : HV α) (name : Name) : Except Err (Field α) := do
  lastField (← chain m (Py.splitDots name))

/-- `setattr(models[-1], names[-1], v)` seen from `self` (moirae/models/base.py:293,405). -/
def setAttr (m : HV α) (name : Name) (v : Field α) : Except Err (HV α) :=
  alterChain (fun n o => o.setField n v) (fun _ o => o) m (Py.splitDots name)

/-- `mark_updatable` (moirae/models/base.py:204-214). -/
def markUpdatable (m : HV α) (name : Name) : Except Err (HV α) :=
  alterChain addUpdatable addUpdatable m (Py.splitDots name)

/-! ## Reading and writing vectors -/

/-- The value of one name inside `get_parameters` (moirae/models/base.py:354-360), `b` being the batch size.
A value that is not an array has no `shape` (AttributeError), which is asked for with a batch only. -/
def getOne (m : HV α) (b : Nat) (name : Name) : Except Err (Field α) :=
  match m.lookup name with
  | .error e => .error e
  | .ok (.arr a) => .ok (.arr (if b > 1 ∧ a.nrow = 1 then a.repeatRows b else a))
  | .ok f => if b > 1 then .error .attributeError else .ok f

/-- What `np.concatenate(output, axis=1)` (moirae/models/base.py:361) makes of one of its arguments.  A model, a dictionary or a plain
object has no axis, and a tuple of models but one: ValueError (of which AxisError is a kind). -/
def toConcat : Field α → Except Err (Arr2 α)
  | .arr a => .ok a
  | _ => .error .valueError

/-- `np.concatenate(output, axis=1)` (moirae/models/base.py:361). -/
def concatFields (vs : List (Field α)) : Except Err (Arr2 α) := do
  Arr2.hcat (← vs.mapM toConcat)

/-- `get_parameters(names)` (moirae/models/base.py:331-361). -/
def getParameters (m : HV α) (names : Option (List Name)) : Except Err (Arr2 α) :=
  let ns := names.getD m.updatableNames
  if ns = [] then do
    return Arr2.empty (← m.batchSize)
  else do
    let b ← m.batchSize
    let vs ← ns.mapM (m.getOne b)
    concatFields vs

end HV

/-- `np.size(value)` (moirae/models/base.py:398) on the value of a field.  A `HealthVariable`, a dictionary and a
plain Python object count as one object; a tuple or list of models as an array of objects. -/
def Field.npSize : Field α → Nat
  | .arr a => a.size
  | .sub _ => 1
  | .tup ms => ms.length
  | .lst ms => ms.length
  | .dict _ => 1
  | .other => 1

/-- The argument `values` of `update_parameters` after `np.array(values)`: 1D or 2D.  (0D raises IndexError at
`values.shape[-1]`, more than two dimensions are not modelled.)  (moirae/models/base.py:373) -/
inductive Vals (α : Type) where
  | d1 (xs : List α)
  | d2 (a : Arr2 α)

/-- moirae/models/base.py:373-375: raise to 2D. -/
def Vals.to2d : Vals α → Arr2 α
  | .d1 xs => .ofRow xs
  | .d2 a => a

/-- The loop of `update_parameters` (moirae/models/base.py:381-408).  Returns the object as it is when the loop ends or
raises, and `end`. -/
def updateLoop (values : Arr2 α) : List Name → HV α → Nat → Nat → HV α × Except Err Nat
  | [], m, _, e => (m, .ok e)
  | name :: rest, m, pos, _ =>
    match chain m (Py.splitDots name) with
    | .error err => (m, .error err)
    | .ok ch =>
      if ch.all (fun p => p.2.updatable.contains p.1) then
        match lastField ch with
        | .error err => (m, .error err)
        | .ok cur =>
          let e := pos + cur.npSize
          if e > values.ncol then (m, .error .valueError)
          else
            match m.setAttr name (.arr (values.cols pos e)) with
            | .error err => (m, .error err)
            | .ok m' => updateLoop values rest m' e e
      else (m, .error .valueError)

namespace HV

/-- `update_parameters(values, names)` (moirae/models/base.py:363-412): the object afterwards and the outcome. -/
def updateParameters (m : HV α) (values : Vals α) (names : Option (List Name)) : HV α × Except Err Unit :=
  let v := values.to2d
  match updateLoop v (names.getD m.updatableNames) m 0 0 with
  | (m', .error e) => (m', .error e)
  | (m', .ok e) => (m', if e ≠ v.ncol then .error .valueError else .ok ())

/-- `make_copy` (moirae/models/base.py:414-425): the copy, `self` being untouched (deep copy). -/
def makeCopy (m : HV α) (values : Vals α) (names : Option (List Name)) : Except Err (HV α) :=
  match m.updateParameters values names with
  | (_, .error e) => .error e
  | (m', .ok ()) => .ok m'

end HV

/-! ## Marking -/

/-- Is the value of one of the types accepted by `mark_all_updatable` (moirae/models/base.py:183)? -/
def Field.markable : Field α → Bool
  | .other => false
  | _ => true

mutual
/-- `mark_all_updatable(recurse)` (moirae/models/base.py:177-191, submodels by 216-229). -/
def markAll (recurse : Bool) : HV α → HV α
  | .mk upd fs =>
    .mk (((fs.filter fun p => p.2.markable).map (·.1)).foldl (fun u k => if k ∈ u then u else u ++ [k]) upd)
      (if recurse then markAllFields fs else fs)

/-- The submodels in the fields (moirae/models/base.py:185-191,216-229). -/
def markAllFields : List (Name × Field α) → List (Name × Field α)
  | [] => []
  | (k, f) :: rest => (k, markAllField f) :: markAllFields rest

/-- The submodels in one field (moirae/models/base.py:185-191,220-229). -/
def markAllField : Field α → Field α
  | .arr a => .arr a
  | .sub m => .sub (markAll true m)
  | .tup ms => .tup (markAllSeq ms)
  | .lst ms => .lst (markAllSeq ms)
  | .dict ms => .dict (markAllDict ms)
  | .other => .other

/-- The submodels in a tuple (moirae/models/base.py:185-191,224-226). -/
def markAllSeq : List (HV α) → List (HV α)
  | [] => []
  | m :: ms => markAll true m :: markAllSeq ms

/-- The submodels in a dictionary (moirae/models/base.py:185-191,227-229). -/
def markAllDict : List (Name × HV α) → List (Name × HV α)
  | [] => []
  | (k, m) :: ms => (k, markAll true m) :: markAllDict ms
end

mutual
/-- `mark_all_fixed(recurse)` (moirae/models/base.py:193-202, submodels by 216-229). -/
def fixAll (recurse : Bool) : HV α → HV α
  | .mk _ fs => .mk [] (if recurse then fixAllFields fs else fs)

/-- The submodels in the fields (moirae/models/base.py:200-202,216-229). -/
def fixAllFields : List (Name × Field α) → List (Name × Field α)
  | [] => []
  | (k, f) :: rest => (k, fixAllField f) :: fixAllFields rest

/-- The submodels in one field (moirae/models/base.py:200-202,220-229). -/
def fixAllField : Field α → Field α
  | .arr a => .arr a
  | .sub m => .sub (fixAll true m)
  | .tup ms => .tup (fixAllSeq ms)
  | .lst ms => .lst (fixAllSeq ms)
  | .dict ms => .dict (fixAllDict ms)
  | .other => .other

/-- The submodels in a tuple (moirae/models/base.py:200-202,224-226). -/
def fixAllSeq : List (HV α) → List (HV α)
  | [] => []
  | m :: ms => fixAll true m :: fixAllSeq ms

/-- The submodels in a dictionary (moirae/models/base.py:200-202,227-229). -/
def fixAllDict : List (Name × HV α) → List (Name × HV α)
  | [] => []
  | (k, m) :: ms => (k, fixAll true m) :: fixAllDict ms
end

end Verif
