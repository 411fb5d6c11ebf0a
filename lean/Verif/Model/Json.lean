import Verif.Model.Dimensions
/-!
# JSON form of parameters and states (moirae/models/base.py:42-57, moirae/models/ecm/utils.py:21-23)

`model_dump_json` and `model_validate_json` belong to pydantic (external).  Modelled is what they do with the classes of the package: an
object is written field by field as the class in the annotation says (fields that only a subclass has are left out, which is pydantic's
documented rule), and read field by field with the validators of the annotations.  Numbers are finite, so that JSON keeps them; texts stand
for themselves.
-/

namespace Verif
namespace Json

/-- A JSON document (moirae/interface/hdf5.py:139-140). -/
inductive Doc (α : Type) where
  | null
  | num (x : α)
  | str (s : Name)
  | list (ds : List (Doc α))
  | obj (kvs : List (Name × Doc α))

variable {α : Type}

/-- `_encode_ndarray`: `value.tolist()` (moirae/models/base.py:42-44), for entries in C order; a number for an array without axes. -/
def tolist : List Nat → List α → Doc α
  | [], x :: _ => .num x
  | [], [] => .null
  | n :: s, data => .list ((NDArray.chunks (s.foldr (· * ·) 1) n data).map (tolist s))

theorem length_flatMap_data {shape : List Nat} (as : List (NDArray α)) (h : ∀ a ∈ as, a.shape = shape) :
    (as.flatMap (·.data)).length = as.length * shape.foldr (· * ·) 1 := by
  induction as with
  | nil => simp
  | cons a as ih =>
    rw [List.flatMap_cons, List.length_append, ih fun b hb => h b (List.mem_cons_of_mem _ hb), a.wf, h a List.mem_cons_self,
      List.length_cons, Nat.succ_mul, Nat.add_comm]

/-- `np.array` of a list whose members have been turned into arrays (moirae/models/base.py:30): they need the same shape; ValueError
otherwise. -/
def stack : List (NDArray α) → Except Err (NDArray α)
  | [] => .ok ⟨[0], [], rfl⟩
  | a :: as =>
    if h : ∀ b ∈ as, b.shape = a.shape then
      .ok ⟨(as.length + 1) :: a.shape, (a :: as).flatMap (·.data), by
        rw [length_flatMap_data (shape := a.shape) (a :: as) (by simpa using h)]; rfl⟩
    else .error .valueError

/-- `np.array(x)` of numbers in nested lists (moirae/models/base.py:30).  Other members give arrays of objects, which are not represented;
TypeError here. -/
def array : Doc α → Except Err (NDArray α)
  | .num x => .ok ⟨[], [x], rfl⟩
  | .list ds => do stack (← arrays ds)
  | _ => .error .typeError
where
  arrays : List (Doc α) → Except Err (List (NDArray α))
    | [] => .ok []
    | d :: ds => do
      let a ← array d
      let as ← arrays ds
      return a :: as

mutual
/-- The annotations of the fields of the package: `ScalarParameter`, `ListParameter` (moirae/models/base.py:47-57) and
`Optional[ScalarParameter]` (moirae/models/ecm/transient.py:15), the bare `Optional[np.ndarray]` with a serializer but no validator
(moirae/models/ecm/utils.py:16,21-23), `Optional[float]` (moirae/models/ecm/components.py:45), `Literal` (moirae/models/ecm/utils.py:17-18),
`set[str]` (moirae/models/base.py:66), a class, `Optional` of a class and a tuple of a class
(moirae/models/ecm/advancedSOH.py:21-28). -/
inductive Ann where
  | scalar
  | optScalar
  | list
  | ndarray
  | number
  | text
  | names
  | model (c : Cls)
  | optModel (c : Cls)
  | tuple (c : Cls)

/-- A class: its fields in order of declaration, those inherited first (moirae/models/base.py:62-66). -/
inductive Cls where
  | nil
  | field (name : Name) (a : Ann) (rest : Cls)
end

/-- A value of a field (moirae/models/ecm/advancedSOH.py:21-28); `obj` is an instance of a class, with its fields in order. -/
inductive Val (α : Type) where
  | none
  | arr (x : NDArray α)
  | num (x : α)
  | text (s : Name)
  | names (ns : List Name)
  | obj (fields : List (Name × Val α))
  | tuple (objs : List (List (Name × Val α)))

/-- An object: its fields (moirae/models/base.py:62). -/
abbrev Obj (α : Type) := List (Name × Val α)

mutual
/-- What a field is written as (moirae/models/base.py:47-57, moirae/models/ecm/utils.py:21-23).  A value that does not fit the annotation is
written by its own type in Python; not represented, TypeError here. -/
def dump : Ann → Val α → Except Err (Doc α)
  | .scalar, .arr x => .ok (tolist x.shape x.data)
  | .optScalar, .none => .ok .null
  | .optScalar, .arr x => .ok (tolist x.shape x.data)
  | .list, .arr x => .ok (tolist x.shape x.data)
  | .ndarray, .none => .ok .null
  | .ndarray, .arr x => .ok (tolist x.shape x.data)
  | .number, .none => .ok .null
  | .number, .num x => .ok (.num x)
  | .text, .text s => .ok (.str s)
  | .names, .names ns => .ok (.list (ns.map .str))
  | .model c, .obj o => do return .obj (← dumpFields c o)
  | .optModel _, .none => .ok .null
  | .optModel c, .obj o => do return .obj (← dumpFields c o)
  | .tuple c, .tuple os => do return .list (← os.mapM fun o => do return .obj (← dumpFields c o))
  | _, _ => .error .typeError

/-- The fields of the class in the annotation, and no others (moirae/models/thevenin/state.py:30-36). -/
def dumpFields : Cls → Obj α → Except Err (List (Name × Doc α))
  | .nil, _ => .ok []
  | .field n a rest, o =>
    match assoc n o with
    | none => .error .attributeError
    | some v => do
      let d ← dump a v
      let ds ← dumpFields rest o
      return (n, d) :: ds
end

/-- The members of a list of texts (moirae/models/base.py:66). -/
def texts : List (Doc α) → Except Err (List Name)
  | [] => .ok []
  | .str s :: ds => do return s :: (← texts ds)
  | _ :: _ => .error .valueError

/-- The members of an object; ValueError for anything else (moirae/interface/hdf5.py:139). -/
def members : Doc α → Except Err (List (Name × Doc α))
  | .obj kvs => .ok kvs
  | _ => .error .valueError

mutual
/-- What is read for a field (moirae/models/base.py:47-57): parameters by `enforce_dimensions`; a list is no `np.ndarray`, and nothing turns
it into one for the bare annotation (moirae/models/ecm/utils.py:16).  `check` stands for the validators of the classes
(moirae/models/base.py:69-72, moirae/models/thevenin/state.py:43-48) and the constraints on fields, which see the fields read. -/
def load (check : Cls → Obj α → Bool) : Ann → Doc α → Except Err (Val α)
  | .scalar, d => do return .arr (← enforceDimensions (← array d) 0)
  | .optScalar, .null => .ok .none
  | .optScalar, d => do return .arr (← enforceDimensions (← array d) 0)
  | .list, d => do return .arr (← enforceDimensions (← array d) 1)
  | .ndarray, .null => .ok .none
  | .ndarray, _ => .error .valueError
  | .number, .null => .ok .none
  | .number, .num x => .ok (.num x)
  | .number, _ => .error .valueError
  | .text, .str s => .ok (.text s)
  | .text, _ => .error .valueError
  | .names, .list ds => do return .names (← texts ds)
  | .names, _ => .error .valueError
  | .model c, d => do
    let o ← loadFields check c (← members d)
    if check c o then return .obj o else .error .valueError
  | .optModel _, .null => .ok .none
  | .optModel c, d => do
    let o ← loadFields check c (← members d)
    if check c o then return .obj o else .error .valueError
  | .tuple c, .list ds => do
    let os ← ds.mapM fun d => do
      let o ← loadFields check c (← members d)
      if check c o then return o else .error .valueError
    return .tuple os
  | .tuple _, _ => .error .valueError

/-- The fields one by one (moirae/models/base.py:62).  `model_dump_json` writes every field, so that defaults of missing ones play no part;
ValueError here. -/
def loadFields (check : Cls → Obj α → Bool) : Cls → List (Name × Doc α) → Except Err (Obj α)
  | .nil, _ => .ok []
  | .field n a rest, kvs =>
    match assoc n kvs with
    | none => .error .valueError
    | some d => do
      let v ← load check a d
      let o ← loadFields check rest kvs
      return (n, v) :: o
end

/-- `obj.model_dump_json()` of an object of the class (moirae/interface/hdf5.py:139-140). -/
def dumpJson (c : Cls) (o : Obj α) : Except Err (Doc α) := dump (.model c) (.obj o)

/-- `cls.model_validate_json(text)`. (moirae/models/base.py:62) -/
def loadJson (check : Cls → Obj α → Bool) (c : Cls) (d : Doc α) : Except Err (Obj α) := do
  let o ← loadFields check c (← members d)
  if check c o then return o else .error .valueError

/-! ## The classes of the package -/

/-- A class from a list of fields (moirae/models/base.py:62). -/
def cls : List (String × Ann) → Cls
  | [] => .nil
  | (n, a) :: l => .field n.toList a (cls l)

/-- A `HealthVariable` with further fields (moirae/models/base.py:62-66). -/
def health (l : List (String × Ann)) : Cls := cls (("updatable", .names) :: l)

/-- `SOCInterpolatedHealth` with further fields (moirae/models/ecm/utils.py:11-19). -/
def interpolated (l : List (String × Ann)) : Cls :=
  health (("base_values", .list) :: ("soc_pinpoints", .ndarray) :: ("interpolation_style", .text) :: l)

/-- `Resistance` (moirae/models/ecm/components.py:38-50). -/
def resistance : Cls := interpolated [("reference_temperature", .number), ("temperature_dependence_factor", .scalar)]

/-- `ECMASOH` (moirae/models/ecm/advancedSOH.py:19-29) with its components (moirae/models/ecm/components.py:11-159). -/
def ecmAsoh : Cls := health
  [("q_t", .model (health [("base_values", .scalar)])),
   ("ce", .scalar),
   ("ocv", .model (health [("ocv_ref", .model (interpolated [("reference_temperature", .scalar)])),
     ("ocv_ent", .model (interpolated []))])),
   ("r0", .model resistance),
   ("c0", .optModel (interpolated [])),
   ("rc_elements", .tuple (health [("r", .model resistance), ("c", .model (interpolated []))])),
   ("h0", .model (interpolated [("gamma", .scalar)]))]

/-- `ECMTransientVector` (moirae/models/ecm/transient.py:11-17). -/
def ecmTransient : Cls := cls [("soc", .scalar), ("q0", .optScalar), ("i_rc", .list), ("hyst", .scalar)]

/-- `TheveninASOH` (moirae/models/thevenin/state.py:13-37): the annotations name the base classes `SOCDependentVariable` and
`SOCTempDependentVariable`, which have no fields of their own (moirae/models/thevenin/components.py:12,39). -/
def theveninAsoh : Cls := health
  [("capacity", .scalar), ("mass", .scalar), ("c_p", .scalar), ("h_thermal", .scalar), ("a_therm", .scalar),
   ("ocv", .model (health [])), ("r", .tuple (health [])), ("c", .tuple (health []))]

/-- `TheveninTransient` (moirae/models/thevenin/state.py:51-59). -/
def theveninTransient : Cls := cls [("soc", .scalar), ("temp", .scalar), ("eta", .list)]

/-- What evaluating an interpolated parameter leaves in the object: pinpoints that were missing are filled in
(moirae/models/ecm/utils.py:36-37).  `points` is the array they are filled with. -/
def evaluate (points : NDArray α) (o : Obj α) : Obj α :=
  o.map fun p => if p.1 = "soc_pinpoints".toList then
    (p.1, match p.2 with
      | .none => .arr points
      | v => v) else p

end Json
end Verif
