import Verif.Model.Container
/-!
# `HealthVariable.expand_names` (moirae/models/base.py:104-175)
-/

namespace Verif
variable {α : Type}

mutual
/-- One round of the loop of `expand_names` (moirae/models/base.py:137-173) on the segments of a name.  `getattr` is the
walk through the fields. -/
def expandHV : HV α → List Name → Except Err (List Name)
  | .mk _ fs, segs => expandFields fs segs

/-- `getattr(self, name.split('.', maxsplit=1)[0])` (moirae/models/base.py:137). -/
def expandFields : List (Name × Field α) → List Name → Except Err (List Name)
  | [], _ => .error .attributeError
  | (k, f) :: rest, segs => if some k = segs.head? then expandField k f segs else expandFields rest segs

/-- The cases of moirae/models/base.py:140-173.  An array is labelled by the name as given, even if more segments follow
the array's own name. -/
def expandField (k : Name) : Field α → List Name → Except Err (List Name)
  | .arr a, segs => .ok (expandLabel (Py.joinDots segs) a.ncol)
  | .sub c, segs =>
    Except.map (List.map fun n => k ++ '.' :: n)
      (match segs.drop 1 with
      | [] => Except.map List.flatten ((c.allNames).mapM fun n => expandHV c (Py.splitDots n))
      | rest => expandHV c rest)
  | .tup ms, segs =>
    Except.map (List.map fun n => k ++ '.' :: n)
      (match segs.drop 1 with
      | [] => expandTupAll 0 ms
      | s :: rest =>
        match Py.intOf s with
        | none => .error .valueError
        | some z =>
          match Py.seqIndex ms.length z with
          | none => .error .indexError
          | some j => Except.map (List.map fun n => s ++ '.' :: n) (expandTupAt ms j rest))
  | .dict ms, segs =>
    Except.map (List.map fun n => k ++ '.' :: n)
      (match segs.drop 1 with
      | [] => expandDictAll ms
      | s :: rest => Except.map (List.map fun n => s ++ '.' :: n) (expandDictAt ms s rest))
  | .lst _, _ => .error .notImplementedError
  | .other, _ => .error .notImplementedError

/-- Sub-model `j` of a tuple: all its names, or the one given (moirae/models/base.py:162-169). -/
def expandTupAt : List (HV α) → Nat → List Name → Except Err (List Name)
  | [], _, _ => .error .indexError
  | c :: _, 0, rest =>
    match rest with
    | [] => Except.map List.flatten ((c.allNames).mapM fun n => expandHV c (Py.splitDots n))
    | r => expandHV c r
  | _ :: cs, j + 1, rest => expandTupAt cs j rest

/-- Sub-model `s` of a dictionary: all its names, or the one given (moirae/models/base.py:162-169). -/
def expandDictAt : List (Name × HV α) → Name → List Name → Except Err (List Name)
  | [], _, _ => .error .keyError
  | (j, c) :: cs, s, rest =>
    if j = s then
      match rest with
      | [] => Except.map List.flatten ((c.allNames).mapM fun n => expandHV c (Py.splitDots n))
      | r => expandHV c r
    else expandDictAt cs s rest

/-- All names of all members of a tuple (moirae/models/base.py:157-161). -/
def expandTupAll (i : Nat) : List (HV α) → Except Err (List Name)
  | [] => .ok []
  | c :: cs => do
    let l ← (c.allNames).mapM fun n => expandHV c (Py.splitDots n)
    let r ← expandTupAll (i + 1) cs
    .ok ((l.flatten.map fun n => Py.natStr i ++ '.' :: n) ++ r)

/-- All names of all members of a dictionary (moirae/models/base.py:157-161). -/
def expandDictAll : List (Name × HV α) → Except Err (List Name)
  | [] => .ok []
  | (j, c) :: cs => do
    let l ← (c.allNames).mapM fun n => expandHV c (Py.splitDots n)
    let r ← expandDictAll cs
    .ok ((l.flatten.map fun n => j ++ '.' :: n) ++ r)
end

/-- `expand_names(names)` (moirae/models/base.py:104-175). -/
def HV.expandNames (m : HV α) (names : List Name) : Except Err (List Name) :=
  (names.mapM fun n => expandHV m (Py.splitDots n)).map List.flatten

end Verif
