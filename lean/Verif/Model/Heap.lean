import Verif.Model.EcmTemplate
/-!
# The Python objects behind the RC elements of a template

Which `Resistance` and `Capacitance` objects the elements refer to decides what a later write changes.
-/

namespace Verif.Ecm.Objects
open Verif Nd Ecm

/-- A Python object: a `Resistance`, a `Capacitance`, or an `RCComponent` with references to both
(moirae/models/ecm/components.py:38-85). -/
inductive Obj where
  | res (x : Resistance)
  | cap (x : Interp)
  | rc (r c : Nat)

/-- The heap: an address is used once it is below `next` (moirae/models/ecm/advancedSOH.py:112-131). -/
structure Heap where
  next : Nat
  obj : Nat → Option Obj

/-- Create an object (moirae/models/ecm/advancedSOH.py:112-131). -/
def alloc (h : Heap) (o : Obj) : Nat × Heap := (h.next, ⟨h.next + 1, fun l => if l = h.next then some o else h.obj l⟩)

/-- `RCComponent(r=r, c=c).model_copy()` (moirae/models/ecm/advancedSOH.py:116,129).  pydantic keeps references to model instances
given as fields, and `model_copy` without `deep=True` copies the references (external). -/
def newRC (h : Heap) (r c : Nat) : Nat × Heap :=
  let (_, h1) := alloc h (.rc r c)
  alloc h1 (.rc r c)

/-- `tuple(RCComponent(r=RC_R, c=RC_C).model_copy() for _ in range(num_RC))` (moirae/models/ecm/advancedSOH.py:116-117). -/
def repeatRC (r c : Nat) : Nat → Heap → List Nat × Heap
  | 0, h => ([], h)
  | n + 1, h =>
    let (l, h1) := newRC h r c
    let (ls, h2) := repeatRC r c n h1
    (l :: ls, h2)

/-- `RC=None` (moirae/models/ecm/advancedSOH.py:112-117): one resistance and one capacitance for all elements. -/
noncomputable def defaultRCs (n : Nat) (h : Heap) : List Nat × Heap :=
  let (r, h1) := alloc h (.res (templateRes (num 0.01)))
  let (c, h2) := alloc h1 (.cap ⟨atleast2d (num 2500), none, .linear⟩)
  repeatRC r c n h2

/-- `RC` given (moirae/models/ecm/advancedSOH.py:119-129): new objects in every round of the loop. -/
noncomputable def givenRCs : List (Nd ℝ × Nd ℝ) → Heap → List Nat × Heap
  | [], h => ([], h)
  | p :: ps, h =>
    let (r, h1) := alloc h (.res (templateRes p.1))
    let (c, h2) := alloc h1 (.cap ⟨atleast2d p.2, none, .linear⟩)
    let (l, h3) := newRC h2 r c
    let (ls, h4) := givenRCs ps h3
    (l :: ls, h4)

/-- The RC elements of `ECMASOH.provide_template` (moirae/models/ecm/advancedSOH.py:109-129); the tuple of the resulting `ECMASOH`
refers to the same components. -/
noncomputable def templateRCs (n : Nat) (rc : Option (List (Nd ℝ × Nd ℝ))) (h : Heap) : Except Err (List Nat × Heap) :=
  if n = 0 then .ok ([], h)
  else match rc with
    | none => .ok (defaultRCs n h)
    | some l => if l.length ≠ n then .error .valueError else .ok (givenRCs l h)

/-- The parameters of the RC element at `l`, as seen through its references (moirae/models/ecm/components.py:84-96). -/
def read (h : Heap) (l : Nat) : Option RC :=
  match h.obj l with
  | some (.rc r c) => match h.obj r, h.obj c with
    | some (.res x), some (.cap y) => some ⟨x, y⟩
    | _, _ => none
  | _ => none

/-- Writing parameters of the resistance of the element at `l` (`rc_elements[i].r.base_values = …`, or `set_value` with the name
`rc_elements.i.r.base_values`, moirae/models/base.py:275-294): the resistance object is changed in place by `f`. -/
def writeR (h : Heap) (l : Nat) (f : Resistance → Resistance) : Heap :=
  match h.obj l with
  | some (.rc r _) => ⟨h.next, fun k => if k = r then
      (match h.obj r with
        | some (.res x) => some (.res (f x))
        | o => o) else h.obj k⟩
  | _ => h

/-- Writing parameters of the capacitance of the element at `l` (moirae/models/base.py:275-293). -/
def writeC (h : Heap) (l : Nat) (f : Interp → Interp) : Heap :=
  match h.obj l with
  | some (.rc _ c) => ⟨h.next, fun k => if k = c then
      (match h.obj c with
        | some (.cap x) => some (.cap (f x))
        | o => o) else h.obj k⟩
  | _ => h

end Verif.Ecm.Objects
