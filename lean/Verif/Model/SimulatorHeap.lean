import Verif.Model.Simulator
/-!
# The objects of a simulator and of its caller

`Simulator` keeps references; `model_copy(deep=True)` makes new objects.  A whole input, state, state of health or measurement is one
object here: its arrays are not shared between objects (the cell model and the degradation model return new objects and do not change
their arguments).
-/

namespace Verif.SimObjects
open Verif

/-- The objects of one kind: addresses below `next` are in use (moirae/simulator.py:52-141). -/
structure Store (α : Type) where
  next : Nat
  val : Nat → α

namespace Store
variable {α : Type}

/-- Create an object (moirae/simulator.py:52-141). -/
def alloc (s : Store α) (v : α) : Nat × Store α := (s.next, ⟨s.next + 1, fun l => if l = s.next then v else s.val l⟩)

/-- Change an object in place (moirae/simulator.py:52-141). -/
def write (s : Store α) (l : Nat) (v : α) : Store α := ⟨s.next, fun k => if k = l then v else s.val k⟩

/-- `model_copy(deep=True)` of the object at `l` (moirae/simulator.py:62-64,74-77,99,107,114). -/
def copy (s : Store α) (l : Nat) : Nat × Store α := s.alloc (s.val l)

end Store

/-- All objects (moirae/simulator.py:52-141). -/
structure Heap (I X A Y : Type) where
  inputs : Store I
  transients : Store X
  asohs : Store A
  measurements : Store Y

/-- `Simulator` with references in place of values (moirae/simulator.py:18-79). -/
structure Sim (I X A Y : Type) where
  model : CellModel I X A Y
  degradation : DegradationModel I X A Y
  asoh : Nat
  transient : Nat
  input : Nat
  measurement : Nat
  history : Option (History Nat Nat Nat Nat)

variable {I X A Y : Type}

/-- The histories of `__init__` (moirae/simulator.py:71-79), each a list with one copy. -/
def initHistory (h : Heap I X A Y) (i x a y : Nat) : History Nat Nat Nat Nat × Heap I X A Y :=
  let (i', hi) := h.inputs.copy i
  let (x', hx) := h.transients.copy x
  let (a', ha) := h.asohs.copy a
  let (y', hy) := h.measurements.copy y
  (⟨[i'], [x'], [a'], [y']⟩, ⟨hi, hx, ha, hy⟩)

/-- `Simulator.__init__` (moirae/simulator.py:51-79) with the caller's objects at `asoh`, `transient`, `input`. -/
def init (h : Heap I X A Y) (model : CellModel I X A Y) (degradation : DegradationModel I X A Y) (asoh transient input : Nat)
    (keepHistory : Bool) : Except Err (Sim I X A Y × Heap I X A Y) :=
  let (a, ha) := h.asohs.copy asoh
  let (x, hx) := h.transients.copy transient
  let (i, hi) := h.inputs.copy input
  match model.output (hi.val i) (hx.val x) (ha.val a) with
  | .error e => .error e
  | .ok v =>
    let (y, hy) := h.measurements.alloc v
    let h1 : Heap I X A Y := ⟨hi, hx, ha, hy⟩
    if keepHistory then
      let (hist, h2) := initHistory h1 i x a y
      .ok (⟨model, degradation, a, x, i, y, some hist⟩, h2)
    else .ok (⟨model, degradation, a, x, i, y, none⟩, h1)

/-- `Simulator.step` (moirae/simulator.py:81-122) with the caller's input object at `new`: the simulator and the objects afterwards,
and the references returned.  The new transient state is not copied; the history receives the simulator's own input object, and the
very objects returned for the transient state and the measurement. -/
def step (h : Heap I X A Y) (s : Sim I X A Y) (new : Nat) : Sim I X A Y × Heap I X A Y × Except Err (Nat × Nat) :=
  match s.model.update (h.inputs.val s.input) (h.inputs.val new) (h.transients.val s.transient) (h.asohs.val s.asoh) with
  | .error e => (s, h, .error e)
  | .ok xv =>
    let (x, hx) := h.transients.alloc xv
    let (i, hi) := h.inputs.copy new
    match s.model.output (hi.val i) (hx.val x) (h.asohs.val s.asoh) with
    | .error e => ({ s with transient := x, input := i }, { h with inputs := hi, transients := hx }, .error e)
    | .ok yv =>
      let (y, hy) := h.measurements.alloc yv
      let (y', hy') := hy.copy y
      match s.degradation.update (h.asohs.val s.asoh) (hi.val new) (hx.val x) (hy'.val y) with
      | .error e =>
        ({ s with transient := x, input := i, measurement := y' }, { h with inputs := hi, transients := hx, measurements := hy' },
          .error e)
      | .ok av =>
        let (a, ha) := h.asohs.alloc av
        let (a', ha') := ha.copy a
        ({ s with transient := x, input := i, measurement := y', asoh := a',
                  history := s.history.map fun t => Simulator.push t i x a y },
          ⟨hi, hx, ha', hy'⟩, .ok (x, y))

/-- The references a caller holds: input objects it made, the state of health and transient state it passed to the constructor, and
everything `step` has returned (moirae/simulator.py:52-141). -/
structure Caller where
  inputs : List Nat
  asoh : Nat
  transient : Nat
  gotTransients : List Nat
  gotMeasurements : List Nat

/-- What a caller does: create an input object; change one in place; change the state of health or the transient state given to the
constructor; change a transient state or measurement that `step` returned; call `step` with one of its input objects
(moirae/simulator.py:52-141). -/
inductive Op (I X A Y : Type) where
  | newInput (v : I)
  | setInput (k : Nat) (v : I)
  | setAsoh (v : A)
  | setTransient (v : X)
  | setReturnedTransient (k : Nat) (v : X)
  | setReturnedMeasurement (k : Nat) (v : Y)
  | step (k : Nat)

/-- The program state: objects, simulator, caller, and the outcomes of the steps so far as the caller saw them on return
(moirae/simulator.py:52-141). -/
structure World (I X A Y : Type) where
  heap : Heap I X A Y
  sim : Sim I X A Y
  caller : Caller
  seen : List (Except Err (X × Y))

/-- The references the caller holds after a step (moirae/simulator.py:52-141). -/
def Caller.receive (c : Caller) : Except Err (Nat × Nat) → Caller
  | .error _ => c
  | .ok (x, y) => { c with gotTransients := c.gotTransients ++ [x], gotMeasurements := c.gotMeasurements ++ [y] }

/-- The outcome of a step as values (moirae/simulator.py:52-141). -/
def outcome (h : Heap I X A Y) : Except Err (Nat × Nat) → Except Err (X × Y)
  | .error e => .error e
  | .ok (x, y) => .ok (h.transients.val x, h.measurements.val y)

/-- One operation of the caller; an operation on a reference that does not exist does nothing (moirae/simulator.py:52-141). -/
def act (w : World I X A Y) : Op I X A Y → World I X A Y
  | .newInput v =>
    let (l, hi) := w.heap.inputs.alloc v
    { w with heap := { w.heap with inputs := hi }, caller := { w.caller with inputs := w.caller.inputs ++ [l] } }
  | .setInput k v =>
    match w.caller.inputs[k]? with
    | none => w
    | some l => { w with heap := { w.heap with inputs := w.heap.inputs.write l v } }
  | .setAsoh v => { w with heap := { w.heap with asohs := w.heap.asohs.write w.caller.asoh v } }
  | .setTransient v => { w with heap := { w.heap with transients := w.heap.transients.write w.caller.transient v } }
  | .setReturnedTransient k v =>
    match w.caller.gotTransients[k]? with
    | none => w
    | some l => { w with heap := { w.heap with transients := w.heap.transients.write l v } }
  | .setReturnedMeasurement k v =>
    match w.caller.gotMeasurements[k]? with
    | none => w
    | some l => { w with heap := { w.heap with measurements := w.heap.measurements.write l v } }
  | .step k =>
    match w.caller.inputs[k]? with
    | none => w
    | some l =>
      let (s, h, r) := SimObjects.step w.heap w.sim l
      ⟨h, s, w.caller.receive r, w.seen ++ [outcome h r]⟩

/-- Any sequence of operations (moirae/simulator.py:52-141). -/
def exec (w : World I X A Y) (ops : List (Op I X A Y)) : World I X A Y := ops.foldl act w

/-- The program state right after the constructor was called by a caller who holds the three objects passed (moirae/simulator.py:52-141). -/
def start (h : Heap I X A Y) (model : CellModel I X A Y) (degradation : DegradationModel I X A Y) (asoh transient input : Nat)
    (keepHistory : Bool) : Except Err (World I X A Y) :=
  (init h model degradation asoh transient input keepHistory).map fun r => ⟨r.2, r.1, ⟨[input], asoh, transient, [], []⟩, []⟩

end Verif.SimObjects
