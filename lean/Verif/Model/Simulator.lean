import Verif.Py
/-!
# The simulator (moirae/simulator.py)

Objects are values here: every `model_copy(deep=True)` disappears.  Which objects the simulator shares with its caller is
modelled in `Verif/Model/SimulatorHeap.lean`.
-/

namespace Verif

/-- `CellModel` (moirae/models/base.py:568-613), any subclass: two functions of values that may raise.  `I`, `X`, `A`, `Y` are the
inputs, transient states, states of health and outputs.  Models with internal state are not modelled. -/
structure CellModel (I X A Y : Type) where
  /-- `update_transient_state(previous_inputs, new_inputs, transient_state, asoh)` -/
  update : I → I → X → A → Except Err X
  /-- `calculate_terminal_voltage(new_inputs, transient_state, asoh)` -/
  output : I → X → A → Except Err Y

/-- `DegradationModel` (moirae/models/base.py:616-642): `update_asoh(previous_asoh, new_inputs, new_transients,
new_measurements)`. -/
structure DegradationModel (I X A Y : Type) where
  update : A → I → X → Y → Except Err A

/-- `NoDegradation` (moirae/models/utils.py:9-18). -/
def NoDegradation (I X A Y : Type) : DegradationModel I X A Y := ⟨fun a _ _ _ => .ok a⟩

/-- The four history lists (moirae/simulator.py:71-79). -/
structure History (I X A Y : Type) where
  inputs : List I
  transients : List X
  asohs : List A
  measurements : List Y

/-- `Simulator` (moirae/simulator.py:18-79).  `history = none` is `keep_history=False`. -/
structure Simulator (I X A Y : Type) where
  model : CellModel I X A Y
  degradation : DegradationModel I X A Y
  asoh : A
  transient : X
  input : I
  measurement : Y
  history : Option (History I X A Y)

namespace Simulator
variable {I X A Y : Type}

/-- `Simulator.__init__` (moirae/simulator.py:51-79). -/
def init (model : CellModel I X A Y) (degradation : DegradationModel I X A Y) (asoh : A) (transient : X) (input : I)
    (keepHistory : Bool) : Except Err (Simulator I X A Y) :=
  match model.output input transient asoh with
  | .error e => .error e
  | .ok y => .ok ⟨model, degradation, asoh, transient, input, y,
      if keepHistory then some ⟨[input], [transient], [asoh], [y]⟩ else none⟩

/-- Appending one entry to every history (moirae/simulator.py:116-120). -/
def push (h : History I X A Y) (i : I) (x : X) (a : A) (y : Y) : History I X A Y :=
  ⟨h.inputs ++ [i], h.transients ++ [x], h.asohs ++ [a], h.measurements ++ [y]⟩

/-- `Simulator.step` (moirae/simulator.py:81-122): the simulator afterwards, also when a call of the models raises, and the
outcome. -/
def step (s : Simulator I X A Y) (new : I) : Simulator I X A Y × Except Err (X × Y) :=
  match s.model.update s.input new s.transient s.asoh with
  | .error e => (s, .error e)
  | .ok x =>
    match s.model.output new x s.asoh with
    | .error e => ({ s with transient := x, input := new }, .error e)
    | .ok y =>
      match s.degradation.update s.asoh new x y with
      | .error e => ({ s with transient := x, input := new, measurement := y }, .error e)
      | .ok a =>
        ({ s with transient := x, input := new, measurement := y, asoh := a,
                  history := s.history.map fun h => push h new x a y }, .ok (x, y))

/-- `Simulator.evolve` (moirae/simulator.py:124-141).  When a step raises, the list of measurements is lost. -/
def evolve (s : Simulator I X A Y) : List I → Simulator I X A Y × Except Err (List Y)
  | [] => (s, .ok [])
  | i :: is =>
    match s.step i with
    | (s', .error e) => (s', .error e)
    | (s', .ok (_, y)) =>
      match s'.evolve is with
      | (s'', .error e) => (s'', .error e)
      | (s'', .ok ys) => (s'', .ok (y :: ys))

end Simulator
end Verif
