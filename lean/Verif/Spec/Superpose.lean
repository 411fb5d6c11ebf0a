import Verif.Spec.Pulse
/-!
# Superposition of currents
-/

namespace Verif.Spec

/-- At the same times, `w` has `α` times the current of `u` plus `β` times that of `v`. -/
structure Mixed (α β : ℝ) (u v w : Cell.In) : Prop where
  time : v.time = u.time ∧ w.time = u.time
  current : w.current = α * u.current + β * v.current

/-- The same for sequences of inputs. -/
inductive MixedAll (α β : ℝ) : List Cell.In → List Cell.In → List Cell.In → Prop
  | nil : MixedAll α β [] [] []
  | cons {u v w us vs ws} : Mixed α β u v w → MixedAll α β us vs ws → MixedAll α β (u :: us) (v :: vs) (w :: ws)

/-- Time and current of an input of the Thevenin model. -/
noncomputable def theveninIn (u : Thevenin.Input) (b : Nat) : Cell.In := ⟨Thevenin.entry u.time b, Thevenin.entry u.current b, none⟩

end Verif.Spec
