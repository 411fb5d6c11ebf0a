import Verif.Spec.TheveninPack
/-!
# A Thevenin cell on another clock
-/

namespace Verif.Spec
open Verif.Thevenin

/-- All resistances multiplied by `k`. -/
noncomputable def slowCell (k : ℝ) (a : Thevenin.ASOH) : Thevenin.ASOH :=
  { a with r0 := timesPoly k a.r0, rcs := a.rcs.map fun q => (timesPoly k q.1, q.2) }

/-- Time 0 becomes `c`, one second becomes `k` seconds, and the current its `k`-th part. -/
noncomputable def slowInput (k c : ℝ) (u : Thevenin.Input) : Thevenin.Input :=
  ⟨⟨u.time.shape, fun idx => k * u.time.get idx + c⟩, times (1 / k) u.current, u.tInf⟩

end Verif.Spec
