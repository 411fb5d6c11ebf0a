import Verif.Spec.Cell
/-!
# Vocabulary for a cell on another clock
-/

namespace Verif.Spec
open Cell

/-- The cell that does everything `k` times slower: `k` times the resistances, everything else as before. -/
noncomputable def slower (k : ℝ) (p : Par) : Par :=
  { p with r0 := fun z t => k * p.r0 z t, rcs := p.rcs.map fun rc => ⟨fun z t => k * rc.r z t, rc.c⟩ }

/-- The same charge in `k` times the time: times are multiplied by `k`, currents divided by it. -/
noncomputable def slowerIn (k : ℝ) (i : In) : In := ⟨k * i.time, i.current / k, i.temp⟩

/-- The state of the slower cell: currents are divided by `k`, SOC, charge and hysteresis are the same. -/
noncomputable def slowerSt (k : ℝ) (s : St) : St := { s with irc := s.irc.map (· / k) }

end Verif.Spec
