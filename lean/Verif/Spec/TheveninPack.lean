import Verif.Model.Thevenin
/-!
# Thevenin cells in parallel and in series

`p` strings in parallel of `s` equal cells each, seen as one cell.
-/

namespace Verif.Spec
open Verif.Thevenin

/-- All entries multiplied by a number. -/
noncomputable def times (k : ℝ) (a : Nd ℝ) : Nd ℝ := ⟨a.shape, fun idx => k * a.get idx⟩

/-- A resistance or capacitance multiplied by a number, at every SOC and temperature. -/
noncomputable def timesPoly (k : ℝ) (q : PolySocT) : PolySocT := ⟨q.tRef, times k q.socCoeffs, times k q.tCoeffs⟩

/-- `p` times the charge, `s` times the open-circuit voltage, resistances `s / p`, capacitances `p / s`, and `p s` times the mass and surface. -/
noncomputable def packOf (p s : ℝ) (a : Thevenin.ASOH) : Thevenin.ASOH where
  capacity := times p a.capacity
  mass := times (p * s) a.mass
  cp := a.cp
  hThermal := a.hThermal
  aTherm := times (p * s) a.aTherm
  ocv := ⟨times s a.ocv.coeffs⟩
  r0 := timesPoly (s / p) a.r0
  rcs := a.rcs.map fun q => (timesPoly (s / p) q.1, timesPoly (p / s) q.2)

/-- `p` times the current. -/
noncomputable def packInput (p : ℝ) (u : Thevenin.Input) : Thevenin.Input := ⟨u.time, times p u.current, u.tInf⟩

/-- The same SOC and temperature, and `s` times the overpotentials. -/
noncomputable def packState (s : ℝ) (st : Thevenin.State) : Thevenin.State := ⟨st.soc, st.temp, times s st.eta⟩

end Verif.Spec
