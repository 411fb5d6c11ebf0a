import Verif.Spec.TheveninOde
/-!
# Thevenin cells above one another
-/

namespace Verif.Spec
open Verif.Thevenin

/-- Open-circuit voltage that does not fall with the SOC, resistances and capacitances that do not depend on it (they may depend on temperature), and a positive
capacity. -/
structure RisingCell (a : Thevenin.ASOH) (b : Nat) : Prop where
  capacity : 0 < entry a.capacity b
  ocv : ∀ z z', z ≤ z' → rowPoly a.ocv.coeffs b z ≤ rowPoly a.ocv.coeffs b z'
  r0 : ∀ z z' T, polyAt a.r0 b z T = polyAt a.r0 b z' T
  r0_nonneg : ∀ z T, 0 ≤ polyAt a.r0 b z T
  rcs : ∀ q ∈ a.rcs, ∀ z z' T, polyAt q.1 b z T = polyAt q.1 b z' T ∧ polyAt q.2 b z T = polyAt q.2 b z' T

/-- The same time and ambient temperature, and at least the current. -/
structure MoreCurrent (b : Nat) (u v : Thevenin.Input) : Prop where
  time : entry u.time b = entry v.time b
  ambient : entry u.tInf b = entry v.tInf b
  current : entry u.current b ≤ entry v.current b

/-- At least the SOC, and at most the overpotentials (which count positive on discharge). -/
structure Above (n b : Nat) (s s' : Thevenin.State) : Prop where
  soc : s.soc.get [b, 0] ≤ s'.soc.get [b, 0]
  eta : ∀ j < n, s'.eta.get [b, j] ≤ s.eta.get [b, j]

end Verif.Spec
