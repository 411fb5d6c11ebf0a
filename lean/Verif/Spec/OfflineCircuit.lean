import Verif.Spec.Loss
import Verif.Spec.EcmSimulate
/-!
# Fitting an equivalent circuit to data (specification)
-/

namespace Verif
open Ecm Cell

/-- A loss for an equivalent circuit with attributes `x`: the initial state of health holds one cell with parameters `a` that can be evaluated at a
temperature, the initial state is an `ECMTransientVector` for its RC elements (with or without the charge of a series capacitor). -/
structure Spec.FitsCircuit (L : Loss) (beh : Behavior) (x : Fixed) (series : Bool) (a : ASOH) : Prop where
  cell : L.cell = Ecm.cell beh x
  asoh : HoldsCircuit x L.asoh a
  state : SameLayout L.state (circuitState series a.rcs.length)
  evaluable : Estimable [] true series a

/-- A row of a dataset with the given time, current and temperature, and the given voltage.  A row without a temperature, or whose temperature is not a
finite number, counts as one at 25 °C. -/
structure Spec.Sample (row : Row) (o : In × ℝ) : Prop where
  time : lookupKey "test_time".toList row = some (.fin o.1.time)
  current : lookupKey "current".toList row = some (.fin o.1.current)
  voltage : lookupKey "voltage".toList row = some (.fin o.2)
  temp : ∃ T, o.1.temp = some T ∧
    (lookupKey "temperature".toList row = some (.fin T) ∨ ((∀ r, lookupKey "temperature".toList row ≠ some (.fin r)) ∧ T = 25))

/-- The voltages of a cell that is at `s` under the first input, under it and the later ones. -/
noncomputable def Spec.cellVoltages (beh : Behavior) (p : Par) (first : In) (later : List In) (s : St) : List ℝ :=
  volt first s p :: cellVolts beh p first later s

/-- The rows of a table, as `DataFrame.iterrows` goes through them (moirae/estimators/offline/loss.py:98): every row with the names of the columns.
A missing value is a NaN. -/
def Spec.tableRows (t : List Name × List (List (Option ℝ))) : List Row := t.2.map fun r => t.1.zip (r.map fun v => v.elim .nan .fin)

/-- The circuit is at 25 °C what it is without a temperature. -/
structure Spec.SameAt25 (p : Par) : Prop where
  ocv : ∀ s, p.ocv s (some 25) = p.ocv s none
  r0 : ∀ s, p.r0 s (some 25) = p.r0 s none
  rcs : ∀ rc ∈ p.rcs, ∀ s, rc.r s (some 25) = rc.r s none

/-- An optimiser whose result has as many coordinates as the starting point and is, for the function it is given, no worse than the points that are near
enough in every coordinate.  (Assumption on `scipy.optimize.minimize`; a search that stops early does not satisfy it.) -/
def Spec.LocalSearch (minimize : (List ℝ → Except Err ℝ) → List ℝ → Except Err (List ℝ)) : Prop :=
  ∀ f x0 z, minimize f x0 = .ok z → z.length = x0.length ∧ ∃ ε > 0, ∀ z' : List ℝ, z'.length = z.length → (∀ i, |z'.getD i 0 - z.getD i 0| < ε) →
    ∀ l l', f z = .ok l → f z' = .ok l' → l ≤ l'

end Verif
