import Verif.Spec.Cell
/-!
# Vocabulary for comparing two cells (or two histories of one cell)
-/

namespace Verif.Spec
open Cell

/-- Parameters of a cell whose open-circuit voltage does not fall with the SOC; its other curves do not depend on the SOC; resistances,
capacitances and the other parameters have the right sign. -/
structure Rising (p : Par) : Prop where
  qt : 0 < p.qt
  ce : 0 ≤ p.ce
  gamma : 0 ≤ p.gamma
  ocv : ∀ z z' t, z ≤ z' → p.ocv z t ≤ p.ocv z' t
  r0 : ∀ z z' t, p.r0 z t = p.r0 z' t ∧ 0 ≤ p.r0 z t
  c0 : ∀ c ∈ p.c0, ∀ z z', c z = c z' ∧ 0 < c z
  rcs : ∀ rc ∈ p.rcs, ∀ z z', (∀ t, rc.r z t = rc.r z' t ∧ 0 < rc.r z t) ∧ rc.c z = rc.c z' ∧ 0 < rc.c z
  hyst : ∀ z z', p.hystMax z = p.hystMax z' ∧ 0 ≤ p.hystMax z

/-- The first input has at most the current of the second, at the same time and temperature.  Currents are zero or above 1e-8 A. -/
structure LessCurrent (i i' : In) : Prop where
  time : i.time = i'.time
  temp : i.temp = i'.temp
  current : i.current ≤ i'.current
  some_or_none : ∀ j ∈ [i.current, i'.current], j = 0 ∨ 1e-8 < |j|

/-- The first state is not above the second in any part. -/
structure NotAbove (s s' : St) : Prop where
  soc : s.soc ≤ s'.soc
  q0 : Option.Rel (· ≤ ·) s.q0 s'.q0
  irc : List.Forall₂ (· ≤ ·) s.irc s'.irc
  hyst : s.hyst ≤ s'.hyst

/-- The first state is below the second in every part, with hystereses between `-M` and `M`. -/
structure Below (M : ℝ) (s s' : St) : Prop where
  soc : s.soc ≤ s'.soc
  q0 : Option.Rel (· ≤ ·) s.q0 s'.q0
  irc : List.Forall₂ (· ≤ ·) s.irc s'.irc
  hyst : -M ≤ s.hyst ∧ s.hyst ≤ s'.hyst ∧ s'.hyst ≤ M

end Verif.Spec
