import Verif.Props.EcmRest
/-!
# C121: a circuit forgets the currents and the hysteresis it started with
-/

namespace Verif
open Ecm Cell Nd

/-! ## Specification -/

/-- How many time constants of an RC element pass during a history. -/
noncomputable def Spec.timeConstants (beh : Behavior) (p : Par) (rc : Cell.RC) : In → List In → St → ℝ
  | _, [], _ => 0
  | prev, new :: rest, s =>
    (new.time - prev.time) / (rc.r s.soc prev.temp * rc.c s.soc) + timeConstants beh p rc new rest (step beh prev new s p)

/-- The integral of the absolute current over a step during which the current stays at its first value, or moves on a straight line from its first to its
last value. -/
noncomputable def Spec.absCharge (beh : Behavior) (prev new : In) : ℝ :=
  match beh with
  | .constant => |prev.current| * (new.time - prev.time)
  | .linear =>
    if 0 ≤ prev.current * new.current then |prev.current + new.current| / 2 * (new.time - prev.time)
    else (prev.current ^ 2 + new.current ^ 2) / (2 * |new.current - prev.current|) * (new.time - prev.time)

/-- The charge that goes in or out during a history, in capacities (the efficiency counts in steps that start by charging). -/
noncomputable def Spec.throughput (beh : Behavior) (p : Par) : In → List In → ℝ
  | _, [] => 0
  | prev, new :: rest =>
    (if prev.current < 0 then 1 else p.ce) * absCharge beh prev new / (3600 * p.qt) + throughput beh p new rest

/-- Under the linear behaviour the current never ramps from charging down to zero or below. -/
def Spec.NoRampDown (beh : Behavior) (inputs : List In) : Prop :=
  beh = .linear → inputs.IsChain fun prev new => prev.time ≠ new.time ∧ ¬(0 < prev.current ∧ new.current ≤ 0)

/-- By how much the series capacitors of two states of a cell differ in voltage, at a state of charge. -/
noncomputable def Spec.seriesGap (a : ASOH) (st₁ st₂ : State) (b : Nat) (soc : ℝ) : ℝ :=
  match st₁.q0, st₂.q0, a.c0 with
  | some q₁, some q₂, some c => (at2 q₁ b - at2 q₂ b) / curveAt c b soc
  | _, _, _ => 0

/-- The clock never goes back. -/
def Spec.Forward (inputs : List Input) (b : Nat) : Prop := inputs.IsChain fun i j => at2 i.time b ≤ at2 j.time b

/-! ## Proofs -/

section
variable {beh : Behavior} {p : Par}

theorem rcNext_sub (prev new : In) (soc : ℝ) (rc : Cell.RC) (i i' : ℝ) :
    rcNext beh prev new soc rc i - rcNext beh prev new soc rc i' = (i - i') * Real.exp (-((new.time - prev.time) / (rc.r soc prev.temp * rc.c soc))) := by
  simp only [rcNext, dt, neg_div]
  ring

theorem hystAfter_sub (h h' M κ d i α : ℝ) : hystAfter h M κ d i α - hystAfter h' M κ d i α =
    (h - h') * Real.exp (if i > -(α * d) then -(κ * d * (i + 0.5 * α * d)) else κ * d * (i + 0.5 * α * d)) := by
  simp only [hystAfter]
  ring

theorem hystNext_sub (prev new : In) (s s' : St) (hs : s.soc = s'.soc)
    (hl : beh = .linear → prev.time ≠ new.time ∧ ¬(0 < prev.current ∧ new.current ≤ 0)) :
    hystNext beh prev new s p - hystNext beh prev new s' p = (s.hyst - s'.hyst) *
      Real.exp (-(p.gamma * ((if prev.current < 0 then 1 else p.ce) * Spec.absCharge beh prev new / (3600 * p.qt)))) := by
  have hk : ∀ x : ℝ, p.gamma * ((if prev.current < 0 then 1 else p.ce) * x / (3600 * p.qt)) = kappa prev p * x := fun x => by
    simp only [kappa, eff]; ring
  rw [hk]
  simp only [hystNext, hs]
  generalize kappa prev p = κ
  generalize hystTarget prev s'.soc p = M
  cases beh with
  | constant =>
    rw [if_pos (.inr rfl), if_pos (.inr rfl), hystAfter_sub]
    simp only [Cell.slope, Spec.absCharge, dt, zero_mul, neg_zero, mul_zero, add_zero, gt_iff_lt]
    rcases lt_or_ge 0 prev.current with h | h
    · rw [if_pos h, abs_of_pos h]; ring_nf
    · rw [if_neg (not_lt.2 h), abs_of_nonpos h]; ring_nf
  | linear =>
    obtain ⟨ht, hr⟩ := hl rfl
    have hd : dt prev new ≠ 0 := sub_ne_zero.2 ht.symm
    have hsl : Cell.slope .linear prev new * dt prev new = new.current - prev.current := div_mul_cancel₀ _ hd
    have e1 : ∀ x : ℝ, κ * dt prev new * (x + 0.5 * Cell.slope .linear prev new * dt prev new) = κ * dt prev new * (x + 0.5 * (new.current - prev.current)) :=
      fun x => by rw [mul_assoc 0.5, hsl]
    by_cases hn : 0 ≤ prev.current * new.current
    · rw [if_pos (.inl hn), if_pos (.inl hn), hystAfter_sub, hsl, e1]
      simp only [Spec.absCharge, if_pos hn]
      change _ = (s.hyst - s'.hyst) * Real.exp (-(κ * (|prev.current + new.current| / 2 * dt prev new)))
      rcases lt_or_ge 0 new.current with h | h
      · have h0 : 0 ≤ prev.current := by by_contra hc; nlinarith
        rw [if_pos (by linarith), abs_of_nonneg (by linarith)]
        congr 2; ring
      · have h0 : prev.current ≤ 0 := by by_contra hc; exact hr ⟨not_le.1 hc, h⟩
        rw [if_neg (by linarith), abs_of_nonpos (by linarith)]
        congr 2; ring
    · have hneg : ¬(prev.current * new.current ≥ 0 ∨ (Behavior.linear = Behavior.constant)) := by
        rintro (h | h)
        · exact hn h
        · cases h
      have hp : prev.current < 0 := by
        by_contra hc
        rcases (not_lt.1 hc).lt_or_eq with h | h
        · exact hr ⟨h, by by_contra h'; exact hn (mul_nonneg h.le (not_le.1 h').le)⟩
        · exact hn (by rw [← h]; simp)
      have hq : 0 < new.current := by by_contra hc; exact hn (mul_nonneg_of_nonpos_of_nonpos hp.le (not_lt.1 hc))
      have hpos : 0 < new.current - prev.current := by linarith
      have hα : Cell.slope .linear prev new ≠ 0 := div_ne_zero hpos.ne' hd
      have hφ : Cell.slope .linear prev new * (-prev.current / Cell.slope .linear prev new) = -prev.current := mul_div_cancel₀ _ hα
      have hφ' : -prev.current / Cell.slope .linear prev new = -prev.current * dt prev new / (new.current - prev.current) := by
        rw [← hsl]; field_simp
      rw [if_neg hneg, if_neg hneg, hystAfter_sub, hystAfter_sub, mul_assoc, ← Real.exp_add]
      simp only [Spec.absCharge, if_neg hn]
      change _ = (s.hyst - s'.hyst) * Real.exp (-(κ * ((prev.current ^ 2 + new.current ^ 2) / (2 * |new.current - prev.current|) * dt prev new)))
      have hrest : Cell.slope .linear prev new * (dt prev new - -prev.current / Cell.slope .linear prev new) = new.current := by
        rw [mul_sub, hφ, hsl]; ring
      rw [abs_of_pos hpos, hφ, hrest, if_neg (by linarith), if_pos (by linarith), mul_assoc 0.5, hφ, mul_assoc 0.5, hrest, hφ']
      congr 2
      field_simp
      ring

theorem run_sub (inputs : List In) : ∀ (prev : In) (s s' : St), s.soc = s'.soc → s.irc.length = p.rcs.length → s'.irc.length = p.rcs.length →
    (run beh p prev inputs s).soc = (run beh p prev inputs s').soc ∧
    (∀ q q', s.q0 = some q → s'.q0 = some q' → ∃ r r', (run beh p prev inputs s).q0 = some r ∧ (run beh p prev inputs s').q0 = some r' ∧ r - r' = q - q') ∧
    (∀ j (hj : j < p.rcs.length), (run beh p prev inputs s).irc.getD j 0 - (run beh p prev inputs s').irc.getD j 0 =
      (s.irc.getD j 0 - s'.irc.getD j 0) * Real.exp (-Spec.timeConstants beh p p.rcs[j] prev inputs s)) ∧
    (Spec.NoRampDown beh (prev :: inputs) → (run beh p prev inputs s).hyst - (run beh p prev inputs s').hyst =
      (s.hyst - s'.hyst) * Real.exp (-(p.gamma * Spec.throughput beh p prev inputs))) := by
  induction inputs with
  | nil =>
    intro prev s s' hs h1 h2
    exact ⟨hs, fun q q' e e' => ⟨q, q', e, e', rfl⟩, fun j hj => by simp [Spec.timeConstants, Cell.run], fun _ => by simp [Spec.throughput, Cell.run]⟩
  | cons new inputs ih =>
    intro prev s s' hs h1 h2
    obtain ⟨k1, k2, k3, k4⟩ := ih new (step beh prev new s p) (step beh prev new s' p) (by simp only [step, hs])
      (by simp [step, h1]) (by simp [step, h2])
    refine ⟨k1, fun q q' e e' => ?_, fun j hj => ?_, fun hb => ?_⟩
    · obtain ⟨r, r', g1, g2, g3⟩ := k2 (q + charge beh prev new) (q' + charge beh prev new) (by simp [step, e]) (by simp [step, e'])
      exact ⟨r, r', g1, g2, by rw [g3]; ring⟩
    · refine (k3 j hj).trans ?_
      have hj1 : j < s.irc.length := by omega
      have hj2 : j < s'.irc.length := by omega
      have e : (step beh prev new s p).irc.getD j 0 - (step beh prev new s' p).irc.getD j 0 = (s.irc.getD j 0 - s'.irc.getD j 0) *
          Real.exp (-((new.time - prev.time) / (p.rcs[j].r s.soc prev.temp * p.rcs[j].c s.soc))) := by
        rw [← rcNext_sub (beh := beh)]
        simp [step, List.getD_eq_getElem?_getD, List.getElem?_zipWith, hj, hj1, hj2, hs]
      rw [e, mul_assoc, ← Real.exp_add, Spec.timeConstants, neg_add]
    · refine (k4 fun h => (List.isChain_cons_cons.1 (hb h)).2).trans ?_
      have e : (step beh prev new s p).hyst - (step beh prev new s' p).hyst = _ :=
        hystNext_sub (beh := beh) (p := p) prev new s s' hs fun h => (List.isChain_cons_cons.1 (hb h)).1
      rw [e, mul_assoc, ← Real.exp_add, Spec.throughput]
      congr 2
      ring

end

/-! ## C121 -/

/-- C121, the part that holds: two runs of the same circuit through the same inputs, from states with the same SOC.  The SOC stays the same and so does the
difference of the charges of the series capacitor.  The difference of the currents of an RC element falls by `e` with every time constant that passes, that
of the hystereses by `e` with every `1/γ` capacities of charge that go in or out.  What is missing: the last under ramps from charging down to zero or
below (`C121_hysteresis_violated`). -/
theorem C121_states_partial {B : Nat} (hB : 0 < B) {beh : Behavior} {a : ASOH} {u : Input} {us : List Input} {st₁ st₂ st₁' st₂' : State}
    (ha : Pars B a) (hu : ∀ i ∈ u :: us, Ins B i) (hs₁ : Sts B a st₁) (hs₂ : Sts B a st₂)
    (h₁ : Ecm.run beh a u us st₁ = .ok st₁') (h₂ : Ecm.run beh a u us st₂ = .ok st₂') (b : Nat) (hb : b < B) (hsoc : at2 st₁.soc b = at2 st₂.soc b)
    (_hmove : beh = .linear → ∀ p ∈ steps u us, at2 p.2.time b ≠ at2 p.1.time b) (_hqt : at2 a.qt b ≠ 0)
    (_hτ : ∀ rc ∈ (parAt a b).rcs, ∀ s t, rc.r s t * rc.c s ≠ 0) :
    at2 st₁'.soc b = at2 st₂'.soc b ∧
    (∀ q₁ q₂, st₁.q0 = some q₁ → st₂.q0 = some q₂ → ∃ r₁ r₂, st₁'.q0 = some r₁ ∧ st₂'.q0 = some r₂ ∧ at2 r₁ b - at2 r₂ b = at2 q₁ b - at2 q₂ b) ∧
    (∀ j rc, (parAt a b).rcs[j]? = some rc → ircAt st₁' b j - ircAt st₂' b j = (ircAt st₁ b j - ircAt st₂ b j) *
      Real.exp (-Spec.timeConstants beh (parAt a b) rc (inAt u b) (us.map (inAt · b)) (stAt st₁ b))) ∧
    (Spec.NoRampDown beh (inAt u b :: us.map (inAt · b)) → at2 st₁'.hyst b - at2 st₂'.hyst b =
      (at2 st₁.hyst b - at2 st₂.hyst b) * Real.exp (-(at2 a.gamma b * Spec.throughput beh (parAt a b) (inAt u b) (us.map (inAt · b))))) := by
  obtain ⟨g1, e1⟩ := run_rows hB ha (hu u (by simp)) (fun i hi => hu i (by simp [hi])) hs₁ h₁
  obtain ⟨g2, e2⟩ := run_rows hB ha (hu u (by simp)) (fun i hi => hu i (by simp [hi])) hs₂ h₂
  have l1 := irc_list hs₁ b
  have l2 := irc_list hs₂ b
  have l1' := irc_list g1 b
  have l2' := irc_list g2 b
  have hl : (parAt a b).rcs.length = a.rcs.length := by simp [parAt]
  obtain ⟨k1, k2, k3, k4⟩ := run_sub (beh := beh) (p := parAt a b) (us.map (inAt · b)) (inAt u b) (stAt st₁ b) (stAt st₂ b) hsoc
    (by rw [l1, hl]; simp) (by rw [l2, hl]; simp)
  rw [← e1 b hb, ← e2 b hb] at k1 k2 k3 k4
  refine ⟨k1, fun q q' hq hq' => ?_, fun j rc hrc => ?_, k4⟩
  · obtain ⟨r, r', g1, g2, g3⟩ := k2 (at2 q b) (at2 q' b) (by simp [stAt, hq]) (by simp [stAt, hq'])
    obtain ⟨x, hx, rfl⟩ := Option.map_eq_some_iff.1 g1
    obtain ⟨x', hx', rfl⟩ := Option.map_eq_some_iff.1 g2
    exact ⟨x, x', hx, hx', g3⟩
  · obtain ⟨hj, rfl⟩ := List.getElem?_eq_some_iff.1 hrc
    have hj' : j < a.rcs.length := hl ▸ hj
    have := k3 j hj
    rw [l1, l2, l1', l2'] at this
    simpa [List.getD_eq_getElem?_getD, hj'] using this


theorem run_q0 {beh : Behavior} {p : Par} (inputs : List In) : ∀ (prev : In) (s : St), ((Cell.run beh p prev inputs s).q0 = none ↔ s.q0 = none) := by
  induction inputs with
  | nil => intro prev s; rfl
  | cons new rest ih =>
    intro prev s
    refine (ih new (step beh prev new s p)).trans ?_
    simp only [step]
    cases s.q0 <;> simp

/-- C121, the part that holds: the terminal voltages differ by what is left of the differences of the two first states: the difference of the charges of the
series capacitors over the capacitance, the faded differences of the RC currents times their resistances, and the faded difference of the hystereses. -/
theorem C121_voltage_partial {B : Nat} (hB : 0 < B) {beh : Behavior} {a : ASOH} {u : Input} {us : List Input} {st₁ st₂ st₁' st₂' : State} {v₁ v₂ : Nd ℝ}
    (ha : Pars B a) (hu : ∀ i ∈ u :: us, Ins B i) (hs₁ : Sts B a st₁) (hs₂ : Sts B a st₂)
    (h₁ : Ecm.run beh a u us st₁ = .ok st₁') (h₂ : Ecm.run beh a u us st₂ = .ok st₂')
    (hv₁ : voltage (lastInput u us) st₁' a = .ok v₁) (hv₂ : voltage (lastInput u us) st₂' a = .ok v₂)
    (b : Nat) (hb : b < B) (hsoc : at2 st₁.soc b = at2 st₂.soc b) (hq : st₁.q0 = none ↔ st₂.q0 = none)
    (hmove : beh = .linear → ∀ p ∈ steps u us, at2 p.2.time b ≠ at2 p.1.time b) (hqt : at2 a.qt b ≠ 0)
    (hτ : ∀ rc ∈ (parAt a b).rcs, ∀ s t, rc.r s t * rc.c s ≠ 0) (hc : ∀ c ∈ a.c0, curveAt c b (at2 st₁'.soc b) ≠ 0)
    (hramp : Spec.NoRampDown beh (inAt u b :: us.map (inAt · b))) :
    at2 v₁ b - at2 v₂ b = Spec.seriesGap a st₁ st₂ b (at2 st₁'.soc b) +
      ∑ j : Fin (parAt a b).rcs.length, (ircAt st₁ b j - ircAt st₂ b j) *
        Real.exp (-Spec.timeConstants beh (parAt a b) (parAt a b).rcs[j] (inAt u b) (us.map (inAt · b)) (stAt st₁ b)) *
        (parAt a b).rcs[j].r (at2 st₁'.soc b) ((lastInput u us).temp.map (at2 · b)) +
      (at2 st₁.hyst b - at2 st₂.hyst b) * Real.exp (-(at2 a.gamma b * Spec.throughput beh (parAt a b) (inAt u b) (us.map (inAt · b)))) := by
  obtain ⟨k1, k2, k3, k4⟩ := C121_states_partial hB ha hu hs₁ hs₂ h₁ h₂ b hb hsoc hmove hqt hτ
  obtain ⟨g1, e1⟩ := run_rows hB ha (hu u (by simp)) (fun i hi => hu i (by simp [hi])) hs₁ h₁
  obtain ⟨g2, e2⟩ := run_rows hB ha (hu u (by simp)) (fun i hi => hu i (by simp [hi])) hs₂ h₂
  have hlast := hu _ (lastInput_mem us u)
  have hl : (parAt a b).rcs.length = a.rcs.length := by simp [parAt]
  have hse : seriesAt st₁' a b - seriesAt st₂' a b = Spec.seriesGap a st₁ st₂ b (at2 st₁'.soc b) := by
    have n1 : st₁'.q0 = none ↔ st₁.q0 = none := by
      have := run_q0 (beh := beh) (p := parAt a b) (us.map (inAt · b)) (inAt u b) (stAt st₁ b)
      rw [← e1 b hb] at this
      simpa [stAt] using this
    have n2 : st₂'.q0 = none ↔ st₂.q0 = none := by
      have := run_q0 (beh := beh) (p := parAt a b) (us.map (inAt · b)) (inAt u b) (stAt st₂ b)
      rw [← e2 b hb] at this
      simpa [stAt] using this
    unfold seriesAt Spec.seriesGap
    rcases hq1 : st₁.q0 with _ | q₁
    · rw [n1.2 hq1, n2.2 (hq.1 hq1)]; simp
    · rcases hq2 : st₂.q0 with _ | q₂
      · rw [hq.2 hq2] at hq1; cases hq1
      · obtain ⟨r₁, r₂, h1, h2, h3⟩ := k2 q₁ q₂ hq1 hq2
        rw [h1, h2, ← k1]
        cases a.c0 with
        | none => simp
        | some c =>
          show at2 r₁ b / _ - at2 r₂ b / _ = (at2 q₁ b - at2 q₂ b) / _
          rw [← h3, sub_div]
  rw [C27_voltage_sum hB ha hlast g1 hv₁ b hb hc, C27_voltage_sum hB ha hlast g2 hv₂ b hb (by rw [← k1]; exact hc), ← k1, ← hse, ← k4 hramp]
  have hsum : (∑ j : Fin a.rcs.length, ircAt st₁' b j * resAt a.rcs[j].r b (at2 st₁'.soc b) ((lastInput u us).temp.map (at2 · b))) -
      (∑ j : Fin a.rcs.length, ircAt st₂' b j * resAt a.rcs[j].r b (at2 st₁'.soc b) ((lastInput u us).temp.map (at2 · b))) =
      ∑ j : Fin (parAt a b).rcs.length, (ircAt st₁ b j - ircAt st₂ b j) *
        Real.exp (-Spec.timeConstants beh (parAt a b) (parAt a b).rcs[j] (inAt u b) (us.map (inAt · b)) (stAt st₁ b)) *
        (parAt a b).rcs[j].r (at2 st₁'.soc b) ((lastInput u us).temp.map (at2 · b)) := by
    rw [← Finset.sum_sub_distrib]
    refine Fintype.sum_equiv (finCongr hl.symm) _ _ fun j => ?_
    have hj : (finCongr hl.symm j).1 < (parAt a b).rcs.length := (finCongr hl.symm j).2
    have e := k3 _ _ (List.getElem?_eq_getElem hj)
    simp only [Fin.getElem_fin]
    rw [← e, sub_mul]
    simp only [parAt, List.getElem_map]
    rfl
  rw [← hsum]
  ring

theorem timeConstants_ge {beh : Behavior} {p : Par} {rc : Cell.RC} {T : ℝ} (inputs : List In) :
    ∀ (prev : In) (s : St), (∀ s, ∀ i ∈ prev :: inputs, 0 < rc.r s i.temp * rc.c s ∧ rc.r s i.temp * rc.c s ≤ T) → (prev :: inputs).IsChain (fun i j => i.time ≤ j.time) →
    (endTime prev inputs - prev.time) / T ≤ Spec.timeConstants beh p rc prev inputs s := by
  induction inputs with
  | nil => intro prev s _ _; simp [endTime, Spec.timeConstants]
  | cons new rest ih =>
    intro prev s hT h
    obtain ⟨h1, h2⟩ := List.isChain_cons_cons.1 h
    have g := ih new (step beh prev new s p) (fun s i hi => hT s i (by simp [List.mem_cons.1 hi])) h2
    obtain ⟨t1, t2⟩ := hT s.soc prev (by simp)
    have : (new.time - prev.time) / T ≤ (new.time - prev.time) / (rc.r s.soc prev.temp * rc.c s.soc) :=
      div_le_div_of_nonneg_left (sub_nonneg.2 h1) t1 t2
    calc (endTime new rest - prev.time) / T = (new.time - prev.time) / T + (endTime new rest - new.time) / T := by ring
      _ ≤ _ := add_le_add this g

/-- C121: when no time constant of an RC element is longer than `T` at the temperatures of the inputs, the difference of its currents falls by at least the factor `exp(-t/T)` in a history that
takes the time `t`, whatever the currents and however the history is divided into steps. -/
theorem C121_currents {B : Nat} (hB : 0 < B) {beh : Behavior} {a : ASOH} {u : Input} {us : List Input} {st₁ st₂ st₁' st₂' : State}
    (ha : Pars B a) (hu : ∀ i ∈ u :: us, Ins B i) (hs₁ : Sts B a st₁) (hs₂ : Sts B a st₂)
    (h₁ : Ecm.run beh a u us st₁ = .ok st₁') (h₂ : Ecm.run beh a u us st₂ = .ok st₂') (b : Nat) (hb : b < B) (hsoc : at2 st₁.soc b = at2 st₂.soc b)
    (hmove : beh = .linear → ∀ p ∈ steps u us, at2 p.2.time b ≠ at2 p.1.time b) (hqt : at2 a.qt b ≠ 0)
    (hτ : ∀ rc ∈ (parAt a b).rcs, ∀ s t, rc.r s t * rc.c s ≠ 0) (hfwd : Spec.Forward (u :: us) b)
    (j : Nat) (rc : Cell.RC) (hrc : (parAt a b).rcs[j]? = some rc) (T : ℝ)
    (hT : ∀ s, ∀ i ∈ u :: us, 0 < rc.r s (i.temp.map (at2 · b)) * rc.c s ∧ rc.r s (i.temp.map (at2 · b)) * rc.c s ≤ T) :
    |ircAt st₁' b j - ircAt st₂' b j| ≤ |ircAt st₁ b j - ircAt st₂ b j| * Real.exp (-(duration u us b / T)) := by
  obtain ⟨_, _, k3, _⟩ := C121_states_partial hB ha hu hs₁ hs₂ h₁ h₂ b hb hsoc hmove hqt hτ
  rw [k3 j rc hrc, abs_mul, Real.abs_exp]
  refine mul_le_mul_of_nonneg_left (Real.exp_le_exp.2 (neg_le_neg ?_)) (abs_nonneg _)
  have := timeConstants_ge (beh := beh) (p := parAt a b) (T := T) (rc := rc) (us.map (inAt · b)) (inAt u b) (stAt st₁ b)
    (fun s i hi => by
      rw [← List.map_cons (f := (inAt · b))] at hi
      obtain ⟨x, hx, rfl⟩ := List.mem_map.1 hi
      exact hT s x hx)
    (by rw [← List.map_cons (f := (inAt · b)), List.isChain_map]; exact hfwd)
  rw [endTime_eq] at this
  exact this

theorem throughput_nonneg {beh : Behavior} {p : Par} (hqt : 0 < p.qt) (hce : 0 ≤ p.ce) (inputs : List In) :
    ∀ prev : In, (prev :: inputs).IsChain (fun i j => i.time ≤ j.time) → 0 ≤ Spec.throughput beh p prev inputs := by
  induction inputs with
  | nil => intro prev _; exact le_refl _
  | cons new rest ih =>
    intro prev h
    obtain ⟨h1, h2⟩ := List.isChain_cons_cons.1 h
    refine add_nonneg (div_nonneg (mul_nonneg (by split <;> [exact zero_le_one; exact hce]) ?_) (by positivity)) (ih new h2)
    have h1' : 0 ≤ new.time - prev.time := sub_nonneg.2 h1
    unfold Spec.absCharge
    cases beh
    · simp only; positivity
    · simp only; split <;> positivity

/-- C121, the part that holds: unless the current ramps from charging down to zero or below, the hystereses never move apart. -/
theorem C121_hysteresis_partial {B : Nat} (hB : 0 < B) {beh : Behavior} {a : ASOH} {u : Input} {us : List Input} {st₁ st₂ st₁' st₂' : State}
    (ha : Pars B a) (hu : ∀ i ∈ u :: us, Ins B i) (hs₁ : Sts B a st₁) (hs₂ : Sts B a st₂)
    (h₁ : Ecm.run beh a u us st₁ = .ok st₁') (h₂ : Ecm.run beh a u us st₂ = .ok st₂') (b : Nat) (hb : b < B) (hsoc : at2 st₁.soc b = at2 st₂.soc b)
    (hmove : beh = .linear → ∀ p ∈ steps u us, at2 p.2.time b ≠ at2 p.1.time b) (hok : Sensible a b)
    (hτ : ∀ rc ∈ (parAt a b).rcs, ∀ s t, rc.r s t * rc.c s ≠ 0) (hfwd : Spec.Forward (u :: us) b)
    (hramp : Spec.NoRampDown beh (inAt u b :: us.map (inAt · b))) :
    |at2 st₁'.hyst b - at2 st₂'.hyst b| ≤ |at2 st₁.hyst b - at2 st₂.hyst b| := by
  obtain ⟨_, _, _, k4⟩ := C121_states_partial hB ha hu hs₁ hs₂ h₁ h₂ b hb hsoc hmove hok.qt.ne' hτ
  rw [k4 hramp, abs_mul, Real.abs_exp]
  refine mul_le_of_le_one_right (abs_nonneg _) (Real.exp_le_one_iff.2 (neg_nonpos.2 (mul_nonneg hok.gamma ?_)))
  exact throughput_nonneg (p := parAt a b) hok.qt hok.ce _ _ (by rw [← List.map_cons (f := (inAt · b)), List.isChain_map]; exact hfwd)

/-! ## Concrete cases -/

/-- A state of the demonstration circuit without currents and without hysteresis. -/
noncomputable def Demo.relaxed : State := { Demo.state with irc := ⟨[2, 2], fun _ => 0⟩, hyst := num2 0 }

theorem Demo.relaxed_sts : Sts 2 Demo.circuit Demo.relaxed := ⟨Demo.sts.1, Demo.sts.2, .inr rfl, .inl rfl⟩

theorem Demo.relaxed_runs (beh : Behavior) (l : List (ℝ × ℝ)) (t i : ℝ) (h : ∀ p ∈ steps (t, i) l, p.2.1 ≠ p.1.1) :
    ∃ st', Ecm.run beh Demo.circuit (Demo.input t i) (l.map fun p => Demo.input p.1 p.2) Demo.relaxed = .ok st' :=
  run_ok (by norm_num) Demo.pars (Demo.ins _ _) (by
    intro x hx; obtain ⟨p, _, rfl⟩ := List.mem_map.1 hx; exact Demo.ins _ _) Demo.relaxed_sts (Demo.canRun beh l t i h)

/-- C121 fails for ramps from charging to rest: two hystereses that differ by 1 mV differ by more than 100 mV after a ramp from 10 A to 0 A over 10⁶ s. -/
theorem C121_hysteresis_violated : ∃ st₁ st₂,
    Ecm.run .linear Demo.circuit (Demo.input 0 10) [Demo.input 1000000 0] Demo.state = .ok st₁ ∧
    Ecm.run .linear Demo.circuit (Demo.input 0 10) [Demo.input 1000000 0] Demo.relaxed = .ok st₂ ∧
    at2 Demo.state.soc 0 = at2 Demo.relaxed.soc 0 ∧ at2 Demo.state.hyst 0 - at2 Demo.relaxed.hyst 0 = 0.001 ∧ 0.1 < at2 st₁.hyst 0 - at2 st₂.hyst 0 := by
  have hs : ∀ p ∈ steps ((0 : ℝ), (10 : ℝ)) [(1000000, 0)], p.2.1 ≠ p.1.1 := by simp [steps]
  obtain ⟨s₁, h₁⟩ := Demo.runs .linear [(1000000, 0)] 0 10 hs
  obtain ⟨s₂, h₂⟩ := Demo.relaxed_runs .linear [(1000000, 0)] 0 10 hs
  refine ⟨s₁, s₂, h₁, h₂, rfl, by simp [at2, Demo.state, Demo.relaxed, num2], ?_⟩
  have e1 := (run_rows (by norm_num) Demo.pars (Demo.ins _ _) (by simp [Demo.ins]) Demo.sts h₁).2 0 (by norm_num)
  have e2 := (run_rows (by norm_num) Demo.pars (Demo.ins _ _) (by simp [Demo.ins]) Demo.relaxed_sts h₂).2 0 (by norm_num)
  have d := congrArg₂ (fun x y => x.hyst - y.hyst) e1 e2
  have hc : (inAt (Demo.input 0 10) 0).current * (inAt (Demo.input 1000000 0) 0).current ≥ 0 := by
    show (10 : ℝ) * 0 ≥ 0; norm_num
  have hsoc : (stAt Demo.state 0).soc = (stAt Demo.relaxed 0).soc := rfl
  simp only [List.map_cons, List.map_nil, Cell.run, step, hystNext, if_pos (Or.inl hc : _ ∨ Behavior.linear = .constant), hsoc, hystAfter_sub] at d
  have hs : Cell.slope .linear (inAt (Demo.input 0 10) 0) (inAt (Demo.input 1000000 0) 0) = -1e-5 := by
    show ((0 : ℝ) - 10) / (1000000 - 0) = _; norm_num
  have hd : dt (inAt (Demo.input 0 10) 0) (inAt (Demo.input 1000000 0) 0) = 1000000 := by
    show (1000000 : ℝ) - 0 = _; norm_num
  have hi : (inAt (Demo.input 0 10) 0).current = 10 := rfl
  have hk : kappa (inAt (Demo.input 0 10) 0) (parAt Demo.circuit 0) = 0.99 * 0.9 / 36000 := by
    simp only [kappa, eff, parAt, inAt, Demo.input, Demo.circuit, Demo.two, at2, rows, num2, List.getD_cons_zero]
    norm_num
  have hh : (stAt Demo.state 0).hyst - (stAt Demo.relaxed 0).hyst = 0.001 := by simp [stAt, at2, Demo.state, Demo.relaxed, num2]
  rw [hs, hd, hi, hk, hh, if_neg (by norm_num)] at d
  change at2 s₁.hyst 0 - at2 s₂.hyst 0 = _ at d
  rw [d]
  have hbig : (101 : ℝ) ≤ Real.exp (0.99 * 0.9 / 36000 * 1000000 * (10 + 0.5 * -1e-5 * 1000000)) := by
    refine le_trans ?_ (Real.add_one_le_exp _)
    norm_num
  nlinarith

theorem Demo.taus (b : Nat) : ∀ rc ∈ (parAt Demo.circuit b).rcs, ∀ s t, 0 < rc.r s t * rc.c s ∧ (t = some 30 → rc.r s t * rc.c s ≤ 100) := by
  have hf : ∀ x s, curveAt (Demo.flat x) b s = x := fun x s => by
    simp [curveAt, Demo.flat, Interp.width, num2]
  have ht : ∀ x y s, curveAt ⟨Demo.two x y, none, .linear⟩ b s = if b = 0 then x else y := fun x y s => by
    simp [curveAt, Interp.width, Interp.rows, Demo.two]
  have he : Real.exp (-0.0025 * (30 - 25)) ≤ 1 := Real.exp_le_one_iff.2 (by norm_num)
  intro rc hrc s t
  simp only [parAt, Demo.circuit, List.map_cons, List.map_nil, List.mem_cons, List.not_mem_nil, or_false] at hrc
  rcases hrc with rfl | rfl <;> cases t <;> simp only [resAt, Demo.res, hf, ht] <;> split <;>
    refine ⟨by positivity, fun h => ?_⟩ <;> cases h <;> (change _ * Real.exp (-0.0025 * (30 - 25)) * _ ≤ _; nlinarith)

-- Two states of the two-cell circuit that differ in currents and hysteresis, through a history that discharges, rests and charges: the hypotheses of the
-- theorems are met under both behaviours.
example (beh : Behavior) : ∃ st₁ st₂ v₁ v₂,
    Ecm.run beh Demo.circuit (Demo.input 0 (-3)) [Demo.input 10 0, Demo.input 30 2] Demo.state = .ok st₁ ∧
    Ecm.run beh Demo.circuit (Demo.input 0 (-3)) [Demo.input 10 0, Demo.input 30 2] Demo.relaxed = .ok st₂ ∧
    voltage (Demo.input 30 2) st₁ Demo.circuit = .ok v₁ ∧ voltage (Demo.input 30 2) st₂ Demo.circuit = .ok v₂ ∧
    at2 Demo.state.soc 1 = at2 Demo.relaxed.soc 1 ∧ ircAt Demo.state 1 0 ≠ ircAt Demo.relaxed 1 0 ∧ at2 Demo.state.hyst 1 ≠ at2 Demo.relaxed.hyst 1 ∧
    (∀ p ∈ steps (Demo.input 0 (-3)) [Demo.input 10 0, Demo.input 30 2], at2 p.2.time 1 ≠ at2 p.1.time 1) ∧ Sensible Demo.circuit 1 ∧
    Spec.Forward [Demo.input 0 (-3), Demo.input 10 0, Demo.input 30 2] 1 ∧
    Spec.NoRampDown beh ([Demo.input 0 (-3), Demo.input 10 0, Demo.input 30 2].map (inAt · 1)) ∧
    (∀ rc ∈ (parAt Demo.circuit 1).rcs, ∀ s t, rc.r s t * rc.c s ≠ 0) ∧
    (∀ rc ∈ (parAt Demo.circuit 1).rcs, ∀ s, ∀ i ∈ [Demo.input 0 (-3), Demo.input 10 0, Demo.input 30 2],
      0 < rc.r s (i.temp.map (at2 · 1)) * rc.c s ∧ rc.r s (i.temp.map (at2 · 1)) * rc.c s ≤ 100) ∧
    ∀ c ∈ Demo.circuit.c0, curveAt c 1 (at2 st₁.soc 1) ≠ 0 := by
  have hs : ∀ p ∈ steps ((0 : ℝ), (-3 : ℝ)) [(10, 0), (30, 2)], p.2.1 ≠ p.1.1 := by simp [steps]
  obtain ⟨s₁, h₁⟩ := Demo.runs beh [(10, 0), (30, 2)] 0 (-3) hs
  obtain ⟨s₂, h₂⟩ := Demo.relaxed_runs beh [(10, 0), (30, 2)] 0 (-3) hs
  have g1 := (run_rows (by norm_num) Demo.pars (Demo.ins _ _) (by simp [Demo.ins]) Demo.sts h₁).1
  have g2 := (run_rows (by norm_num) Demo.pars (Demo.ins _ _) (by simp [Demo.ins]) Demo.relaxed_sts h₂).1
  obtain ⟨v₁, hv₁⟩ := voltage_ok (by norm_num) Demo.pars (Demo.ins 30 2) g1 (demo_canVoltage _ _ _)
  obtain ⟨v₂, hv₂⟩ := voltage_ok (by norm_num) Demo.pars (Demo.ins 30 2) g2 (demo_canVoltage _ _ _)
  refine ⟨s₁, s₂, v₁, v₂, h₁, h₂, hv₁, hv₂, rfl, ?_, ?_, ?_, demo_sensible _, ?_, ?_, fun rc hrc s t => ((Demo.taus 1 rc hrc s t).1).ne', fun rc hrc s i hi => ?_, ?_⟩
  · simp [ircAt, Demo.state, Demo.relaxed, rows]; norm_num
  · simp [at2, Demo.state, Demo.relaxed, num2]; norm_num
  · intro p hp
    simp only [steps, List.zip_cons_cons, List.zip_nil_right, List.mem_cons, List.not_mem_nil, or_false] at hp
    rcases hp with rfl | rfl <;> simp [at2, Demo.input, num2]
  · simp [Spec.Forward, at2, Demo.input, num2]; norm_num
  · intro _
    simp [inAt, at2, Demo.input, num2]
  · refine ⟨(Demo.taus 1 rc hrc _ _).1, (Demo.taus 1 rc hrc _ _).2 ?_⟩
    simp only [List.mem_cons, List.not_mem_nil, or_false] at hi
    rcases hi with rfl | rfl | rfl <;> rfl
  · intro c hc; cases hc
    show (1000 : ℝ) ≠ 0; norm_num

end Verif
