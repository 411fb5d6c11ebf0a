import Verif.Props.EcmRest
/-!
# C122: cells in parallel and in series

A pack of equal cells is described by the circuit of one cell with scaled parameters.
-/

namespace Verif
open Ecm Cell Nd

/-! ## Specification -/

/-- `k` equal cells in parallel: `k` times the capacity and the capacitances, the `k`-th part of the resistances. -/
noncomputable def Spec.parallel (k : ℝ) (p : Par) : Par where
  qt := k * p.qt
  ce := p.ce
  ocv := p.ocv
  r0 := fun s t => p.r0 s t / k
  c0 := p.c0.map fun c s => k * c s
  rcs := p.rcs.map fun rc => ⟨fun s t => rc.r s t / k, fun s => k * rc.c s⟩
  hystMax := p.hystMax
  gamma := p.gamma

/-- The current of `k` cells in parallel. -/
noncomputable def Spec.parallelIn (k : ℝ) (i : In) : In := ⟨i.time, k * i.current, i.temp⟩

/-- The state of `k` cells in parallel: charges and currents add up, SOC and hysteresis are those of the cells. -/
noncomputable def Spec.parallelSt (k : ℝ) (s : St) : St := ⟨s.soc, s.q0.map (k * ·), s.irc.map (k * ·), s.hyst⟩

/-- `k` equal cells in series: `k` times the voltages and the resistances, the `k`-th part of the capacitances. -/
noncomputable def Spec.series (k : ℝ) (p : Par) : Par where
  qt := p.qt
  ce := p.ce
  ocv := fun s t => k * p.ocv s t
  r0 := fun s t => k * p.r0 s t
  c0 := p.c0.map fun c s => c s / k
  rcs := p.rcs.map fun rc => ⟨fun s t => k * rc.r s t, fun s => rc.c s / k⟩
  hystMax := fun s => k * p.hystMax s
  gamma := p.gamma

/-- The state of `k` cells in series: the hystereses add up. -/
noncomputable def Spec.seriesSt (k : ℝ) (s : St) : St := { s with hyst := k * s.hyst }

/-! ## Proofs -/

section
variable {beh : Behavior} {p : Par} {k : ℝ}

theorem slope_scale (prev new : In) : Cell.slope beh (Spec.parallelIn k prev) (Spec.parallelIn k new) = k * Cell.slope beh prev new := by
  cases beh with
  | constant => simp [Cell.slope]
  | linear => simp only [Cell.slope, Spec.parallelIn, dt]; ring

theorem hystAfter_scale_current (hk : 0 < k) (h M κ d i α : ℝ) : hystAfter h M (κ / k) d (k * i) (k * α) = hystAfter h M κ d i α := by
  simp only [hystAfter]
  have e : κ / k * d * (k * i + 0.5 * (k * α) * d) = κ * d * (i + 0.5 * α * d) := by field_simp
  have c : (k * i > -(k * α * d)) ↔ (i > -(α * d)) := by
    rw [mul_assoc, ← mul_neg]
    exact mul_lt_mul_iff_right₀ hk
  rw [e]
  by_cases h : i > -(α * d)
  · rw [if_pos h, if_pos (c.2 h)]
  · rw [if_neg h, if_neg fun x => h (c.1 x)]

theorem hystAfter_scale (h M κ d i α : ℝ) : hystAfter (k * h) (k * M) κ d i α = k * hystAfter h M κ d i α := by
  simp only [hystAfter]
  ring

theorem eff_parallel (hk : 0 < k) (prev : In) : eff (Spec.parallelIn k prev) (Spec.parallel k p) = eff prev p := by
  have : (Spec.parallelIn k prev).current < 0 ↔ prev.current < 0 := by
    show k * prev.current < 0 ↔ _
    constructor <;> intro h <;> nlinarith
  unfold eff
  by_cases h : prev.current < 0
  · rw [if_pos h, if_pos (this.2 h)]
  · rw [if_neg h, if_neg fun x => h (this.1 x)]
    rfl

theorem kappa_parallel (hk : 0 < k) (prev : In) : kappa (Spec.parallelIn k prev) (Spec.parallel k p) = kappa prev p / k := by
  simp only [kappa, eff_parallel hk]
  simp only [Spec.parallel]
  rw [div_div]; congr 1; ring

theorem target_parallel (hk : 0 < k) (prev : In) (soc : ℝ) (hI : prev.current = 0 ∨ (1e-8 < |prev.current| ∧ 1e-8 < k * |prev.current|)) :
    hystTarget (Spec.parallelIn k prev) soc (Spec.parallel k p) = hystTarget prev soc p := by
  have ha : |k * prev.current| = k * |prev.current| := by rw [abs_mul, abs_of_pos hk]
  simp only [hystTarget, Spec.parallelIn, Spec.parallel, ha]
  rcases hI with h | ⟨h1, h2⟩
  · simp [h]
  · rw [if_neg (not_le.2 h1), if_neg (not_le.2 h2)]
    have : |prev.current| ≠ 0 := (lt_trans (by norm_num) h1).ne'
    field_simp

theorem step_parallel (hk : 0 < k) (prev new : In) (s : St) (hI : prev.current = 0 ∨ (1e-8 < |prev.current| ∧ 1e-8 < k * |prev.current|)) :
    step beh (Spec.parallelIn k prev) (Spec.parallelIn k new) (Spec.parallelSt k s) (Spec.parallel k p) = Spec.parallelSt k (step beh prev new s p) := by
  have hd : dt (Spec.parallelIn k prev) (Spec.parallelIn k new) = dt prev new := rfl
  have hc : charge beh (Spec.parallelIn k prev) (Spec.parallelIn k new) = k * charge beh prev new := by
    simp only [charge, hd, slope_scale]
    simp only [Spec.parallelIn]; ring
  simp only [step, Spec.parallelSt, St.mk.injEq]
  refine ⟨?_, ?_, ?_, ?_⟩
  · rw [eff_parallel hk, hc]
    simp only [Spec.parallel]
    rw [show 3600 * (k * p.qt) = k * (3600 * p.qt) by ring, mul_div_mul_left _ _ hk.ne']
  · rw [hc]
    cases s.q0 with
    | none => rfl
    | some q => simp [mul_add]
  · simp only [Spec.parallel, List.zipWith_map, List.map_zipWith]
    congr 1
    funext rc i
    simp only [rcNext, hd, slope_scale]
    rw [show rc.r s.soc (Spec.parallelIn k prev).temp / k * (k * rc.c s.soc) = rc.r s.soc prev.temp * rc.c s.soc by
      simp only [Spec.parallelIn]; field_simp]
    simp only [Spec.parallelIn]
    ring
  · simp only [hystNext, target_parallel hk prev s.soc hI, kappa_parallel hk, hd, slope_scale]
    have hsg : (Spec.parallelIn k prev).current * (Spec.parallelIn k new).current ≥ 0 ↔ prev.current * new.current ≥ 0 := by
      simp only [Spec.parallelIn]
      rw [show k * prev.current * (k * new.current) = (k * k) * (prev.current * new.current) by ring]
      exact mul_nonneg_iff_of_pos_left (mul_pos hk hk)
    have hcur : (Spec.parallelIn k prev).current = k * prev.current := rfl
    have hφ : -(k * prev.current) / (k * Cell.slope beh prev new) = -prev.current / Cell.slope beh prev new := by
      rw [← mul_neg, mul_div_mul_left _ _ hk.ne']
    have h0 : ∀ h M d α, hystAfter h M (kappa prev p / k) d 0 (k * α) = hystAfter h M (kappa prev p) d 0 α := fun h M d α => by
      have := hystAfter_scale_current hk h M (kappa prev p) d 0 α
      rwa [mul_zero] at this
    by_cases hb : prev.current * new.current ≥ 0 ∨ beh = .constant
    · rw [if_pos hb, if_pos (hb.imp_left hsg.2), hcur, hystAfter_scale_current hk]
    · rw [if_neg hb, if_neg fun x => hb (x.imp_left hsg.1), hcur, hφ, hystAfter_scale_current hk, h0]

theorem step_series (hk : k ≠ 0) (prev new : In) (s : St) :
    step beh prev new (Spec.seriesSt k s) (Spec.series k p) = Spec.seriesSt k (step beh prev new s p) := by
  have he : eff prev (Spec.series k p) = eff prev p := rfl
  have hκ : kappa prev (Spec.series k p) = kappa prev p := rfl
  simp only [step, Spec.seriesSt, St.mk.injEq]
  refine ⟨rfl, trivial, ?_, ?_⟩
  · simp only [Spec.series, List.zipWith_map_left]
    congr 1
    funext rc i
    simp only [rcNext]
    rw [show k * rc.r s.soc prev.temp * (rc.c s.soc / k) = rc.r s.soc prev.temp * rc.c s.soc by field_simp]
  · have hM : hystTarget prev s.soc (Spec.series k p) = k * hystTarget prev s.soc p := by
      simp only [hystTarget, Spec.series]
      split <;> ring
    simp only [hystNext, hκ, hM]
    split
    · exact hystAfter_scale ..
    · rw [hystAfter_scale, ← mul_neg, hystAfter_scale]

theorem run_parallel (hk : 0 < k) (inputs : List In) : ∀ (prev : In) (s : St),
    (∀ x ∈ steps prev inputs, x.1.current = 0 ∨ (1e-8 < |x.1.current| ∧ 1e-8 < k * |x.1.current|)) →
    Cell.run beh (Spec.parallel k p) (Spec.parallelIn k prev) (inputs.map (Spec.parallelIn k)) (Spec.parallelSt k s) =
      Spec.parallelSt k (Cell.run beh p prev inputs s) := by
  induction inputs with
  | nil => intro prev s _; rfl
  | cons new rest ih =>
    intro prev s h
    rw [steps_cons] at h
    simp only [List.map_cons, Cell.run]
    rw [step_parallel hk prev new s (h _ (List.mem_cons_self ..))]
    exact ih new _ fun x hx => h x (List.mem_cons_of_mem _ hx)

theorem run_series (hk : k ≠ 0) (inputs : List In) : ∀ (prev : In) (s : St),
    Cell.run beh (Spec.series k p) prev inputs (Spec.seriesSt k s) = Spec.seriesSt k (Cell.run beh p prev inputs s) := by
  induction inputs with
  | nil => intro prev s; rfl
  | cons new rest ih =>
    intro prev s
    simp only [Cell.run]
    rw [step_series hk]
    exact ih new _

theorem volt_parallel (hk : k ≠ 0) (new : In) (s : St) : volt (Spec.parallelIn k new) (Spec.parallelSt k s) (Spec.parallel k p) = volt new s p := by
  simp only [volt, Spec.parallelIn, Spec.parallelSt, Spec.parallel, List.zipWith_map]
  have e1 : k * new.current * (p.r0 s.soc new.temp / k) = new.current * p.r0 s.soc new.temp := by field_simp
  have e2 : (fun i (rc : Cell.RC) => k * i * (rc.r s.soc new.temp / k)) = fun i (rc : Cell.RC) => i * rc.r s.soc new.temp := by
    funext i rc; field_simp
  rw [e1, e2]
  cases s.q0 <;> cases p.c0 <;> simp [mul_div_mul_left _ _ hk]

theorem volt_series (new : In) (s : St) : volt new (Spec.seriesSt k s) (Spec.series k p) = k * volt new s p := by
  simp only [volt, Spec.seriesSt, Spec.series, List.zipWith_map_right]
  have e2 : (List.zipWith (fun i (rc : Cell.RC) => i * (k * rc.r s.soc new.temp)) s.irc p.rcs).sum =
      k * (List.zipWith (fun i (rc : Cell.RC) => i * rc.r s.soc new.temp) s.irc p.rcs).sum := by
    have := List.sum_map_mul_left (r := k) (l := List.zipWith (fun i (rc : Cell.RC) => i * rc.r s.soc new.temp) s.irc p.rcs) (f := id)
    rw [List.map_id] at this
    rw [← this, List.map_zipWith]
    congr 2
    funext i rc
    simp only [id]; ring
  rw [e2]
  cases s.q0 <;> cases p.c0 <;> simp [div_div_eq_mul_div] <;> ring

end

theorem inAt_last (b : Nat) : ∀ (us : List Input) (u : Input), some (inAt (lastInput u us) b) = ((u :: us).map (inAt · b)).getLast? := by
  intro us
  induction us with
  | nil => intro u; rfl
  | cons v us ih => intro u; simp only [lastInput, ih, List.map_cons, List.getLast?_cons_cons]

theorem steps_map {α β : Type} (f : α → β) : ∀ (us : List α) (u : α), steps (f u) (us.map f) = (steps u us).map fun x => (f x.1, f x.2) := by
  intro us
  induction us with
  | nil => intro u; rfl
  | cons v us ih => intro u; simp only [List.map_cons, steps_cons, ih]

/-- C122, the part that holds: the circuit with `k` times the capacity and capacitances and the `k`-th part of the resistances does with `k` times the
current what `k` equal cells in parallel do: the same SOC, hysteresis and voltage, `k` times the RC currents and the charge.  Member `b'` of the batch of
packs is compared with member `b` of the batch of cells.  What is missing: steps that start with a current of at most 1e-8 A (of a cell or of the pack) that
is not zero (`C122_parallel_violated`). -/
theorem C122_parallel_partial {B B' : Nat} (hB : 0 < B) (hB' : 0 < B') {beh : Behavior} {a a' : ASOH} {u u' : Input} {us us' : List Input}
    {st st' out out' : State} {v v' : Nd ℝ} (ha : Pars B a) (hu : ∀ i ∈ u :: us, Ins B i) (hs : Sts B a st)
    (ha' : Pars B' a') (hu' : ∀ i ∈ u' :: us', Ins B' i) (hs' : Sts B' a' st') (b b' : Nat) (hb : b < B) (hb' : b' < B') (k : ℝ) (hk : 0 < k)
    (hpar : parAt a' b' = Spec.parallel k (parAt a b)) (hin : (u' :: us').map (inAt · b') = (u :: us).map fun i => Spec.parallelIn k (inAt i b))
    (hst : stAt st' b' = Spec.parallelSt k (stAt st b))
    (hrun : Ecm.run beh a u us st = .ok out) (hrun' : Ecm.run beh a' u' us' st' = .ok out')
    (hv : voltage (lastInput u us) out a = .ok v) (hv' : voltage (lastInput u' us') out' a' = .ok v')
    (_hmove : beh = .linear → ∀ x ∈ steps u us, at2 x.2.time b ≠ at2 x.1.time b) (_hqt : at2 a.qt b ≠ 0)
    (_hτ : ∀ rc ∈ (parAt a b).rcs, ∀ s t, rc.r s t * rc.c s ≠ 0) (_hc : ∀ c ∈ a.c0, curveAt c b (at2 out.soc b) ≠ 0)
    (hcur : ∀ x ∈ steps u us, at2 x.1.current b = 0 ∨ (1e-8 < |at2 x.1.current b| ∧ 1e-8 < k * |at2 x.1.current b|)) :
    stAt out' b' = Spec.parallelSt k (stAt out b) ∧ at2 v' b' = at2 v b := by
  obtain ⟨g, e⟩ := run_rows hB ha (hu u (by simp)) (fun i hi => hu i (by simp [hi])) hs hrun
  obtain ⟨g', e'⟩ := run_rows hB' ha' (hu' u' (by simp)) (fun i hi => hu' i (by simp [hi])) hs' hrun'
  have hlast : inAt (lastInput u' us') b' = Spec.parallelIn k (inAt (lastInput u us) b) := by
    refine Option.some.inj ((inAt_last b' us' u').trans ?_)
    have e : (u :: us).map (fun i => Spec.parallelIn k (inAt i b)) = ((u :: us).map (inAt · b)).map (Spec.parallelIn k) := by
      rw [List.map_map]; rfl
    rw [hin, e, List.getLast?_map, ← inAt_last]
    rfl
  have hs1 : stAt out' b' = Spec.parallelSt k (stAt out b) := by
    rw [e' b' hb', e b hb, hpar, hst]
    simp only [List.map_cons, List.cons.injEq] at hin
    rw [hin.1, hin.2]
    have := run_parallel (beh := beh) (p := parAt a b) hk (us.map (inAt · b)) (inAt u b) (stAt st b) (by
      intro x hx
      rw [steps_map (inAt · b)] at hx
      obtain ⟨y, hy, rfl⟩ := List.mem_map.1 hx
      exact hcur y hy)
    rw [List.map_map] at this
    exact this
  refine ⟨hs1, ?_⟩
  rw [(voltage_rows hB' ha' (hu' _ (lastInput_mem us' u')) g' hv').2 b' hb', (voltage_rows hB ha (hu _ (lastInput_mem us u)) g hv).2 b hb, hpar, hlast, hs1,
    volt_parallel hk.ne']

/-- C122: the circuit with `k` times the voltages and resistances and the `k`-th part of the capacitances does with the same current what `k` equal cells in
series do: the same SOC, charge and RC currents, `k` times the hysteresis and the voltage. -/
theorem C122_series {B B' : Nat} (hB : 0 < B) (hB' : 0 < B') {beh : Behavior} {a a' : ASOH} {u u' : Input} {us us' : List Input}
    {st st' out out' : State} {v v' : Nd ℝ} (ha : Pars B a) (hu : ∀ i ∈ u :: us, Ins B i) (hs : Sts B a st)
    (ha' : Pars B' a') (hu' : ∀ i ∈ u' :: us', Ins B' i) (hs' : Sts B' a' st') (b b' : Nat) (hb : b < B) (hb' : b' < B') (k : ℝ) (hk : 0 < k)
    (hpar : parAt a' b' = Spec.series k (parAt a b)) (hin : (u' :: us').map (inAt · b') = (u :: us).map (inAt · b))
    (hst : stAt st' b' = Spec.seriesSt k (stAt st b))
    (hrun : Ecm.run beh a u us st = .ok out) (hrun' : Ecm.run beh a' u' us' st' = .ok out')
    (hv : voltage (lastInput u us) out a = .ok v) (hv' : voltage (lastInput u' us') out' a' = .ok v')
    (_hmove : beh = .linear → ∀ x ∈ steps u us, at2 x.2.time b ≠ at2 x.1.time b) (_hqt : at2 a.qt b ≠ 0)
    (_hτ : ∀ rc ∈ (parAt a b).rcs, ∀ s t, rc.r s t * rc.c s ≠ 0) (_hc : ∀ c ∈ a.c0, curveAt c b (at2 out.soc b) ≠ 0) :
    stAt out' b' = Spec.seriesSt k (stAt out b) ∧ at2 v' b' = k * at2 v b := by
  obtain ⟨g, e⟩ := run_rows hB ha (hu u (by simp)) (fun i hi => hu i (by simp [hi])) hs hrun
  obtain ⟨g', e'⟩ := run_rows hB' ha' (hu' u' (by simp)) (fun i hi => hu' i (by simp [hi])) hs' hrun'
  have hlast : inAt (lastInput u' us') b' = inAt (lastInput u us) b := by
    refine Option.some.inj ((inAt_last b' us' u').trans ?_)
    rw [hin, ← inAt_last]
  have hs1 : stAt out' b' = Spec.seriesSt k (stAt out b) := by
    rw [e' b' hb', e b hb, hpar, hst]
    simp only [List.map_cons, List.cons.injEq] at hin
    rw [hin.1, hin.2]
    exact run_series hk.ne' _ _ _
  refine ⟨hs1, ?_⟩
  rw [(voltage_rows hB' ha' (hu' _ (lastInput_mem us' u')) g' hv').2 b' hb', (voltage_rows hB ha (hu _ (lastInput_mem us u)) g hv).2 b hb, hpar, hlast, hs1,
    volt_series]

/-! ## Concrete cases -/

/-- Circuits built like the demonstration circuit, with other values. -/
noncomputable def Demo.like (qa qb o₀ o₁ ent r₀ c₀ r₁ ca₁ cb₁ r₂ ca₂ cb₂ h₀ h₁ : ℝ) : ASOH where
  qt := Demo.two qa qb
  ce := num2 0.99
  ocv := ⟨Demo.line o₀ o₁, num2 25, Demo.flat ent⟩
  r0 := Demo.res r₀
  c0 := some (Demo.flat c₀)
  rcs := [⟨Demo.res r₁, ⟨Demo.two ca₁ cb₁, none, .linear⟩⟩, ⟨Demo.res r₂, ⟨Demo.two ca₂ cb₂, none, .linear⟩⟩]
  hyst := Demo.line h₀ h₁
  gamma := num2 0.9

section
variable {qa qb o₀ o₁ ent r₀ c₀ r₁ ca₁ cb₁ r₂ ca₂ cb₂ h₀ h₁ : ℝ}

theorem Demo.like_pars : Pars 2 (Demo.like qa qb o₀ o₁ ent r₀ c₀ r₁ ca₁ cb₁ r₂ ca₂ cb₂ h₀ h₁) := by
  refine ⟨.inr rfl, .inl rfl, .inl rfl, .inl rfl, .inl rfl, .inl rfl, ⟨.inl rfl, .inl rfl⟩, ?_, ?_, .inl rfl⟩
  · intro c hc; cases hc; exact .inl rfl
  · intro rc hrc
    simp only [Demo.like, List.mem_cons, List.not_mem_nil, or_false] at hrc
    rcases hrc with rfl | rfl <;> exact ⟨⟨.inl rfl, .inl rfl⟩, .inr rfl⟩

theorem Demo.like_canRun (beh : Behavior) (l : List (ℝ × ℝ)) (t i : ℝ) (h : ∀ p ∈ steps (t, i) l, p.2.1 ≠ p.1.1) :
    CanRun beh (Demo.like qa qb o₀ o₁ ent r₀ c₀ r₁ ca₁ cb₁ r₂ ca₂ cb₂ h₀ h₁) (Demo.input t i) (l.map fun p => Demo.input p.1 p.2) := by
  obtain ⟨k1, k2, _, _, _⟩ := Demo.canRun beh l t i h
  refine ⟨k1, k2, ?_, ?_, ?_⟩
  · intro x hx rc hrc
    simp only [Demo.like, List.mem_cons, List.not_mem_nil, or_false] at hrc
    rcases hrc with rfl | rfl <;> exact ⟨Demo.usable_res _ _, .inl rfl⟩
  · refine ⟨2, fun rc hrc => ?_⟩
    simp only [Demo.like, List.mem_cons, List.not_mem_nil, or_false] at hrc
    rcases hrc with rfl | rfl <;> rfl
  · exact Demo.usable_line _ _ _ (by simp [Demo.like, rows, num2])

theorem Demo.like_canVoltage (t i : ℝ) (st : State) :
    CanVoltage (Demo.input t i) st (Demo.like qa qb o₀ o₁ ent r₀ c₀ r₁ ca₁ cb₁ r₂ ca₂ cb₂ h₀ h₁) := by
  refine ⟨Demo.usable_line _ _ _ (by simp [Demo.like, rows, num2]), fun _ => .inl rfl, ?_, Demo.usable_res _ _,
    fun _ => ⟨_, rfl, .inl rfl⟩, ?_, 1, ?_⟩
  · intro t ht; cases ht; exact ⟨.inl rfl, .inl rfl, .inl rfl⟩
  · intro rc hrc
    simp only [Demo.like, List.mem_cons, List.not_mem_nil, or_false] at hrc
    rcases hrc with rfl | rfl <;> exact Demo.usable_res _ _
  · intro rc hrc
    simp only [Demo.like, List.mem_cons, List.not_mem_nil, or_false] at hrc
    rcases hrc with rfl | rfl <;> rfl

theorem Demo.like_runs (beh : Behavior) (l : List (ℝ × ℝ)) (t i : ℝ) (h : ∀ p ∈ steps (t, i) l, p.2.1 ≠ p.1.1) {st : State}
    (hs : Sts 2 (Demo.like qa qb o₀ o₁ ent r₀ c₀ r₁ ca₁ cb₁ r₂ ca₂ cb₂ h₀ h₁) st) :
    ∃ st', Ecm.run beh (Demo.like qa qb o₀ o₁ ent r₀ c₀ r₁ ca₁ cb₁ r₂ ca₂ cb₂ h₀ h₁) (Demo.input t i) (l.map fun p => Demo.input p.1 p.2) st = .ok st' ∧
      ∃ v, voltage (lastInput (Demo.input t i) (l.map fun p => Demo.input p.1 p.2)) st'
        (Demo.like qa qb o₀ o₁ ent r₀ c₀ r₁ ca₁ cb₁ r₂ ca₂ cb₂ h₀ h₁) = .ok v := by
  have hall : ∀ x ∈ l.map (fun p => Demo.input p.1 p.2), Ins 2 x := by
    intro x hx; obtain ⟨p, _, rfl⟩ := List.mem_map.1 hx; exact Demo.ins _ _
  obtain ⟨s, e⟩ := run_ok (by norm_num) Demo.like_pars (Demo.ins _ _) hall hs (Demo.like_canRun beh l t i h)
  refine ⟨s, e, ?_⟩
  have g := (run_rows (by norm_num) Demo.like_pars (Demo.ins _ _) hall hs e).1
  have hm : ∃ t' i', lastInput (Demo.input t i) (l.map fun p => Demo.input p.1 p.2) = Demo.input t' i' := by
    rcases List.mem_cons.1 (lastInput_mem (l.map fun p => Demo.input p.1 p.2) (Demo.input t i)) with h | h
    · exact ⟨_, _, h⟩
    · obtain ⟨p, _, e⟩ := List.mem_map.1 h; exact ⟨_, _, e.symm⟩
  obtain ⟨t', i', hm⟩ := hm
  rw [hm]
  exact voltage_ok (by norm_num) Demo.like_pars (Demo.ins _ _) g (Demo.like_canVoltage _ _ _)

theorem Demo.curve_flat (b : Nat) (x : ℝ) : curveAt (Demo.flat x) b = fun _ => x := by
  funext s; simp [curveAt, Demo.flat, Interp.width, num2]

theorem Demo.curve_two (b : Nat) (x y : ℝ) : curveAt ⟨Demo.two x y, none, .linear⟩ b = fun _ => if b = 0 then x else y := by
  funext s; simp [curveAt, Interp.width, Interp.rows, Demo.two]

theorem Demo.curve_line (b : Nat) (x y : ℝ) : curveAt (Demo.line x y) b = fun s => (y - x) * s + x := by
  funext s; exact Demo.curveAt_line x y b s

/-- One member of such a circuit. -/
theorem Demo.like_at (b : Nat) : parAt (Demo.like qa qb o₀ o₁ ent r₀ c₀ r₁ ca₁ cb₁ r₂ ca₂ cb₂ h₀ h₁) b =
    { qt := if b = 0 then qa else qb, ce := 0.99,
      ocv := fun s t => ((o₁ - o₀) * s + o₀) + (match t with | none => 0 | some t => (t - 25) * ent),
      r0 := fun _ t => r₀ * (match t with | none => 1 | some t => Real.exp (-0.0025 * (t - 25))),
      c0 := some fun _ => c₀,
      rcs := [⟨fun _ t => r₁ * (match t with | none => 1 | some t => Real.exp (-0.0025 * (t - 25))), fun _ => if b = 0 then ca₁ else cb₁⟩,
        ⟨fun _ t => r₂ * (match t with | none => 1 | some t => Real.exp (-0.0025 * (t - 25))), fun _ => if b = 0 then ca₂ else cb₂⟩],
      hystMax := fun s => (h₁ - h₀) * s + h₀, gamma := 0.9 } := by
  have hr : ∀ x, resAt (Demo.res x) b = fun _ t => x * (match t with | none => 1 | some t => Real.exp (-0.0025 * (t - 25))) := fun x => by
    funext s t
    cases t
    · simp [resAt, Demo.res, Demo.curve_flat]
    · simp only [resAt, Demo.res, Demo.curve_flat]; rfl
  have ho : ocvAt ⟨Demo.line o₀ o₁, num2 25, Demo.flat ent⟩ b = fun s t => ((o₁ - o₀) * s + o₀) + (match t with | none => 0 | some t => (t - 25) * ent) := by
    funext s t
    cases t
    · simp [ocvAt, Demo.curve_line]
    · simp only [ocvAt, Demo.curve_line, Demo.curve_flat]; rfl
  simp only [parAt, Demo.like, hr, ho, List.map_cons, List.map_nil, Option.map_some, Demo.curve_flat, Demo.curve_two, Demo.curve_line, Par.mk.injEq, true_and,
    and_true]
  exact ⟨by simp [at2, Demo.two, rows], rfl, rfl⟩

end

/-- Two of the demonstration cells in parallel. -/
noncomputable def Demo.pair : ASOH := Demo.like 20 24 3 4 0.005 0.025 2000 0.005 5000 5200 0.01 2000 1800 0.01 0.02

/-- Two of the demonstration cells in series. -/
noncomputable def Demo.string : ASOH := Demo.like 10 12 6 8 0.01 0.1 500 0.02 1250 1300 0.04 500 450 0.02 0.04

theorem Demo.cell_like : Demo.circuit = Demo.like 10 12 3 4 0.005 0.05 1000 0.01 2500 2600 0.02 1000 900 0.01 0.02 := rfl

theorem Demo.pair_at (b : Nat) : parAt Demo.pair b = Spec.parallel 2 (parAt Demo.circuit b) := by
  rw [Demo.cell_like, Demo.pair, Demo.like_at, Demo.like_at]
  simp only [Spec.parallel, Option.map_some, List.map_cons, List.map_nil, Par.mk.injEq, Option.some.injEq, List.cons.injEq, Cell.RC.mk.injEq, true_and, and_true]
  refine ⟨?_, ?_, ?_, ⟨?_, ?_⟩, ?_, ?_⟩
  · split <;> norm_num
  · funext s t; ring
  · norm_num
  · funext s t; ring
  · funext s; split <;> norm_num
  · funext s t; ring
  · funext s; split <;> norm_num

theorem Demo.string_at (b : Nat) : parAt Demo.string b = Spec.series 2 (parAt Demo.circuit b) := by
  rw [Demo.cell_like, Demo.string, Demo.like_at, Demo.like_at]
  simp only [Spec.series, Option.map_some, List.map_cons, List.map_nil, Par.mk.injEq, Option.some.injEq, List.cons.injEq, Cell.RC.mk.injEq, true_and, and_true]
  refine ⟨?_, ?_, ?_, ⟨⟨?_, ?_⟩, ?_, ?_⟩, ?_⟩
  · funext s t; cases t <;> simp only <;> ring
  · funext s t; ring
  · norm_num
  · funext s t; ring
  · funext s; split <;> norm_num
  · funext s t; ring
  · funext s; split <;> norm_num
  · funext s; ring

/-- The state of the pair in parallel. -/
noncomputable def Demo.pairState : State := { Demo.state with irc := ⟨[2, 2], fun i => if i.getD 0 0 = 0 then 0.2 else 0.4⟩ }

/-- The state of the pair in series. -/
noncomputable def Demo.stringState : State := { Demo.state with hyst := num2 0.002 }

theorem Demo.pairState_sts : Sts 2 Demo.pair Demo.pairState := ⟨Demo.sts.1, Demo.sts.2, .inr rfl, .inl rfl⟩

theorem Demo.stringState_sts : Sts 2 Demo.string Demo.stringState := ⟨Demo.sts.1, Demo.sts.2, .inr rfl, .inl rfl⟩

theorem Demo.pairState_at (b : Nat) : stAt Demo.pairState b = Spec.parallelSt 2 (stAt Demo.state b) := by
  simp only [Spec.parallelSt, stAt, Demo.pairState, St.mk.injEq, true_and, and_true]
  refine ⟨by simp [Demo.state, at2, num2], ?_⟩
  simp [Demo.state, rows, List.range_succ]
  split <;> norm_num

theorem Demo.stringState_at (b : Nat) : stAt Demo.stringState b = Spec.seriesSt 2 (stAt Demo.state b) := by
  simp only [Spec.seriesSt, stAt, Demo.stringState, St.mk.injEq, true_and]
  simp [Demo.state, at2, num2]
  norm_num

/-- C122 fails for tiny currents: two cells in parallel are charged at 0.01 µA each.  The hysteresis of the pack goes to its maximum, that of a cell does
not. -/
theorem C122_parallel_violated : ∃ out out',
    Ecm.run .constant Demo.circuit (Demo.input 0 1e-8) [Demo.input 100 1e-8] Demo.state = .ok out ∧
    Ecm.run .constant Demo.pair (Demo.input 0 2e-8) [Demo.input 100 2e-8] Demo.pairState = .ok out' ∧
    parAt Demo.pair 0 = Spec.parallel 2 (parAt Demo.circuit 0) ∧ stAt Demo.pairState 0 = Spec.parallelSt 2 (stAt Demo.state 0) ∧
    (∀ t, inAt (Demo.input t 2e-8) 0 = Spec.parallelIn 2 (inAt (Demo.input t 1e-8) 0)) ∧ at2 out.hyst 0 ≠ at2 out'.hyst 0 := by
  obtain ⟨o, h⟩ := Demo.runs .constant [(100, 1e-8)] 0 1e-8 (by simp [steps])
  obtain ⟨o', h', _⟩ := Demo.like_runs .constant [(100, 2e-8)] 0 2e-8 (by simp [steps]) Demo.pairState_sts
  have hin : ∀ t, inAt (Demo.input t 2e-8) 0 = Spec.parallelIn 2 (inAt (Demo.input t 1e-8) 0) := fun t => by
    simp [inAt, Spec.parallelIn, Demo.input, at2, num2]; norm_num
  refine ⟨o, o', h, h', Demo.pair_at 0, Demo.pairState_at 0, hin, ?_⟩
  have e1 := (run_rows (by norm_num) Demo.pars (Demo.ins _ _) (by simp [Demo.ins]) Demo.sts h).2 0 (by norm_num)
  have e2 := (run_rows (by norm_num) Demo.like_pars (Demo.ins _ _) (by simp [Demo.ins]) Demo.pairState_sts h').2 0 (by norm_num)
  have d1 := congrArg St.hyst e1
  have d2 := congrArg St.hyst e2
  change at2 o.hyst 0 = hystNext .constant (inAt (Demo.input 0 1e-8) 0) (inAt (Demo.input 100 1e-8) 0) (stAt Demo.state 0) (parAt Demo.circuit 0) at d1
  change at2 o'.hyst 0 = hystNext .constant (inAt (Demo.input 0 2e-8) 0) (inAt (Demo.input 100 2e-8) 0) (stAt Demo.pairState 0) (parAt Demo.pair 0) at d2
  rw [hin, hin, Demo.pair_at, Demo.pairState_at] at d2
  simp only [hystNext, or_true, if_true, kappa_parallel (k := 2) (by norm_num), slope_scale] at d1 d2
  have hcur : (Spec.parallelIn 2 (inAt (Demo.input 0 1e-8) 0)).current = 2 * (inAt (Demo.input 0 1e-8) 0).current := rfl
  rw [hcur, hystAfter_scale_current (by norm_num)] at d2
  have hI : (inAt (Demo.input 0 1e-8) 0).current = 1e-8 := rfl
  have hM : (parAt Demo.circuit 0).hystMax (stAt Demo.state 0).soc = 0.015 := by
    rw [Demo.cell_like, Demo.like_at]
    simp [stAt, at2, Demo.state, Demo.two]; norm_num
  have m1 : hystTarget (inAt (Demo.input 0 1e-8) 0) (stAt Demo.state 0).soc (parAt Demo.circuit 0) = 0.015 * 1e-8 := by
    simp only [hystTarget, hI, hM]
    rw [if_pos (by norm_num)]
  have m2 : hystTarget (Spec.parallelIn 2 (inAt (Demo.input 0 1e-8) 0)) (Spec.parallelSt 2 (stAt Demo.state 0)).soc
      (Spec.parallel 2 (parAt Demo.circuit 0)) = 0.015 := by
    have hM' : (Spec.parallel 2 (parAt Demo.circuit 0)).hystMax (Spec.parallelSt 2 (stAt Demo.state 0)).soc = 0.015 := hM
    simp only [hystTarget, hcur, hI, hM']
    rw [if_neg (by norm_num)]
    norm_num
  have hk : kappa (inAt (Demo.input 0 1e-8) 0) (parAt Demo.circuit 0) = 0.99 * 0.9 / 36000 := by
    rw [Demo.cell_like, Demo.like_at]
    simp only [kappa, eff, inAt, Demo.input, at2, num2]
    norm_num
  have hd : dt (inAt (Demo.input 0 1e-8) 0) (inAt (Demo.input 100 1e-8) 0) = 100 := by
    show (100 : ℝ) - 0 = 100; norm_num
  have hd' : dt (Spec.parallelIn 2 (inAt (Demo.input 0 1e-8) 0)) (Spec.parallelIn 2 (inAt (Demo.input 100 1e-8) 0)) = 100 := hd
  have hh : (Spec.parallelSt 2 (stAt Demo.state 0)).hyst = (stAt Demo.state 0).hyst := rfl
  rw [m1, hk, hd, hI] at d1
  rw [m2, hk, hd', hI, hh] at d2
  rw [d1, d2]
  have hsl : Cell.slope .constant (inAt (Demo.input 0 1e-8) 0) (inAt (Demo.input 100 1e-8) 0) = 0 := rfl
  have hpos : (1e-8 : ℝ) > -(0 * 100) := by norm_num
  rw [hsl]
  simp only [hystAfter, hpos, if_true]
  have hlt : Real.exp (-(0.99 * 0.9 / 36000 * 100 * (1e-8 + 0.5 * 0 * 100))) < 1 := by
    rw [← Real.exp_zero]; exact Real.exp_lt_exp.2 (by norm_num)
  intro hc
  nlinarith

theorem Demo.cell_time_constants (b : Nat) : ∀ rc ∈ (parAt Demo.circuit b).rcs, ∀ s t, rc.r s t * rc.c s ≠ 0 := by
  intro rc hrc s t
  rw [Demo.cell_like, Demo.like_at] at hrc
  simp only [List.mem_cons, List.not_mem_nil, or_false] at hrc
  rcases hrc with rfl | rfl <;> cases t <;> simp only <;> split <;> positivity

-- The pair in parallel and the pair in series through a history of charging, rest and discharging: the hypotheses of both theorems are met.
example (beh : Behavior) : ∃ out out' out'' v v' v'',
    Ecm.run beh Demo.circuit (Demo.input 0 2) [Demo.input 10 0, Demo.input 30 (-4)] Demo.state = .ok out ∧
    Ecm.run beh Demo.pair (Demo.input 0 4) [Demo.input 10 0, Demo.input 30 (-8)] Demo.pairState = .ok out' ∧
    Ecm.run beh Demo.string (Demo.input 0 2) [Demo.input 10 0, Demo.input 30 (-4)] Demo.stringState = .ok out'' ∧
    voltage (Demo.input 30 (-4)) out Demo.circuit = .ok v ∧ voltage (Demo.input 30 (-8)) out' Demo.pair = .ok v' ∧
    voltage (Demo.input 30 (-4)) out'' Demo.string = .ok v'' ∧
    at2 out'.soc 1 = at2 out.soc 1 ∧ at2 v' 1 = at2 v 1 ∧ at2 out''.soc 1 = at2 out.soc 1 ∧ at2 v'' 1 = 2 * at2 v 1 := by
  have hs : ∀ x y z : ℝ, ∀ p ∈ steps ((0 : ℝ), x) [(10, y), (30, z)], p.2.1 ≠ p.1.1 := fun x y z => by simp [steps]
  obtain ⟨o, h, v, hv⟩ := Demo.like_runs beh [(10, 0), (30, -4)] 0 2 (hs _ _ _) Demo.sts
  obtain ⟨o', h', v', hv'⟩ := Demo.like_runs beh [(10, 0), (30, -8)] 0 4 (hs _ _ _) Demo.pairState_sts
  obtain ⟨o'', h'', v'', hv''⟩ := Demo.like_runs beh [(10, 0), (30, -4)] 0 2 (hs _ _ _) Demo.stringState_sts
  have hm : beh = .linear → ∀ x ∈ steps (Demo.input 0 2) [Demo.input 10 0, Demo.input 30 (-4)], at2 x.2.time 1 ≠ at2 x.1.time 1 := by
    intro _ p hp
    simp only [steps, List.zip_cons_cons, List.zip_nil_right, List.mem_cons, List.not_mem_nil, or_false] at hp
    rcases hp with rfl | rfl <;> simp [at2, Demo.input, num2]
  have hqt : at2 Demo.circuit.qt 1 ≠ 0 := by simp [at2, Demo.circuit, Demo.two, rows]
  have hc : ∀ c ∈ Demo.circuit.c0, curveAt c 1 (at2 o.soc 1) ≠ 0 := by
    intro c hc; cases hc
    show (1000 : ℝ) ≠ 0; norm_num
  have hi : ∀ i ∈ Demo.input 0 2 :: [(10, 0), (30, -4)].map (fun p => Demo.input p.1 p.2), Ins 2 i := by simp [Demo.ins]
  have hi' : ∀ i ∈ Demo.input 0 4 :: [(10, 0), (30, -8)].map (fun p => Demo.input p.1 p.2), Ins 2 i := by simp [Demo.ins]
  obtain ⟨g1, g2⟩ := C122_parallel_partial (by norm_num) (by norm_num) Demo.pars hi Demo.sts Demo.like_pars hi' Demo.pairState_sts 1 1 (by norm_num)
    (by norm_num) 2 (by norm_num) (Demo.pair_at 1) (by simp [inAt, Spec.parallelIn, Demo.input, at2, num2]; norm_num) (Demo.pairState_at 1) h h' hv hv' hm hqt
    (Demo.cell_time_constants 1) hc (by
      intro p hp
      simp only [steps, List.map_cons, List.map_nil, List.zip_cons_cons, List.zip_nil_right, List.mem_cons, List.not_mem_nil, or_false] at hp
      rcases hp with rfl | rfl
      · right; simp [at2, Demo.input, num2]; norm_num
      · left; simp [at2, Demo.input, num2])
  obtain ⟨g3, g4⟩ := C122_series (by norm_num) (by norm_num) Demo.pars hi Demo.sts Demo.like_pars hi Demo.stringState_sts 1 1 (by norm_num)
    (by norm_num) 2 (by norm_num) (Demo.string_at 1) rfl (Demo.stringState_at 1) h h'' hv hv'' hm hqt (Demo.cell_time_constants 1) hc
  exact ⟨o, o', o'', v, v', v'', h, h', h'', hv, hv', hv'', congrArg St.soc g1, g2, congrArg St.soc g3, g4⟩

end Verif
