import Verif.Props.EcmStep
import Mathlib.Analysis.SpecialFunctions.Exp
import Mathlib.Topology.Algebra.Order.Field
/-!
# A cell at rest (C96)
-/

namespace Verif.Cell
open Verif Nd Ecm

/-! ## One cell -/

theorem hystAfter_zero (h0 M κ d : ℝ) : hystAfter h0 M κ d 0 0 = h0 := by
  simp [hystAfter]

theorem slope_rest {beh : Behavior} {prev new : In} (hp : prev.current = 0) (hn : new.current = 0) : slope beh prev new = 0 := by
  cases beh with
  | constant => rfl
  | linear => simp [slope, hp, hn]

/-- One step without current. -/
theorem step_rest {beh : Behavior} {prev new : In} {s : St} {p : Par} (hp : prev.current = 0) (hn : new.current = 0) :
    step beh prev new s p = { s with
      irc := List.zipWith (fun rc i => i * Real.exp (-(new.time - prev.time) / (rc.r s.soc prev.temp * rc.c s.soc))) p.rcs s.irc } := by
  have hsl := slope_rest (beh := beh) hp hn
  have hch : charge beh prev new = 0 := by simp [charge, hsl, hp]
  cases s with
  | mk soc q0 irc hyst =>
    simp only [step, hch, zero_div, mul_zero, add_zero, St.mk.injEq, true_and]
    refine ⟨by cases q0 <;> rfl, ?_, ?_⟩
    · congr 1
      funext rc i
      simp only [rcNext, hsl, hn, dt]
      ring
    · simp only [hystNext, hsl, hp, hn, mul_zero, ge_iff_le, le_refl, true_or, if_true]
      exact hystAfter_zero _ _ _ _

theorem zipWith_zipWith_same {α β γ δ : Type} (f : α → γ → δ) (g : α → β → γ) : ∀ (l : List α) (m : List β),
    List.zipWith f l (List.zipWith g l m) = List.zipWith (fun a b => f a (g a b)) l m := by
  intro l
  induction l with
  | nil => intro m; rfl
  | cons a l ih =>
    intro m
    cases m with
    | nil => rfl
    | cons b m => simp only [List.zipWith_cons_cons, ih]

/-- The time of the last input. -/
def endTime : In → List In → ℝ
  | u, [] => u.time
  | _, v :: us => endTime v us

theorem run_rest {beh : Behavior} {p : Par} : ∀ {us : List In} {u : In} {s : St}, (∀ i ∈ u :: us, i.current = 0) →
    (∀ i ∈ us, i.temp = u.temp) → s.irc.length = p.rcs.length →
    run beh p u us s = { s with
      irc := List.zipWith (fun rc i => i * Real.exp (-(endTime u us - u.time) / (rc.r s.soc u.temp * rc.c s.soc))) p.rcs s.irc } := by
  intro us
  induction us with
  | nil =>
    intro u s _ _ hl
    have e : List.zipWith (fun (rc : RC) i => i * Real.exp (-(endTime u [] - u.time) / (rc.r s.soc u.temp * rc.c s.soc))) p.rcs s.irc
        = s.irc := by
      simp only [endTime, sub_self, neg_zero, zero_div, Real.exp_zero, mul_one]
      generalize p.rcs = l at hl ⊢
      generalize s.irc = m at hl ⊢
      induction l generalizing m with
      | nil => cases m with
        | nil => rfl
        | cons _ _ => simp at hl
      | cons a l ih => cases m with
        | nil => rfl
        | cons b m => simp only [List.zipWith_cons_cons, ih m (by simpa using hl)]
    rw [e]
    rfl
  | cons v us ih =>
    intro u s hI hT hl
    have hv : v.temp = u.temp := hT v (by simp)
    unfold run
    rw [step_rest (hI u (by simp)) (hI v (by simp)), ih (fun i hi => hI i (List.mem_cons_of_mem _ hi))
      (fun i hi => (hT i (List.mem_cons_of_mem _ hi)).trans hv.symm) (by simp [hl])]
    simp only [St.mk.injEq, true_and, and_true, zipWith_zipWith_same, hv]
    congr 1
    funext rc i
    rw [mul_assoc, ← Real.exp_add, endTime]
    congr 2
    ring

/-! ## Batches -/

/-- The last input of a sequence. -/
def lastInput : Input → List Input → Input
  | u, [] => u
  | _, v :: us => lastInput v us

theorem endTime_eq (b : Nat) : ∀ (us : List Input) (u : Input), endTime (inAt u b) (us.map (inAt · b)) = at2 (lastInput u us).time b := by
  intro us
  induction us with
  | nil => intro u; rfl
  | cons v us ih => intro u; exact ih v

theorem lastInput_mem : ∀ (us : List Input) (u : Input), lastInput u us ∈ u :: us := by
  intro us
  induction us with
  | nil => intro u; exact List.mem_cons_self
  | cons v us ih => intro u; exact List.mem_cons_of_mem _ (ih v)

/-- Duration of a sequence of inputs for member `b`. -/
noncomputable def duration (u : Input) (us : List Input) (b : Nat) : ℝ := at2 (lastInput u us).time b - at2 u.time b

/-- Member `b` is at rest: no current at any time, and the same temperature (or none measured) throughout. -/
structure Resting (u : Input) (us : List Input) (b : Nat) : Prop where
  current : ∀ i ∈ u :: us, at2 i.current b = 0
  temp : ∀ i ∈ us, i.temp.map (at2 · b) = u.temp.map (at2 · b)

/-- C96: over any rest, of any number of steps, the SOC, the charge of the series capacitor and the hysteresis of a cell stay as they
are, and the current of every RC element falls by the factor `exp(-duration/τ)`. -/
theorem C96_rest_decay {B : Nat} (hB : 0 < B) {beh : Behavior} {a : ASOH} {u : Input} {us : List Input} {st st' : State}
    (ha : Pars B a) (hu : ∀ i ∈ u :: us, Ins B i) (hs : Sts B a st) (h : Ecm.run beh a u us st = .ok st')
    (b : Nat) (hb : b < B) (hrest : Resting u us b)
    (_hmove : beh = .linear → ∀ p ∈ steps u us, at2 p.2.time b ≠ at2 p.1.time b)
    (_hτ : at2 a.qt b ≠ 0 ∧ ∀ rc ∈ a.rcs, tauAt rc u st b ≠ 0) :
    at2 st'.soc b = at2 st.soc b ∧ st'.q0.map (at2 · b) = st.q0.map (at2 · b) ∧ at2 st'.hyst b = at2 st.hyst b ∧
      ∀ j (hj : j < a.rcs.length),
        ircAt st' b j = ircAt st b j * Real.exp (-duration u us b / tauAt a.rcs[j] u st b) := by
  obtain ⟨g1, g2⟩ := run_rows hB ha (hu u (by simp)) (fun i hi => hu i (by simp [hi])) hs h
  have e := g2 b hb
  rw [run_rest] at e
  · have e1 := congrArg St.soc e
    have e2 := congrArg St.q0 e
    have e3 := congrArg St.hyst e
    have e4 := congrArg St.irc e
    refine ⟨e1, e2, e3, fun j hj => ?_⟩
    simp only at e4
    rw [irc_list hs, irc_list g1, endTime_eq] at e4
    have := congrArg (fun l => l[j]?) e4
    simp only [parAt, List.getElem?_map, List.getElem?_range hj, Option.map_some, List.getElem?_zipWith,
      List.getElem?_eq_getElem hj, Option.some.injEq] at this
    exact this
  · intro i hi
    have : i ∈ (u :: us).map (inAt · b) := by simpa using hi
    obtain ⟨k, hk, rfl⟩ := List.mem_map.1 this
    exact hrest.current k hk
  · intro i hi
    obtain ⟨k, hk, rfl⟩ := List.mem_map.1 hi
    exact hrest.temp k hk
  · rw [irc_list hs]; simp [parAt]

/-- What is left of the terminal voltage of member `b` after a long rest: the open-circuit voltage, the voltage of the series
capacitor and the hysteresis. -/
noncomputable def restVoltage (a : ASOH) (u : Input) (st : State) (b : Nat) : ℝ :=
  ocvAt a.ocv b (at2 st.soc b) (u.temp.map (at2 · b)) + seriesAt st a b + at2 st.hyst b

/-- C96: the terminal voltage after a rest of any number of steps is the open-circuit voltage, the voltage of the series capacitor and
the hysteresis, plus what the RC elements still hold. -/
theorem C96_rest_voltage {B : Nat} (hB : 0 < B) {beh : Behavior} {a : ASOH} {u : Input} {us : List Input} {st st' : State} {v : Nd ℝ}
    (ha : Pars B a) (hu : ∀ i ∈ u :: us, Ins B i) (hs : Sts B a st) (h : Ecm.run beh a u us st = .ok st')
    (hv : voltage (lastInput u us) st' a = .ok v) (b : Nat) (hb : b < B) (hrest : Resting u us b)
    (hmove : beh = .linear → ∀ p ∈ steps u us, at2 p.2.time b ≠ at2 p.1.time b)
    (hτ : at2 a.qt b ≠ 0 ∧ ∀ rc ∈ a.rcs, tauAt rc u st b ≠ 0) (hc : ∀ c ∈ a.c0, curveAt c b (at2 st.soc b) ≠ 0) :
    at2 v b = restVoltage a u st b + ∑ j : Fin a.rcs.length, ircAt st b j * Real.exp (-duration u us b / tauAt a.rcs[j] u st b) *
      resAt a.rcs[j].r b (at2 st.soc b) (u.temp.map (at2 · b)) := by
  obtain ⟨d1, d2, d3, d4⟩ := C96_rest_decay hB ha hu hs h b hb hrest hmove hτ
  obtain ⟨g1, _⟩ := run_rows hB ha (hu u (by simp)) (fun i hi => hu i (by simp [hi])) hs h
  have hmem := lastInput_mem us u
  have ht : (lastInput u us).temp.map (at2 · b) = u.temp.map (at2 · b) := by
    rcases List.mem_cons.1 hmem with e | e
    · rw [e]
    · exact hrest.temp _ e
  rw [C27_voltage_sum hB ha (hu _ hmem) g1 hv b hb (by rw [d1]; exact hc), hrest.current _ hmem, d1, d3, ht, zero_mul, add_zero]
  have hse : seriesAt st' a b = seriesAt st a b := by
    unfold seriesAt
    revert d2
    cases st'.q0 <;> cases st.q0 <;> intro d2 <;> first
      | rfl
      | (simp at d2; done)
      | (simp only [Option.map_some, Option.some.injEq] at d2; cases a.c0 <;> simp only [d1, d2])
  rw [hse]
  simp only [fun j : Fin a.rcs.length => d4 j j.2]
  unfold restVoltage
  rw [add_right_comm]
  rfl

/-- C96: a cell at rest relaxes: however close to the limit, there is a duration such that after every rest that lasts longer, whatever
the steps into which it is divided, the terminal voltage is that close to the open-circuit voltage plus the voltage of the series
capacitor plus the hysteresis. -/
theorem C96_relaxes {B : Nat} (hB : 0 < B) (beh : Behavior) {a : ASOH} {u : Input} {st : State}
    (ha : Pars B a) (hs : Sts B a st) (b : Nat) (hb : b < B)
    (hτ : at2 a.qt b ≠ 0 ∧ ∀ rc ∈ a.rcs, 0 < tauAt rc u st b) (hc : ∀ c ∈ a.c0, curveAt c b (at2 st.soc b) ≠ 0)
    (ε : ℝ) (hε : 0 < ε) :
    ∃ D, ∀ us st' v, (∀ i ∈ u :: us, Ins B i) → Resting u us b →
      (beh = .linear → ∀ p ∈ steps u us, at2 p.2.time b ≠ at2 p.1.time b) → D ≤ duration u us b →
      Ecm.run beh a u us st = .ok st' → voltage (lastInput u us) st' a = .ok v → |at2 v b - restVoltage a u st b| < ε := by
  have hlim : Filter.Tendsto (fun d : ℝ => ∑ j : Fin a.rcs.length, ircAt st b j * Real.exp (-d / tauAt a.rcs[j] u st b) *
      resAt a.rcs[j].r b (at2 st.soc b) (u.temp.map (at2 · b))) Filter.atTop (nhds 0) := by
    rw [show (0 : ℝ) = ∑ j : Fin a.rcs.length, ircAt st b j * 0 *
      resAt a.rcs[j].r b (at2 st.soc b) (u.temp.map (at2 · b)) by simp]
    refine tendsto_finset_sum _ fun j _ => ?_
    refine Filter.Tendsto.mul_const _ (Filter.Tendsto.const_mul _ ?_)
    have hp := hτ.2 a.rcs[j] (List.getElem_mem _)
    have : (fun d : ℝ => Real.exp (-d / tauAt a.rcs[j] u st b)) = fun d => Real.exp (-(d / tauAt a.rcs[j] u st b)) := by
      funext d; rw [neg_div]
    rw [this]
    exact Real.tendsto_exp_neg_atTop_nhds_zero.comp (Filter.tendsto_id.atTop_div_const hp)
  obtain ⟨D, hD⟩ := (Metric.tendsto_atTop.1 hlim) ε hε
  refine ⟨D, fun us st' v hu hrest hmove hd h hv => ?_⟩
  rw [C96_rest_voltage hB ha hu hs h hv b hb hrest hmove ⟨hτ.1, fun rc hrc => (hτ.2 rc hrc).ne'⟩ hc, add_sub_cancel_left]
  simpa [Real.dist_eq] using hD _ hd

/-! ## Concrete cases -/

theorem demo_tau_pos (t i : ℝ) : ∀ rc ∈ Demo.circuit.rcs, 0 < tauAt rc (Demo.input t i) Demo.state 1 := by
  intro rc hrc
  simp only [Demo.circuit, List.mem_cons, List.not_mem_nil, or_false] at hrc
  rcases hrc with rfl | rfl <;>
    · simp only [tauAt, Demo.input, Option.map_some, resAt, Demo.res, curveAt, Demo.flat, Interp.width, Interp.rows, num2, Demo.two,
        List.getD_cons_zero, List.getD_cons_succ, if_true]
      norm_num
      positivity

-- Member 1 of the two-cell circuit rests for as long as one likes, in two steps: the hypotheses of the three theorems are met.
example (D : ℝ) (hD : 1 < D) : ∃ st' v, Ecm.run .linear Demo.circuit (Demo.input 0 0) [Demo.input 1 0, Demo.input D 0] Demo.state = .ok st' ∧
    voltage (lastInput (Demo.input 0 0) [Demo.input 1 0, Demo.input D 0]) st' Demo.circuit = .ok v ∧
    Resting (Demo.input 0 0) [Demo.input 1 0, Demo.input D 0] 1 ∧ D ≤ duration (Demo.input 0 0) [Demo.input 1 0, Demo.input D 0] 1 ∧
    (∀ p ∈ steps (Demo.input 0 0) [Demo.input 1 0, Demo.input D 0], at2 p.2.time 1 ≠ at2 p.1.time 1) ∧
    at2 Demo.circuit.qt 1 ≠ 0 ∧ (∀ rc ∈ Demo.circuit.rcs, 0 < tauAt rc (Demo.input 0 0) Demo.state 1) ∧
    (∀ c ∈ Demo.circuit.c0, curveAt c 1 (at2 Demo.state.soc 1) ≠ 0) ∧ ircAt Demo.state 1 0 ≠ 0 := by
  obtain ⟨s, h⟩ := Demo.runs .linear [(1, 0), (D, 0)] 0 0 (by
    intro p hp
    simp only [steps, List.zip_cons_cons, List.zip_nil_right, List.mem_cons, List.not_mem_nil, or_false] at hp
    rcases hp with rfl | rfl
    · norm_num
    · exact hD.ne')
  have hs' := (run_rows (by norm_num) Demo.pars (Demo.ins _ _) (by
    intro x hx; obtain ⟨p, _, rfl⟩ := List.mem_map.1 hx; exact Demo.ins _ _) Demo.sts h).1
  obtain ⟨v, hv⟩ := voltage_ok (by norm_num) Demo.pars (Demo.ins D 0) hs' (demo_canVoltage _ _ _)
  refine ⟨s, v, h, hv, ⟨?_, ?_⟩, ?_, ?_, ?_, demo_tau_pos _ _, ?_, ?_⟩
  · intro i hi
    simp only [List.mem_cons, List.not_mem_nil, or_false] at hi
    rcases hi with rfl | rfl | rfl <;> rfl
  · intro i hi
    simp only [List.mem_cons, List.not_mem_nil, or_false] at hi
    rcases hi with rfl | rfl <;> rfl
  · simp [duration, lastInput, at2, Demo.input, num2]
  · intro p hp
    simp only [steps, List.zip_cons_cons, List.zip_nil_right, List.mem_cons, List.not_mem_nil, or_false] at hp
    rcases hp with rfl | rfl
    · simp [at2, Demo.input, num2]
    · simp only [at2, Demo.input, num2]; exact hD.ne'
  · simp [at2, Demo.circuit, Demo.two, rows]
  · intro c hc; cases hc
    show (1000 : ℝ) ≠ 0; norm_num
  · simp [ircAt, Demo.state, rows]; norm_num

end Verif.Cell
