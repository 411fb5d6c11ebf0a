import Verif.Spec.DemoCell
import Mathlib.Tactic.Linarith
import Mathlib.Tactic.FieldSimp
import Mathlib.Tactic.Ring
/-!
# Charge bookkeeping of the equivalent circuit (C18–C20)

`Ecm.run` repeats the array-level `update_transient_state`; `at2 x b` reads member `b` of a batched value; `steps u us` are the
consecutive pairs of the input sequence.  `Pars`, `Ins` and `Sts` only say that every quantity is unbatched or has `B` rows.
-/

namespace Verif.Cell
open Verif Nd Ecm

/-- Efficiency of a step for member `b`: 1 when the previous current is negative, the configured one otherwise. -/
noncomputable def effAt (a : ASOH) (prev : Input) (b : Nat) : ℝ := if at2 prev.current b < 0 then 1 else at2 a.ce b

/-- Charge of a step for member `b`: previous current times duration, or the trapezoid. -/
noncomputable def chargeAt (beh : Behavior) (prev new : Input) (b : Nat) : ℝ :=
  match beh with
  | .constant => at2 prev.current b * (at2 new.time b - at2 prev.time b)
  | .linear => (at2 prev.current b + at2 new.current b) / 2 * (at2 new.time b - at2 prev.time b)

theorem charge_eq {beh : Behavior} {prev new : Input} {b : Nat}
    (h : beh = .linear → at2 new.time b ≠ at2 prev.time b) :
    charge beh (inAt prev b) (inAt new b) = chargeAt beh prev new b := by
  cases beh with
  | constant => simp only [charge, slope, chargeAt, dt, inAt]; ring
  | linear =>
    have := sub_ne_zero.2 (h rfl)
    simp only [charge, slope, chargeAt, dt, inAt]
    field_simp
    ring

theorem run_soc {beh : Behavior} {p : Par} : ∀ {us : List In} {u : In} {s : St},
    (run beh p u us s).soc = s.soc + ((steps u us).map fun q => eff q.1 p * charge beh q.1 q.2 / (3600 * p.qt)).sum := by
  intro us
  induction us with
  | nil => intro u s; simp [run, steps]
  | cons v us ih =>
    intro u s
    rw [run, ih, steps_cons]
    simp only [step, List.map_cons, List.sum_cons]
    ring

theorem run_q0 {beh : Behavior} {p : Par} : ∀ {us : List In} {u : In} {s : St},
    (run beh p u us s).q0 = s.q0.map (· + ((steps u us).map fun q => charge beh q.1 q.2).sum) := by
  intro us
  induction us with
  | nil => intro u s; simp [run, steps]
  | cons v us ih =>
    intro u s
    rw [run, ih, steps_cons]
    simp only [step, List.map_cons, List.sum_cons]
    cases s.q0 <;> simp [add_assoc]

theorem steps_map {α β : Type} (f : α → β) : ∀ (us : List α) (u : α),
    steps (f u) (us.map f) = (steps u us).map fun q => (f q.1, f q.2) := by
  intro us
  induction us with
  | nil => intro u; rfl
  | cons v us ih => intro u; rw [List.map_cons, steps_cons, ih, steps_cons]; rfl

theorem soc_history {B : Nat} (hB : 0 < B) {beh : Behavior} {a : ASOH} {u : Input} {us : List Input} {st st' : State}
    (ha : Pars B a) (hu : ∀ i ∈ u :: us, Ins B i) (hs : Sts B a st) {b : Nat} (hb : b < B)
    (hmove : beh = .linear → ∀ p ∈ steps u us, at2 p.2.time b ≠ at2 p.1.time b)
    (h : Ecm.run beh a u us st = .ok st') :
    at2 st'.soc b = at2 st.soc b +
      ((steps u us).map fun p => effAt a p.1 b * chargeAt beh p.1 p.2 b / (3600 * at2 a.qt b)).sum := by
  obtain ⟨_, h2⟩ := run_rows hB ha (hu u (by simp)) (fun i hi => hu i (by simp [hi])) hs h
  have e := congrArg St.soc (h2 b hb)
  rw [run_soc, steps_map (inAt · b), List.map_map] at e
  refine e.trans ?_
  show _ + _ = _ + _
  congr 2
  apply List.map_congr_left
  intro p hp
  show eff (inAt p.1 b) (parAt a b) * charge beh (inAt p.1 b) (inAt p.2 b) / (3600 * at2 a.qt b) = _
  rw [charge_eq fun hl => hmove hl p hp]
  rfl

/-- C18, constant behaviour: after any sequence of inputs, the SOC of every member is its initial SOC plus the sum over steps of
`eff · I · dt / (3600 Qt)` with `I` the previous input's current. -/
theorem C18_coulomb_counting_constant {B : Nat} (hB : 0 < B) {a : ASOH} {u : Input} {us : List Input} {st st' : State}
    (ha : Pars B a) (hu : ∀ i ∈ u :: us, Ins B i) (hs : Sts B a st) (h : Ecm.run .constant a u us st = .ok st')
    (b : Nat) (hb : b < B) (_hq : at2 a.qt b ≠ 0) :
    at2 st'.soc b = at2 st.soc b + ((steps u us).map fun p =>
      (if at2 p.1.current b < 0 then 1 else at2 a.ce b) * (at2 p.1.current b * (at2 p.2.time b - at2 p.1.time b)) /
        (3600 * at2 a.qt b)).sum :=
  soc_history hB ha hu hs hb (fun h => by cases h) h

/-- C18, linear behaviour: the trapezoid replaces the previous current.  Consecutive times must differ (the slope of the
current is undefined otherwise). -/
theorem C18_coulomb_counting_linear {B : Nat} (hB : 0 < B) {a : ASOH} {u : Input} {us : List Input} {st st' : State}
    (ha : Pars B a) (hu : ∀ i ∈ u :: us, Ins B i) (hs : Sts B a st) (h : Ecm.run .linear a u us st = .ok st')
    (b : Nat) (hb : b < B) (hmove : ∀ p ∈ steps u us, at2 p.2.time b ≠ at2 p.1.time b) (_hq : at2 a.qt b ≠ 0) :
    at2 st'.soc b = at2 st.soc b + ((steps u us).map fun p =>
      (if at2 p.1.current b < 0 then 1 else at2 a.ce b) *
        ((at2 p.1.current b + at2 p.2.current b) / 2 * (at2 p.2.time b - at2 p.1.time b)) / (3600 * at2 a.qt b)).sum :=
  soc_history hB ha hu hs hb (fun _ => hmove) h

-- Both theorems apply to a run of the two-cell circuit through charge, rest and discharge.
example : ∃ st', Ecm.run .constant Demo.circuit (Demo.input 0 1) (([(10, 0), (20, -2), (35, 1)] : List (ℝ × ℝ)).map fun p => Demo.input p.1 p.2)
    Demo.state = .ok st' ∧ at2 Demo.circuit.qt 1 ≠ 0 := by
  obtain ⟨s, h⟩ := Demo.runs .constant [(10, 0), (20, -2), (35, 1)] 0 1 (by norm_num [steps])
  exact ⟨s, h, by norm_num [at2, rows, Demo.circuit, Demo.two]⟩

example : ∃ st', Ecm.run .linear Demo.circuit (Demo.input 0 1) (([(10, 0), (20, -2), (35, 1)] : List (ℝ × ℝ)).map fun p => Demo.input p.1 p.2)
    Demo.state = .ok st' ∧ at2 Demo.circuit.qt 1 ≠ 0 := by
  obtain ⟨s, h⟩ := Demo.runs .linear [(10, 0), (20, -2), (35, 1)] 0 1 (by norm_num [steps])
  exact ⟨s, h, by norm_num [at2, rows, Demo.circuit, Demo.two]⟩

/-! ## C19 -/

theorem sum_le_sum {α : Type} {f g : α → ℝ} : ∀ {l : List α}, (∀ x ∈ l, f x ≤ g x) → (l.map f).sum ≤ (l.map g).sum := by
  intro l
  induction l with
  | nil => intro _; simp
  | cons x l ih =>
    intro h
    simp only [List.map_cons, List.sum_cons]
    exact add_le_add (h x (by simp)) (ih fun y hy => h y (by simp [hy]))

/-- C19, one step: the SOC change uses efficiency 1 exactly when the previous current is negative. -/
theorem C19_efficiency_rule {B : Nat} (hB : 0 < B) {beh : Behavior} {a : ASOH} {prev new : Input} {st st' : State}
    (ha : Pars B a) (hp : Ins B prev) (hn : Ins B new) (hs : Sts B a st) (h : update beh prev new st a = .ok st')
    (b : Nat) (hb : b < B) (hmove : beh = .linear → at2 new.time b ≠ at2 prev.time b) (_hq : at2 a.qt b ≠ 0) :
    (at2 prev.current b < 0 → at2 st'.soc b - at2 st.soc b = chargeAt beh prev new b / (3600 * at2 a.qt b)) ∧
    (0 ≤ at2 prev.current b → at2 st'.soc b - at2 st.soc b =
      at2 a.ce b * (chargeAt beh prev new b / (3600 * at2 a.qt b))) := by
  have h' : Ecm.run beh a prev [new] st = .ok st' := by simp [Ecm.run, h, bind, Except.bind]
  have e := soc_history hB ha (us := [new]) (by simp [hp, hn]) hs hb (by simpa [steps] using hmove) h'
  simp only [steps, List.zip_cons_cons, List.zip_nil_right, List.map_cons, List.map_nil, List.sum_cons, List.sum_nil,
    effAt, add_zero] at e
  constructor
  · intro hneg
    rw [e, if_pos hneg]; ring
  · intro hpos
    rw [e, if_neg (not_lt.2 hpos)]; ring

/-- C19, any history under constant behaviour: with `0 ≤ CE ≤ 1` the SOC gained never exceeds the net charge put in.  In
particular a charge followed by an equal discharge (net charge 0) never gains SOC. -/
theorem C19_never_gains_constant {B : Nat} (hB : 0 < B) {a : ASOH} {u : Input} {us : List Input} {st st' : State}
    (ha : Pars B a) (hu : ∀ i ∈ u :: us, Ins B i) (hs : Sts B a st) (h : Ecm.run .constant a u us st = .ok st')
    (b : Nat) (hb : b < B) (hq : 0 < at2 a.qt b) (_hce0 : 0 ≤ at2 a.ce b) (hce1 : at2 a.ce b ≤ 1)
    (htime : ∀ p ∈ steps u us, at2 p.1.time b ≤ at2 p.2.time b) :
    at2 st'.soc b ≤ at2 st.soc b +
      ((steps u us).map fun p => at2 p.1.current b * (at2 p.2.time b - at2 p.1.time b)).sum / (3600 * at2 a.qt b) := by
  rw [soc_history hB ha hu hs hb (fun h => by cases h) h]
  have e : ∀ l : List (Input × Input), (l.map fun p => at2 p.1.current b * (at2 p.2.time b - at2 p.1.time b)).sum /
      (3600 * at2 a.qt b) = (l.map fun p => at2 p.1.current b * (at2 p.2.time b - at2 p.1.time b) / (3600 * at2 a.qt b)).sum := by
    intro l
    induction l with
    | nil => simp
    | cons x l ih => simp only [List.map_cons, List.sum_cons, ← ih]; ring
  rw [e]
  gcongr
  apply sum_le_sum
  intro p hp
  have ht := sub_nonneg.2 (htime p hp)
  simp only [chargeAt, effAt]
  refine div_le_div_of_nonneg_right ?_ (by positivity)
  split
  · rw [one_mul]
  · rename_i hi
    have : 0 ≤ at2 p.1.current b * (at2 p.2.time b - at2 p.1.time b) := mul_nonneg (not_lt.1 hi) ht
    nlinarith

/-- C19, charge then equal discharge: constant behaviour, three inputs. -/
theorem C19_charge_then_discharge {B : Nat} (hB : 0 < B) {a : ASOH} {u0 u1 u2 : Input} {st st' : State}
    (ha : Pars B a) (hu : Ins B u0 ∧ Ins B u1 ∧ Ins B u2) (hs : Sts B a st)
    (h : Ecm.run .constant a u0 [u1, u2] st = .ok st')
    (b : Nat) (hb : b < B) (hq : 0 < at2 a.qt b) (hce0 : 0 ≤ at2 a.ce b) (hce1 : at2 a.ce b ≤ 1)
    (ht : at2 u0.time b ≤ at2 u1.time b ∧ at2 u1.time b ≤ at2 u2.time b)
    (hequal : at2 u0.current b * (at2 u1.time b - at2 u0.time b) + at2 u1.current b * (at2 u2.time b - at2 u1.time b) = 0) :
    at2 st'.soc b ≤ at2 st.soc b := by
  have e := C19_never_gains_constant hB ha (us := [u1, u2]) (by simp [hu]) hs h b hb hq hce0 hce1 (by simpa [steps] using ht)
  simp only [steps, List.zip_cons_cons, List.zip_nil_right, List.map_cons, List.map_nil, List.sum_cons, List.sum_nil, add_zero,
    hequal, zero_div] at e
  exact e

/-- C19, linear behaviour, any history: the same bound, provided no step that starts with a non-negative current has a
negative net charge (the full claim fails then, see `C19_linear_gains`). -/
theorem C19_never_gains_linear_partial {B : Nat} (hB : 0 < B) {a : ASOH} {u : Input} {us : List Input} {st st' : State}
    (ha : Pars B a) (hu : ∀ i ∈ u :: us, Ins B i) (hs : Sts B a st) (h : Ecm.run .linear a u us st = .ok st')
    (b : Nat) (hb : b < B) (hq : 0 < at2 a.qt b) (_hce0 : 0 ≤ at2 a.ce b) (hce1 : at2 a.ce b ≤ 1)
    (htime : ∀ p ∈ steps u us, at2 p.1.time b < at2 p.2.time b)
    (hsign : ∀ p ∈ steps u us, 0 ≤ at2 p.1.current b → 0 ≤ at2 p.1.current b + at2 p.2.current b) :
    at2 st'.soc b ≤ at2 st.soc b + ((steps u us).map fun p =>
      (at2 p.1.current b + at2 p.2.current b) / 2 * (at2 p.2.time b - at2 p.1.time b) / (3600 * at2 a.qt b)).sum := by
  rw [soc_history hB ha hu hs hb (fun _ p hp => (htime p hp).ne') h]
  gcongr
  apply sum_le_sum
  intro p hp
  have ht := sub_nonneg.2 (htime p hp).le
  simp only [chargeAt, effAt]
  refine div_le_div_of_nonneg_right ?_ (by positivity)
  split
  · rw [one_mul]
  · rename_i hi
    have : 0 ≤ (at2 p.1.current b + at2 p.2.current b) / 2 * (at2 p.2.time b - at2 p.1.time b) :=
      mul_nonneg (by have := hsign p hp (not_lt.1 hi); linarith) ht
    nlinarith

/-- C19 fails under linear behaviour: two ramps, −1 → 3 A and 3 → −5 A over one second each, put in +1 C and −1 C, and the SOC
ends higher although the efficiency is 0.99 — the first ramp counts as discharging, the second as charging. -/
theorem C19_linear_gains : ∃ st', Ecm.run .linear Demo.circuit (Demo.input 0 (-1)) [Demo.input 1 3, Demo.input 2 (-5)]
    Demo.state = .ok st' ∧
    chargeAt .linear (Demo.input 0 (-1)) (Demo.input 1 3) 0 + chargeAt .linear (Demo.input 1 3) (Demo.input 2 (-5)) 0 = 0 ∧
    at2 st'.soc 0 > at2 Demo.state.soc 0 := by
  obtain ⟨s, h⟩ := Demo.runs .linear [(1, 3), (2, -5)] 0 (-1) (by norm_num [steps])
  refine ⟨s, h, ?_, ?_⟩
  · simp only [chargeAt, Demo.input, at2, rows, num2, List.getD_cons_zero]; norm_num
  · have e := soc_history (by norm_num) Demo.pars (us := [Demo.input 1 3, Demo.input 2 (-5)]) (by
      intro i hi
      simp only [List.mem_cons, List.not_mem_nil, or_false] at hi
      rcases hi with rfl | rfl | rfl <;> exact Demo.ins _ _) Demo.sts (b := 0) (by norm_num)
      (by intro _; simp [steps, at2, Demo.input, num2]) h
    rw [e]
    simp only [steps, List.zip_cons_cons, List.zip_nil_right, List.map_cons, List.map_nil, List.sum_cons, List.sum_nil,
      effAt, chargeAt, Demo.input, Demo.circuit, Demo.two, at2, rows, num2, List.getD_cons_zero]
    norm_num

-- A charge of 10 C followed by a discharge of 10 C, and a history the linear theorem covers.
example : ∃ st', Ecm.run .constant Demo.circuit (Demo.input 0 1) [Demo.input 10 (-2), Demo.input 15 0] Demo.state = .ok st' ∧
    0 < at2 Demo.circuit.qt 0 ∧ 0 ≤ at2 Demo.circuit.ce 0 ∧ at2 Demo.circuit.ce 0 ≤ 1 ∧
    at2 (Demo.input 0 1).current 0 * (at2 (Demo.input 10 (-2)).time 0 - at2 (Demo.input 0 1).time 0) +
      at2 (Demo.input 10 (-2)).current 0 * (at2 (Demo.input 15 0).time 0 - at2 (Demo.input 10 (-2)).time 0) = 0 := by
  obtain ⟨s, h⟩ := Demo.runs .constant [(10, -2), (15, 0)] 0 1 (by norm_num [steps])
  refine ⟨s, h, ?_⟩
  simp only [Demo.input, Demo.circuit, Demo.two, at2, rows, num2, List.getD_cons_zero]
  norm_num

example : ∃ st', Ecm.run .linear Demo.circuit (Demo.input 0 1) [Demo.input 10 0, Demo.input 20 4] Demo.state = .ok st' ∧
    ∀ p ∈ steps (Demo.input 0 1) [Demo.input 10 0, Demo.input 20 4],
      at2 p.1.time 0 < at2 p.2.time 0 ∧ (0 ≤ at2 p.1.current 0 → 0 ≤ at2 p.1.current 0 + at2 p.2.current 0) := by
  obtain ⟨s, h⟩ := Demo.runs .linear [(10, 0), (20, 4)] 0 1 (by norm_num [steps])
  refine ⟨s, h, ?_⟩
  intro p hp
  simp only [steps, List.zip_cons_cons, List.zip_nil_right, List.mem_cons, List.not_mem_nil, or_false] at hp
  rcases hp with rfl | rfl <;> simp only [Demo.input, at2, rows, num2, List.getD_cons_zero] <;> norm_num

/-! ## C20 -/

/-- C20: after any history the charge of the series capacitor is its initial value plus the charge of every step, without any
efficiency; it stays absent when there is none. -/
theorem C20_series_capacitor_charge {B : Nat} (hB : 0 < B) {beh : Behavior} {a : ASOH} {u : Input} {us : List Input}
    {st st' : State} (ha : Pars B a) (hu : ∀ i ∈ u :: us, Ins B i) (hs : Sts B a st)
    (h : Ecm.run beh a u us st = .ok st')
    (hmove : beh = .linear → ∀ b < B, ∀ p ∈ steps u us, at2 p.2.time b ≠ at2 p.1.time b) :
    (st.q0 = none → st'.q0 = none) ∧
    (∀ q, st.q0 = some q → ∃ q', st'.q0 = some q' ∧ ∀ b < B,
      at2 q' b = at2 q b + ((steps u us).map fun p => chargeAt beh p.1 p.2 b).sum) := by
  obtain ⟨_, h2⟩ := run_rows hB ha (hu u (by simp)) (fun i hi => hu i (by simp [hi])) hs h
  have e : ∀ b < B, st'.q0.map (at2 · b) =
      (st.q0.map (at2 · b)).map (· + ((steps u us).map fun p => chargeAt beh p.1 p.2 b).sum) := by
    intro b hb
    have e := congrArg St.q0 (h2 b hb)
    rw [run_q0, steps_map (inAt · b), List.map_map] at e
    refine e.trans ?_
    show Option.map _ (st.q0.map (at2 · b)) = _
    congr 2
    funext x
    congr 2
    apply List.map_congr_left
    intro p hp
    exact charge_eq fun hl => hmove hl b hb p hp
  constructor
  · intro hn
    have := e 0 hB
    rw [hn] at this
    simpa using this
  · intro q hq
    cases hq' : st'.q0 with
    | none => have := e 0 hB; rw [hq, hq'] at this; simp at this
    | some q' =>
      refine ⟨q', rfl, fun b hb => ?_⟩
      have := e b hb
      rw [hq, hq'] at this
      simpa using this

example : ∃ st', Ecm.run .linear Demo.circuit (Demo.input 0 1) [Demo.input 10 0, Demo.input 20 (-4)] Demo.state = .ok st' ∧
    Demo.state.q0 = some (num2 0) := by
  obtain ⟨s, h⟩ := Demo.runs .linear [(10, 0), (20, -4)] 0 1 (by norm_num [steps])
  exact ⟨s, h, rfl⟩

end Verif.Cell
