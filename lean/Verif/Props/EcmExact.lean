import Verif.Props.EcmHyst
import Mathlib.MeasureTheory.Integral.IntervalIntegral.FundThmCalculus
/-!
# What a step of the circuit depends on, and the equation of the hysteresis (C90, C91)
-/

namespace Verif.Cell
open Verif Nd Ecm

/-! ## Parameters are those at the start of the step (C90) -/

/-- C90: the new state of a cell is determined by its old state, its two inputs (of the new one only time and current), and the values
of the parameters at the old SOC and the old temperature.  Two circuits (and two new inputs) that agree in these give the same new
state, however they differ elsewhere. -/
theorem C90_parameters_at_start {B B' : Nat} {beh : Behavior} {a a' : ASOH} {prev new new' : Input} {st st1 st2 : State}
    (ha : Pars B a) (ha' : Pars B' a') (hp : Ins B prev) (hp' : Ins B' prev) (hn : Ins B new) (hn' : Ins B' new')
    (hs : Sts B a st) (hs' : Sts B' a' st) (h1 : update beh prev new st a = .ok st1) (h2 : update beh prev new' st a' = .ok st2)
    (b : Nat) (hb : b < B) (hb' : b < B')
    (htime : at2 new.time b = at2 new'.time b) (hcur : at2 new.current b = at2 new'.current b)
    (hqt : at2 a.qt b = at2 a'.qt b) (hce : at2 a.ce b = at2 a'.ce b) (hgam : at2 a.gamma b = at2 a'.gamma b)
    (hmax : curveAt a.hyst b (at2 st.soc b) = curveAt a'.hyst b (at2 st.soc b))
    (hrcs : a.rcs.map (fun rc => tauAt rc prev st b) = a'.rcs.map (fun rc => tauAt rc prev st b)) :
    at2 st1.soc b = at2 st2.soc b ∧ st1.q0.map (at2 · b) = st2.q0.map (at2 · b) ∧
      (∀ j < a.rcs.length, ircAt st1 b j = ircAt st2 b j) ∧ at2 st1.hyst b = at2 st2.hyst b := by
  have hB : 0 < B := by omega
  have hB' : 0 < B' := by omega
  have hlen : a.rcs.length = a'.rcs.length := by simpa using congrArg List.length hrcs
  have e1 := (update_rows hB ha hp hn hs h1).2 b hb
  have e2 := (update_rows hB' ha' hp' hn' hs' h2).2 b hb'
  have hdt : dt (inAt prev b) (inAt new b) = dt (inAt prev b) (inAt new' b) := by
    show at2 new.time b - _ = at2 new'.time b - _
    rw [htime]
  have hsl : slope beh (inAt prev b) (inAt new b) = slope beh (inAt prev b) (inAt new' b) := by
    unfold slope
    cases beh with
    | constant => rfl
    | linear =>
      simp only [hdt]
      show (at2 new.current b - _) / _ = (at2 new'.current b - _) / _
      rw [hcur]
  have hch : charge beh (inAt prev b) (inAt new b) = charge beh (inAt prev b) (inAt new' b) := by
    unfold charge; rw [hdt, hsl]
  have heff : eff (inAt prev b) (parAt a b) = eff (inAt prev b) (parAt a' b) := by
    show (if at2 prev.current b < 0 then 1 else at2 a.ce b) = if at2 prev.current b < 0 then 1 else at2 a'.ce b
    rw [hce]
  refine ⟨?_, ?_, ?_, ?_⟩
  · have f1 := congrArg St.soc e1
    have f2 := congrArg St.soc e2
    simp only [stAt, step] at f1 f2
    rw [f1, f2, hch, heff]
    show _ + _ * (_ / (3600 * at2 a.qt b)) = _ + _ * (_ / (3600 * at2 a'.qt b))
    rw [hqt]
  · have f1 := congrArg St.q0 e1
    have f2 := congrArg St.q0 e2
    simp only [stAt, step] at f1 f2
    rw [f1, f2, hch]
  · intro j hj
    rw [irc_update hB ha hp hn hs h1 hb hj, irc_update hB' ha' hp' hn' hs' h2 hb' (hlen ▸ hj)]
    have ht : tauAt a.rcs[j] prev st b = tauAt a'.rcs[j] prev st b := by
      have := congrArg (fun l => l[j]?) hrcs
      simpa [hj, hlen ▸ hj] using this
    have ht' : resAt a.rcs[j].r b (at2 st.soc b) (inAt prev b).temp * curveAt a.rcs[j].c b (at2 st.soc b) =
        resAt a'.rcs[j].r b (at2 st.soc b) (inAt prev b).temp * curveAt a'.rcs[j].c b (at2 st.soc b) := ht
    have hc : (inAt new b).current = (inAt new' b).current := hcur
    simp only [rcNext, hdt, hsl, ht', hc]
  · rw [hyst_update hB ha hp hn hs h1 hb, hyst_update hB' ha' hp' hn' hs' h2 hb']
    have hk : kappa (inAt prev b) (parAt a b) = kappa (inAt prev b) (parAt a' b) := by
      unfold kappa
      rw [heff]
      show _ * at2 a.gamma b / (3600 * at2 a.qt b) = _ * at2 a'.gamma b / (3600 * at2 a'.qt b)
      rw [hgam, hqt]
    have hT : hystTarget (inAt prev b) (stAt st b).soc (parAt a b) = hystTarget (inAt prev b) (stAt st b).soc (parAt a' b) := by
      unfold hystTarget
      have : (parAt a b).hystMax (stAt st b).soc = (parAt a' b).hystMax (stAt st b).soc := hmax
      rw [this]
    have hc : (inAt new b).current = (inAt new' b).current := hcur
    simp only [hystNext, hk, hT, hsl, hdt, hc]

/-- The same circuit with other open-circuit voltage, series resistance and capacitor, and with half the resistance and twice the
capacitance in the first RC element. -/
noncomputable def Demo.other : ASOH :=
  { Demo.circuit with
    ocv := ⟨Demo.line 2 5, num2 20, Demo.flat 0⟩
    r0 := Demo.res 7
    c0 := some (Demo.flat 3)
    rcs := [⟨Demo.res 0.005, ⟨Demo.two 5000 5200, none, .linear⟩⟩, ⟨Demo.res 0.02, ⟨Demo.two 1000 900, none, .linear⟩⟩] }

/-- Input at `t` seconds with current `i` and temperature `T`. -/
noncomputable def Demo.warm (t i T : ℝ) : Input := ⟨num2 t, num2 i, some (num2 T)⟩

theorem Demo.other_pars : Pars 2 Demo.other := by
  refine ⟨.inr rfl, .inl rfl, .inl rfl, .inl rfl, .inl rfl, .inl rfl, ⟨.inl rfl, .inl rfl⟩, ?_, ?_, .inl rfl⟩
  · intro c hc; cases hc; exact .inl rfl
  · intro rc hrc
    simp only [Demo.other, List.mem_cons, List.not_mem_nil, or_false] at hrc
    rcases hrc with rfl | rfl <;> exact ⟨⟨.inl rfl, .inl rfl⟩, .inr rfl⟩

theorem Demo.other_sts : Sts 2 Demo.other Demo.state :=
  ⟨.inr rfl, by intro q hq; cases hq; exact .inl rfl, .inr rfl, .inl rfl⟩

theorem Demo.warm_ins (t i T : ℝ) : Ins 2 (Demo.warm t i T) :=
  ⟨.inl rfl, .inl rfl, by intro q hq; cases hq; exact .inl rfl⟩

theorem Demo.other_step : ∃ st', update .linear (Demo.input 0 1) (Demo.warm 10 2 45) Demo.state Demo.other = .ok st' := by
  have hc : CanRun .linear Demo.other (Demo.input 0 1) [Demo.warm 10 2 45] := by
    refine ⟨?_, ?_, ?_, ?_, ?_⟩
    · intro x hx
      simp only [List.mem_cons, List.not_mem_nil, or_false] at hx
      rcases hx with rfl | rfl <;> exact ⟨rfl, rfl, by intro q hq; cases hq; rfl⟩
    · intro _ p hp
      simp only [steps, List.zip_cons_cons, List.zip_nil_right, List.mem_cons, List.not_mem_nil, or_false] at hp
      rw [hp]
      simp only [Demo.input, Demo.warm, num2]
      norm_num
    · intro x hx rc hrc
      simp only [Demo.other, List.mem_cons, List.not_mem_nil, or_false] at hrc
      rcases hrc with rfl | rfl <;> exact ⟨Demo.usable_res _ _, .inl rfl⟩
    · refine ⟨2, fun rc hrc => ?_⟩
      simp only [Demo.other, List.mem_cons, List.not_mem_nil, or_false] at hrc
      rcases hrc with rfl | rfl <;> rfl
    · exact Demo.usable_line _ _ _ (by simp [Demo.other, Demo.circuit, rows, num2])
  obtain ⟨s, h⟩ := run_ok (by norm_num) Demo.other_pars (Demo.ins _ _) (by
    intro x hx
    rw [List.mem_singleton.1 hx]
    exact Demo.warm_ins _ _ _) Demo.other_sts hc
  refine ⟨s, ?_⟩
  simp only [Ecm.run, bind_ok] at h
  obtain ⟨s1, h1, h2⟩ := h
  cases h2
  exact h1

theorem Demo.other_tau : Demo.circuit.rcs.map (fun rc => tauAt rc (Demo.input 0 1) Demo.state 1) =
    Demo.other.rcs.map (fun rc => tauAt rc (Demo.input 0 1) Demo.state 1) := by
  simp only [tauAt, Demo.circuit, Demo.other, Demo.input, List.map_cons, List.map_nil, Option.map_some, resAt, Demo.res,
    curveAt, Demo.flat, Interp.width, Interp.rows, num2, Demo.two, List.getD_cons_zero, List.getD_cons_succ, if_true]
  norm_num
  ring

-- Two different circuits and two different temperatures meeting the hypotheses of C90: the new states agree in member 1.
example : ∃ s1 s2, update .linear (Demo.input 0 1) (Demo.input 10 2) Demo.state Demo.circuit = .ok s1 ∧
    update .linear (Demo.input 0 1) (Demo.warm 10 2 45) Demo.state Demo.other = .ok s2 ∧ at2 s1.hyst 1 = at2 s2.hyst 1 ∧
    Demo.other.r0 ≠ Demo.circuit.r0 := by
  obtain ⟨s1, h1⟩ := Demo.steps' .linear 0 1 10 2 (by norm_num)
  obtain ⟨s2, h2⟩ := Demo.other_step
  refine ⟨s1, s2, h1, h2, (C90_parameters_at_start Demo.pars Demo.other_pars (Demo.ins _ _) (Demo.ins _ _) (Demo.ins _ _)
    (Demo.warm_ins _ _ _) Demo.sts Demo.other_sts h1 h2 1 (by norm_num) (by norm_num) rfl rfl rfl rfl rfl rfl
    Demo.other_tau).2.2.2, fun h => ?_⟩
  have := congrArg (fun r => r.interp.base.get [0, 0]) h
  simp only [Demo.circuit, Demo.other, Demo.res, Demo.flat, num2] at this
  norm_num at this

/-! ## The equation of the hysteresis (C91) -/

/-- `f` solves `h' = κ |I(s)| (sign(I(s)) M - h)` on `[0, d]`; `|I| sign(I)` is written `I`. -/
def SolvesHyst (κ M : ℝ) (I : ℝ → ℝ) (d : ℝ) (f : ℝ → ℝ) : Prop :=
  ∀ s ∈ Set.Icc 0 d, HasDerivAt f (κ * (I s * M - |I s| * f s)) s

/-- Rate constant of the hysteresis of member `b`: efficiency at the start of the step times `γ / (3600 Qt)`. -/
noncomputable def hystRate (a : ASOH) (prev : Input) (b : Nat) : ℝ := effAt a prev b * at2 a.gamma b / (3600 * at2 a.qt b)

/-- Decay towards `T` at a rate that is linear in time: the closed form. -/
theorem decay_unique {c0 c1 T d : ℝ} (hd : 0 ≤ d) {f : ℝ → ℝ}
    (hf : ∀ s ∈ Set.Icc 0 d, HasDerivAt f (-((c0 + c1 * s) * (f s - T))) s) :
    f d = Real.exp (-(c0 * d + c1 * d ^ 2 / 2)) * f 0 + (1 - Real.exp (-(c0 * d + c1 * d ^ 2 / 2))) * T := by
  let g : ℝ → ℝ := fun s => (f s - T) * Real.exp (c0 * s + c1 * s ^ 2 / 2)
  have hg : ∀ s ∈ Set.Icc 0 d, HasDerivAt g 0 s := by
    intro s hs
    have h1 : HasDerivAt (fun s => f s - T) (-((c0 + c1 * s) * (f s - T))) s := (hf s hs).sub_const T
    have h2 : HasDerivAt (fun s : ℝ => c0 * s + c1 * s ^ 2 / 2) (c0 + c1 * s) s := by
      have := ((hasDerivAt_id s).const_mul c0).add ((((hasDerivAt_id s).pow 2).const_mul c1).div_const 2)
      refine this.congr_deriv ?_
      simp
      ring
    refine (h1.mul h2.exp).congr_deriv ?_
    ring
  have hc : g d = g 0 := constant_of_has_deriv_right_zero (a := 0) (b := d)
    (fun s hs => (hg s hs).continuousAt.continuousWithinAt)
    (fun s hs => (hg s ⟨hs.1, hs.2.le⟩).hasDerivWithinAt) d ⟨hd, le_refl _⟩
  simp only [g] at hc
  have he : Real.exp (c0 * d + c1 * d ^ 2 / 2) * Real.exp (-(c0 * d + c1 * d ^ 2 / 2)) = 1 := by
    rw [← Real.exp_add, add_neg_cancel, Real.exp_zero]
  have := congrArg (· * Real.exp (-(c0 * d + c1 * d ^ 2 / 2))) hc
  beta_reduce at this
  rw [mul_assoc, he, mul_one] at this
  simp only [mul_zero, ne_eq, OfNat.ofNat_ne_zero, not_false_eq_true, zero_pow, zero_div, add_zero, Real.exp_zero, mul_one] at this
  linarith

/-- The solution while the current is not negative. -/
theorem hyst_pos {κ M i0 α d : ℝ} (hd : 0 ≤ d) (hI : ∀ s ∈ Set.Icc 0 d, 0 ≤ i0 + α * s) {f : ℝ → ℝ}
    (hf : SolvesHyst κ M (fun s => i0 + α * s) d f) :
    f d = Real.exp (-(κ * d * (i0 + 0.5 * α * d))) * f 0 + (1 - Real.exp (-(κ * d * (i0 + 0.5 * α * d)))) * M := by
  have h := decay_unique (c0 := κ * i0) (c1 := κ * α) (T := M) hd (f := f) (fun s hs => (hf s hs).congr_deriv (by
    beta_reduce; rw [abs_of_nonneg (hI s hs)]; ring))
  rw [h, show κ * i0 * d + κ * α * d ^ 2 / 2 = κ * d * (i0 + 0.5 * α * d) by ring]

/-- The solution while the current is not positive. -/
theorem hyst_neg {κ M i0 α d : ℝ} (hd : 0 ≤ d) (hI : ∀ s ∈ Set.Icc 0 d, i0 + α * s ≤ 0) {f : ℝ → ℝ}
    (hf : SolvesHyst κ M (fun s => i0 + α * s) d f) :
    f d = Real.exp (κ * d * (i0 + 0.5 * α * d)) * f 0 + (1 - Real.exp (κ * d * (i0 + 0.5 * α * d))) * (-M) := by
  have h := decay_unique (c0 := -(κ * i0)) (c1 := -(κ * α)) (T := -M) hd (f := f) (fun s hs => (hf s hs).congr_deriv (by
    beta_reduce; rw [abs_of_nonpos (hI s hs)]; ring))
  rw [h, show -(-(κ * i0) * d + -(κ * α) * d ^ 2 / 2) = κ * d * (i0 + 0.5 * α * d) by ring]

/-- The second part of a solution. -/
theorem SolvesHyst.tail {κ M i0 α d c : ℝ} {f : ℝ → ℝ} (hc : 0 ≤ c) (hf : SolvesHyst κ M (fun s => i0 + α * s) d f) :
    SolvesHyst κ M (fun s => (i0 + α * c) + α * s) (d - c) (fun s => f (c + s)) := by
  intro s hs
  have h := hf (c + s) ⟨by linarith [hs.1], by linarith [hs.2]⟩
  have h2 := h.comp_const_add c s
  refine h2.congr_deriv ?_
  beta_reduce
  rw [show i0 + α * (c + s) = i0 + α * c + α * s by ring]

theorem SolvesHyst.head {κ M d c : ℝ} {I f : ℝ → ℝ} (hc : c ≤ d) (hf : SolvesHyst κ M I d f) : SolvesHyst κ M I c f :=
  fun s hs => hf s ⟨hs.1, hs.2.trans hc⟩

/-- C91: under constant behaviour the new hysteresis is the value at `dt` of *the* solution of the hysteresis equation with the old
hysteresis as initial value and the previous current, for rest and for currents above 1e-8 A.  Missing: smaller currents (see
`C23_tiny_current_moves_away`). -/
theorem C91_constant_exact_partial {B : Nat} (hB : 0 < B) {a : ASOH} {prev new : Input} {st st' : State} (ha : Pars B a)
    (hp : Ins B prev) (hn : Ins B new) (hs : Sts B a st) (h : update .constant prev new st a = .ok st')
    (b : Nat) (hb : b < B) (hd : at2 prev.time b ≤ at2 new.time b)
    (hI : at2 prev.current b = 0 ∨ 1e-8 < |at2 prev.current b|) (f : ℝ → ℝ) (h0 : f 0 = at2 st.hyst b)
    (hf : SolvesHyst (hystRate a prev b) (hystMaxAt a st b) (fun _ => at2 prev.current b)
      (at2 new.time b - at2 prev.time b) f) :
    at2 st'.hyst b = f (at2 new.time b - at2 prev.time b) := by
  rw [hyst_update hB ha hp hn hs h hb, hystNext_constant, target_sign (by exact hI)]
  have hf' : SolvesHyst (hystRate a prev b) (hystMaxAt a st b) (fun s => at2 prev.current b + 0 * s)
      (at2 new.time b - at2 prev.time b) f := by simpa using hf
  have hd' := sub_nonneg.2 hd
  show Real.exp (-(hystRate a prev b * |at2 prev.current b| * (at2 new.time b - at2 prev.time b))) * at2 st.hyst b +
    (1 - Real.exp (-(hystRate a prev b * |at2 prev.current b| * (at2 new.time b - at2 prev.time b)))) *
      (Real.sign (at2 prev.current b) * hystMaxAt a st b) = _
  rcases le_or_gt 0 (at2 prev.current b) with hc | hc
  · rw [hyst_pos hd' (by intro s _; simpa using hc) hf', h0, abs_of_nonneg hc]
    rcases hc.eq_or_lt with hz | hc
    · rw [← hz]; simp
    · rw [Real.sign_of_pos hc]
      ring_nf
  · rw [hyst_neg hd' (by intro s _; simpa using hc.le) hf', h0, abs_of_neg hc, Real.sign_of_neg hc]
    ring_nf

/-- A ramp stays on the side of zero of its ends. -/
theorem ramp_nonneg {i0 α d : ℝ} (h0 : 0 ≤ i0) (h1 : 0 ≤ i0 + α * d) : ∀ s ∈ Set.Icc 0 d, 0 ≤ i0 + α * s := by
  intro s hs
  rcases le_or_gt 0 α with h | h
  · nlinarith [hs.1]
  · nlinarith [hs.2]

theorem ramp_nonpos {i0 α d : ℝ} (h0 : i0 ≤ 0) (h1 : i0 + α * d ≤ 0) : ∀ s ∈ Set.Icc 0 d, i0 + α * s ≤ 0 := by
  intro s hs
  rcases le_or_gt 0 α with h | h
  · nlinarith [hs.2]
  · nlinarith [hs.1]

/-- The current during a step under linear behaviour. -/
noncomputable def ramp (prev new : Input) (b : Nat) : ℝ → ℝ := fun s =>
  at2 prev.current b + (at2 new.current b - at2 prev.current b) / (at2 new.time b - at2 prev.time b) * s

/-- One segment ending above zero. -/
theorem hystAfter_pos {h M κ d i0 α : ℝ} (hc : 0 < i0 + α * d) : hystAfter h M κ d i0 α =
    Real.exp (-(κ * d * (i0 + 0.5 * α * d))) * h + (1 - Real.exp (-(κ * d * (i0 + 0.5 * α * d)))) * M := by
  unfold hystAfter
  simp only [if_pos (show i0 > -(α * d) by linarith)]

/-- One segment ending at or below zero. -/
theorem hystAfter_neg {h M κ d i0 α : ℝ} (hc : i0 + α * d ≤ 0) : hystAfter h M κ d i0 α =
    Real.exp (κ * d * (i0 + 0.5 * α * d)) * h + (1 - Real.exp (κ * d * (i0 + 0.5 * α * d))) * M := by
  unfold hystAfter
  simp only [if_neg (show ¬ i0 > -(α * d) by linarith)]

open Classical in
/-- The new hysteresis under linear behaviour. -/
theorem hyst_linear {B : Nat} (hB : 0 < B) {a : ASOH} {prev new : Input} {st st' : State} (ha : Pars B a)
    (hp : Ins B prev) (hn : Ins B new) (hs : Sts B a st) (h : update .linear prev new st a = .ok st') {b : Nat} (hb : b < B)
    (hI : at2 prev.current b = 0 ∨ 1e-8 < |at2 prev.current b|) (hd : at2 prev.time b < at2 new.time b) :
    ∃ α : ℝ, ramp prev new b = (fun s => at2 prev.current b + α * s) ∧
      at2 prev.current b + α * (at2 new.time b - at2 prev.time b) = at2 new.current b ∧
      at2 st'.hyst b =
        if at2 prev.current b * at2 new.current b ≥ 0 then
          hystAfter (at2 st.hyst b) (Real.sign (at2 prev.current b) * hystMaxAt a st b) (hystRate a prev b)
            (at2 new.time b - at2 prev.time b) (at2 prev.current b) α
        else
          hystAfter (hystAfter (at2 st.hyst b) (Real.sign (at2 prev.current b) * hystMaxAt a st b) (hystRate a prev b)
            (-at2 prev.current b / α) (at2 prev.current b) α) (-(Real.sign (at2 prev.current b) * hystMaxAt a st b))
            (hystRate a prev b) (at2 new.time b - at2 prev.time b - -at2 prev.current b / α) 0 α := by
  refine ⟨(at2 new.current b - at2 prev.current b) / (at2 new.time b - at2 prev.time b), rfl, ?_, ?_⟩
  · have := (sub_pos.2 hd).ne'
    field_simp
    ring
  · rw [hyst_update hB ha hp hn hs h hb]
    simp only [hystNext, reduceCtorEq, or_false]
    rw [target_sign (by exact hI)]
    rfl

/-- C91: under linear behaviour the new hysteresis is the exact solution for the ramp between the two currents, zero crossing
included, if the step starts discharging (any end), or starts charging and ends charging, or rests throughout.  Missing: ramps that
start charging and do not end so (`C91_ramp_down_not_exact`), ramps from rest (`C91_ramp_from_rest_not_exact`), and starts below
1e-8 A. -/
theorem C91_linear_exact_partial {B : Nat} (hB : 0 < B) {a : ASOH} {prev new : Input} {st st' : State} (ha : Pars B a)
    (hp : Ins B prev) (hn : Ins B new) (hs : Sts B a st) (h : update .linear prev new st a = .ok st')
    (b : Nat) (hb : b < B) (hd : at2 prev.time b < at2 new.time b)
    (hI : at2 prev.current b < -1e-8 ∨ (1e-8 < at2 prev.current b ∧ 0 < at2 new.current b) ∨
      (at2 prev.current b = 0 ∧ at2 new.current b = 0)) (f : ℝ → ℝ) (h0 : f 0 = at2 st.hyst b)
    (hf : SolvesHyst (hystRate a prev b) (hystMaxAt a st b) (ramp prev new b) (at2 new.time b - at2 prev.time b) f) :
    at2 st'.hyst b = f (at2 new.time b - at2 prev.time b) := by
  have hd' : 0 < at2 new.time b - at2 prev.time b := sub_pos.2 hd
  obtain ⟨α, hr, hend, e⟩ := hyst_linear hB ha hp hn hs h hb (by
    rcases hI with h | h | h
    · right; rw [abs_of_neg (by linarith)]; linarith
    · right; rw [abs_of_pos (by linarith [h.1])]; exact h.1
    · exact .inl h.1) hd
  rw [e, ← h0]
  rw [hr] at hf
  clear e hr h0 hs hn hp ha h hd
  revert hI hf hd' hend
  generalize at2 prev.current b = i0, at2 new.current b = i1, at2 new.time b - at2 prev.time b = d, hystRate a prev b = κ,
    hystMaxAt a st b = M
  intro hI hd hf hend
  rcases hI with hI | hI | ⟨rfl, rfl⟩
  · have hi0 : i0 < 0 := by linarith
    rw [Real.sign_of_neg hi0]
    rcases le_or_gt i1 0 with h1 | h1
    · rw [if_pos (by nlinarith), hyst_neg hd.le (ramp_nonpos hi0.le (hend ▸ h1)) hf, hystAfter_neg (by linarith)]
      ring_nf
    · rw [if_neg (by nlinarith)]
      have hα : 0 < α := by
        by_contra hα
        nlinarith
      have hz : i0 + α * (-i0 / α) = 0 := by field_simp; ring
      have hφ : 0 ≤ -i0 / α := div_nonneg (by linarith) hα.le
      have hφd : -i0 / α ≤ d := by rw [div_le_iff₀ hα]; linarith
      have t := hf.tail hφ
      have hh := hf.head hφd
      revert hz hφ hφd t hh
      generalize -i0 / α = φ
      intro hz hφ hφd t hh
      rw [hz] at t
      have e2 := hyst_pos (sub_nonneg.2 hφd) (ramp_nonneg le_rfl (by nlinarith)) t
      have e1 := hyst_neg hφ (ramp_nonpos hi0.le hz.le) hh
      beta_reduce at e2
      rw [add_zero, show φ + (d - φ) = d by ring] at e2
      rw [e2, e1, hystAfter_pos (by nlinarith), hystAfter_neg hz.le]
      ring_nf
  · have hi0 : 0 < i0 := by linarith [hI.1]
    rw [Real.sign_of_pos hi0, if_pos (by nlinarith [hI.2]), hyst_pos hd.le (ramp_nonneg hi0.le (hend ▸ hI.2.le)) hf,
      hystAfter_pos (by linarith [hI.2])]
    ring_nf
  · rw [if_pos (by simp), hyst_pos hd.le (ramp_nonneg le_rfl hend.ge) hf, hystAfter_neg hend.le]
    have hα : α = 0 := by
      rcases mul_eq_zero.1 (by linarith : α * d = 0) with h | h
      · exact h
      · linarith
    rw [hα]
    simp

/-- C91 fails for every ramp from a charging current (above 1e-8 A) to rest or to a discharging one: unless the hysteresis already
sits at its maximum, the new hysteresis is not the solution.  The code's exponent has the wrong sign when a falling ramp ends at
zero. -/
theorem C91_ramp_down_not_exact {B : Nat} (hB : 0 < B) {a : ASOH} {prev new : Input} {st st' : State} (ha : Pars B a)
    (hp : Ins B prev) (hn : Ins B new) (hs : Sts B a st) (h : update .linear prev new st a = .ok st')
    (b : Nat) (hb : b < B) (hd : at2 prev.time b < at2 new.time b)
    (hI : 1e-8 < at2 prev.current b) (hI1 : at2 new.current b ≤ 0) (hκ : hystRate a prev b ≠ 0)
    (hM : at2 st.hyst b ≠ hystMaxAt a st b) (f : ℝ → ℝ) (h0 : f 0 = at2 st.hyst b)
    (hf : SolvesHyst (hystRate a prev b) (hystMaxAt a st b) (ramp prev new b) (at2 new.time b - at2 prev.time b) f) :
    at2 st'.hyst b ≠ f (at2 new.time b - at2 prev.time b) := by
  have hd' : 0 < at2 new.time b - at2 prev.time b := sub_pos.2 hd
  obtain ⟨α, hr, hend, e⟩ := hyst_linear hB ha hp hn hs h hb (by
    right; rw [abs_of_pos (by linarith)]; exact hI) hd
  rw [e, ← h0]
  rw [hr] at hf
  rw [← h0] at hM
  clear e hr h0 hs hn hp ha h hd
  revert hI hI1 hf hd' hend hκ hM
  generalize at2 prev.current b = i0, at2 new.current b = i1, at2 new.time b - at2 prev.time b = d, hystRate a prev b = κ,
    hystMaxAt a st b = M
  intro hI hI1 hκ hM hd hf hend
  have hi0 : 0 < i0 := by linarith
  rw [Real.sign_of_pos hi0]
  have hα : α < 0 := by
    by_contra hα
    nlinarith
  have key : ∀ x : ℝ, x ≠ 0 → Real.exp x * f 0 + (1 - Real.exp x) * (1 * M) ≠ Real.exp (-x) * f 0 + (1 - Real.exp (-x)) * M := by
    intro x hx he
    have h1 : (Real.exp x - Real.exp (-x)) * (f 0 - M) = 0 := by linarith
    rcases mul_eq_zero.1 h1 with h2 | h2
    · have := Real.exp_injective (sub_eq_zero.1 h2)
      exact hx (by linarith)
    · exact hM (sub_eq_zero.1 h2)
  rcases hI1.eq_or_lt with h1 | h1
  · rw [if_pos (by rw [h1]; simp), hyst_pos hd.le (ramp_nonneg hi0.le (hend.trans h1).ge) hf, hystAfter_neg (hend.trans h1).le]
    have hm : i0 + 0.5 * α * d = i0 / 2 := by linarith
    exact key _ (mul_ne_zero (mul_ne_zero hκ hd.ne') (by rw [hm]; linarith))
  · rw [if_neg (by nlinarith)]
    have hz : i0 + α * (-i0 / α) = 0 := by have := hα.ne; field_simp; ring
    have hφ : 0 < -i0 / α := div_pos_of_neg_of_neg (by linarith) hα
    have hφd : -i0 / α ≤ d := by rw [div_le_iff_of_neg hα]; linarith
    have t := hf.tail hφ.le
    have hh := hf.head hφd
    revert hz hφ hφd t hh
    generalize -i0 / α = φ
    intro hz hφ hφd t hh
    rw [hz] at t
    have e2 := hyst_neg (sub_nonneg.2 hφd) (ramp_nonpos le_rfl (by nlinarith)) t
    have e1 := hyst_pos hφ.le (ramp_nonneg hi0.le hz.ge) hh
    beta_reduce at e2
    rw [add_zero, show φ + (d - φ) = d by ring] at e2
    rw [e2, e1, hystAfter_neg (M := -(1 * M)) (by nlinarith), hystAfter_neg hz.le]
    have hm : i0 + 0.5 * α * φ = i0 / 2 := by linarith
    have hk := key (κ * φ * (i0 + 0.5 * α * φ)) (mul_ne_zero (mul_ne_zero hκ hφ.ne') (by rw [hm]; linarith))
    intro he
    apply hk
    rw [one_mul] at he ⊢
    have := Real.exp_pos (κ * (d - φ) * (0 + 0.5 * α * (d - φ)))
    exact mul_left_cancel₀ this.ne' (by linarith)

/-- C91 fails for every ramp that starts at rest: with a non-zero maximum and rate the new hysteresis is not the solution.  The code
decays the hysteresis towards zero instead of building it up. -/
theorem C91_ramp_from_rest_not_exact {B : Nat} (hB : 0 < B) {a : ASOH} {prev new : Input} {st st' : State} (ha : Pars B a)
    (hp : Ins B prev) (hn : Ins B new) (hs : Sts B a st) (h : update .linear prev new st a = .ok st')
    (b : Nat) (hb : b < B) (hd : at2 prev.time b < at2 new.time b)
    (hI : at2 prev.current b = 0) (hI1 : at2 new.current b ≠ 0) (hκ : hystRate a prev b ≠ 0)
    (hM : hystMaxAt a st b ≠ 0) (f : ℝ → ℝ) (h0 : f 0 = at2 st.hyst b)
    (hf : SolvesHyst (hystRate a prev b) (hystMaxAt a st b) (ramp prev new b) (at2 new.time b - at2 prev.time b) f) :
    at2 st'.hyst b ≠ f (at2 new.time b - at2 prev.time b) := by
  have hd' : 0 < at2 new.time b - at2 prev.time b := sub_pos.2 hd
  obtain ⟨α, hr, hend, e⟩ := hyst_linear hB ha hp hn hs h hb (.inl hI) hd
  rw [e, ← h0]
  rw [hr] at hf
  clear e hr h0 hs hn hp ha h hd
  rw [hI] at *
  revert hI1 hf hd' hend hκ hM
  generalize at2 new.current b = i1, at2 new.time b - at2 prev.time b = d, hystRate a prev b = κ, hystMaxAt a st b = M
  intro hI1 hκ hM hd hf hend
  rw [if_pos (by simp), Real.sign_zero, zero_mul]
  have hα : α ≠ 0 := by rintro rfl; apply hI1; linarith
  have hx : κ * d * (0 + 0.5 * α * d) ≠ 0 :=
    mul_ne_zero (mul_ne_zero hκ hd.ne') (by rw [zero_add]; exact mul_ne_zero (mul_ne_zero (by norm_num) hα) hd.ne')
  have key : ∀ x : ℝ, x ≠ 0 → ∀ m : ℝ, m ≠ 0 → Real.exp x * f 0 + (1 - Real.exp x) * 0 ≠ Real.exp x * f 0 + (1 - Real.exp x) * m := by
    intro x hx m hm he
    have h1 : (1 - Real.exp x) * m = 0 := by linarith
    rcases mul_eq_zero.1 h1 with h2 | h2
    · exact hx (Real.exp_eq_one_iff x |>.1 (by linarith))
    · exact hm h2
  rcases lt_or_gt_of_ne hI1 with h1 | h1
  · rw [hyst_neg hd.le (ramp_nonpos le_rfl (hend ▸ h1.le)) hf, hystAfter_neg (by linarith)]
    exact key _ hx _ (neg_ne_zero.2 hM)
  · rw [hyst_pos hd.le (ramp_nonneg le_rfl (hend ▸ h1.le)) hf, hystAfter_pos (by linarith)]
    exact key _ (neg_ne_zero.2 hx) _ hM

/-- The equation has a solution for every continuous current and every initial value. -/
theorem C91_solution_exists (κ M d h0 : ℝ) (I : ℝ → ℝ) (hI : Continuous I) : ∃ f, f 0 = h0 ∧ SolvesHyst κ M I d f := by
  let A : ℝ → ℝ := fun s => ∫ x in (0 : ℝ)..s, |I x|
  have hA : ∀ s, HasDerivAt A |I s| s := fun s => (hI.abs.integral_hasStrictDerivAt 0 s).hasDerivAt
  have hAc : Continuous A := continuous_iff_continuousAt.2 fun s => (hA s).continuousAt
  let G : ℝ → ℝ := fun s => ∫ x in (0 : ℝ)..s, I x * Real.exp (κ * A x)
  have hG : ∀ s, HasDerivAt G (I s * Real.exp (κ * A s)) s := fun s =>
    ((hI.mul (Real.continuous_exp.comp (continuous_const.mul hAc))).integral_hasStrictDerivAt 0 s).hasDerivAt
  refine ⟨fun s => Real.exp (-(κ * A s)) * (h0 + κ * M * G s), by simp [A, G], fun s _ => ?_⟩
  have h1 : HasDerivAt (fun s => Real.exp (-(κ * A s))) (Real.exp (-(κ * A s)) * -(κ * |I s|)) s :=
    ((hA s).const_mul κ).neg.exp
  have h2 : HasDerivAt (fun s => h0 + κ * M * G s) (κ * M * (I s * Real.exp (κ * A s))) s :=
    ((hG s).const_mul (κ * M)).const_add h0
  refine (h1.mul h2).congr_deriv ?_
  have he : Real.exp (-(κ * A s)) * Real.exp (κ * A s) = 1 := by
    rw [← Real.exp_add, neg_add_cancel, Real.exp_zero]
  calc _ = κ * (M * I s * (Real.exp (-(κ * A s)) * Real.exp (κ * A s)) -
        |I s| * (Real.exp (-(κ * A s)) * (h0 + κ * M * G s))) := by ring
    _ = _ := by rw [he]; ring

/-- The ramp is continuous, so the equation of C91 has a solution for it. -/
theorem ramp_continuous (prev new : Input) (b : Nat) : Continuous (ramp prev new b) := by
  unfold ramp
  fun_prop

theorem demo_rate (t i : ℝ) : hystRate Demo.circuit (Demo.input t i) 1 ≠ 0 := by
  simp only [hystRate, effAt, Demo.circuit, Demo.input, Demo.two, at2, rows, num2, List.getD_cons_zero]
  split <;> norm_num

-- Steps meeting the hypotheses of the C91 theorems.
example : ∃ st', update .linear (Demo.input 0 (-1)) (Demo.input 10 2) Demo.state Demo.circuit = .ok st' ∧
    at2 (Demo.input 0 (-1)).current 1 < -1e-8 ∧ at2 (Demo.input 0 (-1)).time 1 < at2 (Demo.input 10 2).time 1 := by
  obtain ⟨s, h⟩ := Demo.steps' .linear 0 (-1) 10 2 (by norm_num)
  exact ⟨s, h, by norm_num [at2, Demo.input, num2, rows], by norm_num [at2, Demo.input, num2, rows]⟩

example : ∃ st', update .constant (Demo.input 0 1) (Demo.input 10 2) Demo.state Demo.circuit = .ok st' ∧
    1e-8 < |at2 (Demo.input 0 1).current 1| ∧ at2 (Demo.input 0 1).time 1 ≤ at2 (Demo.input 10 2).time 1 := by
  obtain ⟨s, h⟩ := Demo.steps' .constant 0 1 10 2 (by norm_num)
  exact ⟨s, h, by norm_num [at2, Demo.input, num2, rows], by norm_num [at2, Demo.input, num2, rows]⟩

theorem demo_max : hystMaxAt Demo.circuit Demo.state 1 = 0.016 := by
  show curveAt (Demo.line 0.01 0.02) 1 (at2 Demo.state.soc 1) = _
  rw [Demo.curveAt_line]
  simp only [Demo.state, Demo.two, at2, rows, List.getD_cons_zero]
  norm_num

example : ∃ st', update .linear (Demo.input 0 1) (Demo.input 10 0) Demo.state Demo.circuit = .ok st' ∧
    1e-8 < at2 (Demo.input 0 1).current 1 ∧ at2 (Demo.input 10 0).current 1 ≤ 0 ∧
    hystRate Demo.circuit (Demo.input 0 1) 1 ≠ 0 ∧ at2 Demo.state.hyst 1 ≠ hystMaxAt Demo.circuit Demo.state 1 := by
  obtain ⟨s, h⟩ := Demo.steps' .linear 0 1 10 0 (by norm_num)
  refine ⟨s, h, by norm_num [at2, Demo.input, num2, rows], by norm_num [at2, Demo.input, num2, rows], demo_rate _ _, ?_⟩
  rw [demo_max]
  norm_num [at2, Demo.state, num2, rows]

example : ∃ st', update .linear (Demo.input 0 0) (Demo.input 10 1) Demo.state Demo.circuit = .ok st' ∧
    at2 (Demo.input 0 0).current 1 = 0 ∧ at2 (Demo.input 10 1).current 1 ≠ 0 ∧
    hystRate Demo.circuit (Demo.input 0 0) 1 ≠ 0 ∧ hystMaxAt Demo.circuit Demo.state 1 ≠ 0 := by
  obtain ⟨s, h⟩ := Demo.steps' .linear 0 0 10 1 (by norm_num)
  refine ⟨s, h, by norm_num [at2, Demo.input, num2, rows], by norm_num [at2, Demo.input, num2, rows], demo_rate _ _, ?_⟩
  rw [demo_max]
  norm_num

end Verif.Cell
