import Verif.Props.EcmCharge
import Mathlib.Analysis.Calculus.MeanValue
import Mathlib.Analysis.SpecialFunctions.ExpDeriv
import Mathlib.Analysis.Complex.ExponentialBounds
/-!
# RC currents (C21, C22)
-/

namespace Verif.Cell
open Verif Nd Ecm

/-- RC current `j` of member `b`. -/
def ircAt (s : State) (b j : Nat) : ℝ := s.irc.get [if rows s.irc = 1 then 0 else b, j]

/-- Time constant of an RC element for member `b`, at the SOC and temperature before the step. -/
noncomputable def tauAt (rc : Ecm.RC) (prev : Input) (st : State) (b : Nat) : ℝ :=
  resAt rc.r b (at2 st.soc b) (prev.temp.map (at2 · b)) * curveAt rc.c b (at2 st.soc b)

/-- `f` solves `τ f' = I(s) - f` on `[0, d]`. -/
def SolvesRC (τ : ℝ) (I : ℝ → ℝ) (d : ℝ) (f : ℝ → ℝ) : Prop := ∀ s ∈ Set.Icc 0 d, HasDerivAt f ((I s - f s) / τ) s

theorem irc_update {B : Nat} (hB : 0 < B) {beh : Behavior} {a : ASOH} {prev new : Input} {st st' : State} (ha : Pars B a)
    (hp : Ins B prev) (hn : Ins B new) (hs : Sts B a st) (h : update beh prev new st a = .ok st') {b : Nat} (hb : b < B)
    {j : Nat} (hj : j < a.rcs.length) :
    ircAt st' b j = rcNext beh (inAt prev b) (inAt new b) (at2 st.soc b) ⟨resAt a.rcs[j].r b, curveAt a.rcs[j].c b⟩
      (ircAt st b j) := by
  obtain ⟨g1, g2⟩ := update_rows hB ha hp hn hs h
  have e := congrArg (fun s => s.irc[j]?) (g2 b hb)
  have w : ∀ s : State, Sts B a s → s.irc.shape.getD 1 0 = a.rcs.length := by
    intro s hs; rcases hs.irc with e | e <;> simp [e]
  simp only [stAt, step, parAt, w st hs, w st' g1] at e
  simp [hj] at e
  exact e

/-- Solutions of the RC equation with constant drive are unique: the closed form. -/
theorem rc_unique_ramp {τ I α d : ℝ} (hτ : τ ≠ 0) (hd : 0 ≤ d) {f : ℝ → ℝ} (hf : SolvesRC τ (fun s => I + α * s) d f) :
    f d = f 0 * Real.exp (-d / τ) + (1 - Real.exp (-d / τ)) * (I - α * τ) + α * d := by
  -- (f s - (I - α τ + α s)) e^{s/τ} is constant
  let g : ℝ → ℝ := fun s => (f s - (I - α * τ + α * s)) * Real.exp (s / τ)
  have hg : ∀ s ∈ Set.Icc 0 d, HasDerivAt g 0 s := by
    intro s hs
    have h1 : HasDerivAt (fun s => f s - (I - α * τ + α * s)) ((I + α * s - f s) / τ - (0 + α * 1)) s :=
      (hf s hs).sub ((hasDerivAt_const s (I - α * τ)).add ((hasDerivAt_id s).const_mul α))
    have h2 : HasDerivAt (fun s => Real.exp (s / τ)) (Real.exp (s / τ) * (1 / τ)) s :=
      ((hasDerivAt_id s).div_const τ).exp
    have h3 := h1.mul h2
    refine h3.congr_deriv ?_
    field_simp
    ring
  have hc : g d = g 0 := constant_of_has_deriv_right_zero (a := 0) (b := d)
    (fun s hs => (hg s hs).continuousAt.continuousWithinAt)
    (fun s hs => (hg s ⟨hs.1, hs.2.le⟩).hasDerivWithinAt) d ⟨hd, le_refl _⟩
  simp only [g, mul_zero, add_zero, zero_div, Real.exp_zero, mul_one] at hc
  have he : Real.exp (d / τ) * Real.exp (-d / τ) = 1 := by
    rw [← Real.exp_add, show d / τ + -d / τ = 0 by ring, Real.exp_zero]
  have := congrArg (· * Real.exp (-d / τ)) hc
  beta_reduce at this
  rw [mul_assoc, he, mul_one] at this
  linarith

/-- A solution exists for every initial value, drive and time constant. -/
theorem rc_exists (τ I α d i0 : ℝ) (hτ : τ ≠ 0) : ∃ f, f 0 = i0 ∧ SolvesRC τ (fun s => I + α * s) d f := by
  refine ⟨fun s => i0 * Real.exp (-s / τ) + (1 - Real.exp (-s / τ)) * (I - α * τ) + α * s, by simp, fun s _ => ?_⟩
  have he : HasDerivAt (fun s => Real.exp (-s / τ)) (Real.exp (-s / τ) * (-1 / τ)) s :=
    ((hasDerivAt_id s).neg.div_const τ).exp
  have h := ((he.const_mul i0).add ((he.const_sub 1).mul_const (I - α * τ))).add ((hasDerivAt_id s).const_mul α)
  refine h.congr_deriv ?_
  field_simp
  ring

/-- C21: under constant behaviour every RC current after the step is the value at `dt` of *the* solution of
`τ di/dt = I - i` with the old current as initial value and `I` the new input's current. -/
theorem C21_rc_exact_constant {B : Nat} (hB : 0 < B) {a : ASOH} {prev new : Input} {st st' : State} (ha : Pars B a)
    (hp : Ins B prev) (hn : Ins B new) (hs : Sts B a st) (h : update .constant prev new st a = .ok st')
    (b : Nat) (hb : b < B) (j : Nat) (hj : j < a.rcs.length) (hτ : 0 < tauAt a.rcs[j] prev st b)
    (hd : at2 prev.time b ≤ at2 new.time b) (f : ℝ → ℝ) (h0 : f 0 = ircAt st b j)
    (hf : SolvesRC (tauAt a.rcs[j] prev st b) (fun _ => at2 new.current b) (at2 new.time b - at2 prev.time b) f) :
    ircAt st' b j = f (at2 new.time b - at2 prev.time b) := by
  rw [irc_update hB ha hp hn hs h hb hj, rc_unique_ramp (f := f) (I := at2 new.current b) (α := 0) hτ.ne' (sub_nonneg.2 hd)
    (by simpa using hf), h0]
  simp only [rcNext, slope, dt, inAt]
  rfl

/-- The solution of C21 exists. -/
theorem C21_solution_exists (τ I d i0 : ℝ) (hτ : 0 < τ) : ∃ f, f 0 = i0 ∧ SolvesRC τ (fun _ => I) d f := by
  obtain ⟨f, h0, h1⟩ := rc_exists τ I 0 d i0 hτ.ne'
  exact ⟨f, h0, by simpa using h1⟩

/-- C21: the new RC current lies between the old one and the new input's current, and its distance to that current shrinks by
the factor `exp(-dt/τ)`. -/
theorem C21_rc_between {B : Nat} (hB : 0 < B) {a : ASOH} {prev new : Input} {st st' : State} (ha : Pars B a)
    (hp : Ins B prev) (hn : Ins B new) (hs : Sts B a st) (h : update .constant prev new st a = .ok st')
    (b : Nat) (hb : b < B) (j : Nat) (hj : j < a.rcs.length) (hτ : 0 < tauAt a.rcs[j] prev st b)
    (hd : at2 prev.time b ≤ at2 new.time b) :
    min (ircAt st b j) (at2 new.current b) ≤ ircAt st' b j ∧ ircAt st' b j ≤ max (ircAt st b j) (at2 new.current b) ∧
    |ircAt st' b j - at2 new.current b| =
      Real.exp (-(at2 new.time b - at2 prev.time b) / tauAt a.rcs[j] prev st b) * |ircAt st b j - at2 new.current b| := by
  have e : ircAt st' b j = ircAt st b j * Real.exp (-(at2 new.time b - at2 prev.time b) / tauAt a.rcs[j] prev st b) +
      (1 - Real.exp (-(at2 new.time b - at2 prev.time b) / tauAt a.rcs[j] prev st b)) * at2 new.current b := by
    rw [irc_update hB ha hp hn hs h hb hj]
    simp only [rcNext, slope, dt, inAt, tauAt]
    ring
  have e0 := Real.exp_pos (-(at2 new.time b - at2 prev.time b) / tauAt a.rcs[j] prev st b)
  have e1 : Real.exp (-(at2 new.time b - at2 prev.time b) / tauAt a.rcs[j] prev st b) ≤ 1 := by
    rw [Real.exp_le_one_iff]
    exact div_nonpos_of_nonpos_of_nonneg (by linarith) hτ.le
  revert e e0 e1
  generalize Real.exp (-(at2 new.time b - at2 prev.time b) / tauAt a.rcs[j] prev st b) = w
  intro e e0 e1
  rw [e]
  generalize ircAt st b j = x
  generalize at2 new.current b = y
  refine ⟨?_, ?_, ?_⟩
  · rcases min_cases x y with ⟨h1, h2⟩ | ⟨h1, h2⟩ <;> rw [h1] <;> nlinarith
  · rcases max_cases x y with ⟨h1, h2⟩ | ⟨h1, h2⟩ <;> rw [h1] <;> nlinarith
  · rw [show x * w + (1 - w) * y - y = w * (x - y) by ring, abs_mul, abs_of_pos e0]

theorem demo_tau (t i : ℝ) : (0 : ℝ) < tauAt Demo.circuit.rcs[1] (Demo.input t i) Demo.state 1 := by
  simp only [tauAt, Demo.circuit, Demo.input, List.getElem_cons_succ, List.getElem_cons_zero, Option.map_some, resAt, Demo.res,
    curveAt, Demo.flat, Interp.width, Interp.rows, num2, Demo.two, List.getD_cons_zero, List.getD_cons_succ, if_true]
  norm_num
  positivity

example : ∃ st', update .constant (Demo.input 0 1) (Demo.input 10 2) Demo.state Demo.circuit = .ok st' ∧
    (0 : ℝ) < tauAt Demo.circuit.rcs[1] (Demo.input 0 1) Demo.state 1 ∧
    at2 (Demo.input 0 1).time 1 ≤ at2 (Demo.input 10 2).time 1 := by
  obtain ⟨s, h⟩ := Demo.steps' .constant 0 1 10 2 (by norm_num)
  exact ⟨s, h, demo_tau _ _, by simp [at2, Demo.input, num2]⟩

/-! ## C22 -/

/-- C22, what the code does under linear behaviour: the new RC current exceeds the exact solution of `τ di/dt = I(t) - i` for
the ramp `I(t)` from the previous to the new current by exactly `(1 - exp(-dt/τ)) (I_new - I_prev)`.  Missing from the full
claim: the excess is not zero (see `C22_not_exact`); the code adds the ramp to the new instead of the previous current. -/
theorem C22_rc_linear_excess_partial {B : Nat} (hB : 0 < B) {a : ASOH} {prev new : Input} {st st' : State} (ha : Pars B a)
    (hp : Ins B prev) (hn : Ins B new) (hs : Sts B a st) (h : update .linear prev new st a = .ok st')
    (b : Nat) (hb : b < B) (j : Nat) (hj : j < a.rcs.length) (hτ : 0 < tauAt a.rcs[j] prev st b)
    (hd : at2 prev.time b < at2 new.time b) (f : ℝ → ℝ) (h0 : f 0 = ircAt st b j)
    (hf : SolvesRC (tauAt a.rcs[j] prev st b)
      (fun s => at2 prev.current b +
        (at2 new.current b - at2 prev.current b) / (at2 new.time b - at2 prev.time b) * s)
      (at2 new.time b - at2 prev.time b) f) :
    ircAt st' b j - f (at2 new.time b - at2 prev.time b) =
      (1 - Real.exp (-(at2 new.time b - at2 prev.time b) / tauAt a.rcs[j] prev st b)) *
        (at2 new.current b - at2 prev.current b) := by
  rw [irc_update hB ha hp hn hs h hb hj, rc_unique_ramp hτ.ne' (sub_pos.2 hd).le hf, h0]
  simp only [rcNext, slope, dt, inAt, tauAt]
  ring

/-- C22 holds for steps at an unchanged current. -/
theorem C22_rc_linear_flat_partial {B : Nat} (hB : 0 < B) {a : ASOH} {prev new : Input} {st st' : State} (ha : Pars B a)
    (hp : Ins B prev) (hn : Ins B new) (hs : Sts B a st) (h : update .linear prev new st a = .ok st')
    (b : Nat) (hb : b < B) (j : Nat) (hj : j < a.rcs.length) (hτ : 0 < tauAt a.rcs[j] prev st b)
    (hd : at2 prev.time b < at2 new.time b) (hI : at2 new.current b = at2 prev.current b)
    (f : ℝ → ℝ) (h0 : f 0 = ircAt st b j)
    (hf : SolvesRC (tauAt a.rcs[j] prev st b)
      (fun s => at2 prev.current b +
        (at2 new.current b - at2 prev.current b) / (at2 new.time b - at2 prev.time b) * s)
      (at2 new.time b - at2 prev.time b) f) :
    ircAt st' b j = f (at2 new.time b - at2 prev.time b) := by
  have := C22_rc_linear_excess_partial hB ha hp hn hs h b hb j hj hτ hd f h0 hf
  rw [hI, sub_self, mul_zero] at this
  linarith

/-- C22 fails: whenever the current changes during a step of positive length, no RC current is the exact solution. -/
theorem C22_not_exact {B : Nat} (hB : 0 < B) {a : ASOH} {prev new : Input} {st st' : State} (ha : Pars B a)
    (hp : Ins B prev) (hn : Ins B new) (hs : Sts B a st) (h : update .linear prev new st a = .ok st')
    (b : Nat) (hb : b < B) (j : Nat) (hj : j < a.rcs.length) (hτ : 0 < tauAt a.rcs[j] prev st b)
    (hd : at2 prev.time b < at2 new.time b) (hI : at2 new.current b ≠ at2 prev.current b)
    (f : ℝ → ℝ) (h0 : f 0 = ircAt st b j)
    (hf : SolvesRC (tauAt a.rcs[j] prev st b)
      (fun s => at2 prev.current b +
        (at2 new.current b - at2 prev.current b) / (at2 new.time b - at2 prev.time b) * s)
      (at2 new.time b - at2 prev.time b) f) :
    ircAt st' b j ≠ f (at2 new.time b - at2 prev.time b) := by
  have e := C22_rc_linear_excess_partial hB ha hp hn hs h b hb j hj hτ hd f h0 hf
  have h1 : Real.exp (-(at2 new.time b - at2 prev.time b) / tauAt a.rcs[j] prev st b) < 1 := by
    rw [Real.exp_lt_one_iff]
    exact div_neg_of_neg_of_pos (by linarith) hτ
  intro h2
  rw [h2, sub_self] at e
  rcases mul_eq_zero.1 e.symm with h3 | h3
  · linarith
  · exact hI (by linarith)

/-- A concrete step meeting the hypotheses of `C22_not_exact`: 1 A to 2 A in ten seconds. -/
theorem C22_counterexample : ∃ st' f, update .linear (Demo.input 0 1) (Demo.input 10 2) Demo.state Demo.circuit = .ok st' ∧
    f 0 = ircAt Demo.state 1 1 ∧
    SolvesRC (tauAt Demo.circuit.rcs[1] (Demo.input 0 1) Demo.state 1) (fun s => 1 + 1 / 10 * s) 10 f ∧
    ircAt st' 1 1 ≠ f 10 := by
  obtain ⟨s, h⟩ := Demo.steps' .linear 0 1 10 2 (by norm_num)
  obtain ⟨f, h0, hf⟩ := rc_exists (tauAt Demo.circuit.rcs[1] (Demo.input 0 1) Demo.state 1) 1 (1 / 10) 10
    (ircAt Demo.state 1 1) (demo_tau _ _).ne'
  refine ⟨s, f, h, h0, hf, ?_⟩
  have e1 : at2 (Demo.input 10 2).time 1 - at2 (Demo.input 0 1).time 1 = 10 := by
    simp [at2, Demo.input, num2]
  have e2 : at2 (Demo.input 10 2).current 1 - at2 (Demo.input 0 1).current 1 = 1 := by
    simp only [at2, Demo.input, num2]; norm_num
  have e3 : at2 (Demo.input 0 1).current 1 = 1 := by simp [at2, Demo.input, num2]
  have := C22_not_exact (by norm_num) Demo.pars (Demo.ins _ _) (Demo.ins _ _) Demo.sts h 1 (by norm_num) 1
    (by simp [Demo.circuit]) (demo_tau _ _) (by linarith) (by intro hx; rw [hx, sub_self] at e2; norm_num at e2) f h0
    (by rw [e1, e2, e3]; exact hf)
  rwa [e1] at this

example : ∃ st', update .linear (Demo.input 0 1) (Demo.input 10 1) Demo.state Demo.circuit = .ok st' ∧
    at2 (Demo.input 10 1).current 1 = at2 (Demo.input 0 1).current 1 := by
  obtain ⟨s, h⟩ := Demo.steps' .linear 0 1 10 1 (by norm_num)
  exact ⟨s, h, rfl⟩

end Verif.Cell
