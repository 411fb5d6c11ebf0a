import Verif.Props.EcmRc
import Mathlib.Data.Real.Sign
/-!
# Hysteresis (C23, C24)
-/

namespace Verif.Cell
open Verif Nd Ecm

theorem hyst_update {B : Nat} (hB : 0 < B) {beh : Behavior} {a : ASOH} {prev new : Input} {st st' : State} (ha : Pars B a)
    (hp : Ins B prev) (hn : Ins B new) (hs : Sts B a st) (h : update beh prev new st a = .ok st') {b : Nat} (hb : b < B) :
    at2 st'.hyst b = hystNext beh (inAt prev b) (inAt new b) (stAt st b) (parAt a b) :=
  congrArg St.hyst ((update_rows hB ha hp hn hs h).2 b hb)

/-- Maximum hysteresis of member `b` at its SOC. -/
noncomputable def hystMaxAt (a : ASOH) (st : State) (b : Nat) : ℝ := curveAt a.hyst b (at2 st.soc b)

/-- Physically sensible parameters of member `b`. -/
structure Sensible (a : ASOH) (b : Nat) : Prop where
  qt : 0 < at2 a.qt b
  ce : 0 ≤ at2 a.ce b
  gamma : 0 ≤ at2 a.gamma b

theorem kappa_nonneg {a : ASOH} {b : Nat} (h : Sensible a b) (prev : Input) : 0 ≤ kappa (inAt prev b) (parAt a b) := by
  unfold kappa eff
  have h1 := h.qt
  have h2 := h.ce
  have h3 := h.gamma
  show 0 ≤ (if at2 prev.current b < 0 then 1 else at2 a.ce b) * at2 a.gamma b / (3600 * at2 a.qt b)
  have : (0 : ℝ) ≤ if at2 prev.current b < 0 then 1 else at2 a.ce b := by split <;> linarith
  positivity

theorem convex_abs {w h T m : ℝ} (h0 : 0 ≤ w) (h1 : w ≤ 1) (hh : |h| ≤ m) (hT : |T| ≤ m) : |w * h + (1 - w) * T| ≤ m := by
  calc |w * h + (1 - w) * T| ≤ |w * h| + |(1 - w) * T| := abs_add_le _ _
    _ = w * |h| + (1 - w) * |T| := by rw [abs_mul, abs_mul, abs_of_nonneg h0, abs_of_nonneg (by linarith : 0 ≤ 1 - w)]
    _ ≤ w * m + (1 - w) * m := add_le_add (mul_le_mul_of_nonneg_left hh h0) (mul_le_mul_of_nonneg_left hT (by linarith))
    _ = m := by ring

theorem hystTarget_abs (prev : In) (soc : ℝ) (p : Par) : |hystTarget prev soc p| ≤ |p.hystMax soc| := by
  unfold hystTarget
  split
  · rename_i h
    rw [abs_mul]
    have : |prev.current| ≤ 1 := h.trans (by norm_num)
    nlinarith [abs_nonneg (p.hystMax soc), abs_nonneg prev.current]
  · rename_i h
    have hne : |prev.current| ≠ 0 := fun h0 => h (by rw [h0]; norm_num)
    rw [abs_div, abs_mul, abs_abs, mul_div_assoc, div_self hne, mul_one]

theorem hystAfter_flat (h M κ d i : ℝ) : hystAfter h M κ d i 0 =
    Real.exp (-(κ * |i| * d)) * h + (1 - Real.exp (-(κ * |i| * d))) * M := by
  unfold hystAfter
  have : (if i > -(0 * d) then -(κ * d * (i + 0.5 * 0 * d)) else κ * d * (i + 0.5 * 0 * d)) = -(κ * |i| * d) := by
    by_cases h : i > 0
    · rw [if_pos (by simpa using h), abs_of_pos h]; ring
    · rw [if_neg (by simpa using h), abs_of_nonpos (by linarith)]; ring
  simp only [this]

/-- The closed form under constant current. -/
theorem hystNext_constant (prev new : In) (s : St) (p : Par) :
    hystNext .constant prev new s p =
      Real.exp (-(kappa prev p * |prev.current| * dt prev new)) * s.hyst +
        (1 - Real.exp (-(kappa prev p * |prev.current| * dt prev new))) * hystTarget prev s.soc p := by
  unfold hystNext
  simp only [or_true, if_true]
  rw [show slope .constant prev new = 0 from rfl]
  exact hystAfter_flat _ _ _ _ _

theorem target_sign {prev : In} {soc : ℝ} {p : Par} (h : prev.current = 0 ∨ 1e-8 < |prev.current|) :
    hystTarget prev soc p = Real.sign prev.current * p.hystMax soc := by
  unfold hystTarget
  rcases h with h | h
  · rw [h]; simp
  · rw [if_neg (not_le.2 h)]
    have h0 : prev.current ≠ 0 := by
      intro h0; rw [h0, abs_zero] at h; norm_num at h
    rcases lt_or_gt_of_ne h0 with hn | hp
    · rw [Real.sign_of_neg hn, abs_of_neg hn]; field_simp
    · rw [Real.sign_of_pos hp, abs_of_pos hp]; field_simp

/-- C23: under constant current the new hysteresis is a convex combination of the old one and `±M`, with the sign of the
current; the weight of the old one is `exp(-(eff γ / (3600 Qt)) |I| dt)`.  Missing: currents with `0 < |I| ≤ 1e-8`, for which
the code leaves the target un-normalised (see `C23_tiny_current_moves_away`). -/
theorem C23_convex_partial {B : Nat} (hB : 0 < B) {a : ASOH} {prev new : Input} {st st' : State} (ha : Pars B a)
    (hp : Ins B prev) (hn : Ins B new) (hs : Sts B a st) (h : update .constant prev new st a = .ok st')
    (b : Nat) (hb : b < B) (hsens : Sensible a b) (hd : at2 prev.time b ≤ at2 new.time b)
    (hI : at2 prev.current b = 0 ∨ 1e-8 < |at2 prev.current b|) :
    ∃ w : ℝ, 0 ≤ w ∧ w ≤ 1 ∧
      at2 st'.hyst b = w * at2 st.hyst b + (1 - w) * (Real.sign (at2 prev.current b) * hystMaxAt a st b) ∧
      w = Real.exp (-(effAt a prev b * at2 a.gamma b / (3600 * at2 a.qt b)) * |at2 prev.current b| *
        (at2 new.time b - at2 prev.time b)) := by
  refine ⟨_, Real.exp_nonneg _, ?_, ?_, rfl⟩
  · rw [Real.exp_le_one_iff, neg_mul, neg_mul, neg_nonpos]
    exact mul_nonneg (mul_nonneg (kappa_nonneg hsens prev) (abs_nonneg _)) (sub_nonneg.2 hd)
  · rw [hyst_update hB ha hp hn hs h hb, hystNext_constant, target_sign (by exact hI), neg_mul, neg_mul]
    rfl

/-- C23: under constant current `|h'| ≤ max(|h|, |M|)`, for all currents. -/
theorem C23_envelope_constant {B : Nat} (hB : 0 < B) {a : ASOH} {prev new : Input} {st st' : State} (ha : Pars B a)
    (hp : Ins B prev) (hn : Ins B new) (hs : Sts B a st) (h : update .constant prev new st a = .ok st')
    (b : Nat) (hb : b < B) (hsens : Sensible a b) (hd : at2 prev.time b ≤ at2 new.time b) :
    |at2 st'.hyst b| ≤ max |at2 st.hyst b| |hystMaxAt a st b| := by
  rw [hyst_update hB ha hp hn hs h hb, hystNext_constant]
  apply convex_abs (Real.exp_nonneg _)
  · rw [Real.exp_le_one_iff, neg_nonpos]
    exact mul_nonneg (mul_nonneg (kappa_nonneg hsens prev) (abs_nonneg _)) (sub_nonneg.2 hd)
  · exact le_max_left _ _
  · exact (hystTarget_abs _ _ _).trans (le_max_right _ _)

theorem curve_flat {h : Interp} (hw : h.width = 1) (b : Nat) (s t : ℝ) : curveAt h b s = curveAt h b t := by
  unfold curveAt; rw [if_pos hw, if_pos hw]

/-- C23: over any sequence of steps whose currents share a sign `σ` (beyond 1e-8 A), with `M` not depending on SOC, the
difference to `σ M` is multiplied by a factor in `[0, 1]`: the hysteresis approaches `σ M` monotonically without crossing it.
(Any part of the history is itself such a sequence.) -/
theorem C23_monotone_approach {B : Nat} (hB : 0 < B) {a : ASOH} (ha : Pars B a) (b : Nat) (hb : b < B)
    (hsens : Sensible a b) (hflat : a.hyst.width = 1) (σ : ℝ) (hσ : σ = 1 ∨ σ = -1) (us : List Input) :
    ∀ {u : Input} {st st' : State}, (∀ i ∈ u :: us, Ins B i) → Sts B a st →
    Ecm.run .constant a u us st = .ok st' → (∀ p ∈ steps u us, at2 p.1.time b ≤ at2 p.2.time b) →
    (∀ p ∈ steps u us, 1e-8 < σ * at2 p.1.current b) →
    ∃ w : ℝ, 0 ≤ w ∧ w ≤ 1 ∧ at2 st'.hyst b - σ * hystMaxAt a st b = w * (at2 st.hyst b - σ * hystMaxAt a st b) := by
  induction us with
  | nil =>
    intro u st st' _ _ h _ _
    cases h
    exact ⟨1, by norm_num, le_refl _, by ring⟩
  | cons v us ih =>
    intro u st st' hu hs h ht hI
    unfold Ecm.run at h
    simp only [bind_ok] at h
    obtain ⟨s1, h1, h2⟩ := h
    have hu0 := hu u (by simp)
    have hv0 := hu v (by simp)
    obtain ⟨g1, _⟩ := update_rows hB ha hu0 hv0 hs h1
    obtain ⟨w2, a1, a2, a3⟩ := ih (fun i hi => hu i (List.mem_cons_of_mem _ hi)) g1 h2
      (fun p hp => ht p (by rw [steps_cons]; exact List.mem_cons_of_mem _ hp))
      (fun p hp => hI p (by rw [steps_cons]; exact List.mem_cons_of_mem _ hp))
    have hI0 := hI (u, v) (by simp [steps_cons])
    have hsgn : Real.sign (at2 u.current b) = σ ∧ 1e-8 < |at2 u.current b| := by
      have h8 : (0 : ℝ) < 1e-8 := by norm_num
      rcases hσ with rfl | rfl
      · simp only [one_mul] at hI0
        exact ⟨Real.sign_of_pos (h8.trans hI0), by rwa [abs_of_pos (h8.trans hI0)]⟩
      · have : at2 u.current b < 0 := by have := h8.trans hI0; linarith
        refine ⟨Real.sign_of_neg this, ?_⟩
        rw [abs_of_neg this]; linarith
    obtain ⟨w1, b1, b2, b3, _⟩ := C23_convex_partial hB ha hu0 hv0 hs h1 b hb hsens
      (ht (u, v) (by simp [steps_cons])) (.inr hsgn.2)
    rw [hsgn.1] at b3
    have hM : hystMaxAt a s1 b = hystMaxAt a st b := curve_flat hflat _ _ _
    rw [hM] at a3
    refine ⟨w2 * w1, mul_nonneg a1 b1, mul_le_one₀ a2 b1 b2, ?_⟩
    rw [a3, b3]; ring

/-- C23 fails for currents of at most 1e-8 A: the target is then `M·I` instead of `±M`, so a hysteresis below `M` moves away
from `M` although the cell is charging. -/
theorem C23_tiny_current_moves_away : ∃ st', update .constant (Demo.input 0 1e-9) (Demo.input 10 1e-9) Demo.state Demo.circuit = .ok st' ∧
    at2 Demo.state.hyst 0 < hystMaxAt Demo.circuit Demo.state 0 ∧ at2 st'.hyst 0 < at2 Demo.state.hyst 0 := by
  obtain ⟨s, h⟩ := Demo.steps' .constant 0 1e-9 10 1e-9 (by norm_num)
  have hM : hystMaxAt Demo.circuit Demo.state 0 = 0.015 := by
    show curveAt (Demo.line 0.01 0.02) 0 (at2 (Demo.two 0.5 0.6) 0) = _
    rw [Demo.curveAt_line]
    simp [at2, Demo.two]; norm_num
  have h0 : at2 Demo.state.hyst 0 = 0.001 := rfl
  refine ⟨s, h, by rw [hM, h0]; norm_num, ?_⟩
  rw [hyst_update (by norm_num) Demo.pars (Demo.ins _ _) (Demo.ins _ _) Demo.sts h (b := 0) (by norm_num), hystNext_constant]
  have hI : (inAt (Demo.input 0 1e-9) 0).current = 1e-9 := rfl
  have hT : hystTarget (inAt (Demo.input 0 1e-9) 0) (stAt Demo.state 0).soc (parAt Demo.circuit 0) = 0.015 * 1e-9 := by
    unfold hystTarget
    rw [hI, if_pos (by rw [abs_of_pos] <;> norm_num)]
    show hystMaxAt Demo.circuit Demo.state 0 * _ = _
    rw [hM]
  have hk : 0 < kappa (inAt (Demo.input 0 1e-9) 0) (parAt Demo.circuit 0) * |(inAt (Demo.input 0 1e-9) 0).current| *
      dt (inAt (Demo.input 0 1e-9) 0) (inAt (Demo.input 10 1e-9) 0) := by
    simp only [kappa, eff, dt, parAt, inAt, Demo.input, Demo.circuit, Demo.two, at2, rows, num2, List.getD_cons_zero]
    norm_num
  have hw : Real.exp (-(kappa (inAt (Demo.input 0 1e-9) 0) (parAt Demo.circuit 0) * |(inAt (Demo.input 0 1e-9) 0).current| *
      dt (inAt (Demo.input 0 1e-9) 0) (inAt (Demo.input 10 1e-9) 0))) < 1 := by
    rw [Real.exp_lt_one_iff]; linarith
  rw [hT]
  revert hw
  generalize Real.exp _ = w
  intro hw
  show w * 0.001 + (1 - w) * (0.015 * 1e-9) < 0.001
  nlinarith

theorem demo_sensible (b : Nat) : Sensible Demo.circuit b := by
  refine ⟨?_, ?_, ?_⟩ <;> simp only [at2, Demo.circuit, Demo.two, num2] <;> norm_num
  split <;> norm_num

-- Steps of the two-cell circuit meeting the hypotheses of the C23 theorems.
example : ∃ st', update .constant (Demo.input 0 (-3)) (Demo.input 10 2) Demo.state Demo.circuit = .ok st' ∧
    Sensible Demo.circuit 1 ∧ 1e-8 < |at2 (Demo.input 0 (-3)).current 1| := by
  obtain ⟨s, h⟩ := Demo.steps' .constant 0 (-3) 10 2 (by norm_num)
  refine ⟨s, h, demo_sensible _, ?_⟩
  simp only [at2, Demo.input, num2]; norm_num

-- A circuit with a constant hysteresis, run with three negative currents.
example : ∃ st' : State, Ecm.run .constant { Demo.circuit with hyst := Demo.flat 0.015 } (Demo.input 0 (-3))
      [Demo.input 10 (-1), Demo.input 20 (-2), Demo.input 30 0] Demo.state = .ok st' ∧
    (∀ p ∈ steps (Demo.input 0 (-3)) [Demo.input 10 (-1), Demo.input 20 (-2), Demo.input 30 0],
      1e-8 < (-1) * at2 p.1.current 1) := by
  have hp : Pars 2 { Demo.circuit with hyst := Demo.flat 0.015 } :=
    ⟨Demo.pars.1, Demo.pars.2, Demo.pars.3, Demo.pars.4, Demo.pars.5, Demo.pars.6, Demo.pars.7, Demo.pars.8, Demo.pars.9, .inl rfl⟩
  have hc := Demo.canRun .constant [(10, -1), (20, -2), (30, 0)] 0 (-3) (by norm_num [steps])
  obtain ⟨s, h⟩ := run_ok (beh := .constant) (us := [Demo.input 10 (-1), Demo.input 20 (-2), Demo.input 30 0])
    (u := Demo.input 0 (-3)) (st := Demo.state) (by norm_num) hp (Demo.ins _ _) (by
      intro x hx
      simp only [List.mem_cons, List.not_mem_nil, or_false] at hx
      rcases hx with rfl | rfl | rfl <;> exact Demo.ins _ _) ⟨Demo.sts.1, Demo.sts.2, Demo.sts.3, Demo.sts.4⟩
    ⟨hc.1, hc.2, hc.3, hc.4, .inl rfl⟩
  refine ⟨s, h, ?_⟩
  intro p hp
  simp only [steps, List.zip_cons_cons, List.zip_nil_right, List.mem_cons, List.not_mem_nil, or_false] at hp
  rcases hp with rfl | rfl | rfl <;> simp only [Demo.input, at2, rows, num2, List.getD_cons_zero] <;> norm_num

/-! ## C24 -/

/-- Between sign changes the solver is a convex combination unless a positive current reaches zero. -/
theorem hystAfter_abs {h0 M κ d i0 α m : ℝ} (hκ : 0 ≤ κ) (hd : 0 ≤ d) (hh : |h0| ≤ m) (hM : |M| ≤ m)
    (hok : (0 ≤ i0 ∧ 0 < i0 + α * d) ∨ (i0 ≤ 0 ∧ i0 + α * d ≤ 0)) : |hystAfter h0 M κ d i0 α| ≤ m := by
  unfold hystAfter
  apply convex_abs (Real.exp_nonneg _) _ hh hM
  rw [Real.exp_le_one_iff]
  have hmid : i0 + 0.5 * α * d = (i0 + (i0 + α * d)) / 2 := by ring
  rw [hmid]
  rcases hok with ⟨h1, h2⟩ | ⟨h1, h2⟩
  · rw [if_pos (by linarith)]
    have : 0 ≤ κ * d * ((i0 + (i0 + α * d)) / 2) := mul_nonneg (mul_nonneg hκ hd) (by linarith)
    linarith
  · rw [if_neg (by linarith)]
    exact mul_nonpos_of_nonneg_of_nonpos (mul_nonneg hκ hd) (by linarith)

/-- C24: under linear current behaviour, including ramps from negative through zero, `|h'| ≤ max(|h|, |M|)`.  Missing: ramps
from a positive current to zero or below, where the bound fails (see `C24_envelope_violated`). -/
theorem C24_envelope_linear_partial {B : Nat} (hB : 0 < B) {a : ASOH} {prev new : Input} {st st' : State} (ha : Pars B a)
    (hp : Ins B prev) (hn : Ins B new) (hs : Sts B a st) (h : update .linear prev new st a = .ok st')
    (b : Nat) (hb : b < B) (hsens : Sensible a b) (hd : at2 prev.time b < at2 new.time b)
    (hramp : ¬ (0 < at2 prev.current b ∧ at2 new.current b ≤ 0)) :
    |at2 st'.hyst b| ≤ max |at2 st.hyst b| |hystMaxAt a st b| := by
  rw [hyst_update hB ha hp hn hs h hb]
  have hκ := kappa_nonneg hsens prev
  have hT : |hystTarget (inAt prev b) (at2 st.soc b) (parAt a b)| ≤ max |at2 st.hyst b| |hystMaxAt a st b| :=
    (hystTarget_abs _ _ _).trans (le_max_right _ _)
  have hH : |at2 st.hyst b| ≤ max |at2 st.hyst b| |hystMaxAt a st b| := le_max_left _ _
  have hd' : 0 < at2 new.time b - at2 prev.time b := sub_pos.2 hd
  have hsl : slope .linear (inAt prev b) (inAt new b) * (at2 new.time b - at2 prev.time b) =
      at2 new.current b - at2 prev.current b := by
    show (at2 new.current b - at2 prev.current b) / (at2 new.time b - at2 prev.time b) * _ = _
    field_simp
  unfold hystNext
  simp only
  by_cases hc : at2 prev.current b * at2 new.current b ≥ 0
  · rw [if_pos (.inl hc)]
    refine hystAfter_abs hκ hd'.le hH hT ?_
    show (0 ≤ at2 prev.current b ∧ 0 < at2 prev.current b + _ * (at2 new.time b - at2 prev.time b)) ∨ (at2 prev.current b ≤ 0 ∧
      at2 prev.current b + _ * (at2 new.time b - at2 prev.time b) ≤ 0)
    rw [hsl, add_sub_cancel]
    by_cases hpos : 0 < at2 prev.current b
    · left
      refine ⟨hpos.le, ?_⟩
      by_contra hneg
      exact hramp ⟨hpos, not_lt.1 hneg⟩
    · by_cases hz : at2 prev.current b = 0
      · rcases lt_or_ge 0 (at2 new.current b) with hn | hn
        · exact .inl ⟨hz.ge, hn⟩
        · exact .inr ⟨hz.le, hn⟩
      · right
        have hneg : at2 prev.current b < 0 := lt_of_le_of_ne (not_lt.1 hpos) hz
        refine ⟨hneg.le, ?_⟩
        by_contra hcon
        nlinarith
  · rw [if_neg (by rintro (h | h); exact hc h; cases h)]
    -- the current goes from negative to positive
    have hneg : at2 prev.current b < 0 := by
      by_contra hcon
      have h1 : 0 ≤ at2 prev.current b := not_lt.1 hcon
      rcases eq_or_lt_of_le h1 with h2 | h2
      · rw [← h2, zero_mul] at hc; exact hc (le_refl _)
      · rcases lt_or_ge 0 (at2 new.current b) with h3 | h3
        · exact hc (mul_pos h2 h3).le
        · exact hramp ⟨h2, h3⟩
    have hpos : 0 < at2 new.current b := by
      by_contra hcon
      exact hc (mul_nonneg_of_nonpos_of_nonpos hneg.le (not_lt.1 hcon))
    have hα : 0 < slope .linear (inAt prev b) (inAt new b) := by
      show 0 < (at2 new.current b - at2 prev.current b) / (at2 new.time b - at2 prev.time b)
      exact div_pos (by linarith) hd'
    have hφ : 0 ≤ -(inAt prev b).current / slope .linear (inAt prev b) (inAt new b) :=
      div_nonneg (by show 0 ≤ -at2 prev.current b; linarith) hα.le
    have hend : slope .linear (inAt prev b) (inAt new b) * (-(inAt prev b).current / slope .linear (inAt prev b) (inAt new b)) =
        -at2 prev.current b := by
      show _ * (-at2 prev.current b / _) = _
      field_simp
    have hrest : 0 < dt (inAt prev b) (inAt new b) - -(inAt prev b).current / slope .linear (inAt prev b) (inAt new b) := by
      have : 0 < slope .linear (inAt prev b) (inAt new b) * (dt (inAt prev b) (inAt new b) -
          -(inAt prev b).current / slope .linear (inAt prev b) (inAt new b)) := by
        rw [mul_sub, hend]
        show 0 < _ * (at2 new.time b - at2 prev.time b) - _
        rw [hsl]; linarith
      exact (pos_iff_pos_of_mul_pos this).1 hα
    refine hystAfter_abs hκ hrest.le ?_ (by rw [abs_neg]; exact hT) (.inl ⟨le_refl _, ?_⟩)
    · refine hystAfter_abs hκ hφ hH hT (.inr ⟨hneg.le, ?_⟩)
      rw [hend]
      show at2 prev.current b + -at2 prev.current b ≤ 0
      linarith
    · rw [zero_add]; exact mul_pos hα hrest

/-- C24 fails: a ramp from 10 A to 0 A over 10⁶ s, at most 15 mV of hysteresis and 1 mV before the step, ends with more than
15 mV (in absolute value). -/
theorem C24_envelope_violated : ∃ st', update .linear (Demo.input 0 10) (Demo.input 1000000 0) Demo.state Demo.circuit = .ok st' ∧
    ¬ |at2 st'.hyst 0| ≤ max |at2 Demo.state.hyst 0| |hystMaxAt Demo.circuit Demo.state 0| := by
  obtain ⟨s, h⟩ := Demo.steps' .linear 0 10 1000000 0 (by norm_num)
  have hM : hystMaxAt Demo.circuit Demo.state 0 = 0.015 := by
    show curveAt (Demo.line 0.01 0.02) 0 (at2 (Demo.two 0.5 0.6) 0) = _
    rw [Demo.curveAt_line]
    simp [at2, Demo.two]; norm_num
  have h0 : at2 Demo.state.hyst 0 = 0.001 := rfl
  refine ⟨s, h, ?_⟩
  rw [hyst_update (by norm_num) Demo.pars (Demo.ins _ _) (Demo.ins _ _) Demo.sts h (b := 0) (by norm_num), hM, h0]
  have hT : hystTarget (inAt (Demo.input 0 10) 0) (stAt Demo.state 0).soc (parAt Demo.circuit 0) = 0.015 := by
    rw [target_sign (.inr (by
      show (1e-8 : ℝ) < |10|
      norm_num))]
    show Real.sign 10 * hystMaxAt Demo.circuit Demo.state 0 = _
    rw [hM, Real.sign_of_pos (by norm_num), one_mul]
  unfold hystNext
  have hc : (inAt (Demo.input 0 10) 0).current * (inAt (Demo.input 1000000 0) 0).current ≥ 0 := by
    show (10 : ℝ) * 0 ≥ 0; norm_num
  simp only [if_pos (Or.inl hc : _ ∨ Behavior.linear = .constant)]
  rw [hT]
  unfold hystAfter
  have hs : slope .linear (inAt (Demo.input 0 10) 0) (inAt (Demo.input 1000000 0) 0) = -1e-5 := by
    show ((0 : ℝ) - 10) / (1000000 - 0) = _; norm_num
  have hd : dt (inAt (Demo.input 0 10) 0) (inAt (Demo.input 1000000 0) 0) = 1000000 := by
    show (1000000 : ℝ) - 0 = _; norm_num
  have hi : (inAt (Demo.input 0 10) 0).current = 10 := rfl
  have hk : kappa (inAt (Demo.input 0 10) 0) (parAt Demo.circuit 0) = 0.99 * 0.9 / 36000 := by
    simp only [kappa, eff, parAt, inAt, Demo.input, Demo.circuit, Demo.two, at2, rows, num2, List.getD_cons_zero]
    norm_num
  have hh : (stAt Demo.state 0).hyst = 0.001 := rfl
  simp only [hs, hd, hi, hk, hh]
  rw [if_neg (by norm_num)]
  have hbig : (100 : ℝ) ≤ Real.exp (0.99 * 0.9 / 36000 * 1000000 * (10 + 0.5 * -1e-5 * 1000000)) := by
    refine le_trans ?_ (Real.add_one_le_exp _)
    norm_num
  revert hbig
  generalize Real.exp _ = w
  intro hbig hcon
  have := (abs_le.1 hcon).1
  have hm : max |(0.001 : ℝ)| |0.015| = 0.015 := by norm_num
  rw [hm] at this
  nlinarith

-- A ramp from discharge through zero to charge.
example : ∃ st', update .linear (Demo.input 0 (-3)) (Demo.input 10 2) Demo.state Demo.circuit = .ok st' ∧
    Sensible Demo.circuit 1 ∧ ¬ (0 < at2 (Demo.input 0 (-3)).current 1 ∧ at2 (Demo.input 10 2).current 1 ≤ 0) := by
  obtain ⟨s, h⟩ := Demo.steps' .linear 0 (-3) 10 2 (by norm_num)
  refine ⟨s, h, demo_sensible _, ?_⟩
  simp only [at2, Demo.input, num2]; norm_num

end Verif.Cell
