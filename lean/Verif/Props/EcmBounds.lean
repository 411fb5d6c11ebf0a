import Verif.Props.EcmRest
/-!
# RC currents and the range of the applied current (C99)
-/

namespace Verif.Cell
open Verif Nd Ecm

/-! ## Specification -/

/-- Before every step of a run, every RC element of member `b` has a positive time constant. -/
def PositiveTaus (beh : Behavior) (a : ASOH) (u : Input) (us : List Input) (st : State) (b : Nat) : Prop :=
  ∀ vs w ws, us = vs ++ w :: ws → ∀ s, Ecm.run beh a u vs st = .ok s → ∀ rc ∈ a.rcs, 0 < tauAt rc (lastInput u vs) s b

/-- All RC currents of member `b` are between `L` and `U`. -/
def RcWithin (a : ASOH) (s : State) (b : Nat) (L U : ℝ) : Prop := ∀ j < a.rcs.length, L ≤ ircAt s b j ∧ ircAt s b j ≤ U

/-! ## Lemmas -/

theorem PositiveTaus.here {beh : Behavior} {a : ASOH} {u v : Input} {us : List Input} {st : State} {b : Nat}
    (h : PositiveTaus beh a u (v :: us) st b) : ∀ rc ∈ a.rcs, 0 < tauAt rc u st b := h [] v us rfl st rfl

theorem PositiveTaus.tail {beh : Behavior} {a : ASOH} {u v : Input} {us : List Input} {st st1 : State} {b : Nat}
    (h : PositiveTaus beh a u (v :: us) st b) (h1 : update beh u v st a = .ok st1) : PositiveTaus beh a v us st1 b := by
  intro vs w ws e s hs
  have := h (v :: vs) w ws (by rw [e]; rfl) s (by
    unfold Ecm.run
    rw [h1]
    exact hs)
  exact this

/-- An invariant of the RC currents kept by every step is kept by every run. -/
theorem rcWithin_run {B : Nat} (hB : 0 < B) {beh : Behavior} {a : ASOH} (ha : Pars B a) {b : Nat} {L U l m : ℝ}
    {r : ℝ → ℝ → Prop}
    (hstep : ∀ {u v : Input} {st st1 : State}, Ins B u → Ins B v → Sts B a st → update beh u v st a = .ok st1 →
      (∀ rc ∈ a.rcs, 0 < tauAt rc u st b) → r (at2 u.time b) (at2 v.time b) → (l ≤ at2 u.current b ∧ at2 u.current b ≤ m) →
      (l ≤ at2 v.current b ∧ at2 v.current b ≤ m) → RcWithin a st b L U → RcWithin a st1 b L U) :
    ∀ {us : List Input} {u : Input} {st st' : State}, (∀ i ∈ u :: us, Ins B i) → Sts B a st → Ecm.run beh a u us st = .ok st' →
    PositiveTaus beh a u us st b → (u :: us).IsChain (fun x y => r (at2 x.time b) (at2 y.time b)) →
    (∀ i ∈ u :: us, l ≤ at2 i.current b ∧ at2 i.current b ≤ m) → RcWithin a st b L U → RcWithin a st' b L U := by
  intro us
  induction us with
  | nil =>
    intro u st st' _ _ h _ _ _ hw
    cases h
    exact hw
  | cons v us ih =>
    intro u st st' hu hs h hτ ht hI hw
    unfold Ecm.run at h
    simp only [bind_ok] at h
    obtain ⟨st1, h1, h2⟩ := h
    rw [List.isChain_cons_cons] at ht
    have i1 := hu u (by simp)
    have i2 := hu v (by simp)
    exact ih (fun i hi => hu i (List.mem_cons_of_mem _ hi)) (update_rows hB ha i1 i2 hs h1).1 h2 (hτ.tail h1) ht.2
      (fun i hi => hI i (List.mem_cons_of_mem _ hi))
      (hstep i1 i2 hs h1 hτ.here ht.1 (hI u (by simp)) (hI v (by simp)) hw)

/-- The weight of the ramp in one step, relative to its length. -/
theorem ramp_weight {x : ℝ} (hx : 0 < x) : 0 ≤ 1 - (1 - Real.exp (-x)) / x ∧ 1 - (1 - Real.exp (-x)) / x ≤ 1 - Real.exp (-x) := by
  have h1 := Real.add_one_le_exp (-x)
  have h2 := Real.add_one_le_exp x
  have h3 : Real.exp (-x) * Real.exp x = 1 := by rw [← Real.exp_add]; simp
  have h4 := Real.exp_pos (-x)
  constructor
  · rw [sub_nonneg, div_le_one hx]; linarith
  · have : Real.exp (-x) ≤ (1 - Real.exp (-x)) / x := by
      rw [le_div_iff₀ hx]
      nlinarith
    linarith

/-- One step under linear behaviour in terms of the two currents. -/
theorem rc_linear_form {d τ i I J : ℝ} (hd : 0 < d) (hτ : 0 < τ) :
    i * Real.exp (-d / τ) + (1 - Real.exp (-d / τ)) * (J - (J - I) / d * τ) + (J - I) / d * d =
      Real.exp (-d / τ) * i + (1 - Real.exp (-d / τ)) * J + (1 - (1 - Real.exp (-d / τ)) / (d / τ)) * (J - I) := by
  field_simp
  ring

/-! ## C99 -/

/-- C99, the part that holds: under constant behaviour, over any history with non-decreasing times, RC currents that start within
a range containing all applied currents stay within it.  Missing: the same under linear behaviour, where it is false
(`C99_ramp_overshoots`) and a wider range is kept (`C99_linear_range_partial`). -/
theorem C99_constant_range_partial {B : Nat} (hB : 0 < B) {a : ASOH} (ha : Pars B a) {u : Input} {us : List Input} {st st' : State}
    (hu : ∀ i ∈ u :: us, Ins B i) (hs : Sts B a st) (h : Ecm.run .constant a u us st = .ok st') {b : Nat} (hb : b < B)
    (hτ : PositiveTaus .constant a u us st b) (ht : (u :: us).IsChain fun x y => at2 x.time b ≤ at2 y.time b) {L U : ℝ}
    (hI : ∀ i ∈ u :: us, L ≤ at2 i.current b ∧ at2 i.current b ≤ U) (h0 : RcWithin a st b L U) : RcWithin a st' b L U := by
  refine rcWithin_run hB ha (r := fun x y => x ≤ y) (l := L) (m := U) ?_ hu hs h hτ ht hI h0
  intro u v st st1 i1 i2 hs h hτ ht _ hv hw j hj
  obtain ⟨g1, g2, _⟩ := C21_rc_between hB ha i1 i2 hs h b hb j hj (hτ _ (List.getElem_mem hj)) ht
  exact ⟨le_trans (le_min (hw j hj).1 hv.1) g1, le_trans g2 (max_le (hw j hj).2 hv.2)⟩

/-- C99, what holds under linear behaviour: over any history with increasing times and currents in `[L, U]`, RC currents stay in
the range widened by its own width on both sides.  Missing: they leave `[L, U]` itself, see `C99_ramp_overshoots`. -/
theorem C99_linear_range_partial {B : Nat} (hB : 0 < B) {a : ASOH} (ha : Pars B a) {u : Input} {us : List Input} {st st' : State}
    (hu : ∀ i ∈ u :: us, Ins B i) (hs : Sts B a st) (h : Ecm.run .linear a u us st = .ok st') {b : Nat} (hb : b < B)
    (hτ : PositiveTaus .linear a u us st b) (ht : (u :: us).IsChain fun x y => at2 x.time b < at2 y.time b) {L U : ℝ}
    (hI : ∀ i ∈ u :: us, L ≤ at2 i.current b ∧ at2 i.current b ≤ U) (h0 : RcWithin a st b (L - (U - L)) (U + (U - L))) :
    RcWithin a st' b (L - (U - L)) (U + (U - L)) := by
  refine rcWithin_run hB ha (r := fun x y => x < y) (l := L) (m := U) ?_ hu hs h hτ ht hI h0
  intro u v st st1 i1 i2 hs h hτ ht hu hv hw j hj
  have hτ := hτ _ (List.getElem_mem hj)
  obtain ⟨w1, w2⟩ := hw j hj
  rw [irc_update hB ha i1 i2 hs h hb hj]
  have e := rc_linear_form (i := ircAt st b j) (I := at2 u.current b) (J := at2 v.current b) (sub_pos.2 ht) hτ
  have e' : rcNext .linear (inAt u b) (inAt v b) (at2 st.soc b) ⟨resAt a.rcs[j].r b, curveAt a.rcs[j].c b⟩ (ircAt st b j) = _ := e
  rw [e']
  obtain ⟨k1, k2⟩ := ramp_weight (div_pos (sub_pos.2 ht) hτ)
  rw [← neg_div] at k1 k2
  have f0 := Real.exp_pos (-(at2 v.time b - at2 u.time b) / tauAt a.rcs[j] u st b)
  generalize Real.exp (-(at2 v.time b - at2 u.time b) / tauAt a.rcs[j] u st b) = f at *
  generalize 1 - (1 - f) / ((at2 v.time b - at2 u.time b) / tauAt a.rcs[j] u st b) = w at *
  generalize at2 u.current b = I at *
  generalize at2 v.current b = J at *
  generalize ircAt st b j = i at *
  have hf1 : 0 ≤ 1 - f := le_trans k1 k2
  constructor
  · rcases le_total I J with hIJ | hIJ
    · nlinarith [mul_nonneg k1 (sub_nonneg.2 hIJ), mul_nonneg f0.le (sub_nonneg.2 w1), mul_nonneg hf1 (sub_nonneg.2 hv.1),
        mul_nonneg hf1 (sub_nonneg.2 (le_trans hu.1 hu.2))]
    · nlinarith [mul_nonneg (sub_nonneg.2 k2) (sub_nonneg.2 hIJ), mul_nonneg f0.le (sub_nonneg.2 w1),
        mul_nonneg hf1 (sub_nonneg.2 hv.1), mul_nonneg hf1 (sub_nonneg.2 hu.2)]
  · rcases le_total I J with hIJ | hIJ
    · nlinarith [mul_nonneg (sub_nonneg.2 k2) (sub_nonneg.2 hIJ), mul_nonneg f0.le (sub_nonneg.2 w2),
        mul_nonneg hf1 (sub_nonneg.2 hv.2), mul_nonneg hf1 (sub_nonneg.2 hu.1)]
    · nlinarith [mul_nonneg k1 (sub_nonneg.2 hIJ), mul_nonneg f0.le (sub_nonneg.2 w2), mul_nonneg hf1 (sub_nonneg.2 hv.2),
        mul_nonneg hf1 (sub_nonneg.2 (le_trans hu.1 hu.2))]

/-- C99 fails under linear behaviour: an RC element without current, in a cell ramped from rest to a charging current `I` over a
time longer than its time constant, ends with more current than was ever applied. -/
theorem C99_ramp_overshoots {B : Nat} (hB : 0 < B) {a : ASOH} {prev new : Input} {st st' : State} (ha : Pars B a)
    (hp : Ins B prev) (hn : Ins B new) (hs : Sts B a st) (h : update .linear prev new st a = .ok st')
    (b : Nat) (hb : b < B) (j : Nat) (hj : j < a.rcs.length) (hτ : 0 < tauAt a.rcs[j] prev st b)
    (hd : tauAt a.rcs[j] prev st b < at2 new.time b - at2 prev.time b) (h0 : ircAt st b j = 0) (hI : at2 prev.current b = 0)
    (hJ : 0 < at2 new.current b) : at2 new.current b < ircAt st' b j := by
  rw [irc_update hB ha hp hn hs h hb hj]
  have e := rc_linear_form (i := ircAt st b j) (I := at2 prev.current b) (J := at2 new.current b) (hτ.trans hd) hτ
  have e' : rcNext .linear (inAt prev b) (inAt new b) (at2 st.soc b) ⟨resAt a.rcs[j].r b, curveAt a.rcs[j].c b⟩ (ircAt st b j) = _ := e
  rw [e', h0, hI]
  have hx : 1 < (at2 new.time b - at2 prev.time b) / tauAt a.rcs[j] prev st b := by rwa [lt_div_iff₀ hτ, one_mul]
  have hf : Real.exp (-(at2 new.time b - at2 prev.time b) / tauAt a.rcs[j] prev st b) < 1 := by
    rw [Real.exp_lt_one_iff]
    exact div_neg_of_neg_of_pos (by linarith) hτ
  generalize Real.exp (-(at2 new.time b - at2 prev.time b) / tauAt a.rcs[j] prev st b) = f at *
  generalize (at2 new.time b - at2 prev.time b) / tauAt a.rcs[j] prev st b = x at *
  generalize at2 new.current b = J at *
  have : (1 - f) / x < 1 - f := by
    rw [div_lt_iff₀ (by linarith)]
    nlinarith
  nlinarith

/-! ## Examples -/

theorem demo_taus (t i : ℝ) (s : State) : ∀ rc ∈ Demo.circuit.rcs, 0 < tauAt rc (Demo.input t i) s 1 := by
  intro rc hrc
  simp only [Demo.circuit, List.mem_cons, List.not_mem_nil, or_false] at hrc
  rcases hrc with rfl | rfl <;>
    · simp only [tauAt, Demo.input, Option.map_some, resAt, Demo.res, curveAt, Demo.flat, Interp.width, Interp.rows, num2, Demo.two,
        List.getD_cons_zero, List.getD_cons_succ, if_true]
      norm_num
      positivity

-- A pulse of 2 A followed by a rest, seen by the second of two cells.
example (beh : Behavior) : ∃ st', Ecm.run beh Demo.circuit (Demo.input 0 0) [Demo.input 10 2, Demo.input 20 0] Demo.state = .ok st' ∧
    PositiveTaus beh Demo.circuit (Demo.input 0 0) [Demo.input 10 2, Demo.input 20 0] Demo.state 1 ∧
    ([Demo.input 0 0, Demo.input 10 2, Demo.input 20 0].IsChain fun x y => at2 x.time 1 < at2 y.time 1) ∧
    (∀ i ∈ [Demo.input 0 0, Demo.input 10 2, Demo.input 20 0], 0 ≤ at2 i.current 1 ∧ at2 i.current 1 ≤ 2) ∧
    RcWithin Demo.circuit Demo.state 1 0 2 := by
  obtain ⟨st', h⟩ := Demo.runs beh [(10, 2), (20, 0)] 0 0 (by
    intro p hp
    simp only [steps, List.zip_cons_cons, List.zip_nil_right, List.mem_cons, List.not_mem_nil, or_false] at hp
    rcases hp with rfl | rfl <;> norm_num)
  refine ⟨st', h, ?_, ?_, ?_, ?_⟩
  · intro vs w ws e s _
    have hl : lastInput (Demo.input 0 0) vs ∈ [Demo.input 0 0, Demo.input 10 2, Demo.input 20 0] := by
      have := lastInput_mem vs (Demo.input 0 0)
      rcases List.mem_cons.1 this with h | h
      · rw [h]; simp
      · apply List.mem_cons_of_mem
        rw [e]; simp [h]
    simp only [List.mem_cons, List.not_mem_nil, or_false] at hl
    rcases hl with hl | hl | hl <;> rw [hl] <;> exact demo_taus _ _ s
  · simp [at2, Demo.input, num2]; norm_num
  · intro i hi
    simp only [List.mem_cons, List.not_mem_nil, or_false] at hi
    rcases hi with rfl | rfl | rfl <;> norm_num [at2, Demo.input, num2]
  · intro j _
    norm_num [ircAt, Demo.state, rows]

-- A cell without RC currents ramped from rest to 1 A in 100 s.
example : ∃ st st', Sts 2 Demo.circuit st ∧ update .linear (Demo.input 0 0) (Demo.input 100 1) st Demo.circuit = .ok st' ∧
    (0 : ℝ) < tauAt Demo.circuit.rcs[1] (Demo.input 0 0) st 1 ∧
    tauAt Demo.circuit.rcs[1] (Demo.input 0 0) st 1 < at2 (Demo.input 100 1).time 1 - at2 (Demo.input 0 0).time 1 ∧
    ircAt st 1 1 = 0 := by
  have hs : Sts 2 Demo.circuit { Demo.state with irc := ⟨[2, 2], fun _ => 0⟩ } := ⟨Demo.sts.1, Demo.sts.2, .inr rfl, Demo.sts.4⟩
  obtain ⟨st', h⟩ := run_ok (by norm_num) Demo.pars (Demo.ins 0 0) (us := [Demo.input 100 1]) (by
    intro i hi; simp only [List.mem_cons, List.not_mem_nil, or_false] at hi; rw [hi]; exact Demo.ins _ _) hs
    (Demo.canRun .linear [(100, 1)] 0 0 (by simp [steps]))
  simp only [Ecm.run, bind_ok] at h
  obtain ⟨s1, h1, _⟩ := h
  refine ⟨_, s1, hs, h1, demo_taus 0 0 _ _ (List.getElem_mem (by simp [Demo.circuit])), ?_, rfl⟩
  simp only [tauAt, Demo.circuit, Demo.input, List.getElem_cons_succ, List.getElem_cons_zero, Option.map_some, resAt, Demo.res,
    curveAt, Demo.flat, Interp.width, Interp.rows, num2, Demo.two, List.getD_cons_zero, List.getD_cons_succ, if_true, at2]
  norm_num
  have : Real.exp (-(1 / 80)) ≤ 1 := by rw [Real.exp_le_one_iff]; norm_num
  linarith

end Verif.Cell
