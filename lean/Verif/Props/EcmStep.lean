import Verif.Props.EcmHyst
import Mathlib.Algebra.BigOperators.Fin
/-!
# Splitting steps, zero-length steps, terminal voltage (C25–C27)
-/

namespace Verif.Cell
open Verif Nd Ecm

theorem irc_list {B : Nat} {a : ASOH} {s : State} (hs : Sts B a s) (b : Nat) :
    (stAt s b).irc = (List.range a.rcs.length).map (ircAt s b) := by
  have : s.irc.shape.getD 1 0 = a.rcs.length := by rcases hs.irc with e | e <;> simp [e]
  simp only [stAt, this]
  rfl

theorem same_of_stAt {B : Nat} {a : ASOH} {s s' : State} (hs : Sts B a s) (hs' : Sts B a s') {b : Nat}
    (h : stAt s b = stAt s' b) :
    at2 s.soc b = at2 s'.soc b ∧ s.q0.map (at2 · b) = s'.q0.map (at2 · b) ∧
      (∀ j < a.rcs.length, ircAt s b j = ircAt s' b j) ∧ at2 s.hyst b = at2 s'.hyst b := by
  refine ⟨congrArg St.soc h, congrArg St.q0 h, fun j hj => ?_, congrArg St.hyst h⟩
  have := congrArg (fun s => s.irc[j]?) h
  simpa [irc_list hs, irc_list hs', hj] using this

/-- One-cell version of C25. -/
theorem step_split {beh : Behavior} {u0 u1 u2 : In} {s : St} {p : Par} (h1 : u1.current = u0.current)
    (h2 : u2.current = u0.current) (hT : u1.temp = u0.temp)
    (hrc : ∀ rc ∈ p.rcs, ∀ x y, rc.r x = rc.r y ∧ rc.c x = rc.c y) (hh : ∀ x y, p.hystMax x = p.hystMax y) :
    step beh u1 u2 (step beh u0 u1 s p) p = step beh u0 u2 s p := by
  have sl : ∀ {a b : In}, b.current = a.current → slope beh a b = 0 := by
    intro a b h; unfold slope; cases beh <;> simp [h]
  have s01 := sl h1
  have s12 := sl (h2.trans h1.symm)
  have s02 := sl h2
  have ef : eff u1 p = eff u0 p := by unfold eff; rw [h1]
  have ka : kappa u1 p = kappa u0 p := by unfold kappa; rw [ef]
  have c01 : charge beh u0 u1 = (u1.time - u0.time) * u0.current := by simp [charge, s01, dt]
  have c12 : charge beh u1 u2 = (u2.time - u1.time) * u0.current := by simp [charge, s12, dt, h1]
  have c02 : charge beh u0 u2 = (u2.time - u0.time) * u0.current := by simp [charge, s02, dt]
  have soc : (step beh u1 u2 (step beh u0 u1 s p) p).soc = (step beh u0 u2 s p).soc := by
    simp only [step, ef, c01, c12, c02]; ring
  have q0 : (step beh u1 u2 (step beh u0 u1 s p) p).q0 = (step beh u0 u2 s p).q0 := by
    simp only [step, c01, c12, c02]
    cases s.q0 <;> simp; ring
  have irc : (step beh u1 u2 (step beh u0 u1 s p) p).irc = (step beh u0 u2 s p).irc := by
    simp only [step]
    generalize s.soc + eff u0 p * (charge beh u0 u1 / (3600 * p.qt)) = soc1
    generalize s.irc = l
    revert hrc
    generalize p.rcs = rs
    intro hrc
    induction rs generalizing l with
    | nil => simp
    | cons rc rs ih =>
      cases l with
      | nil => simp
      | cons i l =>
        simp only [List.zipWith_cons_cons, List.cons.injEq]
        refine ⟨?_, ih l fun rc' h' => hrc rc' (by simp [h'])⟩
        obtain ⟨e1, e2⟩ := hrc rc (by simp) soc1 s.soc
        simp only [rcNext, s01, s12, s02, hT, e1, e2, dt, h1, h2]
        have : Real.exp (-(u2.time - u0.time) / (rc.r s.soc u0.temp * rc.c s.soc)) =
            Real.exp (-(u1.time - u0.time) / (rc.r s.soc u0.temp * rc.c s.soc)) *
            Real.exp (-(u2.time - u1.time) / (rc.r s.soc u0.temp * rc.c s.soc)) := by
          rw [← Real.exp_add]; congr 1; ring
        rw [this]; ring
  have nx : ∀ {a b : In} {t : St}, slope beh a b = 0 → b.current = a.current → hystNext beh a b t p =
      Real.exp (-(kappa a p * |a.current| * dt a b)) * t.hyst +
        (1 - Real.exp (-(kappa a p * |a.current| * dt a b))) * hystTarget a t.soc p := by
    intro a b t hz hc
    unfold hystNext
    simp only
    rw [if_pos (.inl (by rw [hc]; exact mul_self_nonneg _)), hz]
    exact hystAfter_flat _ _ _ _ _
  have tg : ∀ x y, hystTarget u1 x p = hystTarget u0 y p := by
    intro x y; unfold hystTarget; rw [h1, hh x y]
  have hyst : (step beh u1 u2 (step beh u0 u1 s p) p).hyst = (step beh u0 u2 s p).hyst := by
    show hystNext beh u1 u2 (step beh u0 u1 s p) p = hystNext beh u0 u2 s p
    rw [nx s12 (h2.trans h1.symm), nx s02 h2]
    show _ * hystNext beh u0 u1 s p + _ = _
    rw [nx s01 h1, tg _ s.soc, ka, h1]
    simp only [dt]
    have : Real.exp (-(kappa u0 p * |u0.current| * (u2.time - u0.time))) =
        Real.exp (-(kappa u0 p * |u0.current| * (u1.time - u0.time))) *
        Real.exp (-(kappa u0 p * |u0.current| * (u2.time - u1.time))) := by
      rw [← Real.exp_add]; congr 1; ring
    rw [this]; ring
  generalize step beh u1 u2 (step beh u0 u1 s p) p = x at *
  generalize step beh u0 u2 s p = y at *
  cases x; cases y
  simp_all

/-- C25: for every member, two consecutive steps `u0 → u1 → u2` at one current, with RC parameters and hysteresis that do not
depend on SOC and an unchanged temperature, give the same SOC, q0, RC currents and hysteresis as the single step `u0 → u2`. -/
theorem C25_split_step {B : Nat} (hB : 0 < B) {beh : Behavior} {a : ASOH} {u0 u1 u2 : Input} {st s1 s2 : State}
    (ha : Pars B a) (hu : Ins B u0 ∧ Ins B u1 ∧ Ins B u2) (hs : Sts B a st)
    (hflat : (∀ rc ∈ a.rcs, rc.r.interp.width = 1 ∧ rc.c.width = 1) ∧ a.hyst.width = 1)
    (htwo : Ecm.run beh a u0 [u1, u2] st = .ok s2) (hone : update beh u0 u2 st a = .ok s1)
    (b : Nat) (hb : b < B) (hI : at2 u1.current b = at2 u0.current b ∧ at2 u2.current b = at2 u0.current b)
    (hT : u1.temp.map (at2 · b) = u0.temp.map (at2 · b))
    (_hmove : beh = .linear → at2 u0.time b ≠ at2 u1.time b ∧ at2 u1.time b ≠ at2 u2.time b ∧ at2 u0.time b ≠ at2 u2.time b)
    (_hτ : at2 a.qt b ≠ 0 ∧ ∀ rc ∈ a.rcs, tauAt rc u0 st b ≠ 0) :
    at2 s2.soc b = at2 s1.soc b ∧ s2.q0.map (at2 · b) = s1.q0.map (at2 · b) ∧
      (∀ j < a.rcs.length, ircAt s2 b j = ircAt s1 b j) ∧ at2 s2.hyst b = at2 s1.hyst b := by
  obtain ⟨g1, g2⟩ := run_rows hB ha hu.1 (us := [u1, u2]) (by simp [hu]) hs htwo
  obtain ⟨k1, k2⟩ := update_rows hB ha hu.1 hu.2.2 hs hone
  refine same_of_stAt g1 k1 ?_
  rw [g2 b hb, k2 b hb]
  refine step_split hI.1 hI.2 hT ?_ ?_
  · intro rc hrc x y
    simp only [parAt, List.mem_map] at hrc
    obtain ⟨rc, hrc, rfl⟩ := hrc
    refine ⟨?_, curve_flat (hflat.1 rc hrc).2 _ _ _⟩
    funext t
    simp only [resAt, curve_flat (hflat.1 rc hrc).1 b x y]
  · intro x y
    exact curve_flat hflat.2 _ _ _

/-- One-cell version of C26. -/
theorem step_zero {prev new : In} {s : St} {p : Par} (h : new.time = prev.time) (hl : s.irc.length = p.rcs.length) :
    step .constant prev new s p = s := by
  have hd : dt prev new = 0 := by simp [dt, h]
  have hc : charge .constant prev new = 0 := by simp [charge, hd]
  have irc : List.zipWith (rcNext .constant prev new s.soc) p.rcs s.irc = s.irc := by
    revert hl
    generalize s.irc = l
    generalize p.rcs = rs
    induction rs generalizing l with
    | nil => intro hl; simp at hl; simp [hl]
    | cons rc rs ih =>
      intro hl
      cases l with
      | nil => simp at hl
      | cons i l =>
        simp only [List.zipWith_cons_cons, List.cons.injEq]
        refine ⟨by simp [rcNext, hd], ih l (by simpa using hl)⟩
  unfold step
  rw [hc, irc, hystNext_constant, hd]
  cases s with
  | mk soc q0 irc hyst => cases q0 <;> simp

/-- C26: under constant behaviour a step of zero length leaves the state of every member unchanged. -/
theorem C26_zero_step {B : Nat} (hB : 0 < B) {a : ASOH} {prev new : Input} {st st' : State} (ha : Pars B a)
    (hp : Ins B prev) (hn : Ins B new) (hs : Sts B a st) (h : update .constant prev new st a = .ok st')
    (b : Nat) (hb : b < B) (ht : at2 new.time b = at2 prev.time b)
    (_hτ : at2 a.qt b ≠ 0 ∧ ∀ rc ∈ a.rcs, tauAt rc prev st b ≠ 0) :
    at2 st'.soc b = at2 st.soc b ∧ st'.q0.map (at2 · b) = st.q0.map (at2 · b) ∧
      (∀ j < a.rcs.length, ircAt st' b j = ircAt st b j) ∧ at2 st'.hyst b = at2 st.hyst b := by
  obtain ⟨g1, g2⟩ := update_rows hB ha hp hn hs h
  refine same_of_stAt g1 hs ?_
  rw [g2 b hb]
  refine step_zero ht ?_
  rw [irc_list hs]
  simp [parAt]

theorem flat_pars : Pars 2 { Demo.circuit with hyst := Demo.flat 0.015 } :=
  ⟨Demo.pars.1, Demo.pars.2, Demo.pars.3, Demo.pars.4, Demo.pars.5, Demo.pars.6, Demo.pars.7, Demo.pars.8, Demo.pars.9, .inl rfl⟩

theorem flat_runs (l : List (ℝ × ℝ)) (t i : ℝ) (beh : Behavior) (h : ∀ p ∈ steps (t, i) l, p.2.1 ≠ p.1.1) :
    ∃ st', Ecm.run beh { Demo.circuit with hyst := Demo.flat 0.015 } (Demo.input t i) (l.map fun p => Demo.input p.1 p.2)
      Demo.state = .ok st' := by
  have hc := Demo.canRun beh l t i h
  exact run_ok (by norm_num) flat_pars (Demo.ins _ _) (by
      intro x hx
      obtain ⟨p, _, rfl⟩ := List.mem_map.1 hx
      exact Demo.ins _ _) ⟨Demo.sts.1, Demo.sts.2, Demo.sts.3, Demo.sts.4⟩ ⟨hc.1, hc.2, hc.3, hc.4, .inl rfl⟩

-- A 25 s step at 2 A against 10 s and 15 s, for the two-cell circuit with SOC-independent hysteresis.
example : ∃ s1 s2, Ecm.run .constant { Demo.circuit with hyst := Demo.flat 0.015 } (Demo.input 0 2)
      [Demo.input 10 2, Demo.input 25 2] Demo.state = .ok s2 ∧
    update .constant (Demo.input 0 2) (Demo.input 25 2) Demo.state { Demo.circuit with hyst := Demo.flat 0.015 } = .ok s1 ∧
    (∀ rc ∈ Demo.circuit.rcs, rc.r.interp.width = 1 ∧ rc.c.width = 1) ∧ (Demo.flat 0.015).width = 1 := by
  obtain ⟨s2, h2⟩ := flat_runs [(10, 2), (25, 2)] 0 2 .constant (by norm_num [steps])
  obtain ⟨s1, h1⟩ := flat_runs [(25, 2)] 0 2 .constant (by norm_num [steps])
  simp only [List.map_cons, List.map_nil, Ecm.run, bind_ok] at h1
  obtain ⟨x, h1, hx⟩ := h1
  cases hx
  refine ⟨s1, s2, h2, h1, ?_, rfl⟩
  intro rc hrc
  simp only [Demo.circuit, List.mem_cons, List.not_mem_nil, or_false] at hrc
  rcases hrc with rfl | rfl <;> exact ⟨rfl, rfl⟩

-- A zero-length step with a change of current.
example : ∃ st', update .constant (Demo.input 5 2) (Demo.input 5 (-1)) Demo.state Demo.circuit = .ok st' ∧
    at2 (Demo.input 5 (-1)).time 1 = at2 (Demo.input 5 2).time 1 := by
  have hc := Demo.canRun .constant [] 5 2 (by simp [steps])
  obtain ⟨s, h⟩ := update_ok (beh := .constant) (prev := Demo.input 5 2) (new := Demo.input 5 (-1)) (by norm_num) Demo.pars
    (Demo.ins _ _) (Demo.ins _ _) Demo.sts
    ⟨⟨rfl, rfl⟩, ⟨rfl, rfl⟩, (fun h => by cases h), hc.rcs _ (by simp), sameShape_of hc.sameBatch (by intro t ht; cases ht; exact .inl rfl), hc.hyst⟩
  exact ⟨s, h, rfl⟩

/-! ## C27 -/

/-- Voltage of the series capacitor of member `b`: nothing without charge or without capacitor. -/
noncomputable def seriesAt (st : State) (a : ASOH) (b : Nat) : ℝ :=
  match st.q0, a.c0 with
  | some q, some c => at2 q b / curveAt c b (at2 st.soc b)
  | _, _ => 0

theorem zip_sum {α : Type} (f : Nat → α → ℝ) (l : List α) :
    (List.zipWith (fun j x => f j x) (List.range l.length) l).sum = ∑ j : Fin l.length, f j l[j] := by
  rw [← List.sum_ofFn]
  congr 1
  apply List.ext_getElem
  · simp
  · intro n h1 h2; simp

/-- C27: the terminal voltage of every member is
`OCV(SOC,T) + I R0(SOC,T) + q0/C0(SOC) + Σ_j i_j R_j(SOC,T) + hyst`. -/
theorem C27_voltage_sum {B : Nat} (hB : 0 < B) {new : Input} {st : State} {a : ASOH} {v : Nd ℝ} (ha : Pars B a)
    (hn : Ins B new) (hs : Sts B a st) (h : voltage new st a = .ok v) (b : Nat) (hb : b < B)
    (_hc : ∀ c ∈ a.c0, curveAt c b (at2 st.soc b) ≠ 0) :
    at2 v b = ocvAt a.ocv b (at2 st.soc b) (new.temp.map (at2 · b)) +
      at2 new.current b * resAt a.r0 b (at2 st.soc b) (new.temp.map (at2 · b)) + seriesAt st a b +
      ∑ j : Fin a.rcs.length, ircAt st b j * resAt a.rcs[j].r b (at2 st.soc b) (new.temp.map (at2 · b)) +
      at2 st.hyst b := by
  rw [(voltage_rows hB ha hn hs h).2 b hb]
  unfold volt
  rw [irc_list hs]
  have e : List.zipWith (fun i (rc : RC) => i * rc.r (stAt st b).soc (inAt new b).temp)
      ((List.range a.rcs.length).map (ircAt st b)) (parAt a b).rcs =
      List.zipWith (fun j (rc : Ecm.RC) => ircAt st b j * resAt rc.r b (at2 st.soc b) (new.temp.map (at2 · b)))
        (List.range a.rcs.length) a.rcs := by
    simp only [parAt, List.zipWith_map_left, List.zipWith_map_right]
    rfl
  rw [e, zip_sum]
  refine congrArg₂ (· + ·) (congrArg₂ (· + ·) (congrArg₂ (· + ·) rfl ?_) rfl) rfl
  unfold seriesAt
  simp only [stAt, parAt]
  cases st.q0 <;> cases a.c0 <;> rfl

/-- C27: at rest (no current) with zero transients the terminal voltage is the open-circuit voltage. -/
theorem C27_rest_is_ocv {B : Nat} (hB : 0 < B) {new : Input} {st : State} {a : ASOH} {v : Nd ℝ} (ha : Pars B a)
    (hn : Ins B new) (hs : Sts B a st) (h : voltage new st a = .ok v) (b : Nat) (hb : b < B)
    (hI : at2 new.current b = 0) (hq : ∀ q ∈ st.q0, at2 q b = 0) (hi : ∀ j < a.rcs.length, ircAt st b j = 0)
    (hh : at2 st.hyst b = 0) (hc : ∀ c ∈ a.c0, curveAt c b (at2 st.soc b) ≠ 0) :
    at2 v b = ocvAt a.ocv b (at2 st.soc b) (new.temp.map (at2 · b)) := by
  rw [C27_voltage_sum hB ha hn hs h b hb hc, hI, hh]
  have : seriesAt st a b = 0 := by
    unfold seriesAt
    split
    · rename_i q c hq' hc'; rw [hq q (by rw [hq']; rfl), zero_div]
    · rfl
  rw [this, Finset.sum_eq_zero (fun j _ => by rw [hi j j.2, zero_mul])]
  ring

/-- C27: a circuit with neither series capacitor nor RC elements: `V = OCV + I R0 + hyst`. -/
theorem C27_absent_terms {B : Nat} (hB : 0 < B) {new : Input} {st : State} {a : ASOH} {v : Nd ℝ} (ha : Pars B a)
    (hn : Ins B new) (hs : Sts B a st) (h : voltage new st a = .ok v) (b : Nat) (hb : b < B)
    (hc : a.c0 = none) (hr : a.rcs = []) :
    at2 v b = ocvAt a.ocv b (at2 st.soc b) (new.temp.map (at2 · b)) +
      at2 new.current b * resAt a.r0 b (at2 st.soc b) (new.temp.map (at2 · b)) + at2 st.hyst b := by
  rw [C27_voltage_sum hB ha hn hs h b hb (by rw [hc]; intro c hc; cases hc)]
  have : seriesAt st a b = 0 := by unfold seriesAt; rw [hc]; cases st.q0 <;> rfl
  rw [this]
  cases a
  simp only at hr
  subst hr
  simp

theorem demo_canVoltage (t i : ℝ) (st : State) : CanVoltage (Demo.input t i) st Demo.circuit := by
  refine ⟨Demo.usable_line _ _ _ (by simp [Demo.circuit, rows, num2]), fun _ => .inl rfl, ?_, Demo.usable_res _ _,
    fun _ => ⟨_, rfl, .inl rfl⟩, ?_, 1, ?_⟩
  · intro t ht; cases ht; exact ⟨.inl rfl, .inl rfl, .inl rfl⟩
  · intro rc hrc
    simp only [Demo.circuit, List.mem_cons, List.not_mem_nil, or_false] at hrc
    rcases hrc with rfl | rfl <;> exact Demo.usable_res _ _
  · intro rc hrc
    simp only [Demo.circuit, List.mem_cons, List.not_mem_nil, or_false] at hrc
    rcases hrc with rfl | rfl <;> rfl

-- The two-cell circuit: voltage in operation, and at rest.
example : ∃ v, voltage (Demo.input 0 2) Demo.state Demo.circuit = .ok v ∧
    ∀ c ∈ Demo.circuit.c0, curveAt c 1 (at2 Demo.state.soc 1) ≠ 0 := by
  obtain ⟨v, h⟩ := voltage_ok (by norm_num) Demo.pars (Demo.ins 0 2) Demo.sts (demo_canVoltage _ _ _)
  refine ⟨v, h, ?_⟩
  intro c hc; cases hc
  show (1000 : ℝ) ≠ 0; norm_num

example : ∃ v, voltage (Demo.input 0 0) { Demo.state with irc := ⟨[2, 2], fun _ => 0⟩, hyst := num2 0 } Demo.circuit = .ok v := by
  refine voltage_ok (B := 2) (by norm_num) Demo.pars (Demo.ins 0 0) ⟨Demo.sts.1, Demo.sts.2, .inr rfl, .inl rfl⟩ ?_
  exact demo_canVoltage _ _ _

end Verif.Cell
