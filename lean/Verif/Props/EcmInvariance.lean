import Verif.Props.EcmExact
import Verif.Model.Thevenin
/-!
# What does not matter to the cell models: the origin of time (C97) and the other parameters (C98)
-/

namespace Verif

/-- Adding a number to every entry. -/
def Spec.plus (a : Nd ℝ) (c : ℝ) : Nd ℝ := a.map (· + c)

namespace Ecm

/-- The same inputs measured by a clock that is `c` seconds ahead. -/
def Input.later (i : Input) (c : ℝ) : Input := { i with time := Spec.plus i.time c }

theorem sub_plus (x y : Nd ℝ) (c : ℝ) : sub (Spec.plus x c) (Spec.plus y c) = sub x y := by
  unfold sub Nd.map2 Spec.plus Nd.map
  simp only
  split
  · rfl
  · refine congrArg Except.ok ?_
    simp only [Nd.mk.injEq, true_and]
    funext idx
    ring

/-- C97: only differences of times matter: with both times moved by the same amount, `update_transient_state` returns the same arrays
(or raises the same error), for every circuit, state, batch and current behaviour. -/
theorem C97_update_shift (beh : Behavior) (prev new : Input) (st : State) (a : ASOH) (c : ℝ) :
    update beh (prev.later c) (new.later c) st a = update beh prev new st a := by
  unfold update
  simp only [Input.later, sub_plus]
  rfl

/-- C97: so does every sequence of updates. -/
theorem C97_run_shift (beh : Behavior) (a : ASOH) (u : Input) (us : List Input) (st : State) (c : ℝ) :
    run beh a (u.later c) (us.map (·.later c)) st = run beh a u us st := by
  induction us generalizing u st with
  | nil => rfl
  | cons v us ih =>
    simp only [List.map_cons, run, C97_update_shift]
    rcases update beh u v st a with e | s
    · rfl
    · exact ih v s

/-- C97: the terminal voltage does not depend on the time at all. -/
theorem C97_voltage_shift (new : Input) (time : Nd ℝ) (st : State) (a : ASOH) :
    voltage { new with time := time } st a = voltage new st a := rfl

open Cell in
-- A step of the two-cell circuit, and the same step an hour later.
example : ∃ s, update .linear (Demo.input 0 1) (Demo.input 10 2) Demo.state Demo.circuit = .ok s ∧
    update .linear ((Demo.input 0 1).later 3600) ((Demo.input 10 2).later 3600) Demo.state Demo.circuit = .ok s := by
  obtain ⟨s, h⟩ := Demo.steps' .linear 0 1 10 2 (by norm_num)
  exact ⟨s, h, by rw [C97_update_shift, h]⟩

/-- Two steps with the same times and currents; their temperatures may differ. -/
structure SameDrive (prev new prev' new' : Input) : Prop where
  prevTime : prev'.time = prev.time
  newTime : new'.time = new.time
  prevCurrent : prev'.current = prev.current
  newCurrent : new'.current = new.current

open Cell in
theorem update_parts {beh : Behavior} {prev new : Input} {st st1 : State} {a : ASOH} (h : update beh prev new st a = .ok st1) :
    ∃ dt slope discharging charge irc hyst, sub new.time prev.time = .ok dt ∧ currentSlope beh prev new dt = .ok slope ∧
      Nd.truth (prev.current.map fun x => @decide (x < 0) (Classical.propDecidable _)) = .ok discharging ∧
      (do mul dt (← add prev.current ((← mul slope dt).map (· / 2)))) = .ok charge ∧
      (do enforce0 (← add st.soc (← mul (if discharging then Nd.num2 1 else a.ce) (← div charge (capacityValue a.qt))))) = .ok st1.soc ∧
      updateQ0 st.q0 charge = .ok st1.q0 ∧
      updateRC dt new.current slope st.soc st.irc prev.temp a.rcs = .ok irc ∧ st1.irc = irc ∧
      updateHyst beh dt prev.current new.current slope (if discharging then Nd.num2 1 else a.ce) (capacityValue a.qt) st.soc st.hyst
        a.hyst a.gamma = .ok hyst ∧ enforce0 hyst = .ok st1.hyst := by
  unfold update at h
  simp only [bind_ok] at h
  obtain ⟨dt, a1, slp, a2, neg, a3, sd, a4, cd, a5, ch, a6, cq, a7, ec, a8, soc, a9, q0', a10, irc, a11, hy, a12, soc', a14, hy', a15, h⟩ := h
  simp only [pure_ok] at h
  subst h
  refine ⟨dt, slp, neg, ch, irc, hy, a1, a2, a3, ?_, ?_, a10, a11, rfl, a12, a15⟩
  · simp only [bind_ok]; exact ⟨sd, a4, cd, a5, a6⟩
  · simp only [bind_ok]; exact ⟨cq, a7, ec, a8, soc, a9, a14⟩

/-- The parts of two steps with the same drive that do not involve parameters. -/
theorem drive_parts {beh : Behavior} {prev new prev' new' : Input} (hd : SameDrive prev new prev' new') :
    sub new'.time prev'.time = sub new.time prev.time ∧ currentSlope beh prev' new' = currentSlope beh prev new := by
  refine ⟨by rw [hd.newTime, hd.prevTime], ?_⟩
  funext dt
  cases beh with
  | constant => rfl
  | linear => simp only [currentSlope, hd.newCurrent, hd.prevCurrent]

section
variable {beh : Behavior} {prev new prev' new' : Input} {st st' st1 st2 : State} {a a' : ASOH}

/-- C98: the new SOC depends on the old SOC, the capacity and the efficiency only: neither the temperature, nor the other parts of the
state, nor any other parameter has an influence. -/
theorem C98_soc_depends (hd : SameDrive prev new prev' new') (h1 : update beh prev new st a = .ok st1)
    (h2 : update beh prev' new' st' a' = .ok st2) (hs : st'.soc = st.soc) (hq : a'.qt = a.qt) (hc : a'.ce = a.ce) :
    st2.soc = st1.soc := by
  obtain ⟨dt, sl, dis, ch, irc, hy, a1, a2, a3, a4, a5, a6, a7, a8, a9, a10⟩ := update_parts h1
  obtain ⟨dt', sl', dis', ch', irc', hy', b1, b2, b3, b4, b5, b6, b7, b8, b9, b10⟩ := update_parts h2
  obtain ⟨d1, d2⟩ := drive_parts (beh := beh) hd
  rw [d1, a1] at b1; cases b1
  rw [d2, a2] at b2; cases b2
  rw [hd.prevCurrent] at b3 b4
  rw [a3] at b3; cases b3
  rw [a4] at b4; cases b4
  rw [hs, hq, hc, a5] at b5
  exact (Except.ok.inj b5).symm

/-- C98: the new charge of the series capacitor depends on its old charge only, on no parameter of the circuit. -/
theorem C98_q0_depends (hd : SameDrive prev new prev' new') (h1 : update beh prev new st a = .ok st1)
    (h2 : update beh prev' new' st' a' = .ok st2) (hs : st'.q0 = st.q0) : st2.q0 = st1.q0 := by
  obtain ⟨dt, sl, dis, ch, irc, hy, a1, a2, a3, a4, a5, a6, a7, a8, a9, a10⟩ := update_parts h1
  obtain ⟨dt', sl', dis', ch', irc', hy', b1, b2, b3, b4, b5, b6, b7, b8, b9, b10⟩ := update_parts h2
  obtain ⟨d1, d2⟩ := drive_parts (beh := beh) hd
  rw [d1, a1] at b1; cases b1
  rw [d2, a2] at b2; cases b2
  rw [hd.prevCurrent] at b4
  rw [a4] at b4; cases b4
  rw [hs, a6] at b6
  exact (Except.ok.inj b6).symm

/-- C98: the new RC currents depend on the old ones, on the SOC and the temperature at the start of the step, and on the RC elements. -/
theorem C98_irc_depends (hd : SameDrive prev new prev' new') (h1 : update beh prev new st a = .ok st1)
    (h2 : update beh prev' new' st' a' = .ok st2) (hs : st'.soc = st.soc) (hi : st'.irc = st.irc) (ht : prev'.temp = prev.temp)
    (hr : a'.rcs = a.rcs) : st2.irc = st1.irc := by
  obtain ⟨dt, sl, dis, ch, irc, hy, a1, a2, a3, a4, a5, a6, a7, a8, a9, a10⟩ := update_parts h1
  obtain ⟨dt', sl', dis', ch', irc', hy', b1, b2, b3, b4, b5, b6, b7, b8, b9, b10⟩ := update_parts h2
  obtain ⟨d1, d2⟩ := drive_parts (beh := beh) hd
  rw [d1, a1] at b1; cases b1
  rw [d2, a2] at b2; cases b2
  rw [hd.newCurrent, hs, hi, ht, hr, a7] at b7
  rw [a8, b8]
  exact (Except.ok.inj b7).symm

/-- C98: the new hysteresis depends on the old one and the SOC at the start of the step, and on the capacity, the efficiency and the two
parameters of the hysteresis. -/
theorem C98_hyst_depends (hd : SameDrive prev new prev' new') (h1 : update beh prev new st a = .ok st1)
    (h2 : update beh prev' new' st' a' = .ok st2) (hs : st'.soc = st.soc) (hh : st'.hyst = st.hyst) (hq : a'.qt = a.qt)
    (hc : a'.ce = a.ce) (hp : a'.hyst = a.hyst) (hg : a'.gamma = a.gamma) : st2.hyst = st1.hyst := by
  obtain ⟨dt, sl, dis, ch, irc, hy, a1, a2, a3, a4, a5, a6, a7, a8, a9, a10⟩ := update_parts h1
  obtain ⟨dt', sl', dis', ch', irc', hy', b1, b2, b3, b4, b5, b6, b7, b8, b9, b10⟩ := update_parts h2
  obtain ⟨d1, d2⟩ := drive_parts (beh := beh) hd
  rw [d1, a1] at b1; cases b1
  rw [d2, a2] at b2; cases b2
  rw [hd.prevCurrent] at b3 b9
  rw [a3] at b3; cases b3
  rw [hd.newCurrent, hs, hh, hq, hc, hp, hg, a9] at b9; cases b9
  rw [a10] at b10
  exact (Except.ok.inj b10).symm

end

open Cell in
-- Two circuits with different open-circuit voltages, resistances, series capacitors and RC elements, at different temperatures.
example : ∃ s1 s2, update .linear (Demo.input 0 1) (Demo.input 10 2) Demo.state Demo.circuit = .ok s1 ∧
    update .linear (Demo.input 0 1) (Demo.warm 10 2 45) Demo.state Demo.other = .ok s2 ∧
    s2.soc = s1.soc ∧ s2.q0 = s1.q0 ∧ s2.hyst = s1.hyst := by
  obtain ⟨s1, h1⟩ := Demo.steps' .linear 0 1 10 2 (by norm_num)
  obtain ⟨s2, h2⟩ := Demo.other_step
  have hd : SameDrive (Demo.input 0 1) (Demo.input 10 2) (Demo.input 0 1) (Demo.warm 10 2 45) := ⟨rfl, rfl, rfl, rfl⟩
  exact ⟨s1, s2, h1, h2, C98_soc_depends hd h1 h2 rfl rfl rfl, C98_q0_depends hd h1 h2 rfl,
    C98_hyst_depends hd h1 h2 rfl rfl rfl rfl rfl rfl⟩

open Cell in
-- The RC currents of two circuits that differ in everything else, from states that differ in charge and hysteresis.
example : ∃ s1 s2, update .linear (Demo.input 0 1) (Demo.input 10 2) Demo.state Demo.circuit = .ok s1 ∧
    update .linear (Demo.input 0 1) (Demo.input 10 2) { Demo.state with q0 := some (Nd.num2 7), hyst := Nd.num2 0.5 }
      { Demo.circuit with qt := Nd.num2 3, ce := Nd.num2 1, gamma := Nd.num2 0.1 } = .ok s2 ∧ s2.irc = s1.irc := by
  obtain ⟨s1, h1⟩ := Demo.steps' .linear 0 1 10 2 (by norm_num)
  have hc := Demo.canRun .linear [(10, 2)] 0 1 (by norm_num [steps])
  obtain ⟨s2, h2⟩ := update_ok (B := 2) (beh := .linear) (prev := Demo.input 0 1) (new := Demo.input 10 2)
    (st := { Demo.state with q0 := some (Nd.num2 7), hyst := Nd.num2 0.5 })
    (a := { Demo.circuit with qt := Nd.num2 3, ce := Nd.num2 1, gamma := Nd.num2 0.1 }) (by norm_num)
    ⟨.inl rfl, .inl rfl, .inl rfl, Demo.pars.ref, Demo.pars.refTemp, Demo.pars.ent, Demo.pars.r0, Demo.pars.c0, Demo.pars.rcs, Demo.pars.hyst⟩
    (Demo.ins _ _) (Demo.ins _ _) ⟨Demo.sts.soc, by intro q hq; cases hq; exact .inl rfl, Demo.sts.irc, .inl rfl⟩
    ⟨⟨rfl, rfl⟩, ⟨rfl, rfl⟩, fun _ => by simp [Demo.input, Nd.num2], hc.rcs _ (by simp),
      sameShape_of hc.sameBatch (by intro t ht; cases ht; exact .inl rfl), Demo.usable_line _ _ _ (by simp [rows, Nd.num2])⟩
  exact ⟨s1, s2, h1, h2, C98_irc_depends ⟨rfl, rfl, rfl, rfl⟩ h1 h2 rfl rfl rfl rfl⟩

/-- C98: two circuits that share their capacity, efficiency, hysteresis and RC elements have the same transient states forever,
whatever their open-circuit voltages, series resistances and series capacitances. -/
theorem C98_run_depends {beh : Behavior} {a a' : ASOH} (hq : a'.qt = a.qt) (hc : a'.ce = a.ce) (hp : a'.hyst = a.hyst)
    (hg : a'.gamma = a.gamma) (hr : a'.rcs = a.rcs) (u : Input) (us : List Input) (st : State) :
    run beh a' u us st = run beh a u us st := by
  obtain ⟨qt, ce, ocv, r0, c0, rcs, hyst, gamma⟩ := a
  obtain ⟨qt', ce', ocv', r0', c0', rcs', hyst', gamma'⟩ := a'
  simp only at hq hc hp hg hr
  subst hq hc hp hg hr
  have hu : ∀ prev new st, update beh prev new st ⟨qt', ce', ocv', r0', c0', rcs', hyst', gamma'⟩ =
      update beh prev new st ⟨qt', ce', ocv, r0, c0, rcs', hyst', gamma'⟩ := by
    intro prev new st
    unfold update
    rfl
  induction us generalizing u st with
  | nil => rfl
  | cons v us ih =>
    simp only [run, hu]
    rcases update beh u v st _ with e | s
    · rfl
    · exact ih v s

end Ecm

namespace Thevenin

/-- The same inputs measured by a clock that is `c` seconds ahead. -/
def Input.later (i : Input) (c : ℝ) : Input := { i with time := Spec.plus i.time c }

/-- C97, the Thevenin model: only differences of times matter, and the voltage does not depend on the time. -/
theorem C97_thevenin_shift (solver : Solver) (iso : Bool) (prev new : Input) (st : State) (a : ASOH) (c : ℝ) :
    update solver iso (prev.later c) (new.later c) st a = update solver iso prev new st a ∧
      voltage (new.later c) st a = voltage new st a := by
  refine ⟨?_, rfl⟩
  have hm : ∀ b, memberRow solver iso (prev.later c) (new.later c) st a b = memberRow solver iso prev new st a b := by
    intro b
    have ht : entry (new.later c).time b - entry (prev.later c).time b = entry new.time b - entry prev.time b := by
      simp only [Input.later, Spec.plus, entry, Nd.map, Ecm.rows]
      ring
    unfold memberRow
    rw [ht]
    rfl
  unfold update
  rw [show memberRow solver iso (prev.later c) (new.later c) st a = memberRow solver iso prev new st a from funext hm]
  rfl

end Thevenin
end Verif
