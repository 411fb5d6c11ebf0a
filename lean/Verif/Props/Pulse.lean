import Verif.Props.TwoModels
import Verif.Spec.Pulse
/-!
# C158: what a pulse of current shows
-/

namespace Verif
open Thevenin Nd Spec Set

/-! ## Jumps of the current -/

/-- C158.  When the current of an equivalent circuit jumps (two inputs at the same time, and of the same temperature), the voltage changes by the jump times the
series resistance at the present SOC and temperature, whatever the circuit and its state. -/
theorem C158_circuit_jump {B : Nat} (hB : 0 < B) {a : Ecm.ASOH} {prev new : Ecm.Input} {st st' : Ecm.State} {v v' : Nd ℝ} (ha : Cell.Pars B a)
    (hp : Cell.Ins B prev) (hn : Cell.Ins B new) (hs : Cell.Sts B a st) (h : Ecm.update .constant prev new st a = .ok st')
    (hv : Ecm.voltage prev st a = .ok v) (hv' : Ecm.voltage new st' a = .ok v') {b : Nat} (hb : b < B) (time : Cell.at2 new.time b = Cell.at2 prev.time b)
    (temp : new.temp.map (Cell.at2 · b) = prev.temp.map (Cell.at2 · b))
    (_hτ : Cell.at2 a.qt b ≠ 0 ∧ ∀ rc ∈ a.rcs, Cell.tauAt rc prev st b ≠ 0) :
    Cell.at2 v' b - Cell.at2 v b =
      (Cell.at2 new.current b - Cell.at2 prev.current b) * Cell.resAt a.r0 b (Cell.at2 st.soc b) (new.temp.map (Cell.at2 · b)) := by
  obtain ⟨g1, g2⟩ := Cell.update_rows hB ha hp hn hs h
  rw [(Cell.voltage_rows hB ha hn g1 hv').2 b hb, (Cell.voltage_rows hB ha hp hs hv).2 b hb, g2 b hb, Cell.step_zero time (by
    rw [Cell.irc_list hs]
    simp [Cell.parAt])]
  unfold Cell.volt
  rw [show (Cell.inAt new b).temp = (Cell.inAt prev b).temp from temp, temp]
  show _ + Cell.at2 new.current b * Cell.resAt a.r0 b (Cell.at2 st.soc b) (prev.temp.map (Cell.at2 · b)) + _ + _ + _ -
    (_ + Cell.at2 prev.current b * Cell.resAt a.r0 b (Cell.at2 st.soc b) (prev.temp.map (Cell.at2 · b)) + _ + _ + _) = _
  ring

/-- C158.  The same for the Thevenin model, if the cell was at the ambient temperature (as it is after every step of an isothermal model). -/
theorem C158_thevenin_jump {solver : Solver} (hsol : ExactSolver solver) {a : Thevenin.ASOH} (hr0 : Tables a.r0) (hrcs : ∀ q ∈ a.rcs, Tables q.1 ∧ Tables q.2)
    (hocv : ∃ n d, a.ocv.coeffs.shape = [n, d] ∧ 1 ≤ d) {B : Nat} (hB : 1 ≤ B) (ha : a.Batched B) (hpos : ∀ b < B, Positive (tCellAt a b))
    (_hQ : ∀ b < B, entry a.capacity b ≠ 0) {u w : Input} {st : State}
    (h1 : st.soc.shape = [B, 1]) (h2 : st.temp.shape = [B, 1]) (h3 : st.eta.shape = [B, a.rcs.length])
    (hu : u.Batched B ∧ ∃ n, u.current.shape = [n, 1]) (hw : w.Batched B ∧ ∃ n, w.current.shape = [n, 1])
    (time : ∀ b < B, entry w.time b = entry u.time b) (temp : ∀ b < B, st.temp.get [b, 0] = entry w.tInf b) :
    ∃ st' v v', voltage u st a = .ok v ∧ update solver true u w st a = .ok st' ∧ voltage w st' a = .ok v' ∧ ∀ b < B,
      entry v' b - entry v b = (entry w.current b - entry u.current b) * polyAt a.r0 b (st.soc.get [b, 0]) (entry w.tInf b) := by
  obtain ⟨v, e0, q⟩ := voltage_many hr0 hocv ha ⟨h1, h2, h3⟩ hu.1 hu.2
  obtain ⟨st', v', e1, e2, r⟩ := run_courses hsol hr0 hrcs hocv hB ha hpos ⟨h1, h2, h3⟩ (us := [w]) (u := u) (by simp) (by simpa using hw)
    (fun b hb => by simpa using (time b hb).ge)
  have e1' : update solver true u w st a = .ok st' := by
    unfold runs at e1
    cases hup : update solver true u w st a with
    | error e => rw [hup] at e1; cases e1
    | ok s => rw [hup] at e1; exact e1
  refine ⟨st', v, v', e0, e1', e2, fun b hb => ?_⟩
  obtain ⟨x, x1, x2, -, x4, x5, x6⟩ := r b hb
  have l : [w].getLastD u = w := rfl
  rw [l] at x4 x5 x6
  rw [time b hb] at x4 x5
  have k1 : st'.soc.get [b, 0] = st.soc.get [b, 0] := x4.trans x1
  have k2 : ∀ j ∈ Finset.range a.rcs.length, st'.eta.get [b, j] = st.eta.get [b, j] := fun j hj =>
    (x5 j (Finset.mem_range.1 hj)).trans (x2 j (Finset.mem_range.1 hj))
  rw [x6, q b hb, k1, Finset.sum_congr rfl k2, temp b hb]
  ring

/-! ## Pulses -/

/-- C158.  A relaxed equivalent circuit gets a current `I` for `d` seconds.  The voltage changes by the current times the pulse resistance, and by what the
open-circuit voltage makes of the charge. -/
theorem C158_circuit_pulse {B : Nat} (hB : 0 < B) {a : Ecm.ASOH} {u₀ u₁ u₂ : Ecm.Input} {st st' : Ecm.State} {v v' : Nd ℝ} (ha : Cell.Pars B a)
    (h0 : Cell.Ins B u₀) (h1 : Cell.Ins B u₁) (h2 : Cell.Ins B u₂) (hs : Cell.Sts B a st) (h : Ecm.run .constant a u₀ [u₁, u₂] st = .ok st')
    (hv : Ecm.voltage u₀ st a = .ok v) (hv' : Ecm.voltage u₂ st' a = .ok v') {b : Nat} (hb : b < B) {R₀ : ℝ} {R C : Nat → ℝ}
    (plain : PlainCircuit (Cell.parAt a b) R₀ a.rcs.length R C) (relaxed : (∀ j < a.rcs.length, Cell.ircAt st b j = 0) ∧ Cell.at2 st.hyst b = 0) {I d : ℝ} {T : Option ℝ}
    (rest : Cell.at2 u₀.current b = 0) (on : Cell.at2 u₁.current b = I ∧ Cell.at2 u₂.current b = I) (start : Cell.at2 u₁.time b = Cell.at2 u₀.time b)
    (stop : Cell.at2 u₂.time b = Cell.at2 u₁.time b + d) (temp : u₀.temp.map (Cell.at2 · b) = T ∧ u₂.temp.map (Cell.at2 · b) = T)
    (_hQ : Cell.at2 a.qt b ≠ 0 ∧ ∀ j < a.rcs.length, R j * C j ≠ 0) :
    let z := Cell.at2 st.soc b
    let z' := z + (if I < 0 then 1 else Cell.at2 a.ce b) * (d * I / (3600 * Cell.at2 a.qt b))
    Cell.at2 v' b - Cell.at2 v b = Cell.ocvAt a.ocv b z' T - Cell.ocvAt a.ocv b z T + I * pulseResistance R₀ a.rcs.length R C d := by
  intro z z'
  obtain ⟨g1, g2⟩ := Cell.run_rows hB ha h0 (us := [u₁, u₂]) (by
    intro i hi
    simp only [List.mem_cons, List.not_mem_nil, or_false] at hi
    rcases hi with rfl | rfl <;> assumption) hs h
  rw [(Cell.voltage_rows hB ha h2 g1 hv').2 b hb, (Cell.voltage_rows hB ha h0 hs hv).2 b hb]
  have g := g2 b hb
  have hlen : (Cell.parAt a b).rcs.length = (Cell.stAt st b).irc.length := by
    rw [Cell.irc_list hs]
    simp [Cell.parAt]
  simp only [List.map_cons, List.map_nil, Cell.run] at g
  rw [Cell.step_zero start hlen.symm] at g
  have irc : ∀ j < a.rcs.length, (Cell.stAt st b).irc.getD j 0 = 0 := fun j hj => by
    rw [Cell.irc_list hs]
    simp [hj, relaxed.1 j hj]
  have irc' : ∀ j < a.rcs.length, (Cell.stAt st' b).irc.getD j 0 = I * (1 - Real.exp (-d / (R j * C j))) := fun j hj => by
    have hj1 : j < (Cell.parAt a b).rcs.length := by rw [plain.number]; exact hj
    have hj2 : j < (Cell.stAt st b).irc.length := hlen ▸ hj1
    have e : (Cell.stAt st' b).irc.getD j 0 = Cell.rcNext .constant (Cell.inAt u₁ b) (Cell.inAt u₂ b) (Cell.stAt st b).soc (Cell.parAt a b).rcs[j]
        ((Cell.stAt st b).irc.getD j 0) := by
      rw [g]
      show (List.zipWith _ (Cell.parAt a b).rcs (Cell.stAt st b).irc).getD j 0 = _
      simp [List.getD, List.getElem?_zipWith, hj1, hj2]
    have et : Cell.dt (Cell.inAt u₁ b) (Cell.inAt u₂ b) = d := by
      show Cell.at2 u₂.time b - Cell.at2 u₁.time b = d
      rw [stop]; ring
    rw [e, irc j hj]
    simp only [Cell.rcNext, plain.r j hj1, plain.c j hj1, Cell.slope, et, show (Cell.inAt u₂ b).current = I from on.2]
    ring
  have hsoc : (Cell.stAt st' b).soc = z' := by
    rw [g]
    show z + Cell.eff (Cell.inAt u₁ b) (Cell.parAt a b) * (Cell.charge .constant (Cell.inAt u₁ b) (Cell.inAt u₂ b) / (3600 * Cell.at2 a.qt b)) = z'
    have et : Cell.dt (Cell.inAt u₁ b) (Cell.inAt u₂ b) = d := by
      show Cell.at2 u₂.time b - Cell.at2 u₁.time b = d
      rw [stop]; ring
    simp only [Cell.eff, Cell.charge, Cell.slope, et, show (Cell.inAt u₁ b).current = I from on.1, z']
    rw [show (Cell.parAt a b).ce = Cell.at2 a.ce b from rfl]
    ring_nf
  have hhyst : (Cell.stAt st' b).hyst = 0 := by
    rw [g]
    exact circuit_hyst plain.noHysteresis _ _ _ relaxed.2
  have key : ∀ (s : Cell.St) (i : Cell.In), s.irc.length = a.rcs.length → s.hyst = 0 → Cell.volt i s (Cell.parAt a b) =
      Cell.ocvAt a.ocv b s.soc i.temp + i.current * R₀ + ∑ j ∈ Finset.range a.rcs.length, s.irc.getD j 0 * R j := fun s i hl hh => by
    have e : List.zipWith (fun k (rc : Cell.RC) => k * rc.r s.soc i.temp) s.irc (Cell.parAt a b).rcs =
        (List.range a.rcs.length).map fun j => s.irc.getD j 0 * R j := by
      refine List.ext_getElem (by simp [hl, plain.number]) fun j hj _ => ?_
      have hj1 : j < s.irc.length := by simp at hj; exact hj.1
      have hj2 : j < (Cell.parAt a b).rcs.length := by simp at hj; exact hj.2
      simp only [List.getElem_zipWith, plain.r j hj2, List.getElem_map, List.getElem_range]
      simp [List.getD, hj1]
    unfold Cell.volt
    rw [plain.noSeries, plain.r0, e, sum_range_list, hh]
    cases s.q0 <;> simp <;> rfl
  have hl' : (Cell.stAt st' b).irc.length = a.rcs.length := by rw [Cell.irc_list g1]; simp
  have hl : (Cell.stAt st b).irc.length = a.rcs.length := by rw [Cell.irc_list hs]; simp
  rw [key _ _ hl' hhyst, key _ _ hl relaxed.2, hsoc, Finset.sum_congr rfl fun j hj => by rw [irc' j (Finset.mem_range.1 hj)],
    Finset.sum_eq_zero (s := Finset.range a.rcs.length) (f := fun j => (Cell.stAt st b).irc.getD j 0 * R j) (fun j hj => by
      rw [irc j (Finset.mem_range.1 hj), zero_mul]), show (Cell.inAt u₀ b).temp = T from temp.1, show (Cell.inAt u₂ b).temp = T from temp.2,
    show (Cell.inAt u₀ b).current = 0 from rest, show (Cell.inAt u₂ b).current = I from on.2]
  unfold pulseResistance
  rw [mul_add, Finset.mul_sum]
  have e : ∑ j ∈ Finset.range a.rcs.length, I * (1 - Real.exp (-d / (R j * C j))) * R j =
      ∑ j ∈ Finset.range a.rcs.length, I * (R j * (1 - Real.exp (-d / (R j * C j)))) := Finset.sum_congr rfl fun j _ => by ring
  rw [e]
  show Cell.ocvAt a.ocv b z' T + _ + _ - (Cell.ocvAt a.ocv b z T + _ + _) = _
  ring

/-- C158.  The same for a relaxed Thevenin cell; one step does, because the model takes the current from the input at its end. -/
theorem C158_thevenin_pulse {solver : Solver} (hsol : ExactSolver solver) {a : Thevenin.ASOH} (hr0 : Tables a.r0) (hrcs : ∀ q ∈ a.rcs, Tables q.1 ∧ Tables q.2)
    (hocv : ∃ n d, a.ocv.coeffs.shape = [n, d] ∧ 1 ≤ d) {B : Nat} (hB : 1 ≤ B) (ha : a.Batched B) (hpos : ∀ b < B, Positive (tCellAt a b))
    (_hQ : ∀ b < B, entry a.capacity b ≠ 0) {u w : Input} {st : State}
    (h1 : st.soc.shape = [B, 1]) (h2 : st.temp.shape = [B, 1]) (h3 : st.eta.shape = [B, a.rcs.length])
    (hu : u.Batched B ∧ ∃ n, u.current.shape = [n, 1]) (hw : w.Batched B ∧ ∃ n, w.current.shape = [n, 1])
    {d : ℝ} (hd : 0 ≤ d) (time : ∀ b < B, entry w.time b = entry u.time b + d) (rest : ∀ b < B, entry u.current b = 0)
    (relaxed : ∀ b < B, ∀ j < a.rcs.length, st.eta.get [b, j] = 0) {R₀ : Nat → ℝ} {R C : Nat → Nat → ℝ} (plain : ∀ b < B, PlainThevenin a b (R₀ b) (R b) (C b)) :
    ∃ st' v v', voltage u st a = .ok v ∧ update solver true u w st a = .ok st' ∧ voltage w st' a = .ok v' ∧ ∀ b < B,
      let I := entry w.current b
      let z := st.soc.get [b, 0]
      entry v' b - entry v b = rowPoly a.ocv.coeffs b (z + d * I / (3600 * entry a.capacity b)) - rowPoly a.ocv.coeffs b z +
        I * pulseResistance (R₀ b) a.rcs.length (R b) (C b) d := by
  obtain ⟨v, e0, q⟩ := voltage_many hr0 hocv ha ⟨h1, h2, h3⟩ hu.1 hu.2
  obtain ⟨st', v', e1, e2, r⟩ := run_courses hsol hr0 hrcs hocv hB ha hpos ⟨h1, h2, h3⟩ (us := [w]) (u := u) (by simp) (by simpa using hw)
    (fun b hb => by simpa [time b hb] using hd)
  have e1' : update solver true u w st a = .ok st' := by
    unfold runs at e1
    cases hup : update solver true u w st a with
    | error e => rw [hup] at e1; cases e1
    | ok s => rw [hup] at e1; exact e1
  refine ⟨st', v, v', e0, e1', e2, fun b hb => ?_⟩
  intro I z
  have hn : (tCellAt a b).rcs.length = a.rcs.length := by simp [tCellAt]
  obtain ⟨x, x1, x2, x3, x4, x5, x6⟩ := r b hb
  have l : [w].getLastD u = w := rfl
  rw [l] at x4 x5 x6
  obtain ⟨k1, k2, -⟩ := x3
  have dur : entry w.time b - entry u.time b = d := by rw [time b hb]; ring
  have eta : ∀ j ∈ Finset.range a.rcs.length, st'.eta.get [b, j] = -(I * (R b j * (1 - Real.exp (-d / (R b j * C b j))))) := fun j hj => by
    have hj := Finset.mem_range.1 hj
    rw [x5 j hj, eta_constant k1 k2 (j := j) (hn.symm ▸ hj) (R := R b j) (C := C b j) (fun z => by simpa [tCellAt] using (plain b hb).r j hj z _)
      (fun z => by simpa [tCellAt] using (plain b hb).c j hj z _), x2 j hj, relaxed b hb j hj, dur]
    ring
  have soc : st'.soc.get [b, 0] = z + d * I / (3600 * entry a.capacity b) := by
    rw [x4, soc_obeys k1 k2 _ ⟨k1, le_rfl⟩, x1, dur]
    show z - -I / (3600 * entry a.capacity b) * d = _
    ring
  rw [x6, q b hb, soc, Finset.sum_congr rfl eta, Finset.sum_eq_zero fun j hj => relaxed b hb j (Finset.mem_range.1 hj), rest b hb, (plain b hb).r0,
    Finset.sum_neg_distrib, ← Finset.mul_sum]
  unfold pulseResistance
  ring

/-! ## Examples -/

theorem oneCircuit_plain : PlainCircuit (Cell.parAt oneCircuit 0) 0.05 oneCircuit.rcs.length (fun _ => 0.01) (fun _ => 2500) :=
  ⟨rfl, fun _ => rfl, rfl, oneCell_same.circuitR0, oneCell_same.circuitR, oneCell_same.circuitC⟩

theorem circuitInput_ins (q : ℝ × ℝ) : Cell.Ins 1 (circuitInput q) := ⟨.inl rfl, .inl rfl, fun t ht => by cases ht⟩

theorem circuitState_sts : Cell.Sts 1 oneCircuit circuitState := ⟨.inl rfl, fun q hq => (by cases hq), .inl rfl, .inl rfl⟩

-- A current of 2 A sets in: 100 mV at once.
example : ∃ st' v v', Ecm.update .constant (circuitInput (7, 0)) (circuitInput (7, 2)) circuitState oneCircuit = .ok st' ∧
    Ecm.voltage (circuitInput (7, 0)) circuitState oneCircuit = .ok v ∧ Ecm.voltage (circuitInput (7, 2)) st' oneCircuit = .ok v' ∧
    Cell.at2 v' 0 - Cell.at2 v 0 = 0.1 := by
  obtain ⟨s0, v, e0, e1⟩ := oneCircuit_runs (7, 0) []
  cases e0
  obtain ⟨s, v', e2, e3⟩ := oneCircuit_runs (7, 0) [(7, 2)]
  have e2' : Ecm.update .constant (circuitInput (7, 0)) (circuitInput (7, 2)) circuitState oneCircuit = .ok s := by
    simp only [List.map_cons, List.map_nil, Ecm.run] at e2
    cases hup : Ecm.update .constant (circuitInput (7, 0)) (circuitInput (7, 2)) circuitState oneCircuit with
    | error e => rw [hup] at e2; cases e2
    | ok s => rw [hup] at e2; exact e2
  refine ⟨s, v, v', e2', e1, e3, ?_⟩
  rw [C158_circuit_jump (by norm_num) oneCircuit_pars (circuitInput_ins _) (circuitInput_ins _) circuitState_sts e2' e1 e3 (b := 0) (by norm_num) rfl rfl
    ⟨by simp [oneCircuit, Cell.at2, num2], fun rc hrc => by
      rw [List.mem_singleton.1 hrc]
      show (0.01 : ℝ) * 2500 ≠ 0
      norm_num⟩]
  show ((2 : ℝ) - 0) * 0.05 = 0.1
  norm_num

-- And after 25 s, the time constant of its RC element, the pulse resistance is 0.05 Ω + 0.01 Ω · (1 - 1 / e).
example : ∃ st' v v', Ecm.run .constant oneCircuit (circuitInput (7, 0)) [circuitInput (7, 2), circuitInput (32, 2)] circuitState = .ok st' ∧
    Ecm.voltage (circuitInput (7, 0)) circuitState oneCircuit = .ok v ∧ Ecm.voltage (circuitInput (32, 2)) st' oneCircuit = .ok v' ∧
    Cell.at2 v' 0 - Cell.at2 v 0 = 50 / 3600 + 2 * (0.05 + 0.01 * (1 - Real.exp (-1))) := by
  obtain ⟨s0, v, e0, e1⟩ := oneCircuit_runs (7, 0) []
  cases e0
  obtain ⟨s, v', e2, e3⟩ := oneCircuit_runs (7, 0) [(7, 2), (32, 2)]
  refine ⟨s, v, v', e2, e1, e3, ?_⟩
  have := C158_circuit_pulse (by norm_num) oneCircuit_pars (circuitInput_ins _) (circuitInput_ins _) (circuitInput_ins _) circuitState_sts e2 e1 e3 (b := 0)
    (by norm_num) oneCircuit_plain ⟨fun j hj => by
      obtain rfl : j = 0 := by simpa [oneCircuit] using hj
      rfl, rfl⟩ (I := 2) (d := 25) (T := none) rfl ⟨rfl, rfl⟩ rfl (by show (32 : ℝ) = 7 + 25; norm_num) ⟨rfl, rfl⟩
    ⟨by simp [oneCircuit, Cell.at2, num2], fun j _ => by norm_num⟩
  rw [this]
  have o : ∀ z, Cell.ocvAt oneCircuit.ocv 0 z none = (4 - 3) * z + 3 := fun z => Cell.Demo.curveAt_line 3 4 0 z
  have l : oneCircuit.rcs.length = 1 := rfl
  rw [o, o, l]
  unfold pulseResistance
  rw [Finset.sum_range_one, show (-25 : ℝ) / (0.01 * 2500) = -1 by norm_num, show Cell.at2 oneCircuit.qt 0 = 1 from rfl, show Cell.at2 oneCircuit.ce 0 = 1 from rfl,
    if_neg (by norm_num)]
  ring

-- The Thevenin model shows the same.
example : ∃ solver, ExactSolver solver ∧ ∃ st' v v', voltage (oneInput (7, 0)) oneState oneCell = .ok v ∧
    update solver true (oneInput (7, 0)) (oneInput (32, 2)) oneState oneCell = .ok st' ∧ voltage (oneInput (32, 2)) st' oneCell = .ok v' ∧
    entry v' 0 - entry v 0 = 50 / 3600 + 2 * (0.05 + 0.01 * (1 - Real.exp (-1))) := by
  obtain ⟨solver, hsol⟩ := C151_solver_possible
  have hrc : ∀ p ∈ oneCell.rcs, Tables p.1 ∧ Tables p.2 := fun p hp => by
    rw [List.mem_singleton.1 hp]
    exact ⟨⟨⟨1, rfl⟩, ⟨1, 1, rfl, le_rfl⟩, 1, 1, rfl, le_rfl⟩, ⟨1, rfl⟩, ⟨1, 1, rfl, le_rfl⟩, 1, 1, rfl, le_rfl⟩
  have zero : ∀ {P : Nat → Prop}, P 0 → ∀ b < 1, P b := fun h b hb => by
    obtain rfl : b = 0 := by omega
    exact h
  have hin : ∀ q, (oneInput q).Batched 1 ∧ ∃ n, (oneInput q).current.shape = [n, 1] := fun q => ⟨⟨.inl rfl, .inl rfl, .inl rfl⟩, 1, rfl⟩
  obtain ⟨st', v, v', e1, e2, e3, r⟩ := C158_thevenin_pulse hsol ⟨⟨1, rfl⟩, ⟨1, 1, rfl, le_rfl⟩, 1, 1, rfl, le_rfl⟩ hrc ⟨1, 2, rfl, by norm_num⟩ (B := 1) le_rfl
    oneCell_batched (fun b _ => oneCell_positive b) (fun b _ => by simp [oneCell, entry, num2]) (u := oneInput (7, 0)) (w := oneInput (32, 2)) (st := oneState)
    rfl rfl rfl (hin _) (hin _) (d := 25) (by norm_num) (fun b _ => by show (32 : ℝ) = 7 + 25; norm_num) (fun b _ => rfl) (fun b _ j _ => rfl)
    (R₀ := fun _ => 0.05) (R := fun _ _ => 0.01) (C := fun _ _ => 2500)
    (zero ⟨oneCell_same.theveninR0, oneCell_same.theveninR, oneCell_same.theveninC⟩)
  refine ⟨solver, hsol, st', v, v', e1, e2, e3, ?_⟩
  have := r 0 (by norm_num)
  simp only at this
  have o : ∀ z, rowPoly oneCell.ocv.coeffs 0 z = 3 + z := fun z => by simp [oneCell, rowPoly, Finset.sum_range_succ]
  rw [this, o, o, show oneCell.rcs.length = 1 from rfl]
  unfold pulseResistance
  rw [Finset.sum_range_one, show (-25 : ℝ) / (0.01 * 2500) = -1 by norm_num, show entry oneCell.capacity 0 = 1 from rfl, show entry (oneInput (32, 2)).current 0 = 2 from rfl]
  ring

-- Two cells at 298 K with overpotentials, under 1 A: at the moment it is switched off the voltages fall by 1 A times 1 Ω.
example : ∃ solver, ExactSolver solver ∧
    let u : ℝ → Input := fun i => ⟨num2 60, num2 i, num2 298⟩
    let st : State := ⟨⟨[2, 1], fun idx => [0.2, 0.8].getD (idx.getD 0 0) 0⟩, ⟨[2, 1], fun _ => 298⟩, ⟨[2, 1], fun _ => 0.1⟩⟩
    ∃ st' v v', voltage (u 1) st twoCells = .ok v ∧ update solver true (u 1) (u 0) st twoCells = .ok st' ∧ voltage (u 0) st' twoCells = .ok v' ∧
      ∀ b < 2, entry v' b - entry v b = -1 := by
  obtain ⟨solver, hsol⟩ := C151_solver_possible
  refine ⟨solver, hsol, ?_⟩
  intro u st
  obtain ⟨st', v, v', e1, e2, e3, r⟩ := C158_thevenin_jump hsol ⟨⟨1, rfl⟩, ⟨1, 1, rfl, le_rfl⟩, 1, 1, rfl, le_rfl⟩ twoCells_tables ⟨1, 1, rfl, le_rfl⟩ (B := 2)
    (by norm_num) twoCells_batched (fun b _ => twoCells_positive b) (fun b _ => by simp [twoCells, entry, num2]) (u := u 1) (w := u 0) (st := st) rfl rfl rfl
    ⟨⟨.inl rfl, .inl rfl, .inl rfl⟩, 1, rfl⟩ ⟨⟨.inl rfl, .inl rfl, .inl rfl⟩, 1, rfl⟩ (fun b _ => rfl) (fun b _ => rfl)
  refine ⟨st', v, v', e1, e2, e3, fun b hb => ?_⟩
  rw [r b hb]
  have : ∀ z T, polyAt twoCells.r0 b z T = 1 := fun z T => by simp [twoCells, polyAt, rowPoly, num2]
  rw [this]
  show ((0 : ℝ) - 1) * 1 = -1
  norm_num

end Verif
