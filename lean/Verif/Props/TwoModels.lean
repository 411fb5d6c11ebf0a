import Verif.Props.TheveninRest
import Verif.Spec.TwoModels
import Verif.Props.EcmRest
/-!
# C155: both cell models simulate the same cell alike
-/

namespace Verif
open Thevenin Nd Spec Set

/-! ## One step of the Thevenin model with constant parameters -/

theorem eta_constant {c : TCell} {amb I s e : ℝ} (hse : s ≤ e) {x : Course} (h : Obeys c true amb I s e x) {j : Nat} (hj : j < c.rcs.length) {R C : ℝ}
    (hR : ∀ z, c.rcs[j].1 z amb = R) (hC : ∀ z, c.rcs[j].2 z amb = C) :
    x.eta j e = x.eta j s * Real.exp (-(e - s) / (R * C)) + (1 - Real.exp (-(e - s) / (R * C))) * (R * I) := by
  have hp := h.positive _ (List.getElem_mem hj) s ⟨le_rfl, hse⟩
  simp only [Course.heat, if_true, hR, hC] at hp
  have h1 := hp.1.ne'
  have h2 := hp.2.ne'
  let k := 1 / (R * C)
  have := LinearOde.unique_solution (α := fun _ => I / C) (a := fun _ => k) (x := x.eta j)
    (y := fun t => R * I + (x.eta j s - R * I) * Real.exp (-(t - s) * k)) hse continuousOn_const (by simp)
    (fun t ht => by
      have := eta_obeys h hj t ht
      rw [hR, hC] at this
      exact this)
    (fun t ht => by
      have := ((((hasDerivAt_id t).sub_const s).neg.mul_const k).exp.const_mul (x.eta j s - R * I)).const_add (R * I) |>.hasDerivWithinAt (s := Icc s e)
      refine this.congr_deriv ?_
      show (x.eta j s - R * I) * (Real.exp (-(t - s) * k) * (-1 * k)) = I / C - k * (R * I + (x.eta j s - R * I) * Real.exp (-(t - s) * k))
      have : I / C = k * (R * I) := by simp only [k]; field_simp
      rw [this]
      ring) e ⟨hse, le_rfl⟩
  rw [this, show -(e - s) * k = -(e - s) / (R * C) by simp only [k]; ring]
  ring

/-! ## Both models together -/

theorem circuit_hyst {p : Cell.Par} (h : ∀ z, p.hystMax z = 0) (i i' : Cell.In) (s : Cell.St) (h0 : s.hyst = 0) :
    (Cell.step .constant i i' s p).hyst = 0 := by
  have ht : Cell.hystTarget i s.soc p = 0 := by
    unfold Cell.hystTarget
    rw [h]
    split <;> simp
  show Cell.hystNext .constant i i' s p = 0
  unfold Cell.hystNext
  simp only [ht, h0]
  rw [if_pos (Or.inr trivial)]
  simp [Cell.hystAfter]

theorem both_run {p : Cell.Par} {a : Thevenin.ASOH} {b : Nat} {R₀ : ℝ} {R C : Nat → ℝ} (hc : SameCell p a b R₀ R C) {x : Course} :
    ∀ {is : List Cell.In} {us : List Thevenin.Input} {i : Cell.In} {u : Thevenin.Input} {s : Cell.St}, SameInput i u b →
    List.Forall₂ (SameInput · · b) is us → FollowsAll (tCellAt a b) true x b u us → SameRC s (fun j => x.eta j (entry u.time b)) R a.rcs.length →
    SameRC (Cell.run .constant p i is s) (fun j => x.eta j (entry (us.getLastD u).time b)) R a.rcs.length ∧
    (Cell.run .constant p i is s).q0.isNone = s.q0.isNone ∧
    (Cell.run .constant p i is s).soc = s.soc + (((u :: us).zip us).map fun q =>
      entry q.1.current b * (entry q.2.time b - entry q.1.time b)).sum / (3600 * entry a.capacity b) := by
  intro is us
  have hn : (tCellAt a b).rcs.length = a.rcs.length := by simp [tCellAt]
  induction us generalizing is with
  | nil =>
    intro i u s _ h _ hs
    cases h
    exact ⟨hs, rfl, by simp [Cell.run]⟩
  | cons v us ih =>
    intro i u s hi h hx hs
    cases h with
    | @cons i' _ is _ hv h =>
    obtain ⟨k1, k2, k3⟩ := hx
    have el : (v :: us).getLastD u = us.getLastD v := by cases us <;> rfl
    have hs' : SameRC (Cell.step .constant i i' s p) (fun j => x.eta j (entry v.time b)) R a.rcs.length := by
      refine ⟨circuit_hyst hc.noHysteresis i i' s hs.relaxed, ?_, fun j hj => ?_⟩
      · show (List.zipWith _ p.rcs s.irc).length = _
        rw [List.length_zipWith, hc.number, hs.number, min_self]
      · have hj1 : j < p.rcs.length := hc.number.symm ▸ hj
        have hj2 : j < s.irc.length := hs.number.symm ▸ hj
        have e := eta_constant k1 k2 (j := j) (hn.symm ▸ hj) (R := R j) (C := C j) (fun z => by simpa [tCellAt] using hc.theveninR j hj z _)
          (fun z => by simpa [tCellAt] using hc.theveninC j hj z _)
        have g : (Cell.step .constant i i' s p).irc.getD j 0 = Cell.rcNext .constant i i' s.soc p.rcs[j] (s.irc.getD j 0) := by
          show (List.zipWith _ p.rcs s.irc).getD j 0 = _
          simp [List.getD, List.getElem?_zipWith, hj1, hj2]
        have := hs.eta j hj
        rw [e, g, this]
        simp only [Cell.rcNext, hc.circuitR j hj1, hc.circuitC j hj1, Cell.slope, Cell.dt, hi.1, hv.1, hv.2]
        ring
    obtain ⟨r1, r2, r3⟩ := ih hv h k3 hs'
    rw [el]
    refine ⟨r1, r2.trans ?_, r3.trans ?_⟩
    · show (s.q0.map _).isNone = _
      cases s.q0 <;> rfl
    · have he : Cell.eff i p = 1 := by unfold Cell.eff; rw [hc.efficiency]; split <;> rfl
      rw [List.zip_cons_cons, List.map_cons, List.sum_cons, add_div]
      show s.soc + Cell.eff i p * (Cell.charge .constant i i' / (3600 * p.qt)) + _ = _
      simp only [he, Cell.charge, Cell.slope, Cell.dt, hi.1, hv.1, hi.2, hc.capacity]
      ring

theorem sum_range_list (f : Nat → ℝ) : ∀ n, ((List.range n).map f).sum = ∑ j ∈ Finset.range n, f j
  | 0 => rfl
  | n + 1 => by rw [List.range_succ, List.map_append, List.sum_append, sum_range_list f n, Finset.sum_range_succ]; simp

theorem circuit_volt {p : Cell.Par} {a : Thevenin.ASOH} {b : Nat} {R₀ : ℝ} {R C : Nat → ℝ} (hc : SameCell p a b R₀ R C) {η : Nat → ℝ} {s : Cell.St}
    (hs : SameRC s η R a.rcs.length) (i : Cell.In) :
    Cell.volt i s p = rowPoly a.ocv.coeffs b s.soc + i.current * R₀ - ∑ j ∈ Finset.range a.rcs.length, η j := by
  have h1 : List.zipWith (fun k (rc : Cell.RC) => k * rc.r s.soc i.temp) s.irc p.rcs =
      (List.range a.rcs.length).map fun j => s.irc.getD j 0 * R j := by
    refine List.ext_getElem (by simp [hs.number, hc.number]) fun j hj _ => ?_
    have hj1 : j < s.irc.length := by simp at hj; exact hj.1
    have hj2 : j < p.rcs.length := by simp at hj; exact hj.2
    simp [hc.circuitR j hj2, List.getD, hj1]
  unfold Cell.volt
  rw [hc.noSeries, hc.ocv, hc.circuitR0, h1, sum_range_list, hs.relaxed, Finset.sum_congr rfl fun j hj => hs.eta j (Finset.mem_range.1 hj),
    Finset.sum_neg_distrib]
  have e : ∑ j ∈ Finset.range a.rcs.length, s.irc.getD j 0 * R j = ∑ j ∈ Finset.range a.rcs.length, R j * s.irc.getD j 0 :=
    Finset.sum_congr rfl fun j _ => mul_comm _ _
  rw [e]
  cases s.q0 <;> simp <;> ring

theorem last_same {B : Nat} : ∀ {is : List Ecm.Input} {us : List Input} {i : Ecm.Input} {u : Input},
    (∀ b < B, SameInput (Cell.inAt i b) u b) → List.Forall₂ (fun i u => ∀ b < B, SameInput (Cell.inAt i b) u b) is us →
    ∀ b < B, SameInput (Cell.inAt (is.getLastD i) b) (us.getLastD u) b
  | _, _, _, _, h, .nil => h
  | i' :: is, u' :: us, i, u, _, .cons h h' => by
    have e1 : (i' :: is).getLastD i = is.getLastD i' := by cases is <;> rfl
    have e2 : (u' :: us).getLastD u = us.getLastD u' := by cases us <;> rfl
    rw [e1, e2]
    exact last_same h h'

theorem sum_sub_list {α : Type} (f g : α → ℝ) : ∀ l : List α, (l.map f).sum - (l.map g).sum = (l.map fun q => f q - g q).sum
  | [] => by simp
  | x :: l => by
    simp only [List.map_cons, List.sum_cons, ← sum_sub_list f g l]
    ring

/-- A batch of the same cells (a resistor, RC elements of constant values, no series capacitor, no hysteresis, all charge stored) in both models, from the same
states through the same inputs, any number of them at times that do not go back: the RC elements of both carry the same overpotentials.  The SOCs differ by the
charge that the changes of current make: the equivalent circuit charges the cell during a step with the current at its start, the Thevenin model with the one at
its end.  The voltages differ by what the open-circuit voltage makes of this difference, and by nothing else. -/
theorem C155_gap {solver : Solver} (hsol : ExactSolver solver) {a : Thevenin.ASOH} (hr0 : Tables a.r0) (hrcs : ∀ p ∈ a.rcs, Tables p.1 ∧ Tables p.2)
    (hocv : ∃ n d, a.ocv.coeffs.shape = [n, d] ∧ 1 ≤ d) {B : Nat} (hB : 1 ≤ B) (ha : a.Batched B) (hp : ∀ b < B, Positive (tCellAt a b))
    (hQ : ∀ b < B, entry a.capacity b ≠ 0) {us : List Input} {u : Input} {st : State}
    (h1 : st.soc.shape = [B, 1]) (h2 : st.temp.shape = [B, 1]) (h3 : st.eta.shape = [B, a.rcs.length]) (hne : us ≠ [])
    (hus : ∀ v ∈ us, v.Batched B ∧ ∃ n, v.current.shape = [n, 1]) (times : ∀ b < B, (u :: us).IsChain fun v w => entry v.time b ≤ entry w.time b)
    {p : Ecm.ASOH} {i : Ecm.Input} {is : List Ecm.Input} {s s' : Ecm.State} {w : Nd ℝ} (hpars : Cell.Pars B p) (hi : Cell.Ins B i)
    (his : ∀ k ∈ is, Cell.Ins B k) (hs : Cell.Sts B p s) (hrun : Ecm.run .constant p i is s = .ok s') (hv : Ecm.voltage (is.getLastD i) s' p = .ok w)
    {R₀ : Nat → ℝ} {R C : Nat → Nat → ℝ} (cells : ∀ b < B, SameCell (Cell.parAt p b) a b (R₀ b) (R b) (C b))
    (first : ∀ b < B, SameInput (Cell.inAt i b) u b) (inputs : List.Forall₂ (fun k v => ∀ b < B, SameInput (Cell.inAt k b) v b) is us)
    (soc : ∀ b < B, (Cell.stAt s b).soc = st.soc.get [b, 0])
    (rc : ∀ b < B, SameRC (Cell.stAt s b) (fun j => st.eta.get [b, j]) (R b) a.rcs.length) :
    ∃ st' v, runs solver true a u st us = .ok st' ∧ voltage (us.getLastD u) st' a = .ok v ∧ ∀ b < B,
      SameRC (Cell.stAt s' b) (fun j => st'.eta.get [b, j]) (R b) a.rcs.length ∧
      st'.soc.get [b, 0] - (Cell.stAt s' b).soc = (((u :: us).zip us).map fun q =>
        (entry q.2.current b - entry q.1.current b) * (entry q.2.time b - entry q.1.time b)).sum / (3600 * entry a.capacity b) ∧
      entry v b - Cell.at2 w b = rowPoly a.ocv.coeffs b (st'.soc.get [b, 0]) - rowPoly a.ocv.coeffs b (Cell.stAt s' b).soc := by
  obtain ⟨st', v, e1, e2, r⟩ := run_courses hsol hr0 hrcs hocv hB ha hp ⟨h1, h2, h3⟩ hne hus times
  obtain ⟨st'', e1', q⟩ := C151_charge hsol hr0 hrcs hB ha hp hQ h1 h2 h3 (fun v hv => (hus v hv).1) times
  obtain rfl : st' = st'' := by rw [e1] at e1'; cases e1'; rfl
  obtain ⟨k1, k2⟩ := Cell.run_rows hB hpars hi his hs hrun
  have hl : Cell.Ins B (is.getLastD i) := by
    rcases is.eq_nil_or_concat with rfl | ⟨l, x, rfl⟩
    · exact hi
    · rw [List.concat_eq_append, List.getLastD_concat]; exact his _ (by simp)
  obtain ⟨-, k3⟩ := Cell.voltage_rows hB hpars hl k1 hv
  refine ⟨st', v, e1, e2, fun b hb => ?_⟩
  obtain ⟨x, x1, x2, x3, x4, x5, x6⟩ := r b hb
  have start : SameRC (Cell.stAt s b) (fun j => x.eta j (entry u.time b)) (R b) a.rcs.length :=
    ⟨(rc b hb).relaxed, (rc b hb).number, fun j hj => (x2 j hj).trans ((rc b hb).eta j hj)⟩
  obtain ⟨g1, -, g3⟩ := both_run (cells b hb) (first b hb) (is := is.map (Cell.inAt · b)) (us := us) (by
    rw [List.forall₂_map_left_iff]
    exact inputs.imp fun _ _ h => h b hb) x3 start
  rw [← k2 b hb] at g1 g3
  have g1' : SameRC (Cell.stAt s' b) (fun j => st'.eta.get [b, j]) (R b) a.rcs.length :=
    ⟨g1.relaxed, g1.number, fun j hj => (x5 j hj).trans (g1.eta j hj)⟩
  refine ⟨g1', ?_, ?_⟩
  · rw [g3, q b hb, soc b hb, add_sub_add_left_eq_sub, ← sub_div, sum_sub_list]
    simp only [sub_mul]
  · have hlast := last_same first inputs b hb
    rw [k3 b hb, circuit_volt (cells b hb) g1', x6, (cells b hb).theveninR0, hlast.2]
    ring

theorem zip_chain {α : Type} {r : α → α → Prop} : ∀ {l : List α} {u : α}, (u :: l).IsChain r → ∀ q ∈ (u :: l).zip l, r q.1 q.2
  | [], _, _, q, hq => by simp at hq
  | v :: l, u, h, q, hq => by
    rw [List.isChain_cons_cons] at h
    rw [List.zip_cons_cons, List.mem_cons] at hq
    rcases hq with rfl | hq
    · exact h.1
    · exact zip_chain h.2 q hq

/-- If every change of the current is announced by an input of its own (at the time of the input before), both models arrive at the same SOC and the same voltage;
for instance if the current is the same in all inputs.  Missing for the full claim: currents that change during a step, for which it is false
(`C155_disagree`). -/
theorem C155_agree_partial {solver : Solver} (hsol : ExactSolver solver) {a : Thevenin.ASOH} (hr0 : Tables a.r0) (hrcs : ∀ p ∈ a.rcs, Tables p.1 ∧ Tables p.2)
    (hocv : ∃ n d, a.ocv.coeffs.shape = [n, d] ∧ 1 ≤ d) {B : Nat} (hB : 1 ≤ B) (ha : a.Batched B) (hp : ∀ b < B, Positive (tCellAt a b))
    (hQ : ∀ b < B, entry a.capacity b ≠ 0) {us : List Input} {u : Input} {st : State}
    (h1 : st.soc.shape = [B, 1]) (h2 : st.temp.shape = [B, 1]) (h3 : st.eta.shape = [B, a.rcs.length]) (hne : us ≠ [])
    (hus : ∀ v ∈ us, v.Batched B ∧ ∃ n, v.current.shape = [n, 1]) (times : ∀ b < B, (u :: us).IsChain fun v w => entry v.time b ≤ entry w.time b)
    {p : Ecm.ASOH} {i : Ecm.Input} {is : List Ecm.Input} {s s' : Ecm.State} {w : Nd ℝ} (hpars : Cell.Pars B p) (hi : Cell.Ins B i)
    (his : ∀ k ∈ is, Cell.Ins B k) (hs : Cell.Sts B p s) (hrun : Ecm.run .constant p i is s = .ok s') (hv : Ecm.voltage (is.getLastD i) s' p = .ok w)
    {R₀ : Nat → ℝ} {R C : Nat → Nat → ℝ} (cells : ∀ b < B, SameCell (Cell.parAt p b) a b (R₀ b) (R b) (C b))
    (first : ∀ b < B, SameInput (Cell.inAt i b) u b) (inputs : List.Forall₂ (fun k v => ∀ b < B, SameInput (Cell.inAt k b) v b) is us)
    (soc : ∀ b < B, (Cell.stAt s b).soc = st.soc.get [b, 0])
    (rc : ∀ b < B, SameRC (Cell.stAt s b) (fun j => st.eta.get [b, j]) (R b) a.rcs.length)
    (steady : ∀ b < B, (u :: us).IsChain fun v w => entry w.current b = entry v.current b ∨ entry w.time b = entry v.time b) :
    ∃ st' v, runs solver true a u st us = .ok st' ∧ voltage (us.getLastD u) st' a = .ok v ∧ ∀ b < B,
      (Cell.stAt s' b).soc = st'.soc.get [b, 0] ∧ SameRC (Cell.stAt s' b) (fun j => st'.eta.get [b, j]) (R b) a.rcs.length ∧
      Cell.at2 w b = entry v b := by
  obtain ⟨st', v, e1, e2, r⟩ := C155_gap hsol hr0 hrcs hocv hB ha hp hQ h1 h2 h3 hne hus times hpars hi his hs hrun hv cells first inputs soc rc
  refine ⟨st', v, e1, e2, fun b hb => ?_⟩
  obtain ⟨r1, r2, r3⟩ := r b hb
  have z : (((u :: us).zip us).map fun q => (entry q.2.current b - entry q.1.current b) * (entry q.2.time b - entry q.1.time b)).sum = 0 := by
    refine List.sum_eq_zero fun y hy => ?_
    obtain ⟨q, hq, rfl⟩ := List.mem_map.1 hy
    rcases zip_chain (steady b hb) q hq with h | h <;> rw [h] <;> ring
  rw [z, zero_div, sub_eq_zero] at r2
  refine ⟨r2.symm, r1, ?_⟩
  rw [r2, sub_self, sub_eq_zero] at r3
  exact r3.symm

/-! ## A cell for which they disagree -/

/-- 1 Ah, an open-circuit voltage of 3 V + SOC · 1 V, 0.05 Ω in series with an RC element of 0.01 Ω and 2500 F: as Thevenin model. -/
noncomputable def oneCell : Thevenin.ASOH :=
  ⟨num2 1, num2 1, num2 1, num2 1, num2 1, ⟨⟨[1, 2], fun idx => if idx.getD 1 0 = 0 then 3 else 1⟩⟩, ⟨num2 25, num2 0.05, num2 0⟩,
    [(⟨num2 25, num2 0.01, num2 0⟩, ⟨num2 25, num2 2500, num2 0⟩)]⟩

open Cell.Demo in
/-- The same cell as equivalent circuit. -/
noncomputable def oneCircuit : Ecm.ASOH where
  qt := num2 1
  ce := num2 1
  ocv := ⟨line 3 4, num2 25, flat 0⟩
  r0 := ⟨flat 0.05, 25, num2 0⟩
  c0 := none
  rcs := [⟨⟨flat 0.01, 25, num2 0⟩, flat 2500⟩]
  hyst := flat 0
  gamma := num2 0.9

/-- At a time with a current. -/
noncomputable def oneInput (q : ℝ × ℝ) : Thevenin.Input := ⟨num2 q.1, num2 q.2, num2 298⟩
noncomputable def circuitInput (q : ℝ × ℝ) : Ecm.Input := ⟨num2 q.1, num2 q.2, none⟩

/-- Half charged and at rest. -/
noncomputable def oneState : Thevenin.State := ⟨num2 0.5, num2 298, num2 0⟩
noncomputable def circuitState : Ecm.State := ⟨num2 0.5, none, num2 0, num2 0⟩

theorem curveAt_flat (x z : ℝ) (b : Nat) : Cell.curveAt (Cell.Demo.flat x) b z = x := rfl

theorem oneCell_same : SameCell (Cell.parAt oneCircuit 0) oneCell 0 0.05 (fun _ => 0.01) (fun _ => 2500) := by
  refine ⟨rfl, rfl, rfl, fun z => rfl, fun z T => ?_, rfl, fun z T => ?_, fun j h z T => ?_, fun j h z => ?_, fun z T => ?_, fun j h z T => ?_, fun j h z T => ?_⟩
  · have : Cell.curveAt oneCircuit.ocv.ref 0 z = rowPoly oneCell.ocv.coeffs 0 z := by
      show Cell.curveAt (Cell.Demo.line 3 4) 0 z = _
      rw [Cell.Demo.curveAt_line]
      simp [oneCell, rowPoly, Finset.sum_range_succ]
      ring
    cases T with
    | none => exact this
    | some t =>
      show Cell.curveAt oneCircuit.ocv.ref 0 z + (t - _) * (0 : ℝ) = _
      rw [this, mul_zero, add_zero]
  · cases T with
    | none => rfl
    | some t => show (0.05 : ℝ) * Real.exp (-0 * (t - 25)) = 0.05; simp
  · obtain rfl : j = 0 := by simpa [Cell.parAt, oneCircuit] using h
    cases T with
    | none => rfl
    | some t => show (0.01 : ℝ) * Real.exp (-0 * (t - 25)) = 0.01; simp
  · obtain rfl : j = 0 := by simpa [Cell.parAt, oneCircuit] using h
    rfl
  · simp [oneCell, polyAt, rowPoly, num2]
  · obtain rfl : j = 0 := by simpa [oneCell] using h
    simp [oneCell, polyAt, rowPoly, num2]
  · obtain rfl : j = 0 := by simpa [oneCell] using h
    simp [oneCell, polyAt, rowPoly, num2]

theorem oneCell_positive (b : Nat) : Positive (tCellAt oneCell b) := by
  intro rc hrc z T
  rw [show (tCellAt oneCell b).rcs = [_] from rfl, List.mem_singleton] at hrc
  subst hrc
  constructor <;> simp [polyAt, rowPoly, num2] <;> norm_num

theorem oneCell_batched : oneCell.Batched 1 := by
  refine ⟨.inl rfl, .inl rfl, .inl rfl, .inl rfl, .inl rfl, .inl rfl, fun n hn => ?_, fun p hp => ?_⟩
  · simp only [oneCell, PolySocT.rowCounts, List.mem_cons, List.not_mem_nil, or_false] at hn
    rcases hn with rfl | rfl | rfl <;> exact .inl rfl
  · rw [List.mem_singleton.1 hp]
    constructor <;> intro n hn <;> simp only [PolySocT.rowCounts, List.mem_cons, List.not_mem_nil, or_false] at hn <;> rcases hn with rfl | rfl | rfl <;>
      exact .inl rfl

theorem oneCircuit_pars : Cell.Pars 1 oneCircuit := by
  refine ⟨.inl rfl, .inl rfl, .inl rfl, .inl rfl, .inl rfl, .inl rfl, ⟨.inl rfl, .inl rfl⟩, fun c hc => (by cases hc), fun rc hrc => ?_, .inl rfl⟩
  rw [List.mem_singleton.1 hrc]
  exact ⟨⟨.inl rfl, .inl rfl⟩, .inl rfl⟩

theorem oneCircuit_runs (q : ℝ × ℝ) (l : List (ℝ × ℝ)) : ∃ s' w, Ecm.run .constant oneCircuit (circuitInput q) (l.map circuitInput) circuitState = .ok s' ∧
    Ecm.voltage ((l.map circuitInput).getLastD (circuitInput q)) s' oneCircuit = .ok w := by
  have hin : ∀ q, Cell.Ins 1 (circuitInput q) := fun q => ⟨.inl rfl, .inl rfl, fun t ht => by cases ht⟩
  have hs : Cell.Sts 1 oneCircuit circuitState := ⟨.inl rfl, fun q hq => (by cases hq), .inl rfl, .inl rfl⟩
  have hl : ∀ k ∈ l.map circuitInput, Cell.Ins 1 k := fun k hk => by
    obtain ⟨q, -, rfl⟩ := List.mem_map.1 hk
    exact hin q
  obtain ⟨s', e⟩ := Cell.run_ok (by norm_num) oneCircuit_pars (hin q) hl hs (beh := .constant) (us := l.map circuitInput) ⟨fun k hk => by
      rw [← List.map_cons] at hk
      obtain ⟨q, -, rfl⟩ := List.mem_map.1 hk
      exact ⟨rfl, rfl, fun t ht => by cases ht⟩, fun h => (by cases h), fun k _ rc hrc => by
      rw [List.mem_singleton.1 hrc]
      exact ⟨⟨.inl rfl, fun _ => rfl⟩, .inl rfl⟩, ⟨1, fun rc hrc => by rw [List.mem_singleton.1 hrc]; rfl⟩, .inl rfl⟩
  obtain ⟨k1, k2⟩ := Cell.run_rows (by norm_num) oneCircuit_pars (hin q) hl hs e
  have last : ∃ r, (l.map circuitInput).getLastD (circuitInput q) = circuitInput r := by
    rcases l.eq_nil_or_concat with rfl | ⟨l, x, rfl⟩
    · exact ⟨q, rfl⟩
    · exact ⟨x, by simp⟩
  obtain ⟨r, hr⟩ := last
  have hq : s'.q0 = none := by
    have hn : ∀ (is : List Cell.In) (i : Cell.In) (s : Cell.St), s.q0 = none → (Cell.run .constant (Cell.parAt oneCircuit 0) i is s).q0 = none := by
      intro is
      induction is with
      | nil => exact fun _ _ h => h
      | cons i' is ih =>
        intro i s h
        exact ih _ _ (by show s.q0.map _ = none; rw [h]; rfl)
    have := congrArg Cell.St.q0 (k2 0 (by norm_num))
    rw [hn _ _ _ rfl] at this
    exact Option.map_eq_none_iff.1 this
  obtain ⟨w, hw⟩ := Cell.voltage_ok (by norm_num) oneCircuit_pars (hin r) k1 ⟨Cell.Demo.usable_line _ _ _ (by simp [oneCircuit, Ecm.rows, num2]),
    fun h => (by cases h), fun t ht => (by cases ht), ⟨.inl rfl, fun _ => rfl⟩, fun h => (by rw [hq] at h; cases h), fun rc hrc => by
      rw [List.mem_singleton.1 hrc]
      exact ⟨.inl rfl, fun _ => rfl⟩, 1, fun rc hrc => by rw [List.mem_singleton.1 hrc]; rfl⟩
  exact ⟨s', w, e, by rw [hr]; exact hw⟩

/-- All that `C155_gap` and `C155_agree_partial` ask for, for this cell through any inputs at times that do not go back. -/
theorem oneCell_gap {solver : Solver} (hsol : ExactSolver solver) (q : ℝ × ℝ) (l : List (ℝ × ℝ)) (hne : l ≠ [])
    (times : (q :: l).IsChain fun v w => v.1 ≤ w.1) : ∃ s' w st' v,
      Ecm.run .constant oneCircuit (circuitInput q) (l.map circuitInput) circuitState = .ok s' ∧
      Ecm.voltage ((l.map circuitInput).getLastD (circuitInput q)) s' oneCircuit = .ok w ∧
      runs solver true oneCell (oneInput q) oneState (l.map oneInput) = .ok st' ∧
      voltage ((l.map oneInput).getLastD (oneInput q)) st' oneCell = .ok v ∧
      st'.soc.get [0, 0] - Cell.at2 s'.soc 0 = (((q :: l).zip l).map fun r => (r.2.2 - r.1.2) * (r.2.1 - r.1.1)).sum / 3600 ∧
      entry v 0 - Cell.at2 w 0 = st'.soc.get [0, 0] - Cell.at2 s'.soc 0 ∧
      (((q :: l).IsChain fun v w => w.2 = v.2 ∨ w.1 = v.1) → Cell.at2 w 0 = entry v 0) := by
  have hin : ∀ q, Cell.Ins 1 (circuitInput q) := fun q => ⟨.inl rfl, .inl rfl, fun t ht => by cases ht⟩
  have hs : Cell.Sts 1 oneCircuit circuitState := ⟨.inl rfl, fun q hq => (by cases hq), .inl rfl, .inl rfl⟩
  have hl : ∀ k ∈ l.map circuitInput, Cell.Ins 1 k := fun k hk => by
    obtain ⟨q, -, rfl⟩ := List.mem_map.1 hk
    exact hin q
  have hus : ∀ v ∈ l.map oneInput, v.Batched 1 ∧ ∃ n, v.current.shape = [n, 1] := fun v hv => by
    obtain ⟨q, -, rfl⟩ := List.mem_map.1 hv
    exact ⟨⟨.inl rfl, .inl rfl, .inl rfl⟩, 1, rfl⟩
  have ht : ∀ b < 1, (oneInput q :: l.map oneInput).IsChain fun v w => entry v.time b ≤ entry w.time b := fun b _ => by
    rw [← List.map_cons, List.isChain_map]
    exact times
  have same : ∀ q, ∀ b < 1, SameInput (Cell.inAt (circuitInput q) b) (oneInput q) b := fun q b hb => by
    obtain rfl : b = 0 := by omega
    exact ⟨rfl, rfl⟩
  have sames : List.Forall₂ (fun k v => ∀ b < 1, SameInput (Cell.inAt k b) v b) (l.map circuitInput) (l.map oneInput) := by
    rw [List.forall₂_map_left_iff, List.forall₂_map_right_iff, List.forall₂_same]
    exact fun r _ => same r
  have zero : ∀ {P : Nat → Prop}, P 0 → ∀ b < 1, P b := fun h b hb => by
    obtain rfl : b = 0 := by omega
    exact h
  have hrc : ∀ p ∈ oneCell.rcs, Tables p.1 ∧ Tables p.2 := fun p hp => by
    rw [List.mem_singleton.1 hp]
    exact ⟨⟨⟨1, rfl⟩, ⟨1, 1, rfl, le_rfl⟩, 1, 1, rfl, le_rfl⟩, ⟨1, rfl⟩, ⟨1, 1, rfl, le_rfl⟩, 1, 1, rfl, le_rfl⟩
  have start : SameRC (Cell.stAt circuitState 0) (fun j => oneState.eta.get [0, j]) (fun _ => 0.01) oneCell.rcs.length :=
    ⟨rfl, rfl, fun j hj => by
      obtain rfl : j = 0 := by simpa [oneCell] using hj
      simp [oneState, circuitState, Cell.stAt, num2]⟩
  obtain ⟨s', w, e1, e2⟩ := oneCircuit_runs q l
  have hne' : l.map oneInput ≠ [] := by simpa using hne
  obtain ⟨st', v, e3, e4, r⟩ := C155_gap hsol ⟨⟨1, rfl⟩, ⟨1, 1, rfl, le_rfl⟩, 1, 1, rfl, le_rfl⟩ hrc ⟨1, 2, rfl, by norm_num⟩ (B := 1) le_rfl oneCell_batched
    (fun b _ => oneCell_positive b) (fun b _ => by simp [oneCell, entry, num2]) (st := oneState) rfl rfl rfl hne' hus ht oneCircuit_pars (hin q) hl hs e1 e2
    (R₀ := fun _ => 0.05) (R := fun _ _ => 0.01) (C := fun _ _ => 2500) (zero oneCell_same) (same q) sames (zero rfl) (zero start)
  refine ⟨s', w, st', v, e1, e2, e3, e4, ?_, ?_, fun hc => ?_⟩
  · refine (r 0 (by norm_num)).2.1.trans ?_
    rw [← List.map_cons, List.zip_map, List.map_map]
    simp only [oneCell, entry, num2, mul_one]
    rfl
  · refine (r 0 (by norm_num)).2.2.trans ?_
    simp [oneCell, rowPoly, Finset.sum_range_succ, Cell.stAt]
  · obtain ⟨st'', v', e3', e4', r'⟩ := C155_agree_partial hsol ⟨⟨1, rfl⟩, ⟨1, 1, rfl, le_rfl⟩, 1, 1, rfl, le_rfl⟩ hrc ⟨1, 2, rfl, by norm_num⟩ (B := 1) le_rfl
      oneCell_batched (fun b _ => oneCell_positive b) (fun b _ => by simp [oneCell, entry, num2]) (st := oneState) rfl rfl rfl hne' hus ht oneCircuit_pars (hin q)
      hl hs e1 e2 (R₀ := fun _ => 0.05) (R := fun _ _ => 0.01) (C := fun _ _ => 2500) (zero oneCell_same) (same q) sames (zero rfl) (zero start)
      (fun b _ => by
        rw [← List.map_cons, List.isChain_map]
        exact hc)
    obtain rfl : st' = st'' := by rw [e3] at e3'; cases e3'; rfl
    obtain rfl : v = v' := by rw [e4] at e4'; cases e4'; rfl
    exact (r' 0 (by norm_num)).2.2

/-- The claim without its condition on the current is false.  The cell rests, and 36 s later a current of 1 A is reported: the Thevenin model has charged it by 1 %
of its capacity, the equivalent circuit by nothing, and the voltages differ by the 10 mV that this makes. -/
theorem C155_disagree {solver : Solver} (hsol : ExactSolver solver) : ∃ s' w st' v,
    SameCell (Cell.parAt oneCircuit 0) oneCell 0 0.05 (fun _ => 0.01) (fun _ => 2500) ∧
    Ecm.run .constant oneCircuit (circuitInput (0, 0)) [circuitInput (36, 1)] circuitState = .ok s' ∧ Ecm.voltage (circuitInput (36, 1)) s' oneCircuit = .ok w ∧
    runs solver true oneCell (oneInput (0, 0)) oneState [oneInput (36, 1)] = .ok st' ∧ voltage (oneInput (36, 1)) st' oneCell = .ok v ∧
    st'.soc.get [0, 0] = Cell.at2 s'.soc 0 + 0.01 ∧ entry v 0 = Cell.at2 w 0 + 0.01 := by
  obtain ⟨s', w, st', v, e1, e2, e3, e4, r1, r2, -⟩ := oneCell_gap hsol (0, 0) [(36, 1)] (by simp) (by simp)
  have h : st'.soc.get [0, 0] - Cell.at2 s'.soc 0 = 0.01 := by rw [r1]; norm_num
  refine ⟨s', w, st', v, oneCell_same, e1, e2, e3, e4, by linarith, ?_⟩
  rw [h] at r2
  linarith

-- An exact solver exists, so the disagreement is real; and under any currents that change at inputs of their own the voltages of this cell agree.
example : ∃ solver, ExactSolver solver ∧ ∀ (q : ℝ × ℝ) (l : List (ℝ × ℝ)), l ≠ [] → ((q :: l).IsChain fun v w => v.1 ≤ w.1) →
    ((q :: l).IsChain fun v w => w.2 = v.2 ∨ w.1 = v.1) → ∃ s' w st' v,
    Ecm.run .constant oneCircuit (circuitInput q) (l.map circuitInput) circuitState = .ok s' ∧
    Ecm.voltage ((l.map circuitInput).getLastD (circuitInput q)) s' oneCircuit = .ok w ∧
    runs solver true oneCell (oneInput q) oneState (l.map oneInput) = .ok st' ∧
    voltage ((l.map oneInput).getLastD (oneInput q)) st' oneCell = .ok v ∧ Cell.at2 w 0 = entry v 0 := by
  obtain ⟨solver, hsol⟩ := C151_solver_possible
  refine ⟨solver, hsol, fun q l hne hl hc => ?_⟩
  obtain ⟨s', w, st', v, e1, e2, e3, e4, -, -, r⟩ := oneCell_gap hsol q l hne hl
  exact ⟨s', w, st', v, e1, e2, e3, e4, r hc⟩

-- Such as 1 A for 60 s, a rest of 60 s, and -2 A from then on.
example : ([(0, 1), (60, 1), (60, 0), (120, 0), (120, -2), (200, -2)] : List (ℝ × ℝ)).IsChain (fun v w => w.2 = v.2 ∨ w.1 = v.1) := by
  simp

end Verif
