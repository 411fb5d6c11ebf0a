import Verif.Props.TheveninPack
import Verif.Spec.TheveninClock
/-!
# C156: a slower Thevenin cell is the same cell on another clock
-/

namespace Verif.Thevenin
open Verif Nd Spec Set

theorem slow_batched {k : ℝ} {a : ASOH} {B : Nat} (h : a.Batched B) : (slowCell k a).Batched B :=
  ⟨h.capacity, h.mass, h.cp, h.hThermal, h.aTherm, h.ocv, h.r0, fun q hq => by
    obtain ⟨q', hq', rfl⟩ := List.mem_map.1 hq
    exact h.rcs q' hq'⟩

/-- The course of the slow cell. -/
noncomputable def slowCourse (k c : ℝ) (x : Course) : Course := ⟨fun t => x.soc ((t - c) / k), fun t => x.temp ((t - c) / k), fun j t => x.eta j ((t - c) / k)⟩

theorem slow_deriv {k c : ℝ} (hk : 0 < k) {f : ℝ → ℝ} {f' s e t : ℝ} (h : HasDerivWithinAt f f' (Icc s e) ((t - c) / k)) :
    HasDerivWithinAt (fun t => f ((t - c) / k)) (f' * (1 / k)) (Icc (k * s + c) (k * e + c)) t := by
  refine HasDerivWithinAt.comp t h ((((hasDerivAt_id t).sub_const c).div_const k).hasDerivWithinAt) fun y hy => ?_
  constructor
  · show s ≤ (y - c) / k
    rw [le_div_iff₀ hk]
    linarith [hy.1]
  · show (y - c) / k ≤ e
    rw [div_le_iff₀ hk]
    linarith [hy.2]

theorem slow_obeys {k c : ℝ} (hk : 0 < k) {a : ASOH} {b : Nat} {amb I t₀ t₁ : ℝ} {x : Course} (h : Obeys (tCellAt a b) true amb I t₀ t₁ x) :
    Obeys (tCellAt (slowCell k a) b) true amb (1 / k * I) (k * t₀ + c) (k * t₁ + c) (slowCourse k c x) := by
  have hn : ∀ a : ASOH, (tCellAt a b).rcs.length = a.rcs.length := fun a => by simp [tCellAt]
  have hin : ∀ t ∈ Icc (k * t₀ + c) (k * t₁ + c), (t - c) / k ∈ Icc t₀ t₁ := fun t ht => by
    constructor
    · rw [le_div_iff₀ hk]
      linarith [ht.1]
    · rw [div_le_iff₀ hk]
      linarith [ht.2]
  refine ⟨fun t ht => (slow_deriv hk (h.soc _ (hin t ht))).congr_deriv ?_, fun j hj t ht => ?_, nofun, fun rc hrc t ht => ?_⟩
  · show -I / (3600 * entry a.capacity b) * (1 / k) = -(1 / k * I) / (3600 * entry a.capacity b)
    ring
  · have hj' : j < (tCellAt a b).rcs.length := by
      rw [hn] at hj ⊢
      simpa [slowCell] using hj
    refine (slow_deriv hk (h.eta j hj' _ (hin t ht))).congr_deriv ?_
    have hpos := h.positive _ (List.getElem_mem hj') _ (hin t ht)
    have e : (tCellAt (slowCell k a) b).rcs[j] = (fun z T => k * (tCellAt a b).rcs[j].1 z T, (tCellAt a b).rcs[j].2) := by
      simp only [tCellAt, slowCell, List.getElem_map]
      ext <;> simp only [polyAt_times]
    rw [e]
    simp only [Course.heat, if_true, slowCourse] at hpos ⊢
    have h1 := hpos.1.ne'
    have h2 := hpos.2.ne'
    field_simp
  · obtain ⟨q', hq', rfl⟩ := List.mem_map.1 hrc
    obtain ⟨q, hq, rfl⟩ := List.mem_map.1 hq'
    have := h.positive _ (List.mem_map.2 ⟨q, hq, rfl⟩) _ (hin t ht)
    simp only [polyAt_times]
    exact ⟨mul_pos hk this.1, this.2⟩

theorem slow_follows {k c : ℝ} (hk : 0 < k) {a : ASOH} {b : Nat} {x : Course} : ∀ {us : List Input} {u : Input},
    FollowsAll (tCellAt a b) true x b u us →
    FollowsAll (tCellAt (slowCell k a) b) true (slowCourse k c x) b (slowInput k c u) (us.map (slowInput k c)) := by
  intro us
  induction us with
  | nil => intro u _; trivial
  | cons v us ih =>
    rintro u ⟨k1, k2, k3⟩
    refine ⟨?_, ?_, ih k3⟩
    · show k * entry u.time b + c ≤ k * entry v.time b + c
      have := mul_le_mul_of_nonneg_left k1 hk.le
      linarith
    · have := slow_obeys (c := c) hk k2
      rw [mul_neg] at this
      exact this

/-- C156.  Isothermal cells are simulated through any inputs, and so are cells with `k` times the resistances, with the `k`-th part of the currents over `k`
times the time, from any time on.  Both have the same SOCs, overpotentials and voltages. -/
theorem C156_clock {solver : Solver} (hsol : ExactSolver solver) {a : ASOH} (hr0 : Tables a.r0) (hrcs : ∀ q ∈ a.rcs, Tables q.1 ∧ Tables q.2)
    (hocv : ∃ n d, a.ocv.coeffs.shape = [n, d] ∧ 1 ≤ d) {B : Nat} (hB : 1 ≤ B) (ha : a.Batched B) (hpos : ∀ b < B, Positive (tCellAt a b))
    (_hQ : ∀ b < B, entry a.capacity b ≠ 0) {us : List Input} {u : Input} {st : State}
    (h1 : st.soc.shape = [B, 1]) (h2 : st.temp.shape = [B, 1]) (h3 : st.eta.shape = [B, a.rcs.length]) (hne : us ≠ [])
    (hus : ∀ v ∈ us, v.Batched B ∧ ∃ n, v.current.shape = [n, 1]) (ordered : ∀ b < B, (u :: us).IsChain fun v w => entry v.time b ≤ entry w.time b)
    {k : ℝ} (hk : 0 < k) (c : ℝ) :
    ∃ fast slow v w, runs solver true a u st us = .ok fast ∧ voltage (us.getLastD u) fast a = .ok v ∧
      runs solver true (slowCell k a) (slowInput k c u) st (us.map (slowInput k c)) = .ok slow ∧
      voltage (slowInput k c (us.getLastD u)) slow (slowCell k a) = .ok w ∧ ∀ b < B,
      slow.soc.get [b, 0] = fast.soc.get [b, 0] ∧ (∀ j < a.rcs.length, slow.eta.get [b, j] = fast.eta.get [b, j]) ∧ entry w b = entry v b := by
  obtain ⟨fast, v, e1, e2, r⟩ := run_courses hsol hr0 hrcs hocv hB ha hpos ⟨h1, h2, h3⟩ hne hus ordered
  have ex : ∀ b, ∃ x : Course, b < B → x.soc (entry u.time b) = st.soc.get [b, 0] ∧ (∀ j < a.rcs.length, x.eta j (entry u.time b) = st.eta.get [b, j]) ∧
      FollowsAll (tCellAt a b) true x b u us ∧ fast.soc.get [b, 0] = x.soc (entry (us.getLastD u).time b) ∧
      (∀ j < a.rcs.length, fast.eta.get [b, j] = x.eta j (entry (us.getLastD u).time b)) ∧
      entry v b = rowPoly a.ocv.coeffs b (fast.soc.get [b, 0]) + entry (us.getLastD u).current b *
        polyAt a.r0 b (fast.soc.get [b, 0]) (entry (us.getLastD u).tInf b) - ∑ j ∈ Finset.range a.rcs.length, fast.eta.get [b, j] := fun b => by
    by_cases hb : b < B
    · obtain ⟨x, hx⟩ := r b hb
      exact ⟨x, fun _ => hx⟩
    · exact ⟨⟨fun _ => 0, fun _ => 0, fun _ _ => 0⟩, fun h => absurd h hb⟩
  choose x hx using ex
  have hlen : (slowCell k a).rcs.length = a.rcs.length := by simp [slowCell]
  have hl : us.getLastD u ∈ us := by
    rw [List.getLastD_eq_getLast?, List.getLast?_eq_some_getLast hne]
    exact List.getLast_mem hne
  have hus' : ∀ w ∈ us.map (slowInput k c), w.Batched B := fun w hw => by
    obtain ⟨v, hv, rfl⟩ := List.mem_map.1 hw
    exact ⟨(hus v hv).1.time, (hus v hv).1.current, (hus v hv).1.tInf⟩
  have back : ∀ t, (k * t + c - c) / k = t := fun t => by field_simp; ring
  obtain ⟨slow, f1, t1, t2, t3, q⟩ := C151_follows_equations_partial hsol (a := slowCell k a) (tables_times hr0) (fun q hq => by
      obtain ⟨q', hq', rfl⟩ := List.mem_map.1 hq
      exact hrcs q' hq') hB (slow_batched ha) (x := fun b => slowCourse k c (x b)) (us.map (slowInput k c)) (slowInput k c u) st h1 h2
    (by rw [hlen]; exact h3) hus' fun b hb => ⟨(congrArg (x b).soc (back _)).trans (hx b hb).1, fun j hj => (congrArg ((x b).eta j) (back _)).trans
      ((hx b hb).2.1 j (hlen ▸ hj)), slow_follows hk (hx b hb).2.2.1⟩
  have hl' : slowInput k c (us.getLastD u) ∈ us.map (slowInput k c) := List.mem_map.2 ⟨_, hl, rfl⟩
  obtain ⟨w, w1, w2⟩ := voltage_many (a := slowCell k a) (tables_times hr0) hocv (slow_batched ha) ⟨t1, t2, t3⟩ (hus' _ hl') (hus _ hl).2
  refine ⟨fast, slow, v, w, e1, e2, f1, w1, fun b hb => ?_⟩
  obtain ⟨-, -, -, x4, x5, x6⟩ := hx b hb
  obtain ⟨q1, q2, q3⟩ := q b hb
  rw [getLastD_map] at q1 q2 q3
  have k1 : slow.soc.get [b, 0] = fast.soc.get [b, 0] := (q1.trans (congrArg (x b).soc (back _))).trans x4.symm
  have k2 : ∀ j < a.rcs.length, slow.eta.get [b, j] = fast.eta.get [b, j] := fun j hj => by
    rw [q2 j (hlen.symm ▸ hj), x5 j hj]
    exact congrArg ((x b).eta j) (back _)
  refine ⟨k1, k2, ?_⟩
  rw [w2 b hb, x6, k1, q3 (by simpa using hne), hlen, Finset.sum_congr rfl fun j hj => k2 j (Finset.mem_range.1 hj)]
  show rowPoly a.ocv.coeffs b _ + entry (times (1 / k) (us.getLastD u).current) b * polyAt (timesPoly k a.r0) b _ _ - _ = _
  rw [entry_times, polyAt_times]
  have : 1 / k * k = 1 := by field_simp
  simp only [slowInput]
  linear_combination (entry (us.getLastD u).current b * polyAt a.r0 b (fast.soc.get [b, 0]) (entry (us.getLastD u).tInf b)) * this

/-! ## Example -/

-- The two cells of `TheveninOde`, and two with twice the resistances on a clock that starts at 1000 s: 5 A from 1000 s to 1020 s instead of 10 A to 10 s.
example : ∃ solver, ExactSolver solver ∧
    let u : ℝ → ℝ → Input := fun t i => ⟨num2 t, num2 i, num2 298⟩
    let st : State := ⟨⟨[2, 1], fun idx => [0.2, 0.8].getD (idx.getD 0 0) 0⟩, ⟨[2, 1], fun _ => 298⟩, ⟨[2, 1], fun _ => 0.1⟩⟩
    ∃ fast slow v w, runs solver true twoCells (u 0 0) st [u 10 10, u 36 (-1)] = .ok fast ∧ voltage (u 36 (-1)) fast twoCells = .ok v ∧
      runs solver true (slowCell 2 twoCells) (slowInput 2 1000 (u 0 0)) st [slowInput 2 1000 (u 10 10), slowInput 2 1000 (u 36 (-1))] = .ok slow ∧
      voltage (slowInput 2 1000 (u 36 (-1))) slow (slowCell 2 twoCells) = .ok w ∧
      entry (slowInput 2 1000 (u 10 10)).time 1 = 1020 ∧ entry (slowInput 2 1000 (u 10 10)).current 1 = 5 ∧ ∀ b < 2, entry w b = entry v b := by
  obtain ⟨solver, hsol⟩ := C151_solver_possible
  refine ⟨solver, hsol, ?_⟩
  intro u st
  obtain ⟨fast, slow, v, w, e1, e2, e3, e4, r⟩ := C156_clock hsol ⟨⟨1, rfl⟩, ⟨1, 1, rfl, le_rfl⟩, 1, 1, rfl, le_rfl⟩ twoCells_tables ⟨1, 1, rfl, le_rfl⟩
    (B := 2) (by norm_num) twoCells_batched (fun b _ => twoCells_positive b) (fun b _ => by simp [twoCells, entry, num2])
    (us := [u 10 10, u 36 (-1)]) (u := u 0 0) (st := st) rfl rfl rfl (by simp)
    (fun w hw => by
      rcases List.mem_cons.1 hw with rfl | hw
      · exact ⟨⟨.inl rfl, .inl rfl, .inl rfl⟩, 1, rfl⟩
      · rw [List.mem_singleton.1 hw]
        exact ⟨⟨.inl rfl, .inl rfl, .inl rfl⟩, 1, rfl⟩) (fun b _ => by simp [u, entry, num2]; norm_num) (k := 2) (by norm_num) 1000
  refine ⟨fast, slow, v, w, e1, e2, e3, e4, ?_, ?_, fun b hb => (r b hb).2.2⟩
  · show (2 : ℝ) * 10 + 1000 = 1020
    norm_num
  · show (1 : ℝ) / 2 * 10 = 5
    norm_num

end Verif.Thevenin
