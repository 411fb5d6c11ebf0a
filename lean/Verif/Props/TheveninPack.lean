import Verif.Props.TheveninRest
import Verif.Spec.TheveninPack
/-!
# C154: a pack of Thevenin cells is one Thevenin cell
-/

namespace Verif.Thevenin
open Verif Nd Spec Set

theorem entry_times (k : ℝ) (a : Nd ℝ) (b : Nat) : entry (times k a) b = k * entry a b := rfl

theorem rowPoly_times (k : ℝ) (c : Nd ℝ) (b : Nat) (x : ℝ) : rowPoly (times k c) b x = k * rowPoly c b x := by
  unfold rowPoly
  rw [Finset.mul_sum]
  exact Finset.sum_congr rfl fun i _ => mul_assoc _ _ _

theorem polyAt_times (k : ℝ) (q : PolySocT) (b : Nat) (z T : ℝ) : polyAt (timesPoly k q) b z T = k * polyAt q b z T := by
  unfold polyAt timesPoly
  rw [rowPoly_times, rowPoly_times, mul_add]

theorem tables_times {k : ℝ} {q : PolySocT} (h : Tables q) : Tables (timesPoly k q) := h

theorem pack_batched {p s : ℝ} {a : ASOH} {B : Nat} (h : a.Batched B) : (packOf p s a).Batched B :=
  ⟨h.capacity, h.mass, h.cp, h.hThermal, h.aTherm, h.ocv, h.r0, fun q hq => by
    obtain ⟨q', hq', rfl⟩ := List.mem_map.1 hq
    exact h.rcs q' hq'⟩

/-- The overpotentials of the pack. -/
noncomputable def packCourse (s : ℝ) (x : Course) : Course := ⟨x.soc, x.temp, fun j t => s * x.eta j t⟩

theorem pack_obeys {p s : ℝ} (hp : 0 < p) (hs : 0 < s) {a : ASOH} {b : Nat} {amb I t₀ t₁ : ℝ} {x : Course} (h : Obeys (tCellAt a b) true amb I t₀ t₁ x) :
    Obeys (tCellAt (packOf p s a) b) true amb (p * I) t₀ t₁ (packCourse s x) := by
  have hn : ∀ a : ASOH, (tCellAt a b).rcs.length = a.rcs.length := fun a => by simp [tCellAt]
  refine ⟨fun t ht => (h.soc t ht).congr_deriv ?_, fun j hj t ht => ?_, nofun, fun rc hrc t ht => ?_⟩
  · show -I / (3600 * entry a.capacity b) = -(p * I) / (3600 * entry (times p a.capacity) b)
    rw [entry_times, ← mul_neg, ← mul_div_mul_left _ _ hp.ne']
    congr 1
    ring
  · have hj' : j < (tCellAt a b).rcs.length := by
      rw [hn] at hj ⊢
      simpa [packOf] using hj
    refine ((h.eta j hj' t ht).const_mul s).congr_deriv ?_
    have hpos := h.positive _ (List.getElem_mem hj') t ht
    have e : (tCellAt (packOf p s a) b).rcs[j] = (fun z T => s / p * (tCellAt a b).rcs[j].1 z T, fun z T => p / s * (tCellAt a b).rcs[j].2 z T) := by
      simp only [tCellAt, packOf, List.getElem_map]
      ext <;> simp only [polyAt_times]
    rw [e]
    show s * _ = p * I / (p / s * (tCellAt a b).rcs[j].2 (x.soc t) amb) -
      s * x.eta j t / (s / p * (tCellAt a b).rcs[j].1 (x.soc t) amb * (p / s * (tCellAt a b).rcs[j].2 (x.soc t) amb))
    simp only [Course.heat, if_true] at hpos ⊢
    have h1 := hpos.1.ne'
    have h2 := hpos.2.ne'
    field_simp
  · obtain ⟨q', hq', rfl⟩ := List.mem_map.1 hrc
    obtain ⟨q, hq, rfl⟩ := List.mem_map.1 hq'
    have := h.positive _ (List.mem_map.2 ⟨q, hq, rfl⟩) t ht
    simp only [polyAt_times]
    exact ⟨mul_pos (div_pos hs hp) this.1, mul_pos (div_pos hp hs) this.2⟩

theorem pack_follows {p s : ℝ} (hp : 0 < p) (hs : 0 < s) {a : ASOH} {b : Nat} {x : Course} : ∀ {us : List Input} {u : Input},
    FollowsAll (tCellAt a b) true x b u us → FollowsAll (tCellAt (packOf p s a) b) true (packCourse s x) b (packInput p u) (us.map (packInput p)) := by
  intro us
  induction us with
  | nil => intro u _; trivial
  | cons v us ih =>
    rintro u ⟨k1, k2, k3⟩
    refine ⟨k1, ?_, ih k3⟩
    have := pack_obeys hp hs k2
    rw [mul_neg] at this
    exact this

theorem getLastD_map {α β : Type} (f : α → β) : ∀ (l : List α) (d : α), (l.map f).getLastD (f d) = f (l.getLastD d)
  | [], _ => rfl
  | [_], _ => rfl
  | _ :: y :: l, d => by
    have := getLastD_map f (y :: l) d
    simpa [List.getLastD] using this

/-- C154.  Isothermal cells are simulated through any inputs, and so are packs of `p` strings in parallel of `s` such cells, with `p` times the current.
The packs have the SOCs of the cells, `s` times their overpotentials and `s` times their voltages. -/
theorem C154_pack {solver : Solver} (hsol : ExactSolver solver) {a : ASOH} (hr0 : Tables a.r0) (hrcs : ∀ q ∈ a.rcs, Tables q.1 ∧ Tables q.2)
    (hocv : ∃ n d, a.ocv.coeffs.shape = [n, d] ∧ 1 ≤ d) {B : Nat} (hB : 1 ≤ B) (ha : a.Batched B) (hpos : ∀ b < B, Positive (tCellAt a b))
    (_hQ : ∀ b < B, entry a.capacity b ≠ 0) {us : List Input} {u : Input} {st : State}
    (h1 : st.soc.shape = [B, 1]) (h2 : st.temp.shape = [B, 1]) (h3 : st.eta.shape = [B, a.rcs.length]) (hne : us ≠ [])
    (hus : ∀ v ∈ us, v.Batched B ∧ ∃ n, v.current.shape = [n, 1]) (ordered : ∀ b < B, (u :: us).IsChain fun v w => entry v.time b ≤ entry w.time b)
    {p s : ℝ} (hp : 0 < p) (hs : 0 < s) :
    ∃ cell pack v w, runs solver true a u st us = .ok cell ∧ voltage (us.getLastD u) cell a = .ok v ∧
      runs solver true (packOf p s a) (packInput p u) (packState s st) (us.map (packInput p)) = .ok pack ∧
      voltage (packInput p (us.getLastD u)) pack (packOf p s a) = .ok w ∧ ∀ b < B,
      pack.soc.get [b, 0] = cell.soc.get [b, 0] ∧ (∀ j < a.rcs.length, pack.eta.get [b, j] = s * cell.eta.get [b, j]) ∧ entry w b = s * entry v b := by
  obtain ⟨cell, v, e1, e2, r⟩ := run_courses hsol hr0 hrcs hocv hB ha hpos ⟨h1, h2, h3⟩ hne hus ordered
  have ex : ∀ b, ∃ x : Course, b < B → x.soc (entry u.time b) = st.soc.get [b, 0] ∧ (∀ j < a.rcs.length, x.eta j (entry u.time b) = st.eta.get [b, j]) ∧
      FollowsAll (tCellAt a b) true x b u us ∧ cell.soc.get [b, 0] = x.soc (entry (us.getLastD u).time b) ∧
      (∀ j < a.rcs.length, cell.eta.get [b, j] = x.eta j (entry (us.getLastD u).time b)) ∧
      entry v b = rowPoly a.ocv.coeffs b (cell.soc.get [b, 0]) + entry (us.getLastD u).current b *
        polyAt a.r0 b (cell.soc.get [b, 0]) (entry (us.getLastD u).tInf b) - ∑ j ∈ Finset.range a.rcs.length, cell.eta.get [b, j] := fun b => by
    by_cases hb : b < B
    · obtain ⟨x, hx⟩ := r b hb
      exact ⟨x, fun _ => hx⟩
    · exact ⟨⟨fun _ => 0, fun _ => 0, fun _ _ => 0⟩, fun h => absurd h hb⟩
  choose x hx using ex
  have hlen : (packOf p s a).rcs.length = a.rcs.length := by simp [packOf]
  have hl : us.getLastD u ∈ us := by
    rw [List.getLastD_eq_getLast?, List.getLast?_eq_some_getLast hne]
    exact List.getLast_mem hne
  have hus' : ∀ w ∈ us.map (packInput p), w.Batched B := fun w hw => by
    obtain ⟨v, hv, rfl⟩ := List.mem_map.1 hw
    exact ⟨(hus v hv).1.time, (hus v hv).1.current, (hus v hv).1.tInf⟩
  obtain ⟨pack, f1, t1, t2, t3, q⟩ := C151_follows_equations_partial hsol (a := packOf p s a) (tables_times hr0) (fun q hq => by
      obtain ⟨q', hq', rfl⟩ := List.mem_map.1 hq
      exact hrcs q' hq') hB (pack_batched ha) (x := fun b => packCourse s (x b)) (us.map (packInput p)) (packInput p u) (packState s st) h1 h2
    (by rw [hlen]; exact h3) hus' fun b hb => ⟨(hx b hb).1, fun j hj => congrArg (s * ·) ((hx b hb).2.1 j (hlen ▸ hj)), pack_follows hp hs (hx b hb).2.2.1⟩
  have hl' : packInput p (us.getLastD u) ∈ us.map (packInput p) := List.mem_map.2 ⟨_, hl, rfl⟩
  obtain ⟨w, w1, w2⟩ := voltage_many (a := packOf p s a) (tables_times hr0) hocv (pack_batched ha) ⟨t1, t2, t3⟩ (hus' _ hl') (hus _ hl).2
  refine ⟨cell, pack, v, w, e1, e2, f1, w1, fun b hb => ?_⟩
  obtain ⟨-, -, -, x4, x5, x6⟩ := hx b hb
  obtain ⟨q1, q2, q3⟩ := q b hb
  rw [getLastD_map] at q1 q2 q3
  have k1 : pack.soc.get [b, 0] = cell.soc.get [b, 0] := q1.trans x4.symm
  have k2 : ∀ j < a.rcs.length, pack.eta.get [b, j] = s * cell.eta.get [b, j] := fun j hj => by
    rw [q2 j (hlen.symm ▸ hj), x5 j hj]
    rfl
  refine ⟨k1, k2, ?_⟩
  rw [w2 b hb, x6, k1, q3 (by simpa using hne), hlen, Finset.sum_congr rfl fun j hj => k2 j (Finset.mem_range.1 hj), ← Finset.mul_sum]
  show rowPoly (times s a.ocv.coeffs) b _ + entry (times p (us.getLastD u).current) b * polyAt (timesPoly (s / p) a.r0) b _ _ - _ = _
  rw [rowPoly_times, entry_times, polyAt_times]
  have : p * (s / p) = s := by field_simp
  simp only [packInput]
  linear_combination (entry (us.getLastD u).current b * polyAt a.r0 b (cell.soc.get [b, 0]) (entry (us.getLastD u).tInf b)) * this

/-! ## Example -/

-- The two cells of `TheveninOde` and two packs of 3 strings of 100 such cells: 1 A through a cell is 3 A through a pack.
example : ∃ solver, ExactSolver solver ∧
    let u : ℝ → ℝ → Input := fun t i => ⟨num2 t, num2 i, num2 298⟩
    let st : State := ⟨⟨[2, 1], fun idx => [0.2, 0.8].getD (idx.getD 0 0) 0⟩, ⟨[2, 1], fun _ => 298⟩, ⟨[2, 1], fun _ => 0.1⟩⟩
    ∃ cell pack v w, runs solver true twoCells (u 0 0) st [u 10 1, u 36 (-1)] = .ok cell ∧ voltage (u 36 (-1)) cell twoCells = .ok v ∧
      runs solver true (packOf 3 100 twoCells) (packInput 3 (u 0 0)) (packState 100 st) [packInput 3 (u 10 1), packInput 3 (u 36 (-1))] = .ok pack ∧
      voltage (packInput 3 (u 36 (-1))) pack (packOf 3 100 twoCells) = .ok w ∧ ∀ b < 2, entry w b = 100 * entry v b := by
  obtain ⟨solver, hsol⟩ := C151_solver_possible
  refine ⟨solver, hsol, ?_⟩
  intro u st
  obtain ⟨cell, pack, v, w, e1, e2, e3, e4, r⟩ := C154_pack hsol ⟨⟨1, rfl⟩, ⟨1, 1, rfl, le_rfl⟩, 1, 1, rfl, le_rfl⟩ twoCells_tables ⟨1, 1, rfl, le_rfl⟩
    (B := 2) (by norm_num) twoCells_batched (fun b _ => twoCells_positive b) (fun b _ => by simp [twoCells, entry, num2])
    (us := [u 10 1, u 36 (-1)]) (u := u 0 0) (st := st) rfl rfl rfl (by simp)
    (fun w hw => by
      rcases List.mem_cons.1 hw with rfl | hw
      · exact ⟨⟨.inl rfl, .inl rfl, .inl rfl⟩, 1, rfl⟩
      · rw [List.mem_singleton.1 hw]
        exact ⟨⟨.inl rfl, .inl rfl, .inl rfl⟩, 1, rfl⟩) (fun b _ => by simp [u, entry, num2]; norm_num) (p := 3) (s := 100) (by norm_num) (by norm_num)
  exact ⟨cell, pack, v, w, e1, e2, e3, e4, fun b hb => (r b hb).2.2⟩

end Verif.Thevenin
