import Verif.Props.TwoModels
import Verif.Spec.TheveninOrder
/-!
# C157: more current never means less voltage in the Thevenin model
-/

namespace Verif.Thevenin
open Verif Nd Spec Set

theorem order_follows {a : ASOH} {b : Nat} (hc : RisingCell a b) {x y : Course} : ∀ {us vs : List Input} {u v : Input},
    entry u.time b = entry v.time b → List.Forall₂ (MoreCurrent b) us vs → FollowsAll (tCellAt a b) true x b u us → FollowsAll (tCellAt a b) true y b v vs →
    x.soc (entry u.time b) ≤ y.soc (entry v.time b) → (∀ j < a.rcs.length, y.eta j (entry v.time b) ≤ x.eta j (entry u.time b)) →
    x.soc (entry (us.getLastD u).time b) ≤ y.soc (entry (vs.getLastD v).time b) ∧
    ∀ j < a.rcs.length, y.eta j (entry (vs.getLastD v).time b) ≤ x.eta j (entry (us.getLastD u).time b) := by
  have hn : (tCellAt a b).rcs.length = a.rcs.length := by simp [tCellAt]
  intro us
  induction us with
  | nil =>
    intro vs u v _ h _ _ h1 h2
    cases h
    exact ⟨h1, h2⟩
  | cons u' us ih =>
    intro vs u v ht h hx hy h1 h2
    cases h with
    | @cons _ v' _ vs hm h =>
    obtain ⟨x1, x2, x3⟩ := hx
    obtain ⟨y1, y2, y3⟩ := hy
    have e1 : (u' :: us).getLastD u = us.getLastD u' := by cases us <;> rfl
    have e2 : (v' :: vs).getLastD v = vs.getLastD v' := by cases vs <;> rfl
    rw [e1, e2]
    refine ih hm.time h x3 y3 ?_ fun j hj => ?_
    · rw [soc_obeys x1 x2 _ ⟨x1, le_rfl⟩, soc_obeys y1 y2 _ ⟨y1, le_rfl⟩]
      have hq : 0 < 3600 * (tCellAt a b).capacity := mul_pos (by norm_num) hc.capacity
      have k := mul_le_mul_of_nonneg_right hm.current (sub_nonneg.2 y1)
      have k' := div_le_div_of_nonneg_right k hq.le
      rw [← ht, ← hm.time] at k' ⊢
      rw [← ht] at h1
      have p1 : ∀ c : ℝ, -c / (3600 * (tCellAt a b).capacity) * (entry u'.time b - entry u.time b) =
        -(c * (entry u'.time b - entry u.time b) / (3600 * (tCellAt a b).capacity)) := fun c => by ring
      linarith [p1 (entry u'.current b), p1 (entry v'.current b)]
    · have hr := hc.rcs _ (List.getElem_mem hj)
      have hR : ∀ z, (tCellAt a b).rcs[j].1 z (entry u'.tInf b) = polyAt a.rcs[j].1 b 0 (entry u'.tInf b) := fun z => by
        simpa [tCellAt] using (hr z 0 _).1
      have hC : ∀ z, (tCellAt a b).rcs[j].2 z (entry u'.tInf b) = polyAt a.rcs[j].2 b 0 (entry u'.tInf b) := fun z => by
        simpa [tCellAt] using (hr z 0 _).2
      have pos := x2.positive _ (List.getElem_mem (hn.symm ▸ hj)) _ ⟨le_rfl, x1⟩
      simp only [Course.heat, if_true] at pos
      rw [hR, hC] at pos
      rw [← hm.ambient] at y2
      rw [eta_constant x1 x2 (hn.symm ▸ hj) hR hC, eta_constant y1 y2 (hn.symm ▸ hj) hR hC, ← ht, ← hm.time]
      have hf1 := Real.exp_pos (-(entry u'.time b - entry u.time b) / (polyAt a.rcs[j].1 b 0 (entry u'.tInf b) * polyAt a.rcs[j].2 b 0 (entry u'.tInf b)))
      have hf2 : Real.exp (-(entry u'.time b - entry u.time b) / (polyAt a.rcs[j].1 b 0 (entry u'.tInf b) * polyAt a.rcs[j].2 b 0 (entry u'.tInf b))) ≤ 1 := by
        rw [Real.exp_le_one_iff]
        exact div_nonpos_of_nonpos_of_nonneg (by linarith) (mul_pos pos.1 pos.2).le
      have k1 := mul_le_mul_of_nonneg_right (show y.eta j (entry u.time b) ≤ x.eta j (entry u.time b) by
        have := h2 j hj
        rwa [← ht] at this) hf1.le
      have k2 := mul_le_mul_of_nonneg_left (mul_le_mul_of_nonneg_left (neg_le_neg hm.current) pos.1.le) (sub_nonneg.2 hf2)
      exact add_le_add k1 k2

/-- C157.  Two simulations of the same isothermal cells, from states and with inputs of which the second have nowhere less SOC, more overpotential (counted positive
on discharge) or less current: at the end, after any number of steps, neither has it less SOC, more overpotential or less voltage. -/
theorem C157_order {solver : Solver} (hsol : ExactSolver solver) {a : ASOH} (hr0 : Tables a.r0) (hrcs : ∀ q ∈ a.rcs, Tables q.1 ∧ Tables q.2)
    (hocv : ∃ n d, a.ocv.coeffs.shape = [n, d] ∧ 1 ≤ d) {B : Nat} (hB : 1 ≤ B) (ha : a.Batched B) (hpos : ∀ b < B, Positive (tCellAt a b))
    {us us' : List Input} {u u' : Input} {st st' : State}
    (h1 : st.soc.shape = [B, 1]) (h2 : st.temp.shape = [B, 1]) (h3 : st.eta.shape = [B, a.rcs.length])
    (h1' : st'.soc.shape = [B, 1]) (h2' : st'.temp.shape = [B, 1]) (h3' : st'.eta.shape = [B, a.rcs.length]) (hne : us ≠ []) (hne' : us' ≠ [])
    (hus : ∀ v ∈ us, v.Batched B ∧ ∃ n, v.current.shape = [n, 1]) (hus' : ∀ v ∈ us', v.Batched B ∧ ∃ n, v.current.shape = [n, 1])
    (times : ∀ b < B, (u :: us).IsChain fun v w => entry v.time b ≤ entry w.time b)
    (times' : ∀ b < B, (u' :: us').IsChain fun v w => entry v.time b ≤ entry w.time b) :
    ∃ s s' v v', runs solver true a u st us = .ok s ∧ voltage (us.getLastD u) s a = .ok v ∧
      runs solver true a u' st' us' = .ok s' ∧ voltage (us'.getLastD u') s' a = .ok v' ∧ ∀ b < B,
      RisingCell a b → entry u.time b = entry u'.time b → List.Forall₂ (MoreCurrent b) us us' → Above a.rcs.length b st st' →
      Above a.rcs.length b s s' ∧ entry v b ≤ entry v' b := by
  obtain ⟨s, v, e1, e2, r⟩ := run_courses hsol hr0 hrcs hocv hB ha hpos ⟨h1, h2, h3⟩ hne hus times
  obtain ⟨s', v', e1', e2', r'⟩ := run_courses hsol hr0 hrcs hocv hB ha hpos ⟨h1', h2', h3'⟩ hne' hus' times'
  refine ⟨s, s', v, v', e1, e2, e1', e2', fun b hb hc ht hm hs => ?_⟩
  obtain ⟨x, x1, x2, x3, x4, x5, x6⟩ := r b hb
  obtain ⟨y, y1, y2, y3, y4, y5, y6⟩ := r' b hb
  obtain ⟨g1, g2⟩ := order_follows hc ht hm x3 y3 (by rw [x1, y1]; exact hs.soc) (fun j hj => by rw [x2 j hj, y2 j hj]; exact hs.eta j hj)
  have k : Above a.rcs.length b s s' := ⟨by rw [x4, y4]; exact g1, fun j hj => by rw [x5 j hj, y5 j hj]; exact g2 j hj⟩
  refine ⟨k, ?_⟩
  have last : MoreCurrent b (us.getLastD u) (us'.getLastD u') := by
    have key : ∀ {l l' : List Input} (d d' : Input), l ≠ [] → List.Forall₂ (MoreCurrent b) l l' → MoreCurrent b (l.getLastD d) (l'.getLastD d') := by
      intro l
      induction l with
      | nil => intro _ _ _ h _; exact absurd rfl h
      | cons w l ih =>
        intro l' d d' _ h
        cases h with
        | cons hw h =>
        cases h with
        | nil => exact hw
        | cons hz h =>
          have := ih d d' (by simp) (List.Forall₂.cons hz h)
          exact this
    exact key u u' hne hm
  rw [x6, y6, hc.r0 (s'.soc.get [b, 0]) (s.soc.get [b, 0]), ← last.ambient]
  have q1 := hc.ocv _ _ k.soc
  have q2 := mul_le_mul_of_nonneg_right last.current (hc.r0_nonneg (s.soc.get [b, 0]) (entry (us.getLastD u).tInf b))
  have q3 : ∑ j ∈ Finset.range a.rcs.length, s'.eta.get [b, j] ≤ ∑ j ∈ Finset.range a.rcs.length, s.eta.get [b, j] :=
    Finset.sum_le_sum fun j hj => k.eta j (Finset.mem_range.1 hj)
  linarith

/-! ## Example -/

-- The cell of `TwoModels` at rest for any time, and under any charging currents at these times: the second shows at least as much voltage.
example (l : List (ℝ × ℝ)) (hne : l ≠ []) (hl : ∀ q ∈ l, 0 ≤ q.2) (times : ((0, 0) :: l).IsChain fun v w => v.1 ≤ w.1) : ∃ solver, ExactSolver solver ∧
    ∃ s s' v v', runs solver true oneCell (oneInput (0, 0)) oneState (l.map fun q => oneInput (q.1, 0)) = .ok s ∧
      voltage ((l.map fun q => oneInput (q.1, 0)).getLastD (oneInput (0, 0))) s oneCell = .ok v ∧
      runs solver true oneCell (oneInput (0, 0)) oneState (l.map oneInput) = .ok s' ∧
      voltage ((l.map oneInput).getLastD (oneInput (0, 0))) s' oneCell = .ok v' ∧ entry v 0 ≤ entry v' 0 := by
  obtain ⟨solver, hsol⟩ := C151_solver_possible
  refine ⟨solver, hsol, ?_⟩
  have hin : ∀ q, (oneInput q).Batched 1 ∧ ∃ n, (oneInput q).current.shape = [n, 1] := fun q => ⟨⟨.inl rfl, .inl rfl, .inl rfl⟩, 1, rfl⟩
  have hrc : ∀ p ∈ oneCell.rcs, Tables p.1 ∧ Tables p.2 := fun p hp => by
    rw [List.mem_singleton.1 hp]
    exact ⟨⟨⟨1, rfl⟩, ⟨1, 1, rfl, le_rfl⟩, 1, 1, rfl, le_rfl⟩, ⟨1, rfl⟩, ⟨1, 1, rfl, le_rfl⟩, 1, 1, rfl, le_rfl⟩
  obtain ⟨s, s', v, v', e1, e2, e3, e4, r⟩ := C157_order hsol ⟨⟨1, rfl⟩, ⟨1, 1, rfl, le_rfl⟩, 1, 1, rfl, le_rfl⟩ hrc ⟨1, 2, rfl, by norm_num⟩ (B := 1) le_rfl
    oneCell_batched (fun b _ => oneCell_positive b) (us := l.map fun q => oneInput (q.1, 0)) (us' := l.map oneInput) (u := oneInput (0, 0))
    (u' := oneInput (0, 0)) (st := oneState) (st' := oneState) rfl rfl rfl rfl rfl rfl (by simpa using hne) (by simpa using hne)
    (fun v hv => by obtain ⟨q, -, rfl⟩ := List.mem_map.1 hv; exact hin _) (fun v hv => by obtain ⟨q, -, rfl⟩ := List.mem_map.1 hv; exact hin _)
    (fun b _ => by
      have e : (oneInput (0, 0) :: l.map fun q => oneInput (q.1, 0)) = ((0, 0) :: l).map fun q => oneInput (q.1, 0) := rfl
      rw [e, List.isChain_map]
      exact times)
    (fun b _ => by
      rw [← List.map_cons, List.isChain_map]
      exact times)
  refine ⟨s, s', v, v', e1, e2, e3, e4, (r 0 (by norm_num) ⟨?_, fun z z' h => ?_, fun z z' T => ?_, fun z T => ?_, fun q hq z z' T => ?_⟩ rfl ?_
    ⟨le_rfl, fun j _ => le_rfl⟩).2⟩
  · simp [oneCell, entry, num2]
  · simp [oneCell, rowPoly, Finset.sum_range_succ]
    exact h
  · rw [oneCell_same.theveninR0, oneCell_same.theveninR0]
  · rw [oneCell_same.theveninR0]
    norm_num
  · rw [List.mem_singleton.1 hq]
    constructor <;> simp [polyAt, rowPoly, num2]
  · rw [List.forall₂_map_left_iff, List.forall₂_map_right_iff, List.forall₂_same]
    exact fun q hq => ⟨rfl, rfl, hl q hq⟩

end Verif.Thevenin
