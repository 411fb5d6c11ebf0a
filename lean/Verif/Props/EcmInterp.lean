import Verif.Spec.Pinned
import Verif.Proofs.Interp
import Verif.Proofs.EcmSucceeds
import Mathlib.Tactic.IntervalCases
import Mathlib.Tactic.FinCases
/-!
# C30: parameters interpolated over state of charge
-/

namespace Verif
open Nd

theorem Pinned.pinsUsed {h : Interp} {R W : Nat} {x : Nat → ℝ} (hp : Pinned h R W x) : h.pinsUsed = (List.range W).map x := by
  rcases hp.pins with h1 | ⟨h1, h2⟩
  · simp [Interp.pinsUsed, h1]
  · rw [Interp.pinsUsed, h1]
    simp only [Option.getD_none, linspace01]
    rw [show h.width = W by simp [Interp.width, hp.shape]]
    exact List.map_congr_left fun k hk => (h2 k (List.mem_range.1 hk)).symm

theorem Pinned.row {h : Interp} {R W : Nat} {x : Nat → ℝ} (hp : Pinned h R W x) (i : Nat) :
    h.row i = (List.range W).map fun k => h.base.get [i, k] := by
  rw [Interp.row, show h.width = W by simp [Interp.width, hp.shape]]

theorem Pinned.nodup {h : Interp} {R W : Nat} {x : Nat → ℝ} (hp : Pinned h R W x) : ((List.range W).map x).Nodup := by
  refine List.Nodup.map_on ?_ List.nodup_range
  intro j hj k hk e
  exact hp.distinct j (List.mem_range.1 hj) k (List.mem_range.1 hk) e

theorem zip_pts (W : Nat) (x y : Nat → ℝ) :
    ((List.range W).map x).zip ((List.range W).map y) = (List.range W).map fun k => (x k, y k) := List.zip_map' ..

theorem Pinned.value {h : Interp} {R W n : Nat} {x : Nat → ℝ} (hp : Pinned h R W x) {others : List Nat} {soc y : Nd ℝ}
    (hs : soc.shape = [n, 1]) (hy : h.getValue others soc = .ok y) {i k : Nat} (hi : i < R) (hk : k < n) :
    y.get [i, k, 0] = linInterp ((List.range W).map x) ((List.range W).map fun m => h.base.get [i, m]) (soc.get [k, 0]) := by
  have := (getValue_entry hp.shape hs (by omega) hy).2 i hi k hk
  rw [this, if_neg (by have := hp.two; omega), hp.linear, hp.pinsUsed, hp.row]
  rfl

theorem Pinned.adjacent {W : Nat} {x y : Nat → ℝ} {j l : Nat} (h : Neighbours W x j l) :
    Adjacent (((List.range W).map x).zip ((List.range W).map y)) (x j, y j) (x l, y l) := by
  obtain ⟨hj, hl, hlt, hno⟩ := h
  rw [zip_pts]
  refine ⟨List.mem_map.2 ⟨j, List.mem_range.2 hj, rfl⟩, List.mem_map.2 ⟨l, List.mem_range.2 hl, rfl⟩, hlt, ?_⟩
  intro s hs
  obtain ⟨m, hm, rfl⟩ := List.mem_map.1 hs
  exact hno m (List.mem_range.1 hm)

/-- When an evaluation succeeds. -/
theorem Pinned.ok_iff {h : Interp} {R W n : Nat} {x : Nat → ℝ} {others : List Nat} {soc : Nd ℝ} (hp : Pinned h R W x)
    (hs : soc.shape = [n, 1]) :
    (∃ y, h.getValue others soc = .ok y) ↔ ∃ ib, batchLoop 1 (R :: others) = .ok ib ∧ ib * (n * 1) = R * (n * 1) := by
  have hw : h.width = W := by simp [Interp.width, hp.shape]
  have hr : h.rows = R := by simp [Interp.rows, hp.shape]
  have h2 := hp.two
  have he : h.interpFunc soc = .ok ⟨h.rows :: soc.shape, fun idx => h.style.curve h.pinsUsed (h.row (idx.headD 0)) (soc.get idx.tail)⟩ := by
    unfold Interp.interpFunc
    rw [if_neg (by rw [hp.pinsUsed, hw]; simp), if_neg (by omega)]
  unfold Interp.getValue
  simp only [hs, List.length_cons, List.length_nil, hr, hw, he, reshape, size, List.foldr_cons, List.foldr_nil]
  rw [if_neg (by omega)]
  cases batchLoop 1 (R :: others) with
  | error e => simp
  | ok ib =>
    simp only [if_neg (show ¬ W = 1 by omega)]
    by_cases hc : ib * (n * (1 * 1)) = R * (n * (1 * 1))
    · rw [if_pos (by simpa using hc)]
      exact ⟨fun _ => ⟨ib, rfl, by simpa using hc⟩, fun _ => ⟨_, rfl⟩⟩
    · rw [if_neg (by simpa using hc)]
      constructor
      · rintro ⟨y, hy⟩; cases hy
      · rintro ⟨b, hb, hc'⟩
        cases hb
        exact absurd (by simpa using hc') hc

variable {h : Interp} {R W n : Nat} {x : Nat → ℝ} {others : List Nat} {soc y : Nd ℝ}

/-- C30: at a pinpoint the value is the stored one — for every curve of the batch and every cell's SOC. -/
theorem C30_value_at_pinpoint (hp : Pinned h R W x) (hs : soc.shape = [n, 1]) (hy : h.getValue others soc = .ok y)
    {i k j : Nat} (hi : i < R) (hk : k < n) (hj : j < W) (hq : soc.get [k, 0] = x j) :
    y.get [i, k, 0] = h.base.get [i, j] := by
  rw [hp.value hs hy hi hk, hq]
  have hmem : (x j, h.base.get [i, j]) ∈ ((List.range W).map x).zip ((List.range W).map fun m => h.base.get [i, m]) := by
    rw [zip_pts]
    exact List.mem_map.2 ⟨j, List.mem_range.2 hj, rfl⟩
  exact linInterp_at (p := (x j, h.base.get [i, j])) (by simp) hp.nodup (by simpa using hp.two) hmem

/-- C30: between neighbouring pinpoints the value is on the line through them. -/
theorem C30_linear_between_pinpoints (hp : Pinned h R W x) (hs : soc.shape = [n, 1]) (hy : h.getValue others soc = .ok y)
    {i k j l : Nat} (hi : i < R) (hk : k < n) (hn : Neighbours W x j l) (h1 : x j ≤ soc.get [k, 0]) (h2 : soc.get [k, 0] ≤ x l) :
    y.get [i, k, 0] = lineThrough (x j) (h.base.get [i, j]) (x l) (h.base.get [i, l]) (soc.get [k, 0]) := by
  rw [hp.value hs hy hi hk]
  exact linInterp_segment (by simp) hp.nodup (Pinned.adjacent hn) ⟨.inl h1, .inl h2⟩

/-- C30: between neighbouring pinpoints the value lies between their values. -/
theorem C30_between_neighbouring_values (hp : Pinned h R W x) (hs : soc.shape = [n, 1]) (hy : h.getValue others soc = .ok y)
    {i k j l : Nat} (hi : i < R) (hk : k < n) (hn : Neighbours W x j l) (h1 : x j ≤ soc.get [k, 0]) (h2 : soc.get [k, 0] ≤ x l) :
    min (h.base.get [i, j]) (h.base.get [i, l]) ≤ y.get [i, k, 0] ∧
      y.get [i, k, 0] ≤ max (h.base.get [i, j]) (h.base.get [i, l]) := by
  rw [C30_linear_between_pinpoints hp hs hy hi hk hn h1 h2, lineThrough]
  have hd := sub_pos.2 hn.2.2.1
  set t := (soc.get [k, 0] - x j) / (x l - x j) with ht
  have t0 : 0 ≤ t := div_nonneg (by linarith) hd.le
  have t1 : t ≤ 1 := by rw [ht, div_le_one hd]; linarith
  rw [mul_div_assoc, ← ht]
  generalize h.base.get [i, j] = a
  generalize h.base.get [i, l] = b
  have e : a + (b - a) * t = (1 - t) * a + t * b := by ring
  rw [e]
  constructor
  · have h3 := mul_le_mul_of_nonneg_left (min_le_left a b) (sub_nonneg.2 t1)
    have h4 := mul_le_mul_of_nonneg_left (min_le_right a b) t0
    nlinarith
  · have h3 := mul_le_mul_of_nonneg_left (le_max_left a b) (sub_nonneg.2 t1)
    have h4 := mul_le_mul_of_nonneg_left (le_max_right a b) t0
    nlinarith

/-- C30: below the smallest pinpoint the first segment is continued. -/
theorem C30_continues_below (hp : Pinned h R W x) (hs : soc.shape = [n, 1]) (hy : h.getValue others soc = .ok y)
    {i k j l : Nat} (hi : i < R) (hk : k < n) (hn : Neighbours W x j l) (hfirst : ∀ m < W, x j ≤ x m)
    (hq : soc.get [k, 0] ≤ x j) :
    y.get [i, k, 0] = lineThrough (x j) (h.base.get [i, j]) (x l) (h.base.get [i, l]) (soc.get [k, 0]) := by
  rw [hp.value hs hy hi hk]
  refine linInterp_segment (by simp) hp.nodup (Pinned.adjacent hn) ⟨.inr ?_, .inl (hq.trans hn.2.2.1.le)⟩
  intro z hz
  obtain ⟨m, hm, rfl⟩ := List.mem_map.1 hz
  exact hfirst m (List.mem_range.1 hm)

/-- C30: above the largest pinpoint the last segment is continued. -/
theorem C30_continues_above (hp : Pinned h R W x) (hs : soc.shape = [n, 1]) (hy : h.getValue others soc = .ok y)
    {i k j l : Nat} (hi : i < R) (hk : k < n) (hn : Neighbours W x j l) (hlast : ∀ m < W, x m ≤ x l)
    (hq : x l ≤ soc.get [k, 0]) :
    y.get [i, k, 0] = lineThrough (x j) (h.base.get [i, j]) (x l) (h.base.get [i, l]) (soc.get [k, 0]) := by
  rw [hp.value hs hy hi hk]
  refine linInterp_segment (by simp) hp.nodup (Pinned.adjacent hn) ⟨.inl (hn.2.2.1.le.trans hq), .inr ?_⟩
  intro z hz
  obtain ⟨m, hm, rfl⟩ := List.mem_map.1 hz
  exact hlast m (List.mem_range.1 hm)

/-- C30: listing the same points in another order (`σ`) changes neither whether the evaluation succeeds nor its values. -/
theorem C30_order_of_pinpoints_irrelevant (hp : Pinned h R W x) {h' : Interp} {x' : Nat → ℝ} (hp' : Pinned h' R W x')
    (σ : Equiv.Perm (Fin W)) (hx : ∀ k : Fin W, x' k = x (σ k))
    (hb : ∀ i < R, ∀ k : Fin W, h'.base.get [i, k] = h.base.get [i, (σ k : Nat)]) (hs : soc.shape = [n, 1]) (hn : 0 < n) :
    ((∃ y, h.getValue others soc = .ok y) ↔ (∃ y', h'.getValue others soc = .ok y')) ∧
    ∀ y y', h.getValue others soc = .ok y → h'.getValue others soc = .ok y' →
      y.shape = y'.shape ∧ ∀ i < R, ∀ k < n, y.get [i, k, 0] = y'.get [i, k, 0] := by
  have hw : h.width = W := by simp [Interp.width, hp.shape]
  have hw' : h'.width = W := by simp [Interp.width, hp'.shape]
  have hr : h.rows = R := by simp [Interp.rows, hp.shape]
  have hr' : h'.rows = R := by simp [Interp.rows, hp'.shape]
  have h2 := hp.two
  constructor
  · rw [hp.ok_iff hs, hp'.ok_iff hs]
  · intro y y' hy hy'
    obtain ⟨s1, v1⟩ := getValue_entry hp.shape hs hn hy
    obtain ⟨s2, v2⟩ := getValue_entry hp'.shape hs hn hy'
    refine ⟨by rw [s1, s2], fun i hi k hk => ?_⟩
    rw [hp.value hs hy hi hk, hp'.value hs hy' hi hk]
    refine linInterp_perm (by simp) hp.nodup ?_ _
    rw [zip_pts, zip_pts]
    have e1 : (List.range W).map (fun k => (x k, h.base.get [i, k])) =
        (List.finRange W).map (fun k : Fin W => (x k, h.base.get [i, (k : Nat)])) := by
      rw [← List.map_coe_finRange_eq_range, List.map_map]; rfl
    have e2 : (List.range W).map (fun k => (x' k, h'.base.get [i, k])) =
        ((List.finRange W).map σ).map (fun k : Fin W => (x k, h.base.get [i, (k : Nat)])) := by
      rw [← List.map_coe_finRange_eq_range, List.map_map, List.map_map]
      refine List.map_congr_left fun k _ => ?_
      simp only [Function.comp]
      rw [hx k, hb i hi k]
    rw [e1, e2]
    refine List.Perm.map _ ?_
    refine (List.perm_ext_iff_of_nodup (List.nodup_finRange W) ((List.nodup_finRange W).map σ.injective)).2 fun a => ?_
    simp only [List.mem_finRange, true_iff, List.mem_map, true_and]
    exact ⟨σ.symm a, by simp⟩

/-- C30: a single stored value is used at every SOC. -/
theorem C30_single_value_everywhere (hsh : h.base.shape = [R, 1]) (hs : soc.shape = [n, 1]) (hy : h.getValue others soc = .ok y)
    {i k : Nat} (hi : i < R) (hk : k < n) : y.get [i, k, 0] = h.base.get [i, 0] := by
  rw [(getValue_entry hsh hs (by omega) hy).2 i hi k hk, if_pos rfl]

/-- C30: such parameters can be evaluated. -/
theorem C30_evaluates (hp : Pinned h R W x) (hR : 0 < R) (hs : soc.shape = [n, 1]) (ho : ∀ o ∈ others, o = 1 ∨ o = R) :
    ∃ y, h.getValue others soc = .ok y := by
  have h2 := hp.two
  rw [hp.ok_iff hs]
  obtain ⟨ib, e1, _, e3⟩ := Cell.batchLoop_dims (B := R) hR (l := R :: others) (by
    intro k hk
    rcases List.mem_cons.1 hk with rfl | hk
    · exact .inr rfl
    · exact ho k hk)
  refine ⟨ib, e1, ?_⟩
  rcases e3 R (by
    intro k hk
    rcases List.mem_cons.1 hk with rfl | hk
    · exact .inr rfl
    · exact ho k hk) List.mem_cons_self with h | h
  · rw [h]
  · omega

/-- Three unsorted pinpoints, two curves. -/
noncomputable def demoCurve : Interp where
  base := ⟨[2, 3], fun i => if i.getD 1 0 = 0 then 4 else if i.getD 1 0 = 1 then 3 + (i.getD 0 0 : ℝ) else 3.5⟩
  pins := some [1, 0, 0.25]
  style := .linear

noncomputable def demoPins (k : Nat) : ℝ := if k = 0 then 1 else if k = 1 then 0 else 0.25

theorem demoCurve_pinned : Pinned demoCurve 2 3 demoPins := by
  refine ⟨rfl, rfl, by norm_num, .inl ?_, ?_⟩
  · simp [demoCurve, demoPins, List.range_succ]
  · intro j hj k hk e
    interval_cases j <;> interval_cases k <;> first | rfl | (norm_num [demoPins] at e)

theorem demo_neighbours : Neighbours 3 demoPins 1 2 ∧ Neighbours 3 demoPins 2 0 := by
  constructor <;> refine ⟨by norm_num, by norm_num, by norm_num [demoPins], ?_⟩ <;> intro m hm <;>
    interval_cases m <;> norm_num [demoPins]

/-- Non-vacuity: a third of the way up the last segment of the second curve, and past the end. -/
example : ∃ y, demoCurve.getValue [1] ⟨[2, 1], fun i => if i.getD 0 0 = 0 then 0.5 else 1.75⟩ = .ok y ∧
    y.get [1, 0, 0] = 3.5 + 0.5 / 3 ∧ y.get [1, 1, 0] = 4.5 := by
  obtain ⟨y, hy⟩ := C30_evaluates demoCurve_pinned (by norm_num) (n := 2)
    (soc := ⟨[2, 1], fun i => if i.getD 0 0 = 0 then 0.5 else 1.75⟩) (others := [1]) rfl (by simp)
  refine ⟨y, hy, ?_, ?_⟩
  · rw [C30_linear_between_pinpoints demoCurve_pinned rfl hy (i := 1) (k := 0) (by norm_num) (by norm_num) demo_neighbours.2
      (by norm_num [demoPins]) (by norm_num [demoPins])]
    norm_num [lineThrough, demoPins, demoCurve]
  · rw [C30_continues_above demoCurve_pinned rfl hy (i := 1) (k := 1) (by norm_num) (by norm_num) demo_neighbours.2
      (by intro m hm; interval_cases m <;> norm_num [demoPins]) (by norm_num [demoPins])]
    norm_num [lineThrough, demoPins, demoCurve]

/-- Non-vacuity: the end below, and a pinpoint. -/
example : ∃ y, demoCurve.getValue [1] ⟨[2, 1], fun i => if i.getD 0 0 = 0 then -0.25 else 0.25⟩ = .ok y ∧
    y.get [0, 0, 0] = 2.5 ∧ y.get [1, 1, 0] = 3.5 := by
  obtain ⟨y, hy⟩ := C30_evaluates demoCurve_pinned (by norm_num) (n := 2)
    (soc := ⟨[2, 1], fun i => if i.getD 0 0 = 0 then -0.25 else 0.25⟩) (others := [1]) rfl (by simp)
  refine ⟨y, hy, ?_, ?_⟩
  · rw [C30_continues_below demoCurve_pinned rfl hy (i := 0) (k := 0) (by norm_num) (by norm_num) demo_neighbours.1
      (by intro m hm; interval_cases m <;> norm_num [demoPins]) (by norm_num [demoPins])]
    norm_num [lineThrough, demoPins, demoCurve]
  · rw [C30_value_at_pinpoint demoCurve_pinned rfl hy (i := 1) (k := 1) (j := 2) (by norm_num) (by norm_num) (by norm_num)
      (by norm_num [demoPins])]
    norm_num [demoCurve]

/-- Non-vacuity: the same points sorted. -/
example : ∃ (h' : Interp) (x' : Nat → ℝ) (σ : Equiv.Perm (Fin 3)), σ ≠ 1 ∧ Pinned h' 2 3 x' ∧ (∀ k : Fin 3, x' k = demoPins (σ k)) ∧
    ∀ i < 2, ∀ k : Fin 3, h'.base.get [i, k] = demoCurve.base.get [i, (σ k : Nat)] := by
  refine ⟨⟨⟨[2, 3], fun i => demoCurve.base.get [i.getD 0 0, if i.getD 1 0 = 0 then 1 else if i.getD 1 0 = 1 then 0 else 2]⟩,
    some [0, 1, 0.25], .linear⟩, fun k => if k = 0 then 0 else if k = 1 then 1 else 0.25, Equiv.swap 0 1, by decide, ?_, ?_, ?_⟩
  · refine ⟨rfl, rfl, by norm_num, .inl ?_, ?_⟩
    · simp [List.range_succ]
    · intro j hj k hk e
      interval_cases j <;> interval_cases k <;> first | rfl | (norm_num at e)
  · intro k
    fin_cases k <;> norm_num [demoPins, Equiv.swap_apply_def]
  · intro i hi k
    fin_cases k <;> norm_num [demoCurve, Equiv.swap_apply_def]

end Verif
