import Verif.Proofs.EcmRows
import Mathlib.Tactic.FieldSimp
import Mathlib.Tactic.Linarith
/-!
# Linear interpolation
-/

namespace Verif
open Nd

theorem countP_sorted {l : List (ℝ × ℝ)} (h : l.Pairwise (fun p r => p.1 < r.1)) (q : ℝ) (m : Nat) (hm : m < l.length) :
    (l[m].1 < q ↔ m < l.countP (fun p => decide (p.1 < q))) := by
  induction l generalizing m with
  | nil => simp at hm
  | cons a l ih =>
    rw [List.pairwise_cons] at h
    cases m with
    | zero =>
      simp only [List.getElem_cons_zero]
      constructor
      · intro ha; rw [List.countP_cons]; simp [ha]
      · intro hc
        by_contra ha
        have : l.countP (fun p => decide (p.1 < q)) = 0 := by
          rw [List.countP_eq_zero]
          intro p hp
          have := h.1 p hp
          simp; linarith
        rw [List.countP_cons, this] at hc
        simp [ha] at hc
    | succ m =>
      simp only [List.getElem_cons_succ]
      have hm' : m < l.length := by simpa using hm
      rw [ih h.2 m hm', List.countP_cons]
      by_cases ha : a.1 < q
      · simp [ha]
      · have h0 : l.countP (fun p => decide (p.1 < q)) = 0 := by
          rw [List.countP_eq_zero]
          intro p hp
          have := h.1 p hp
          simp; linarith
        simp [ha, h0]

/-- The points sorted by their SOC. -/
noncomputable def sortPts (l : List (ℝ × ℝ)) : List (ℝ × ℝ) := l.mergeSort (fun p r => decide (p.1 ≤ r.1))

theorem sortPts_perm (l : List (ℝ × ℝ)) : (sortPts l).Perm l := List.mergeSort_perm _ _

theorem sortPts_sorted {l : List (ℝ × ℝ)} (h : (l.map Prod.fst).Nodup) : (sortPts l).Pairwise (fun p r => p.1 < r.1) := by
  have h1 : (sortPts l).Pairwise (fun p r => decide (p.1 ≤ r.1) = true) :=
    List.pairwise_mergeSort (fun a b c => by simpa using le_trans) (fun a b => by simpa using le_total _ _) l
  have h2 : ((sortPts l).map Prod.fst).Nodup := ((sortPts_perm l).map Prod.fst).nodup_iff.2 h
  rw [List.Nodup, List.pairwise_map] at h2
  refine (h1.and h2).imp ?_
  rintro p r ⟨h3, h4⟩
  exact lt_of_le_of_ne (by simpa using h3) h4

theorem linInterp_eq (xs ys : List ℝ) (q : ℝ) : linInterp xs ys q =
    (let pts := sortPts (xs.zip ys)
     let i := min (max (pts.countP fun p => decide (p.1 < q)) 1) (pts.length - 1)
     let lo := pts.getD (i - 1) (0, 0)
     let hi := pts.getD i (0, 0)
     (hi.2 - lo.2) / (hi.1 - lo.1) * (q - lo.1) + lo.2) := by
  unfold linInterp sortPts
  simp

theorem fst_zip {xs ys : List ℝ} (hl : xs.length = ys.length) : (xs.zip ys).map Prod.fst = xs :=
  List.map_fst_zip (by omega)

/-- Two neighbouring points: no other point has its SOC strictly between them. -/
def Adjacent (pts : List (ℝ × ℝ)) (p r : ℝ × ℝ) : Prop :=
  p ∈ pts ∧ r ∈ pts ∧ p.1 < r.1 ∧ ∀ s ∈ pts, ¬ (p.1 < s.1 ∧ s.1 < r.1)

theorem adjacent_index {pts : List (ℝ × ℝ)} (h : pts.Pairwise (fun p r => p.1 < r.1)) {p r : ℝ × ℝ} (ha : Adjacent pts p r) :
    ∃ m, ∃ hm : m + 1 < pts.length, pts[m] = p ∧ pts[m + 1] = r := by
  obtain ⟨hp, hr, hlt, hno⟩ := ha
  obtain ⟨m, hm, rfl⟩ := List.getElem_of_mem hp
  obtain ⟨k, hk, rfl⟩ := List.getElem_of_mem hr
  rw [List.pairwise_iff_getElem] at h
  have hmk : m < k := by
    by_contra hcon
    rcases Nat.lt_or_eq_of_le (not_lt.1 hcon) with h1 | h1
    · have := h k m hk hm h1; linarith
    · subst h1; exact absurd hlt (lt_irrefl _)
  have : k = m + 1 := by
    by_contra hne
    have h1 : m + 1 < k := by omega
    exact hno (pts[m + 1]'(by omega)) (List.getElem_mem _) ⟨h m (m + 1) hm (by omega) (by omega), h (m + 1) k (by omega) hk h1⟩
  subst this
  exact ⟨m, hk, rfl, rfl⟩

/-- The value on (and beyond an end of) a segment. -/
theorem linInterp_segment {xs ys : List ℝ} (hl : xs.length = ys.length) (hnd : xs.Nodup) {p r : ℝ × ℝ}
    (ha : Adjacent (xs.zip ys) p r) {q : ℝ}
    (hq : (p.1 ≤ q ∨ ∀ x ∈ xs, p.1 ≤ x) ∧ (q ≤ r.1 ∨ ∀ x ∈ xs, x ≤ r.1)) :
    linInterp xs ys q = p.2 + (r.2 - p.2) * (q - p.1) / (r.1 - p.1) := by
  have hs := sortPts_sorted (l := xs.zip ys) (by rw [fst_zip hl]; exact hnd)
  have hperm := sortPts_perm (xs.zip ys)
  have ha' : Adjacent (sortPts (xs.zip ys)) p r :=
    ⟨hperm.mem_iff.2 ha.1, hperm.mem_iff.2 ha.2.1, ha.2.2.1, fun s h => ha.2.2.2 s (hperm.mem_iff.1 h)⟩
  have hx : ∀ s ∈ sortPts (xs.zip ys), s.1 ∈ xs := fun s h => by
    have := hperm.mem_iff.1 h
    rw [← fst_zip hl]
    exact List.mem_map_of_mem this
  rw [linInterp_eq]
  simp only
  revert hs ha' hx
  generalize sortPts (xs.zip ys) = pts
  intro hs ha' hx
  obtain ⟨m, hm, rfl, rfl⟩ := adjacent_index hs ha'
  have hlt := ha'.2.2.1
  have hne : pts[m + 1].1 - pts[m].1 ≠ 0 := by linarith [sub_pos.2 hlt]
  have c0 := countP_sorted hs q m (by omega)
  have c1 := countP_sorted hs q (m + 1) hm
  generalize hcdef : pts.countP (fun p => decide (p.1 < q)) = c at *
  have hcl : c ≤ pts.length := hcdef ▸ List.countP_le_length
  have hgood : min (max c 1) (pts.length - 1) = m + 1 →
      ((pts.getD (min (max c 1) (pts.length - 1)) (0, 0)).2 - (pts.getD (min (max c 1) (pts.length - 1) - 1) (0, 0)).2) /
        ((pts.getD (min (max c 1) (pts.length - 1)) (0, 0)).1 - (pts.getD (min (max c 1) (pts.length - 1) - 1) (0, 0)).1) *
        (q - (pts.getD (min (max c 1) (pts.length - 1) - 1) (0, 0)).1) + (pts.getD (min (max c 1) (pts.length - 1) - 1) (0, 0)).2 =
      pts[m].2 + (pts[m + 1].2 - pts[m].2) * (q - pts[m].1) / (pts[m + 1].1 - pts[m].1) := by
    intro hi
    rw [hi]
    simp only [Nat.add_sub_cancel, List.getD_eq_getElem?_getD, List.getElem?_eq_getElem hm,
      List.getElem?_eq_getElem (show m < pts.length by omega), Option.getD_some]
    field_simp
    ring
  rcases lt_trichotomy q pts[m].1 with hlo | heq | hhi
  · -- before the first point
    have hmin : ∀ x ∈ xs, pts[m].1 ≤ x := hq.1.resolve_left (not_le.2 hlo)
    have hm0 : m = 0 := by
      by_contra h0
      rw [List.pairwise_iff_getElem] at hs
      have h1 := hs 0 m (by omega) (by omega) (by omega)
      have := hmin _ (hx (pts[0]'(by omega)) (List.getElem_mem _))
      linarith
    subst hm0
    have : c = 0 := by
      by_contra h0
      have := c0.2 (by omega)
      linarith
    exact hgood (by omega)
  · have hcm : c ≤ m := by
      by_contra hcon
      have := c0.2 (by omega)
      linarith
    rcases Nat.eq_zero_or_pos m with hm0 | hm0
    · exact hgood (by omega)
    · have hce : c = m := by
        have c2 := countP_sorted hs q (m - 1) (by omega)
        rw [hcdef] at c2
        rw [List.pairwise_iff_getElem] at hs
        have := c2.1 (by rw [heq]; exact hs (m - 1) m (by omega) (by omega) (by omega))
        omega
      have hi : min (max c 1) (pts.length - 1) = m := by omega
      rw [hi]
      simp only [List.getD_eq_getElem?_getD, List.getElem?_eq_getElem (show m < pts.length by omega),
        List.getElem?_eq_getElem (show m - 1 < pts.length by omega), Option.getD_some]
      have hne2 : pts[m].1 - (pts[m - 1]'(by omega)).1 ≠ 0 := by
        rw [List.pairwise_iff_getElem] at hs
        have := hs (m - 1) m (by omega) (by omega) (by omega)
        linarith [sub_pos.2 this]
      rw [heq]
      field_simp
      ring
  · rcases le_or_gt q pts[m + 1].1 with hle | hgt
    · have h1 := c0.1 hhi
      have h2 : ¬ m + 1 < c := fun h => absurd (c1.2 h) (not_lt.2 hle)
      exact hgood (by omega)
    · have hmax : ∀ x ∈ xs, x ≤ pts[m + 1].1 := hq.2.resolve_left (not_le.2 hgt)
      have hlast : m + 1 = pts.length - 1 := by
        by_contra h0
        rw [List.pairwise_iff_getElem] at hs
        have h1 := hs (m + 1) (pts.length - 1) hm (by omega) (by omega)
        have := hmax _ (hx (pts[pts.length - 1]'(by omega)) (List.getElem_mem _))
        linarith
      have h1 := c1.1 hgt
      exact hgood (by omega)

/-- The interpolant does not depend on the order of the points. -/
theorem linInterp_perm {xs ys xs' ys' : List ℝ} (hl : xs.length = ys.length) (hnd : xs.Nodup)
    (hp : (xs.zip ys).Perm (xs'.zip ys')) (q : ℝ) : linInterp xs ys q = linInterp xs' ys' q := by
  have e : sortPts (xs.zip ys) = sortPts (xs'.zip ys') := by
    have hn : ((xs.zip ys).map Prod.fst).Nodup := by rw [fst_zip hl]; exact hnd
    have h1 := sortPts_sorted hn
    have h2 := sortPts_sorted (((hp.map Prod.fst).nodup_iff).1 hn)
    refine List.Perm.eq_of_pairwise (le := fun p r => p.1 < r.1) ?_ h1 h2 ?_
    · intro a b _ _ h3 h4; exact absurd h3 (not_lt.2 h4.le)
    · exact (sortPts_perm _).trans (hp.trans (sortPts_perm _).symm)
  rw [linInterp_eq, linInterp_eq, e]

/-- Every point of a list of at least two distinct points has a neighbour, above or below. -/
theorem exists_adjacent {pts : List (ℝ × ℝ)} (hnd : (pts.map Prod.fst).Nodup) (h2 : 2 ≤ pts.length) {p : ℝ × ℝ} (hp : p ∈ pts) :
    (∃ r, Adjacent pts p r) ∨ (∃ r, Adjacent pts r p) := by
  have hs := sortPts_sorted hnd
  have hperm := sortPts_perm pts
  have hlen := hperm.length_eq
  obtain ⟨m, hm, rfl⟩ := List.getElem_of_mem (hperm.mem_iff.2 hp)
  have hadj : ∀ k (hk : k + 1 < (sortPts pts).length), Adjacent pts (sortPts pts)[k] (sortPts pts)[k + 1] := by
    intro k hk
    rw [List.pairwise_iff_getElem] at hs
    refine ⟨hperm.mem_iff.1 (List.getElem_mem _), hperm.mem_iff.1 (List.getElem_mem _), hs k (k + 1) (by omega) hk (by omega), ?_⟩
    rintro s hsm ⟨h3, h4⟩
    obtain ⟨j, hj, rfl⟩ := List.getElem_of_mem (hperm.mem_iff.2 hsm)
    rcases Nat.lt_trichotomy j k with h | h | h
    · have := hs j k hj (by omega) h; linarith
    · subst h; exact absurd h3 (lt_irrefl _)
    · rcases Nat.lt_or_ge (k + 1) j with h' | h'
      · have := hs (k + 1) j hk hj h'; linarith
      · have : j = k + 1 := by omega
        subst this; exact absurd h4 (lt_irrefl _)
  by_cases h : m + 1 < (sortPts pts).length
  · exact .inl ⟨_, hadj m h⟩
  · right
    have : m - 1 + 1 = m := by omega
    refine ⟨(sortPts pts)[m - 1]'(by omega), ?_⟩
    have := hadj (m - 1) (by omega)
    simpa [show m - 1 + 1 = m by omega] using this

/-- The interpolant passes through its points. -/
theorem linInterp_at {xs ys : List ℝ} (hl : xs.length = ys.length) (hnd : xs.Nodup) (h2 : 2 ≤ xs.length) {p : ℝ × ℝ}
    (hp : p ∈ xs.zip ys) : linInterp xs ys p.1 = p.2 := by
  have hlen : (xs.zip ys).length = xs.length := by simp [hl]
  rcases exists_adjacent (by rw [fst_zip hl]; exact hnd) (by omega) hp with ⟨r, hr⟩ | ⟨r, hr⟩
  · rw [linInterp_segment hl hnd hr ⟨.inl (le_refl _), .inl hr.2.2.1.le⟩]
    ring
  · rw [linInterp_segment hl hnd hr ⟨.inl hr.2.2.1.le, .inl (le_refl _)⟩]
    have := sub_pos.2 hr.2.2.1
    field_simp
    ring

/-! ## Array level -/

/-- Entries of an evaluated parameter, for a 2D SOC. -/
theorem getValue_entry {h : Interp} {R W n : Nat} (hb : h.base.shape = [R, W]) {others : List Nat} {soc y : Nd ℝ}
    (hs : soc.shape = [n, 1]) (hn : 0 < n) (hy : h.getValue others soc = .ok y) :
    y.shape = [R, n, 1] ∧ ∀ i < R, ∀ k < n, y.get [i, k, 0] =
      if W = 1 then h.base.get [i, 0] else h.style.curve h.pinsUsed (h.row i) (soc.get [k, 0]) := by
  have hR : h.rows = R := by simp [Interp.rows, hb]
  have hW : h.width = W := by simp [Interp.width, hb]
  unfold Interp.getValue at hy
  simp only [hs, List.length_cons, List.length_nil] at hy
  norm_num at hy
  split at hy
  · cases hy
  · rename_i ib hib
    split at hy
    · rename_i hw
      simp only [Except.ok.injEq] at hy
      subst hy
      rw [hR]
      refine ⟨by simp [swapaxes, tile, swapAt], fun i hi k hk => ?_⟩
      rw [if_pos (hW ▸ hw)]
      simp [swapaxes, tile, swapAt, Nat.mod_eq_of_lt hi]
    · rename_i hw
      split at hy
      · cases hy
      · rename_i y' hy'
        unfold Interp.interpFunc at hy'
        split at hy'
        · cases hy'
        · split at hy'
          · cases hy'
          · simp only [Except.ok.injEq] at hy'
            subst hy'
            unfold reshape at hy
            simp only [size, hs, List.foldr_cons, List.foldr_nil, Nat.mul_one] at hy
            split at hy
            · rename_i hsz
              have : ib = R := by rw [hR] at hsz; exact Nat.eq_of_mul_eq_mul_right hn hsz
              subst this
              simp only [Except.ok.injEq] at hy
              subst hy
              refine ⟨rfl, fun i hi k hk => ?_⟩
              rw [if_neg (hW ▸ hw)]
              simp only
              rw [hR, unravel_ravel (.cons hi (.cons hk (.cons (by omega) .nil)))]
              rfl
            · cases hy

end Verif
