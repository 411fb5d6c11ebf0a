import Verif.Spec.OcvFit
import Verif.Props.Extractors
import Mathlib.Algebra.Polynomial.Roots
import Mathlib.Analysis.Calculus.ContDiff.Operations
import Mathlib.Analysis.Calculus.ContDiff.Polynomial
/-!
# C148: which curve the OCV extractor finds
-/

namespace Verif
open Spec

namespace OcvFit

/-! ## Splines -/

theorem _root_.Verif.Spec.CubicSpline.comb {t : List ℝ} {f g : ℝ → ℝ} (hf : CubicSpline t f) (hg : CubicSpline t g) (u v : ℝ) :
    CubicSpline t (fun x => u * f x + v * g x) := by
  refine ⟨(contDiff_const.mul hf.1).add (contDiff_const.mul hg.1), fun a b hab hk => ?_⟩
  obtain ⟨p, hp, ep⟩ := hf.2 a b hab hk
  obtain ⟨q, hq, eq⟩ := hg.2 a b hab hk
  refine ⟨Polynomial.C u * p + Polynomial.C v * q, ?_, fun x h1 h2 => ?_⟩
  · refine (Polynomial.natDegree_add_le _ _).trans (max_le ?_ ?_)
    · exact (Polynomial.natDegree_C_mul_le _ _).trans hp
    · exact (Polynomial.natDegree_C_mul_le _ _).trans hq
  · simp [ep x h1 h2, eq x h1 h2]

theorem _root_.Verif.Spec.CubicSpline.sub {t : List ℝ} {f g : ℝ → ℝ} (hf : CubicSpline t f) (hg : CubicSpline t g) :
    CubicSpline t (fun x => f x - g x) := by
  have := hf.comb hg 1 (-1)
  simpa [sub_eq_add_neg] using this

theorem spline_const (t : List ℝ) (c : ℝ) : CubicSpline t (fun _ => c) :=
  ⟨contDiff_const, fun _ _ _ _ => ⟨Polynomial.C c, by simp, by simp⟩⟩

theorem spline_poly (t : List ℝ) (p : Polynomial ℝ) (hp : p.natDegree ≤ 3) : CubicSpline t (fun x => p.eval x) :=
  ⟨by simpa using p.contDiff_aeval (R := ℝ) (𝕜 := ℝ) (n := 2), fun _ _ _ _ => ⟨p, hp, fun _ _ _ => rfl⟩⟩

theorem spline_shift {t : List ℝ} {f : ℝ → ℝ} (hf : CubicSpline t f) (c : ℝ) : CubicSpline t (fun x => f x + c) := by
  have := hf.comb (spline_const t 1) 1 c
  simpa using this

/-- A spline that vanishes at four SOCs between neighbouring points vanishes at the points. -/
theorem zero_at_points {E : OcvExtractor} {raw : List Sample} (inc : E.socPoints.Pairwise (· < ·)) (two : 2 ≤ E.socPoints.length)
    (well : WellSampled E raw) {h : ℝ → ℝ} (hh : CubicSpline (OcvExtractor.interior E.socPoints) h)
    (zero : ∀ s ∈ raw, h (s.cycleCapacity / E.capacity) = 0) : ∀ p ∈ E.socPoints, h p = 0 := by
  have pair : ∀ j (hj : j + 1 < E.socPoints.length), h E.socPoints[j] = 0 ∧ h E.socPoints[j + 1] = 0 := by
    intro j hj
    have hlt : E.socPoints[j] < E.socPoints[j + 1] := List.pairwise_iff_getElem.1 inc j (j + 1) (by omega) hj (by omega)
    obtain ⟨p, hp, ep⟩ := hh.2 _ _ hlt (by
      intro k hk
      have hk' : k ∈ E.socPoints := List.mem_of_mem_drop (List.mem_of_mem_dropLast hk)
      obtain ⟨m, hm, rfl⟩ := List.getElem_of_mem hk'
      rintro ⟨h1, h2⟩
      rcases Nat.lt_or_ge j m with hjm | hjm
      · rcases Nat.eq_or_lt_of_le (Nat.succ_le_of_lt hjm) with e | e
        · simp only [Nat.succ_eq_add_one] at e
          subst e
          exact lt_irrefl _ h2
        · exact lt_asymm h2 (List.pairwise_iff_getElem.1 inc (j + 1) m hj hm e)
      · rcases Nat.eq_or_lt_of_le hjm with e | e
        · subst e; exact lt_irrefl _ h1
        · exact lt_asymm h1 (List.pairwise_iff_getElem.1 inc m j hm (by omega) e))
    obtain ⟨xs, hc, hx⟩ := well j _ _ (List.getElem?_eq_getElem (by omega)) (List.getElem?_eq_getElem hj)
    have p0 : p = 0 := by
      refine Polynomial.eq_zero_of_natDegree_lt_card_of_eval_eq_zero' p xs (fun x hxs => ?_) (by omega)
      obtain ⟨h1, h2, s, hs, e⟩ := hx x hxs
      rw [← ep x h1 h2, ← e]
      exact zero s hs
    rw [ep _ le_rfl hlt.le, ep _ hlt.le le_rfl, p0]
    simp
  intro p hp
  obtain ⟨m, hm, rfl⟩ := List.getElem_of_mem hp
  rcases Nat.lt_or_ge (m + 1) E.socPoints.length with h1 | h1
  · exact (pair m h1).1
  · obtain ⟨k, rfl⟩ : ∃ k, m = k + 1 := ⟨m - 1, by omega⟩
    exact (pair k hm).2

/-! ## The sum of squares -/

theorem sumSquares_map {α : Type} (l : List α) (x y w : α → ℝ) (s : ℝ → ℝ) :
    sumSquares (l.map x) (l.map y) (l.map w) s = (l.map fun a => (w a * (y a - s (x a))) ^ 2).sum := by
  induction l with
  | nil => rfl
  | cons a l ih => simp [sumSquares, ih]

/-- The weight of a measurement. -/
noncomputable def wt (raw : List Sample) (i : ℝ) : ℝ := OcvExtractor.rawWeight i / ((raw.map (·.current)).map OcvExtractor.rawWeight).sum

theorem wt_ne {raw : List Sample} {s : Sample} (hs : s ∈ raw) (i : ℝ) : wt raw i ≠ 0 := by
  have h1 : ∀ i, 0 < OcvExtractor.rawWeight i := fun i => by
    unfold OcvExtractor.rawWeight
    have : (0 : ℝ) < max |i| (1 / 1000000) := lt_max_of_lt_right (by norm_num)
    positivity
  have h2 : 0 < ((raw.map (·.current)).map OcvExtractor.rawWeight).sum := by
    refine List.sum_pos _ (fun x hx => ?_) ?_
    · obtain ⟨i, -, rfl⟩ := List.mem_map.1 hx
      exact h1 i
    · intro h0
      rw [List.map_eq_nil_iff, List.map_eq_nil_iff] at h0
      rw [h0] at hs
      cases hs
  exact (div_pos (h1 i) h2).ne'

/-- What the fit minimises, as a sum over the measurements. -/
noncomputable def cost (E : OcvExtractor) (raw : List Sample) (s : ℝ → ℝ) : ℝ :=
  (raw.map fun r => (wt raw r.current * (r.voltage - s (r.cycleCapacity / E.capacity))) ^ 2).sum

theorem sumSquares_cost {E : OcvExtractor} {raw : List Sample} {pts : List OcvExtractor.Point} (hp : pts.Perm (raw.map E.point))
    (s : ℝ → ℝ) :
    sumSquares (pts.map (·.soc)) (pts.map (·.voltage)) (OcvExtractor.weights (pts.map (·.current))) s = cost E raw s := by
  have e1 : ((pts.map (·.current)).map OcvExtractor.rawWeight).sum = ((raw.map (·.current)).map OcvExtractor.rawWeight).sum := by
    have := ((hp.map (·.current)).map OcvExtractor.rawWeight).sum_eq
    rw [this]
    simp only [List.map_map]
    rfl
  have e2 : OcvExtractor.weights (pts.map (·.current)) = pts.map fun p => wt raw p.current := by
    unfold OcvExtractor.weights wt
    dsimp only
    rw [e1, List.map_map, List.map_map]
    rfl
  rw [e2, sumSquares_map, (hp.map _).sum_eq, List.map_map]
  rfl

theorem sum_map_sub {α : Type} (l : List α) (f g : α → ℝ) : (l.map fun a => f a - g a).sum = (l.map f).sum - (l.map g).sum := by
  induction l with
  | nil => simp
  | cons a l ih => simp only [List.map_cons, List.sum_cons, ih]; ring

theorem sum_odd (l : List (ℝ × ℝ)) (bal : (l.map fun p => (p.1, -p.2)).Perm l) (F : ℝ × ℝ → ℝ) (odd : ∀ c i, F (c, -i) = -F (c, i)) :
    (l.map F).sum = 0 := by
  have h := (bal.map F).sum_eq
  rw [List.map_map] at h
  have : (l.map (F ∘ fun p => (p.1, -p.2))) = l.map fun p => -F p := by
    refine List.map_congr_left fun p _ => ?_
    exact odd p.1 p.2
  have neg : (l.map fun p => -F p).sum = -(l.map F).sum := by
    have := List.sum_map_mul_left l F (-1)
    simpa using this
  rw [this, neg] at h
  linarith

theorem sum_sq_zero {α : Type} (l : List α) (f : α → ℝ) (h : (l.map fun a => f a ^ 2).sum ≤ 0) : ∀ a ∈ l, f a = 0 := by
  induction l with
  | nil => simp
  | cons b l ih =>
    have nn : 0 ≤ (l.map fun a => f a ^ 2).sum := List.sum_nonneg (by
      intro x hx
      obtain ⟨a, -, rfl⟩ := List.mem_map.1 hx
      positivity)
    rw [List.map_cons, List.sum_cons] at h
    have hb : f b ^ 2 = 0 := le_antisymm (by linarith) (sq_nonneg _)
    intro a ha
    rcases List.mem_cons.1 ha with rfl | ha
    · exact pow_eq_zero_iff (two_ne_zero) |>.1 hb
    · exact ih (by nlinarith [sq_nonneg (f b)]) a ha

/-- With balanced overpotentials the cost is least at the curve itself. -/
theorem cost_balanced (E : OcvExtractor) (raw : List Sample) (bal : Balanced raw) (g : ℝ → ℝ) (eta : ℝ → ℝ → ℝ)
    (odd : ∀ x i, eta x (-i) = -eta x i)
    (data : ∀ s ∈ raw, s.voltage = g (s.cycleCapacity / E.capacity) + eta (s.cycleCapacity / E.capacity) s.current) (s : ℝ → ℝ) :
    cost E raw s = cost E raw g +
      (raw.map fun r => (wt raw r.current * (s (r.cycleCapacity / E.capacity) - g (r.cycleCapacity / E.capacity))) ^ 2).sum := by
  have cross : (raw.map fun r => wt raw r.current ^ 2 * eta (r.cycleCapacity / E.capacity) r.current *
      (s (r.cycleCapacity / E.capacity) - g (r.cycleCapacity / E.capacity))).sum = 0 := by
    have bal' : ((raw.map fun s => (s.cycleCapacity, s.current)).map fun p => (p.1, -p.2)).Perm
        (raw.map fun s => (s.cycleCapacity, s.current)) := by
      rw [List.map_map]; exact bal
    have := sum_odd _ bal' (fun p => wt raw p.2 ^ 2 * eta (p.1 / E.capacity) p.2 * (s (p.1 / E.capacity) - g (p.1 / E.capacity))) (by
      intro c i
      have : wt raw (-i) = wt raw i := by unfold wt OcvExtractor.rawWeight; rw [abs_neg]
      simp only [this, odd]
      ring)
    rw [List.map_map] at this
    exact this
  have e : cost E raw s = cost E raw g + (raw.map fun r => (wt raw r.current * (s (r.cycleCapacity / E.capacity) -
      g (r.cycleCapacity / E.capacity))) ^ 2).sum - 2 * (raw.map fun r => wt raw r.current ^ 2 *
      eta (r.cycleCapacity / E.capacity) r.current * (s (r.cycleCapacity / E.capacity) - g (r.cycleCapacity / E.capacity))).sum := by
    unfold cost
    rw [← List.sum_map_mul_left, ← List.sum_map_add, ← sum_map_sub]
    congr 1
    refine List.map_congr_left fun r hr => ?_
    rw [data r hr]
    ring
  rw [e, cross]
  ring

/-- What is known of a successful fit. -/
theorem best_of_interpolate {sort : List OcvExtractor.Point → List OcvExtractor.Point} (hsort : ∀ l, (sort l).Perm l)
    {fit : List ℝ → List ℝ → List ℝ → List ℝ → Except Err (ℝ → ℝ)} (best : FitsBest fit) {E : OcvExtractor} {raw : List Sample}
    (inc : E.socPoints.Pairwise (· < ·)) {knots : List ℝ} (h : E.interpolateOcv sort fit raw = .ok knots) :
    ∃ s, CubicSpline (OcvExtractor.interior E.socPoints) s ∧
      (∀ g, CubicSpline (OcvExtractor.interior E.socPoints) g → cost E raw s ≤ cost E raw g) ∧ knots = E.socPoints.map s := by
  unfold OcvExtractor.interpolateOcv at h
  dsimp only at h
  set pts := sort (raw.map E.point) with hpts
  cases hf : fit (pts.map (·.soc)) (pts.map (·.voltage)) (OcvExtractor.weights (pts.map (·.current)))
      (OcvExtractor.interior E.socPoints) with
  | error err => rw [hf] at h; cases h
  | ok s =>
    rw [hf] at h
    have inc' : (OcvExtractor.interior E.socPoints).Pairwise (· < ·) :=
      inc.sublist ((List.dropLast_sublist _).trans (List.drop_sublist _ _))
    obtain ⟨h1, h2⟩ := best _ _ _ _ s inc' hf
    refine ⟨s, h1, fun g hg => ?_, (Except.ok.inj h).symm⟩
    have := h2 g hg
    rwa [sumSquares_cost (hsort _), sumSquares_cost (hsort _)] at this

end OcvFit

open OcvFit

/-- C148.  The voltages measured are those of a curve `g` (a cubic spline over the SOC points) plus an overpotential that changes sign
with the current (a resistance, of any dependence on the SOC, a hysteresis, …), and every charge is measured on charge and on discharge
alike.  Then the values extracted are exactly those of the curve: the overpotential leaves no trace. -/
theorem C148_balanced_cycle (sort : List OcvExtractor.Point → List OcvExtractor.Point) (hsort : ∀ l, (sort l).Perm l)
    (fit : List ℝ → List ℝ → List ℝ → List ℝ → Except Err (ℝ → ℝ)) (best : FitsBest fit) (E : OcvExtractor) (raw : List Sample)
    (inc : E.socPoints.Pairwise (· < ·)) (two : 2 ≤ E.socPoints.length) (well : WellSampled E raw) (bal : Balanced raw)
    (g : ℝ → ℝ) (hg : CubicSpline E.socPoints.tail.dropLast g) (eta : ℝ → ℝ → ℝ) (odd : ∀ x i, eta x (-i) = -eta x i)
    (data : ∀ s ∈ raw, s.voltage = g (s.cycleCapacity / E.capacity) + eta (s.cycleCapacity / E.capacity) s.current)
    (knots : List ℝ) (h : E.interpolateOcv sort fit raw = .ok knots) :
    knots = E.socPoints.map g := by
  have hg' : CubicSpline (OcvExtractor.interior E.socPoints) g := by
    unfold OcvExtractor.interior
    rwa [List.drop_one]
  obtain ⟨s, hs, hmin, rfl⟩ := best_of_interpolate hsort best inc h
  have h1 := hmin g hg'
  rw [cost_balanced E raw bal g eta odd data s] at h1
  have h2 := sum_sq_zero raw (fun r => wt raw r.current * (s (r.cycleCapacity / E.capacity) - g (r.cycleCapacity / E.capacity)))
    (by linarith)
  refine List.map_congr_left fun p hp => ?_
  have := zero_at_points inc two well (hs.sub hg') (fun r hr => ?_) p hp
  · linarith
  · exact (mul_eq_zero.1 (h2 r hr)).resolve_left (wt_ne hr _)

/-- C148.  Measurements all taken with the same current `i` of a cell with series resistance `R`: every value extracted is the open
circuit voltage plus the drop `i R` over the resistance.  It is the open circuit voltage exactly if there is no drop. -/
theorem C148_one_current (sort : List OcvExtractor.Point → List OcvExtractor.Point) (hsort : ∀ l, (sort l).Perm l)
    (fit : List ℝ → List ℝ → List ℝ → List ℝ → Except Err (ℝ → ℝ)) (best : FitsBest fit) (E : OcvExtractor) (raw : List Sample)
    (inc : E.socPoints.Pairwise (· < ·)) (two : 2 ≤ E.socPoints.length) (well : WellSampled E raw)
    (ocv : ℝ → ℝ) (hg : CubicSpline E.socPoints.tail.dropLast ocv) (i R : ℝ)
    (data : ∀ s ∈ raw, s.current = i ∧ s.voltage = ocv (s.cycleCapacity / E.capacity) + i * R)
    (knots : List ℝ) (h : E.interpolateOcv sort fit raw = .ok knots) :
    knots = E.socPoints.map (fun p => ocv p + i * R) ∧ (knots = E.socPoints.map ocv ↔ i * R = 0) := by
  have hg' : CubicSpline (OcvExtractor.interior E.socPoints) fun x => ocv x + i * R := by
    unfold OcvExtractor.interior
    rw [List.drop_one]
    exact spline_shift hg _
  have key : knots = E.socPoints.map (fun p => ocv p + i * R) := by
    obtain ⟨s, hs, hmin, rfl⟩ := best_of_interpolate hsort best inc h
    have h1 := hmin _ hg'
    have h0 : cost E raw (fun x => ocv x + i * R) = 0 := by
      unfold cost
      refine List.sum_eq_zero ?_
      intro x hx
      obtain ⟨r, hr, rfl⟩ := List.mem_map.1 hx
      rw [(data r hr).2]
      ring
    rw [h0] at h1
    have h2 := sum_sq_zero raw (fun r => wt raw r.current * (r.voltage - s (r.cycleCapacity / E.capacity))) h1
    refine List.map_congr_left fun p hp => ?_
    have := zero_at_points inc two well (hs.sub hg') (fun r hr => ?_) p hp
    · linarith
    · have h3 := (mul_eq_zero.1 (h2 r hr)).resolve_left (wt_ne hr _)
      rw [(data r hr).2] at h3
      linarith
  refine ⟨key, fun h2 => ?_, fun h2 => by rw [key, h2]; simp⟩
  rw [key] at h2
  have := List.map_inj_left.1 h2 _ (List.getElem_mem (n := 0) (by omega))
  linarith

/-- C148.  What is extracted does not depend on the order of the rows, nor on how rows of equal SOC are sorted, nor on which of several
best splines the fit would pick. -/
theorem C148_order_irrelevant (sort sort' : List OcvExtractor.Point → List OcvExtractor.Point) (hsort : ∀ l, (sort l).Perm l)
    (hsort' : ∀ l, (sort' l).Perm l) (fit fit' : List ℝ → List ℝ → List ℝ → List ℝ → Except Err (ℝ → ℝ)) (best : FitsBest fit)
    (best' : FitsBest fit') (E : OcvExtractor) (raw raw' : List Sample) (perm : raw.Perm raw')
    (inc : E.socPoints.Pairwise (· < ·)) (two : 2 ≤ E.socPoints.length) (well : WellSampled E raw)
    (knots knots' : List ℝ) (h : E.interpolateOcv sort fit raw = .ok knots) (h' : E.interpolateOcv sort' fit' raw' = .ok knots') :
    knots = knots' := by
  have hc : ∀ s, cost E raw' s = cost E raw s := by
    intro s
    have hw : ∀ i, wt raw' i = wt raw i := by
      intro i
      unfold wt
      rw [((perm.map (·.current)).map OcvExtractor.rawWeight).sum_eq]
    unfold cost
    rw [(perm.map _).sum_eq]
    simp only [hw]
  obtain ⟨s, hs, hmin, rfl⟩ := best_of_interpolate hsort best inc h
  obtain ⟨s', hs', hmin', rfl⟩ := best_of_interpolate hsort' best' inc h'
  have m1 := hmin _ (hs.comb hs' (1 / 2) (1 / 2))
  have m2 := hmin' s hs
  rw [hc, hc] at m2
  have e : (raw.map fun r => (wt raw r.current * (s (r.cycleCapacity / E.capacity) - s' (r.cycleCapacity / E.capacity))) ^ 2).sum =
      2 * cost E raw s + 2 * cost E raw s' - 4 * cost E raw (fun x => 1 / 2 * s x + 1 / 2 * s' x) := by
    unfold cost
    rw [← List.sum_map_mul_left, ← List.sum_map_mul_left, ← List.sum_map_mul_left, ← List.sum_map_add, ← sum_map_sub]
    congr 1
    refine List.map_congr_left fun r _ => ?_
    ring
  have h2 := sum_sq_zero raw (fun r => wt raw r.current * (s (r.cycleCapacity / E.capacity) - s' (r.cycleCapacity / E.capacity)))
    (by linarith)
  refine List.map_congr_left fun p hp => ?_
  have := zero_at_points inc two well (hs.sub hs') (fun r hr => ?_) p hp
  · linarith
  · exact (mul_eq_zero.1 (h2 r hr)).resolve_left (wt_ne hr _)

/-- C148.  The extracted open circuit voltage object, for linear interpolation: on balanced data of a cell with open circuit voltage `g`
its value at every SOC point is that of the cell. -/
theorem C148_extracted_object (sort : List OcvExtractor.Point → List OcvExtractor.Point) (hsort : ∀ l, (sort l).Perm l)
    (fit : List ℝ → List ℝ → List ℝ → List ℝ → Except Err (ℝ → ℝ)) (best : FitsBest fit) (E : OcvExtractor) (hl : E.style = .linear)
    (d : CellData) (raw : List Sample) (hr : d.rawData = some raw)
    (inc : E.socPoints.Pairwise (· < ·)) (two : 2 ≤ E.socPoints.length) (well : WellSampled E raw) (bal : Balanced raw)
    (g : ℝ → ℝ) (hg : CubicSpline E.socPoints.tail.dropLast g) (eta : ℝ → ℝ → ℝ) (odd : ∀ x i, eta x (-i) = -eta x i)
    (data : ∀ s ∈ raw, s.voltage = g (s.cycleCapacity / E.capacity) + eta (s.cycleCapacity / E.capacity) s.current)
    (ocv : Ecm.OCV) (h : E.extract sort fit d = .ok ocv) :
    ∀ (soc : Nd ℝ) (n : Nat), soc.shape = [n, 1] → 0 < n → ∃ y, ocv.getValue soc none = .ok y ∧
      ∀ k, k < n → soc.get [k, 0] ∈ E.socPoints → y.get [0, k, 0] = g (soc.get [k, 0]) := by
  have hk : ∃ knots, E.interpolateOcv sort fit raw = .ok knots := by
    unfold OcvExtractor.extract at h
    rw [hr] at h
    dsimp only at h
    cases hi : E.interpolateOcv sort fit raw with
    | error e => rw [hi] at h; cases h
    | ok knots => exact ⟨knots, rfl⟩
  obtain ⟨knots, hk⟩ := hk
  have e := C148_balanced_cycle sort hsort fit best E raw inc two well bal g hg eta odd data knots hk
  obtain ⟨-, ocv', ho, hv⟩ := C82_extracted_value_at_point sort fit E hl two (inc.imp fun h => h.ne) d raw hr knots hk
  have : ocv' = ocv := Except.ok.inj (ho.symm.trans h)
  subst this
  intro soc n hs hn
  obtain ⟨y, hy, hval⟩ := hv soc n hs hn
  refine ⟨y, hy, fun k hkn hm => ?_⟩
  obtain ⟨j, hj, ej⟩ := List.getElem_of_mem hm
  refine hval k j _ _ hkn (List.getElem?_eq_getElem hj) ?_ ej.symm
  rw [e, List.getElem?_map, List.getElem?_eq_getElem hj, Option.map_some, ej]

/-- C148.  On either kind of data there is a best spline, so a fit that finds one whenever there is one succeeds. -/
theorem C148_possible (sort : List OcvExtractor.Point → List OcvExtractor.Point) (hsort : ∀ l, (sort l).Perm l)
    (fit : List ℝ → List ℝ → List ℝ → List ℝ → Except Err (ℝ → ℝ))
    (finds : ∀ x y w t, (∃ s, BestSpline x y w t s) → ∃ s, fit x y w t = .ok s) (E : OcvExtractor) (raw : List Sample)
    (g : ℝ → ℝ) (hg : CubicSpline E.socPoints.tail.dropLast g)
    (kind : (∃ i R : ℝ, ∀ s ∈ raw, s.current = i ∧ s.voltage = g (s.cycleCapacity / E.capacity) + i * R) ∨
      (Balanced raw ∧ ∃ eta : ℝ → ℝ → ℝ, (∀ x i, eta x (-i) = -eta x i) ∧
        ∀ s ∈ raw, s.voltage = g (s.cycleCapacity / E.capacity) + eta (s.cycleCapacity / E.capacity) s.current)) :
    ∃ knots, E.interpolateOcv sort fit raw = .ok knots := by
  have hg' : CubicSpline (OcvExtractor.interior E.socPoints) g := by
    unfold OcvExtractor.interior
    rwa [List.drop_one]
  have nn : ∀ F : Sample → ℝ, 0 ≤ (raw.map fun r => F r ^ 2).sum := fun F => List.sum_nonneg (by
    intro x hx
    obtain ⟨a, -, rfl⟩ := List.mem_map.1 hx
    positivity)
  have least : ∃ f, CubicSpline (OcvExtractor.interior E.socPoints) f ∧ ∀ s, cost E raw f ≤ cost E raw s := by
    rcases kind with ⟨i, R, data⟩ | ⟨bal, eta, odd, data⟩
    · refine ⟨fun x => g x + i * R, spline_shift hg' _, fun s => ?_⟩
      have h0 : cost E raw (fun x => g x + i * R) = 0 := by
        unfold cost
        refine List.sum_eq_zero ?_
        intro x hx
        obtain ⟨r, hr, rfl⟩ := List.mem_map.1 hx
        rw [(data r hr).2]
        ring
      rw [h0]
      exact nn _
    · refine ⟨g, hg', fun s => ?_⟩
      rw [cost_balanced E raw bal g eta odd data s]
      have := nn fun r => wt raw r.current * (s (r.cycleCapacity / E.capacity) - g (r.cycleCapacity / E.capacity))
      linarith
  obtain ⟨f, hf, hmin⟩ := least
  unfold OcvExtractor.interpolateOcv
  dsimp only
  obtain ⟨s, hs⟩ := finds ((sort (raw.map E.point)).map (·.soc)) ((sort (raw.map E.point)).map (·.voltage))
    (OcvExtractor.weights ((sort (raw.map E.point)).map (·.current))) (OcvExtractor.interior E.socPoints) ⟨f, hf, fun f' _ => by
      rw [sumSquares_cost (hsort _), sumSquares_cost (hsort _)]
      exact hmin f'⟩
  rw [hs]
  exact ⟨_, rfl⟩

/-! ## Concrete cases -/

namespace OcvFit.Demo

/-- Three SOC points, a cell of 2 Ah. -/
noncomputable def ex : OcvExtractor := ⟨[0, 1 / 2, 1], 2, 95 / 100, .linear⟩

/-- The open circuit voltage `3 + soc³`. -/
def ocv (x : ℝ) : ℝ := 3 + x ^ 3

/-- A charge and a discharge, with currents of 3 A, through a resistance of 1/10 Ohm. -/
noncomputable def run (i : ℝ) : List Sample :=
  [0, 1, 2, 3, 4, 5, 6].map fun k : ℝ => ⟨k / 3, i, ocv (k / 3 / 2) + i * (1 / 10)⟩

open Classical in
/-- A fit that returns a best spline whenever there is one. -/
noncomputable def fit (x y w t : List ℝ) : Except Err (ℝ → ℝ) :=
  if h : ∃ s, BestSpline x y w t s then .ok h.choose else .error .valueError

theorem fits : FitsBest fit := by
  intro x y w t s _ h
  unfold fit at h
  split at h
  · rename_i hs
    rw [← Except.ok.inj h]
    exact hs.choose_spec
  · cases h

theorem finds : ∀ x y w t, (∃ s, BestSpline x y w t s) → ∃ s, fit x y w t = .ok s := by
  intro x y w t h
  exact ⟨_, dif_pos h⟩

theorem ocv_spline (t : List ℝ) : CubicSpline t ocv := by
  have := spline_poly t (Polynomial.C 3 + Polynomial.X ^ 3) (by
    refine (Polynomial.natDegree_add_le _ _).trans (max_le (by simp) (by simp)))
  have e : (fun x => Polynomial.eval x (Polynomial.C 3 + Polynomial.X ^ 3 : Polynomial ℝ)) = ocv := by
    funext x
    simp [ocv]
  rwa [e] at this

theorem increasing : ex.socPoints.Pairwise (· < ·) := by
  simp only [ex]
  norm_num

theorem measured (i : ℝ) (k : ℕ) (hk : k ≤ 6) : ∃ s ∈ run i, s.cycleCapacity / ex.capacity = (k : ℝ) / 6 := by
  refine ⟨⟨(k : ℝ) / 3, i, ocv ((k : ℝ) / 3 / 2) + i * (1 / 10)⟩, ?_, by simp only [ex]; ring⟩
  refine List.mem_map.2 ⟨(k : ℝ), ?_, rfl⟩
  interval_cases k <;> simp

theorem sampled (i : ℝ) (raw : List Sample) (sub : ∀ s ∈ run i, s ∈ raw) : WellSampled ex raw := by
  have block : ∀ m : ℕ, m + 3 ≤ 6 → ∃ xs : Finset ℝ, 4 ≤ xs.card ∧
      ∀ x ∈ xs, (m : ℝ) / 6 ≤ x ∧ x ≤ ((m : ℝ) + 3) / 6 ∧ ∃ s ∈ raw, s.cycleCapacity / ex.capacity = x := by
    intro m hm
    refine ⟨(Finset.Icc m (m + 3)).image fun k : ℕ => (k : ℝ) / 6, ?_, fun x hx => ?_⟩
    · rw [Finset.card_image_of_injective _ (fun a b h => by
        have : (a : ℝ) = b := by simpa using h
        exact_mod_cast this)]
      rw [Nat.card_Icc]
      omega
    · obtain ⟨k, hk, rfl⟩ := Finset.mem_image.1 hx
      obtain ⟨h1, h2⟩ := Finset.mem_Icc.1 hk
      have h1' : (m : ℝ) ≤ k := by exact_mod_cast h1
      have h2' : (k : ℝ) ≤ m + 3 := by exact_mod_cast h2
      obtain ⟨s, hs, e⟩ := measured i k (by omega)
      exact ⟨by linarith, by linarith, s, sub s hs, e⟩
  intro j a b ha hb
  match j, ha, hb with
  | 0, ha, hb =>
    have ha : (0 : ℝ) = a := by simpa [ex] using ha
    have hb : (1 / 2 : ℝ) = b := by simpa [ex] using hb
    obtain ⟨xs, h1, h2⟩ := block 0 (by norm_num)
    refine ⟨xs, h1, fun x hx => ?_⟩
    obtain ⟨u, v, w⟩ := h2 x hx
    exact ⟨by rw [← ha]; simpa using u, by rw [← hb]; norm_num at v; linarith, w⟩
  | 1, ha, hb =>
    have ha : (1 / 2 : ℝ) = a := by simpa [ex] using ha
    have hb : (1 : ℝ) = b := by simpa [ex] using hb
    obtain ⟨xs, h1, h2⟩ := block 3 (by norm_num)
    refine ⟨xs, h1, fun x hx => ?_⟩
    obtain ⟨u, v, w⟩ := h2 x hx
    exact ⟨by rw [← ha]; norm_num at u; linarith, by rw [← hb]; norm_num at v; linarith, w⟩
  | j + 2, ha, hb => simp [ex] at hb

theorem run_data (i : ℝ) : ∀ s ∈ run i, s.current = i ∧ s.voltage = ocv (s.cycleCapacity / ex.capacity) + i * (1 / 10) := by
  intro s hs
  obtain ⟨k, -, rfl⟩ := List.mem_map.1 hs
  exact ⟨rfl, rfl⟩

theorem balanced (i : ℝ) : Balanced (run i ++ run (-i)) := by
  unfold Spec.Balanced run
  simp only [List.map_append, List.map_map, Function.comp_def, neg_neg]
  exact List.perm_append_comm

theorem both_data : ∀ s ∈ run 3 ++ run (-3), s.voltage = ocv (s.cycleCapacity / ex.capacity) +
    (fun _ i => i * (1 / 10)) (s.cycleCapacity / ex.capacity) s.current := by
  intro s hs
  rcases List.mem_append.1 hs with h | h
  · rw [(run_data _ s h).2, (run_data _ s h).1]
  · rw [(run_data _ s h).2, (run_data _ s h).1]

theorem both_sampled : WellSampled ex (run 3 ++ run (-3)) := sampled 3 _ fun _ hs => List.mem_append_left _ hs

/-- The values extracted from the charge and the discharge together are those of the open circuit voltage. -/
theorem extracted : ex.interpolateOcv id fit (run 3 ++ run (-3)) = .ok [3, 3 + 1 / 8, 4] := by
  obtain ⟨knots, hk⟩ := C148_possible id (fun _ => .refl _) fit finds ex _ ocv (ocv_spline _)
    (.inr ⟨balanced 3, fun _ i => i * (1 / 10), fun _ i => by ring, both_data⟩)
  rw [hk, C148_balanced_cycle id (fun _ => .refl _) fit fits ex _ increasing (by simp [ex]) both_sampled (balanced 3) ocv (ocv_spline _)
    (fun _ i => i * (1 / 10)) (fun _ i => by ring) both_data knots hk]
  simp only [ex, ocv, List.map_cons, List.map_nil]
  norm_num

/-- From the rows in reverse order, sorted by another algorithm, the same values. -/
example (knots : List ℝ) (h : ex.interpolateOcv List.reverse fit (run 3 ++ run (-3)).reverse = .ok knots) : knots = [3, 3 + 1 / 8, 4] :=
  (C148_order_irrelevant id List.reverse (fun _ => .refl _) List.reverse_perm fit fit fits fits ex _ _ (List.reverse_perm _).symm
    increasing (by simp [ex]) both_sampled _ _ extracted h).symm

/-- The object extracted gives these voltages. -/
example : ∃ o, ex.extract id fit ⟨some (run 3 ++ run (-3)), none⟩ = .ok o ∧
    ∃ y, o.getValue (.num2 (1 / 2)) none = .ok y ∧ y.get [0, 0, 0] = 3 + 1 / 8 := by
  have : ∃ o, ex.extract id fit ⟨some (run 3 ++ run (-3)), none⟩ = .ok o := by
    unfold OcvExtractor.extract
    dsimp only
    rw [extracted]
    exact ⟨_, rfl⟩
  obtain ⟨o, ho⟩ := this
  refine ⟨o, ho, ?_⟩
  obtain ⟨y, hy, hv⟩ := C148_extracted_object id (fun _ => .refl _) fit fits ex rfl _ _ rfl increasing (by simp [ex]) both_sampled
    (balanced 3) ocv (ocv_spline _) (fun _ i => i * (1 / 10)) (fun _ i => by ring) both_data o ho (.num2 (1 / 2)) 1 rfl one_pos
  refine ⟨y, hy, ?_⟩
  rw [hv 0 one_pos (by simp [ex, Nd.num2])]
  simp only [ocv, Nd.num2]
  norm_num

/-- Those extracted from the charge alone are 0.3 V too high. -/
example : ex.interpolateOcv id fit (run 3) = .ok [3 + 3 / 10, 3 + 1 / 8 + 3 / 10, 4 + 3 / 10] := by
  obtain ⟨knots, h⟩ := C148_possible id (fun _ => .refl _) fit finds ex _ ocv (ocv_spline _) (.inl ⟨3, 1 / 10, run_data 3⟩)
  rw [h, (C148_one_current id (fun _ => .refl _) fit fits ex _ increasing (by simp [ex]) (sampled 3 _ fun s hs => hs) ocv (ocv_spline _)
    3 (1 / 10) (run_data 3) knots h).1]
  simp only [ex, ocv, List.map_cons, List.map_nil]
  norm_num

end OcvFit.Demo
end Verif
