import Verif.Spec.Extractors
import Verif.Props.EcmInterp
/-!
# C73, C74, C81–C83: parameters extracted from data
-/

namespace Verif
open Spec

namespace Extract

theorem maxSkip_nan_left (y : Num) : Num.maxSkip .nan y = y := by cases y <;> rfl

theorem seriesMax_cases (col : List Num) :
    (seriesMax col = .nan ∧ ∀ x ∈ col, x = .nan) ∨ Largest col (seriesMax col) := by
  induction col with
  | nil => exact .inl ⟨rfl, by simp⟩
  | cons a col ih =>
    have e : seriesMax (a :: col) = a.maxSkip (seriesMax col) := rfl
    rw [e]
    have isv : ∀ x v, IsValue x v → x ≠ .nan := by rintro _ _ ⟨⟩ <;> simp
    rcases ih with ⟨h1, h2⟩ | ⟨h1, v, h2, h3⟩
    · rw [h1]
      have only : ∀ u, IsValue a u → Largest (a :: col) a := fun u hu =>
        ⟨by simp, u, hu, fun x hx w hw => by
          rcases List.mem_cons.1 hx with rfl | hx
          · cases hu <;> cases hw <;> exact le_refl _
          · exact absurd (h2 x hx) (isv _ _ hw)⟩
      cases a with
      | nan => exact .inl ⟨rfl, by simpa using h2⟩
      | fin x => exact .inr (only _ (.fin x))
      | posInf => exact .inr (only _ .posInf)
      | negInf => exact .inr (only _ .negInf)
    · right
      -- the maximum is one of the two, and above both
      have left : ∀ u, IsValue a u → v ≤ u → Largest (a :: col) a := fun u hu hvu =>
        ⟨by simp, u, hu, fun x hx w hw => by
          rcases List.mem_cons.1 hx with rfl | hx
          · cases hu <;> cases hw <;> exact le_refl _
          · exact (h3 x hx w hw).trans hvu⟩
      have right : (∀ u, IsValue a u → u ≤ v) → Largest (a :: col) (seriesMax col) := fun hu =>
        ⟨by simp [h1], v, h2, fun x hx w hw => by
          rcases List.mem_cons.1 hx with rfl | hx
          · exact hu _ hw
          · exact h3 x hx w hw⟩
      generalize seriesMax col = m at h1 h2 right ⊢
      cases a with
      | nan =>
        rw [maxSkip_nan_left]
        exact right (by rintro _ ⟨⟩)
      | posInf => cases h2 <;> exact left _ .posInf le_top
      | negInf => cases h2 <;> exact right (by rintro _ ⟨⟩; exact bot_le)
      | fin x =>
        cases h2 with
        | posInf => exact right (by rintro _ ⟨⟩; exact le_top)
        | negInf => exact left _ (.fin x) bot_le
        | fin y =>
          change Largest _ (.fin (max x y))
          rcases le_total x y with hxy | hxy
          · rw [max_eq_right hxy]
            exact right (by rintro _ ⟨⟩; exact_mod_cast hxy)
          · rw [max_eq_left hxy]
            exact left _ (.fin x) (by exact_mod_cast hxy)

theorem Largest.of_number {col : List Num} {x : Num} (hx : x ∈ col) (hn : x ≠ .nan) : Largest col (seriesMax col) := by
  rcases seriesMax_cases col with ⟨-, h⟩ | h
  · exact absurd (h x hx) hn
  · exact h

theorem capacities_of_lists {d : CellData} {col : List Num} (h : Lists d col) : d.capacities = some col := by
  obtain ⟨t, h1, h2⟩ := h
  unfold CellData.capacities
  rw [h1]
  exact h2

theorem capacities_of_none {d : CellData} (h : ListsNone d) : d.capacities = none := by
  unfold CellData.capacities
  cases ht : d.cycleStats with
  | none => rfl
  | some t => exact h t ht

/-- What the comparison of `check_data` says about the capacities. -/
theorem below_iff {col : List Num} {q : Num} (hq : Largest col q) {c r : ℝ} (hc : 0 ≤ c) :
    (q.divBy c).below r = true ↔ ∀ x ∈ col, ∀ v, IsValue x v → v < ((r * c : ℝ) : EReal) := by
  obtain ⟨hm, v, hv, hall⟩ := hq
  have key : (q.divBy c).below r = true ↔ v < ((r * c : ℝ) : EReal) := by
    cases hv with
    | fin x =>
      rcases hc.eq_or_lt with h0 | h0
      · rw [← h0, mul_zero, EReal.coe_lt_coe_iff]
        simp only [Num.divBy, if_true]
        rcases lt_trichotomy x 0 with hx | hx | hx
        · simp [hx, hx.not_gt, Num.below]
        · simp [hx, Num.below]
        · simp [hx, hx.not_gt, Num.below]
      · simp only [Num.divBy, if_neg h0.ne', Num.below, decide_eq_true_eq, EReal.coe_lt_coe_iff]
        exact div_lt_iff₀ h0
    | posInf => simp [Num.divBy, if_neg hc.not_gt, Num.below]
    | negInf => simp only [Num.divBy, if_neg hc.not_gt, Num.below, EReal.bot_lt_coe]
  rw [key]
  exact ⟨fun h x hx u hu => (hall x hx u hu).trans_lt h, fun h => h q hm v hv⟩

end Extract

open Extract

/-- C73.  With capacities in the table of cycles, the extracted capacity is attained by some cycle and no cycle exceeds it. -/
theorem C73_largest_listed (compute : CellData → Except Err CycleStats) (d : CellData) (col : List Num) (hd : Lists d col)
    (x : Num) (hx : x ∈ col) (hn : x ≠ .nan) :
    ∃ q, Extractor.maxCapacity compute d = .ok q ∧ Largest col q := by
  refine ⟨_, ?_, Largest.of_number hx hn⟩
  unfold Extractor.maxCapacity
  rw [capacities_of_lists hd]

/-- C73.  Without them, the same holds of the capacities that battdat computes from the measurements. -/
theorem C73_largest_computed (compute : CellData → Except Err CycleStats) (d : CellData) (hd : ListsNone d) (t : CycleStats)
    (ht : compute d = .ok t) (col : List Num) (hcol : lookupKey "capacity_charge".toList t = some col)
    (x : Num) (hx : x ∈ col) (hn : x ≠ .nan) :
    ∃ q, Extractor.maxCapacity compute d = .ok q ∧ Largest col q := by
  refine ⟨_, ?_, Largest.of_number hx hn⟩
  unfold Extractor.maxCapacity
  rw [capacities_of_none hd]
  rw [ht]
  change (match lookupKey capacityCharge t with | none => _ | some col => _) = _
  rw [show lookupKey capacityCharge t = some col from hcol]

/-- C73.  Datasets without measurements are refused, and left alone. -/
theorem C73_check_needs_raw_data (addSummaries : CellData → Except Err CellData) (E : OcvExtractor) (d : CellData)
    (hd : d.rawData = none) : E.checkData addSummaries d = (d, .error .valueError) := by
  unfold OcvExtractor.checkData
  rw [hd]

/-- C73.  Datasets with measurements and capacities are refused exactly when every capacity is below the required fraction, and left
alone either way. -/
theorem C73_check_listed (addSummaries : CellData → Except Err CellData) (E : OcvExtractor) (hc : 0 ≤ E.capacity) (d : CellData)
    (raw : List Sample) (hr : d.rawData = some raw) (col : List Num) (hd : Lists d col) (x : Num) (hx : x ∈ col) (hn : x ≠ .nan) :
    ((∀ y ∈ col, ∀ v, IsValue y v → v < ((E.socRequirement * E.capacity : ℝ) : EReal)) →
      E.checkData addSummaries d = (d, .error .valueError)) ∧
    ((∃ y ∈ col, ∃ v, IsValue y v ∧ ((E.socRequirement * E.capacity : ℝ) : EReal) ≤ v) →
      E.checkData addSummaries d = (d, .ok ())) := by
  have h := below_iff (r := E.socRequirement) (Largest.of_number hx hn) hc
  unfold OcvExtractor.checkData OcvExtractor.enough
  rw [hr, capacities_of_lists hd]
  constructor
  · intro hall
    simp only [h.2 hall, if_true]
  · rintro ⟨y, hy, v, hv, hle⟩
    have : ¬ (((seriesMax col).divBy E.capacity).below E.socRequirement = true) := fun hb => ((h.1 hb) y hy v hv).not_ge hle
    simp only [if_neg this]

/-- C73.  When the capacities have to be computed first, the same holds of the computed ones, which stay in the dataset. -/
theorem C73_check_computed (addSummaries : CellData → Except Err CellData) (E : OcvExtractor) (hc : 0 ≤ E.capacity) (d d' : CellData)
    (raw : List Sample) (hr : d.rawData = some raw) (hd : ListsNone d) (hs : addSummaries d = .ok d') (col : List Num)
    (hd' : Lists d' col) (x : Num) (hx : x ∈ col) (hn : x ≠ .nan) :
    ((∀ y ∈ col, ∀ v, IsValue y v → v < ((E.socRequirement * E.capacity : ℝ) : EReal)) →
      E.checkData addSummaries d = (d', .error .valueError)) ∧
    ((∃ y ∈ col, ∃ v, IsValue y v ∧ ((E.socRequirement * E.capacity : ℝ) : EReal) ≤ v) →
      E.checkData addSummaries d = (d', .ok ())) := by
  have h := below_iff (r := E.socRequirement) (Largest.of_number hx hn) hc
  unfold OcvExtractor.checkData OcvExtractor.enough
  rw [hr, capacities_of_none hd]
  simp only [hs, capacities_of_lists hd']
  constructor
  · intro hall
    simp only [h.2 hall, if_true]
  · rintro ⟨y, hy, v, hv, hle⟩
    have : ¬ (((seriesMax col).divBy E.capacity).below E.socRequirement = true) := fun hb => ((h.1 hb) y hy v hv).not_ge hle
    simp only [if_neg this]

/-- C81, negated.  A dataset whose cycles have no capacity at all (an empty table, or NaN throughout) is accepted, whatever fraction
is required: the comparison with NaN is false. -/
theorem C81_no_capacity_accepted (addSummaries : CellData → Except Err CellData) (E : OcvExtractor) (d : CellData)
    (raw : List Sample) (hr : d.rawData = some raw) (col : List Num) (hd : Lists d col) (hn : ∀ x ∈ col, x = .nan) :
    E.checkData addSummaries d = (d, .ok ()) := by
  have e : seriesMax col = .nan := by
    rcases seriesMax_cases col with ⟨h, -⟩ | ⟨h1, v, h2, -⟩
    · exact h
    · rw [hn _ h1] at h2
      cases h2
  unfold OcvExtractor.checkData OcvExtractor.enough
  rw [hr, capacities_of_lists hd]
  simp [e, Num.divBy, Num.below]

/-- C81, negated.  The capacity extracted from such a dataset is NaN. -/
theorem C81_no_capacity_extracts_nan (compute : CellData → Except Err CycleStats) (d : CellData) (col : List Num) (hd : Lists d col)
    (hn : ∀ x ∈ col, x = .nan) : Extractor.maxCapacity compute d = .ok .nan := by
  have e : seriesMax col = .nan := by
    rcases seriesMax_cases col with ⟨h, -⟩ | ⟨h1, v, h2, -⟩
    · exact h
    · rw [hn _ h1] at h2
      cases h2
  unfold Extractor.maxCapacity
  rw [capacities_of_lists hd]
  simp [e]

/-- C81, the part that holds: an accepted dataset in which some cycle has a capacity has a cycle that reaches the required fraction.
Missing for the full claim: datasets in which no cycle has a capacity are accepted too (`C81_no_capacity_accepted`). -/
theorem C81_accepted_reaches_partial (addSummaries : CellData → Except Err CellData) (E : OcvExtractor) (hc : 0 ≤ E.capacity)
    (d d' : CellData) (h : E.checkData addSummaries d = (d', .ok ())) :
    ∃ col, Lists d' col ∧ ((∃ x ∈ col, x ≠ .nan) →
      ∃ y ∈ col, ∃ v, IsValue y v ∧ ((E.socRequirement * E.capacity : ℝ) : EReal) ≤ v) := by
  have lists : ∀ d0 : CellData, ∀ col, d0.capacities = some col → Lists d0 col := by
    intro d0 col h0
    unfold CellData.capacities at h0
    cases ht : d0.cycleStats with
    | none => rw [ht] at h0; cases h0
    | some t => rw [ht] at h0; exact ⟨t, ht, h0⟩
  have main : ∀ d0 : CellData, E.enough d0 = .ok () → ∃ col, Lists d0 col ∧ ((∃ x ∈ col, x ≠ .nan) →
      ∃ y ∈ col, ∃ v, IsValue y v ∧ ((E.socRequirement * E.capacity : ℝ) : EReal) ≤ v) := by
    intro d0 h0
    unfold OcvExtractor.enough at h0
    cases hcap : d0.capacities with
    | none => rw [hcap] at h0; cases h0
    | some col =>
      rw [hcap] at h0
      refine ⟨col, lists d0 col hcap, ?_⟩
      rintro ⟨x, hx, hn⟩
      by_contra hno
      push Not at hno
      have := (below_iff (r := E.socRequirement) (Largest.of_number hx hn) hc).2 hno
      simp only [this, if_true] at h0
      cases h0
  unfold OcvExtractor.checkData at h
  cases hr : d.rawData with
  | none => rw [hr] at h; cases h
  | some raw =>
    rw [hr] at h
    cases hcap : d.capacities with
    | some col =>
      rw [hcap] at h
      simp only [Prod.mk.injEq] at h
      rw [← h.1]
      exact main d h.2
    | none =>
      rw [hcap] at h
      cases hs : addSummaries d with
      | error e => rw [hs] at h; cases h
      | ok d1 =>
        rw [hs] at h
        simp only [Prod.mk.injEq] at h
        rw [← h.1]
        exact main d1 h.2

/-- C83.  A dataset always samples enough of the capacity that was extracted from it, up to a requirement of 100%. -/
theorem C83_own_capacity_suffices (compute : CellData → Except Err CycleStats) (addSummaries : CellData → Except Err CellData)
    (d : CellData) (raw : List Sample) (hr : d.rawData = some raw) (col : List Num) (hd : Lists d col) (q : ℝ) (hq : 0 < q)
    (hx : Extractor.maxCapacity compute d = .ok (.fin q)) (points : SocPoints) (style : Style) (r : ℝ) :
    (OcvExtractor.init q points r style).checkData addSummaries d = (d, if 1 < r then .error .valueError else .ok ()) := by
  have e : seriesMax col = .fin q := by
    unfold Extractor.maxCapacity at hx
    rw [capacities_of_lists hd] at hx
    exact Except.ok.inj hx
  unfold OcvExtractor.checkData OcvExtractor.enough
  rw [hr, capacities_of_lists hd]
  simp [e, Num.divBy, Num.below, OcvExtractor.init, hq.ne']

/-! ## Weights -/

namespace Extract

theorem rawWeight_pos (i : ℝ) : 0 < OcvExtractor.rawWeight i :=
  div_pos one_pos (lt_max_of_lt_right (by norm_num))

theorem sum_rawWeight_pos {is : List ℝ} (h : is ≠ []) : 0 < (is.map OcvExtractor.rawWeight).sum := by
  cases is with
  | nil => exact absurd rfl h
  | cons a l =>
    rw [List.map_cons, List.sum_cons]
    have : 0 ≤ (l.map OcvExtractor.rawWeight).sum :=
      List.sum_nonneg (by simpa using fun i _ => (rawWeight_pos i).le)
    linarith [rawWeight_pos a]

theorem getElem_weights {is : List ℝ} {k : Nat} (hk : k < is.length) :
    (OcvExtractor.weights is)[k]'(by simpa [OcvExtractor.weights] using hk) =
      OcvExtractor.rawWeight is[k] / (is.map OcvExtractor.rawWeight).sum := by
  simp [OcvExtractor.weights]

theorem sum_map_div (l : List ℝ) (c : ℝ) : (l.map (· / c)).sum = l.sum / c := by
  induction l with
  | nil => simp
  | cons a l ih => simp [ih, add_div]

end Extract

/-- C74.  There is one weight per current. -/
theorem C74_one_weight_each (is : List ℝ) : (OcvExtractor.weights is).length = is.length := by
  simp [OcvExtractor.weights]

/-- C74.  The weights are positive and sum to one. -/
theorem C74_probability_vector (is : List ℝ) (h : is ≠ []) :
    (∀ w ∈ OcvExtractor.weights is, 0 < w) ∧ (OcvExtractor.weights is).sum = 1 := by
  have hs := sum_rawWeight_pos h
  constructor
  · intro w hw
    simp only [OcvExtractor.weights, List.mem_map] at hw
    obtain ⟨_, ⟨i, -, rfl⟩, rfl⟩ := hw
    exact div_pos (rawWeight_pos i) hs
  · simp only [OcvExtractor.weights]
    rw [sum_map_div, div_self hs.ne']

/-- C74.  A smaller current never gets a smaller weight, and a larger weight whenever the currents differ above `1e-6`; weights are
inversely proportional to currents of at least `1e-6`. -/
theorem C74_low_current_favoured (is : List ℝ) (j k : Nat) (hj : j < is.length) (hk : k < is.length) (wj wk : ℝ)
    (hwj : (OcvExtractor.weights is)[j]? = some wj) (hwk : (OcvExtractor.weights is)[k]? = some wk) :
    (|is[j]| ≤ |is[k]| → wk ≤ wj) ∧
    (|is[j]| < |is[k]| → 1 / 1000000 < |is[k]| → wk < wj) ∧
    (1 / 1000000 ≤ |is[j]| → 1 / 1000000 ≤ |is[k]| → wj * |is[j]| = wk * |is[k]|) ∧
    (|is[j]| ≤ 1 / 1000000 → |is[k]| ≤ 1 / 1000000 → wj = wk) := by
  have hs := sum_rawWeight_pos (is := is) (by rintro rfl; simp at hj)
  have e : ∀ (i : Nat) (hi : i < is.length) (w : ℝ), (OcvExtractor.weights is)[i]? = some w →
      w = OcvExtractor.rawWeight is[i] / (is.map OcvExtractor.rawWeight).sum := by
    intro i hi w hw
    rw [List.getElem?_eq_getElem (by rw [C74_one_weight_each]; exact hi)] at hw
    rw [← Option.some.inj hw, getElem_weights hi]
  rw [e j hj wj hwj, e k hk wk hwk]
  generalize (is.map OcvExtractor.rawWeight).sum = S at hs
  unfold OcvExtractor.rawWeight
  generalize |is[j]| = a
  generalize |is[k]| = b
  have pos : ∀ x : ℝ, 0 < max x (1 / 1000000) := fun x => lt_max_of_lt_right (by norm_num)
  refine ⟨fun h => ?_, fun h h' => ?_, fun h h' => ?_, fun h h' => ?_⟩
  · exact div_le_div_of_nonneg_right (one_div_le_one_div_of_le (pos a) (max_le_max_right _ h)) hs.le
  · exact div_lt_div_of_pos_right (one_div_lt_one_div_of_lt (pos a) (max_lt (lt_max_of_lt_left h) (lt_max_of_lt_left h'))) hs
  · rw [max_eq_left h, max_eq_left h']
    have ha : a ≠ 0 := by intro h0; rw [h0] at h; norm_num at h
    have hb : b ≠ 0 := by intro h0; rw [h0] at h'; norm_num at h'
    field_simp
  · rw [max_eq_right h, max_eq_right h']

/-! ## The fit -/

/-- C82.  The spline is fitted to every measurement, once, in the order of their SOCs, each with its own voltage and a weight inversely
proportional to its own current; the inner SOC points are the knots and the values returned are those of the spline at all SOC points.
In particular all the cycles of the dataset are used, not only the slowest. -/
theorem C82_fit_uses_every_measurement (sort : List OcvExtractor.Point → List OcvExtractor.Point)
    (hsort : ∀ l, (sort l).Perm l ∧ (sort l).Pairwise (fun p r => p.soc ≤ r.soc))
    (fit : List ℝ → List ℝ → List ℝ → List ℝ → Except Err (ℝ → ℝ)) (E : OcvExtractor) (hc : E.capacity ≠ 0) (raw : List Sample)
    (knots : List ℝ) (h : E.interpolateOcv sort fit raw = .ok knots) :
    ∃ (order : List Sample) (ws : List ℝ) (ts : List ℝ) (spline : ℝ → ℝ),
      order.Perm raw ∧ (order.map fun s => s.cycleCapacity / E.capacity).Pairwise (· ≤ ·) ∧
      ws.length = order.length ∧ (raw ≠ [] → ws.sum = 1) ∧
      (∀ (j k : Nat) (sj sk : Sample) (wj wk : ℝ), order[j]? = some sj → order[k]? = some sk → ws[j]? = some wj → ws[k]? = some wk →
        wj * max |sj.current| (1 / 1000000) = wk * max |sk.current| (1 / 1000000)) ∧
      (∀ first last mid, E.socPoints = first :: mid ++ [last] → ts = mid) ∧
      fit (order.map fun s => s.cycleCapacity / E.capacity) (order.map (·.voltage)) ws ts = .ok spline ∧
      knots = E.socPoints.map spline := by
  obtain ⟨hp, hsorted⟩ := hsort (raw.map E.point)
  unfold OcvExtractor.interpolateOcv at h
  dsimp only at h
  set pts := sort (raw.map E.point) with hpts
  let back : OcvExtractor.Point → Sample := fun p => ⟨p.soc * E.capacity, p.current, p.voltage⟩
  have hback : ∀ s, back (E.point s) = s := by
    intro s
    simp [back, OcvExtractor.point, hc]
  have hforth : ∀ p, E.point (back p) = p := by
    intro p
    simp [back, OcvExtractor.point, hc]
  have e0 : pts.map (E.point ∘ back) = pts := by
    conv_rhs => rw [← List.map_id pts]
    exact List.map_congr_left fun p _ => hforth p
  have horder : (pts.map back).Perm raw := by
    refine (hp.map back).trans ?_
    rw [List.map_map]
    have : raw.map (back ∘ E.point) = raw := by
      conv_rhs => rw [← List.map_id raw]
      exact List.map_congr_left fun s _ => hback s
    rw [this]
  have e1 : (pts.map back).map (fun s => s.cycleCapacity / E.capacity) = pts.map (·.soc) := by
    rw [List.map_map]
    exact List.map_congr_left fun p _ => by simp [back, hc]
  have e2 : (pts.map back).map (·.voltage) = pts.map (·.voltage) := by
    rw [List.map_map]; rfl
  have e3 : (pts.map back).map (·.current) = pts.map (·.current) := by
    rw [List.map_map]; rfl
  cases hf : fit (pts.map (·.soc)) (pts.map (·.voltage)) (OcvExtractor.weights (pts.map (·.current)))
      (OcvExtractor.interior E.socPoints) with
  | error err => rw [hf] at h; cases h
  | ok spline =>
    rw [hf] at h
    refine ⟨pts.map back, OcvExtractor.weights (pts.map (·.current)), OcvExtractor.interior E.socPoints, spline, horder, ?_, ?_, ?_, ?_,
      ?_, ?_, ?_⟩
    · rw [e1]
      exact List.pairwise_map.2 hsorted
    · rw [C74_one_weight_each]; simp
    · intro hne
      refine (C74_probability_vector _ ?_).2
      intro h0
      have := horder.length_eq
      rw [List.map_eq_nil_iff.1 h0] at this
      exact hne (List.length_eq_zero_iff.1 this.symm)
    · intro j k sj sk wj wk hsj hsk hwj hwk
      have get : ∀ (i : Nat) (s : Sample) (w : ℝ), (pts.map back)[i]? = some s →
          (OcvExtractor.weights (pts.map (·.current)))[i]? = some w →
          w * max |s.current| (1 / 1000000) = 1 / ((pts.map (·.current)).map OcvExtractor.rawWeight).sum := by
        intro i s w hs hw
        rw [List.getElem?_map] at hs
        obtain ⟨p, hpi, rfl⟩ := Option.map_eq_some_iff.1 hs
        simp only [OcvExtractor.weights, List.getElem?_map, hpi, Option.map_some, Option.some.injEq] at hw
        rw [← hw]
        have hm : (0 : ℝ) < max |p.current| (1 / 1000000) := lt_max_of_lt_right (by norm_num)
        change OcvExtractor.rawWeight p.current / _ * max |p.current| (1 / 1000000) = _
        rw [div_mul_eq_mul_div]
        congr 1
        exact div_mul_cancel₀ _ hm.ne'
      rw [get j sj wj hsj hwj, get k sk wk hsk hwk]
    · intro first last mid hm
      rw [hm]
      simp [OcvExtractor.interior]
    · rw [e1, e2]; exact hf
    · exact (Except.ok.inj h).symm

/-- C82.  Errors of the fit are passed on, and measurements are needed. -/
theorem C82_extract_fails (sort : List OcvExtractor.Point → List OcvExtractor.Point)
    (fit : List ℝ → List ℝ → List ℝ → List ℝ → Except Err (ℝ → ℝ)) (E : OcvExtractor) (d : CellData) :
    (d.rawData = none → E.extract sort fit d = .error .keyError) ∧
    ((∀ x y w t, ∃ e, fit x y w t = .error e) → ∃ e, E.extract sort fit d = .error e) := by
  unfold OcvExtractor.extract
  constructor
  · intro h; rw [h]
  · intro h
    cases d.rawData with
    | none => exact ⟨_, rfl⟩
    | some raw =>
      unfold OcvExtractor.interpolateOcv
      obtain ⟨e, he⟩ := h ((sort (raw.map E.point)).map (·.soc)) ((sort (raw.map E.point)).map (·.voltage))
        (OcvExtractor.weights ((sort (raw.map E.point)).map (·.current))) (OcvExtractor.interior E.socPoints)
      refine ⟨e, ?_⟩
      dsimp only
      rw [he]
      rfl

/-- C82.  The extracted open circuit voltage takes the fitted value at every SOC point, whatever the order of the points. -/
theorem C82_extracted_value_at_point (sort : List OcvExtractor.Point → List OcvExtractor.Point)
    (fit : List ℝ → List ℝ → List ℝ → List ℝ → Except Err (ℝ → ℝ)) (E : OcvExtractor) (hl : E.style = .linear)
    (two : 2 ≤ E.socPoints.length) (distinct : E.socPoints.Nodup) (d : CellData) (raw : List Sample) (hr : d.rawData = some raw)
    (knots : List ℝ) (hk : E.interpolateOcv sort fit raw = .ok knots) :
    knots.length = E.socPoints.length ∧ ∃ ocv, E.extract sort fit d = .ok ocv ∧
      ∀ (soc : Nd ℝ) (n : Nat), soc.shape = [n, 1] → 0 < n → ∃ y, ocv.getValue soc none = .ok y ∧
        ∀ (k j : Nat) (s v : ℝ), k < n → E.socPoints[j]? = some s → knots[j]? = some v → soc.get [k, 0] = s → y.get [0, k, 0] = v := by
  have hlen : knots.length = E.socPoints.length := by
    unfold OcvExtractor.interpolateOcv at hk
    obtain ⟨f, -, hf⟩ := bind_ok.1 hk
    rw [← Except.ok.inj hf]
    simp
  refine ⟨hlen, ⟨⟨⟨[1, knots.length], fun idx => knots.getD (idx.getD 1 0) 0⟩, some E.socPoints, E.style⟩, .num2 25,
    ⟨.num2 0, none, .linear⟩⟩, ?_, ?_⟩
  · unfold OcvExtractor.extract
    rw [hr]
    simp only [hk]
    rfl
  · intro soc n hs hn
    have hp : Pinned ⟨⟨[1, knots.length], fun idx => knots.getD (idx.getD 1 0) 0⟩, some E.socPoints, E.style⟩ 1 knots.length
        (fun j => E.socPoints.getD j 0) := by
      refine ⟨hl, rfl, by omega, .inl ?_, ?_⟩
      · rw [hlen]
        refine congrArg some (List.ext_getElem (by simp) fun i h1 h2 => ?_)
        simp [List.getD_eq_getElem?_getD, List.getElem?_eq_getElem h1]
      · intro j hj k hk' e
        rw [hlen] at hj hk'
        simp only [List.getD_eq_getElem?_getD, List.getElem?_eq_getElem hj, List.getElem?_eq_getElem hk', Option.getD_some] at e
        exact (List.Nodup.getElem_inj_iff distinct).1 e
    obtain ⟨y, hy⟩ := (hp.ok_iff (others := [1]) hs).2 ⟨1, by decide, rfl⟩
    refine ⟨y, ?_, ?_⟩
    · unfold Ecm.OCV.getValue
      exact (bind_ok.2 ⟨y, hy, rfl⟩)
    · intro k j s v hkn hsj hvj hq
      have hj : j < knots.length := (List.getElem?_eq_some_iff.1 hvj).1
      rw [C30_value_at_pinpoint hp hs hy (by omega) hkn hj (by simp [List.getD_eq_getElem?_getD, hsj, hq])]
      simp [List.getD_eq_getElem?_getD, hvj]

open Cell in
/-- C82.  The extracted open circuit voltage does not depend on the temperature. -/
theorem C82_temperature_irrelevant (sort : List OcvExtractor.Point → List OcvExtractor.Point)
    (fit : List ℝ → List ℝ → List ℝ → List ℝ → Except Err (ℝ → ℝ)) (E : OcvExtractor) (some_points : E.socPoints ≠ [])
    (d : CellData) (ocv : Ecm.OCV) (h : E.extract sort fit d = .ok ocv) (soc t : Nd ℝ) (hs : soc.shape = [1, 1])
    (ht : t.shape = [1, 1]) :
    ∃ y y₀, ocv.getValue soc (some t) = .ok y ∧ ocv.getValue soc none = .ok y₀ ∧ y.shape = [1, 1, 1] ∧ y₀.shape = [1, 1, 1] ∧
      y.get [0, 0, 0] = y₀.get [0, 0, 0] := by
  unfold OcvExtractor.extract at h
  cases hr : d.rawData with
  | none => rw [hr] at h; cases h
  | some raw =>
    rw [hr] at h
    obtain ⟨knots, hk, ho⟩ := bind_ok.1 h
    have hlen : knots.length = E.socPoints.length := by
      unfold OcvExtractor.interpolateOcv at hk
      obtain ⟨f, -, hf⟩ := bind_ok.1 hk
      rw [← Except.ok.inj hf]
      simp
    have hpos : knots.length ≠ 0 := by
      rw [hlen]
      exact fun h0 => some_points (List.length_eq_zero_iff.1 h0)
    have ho := Except.ok.inj ho
    have c1 : Curve 1 ocv.ref := by rw [← ho]; exact .inl rfl
    have c2 : Scalar 1 ocv.refTemp := by rw [← ho]; exact .inl rfl
    have c3 : Curve 1 ocv.ent := by rw [← ho]; exact .inl rfl
    have u1 : Usable ocv.ref [Ecm.rows ocv.refTemp] := by
      rw [← ho]
      exact .inr ⟨hpos, hlen.symm, by intro o h; exact .inl (by simpa [Ecm.rows, Nd.num2] using h)⟩
    have u2 : Usable ocv.ent [] := by rw [← ho]; exact .inl rfl
    have r1 : ocv.ent.rows = 1 := by rw [← ho]; rfl
    have r2 : Ecm.rows ocv.refTemp = 1 := by rw [← ho]; rfl
    have ev : ∀ x, curveAt ocv.ent 0 x = 0 := by
      intro x
      rw [← ho]
      rfl
    have one : ∀ (y : Nd ℝ) (x : Nat → ℝ), Rel 1 y x ∧ y.shape.length = 3 → y.shape = [1, 1, 1] ∧ y.get [0, 0, 0] = x 0 := by
      rintro y x ⟨hrel, h3⟩
      have hd : ∀ d ∈ y.shape, d = 1 := fun d hm => by rcases hrel.dims d hm with h | h <;> exact h
      have e : y.shape = [1, 1, 1] := by
        rw [List.eq_replicate_of_mem hd, h3]; rfl
      refine ⟨e, ?_⟩
      have := hrel.val 0 one_pos
      rw [e] at this
      simpa [clip] using this
    have ss : Scalar 1 soc := .inl hs
    have st : ∀ u ∈ some t, Scalar 1 u := by intro u hu; cases hu; exact .inl ht
    obtain ⟨rs, ls⟩ := rel_scalar ss
    obtain ⟨y, hy⟩ := ocv_ok one_pos c1 c2 c3 ss st u1 (fun _ => u2) (by
      intro u hu
      cases hu
      exact ⟨.inl r1, .inl (by simp [Ecm.rows, ht]), .inl r2⟩)
    obtain ⟨y₀, hy₀⟩ := ocv_ok (temp := none) one_pos c1 c2 c3 ss (by simp) u1 (by simp) (by simp)
    obtain ⟨s1, v1⟩ := one y _ (ocv_rel one_pos c1 c2 c3 rs ls (tempRel st) hy)
    obtain ⟨s2, v2⟩ := one y₀ _ (ocv_rel (temp := none) (t := fun _ => none) one_pos c1 c2 c3 rs ls (fun _ => rfl) hy₀)
    refine ⟨y, y₀, hy, hy₀, s1, s2, ?_⟩
    rw [v1, v2]
    simp [ocvAt, ev]

/-! ## Concrete cases -/

namespace Extract.Demo

/-- Three measurements over one charge: the capacities and a table of two cycles, one of them without capacity. -/
noncomputable def data : CellData :=
  ⟨some [⟨1, 2, 4⟩, ⟨0, 1, 3⟩, ⟨2, 0, 5⟩], some [("capacity_charge".toList, [.nan, .fin 2, .fin 1])]⟩

theorem data_lists : Lists data [.nan, .fin 2, .fin 1] := ⟨_, rfl, by simp [lookupKey]⟩

/-- The largest of the two capacities is extracted. -/
theorem data_capacity (compute : CellData → Except Err CycleStats) : Extractor.maxCapacity compute data = .ok (.fin 2) := by
  unfold Extractor.maxCapacity
  rw [capacities_of_lists data_lists]
  simp only [seriesMax, List.foldr_cons, List.foldr_nil, Num.maxSkip]
  norm_num

example (compute : CellData → Except Err CycleStats) :
    ∃ q, Extractor.maxCapacity compute data = .ok q ∧ Largest [.nan, .fin 2, .fin 1] q :=
  C73_largest_listed compute data _ data_lists (.fin 2) (by simp) (by simp)

/-- The same dataset without its table. -/
noncomputable def bare : CellData := { data with cycleStats := none }

theorem bare_lists : ListsNone bare := by
  intro t h
  cases h

/-- A computation that finds the capacities. -/
def compute : CellData → Except Err CycleStats := fun _ => .ok [("capacity_charge".toList, [.nan, .fin 2, .fin 1])]

example : ∃ q, Extractor.maxCapacity compute bare = .ok q ∧ Largest [.nan, .fin 2, .fin 1] q :=
  C73_largest_computed compute bare bare_lists _ rfl _ (by simp [lookupKey]) (.fin 2) (by simp) (by simp)

/-- An extractor that wants 95% of a capacity of two, on three points. -/
noncomputable def ex : OcvExtractor := .init 2 (.array [0, 1 / 2, 1]) (95 / 100) .linear

example (add : CellData → Except Err CellData) : ex.checkData add data = (data, .ok ()) := by
  refine (C73_check_listed add ex (by norm_num [ex, OcvExtractor.init]) data _ rfl _ data_lists (.fin 2) (by simp) (by simp)).2
    ⟨.fin 2, by simp, _, .fin 2, ?_⟩
  rw [EReal.coe_le_coe_iff]
  norm_num [ex, OcvExtractor.init]

/-- The same dataset does not do for a capacity of three, here with capacities that are computed. -/
example : ({ ex with capacity := 3 } : OcvExtractor).checkData (fun _ => .ok data) bare = (data, .error .valueError) := by
  refine (C73_check_computed _ { ex with capacity := 3 } (by norm_num) bare data _ rfl bare_lists rfl _ data_lists (.fin 2) (by simp)
    (by simp)).1 ?_
  intro y hy v hv
  simp only [List.mem_cons, List.not_mem_nil, or_false] at hy
  rcases hy with rfl | rfl | rfl
  · cases hv
  · cases hv
    rw [EReal.coe_lt_coe_iff]
    norm_num [ex, OcvExtractor.init]
  · cases hv
    rw [EReal.coe_lt_coe_iff]
    norm_num [ex, OcvExtractor.init]

/-- An empty table of cycles. -/
noncomputable def empty : CellData := ⟨some [], some [("capacity_charge".toList, [])]⟩

example (add : CellData → Except Err CellData) : ex.checkData add empty = (empty, .ok ()) :=
  C81_no_capacity_accepted add ex empty [] rfl [] ⟨_, rfl, by simp [lookupKey]⟩ (by simp)

example (add : CellData → Except Err CellData) :
    (OcvExtractor.init 2 (.count 11) 1 .linear).checkData add data = (data, .ok ()) := by
  rw [C83_own_capacity_suffices compute add data _ rfl _ data_lists 2 (by norm_num) (data_capacity _)]
  simp

/-- The weights of currents of one and two ampere. -/
example : OcvExtractor.weights [1, -2] = [2 / 3, 1 / 3] := by
  simp only [OcvExtractor.weights, OcvExtractor.rawWeight, List.map_cons, List.map_nil, List.sum_cons, List.sum_nil, abs_one, abs_neg]
  norm_num

open Classical in
/-- A sort by SOC. -/
noncomputable def bySoc (l : List OcvExtractor.Point) : List OcvExtractor.Point := l.mergeSort fun p r => decide (p.soc ≤ r.soc)

theorem bySoc_sorts (l : List OcvExtractor.Point) : (bySoc l).Perm l ∧ (bySoc l).Pairwise (fun p r => p.soc ≤ r.soc) := by
  classical
  refine ⟨List.mergeSort_perm _ _, ?_⟩
  have := List.pairwise_mergeSort (le := fun p r : OcvExtractor.Point => decide (p.soc ≤ r.soc))
    (by intro a b c; simpa using le_trans) (by intro a b; simpa using le_total a.soc b.soc) l
  exact this.imp (by simp)

/-- A fit that puts a line of slope two through the first point. -/
noncomputable def line : List ℝ → List ℝ → List ℝ → List ℝ → Except Err (ℝ → ℝ) :=
  fun xs ys _ _ => .ok fun s => ys.headD 0 + 2 * (s - xs.headD 0)

example : ∃ order : List Sample, order.Perm [⟨1, 2, 4⟩, ⟨0, 1, 3⟩, ⟨2, 0, 5⟩] ∧
    (order.map fun s => s.cycleCapacity / ex.capacity).Pairwise (· ≤ ·) := by
  obtain ⟨order, -, -, -, h1, h2, -⟩ := C82_fit_uses_every_measurement bySoc bySoc_sorts line ex (by norm_num [ex, OcvExtractor.init])
    [⟨1, 2, 4⟩, ⟨0, 1, 3⟩, ⟨2, 0, 5⟩] _ rfl
  exact ⟨order, h1, h2⟩

example : ∃ ocv, ex.extract bySoc line data = .ok ocv := by
  obtain ⟨-, ocv, h, -⟩ := C82_extracted_value_at_point bySoc line ex rfl (by simp [ex, OcvExtractor.init])
    (by simp [ex, OcvExtractor.init]) data _ rfl _ rfl
  exact ⟨ocv, h⟩

end Extract.Demo
end Verif
