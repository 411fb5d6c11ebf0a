import Verif.Spec.Regression
import Verif.Proofs.HealthValues
import Verif.Props.EcmKalman
import Verif.Props.DualScale
/-!
# Parameters in which the voltage is linear: the health filter is recursive least squares (C131)
-/

namespace Verif
open Ecm Cell Spec Matrix

variable {beh : Behavior} {x : Fixed} {measured series : Bool} {a : ASOH}

/-! ## Proofs: interpolation is linear in the values -/

/-- A function of lists of `n` values that is a weighted sum of them. -/
def Weighted (n : Nat) (g : List ℝ → ℝ) : Prop := ∃ c : Nat → ℝ, ∀ ys : List ℝ, ys.length = n → g ys = ∑ k ∈ Finset.range n, c k * ys.getD k 0

namespace Weighted
variable {n : Nat} {g h : List ℝ → ℝ}

theorem add (hg : Weighted n g) (hh : Weighted n h) : Weighted n fun ys => g ys + h ys := by
  obtain ⟨c, e⟩ := hg
  obtain ⟨d, e'⟩ := hh
  refine ⟨fun k => c k + d k, fun ys hy => ?_⟩
  show g ys + h ys = _
  rw [e ys hy, e' ys hy, ← Finset.sum_add_distrib]
  exact Finset.sum_congr rfl fun k _ => by ring

theorem mul (r : ℝ) (hg : Weighted n g) : Weighted n fun ys => r * g ys := by
  obtain ⟨c, e⟩ := hg
  refine ⟨fun k => r * c k, fun ys hy => ?_⟩
  show r * g ys = _
  rw [e ys hy, Finset.mul_sum]
  exact Finset.sum_congr rfl fun k _ => by ring

theorem congr (hg : Weighted n g) (e : ∀ ys : List ℝ, ys.length = n → h ys = g ys) : Weighted n h := by
  obtain ⟨c, e'⟩ := hg
  exact ⟨c, fun ys hy => (e ys hy).trans (e' ys hy)⟩

theorem entry (k : Nat) : Weighted n fun ys => ys.getD k 0 := by
  refine ⟨fun j => if j = k then 1 else 0, fun ys hy => ?_⟩
  simp only [ite_mul, one_mul, zero_mul, Finset.sum_ite_eq', Finset.mem_range]
  split
  · rfl
  · rw [List.getD_eq_default _ _ (by omega)]

end Weighted

theorem linear_weighs : Weighs .linear := by
  intro xs q
  let f (ys : List ℝ) (e : ℝ × Nat) : ℝ × ℝ := (e.1, ys.getD e.2 0)
  let idx := xs.zipIdx.mergeSort fun p r => decide (p.1 ≤ r.1)
  have hs : ∀ ys : List ℝ, ys.length = xs.length → sortPts (xs.zip ys) = idx.map (f ys) := by
    intro ys hy
    have e : xs.zip ys = xs.zipIdx.map (f ys) := by
      apply List.ext_getElem
      · simp [hy]
      · intro i h1 h2
        simp only [List.length_zip, hy, min_self] at h1
        simp [f, List.getD_eq_getElem?_getD, hy ▸ h1]
    rw [e]
    exact (List.map_mergeSort (r := fun p r : ℝ × Nat => decide (p.1 ≤ r.1)) (s := fun p r : ℝ × ℝ => decide (p.1 ≤ r.1)) (f := f ys) fun a _ b _ => rfl).symm
  let i := min (max (idx.countP fun p => decide (p.1 < q)) 1) (idx.length - 1)
  have h2 : ∀ j, Weighted xs.length fun ys => ((idx.map (f ys)).getD j (0, 0)).2 := by
    intro j
    by_cases hj : j < idx.length
    · exact (Weighted.entry idx[j].2).congr fun ys _ => by simp [List.getD_eq_getElem?_getD, hj, f]
    · exact (Weighted.mul 0 (Weighted.entry 0)).congr fun ys _ => by
        rw [List.getD_eq_default _ _ (by simpa using hj)]; simp
  have h1 : ∀ j (ys : List ℝ), ((idx.map (f ys)).getD j (0, 0)).1 = (idx.getD j (0, 0)).1 := by
    intro j ys
    by_cases hj : j < idx.length
    · simp [List.getD_eq_getElem?_getD, hj, f]
    · rw [List.getD_eq_default _ _ (by simpa using hj), List.getD_eq_default _ _ (by simpa using hj)]
  have key : Weighted xs.length fun ys => linInterp xs ys q := by
    refine ((((h2 i).add ((h2 (i - 1)).mul (-1))).mul ((q - (idx.getD (i - 1) (0, 0)).1) / ((idx.getD i (0, 0)).1 - (idx.getD (i - 1) (0, 0)).1))).add
      (h2 (i - 1))).congr fun ys hy => ?_
    have hc : (idx.map (f ys)).countP (fun p => decide (p.1 < q)) = idx.countP fun p => decide (p.1 < q) := by
      rw [List.countP_map]; rfl
    rw [linInterp_eq]
    simp only [hs ys hy, hc, List.length_map]
    show (((idx.map (f ys)).getD i (0, 0)).2 - ((idx.map (f ys)).getD (i - 1) (0, 0)).2) /
      (((idx.map (f ys)).getD i (0, 0)).1 - ((idx.map (f ys)).getD (i - 1) (0, 0)).1) * (q - ((idx.map (f ys)).getD (i - 1) (0, 0)).1) +
      ((idx.map (f ys)).getD (i - 1) (0, 0)).2 = _
    rw [h1, h1]
    ring
  exact key

/-! ## Proofs: the curves -/

section
variable {m : HV ℝ} {ns : List Name} {N : Nat}

theorem at2_values {p : List Name} {u v : Nd ℝ} {z : List ℝ} (h : Lift (valueRel m ns z) p u v) (hp : pathName p ∉ ns) : at2 v 0 = at2 u 0 := by
  obtain ⟨y, y', rfl, rfl, -, -, -, h4, -⟩ := h
  rw [h4 hp]

theorem curve_same {k : List Name} {h h' : Interp} {z : List ℝ} (hr : CurveRel (Ecm.below (valueRel m ns z) k) h h') (hp : pathName (k ++ [kBase]) ∉ ns) :
    h' = h := by
  obtain ⟨⟨y, y', e1, e2, -, -, -, h4, -⟩, h5, h6⟩ := hr
  have := h4 hp
  subst this
  obtain ⟨_, _, _⟩ := h
  obtain ⟨_, _, _⟩ := h'
  simp only at e1 e2 h5 h6
  rw [e1, e2, h5, h6]

theorem res_same {k : List Name} {r r' : Resistance} {z : List ℝ} (hr : ResRel (Ecm.below (valueRel m ns z) k) r r')
    (hp : pathName (k ++ [kBase]) ∉ ns) (ht : pathName (k ++ [kTdf]) ∉ ns) : resAt r' 0 = resAt r 0 := by
  obtain ⟨h1, h2, h3⟩ := hr
  have e1 := curve_same h1 hp
  have e3 : at2 r'.tdf 0 = at2 r.tdf 0 := by
    obtain ⟨y, y', g1, g2, -, -, -, h4, -⟩ := h3
    rw [g1, g2, h4 ht]
  funext s t
  cases t <;> simp only [resAt, e1, e3, h2]

/-- The value of a curve at a given SOC, as a function of the estimated values. -/
theorem curve_values {k : List Name} {h : Interp} {c : (Fin N → ℝ) → Interp}
    (hr : ∀ z, CurveRel (Ecm.below (valueRel m ns (List.ofFn z)) k) h (c z)) (he : Evaluable h)
    (hw : pathName (k ++ [kBase]) ∈ ns → Weighs h.style) (s : ℝ) : AffineFn fun z => curveAt (c z) 0 s := by
  by_cases hp : pathName (k ++ [kBase]) ∈ ns
  · have wd : ∀ z, (c z).width = h.width := by
      intro z
      obtain ⟨⟨y, y', e1, e2, h1, -⟩, -⟩ := hr z
      simp only [Interp.width, e1, e2, Arr2.toNd, h1, List.getD_cons_succ, List.getD_cons_zero]
    have ent : ∀ z, ∀ j < h.width, (c z).base.get [0, j] = (List.ofFn z).getD (firstOf m ns (pathName (k ++ [kBase])) + j) 0 := by
      intro z j hj
      obtain ⟨⟨y, y', e1, e2, -, -, -, -, h5⟩, -⟩ := hr z
      rw [e2]
      refine h5 hp j ?_
      rw [show y.ncol = h.width by simp only [Interp.width, e1, Arr2.toNd, List.getD_cons_succ, List.getD_cons_zero]]
      exact hj
    rcases he with h1 | ⟨-, h2⟩
    · refine (AffineFn.entry (firstOf m ns (pathName (k ++ [kBase])) + 0)).congr fun z => ?_
      simp only [curveAt, wd, h1, if_true, ite_self]
      exact ent z 0 (by omega)
    · by_cases h1 : h.width = 1
      · refine (AffineFn.entry (firstOf m ns (pathName (k ++ [kBase])) + 0)).congr fun z => ?_
        simp only [curveAt, wd, h1, if_true, ite_self]
        exact ent z 0 (by omega)
      · obtain ⟨w, e⟩ := hw hp h.pinsUsed s
        refine (AffineFn.sum (k := h.pinsUsed.length) (G := fun j z => w j * (List.ofFn z).getD (firstOf m ns (pathName (k ++ [kBase])) + j) 0)
          fun j => (AffineFn.entry _).mul _).congr fun z => ?_
        obtain ⟨-, g1, g2⟩ := hr z
        have hpin : (c z).pinsUsed = h.pinsUsed := by simp only [Interp.pinsUsed, g1, wd]
        simp only [curveAt, wd, if_neg h1, ite_self, g2, hpin]
        rw [e _ (by simp [Interp.row, wd, h2])]
        refine Finset.sum_congr rfl fun j hj => ?_
        have hj : j < h.width := by rw [← h2]; exact Finset.mem_range.1 hj
        have : ((c z).row 0).getD j 0 = (c z).base.get [0, j] := by
          simp [Interp.row, wd, List.getD_eq_getElem?_getD, hj]
        rw [this, ent z j hj]
  · exact (AffineFn.const (curveAt h 0 s)).congr fun z => by rw [curve_same (hr z) hp]

/-! ## Proofs: the voltage one step later -/

theorem hystNext_target {P : (Fin N → ℝ) → Par} {S : (Fin N → ℝ) → St} {prev new : In} {κ : ℝ} (hM : AffineFn fun z => (P z).hystMax (S z).soc)
    (hh : AffineFn fun z => (S z).hyst) (hκ : ∀ z, kappa prev (P z) = κ) : AffineFn fun z => hystNext beh prev new (S z) (P z) := by
  have hT : AffineFn fun z => hystTarget prev (S z).soc (P z) := by
    unfold hystTarget
    split
    · exact (hM.mul prev.current).congr fun z => mul_comm _ _
    · exact (hM.mul (prev.current / |prev.current|)).congr fun z => by rw [mul_div_assoc, mul_comm]
  have haft : ∀ {g h : (Fin N → ℝ) → ℝ} (κ d i0 α : ℝ), AffineFn g → AffineFn h → AffineFn fun z => hystAfter (g z) (h z) κ d i0 α :=
    fun κ d i0 α hg hh => (hg.mul _).add (hh.mul _)
  unfold hystNext
  simp only [hκ]
  split
  · exact haft _ _ _ _ hh hT
  · exact haft _ _ _ _ (haft _ _ _ _ hh hT) ((hT.mul (-1)).congr fun z => by ring)

theorem volt_parameters {P : (Fin N → ℝ) → Par} {p : Par} {prev new : In} {s : St} (hqt : ∀ z, (P z).qt = p.qt) (hce : ∀ z, (P z).ce = p.ce)
    (hc0 : ∀ z, (P z).c0 = p.c0) (hrcs : ∀ z, (P z).rcs = p.rcs) (hga : ∀ z, (P z).gamma = p.gamma)
    (hocv : ∀ q, AffineFn fun z => (P z).ocv q new.temp) (hr0 : ∀ q, AffineFn fun z => (P z).r0 q new.temp)
    (hM : ∀ q, AffineFn fun z => (P z).hystMax q) : AffineFn fun z => volt new (step beh prev new s (P z)) (P z) := by
  have heff : ∀ z, eff prev (P z) = eff prev p := fun z => by simp only [eff, hce]
  have hκ : ∀ z, kappa prev (P z) = kappa prev p := fun z => by simp only [kappa, heff, hga, hqt]
  have hh := hystNext_target (beh := beh) (new := new) (S := fun _ => s) (hM s.soc) (.const _) hκ
  refine (((((hocv (step beh prev new s p).soc).add ((hr0 (step beh prev new s p).soc).mul new.current)).add
    (.const (match (step beh prev new s p).q0, p.c0 with
      | some q, some c => q / c (step beh prev new s p).soc
      | _, _ => 0))).add
    (.const (List.zipWith (fun i (rc : Cell.RC) => i * rc.r (step beh prev new s p).soc new.temp) (step beh prev new s p).irc p.rcs).sum)).add hh).congr
    fun z => ?_
  have e1 : (step beh prev new s (P z)).soc = (step beh prev new s p).soc := by simp only [step, heff, hqt]
  have e2 : (step beh prev new s (P z)).q0 = (step beh prev new s p).q0 := rfl
  have e3 : (step beh prev new s (P z)).irc = (step beh prev new s p).irc := by simp only [step, hrcs]
  simp only [volt, e1, e2, e3, hc0, hrcs]
  rfl

end

section
variable {w : DegradationWrapper}

theorem health_values (hc : TracksHealth w beh x measured a) (z : Fin w.nAsoh → ℝ) :
    ∃ m b, w.asoh.makeCopy (.d1 (List.ofFn z)) (some w.names) = .ok m ∧ readASOH x m = .ok b ∧
      ASOHRel (valueRel w.asoh w.names (List.ofFn z)) a b := by
  have htot : (List.ofFn z).length = totalSize w.asoh w.names := by
    obtain ⟨A0, hA0, hA0n⟩ := hc.nAsoh_eq
    rw [width_eq hc.asoh.wf hc.asoh.unbatched (fun n hn => updatable_subset (hc.names_updatable n hn)) hA0, hA0n, List.length_ofFn]
  obtain ⟨m, h1, h2⟩ := copy_values hc.asoh.wf hc.asoh.unbatched hc.names_distinct hc.names_updatable htot
  obtain ⟨b, h3, h4⟩ := readASOH_alike h2 hc.asoh.read
  exact ⟨m, b, h1, h3, h4⟩

theorem par_others {m : HV ℝ} {ns : List Name} {z : List ℝ} {b : ASOH} (h3 : ASOHRel (valueRel m ns z) a b)
    (only : ∀ n ∈ ns, n ∈ [[kOcv, kOcvRef, kBase], [kOcv, kOcvEnt, kBase], [kR0, kBase], [kH0, kBase]].map pathName) :
    (parAt b 0).qt = (parAt a 0).qt ∧ (parAt b 0).ce = (parAt a 0).ce ∧ (parAt b 0).c0 = (parAt a 0).c0 ∧ (parAt b 0).rcs = (parAt a 0).rcs ∧
      (parAt b 0).gamma = (parAt a 0).gamma ∧ at2 b.ocv.refTemp 0 = at2 a.ocv.refTemp 0 ∧ at2 b.r0.tdf 0 = at2 a.r0.tdf 0 := by
  have other : ∀ {p : List Name}, pathName p ∉ [[kOcv, kOcvRef, kBase], [kOcv, kOcvEnt, kBase], [kR0, kBase], [kH0, kBase]].map pathName →
    pathName p ∉ ns := fun h hn => h (only _ hn)
  have rcName : ∀ (j : Nat) (q : List Name), q ≠ [] → pathName (kRcs :: Py.natStr j :: q) ∉
      [[kOcv, kOcvRef, kBase], [kOcv, kOcvEnt, kBase], [kR0, kBase], [kH0, kBase]].map pathName := by
    intro j q hq
    cases q with
    | nil => exact absurd rfl hq
    | cons q qs =>
      have e : ∃ r, pathName (kRcs :: Py.natStr j :: q :: qs) = kRcs ++ r := ⟨_, rfl⟩
      obtain ⟨r, e⟩ := e
      have e2 : kRcs = ['r', 'c'] ++ kRcs.drop 2 := by decide
      rw [e, e2]
      intro hmem
      obtain ⟨l, hl, h⟩ := List.mem_map.1 hmem
      have h' := congrArg (List.take 2) h
      rw [List.append_assoc, List.take_append_of_le_length (by decide)] at h'
      clear h
      revert h'
      revert l
      decide
  refine ⟨at2_values h3.qt (other (by decide)), at2_values h3.ce (other (by decide)), ?_, ?_, at2_values h3.gamma (other (by decide)),
    at2_values h3.refTemp (other (by decide)), ?_⟩
  · show b.c0.map _ = a.c0.map _
    rcases h3.c0 with ⟨e1, e2⟩ | ⟨c, c', e1, e2, e3⟩
    · rw [e1, e2]
    · rw [e1, e2, curve_same e3 (other (by decide))]
  · show b.rcs.map _ = a.rcs.map _
    refine List.ext_getElem? fun j => ?_
    rw [List.getElem?_map, List.getElem?_map]
    by_cases hj : j < a.rcs.length
    · have hj' : j < b.rcs.length := by rw [h3.rcs.1]; exact hj
      have hr := h3.rcs.2 j _ _ (List.getElem?_eq_getElem hj) (List.getElem?_eq_getElem hj')
      rw [List.getElem?_eq_getElem hj, List.getElem?_eq_getElem hj', Option.map_some, Option.map_some,
        res_same (k := [kRcs, Py.natStr j, kR]) hr.1 (other (rcName j _ (by simp))) (other (rcName j _ (by simp))),
        curve_same (k := [kRcs, Py.natStr j, kC]) hr.2 (other (rcName j _ (by simp)))]
    · have := h3.rcs.1
      rw [List.getElem?_eq_none (by omega), List.getElem?_eq_none (by omega)]
  · obtain ⟨y, y', g1, g2, -, -, -, h4, -⟩ := h3.r0.2.2
    rw [g1, g2, h4 (other (p := [kR0, kTdf]) (by decide))]

theorem volt_values (hc : TracksHealth w beh x measured a) (hl : LinearIn w.names a) (he : Estimable w.names measured series a) (prev new : In)
    (s : St) (ht : new.temp.isSome → measured) : AffineFn fun z : Fin w.nAsoh → ℝ => voltWith w.asoh w.names x beh prev new s z 0 := by
  choose m b h1 h2 h3 using health_values hc
  have hv : ∀ z : Fin w.nAsoh → ℝ, voltWith w.asoh w.names x beh prev new s z 0 = volt new (step beh prev new s (parAt (b z) 0)) (parAt (b z) 0) := by
    intro z
    have hex : ∃ p, CircuitWith w.asoh w.names x (List.ofFn z) p := ⟨_, m z, b z, h1 z, h2 z, rfl⟩
    have := circuitWith_unique hex.choose_spec ⟨m z, b z, h1 z, h2 z, rfl⟩
    simp only [voltWith, dif_pos hex, this]
  choose o1 o2 o3 o4 o5 o6 o7 using fun z => par_others (h3 z) hl.only
  refine AffineFn.congr (volt_parameters (beh := beh) (P := fun z => parAt (b z) 0) (p := parAt a 0) (prev := prev) (new := new) (s := s)
    o1 o2 o3 o4 o5 ?_ ?_ ?_) hv
  · intro q
    have hr := curve_values (fun z => (h3 z).ref) he.ocv hl.ref q
    cases hT : new.temp with
    | none => exact hr
    | some t =>
      have hm : measured = true := ht (by rw [hT]; rfl)
      have hn := curve_values (fun z => (h3 z).ent) (he.ent hm) hl.ent q
      refine (hr.add (hn.mul (t - at2 a.ocv.refTemp 0))).congr fun z => ?_
      show curveAt (b z).ocv.ref 0 q + (t - at2 (b z).ocv.refTemp 0) * curveAt (b z).ocv.ent 0 q = _
      rw [o6]
  · intro q
    have hr := curve_values (fun z => (h3 z).r0.1) he.r0 hl.r0 q
    cases hT : new.temp with
    | none => exact hr
    | some t =>
      refine (hr.mul (Real.exp (-at2 a.r0.tdf 0 * (t - a.r0.refTemp)))).congr fun z => ?_
      show curveAt (b z).r0.interp 0 q * Real.exp (-at2 (b z).r0.tdf 0 * (t - (b z).r0.refTemp)) = _
      rw [o7, (h3 z).r0.2.1, mul_comm]
  · exact fun q => curve_values (fun z => (h3 z).hyst) he.hyst hl.hyst q

theorem volt_rest (hc : TracksHealth w beh x measured a) (honly : ∀ n ∈ w.names, n = pathName [kR0, kBase]) (prev new : In) (hrest : new.current = 0)
    (s : St) (z : Fin w.nAsoh → ℝ) : voltWith w.asoh w.names x beh prev new s z = fun _ => volt new (step beh prev new s (parAt a 0)) (parAt a 0) := by
  obtain ⟨m, b, h1, h2, h3⟩ := health_values hc z
  have hex : ∃ p, CircuitWith w.asoh w.names x (List.ofFn z) p := ⟨_, m, b, h1, h2, rfl⟩
  have e := circuitWith_unique hex.choose_spec ⟨m, b, h1, h2, rfl⟩
  obtain ⟨o1, o2, o3, o4, o5, o6, o7⟩ := par_others h3 fun n hn => by rw [honly n hn]; decide
  have no : ∀ {p : List Name}, pathName p ≠ pathName [kR0, kBase] → pathName p ∉ w.names := fun h hn => h (honly _ hn)
  have e1 := curve_same h3.ref (no (by decide))
  have e2 := curve_same h3.ent (no (by decide))
  have e3 := curve_same h3.hyst (no (by decide))
  have hocv : (parAt b 0).ocv = (parAt a 0).ocv := by
    funext q t
    cases t <;> simp only [parAt, ocvAt, e1, e2, o6]
  have hh : (parAt b 0).hystMax = (parAt a 0).hystMax := by simp only [parAt, e3]
  have hs : step beh prev new s (parAt b 0) = step beh prev new s (parAt a 0) := by
    simp only [step, hystNext, hystTarget, kappa, eff, o1, o2, o4, o5, hh]
  funext j
  simp only [voltWith, dif_pos hex, e, hs]
  simp only [volt, hrest, zero_mul, hocv, o3, o4]

/-! ## C131 -/

/-- C131, linear interpolation between any pinpoints is a weighted sum of the values. -/
theorem C131_linear_weighs : Weighs .linear := linear_weighs

/-- C131, the voltage: one step after any state, it is an affine function of the values of the estimated parameters – every list of values stands for
exactly one circuit, `voltWith` is its voltage, and the slopes are the same everywhere. -/
theorem C131_voltage_affine (hc : TracksHealth w beh x measured a) (hl : LinearIn w.names a) (he : Estimable w.names measured series a) (prev new : In)
    (s : St) (ht : new.temp.isSome → measured) (z : Fin w.nAsoh → ℝ) :
    (∃ p, CircuitWith w.asoh w.names x (List.ofFn z) p) ∧
    (∀ p, CircuitWith w.asoh w.names x (List.ofFn z) p → voltWith w.asoh w.names x beh prev new s z 0 = volt new (step beh prev new s p) p) ∧
    voltWith w.asoh w.names x beh prev new s z =
      slopes (voltWith w.asoh w.names x beh prev new s) *ᵥ z + voltWith w.asoh w.names x beh prev new s (0 : Fin w.nAsoh → ℝ) := by
  obtain ⟨m, b, h1, h2, -⟩ := health_values hc z
  have hex : ∃ p, CircuitWith w.asoh w.names x (List.ofFn z) p := ⟨_, m, b, h1, h2, rfl⟩
  refine ⟨hex, fun p hp => ?_, slopes_affine (fun i => ?_) z⟩
  · simp only [voltWith, dif_pos hex, circuitWith_unique hex.choose_spec hp]
  · obtain rfl : i = 0 := Subsingleton.elim _ _
    exact volt_values hc hl he prev new s ht

theorem ofVec_temp (measured : Bool) (v : List ℝ) : (In.ofVec measured v).temp.isSome → measured := by
  cases measured <;> simp [In.ofVec]

/-- C131, one step of the filter of the parameters, in the coordinates of the model: exactly one step of recursive least squares, with the slopes of
the voltage at the transient state the wrapper holds. -/
theorem C131_step (hc : TracksHealth w beh x measured a) (hl : LinearIn w.names a) (he : DualEstimable w.names measured series a)
    {f : Ukf (Container ℝ × Container ℝ)} (hf : f.model = w.plain.toWrapper) {s : St} (hs : HoldsState f.mem.1 series a.rcs.length s)
    {μ : Fin w.nAsoh → ℝ} {P Q : Matrix (Fin w.nAsoh) (Fin w.nAsoh) ℝ} {R : Matrix (Fin 1) (Fin 1) ℝ}
    (h : f.Holds w.nAsoh 1 μ P Q R) (hP : P.PosDef) (hQ : Q.PosDef) (hR : R.PosDef) (svd : Mat → Vec × Mat)
    (new meas : Dist) {u u' : Fin (2 + (if measured then 1 else 0)) → ℝ} (hu : f.controls.mean = ⟨_, u⟩) (hu' : new.mean = ⟨_, u'⟩)
    {z : Fin 1 → ℝ} (hz : meas.mean = ⟨1, z⟩) (hr : Reaches w.names (In.ofVec measured (List.ofFn u)) series a.rcs.length)
    (hmoves : beh = .linear → (In.ofVec measured (List.ofFn u')).time ≠ (In.ofVec measured (List.ofFn u)).time) :
    let r := regressStep (voltWith w.asoh w.names x beh (In.ofVec measured (List.ofFn u)) (In.ofVec measured (List.ofFn u')) s) Q R ⟨μ, P⟩ z
    f.step svd new meas = .ok ({ f with hidden := r.1.gaussian, mem := (f.mem.1, w.inputs.makeCopy (.d1 (List.ofFn u))), controls := new },
      (r.1.gaussian, r.2.gaussian)) ∧ r.1.cov.PosDef := by
  let V : (Fin w.nAsoh → ℝ) → Fin 1 → ℝ := voltWith w.asoh w.names x beh (In.ofVec measured (List.ofFn u)) (In.ofVec measured (List.ofFn u')) s
  have key := h.step_affine 1 (slopes V) 0 (V 0) hP hQ hR le_rfl svd new meas z hz (f.mem.1, w.inputs.makeCopy (.d1 (List.ofFn u)))
    (fun K hK X => ?_) (fun K hK X => ?_)
  · have e1 : (1 : Matrix (Fin w.nAsoh) (Fin w.nAsoh) ℝ) * P * (1 : Matrix (Fin w.nAsoh) (Fin w.nAsoh) ℝ)ᵀ + Q = P + Q := by simp
    have e2 : (1 : Matrix (Fin w.nAsoh) (Fin w.nAsoh) ℝ) *ᵥ μ + 0 = μ := by simp
    simp only [e1, e2] at key
    exact key
  · obtain ⟨k1, -, k3, -⟩ := health_step hc hs hK X (v := ⟨_, u⟩) (v' := ⟨_, u'⟩) rfl rfl hmoves
    obtain ⟨⟨r, hr'⟩, -⟩ := k3 he
    obtain rfl := k1 r hr'
    rw [hf, hu, hu']
    show (do
      let r ← w.plain.update f.mem.1 ⟨K, _, X⟩ ⟨_, u⟩ ⟨_, u'⟩
      return (r.1, (f.mem.1, r.2)) : Except Err (Mat × Container ℝ × Container ℝ)) = _
    rw [hr']
    simp only [one_mulVec, add_zero]
    rfl
  · obtain ⟨-, k2, k3, -⟩ := health_step hc hs hK X (v := ⟨_, u⟩) (v' := ⟨_, u'⟩) rfl rfl hmoves
    obtain ⟨-, H, hH⟩ := k3 he
    obtain ⟨y, y1, y2, -⟩ := k2 H hH
    rw [hf, hu']
    show w.plain.predict f.mem.1 (w.inputs.makeCopy (.d1 (List.ofFn u))) ⟨K, _, X⟩ ⟨_, u'⟩ = _
    rw [hH, y2 hr]
    refine congrArg (fun Z => Except.ok (Mat.mk K 1 Z)) (funext fun i => ?_)
    obtain ⟨p, p1, p2⟩ := y1 i
    obtain ⟨-, q1, q2⟩ := C131_voltage_affine hc hl he.1 (In.ofVec measured (List.ofFn u)) (In.ofVec measured (List.ofFn u')) s (ofVec_temp _ _) (X i)
    rw [← q2]
    funext j
    obtain rfl : j = 0 := Subsingleton.elim _ _
    rw [q1 p p1]
    exact p2

end

/-- C131, rest: a filter of R0 alone learns nothing while no current flows – the estimate stays as it is, its covariance grows by the process noise. -/
theorem C131_rest {w : DegradationWrapper} (hc : TracksHealth w beh x measured a) (honly : ∀ n ∈ w.names, n = pathName [kR0, kBase]) (prev new : In)
    (hrest : new.current = 0) (s : St) (Q : Matrix (Fin w.nAsoh) (Fin w.nAsoh) ℝ) (R : Matrix (Fin 1) (Fin 1) ℝ) (b : Belief w.nAsoh) (z : Fin 1 → ℝ) :
    (regressStep (voltWith w.asoh w.names x beh prev new s) Q R b z).1 = ⟨b.mean, b.cov + Q⟩ := by
  have h : slopes (voltWith w.asoh w.names x beh prev new s : (Fin w.nAsoh → ℝ) → Fin 1 → ℝ) = 0 := by
    funext i j
    simp only [slopes, volt_rest hc honly prev new hrest s]
    exact sub_self _
  simp only [regressStep, kalmanCorrect, kalmanGain, h]
  simp

/-- C131, dual estimation: in every step that returns, the belief about the parameters is the one of recursive least squares at the transient state
estimated before.  (The wrapper of the parameters works in the coordinates of the model; see C130 for other units.) -/
theorem C131_dual_step {E E' : Dual} (hc : TracksHealth E.asohW beh x measured a) (hl : LinearIn E.asohW.names a)
    (he : DualEstimable E.asohW.names measured series a) (hid : E.asohW.plain = E.asohW) (hmodel : E.asoh.model = E.asohW.toWrapper)
    (hbt : Spec.SameLayout E.base.transients (circuitState series a.rcs.length))
    {nT : Nat} (hnT : nT = 1 + (if series then 1 else 0) + a.rcs.length + 1) {t : Fin nT → ℝ} {C : Mat}
    (ht : E.trans.hidden.convert E.cellW.hiddenConv = .ok ⟨⟨nT, t⟩, C⟩)
    {μ : Fin E.asohW.nAsoh → ℝ} {P Q : Matrix (Fin E.asohW.nAsoh) (Fin E.asohW.nAsoh) ℝ} {R : Matrix (Fin 1) (Fin 1) ℝ}
    (h : E.asoh.Holds E.asohW.nAsoh 1 μ P Q R) (hP : P.PosDef) (hQ : Q.PosDef) (hR : R.PosDef) (svd : Mat → Vec × Mat)
    {inputs meas : Container ℝ} {u u' : Fin (2 + (if measured then 1 else 0)) → ℝ} {z : Fin 1 → ℝ} {V Y : Arr2 ℝ}
    (hu : E.asoh.controls.mean = ⟨_, u⟩) (hV : inputs.toNumpy = .ok V) (hu' : V.flat = ⟨_, u'⟩) (hY : meas.toNumpy = .ok Y) (hz : Y.flat = ⟨1, z⟩)
    (hr : Reaches E.asohW.names (In.ofVec measured (List.ofFn u)) series a.rcs.length)
    (hmoves : beh = .linear → (In.ofVec measured (List.ofFn u')).time ≠ (In.ofVec measured (List.ofFn u)).time)
    {est out : Gaussian} (hstep : E.step svd inputs meas = .ok (E', est, out)) :
    let b := (regressStep (voltWith E.asohW.asoh E.asohW.names x beh (In.ofVec measured (List.ofFn u)) (In.ofVec measured (List.ofFn u'))
      (St.ofVec series a.rcs.length (List.ofFn t))) Q R ⟨μ, P⟩ z).1
    E'.asoh.hidden = b.gaussian ∧ b.cov.PosDef ∧ E'.asoh.Holds E.asohW.nAsoh 1 b.mean b.cov Q R ∧ E'.asoh.controls.mean = ⟨_, u'⟩ ∧
      E'.asoh.model = E.asoh.model ∧ E'.asohW = E.asohW ∧ E'.cellW = E.cellW ∧ E'.base = E.base := by
  intro b
  have hcv : E.asohW.controlConv = .identity := by rw [← hid]; rfl
  have ho : E.asohW.outputConv = .identity := by rw [← hid]; rfl
  obtain ⟨du, dy, pT, pA, uT, yT, uA, yA, rt, ra, t', b', oA, h1, h2, h3, -, -, -, h7, h8, h9, -, -, -, -, -, rfl⟩ := Dual.step_ok hstep
  simp only [convertVals, hV, hY, ok_bind, pure_eq_ok, Except.ok.injEq] at h1 h2
  subst h1 h2
  rw [hcv] at h7
  rw [ho] at h8
  have e4 : uA = .delta ⟨V.flat⟩ := (Except.ok.inj h7).symm
  have e5 : yA = .delta ⟨Y.flat⟩ := (Except.ok.inj h8).symm
  subst e4 e5
  have hpT : pT = E.base.transients.makeCopy (.d1 (List.ofFn t)) := by
    simp only [Dual.getEstimatedState, Dual.converted, bind_eq_ok_iff, pure_eq_ok, Except.ok.injEq, Prod.mk.injEq] at h3
    obtain ⟨_, ⟨t0, k1, a0, -, rfl⟩, _, -, rfl, -⟩ := h3
    cases ht.symm.trans k1
    rfl
  subst hpT
  obtain ⟨k1, k2⟩ := C131_step (f := { E.asoh with mem := (E.base.transients.makeCopy (.d1 (List.ofFn t)), E.asoh.mem.2) }) hc hl he
    (by rw [hid]; exact hmodel) (holds_copy hbt (by rw [List.length_ofFn, hnT]))
    ⟨h.nHidden, h.nOut, h.n_pos, h.hidden, h.covW, h.covV, h.augLen, h.alpha_pos, h.alpha_le, h.beta_nonneg, h.spread⟩ hP hQ hR svd
    (.delta ⟨V.flat⟩) (.delta ⟨Y.flat⟩) hu hu' hz hr hmoves
  cases h9.symm.trans k1
  exact ⟨rfl, k2, ⟨h.nHidden, h.nOut, h.n_pos, rfl, h.covW, h.covV, h.augLen, h.alpha_pos, h.alpha_le, h.beta_nonneg, h.spread⟩, hu', rfl, rfl, rfl, rfl⟩

theorem Dual.Healthy.transients {e : Dual} {nT nA o nu : Nat} {UT UA IT IA} (h : e.Healthy nT nA o nu UT UA IT IA) :
    ∃ (t : Fin nT → ℝ) (C : Mat), e.trans.hidden.convert e.cellW.hiddenConv = .ok ⟨⟨nT, t⟩, C⟩ := by
  obtain ⟨μT, PT, _, _, hT, _⟩ := h.filterT
  obtain ⟨dT, bT, _, cT⟩ := h.hiddenT
  exact ⟨_, _, by rw [hT.hidden]; exact cT.convert hT.n_pos μT PT⟩

/-- C131, histories: a dual estimator (with constant behaviour) that can run at all returns, over every history of inputs and measured voltages, the
beliefs of recursive least squares, each based on the transient estimate returned before. -/
theorem C131_dual_history {aw : DegradationWrapper} (hc : TracksHealth aw .constant x measured a) (hl : LinearIn aw.names a)
    (he : DualEstimable aw.names measured series a) (hr : ∀ prev, Reaches aw.names prev series a.rcs.length) (hid : aw.plain = aw)
    {nT : Nat} (hnT : nT = 1 + (if series then 1 else 0) + a.rcs.length + 1) {Q : Matrix (Fin aw.nAsoh) (Fin aw.nAsoh) ℝ} {R : Matrix (Fin 1) (Fin 1) ℝ}
    (hQ : Q.PosDef) (hR : R.PosDef) {UT UA IT IA} (svd : Mat → Vec × Mat) (hist : List (Container ℝ × Container ℝ)) :
    ∀ (hs : List ((Fin (2 + (if measured then 1 else 0)) → ℝ) × (Fin 1 → ℝ))) (E : Dual) (u : Fin (2 + (if measured then 1 else 0)) → ℝ)
      (t : Fin nT → ℝ) (C : Mat) (μ : Fin aw.nAsoh → ℝ) (P : Matrix (Fin aw.nAsoh) (Fin aw.nAsoh) ℝ),
    E.Healthy nT aw.nAsoh 1 (2 + (if measured then 1 else 0)) UT UA IT IA → E.asohW = aw → E.asoh.model = aw.toWrapper →
    Spec.SameLayout E.base.transients (circuitState series a.rcs.length) → E.asoh.Holds aw.nAsoh 1 μ P Q R → P.PosDef →
    E.trans.hidden.convert E.cellW.hiddenConv = .ok ⟨⟨nT, t⟩, C⟩ → E.asoh.controls.mean = ⟨_, u⟩ →
    List.Forall₂ (fun m h => (∃ v, m.1.toNumpy = .ok v ∧ v.flat = ⟨_, h.1⟩) ∧ ∃ y, m.2.toNumpy = .ok y ∧ y.flat = ⟨1, h.2⟩) hist hs →
    ∃ fin outs, E.run svd hist = .ok (fin, outs) ∧
      Regressed (fun prev new s => voltWith aw.asoh aw.names x .constant prev new s) Q R series a.rcs.length (In.ofVec measured (List.ofFn u)) t
        ⟨μ, P⟩ (hs.map fun h => (In.ofVec measured (List.ofFn h.1), h.2)) outs := by
  induction hist with
  | nil =>
    intro hs E u t C μ P _ _ _ _ _ _ _ _ hh
    cases hh
    exact ⟨E, [], rfl, trivial⟩
  | cons m hist ih =>
    intro hs E u t C μ P hH haw hmodel hbt hA hP ht hu hh
    cases hh with
    | cons hm hrest =>
    rename_i h hs
    obtain ⟨⟨v, v1, v2⟩, y, y1, y2⟩ := hm
    obtain ⟨E', est, out, s1, s2, -, -⟩ := hH.step le_rfl svd m.1 m.2 ⟨v, v1, by rw [v2]⟩ ⟨y, y1, by rw [y2]⟩
    subst haw
    obtain ⟨k1, k2, k3, k4, k5, k6, k7, k8⟩ := C131_dual_step hc hl he hid hmodel hbt hnT ht hA hP hQ hR svd hu v1 v2 y1 y2 (hr _) nofun s1
    obtain ⟨t', C', ht'⟩ := s2.transients
    obtain ⟨fin, outs, r1, r2⟩ := ih hs E' h.1 t' C' _ _ s2 k6 (k5.trans hmodel) (by rw [k8]; exact hbt) k3 k2 ht' k4 hrest
    refine ⟨fin, (est, out) :: outs, ?_, ?_⟩
    · obtain ⟨m1, m2⟩ := m
      simp only [Dual.run, s1, ok_bind, r1, pure_eq_ok]
    · obtain ⟨gt, ga, c1, c2, c3, -, -, -, c4, -⟩ := C58_returned_estimate_partial svd E E' m.1 m.2 est out s1
      cases ht'.symm.trans c1
      rw [k1, k6] at c2
      have hconv : E.asohW.hiddenConv = .identity := by rw [← hid]; rfl
      rw [hconv] at c2
      cases c2.symm.trans (Gaussian.convert_ok hA.n_pos rfl rfl)
      refine ⟨t', c3, fun i j => ?_, r2⟩
      rw [c4 i j i.2 j.2]
      simp [Mat.at']

/-- C131, from construction: the dual estimator that `initialize_ukf_from_wrappers` builds of a circuit and values of the open-circuit voltage, of R0
or of the maximum hysteresis (all that are updatable) starts from the given values and covariances and, unless a weight is negative, returns
over every history the beliefs of recursive least squares.  The transient states may be estimated in any units. -/
theorem C131_dual_runs {cw : CellWrapper} {aw : DegradationWrapper} (hT : TracksCircuit cw .constant x measured series a.rcs.length)
    (hA : TracksHealth aw .constant x measured a) (hall : aw.names = aw.asoh.updatableNames) (he : DualEstimable aw.names measured series a)
    (hl : LinearIn aw.names a) (hr : ∀ prev, Reaches aw.names prev series a.rcs.length) (hid : aw.plain = aw)
    (htr : aw.transients = cw.transients) (hin : aw.inputs = cw.inputs)
    (ht : cw.transients.Single) (hi : cw.inputs.Single) (hoT : cw.nOut = 1) (hoA : aw.nOut = 1)
    {nT nA : Nat} (hnT : cw.nTransients = nT) (hnA' : aw.nAsoh = nA) (hnA : 1 ≤ nA)
    {dT bT : Fin nT → ℝ} {eT cT : Fin 1 → ℝ}
    (hdT : ∀ i, dT i ≠ 0) (heT : ∀ i, eT i ≠ 0) (hhT : cw.hiddenConv.Rescales nT dT bT) (houtT : cw.outputConv.Rescales 1 eT cT)
    (hcT : ∀ v : Vec, v.n = 2 + (if measured then 1 else 0) → ∃ v', cw.controlConv.invSamples1 v = .ok v' ∧ cw.controlConv.samples1 v' = .ok v)
    {PT QT : Matrix (Fin nT) (Fin nT) ℝ} {PA QA : Matrix (Fin nA) (Fin nA) ℝ}
    {R : Matrix (Fin 1) (Fin 1) ℝ} (hPT : PT.PosDef) (hQT : QT.PosDef) (hPA : PA.PosDef) (hQA : QA.PosDef) (hR : R.PosDef)
    (tT tA : Tuning) (haT : 1 / 1000 ≤ tT.alpha ∧ tT.alpha ≤ 1) (haA : 1 / 1000 ≤ tA.alpha ∧ tA.alpha ≤ 1) (hbT : 0 ≤ tT.beta)
    (hbA : 0 ≤ tA.beta) (hkT : ∀ k, tT.kappa = some k → -((2 * nT + 1 : Nat) : ℝ) < k)
    (hkA : ∀ k, tA.kappa = some k → -((2 * nA + 1 : Nat) : ℝ) < k) :
    ∃ (E : Dual) (u : Fin (2 + (if measured then 1 else 0)) → ℝ) (t : Fin nT → ℝ) (μ : Fin nA → ℝ) (U T A : Arr2 ℝ),
      Dual.fromWrappers cw aw ⟨nT, nT, PT⟩ ⟨nA, nA, PA⟩ none (some ⟨nT, nT, QT⟩) (some ⟨nA, nA, QA⟩) (some ⟨1, 1, R⟩) tT tA = .ok E ∧
      (cw.inputs.toNumpy = .ok U ∧ U.flat = ⟨_, u⟩) ∧ (cw.transients.toNumpy = .ok T ∧ T.flat = ⟨nT, t⟩) ∧
      (aw.asoh.getParameters (some aw.names) = .ok A ∧ A.flat = ⟨nA, μ⟩) ∧
      ((∀ i, 0 ≤ E.trans.covWeights.get i) → (∀ i, 0 ≤ E.asoh.covWeights.get i) →
        ∀ (svd : Mat → Vec × Mat) (hist : List (Container ℝ × Container ℝ)) (hs : List ((Fin (2 + (if measured then 1 else 0)) → ℝ) × (Fin 1 → ℝ))),
        List.Forall₂ (fun m h => (∃ v, m.1.toNumpy = .ok v ∧ v.flat = ⟨_, h.1⟩) ∧ ∃ y, m.2.toNumpy = .ok y ∧ y.flat = ⟨1, h.2⟩) hist hs →
        ∃ fin outs, E.run svd hist = .ok (fin, outs) ∧
          Regressed (fun prev new s => voltWith aw.asoh aw.names x .constant prev new s) QA R series a.rcs.length (In.ofVec measured (List.ofFn u)) t
            ⟨μ, PA⟩ (hs.map fun h => (In.ofVec measured (List.ofFn h.1), h.2)) outs) := by
  have i1 : aw.hiddenConv = .identity := by rw [← hid]; rfl
  have i2 : aw.controlConv = .identity := by rw [← hid]; rfl
  have i3 : aw.outputConv = .identity := by rw [← hid]; rfl
  obtain ⟨E, hE, h⟩ := dual_healthy hT hA hall he hr htr hin ht hi hoT hoA hnT hnA' hnA hdT (fun _ => one_ne_zero) heT (fun _ => one_ne_zero) hhT
    (by rw [i1]; exact identity_rescales nA) houtT (by rw [i3]; exact identity_rescales 1) hcT (fun v _ => by rw [i2]; exact ⟨v, rfl, rfl⟩)
    hPT hQT hPA hQA hR tT tA haT haA hbT hbA hkT hkA
  subst hnT hnA'
  obtain ⟨du, T, A, t, g, gT, uT, qT, rT, gA, uA, qA, rA, p1, p2, p3, p4, p5, p6, p7, p8, p9, p10, p11, p12, p13, p14, p15, p16, p17, p18⟩ :=
    Dual.fromWrappers_parts hE
  obtain ⟨nT1, tv, k1, rfl⟩ := Gaussian.make_inv p4
  obtain ⟨-, μ, k2, rfl⟩ := Gaussian.make_inv p5
  obtain ⟨U, hU, hUn, -⟩ := input_back hT.inputs hi
  obtain ⟨u, hu⟩ := Vec.eta_of hUn
  have hdu : du = .delta ⟨U.flat⟩ := by
    simp only [convertVals, hU, ok_bind, pure_eq_ok, Except.ok.injEq] at p1
    exact p1.symm
  subst hdu
  refine ⟨E, u, tv, μ, U, T, A, hE, ⟨hU, hu⟩, ⟨p2, k1⟩, ⟨p3, k2⟩, fun hwT hwA svd hist hs hh => ?_⟩
  obtain ⟨UT, UA, IT, IA, hH⟩ := h hwT hwA
  rw [i1] at p10 p12
  rw [i2] at p11
  rw [i3] at p13
  cases p10.symm.trans (Gaussian.unconvert_ok hnA rfl rfl)
  cases (Except.ok.inj p11 : _ = uA)
  cases (Except.ok.inj p12 : _ = qA)
  cases (Except.ok.inj p13 : _ = rA)
  obtain ⟨q1, -, -, q4, -⟩ := Ukf.C53_constructed _ _ _ _ _ _ _ _ _ p15
  obtain ⟨-, o2, o3, -, -⟩ := Online.make_ok p18
  obtain ⟨-, -, r3, -⟩ := Ukf.C53_constructed _ _ _ _ _ _ _ _ _ p14
  have hhold := Ukf.holds_of_make _ _ _ _ _ _ hnA p15
  obtain ⟨tm, rfl⟩ := rescale_surj (r := bT) hdT tv
  obtain ⟨P', -, rfl⟩ := rescaleCov_surj hdT hPT
  cases p6.symm.trans (Gaussian.unconvert_ok nT1 (hhT.invSamples1 tm) (hhT.invCovariance P' _))
  obtain ⟨C, hC⟩ : ∃ C, E.trans.hidden.convert E.cellW.hiddenConv = .ok ⟨⟨_, fun i => dT i * tm i + bT i⟩, C⟩ :=
    ⟨_, by rw [r3, p16]; exact hhT.convert nT1 tm P'⟩
  exact C131_dual_history hA hl he hr hid (tracks_width hT) hQA hR svd hist hs E u _ C μ PA hH p17 q1 (by rw [o3]; exact hT.transients) hhold hPA hC
    (by rw [q4]; exact hu) hh

/-! ## The concrete circuit -/

/-- Its open-circuit voltage and R0 are such parameters. -/
theorem Demo.health_linear (beh : Behavior) (op : Operator) : LinearIn (Demo.trackingHealth beh op).names Demo.arrays :=
  ⟨by show ∀ n ∈ [Demo.nOcv, Demo.nR0], n ∈ _; decide, fun _ => linear_weighs, fun _ => linear_weighs, fun _ => linear_weighs, fun _ => linear_weighs,
    Demo.arrays_divisors⟩

-- Its voltage with R0 = 0.05 Ω and an open-circuit voltage between `v` and `w` volts, for all voltages and states.
example (beh : Behavior) (prev : In) (t i T : ℝ) (s : St) (v w : ℝ) :
    let V := voltWith (Demo.trackingHealth beh .identity).asoh (Demo.trackingHealth beh .identity).names Demo.fixed beh prev ⟨t, i, some T⟩ s (n := 3)
    V ![v, w, 0.05] = slopes V *ᵥ ![v, w, 0.05] + V 0 :=
  (C131_voltage_affine (Demo.trackingHealth_circuit beh .identity) (Demo.health_linear beh .identity) (Demo.trackingHealth_estimable beh .identity).1
    prev ⟨t, i, some T⟩ s (fun _ => rfl) ![v, w, 0.05]).2.2

/-- A filter of its open-circuit voltage and R0. -/
noncomputable def Demo.regressor (beh : Behavior) : Ukf (Container ℝ × Container ℝ) :=
  ⟨(Demo.trackingHealth beh .identity).toWrapper, (Demo.hvState, Demo.hvInput), ⟨⟨3, ![3, 4, 0.05]⟩, ⟨3, 3, 1⟩⟩, .delta ⟨⟨3, ![0, 1, 30]⟩⟩, 7, 1 / 2, 2, -1,
    ⟨3, 3, 1⟩, ⟨1, 1, 1⟩⟩

theorem Demo.regressor_holds (beh : Behavior) : (Demo.regressor beh).Holds 3 1 ![3, 4, 0.05] 1 1 1 where
  nHidden := rfl
  nOut := rfl
  n_pos := by norm_num
  hidden := rfl
  covW := rfl
  covV := rfl
  augLen := rfl
  alpha_pos := by norm_num [Demo.regressor]
  alpha_le := by norm_num [Demo.regressor]
  beta_nonneg := by norm_num [Demo.regressor]
  spread := by norm_num [Demo.regressor]

-- Its steps are steps of recursive least squares, whatever the time (if it changes), current, temperature and voltage.
example (beh : Behavior) (svd : Mat → Vec × Mat) (t i T v : ℝ) (ht : t ≠ 0) : ∃ f',
    (Demo.regressor beh).step svd (.delta ⟨⟨3, ![t, i, T]⟩⟩) (.delta ⟨⟨1, ![v]⟩⟩) = .ok (f',
      (regressStep (voltWith (Demo.trackingHealth beh .identity).asoh (Demo.trackingHealth beh .identity).names Demo.fixed beh ⟨0, 1, some 30⟩
        ⟨t, i, some T⟩ (St.ofVec false 1 [0.5, 0, 0])) 1 1 ⟨![3, 4, 0.05], 1⟩ ![v]).1.gaussian,
      (regressStep (voltWith (Demo.trackingHealth beh .identity).asoh (Demo.trackingHealth beh .identity).names Demo.fixed beh ⟨0, 1, some 30⟩
        ⟨t, i, some T⟩ (St.ofVec false 1 [0.5, 0, 0])) 1 1 ⟨![3, 4, 0.05], 1⟩ ![v]).2.gaussian) :=
  ⟨_, (C131_step (Demo.trackingHealth_circuit beh .identity) (Demo.health_linear beh .identity) (Demo.trackingHealth_estimable beh .identity)
    (f := Demo.regressor beh) rfl Demo.hvState_holds (Demo.regressor_holds beh) .one .one .one svd (.delta ⟨⟨3, ![t, i, T]⟩⟩) (.delta ⟨⟨1, ![v]⟩⟩)
    (u := ![0, 1, 30]) (u' := ![t, i, T]) rfl rfl rfl (Demo.trackingHealth_reaches beh .identity _) (fun _ => ht)).1⟩

/-- R0 alone. -/
noncomputable def Demo.trackingR0 (beh : Behavior) : DegradationWrapper :=
  ⟨⟨Ecm.cell beh Demo.fixed, Demo.hvUpdating [kR0] [kBase], Demo.hvState, Demo.hvInput, .identity, .identity, .identity, 1⟩, [Demo.nR0], 3, 1,
    NoDegradation _ _ _ _⟩

-- While no current flows, estimating it leaves the estimate as it is and adds the process noise to its covariance, whatever the voltage.
example (beh : Behavior) (prev : In) (t T μ v : ℝ) (s : St) (P : Matrix (Fin 1) (Fin 1) ℝ) :
    (regressStep (voltWith (Demo.trackingR0 beh).asoh (Demo.trackingR0 beh).names Demo.fixed beh prev ⟨t, 0, some T⟩ s) 1 1 ⟨![μ], P⟩ ![v]).1 =
      ⟨![μ], P + 1⟩ :=
  C131_rest (w := Demo.trackingR0 beh) (a := Demo.arrays) (measured := true)
    ⟨rfl, Demo.hv_holds _ _, rfl, by show ∀ n ∈ [Demo.nR0], n ∈ [Demo.nR0]; decide, by show [Demo.nR0].Nodup; decide, ⟨_, rfl, rfl⟩, nofun, rfl⟩
    (by show ∀ n ∈ [Demo.nR0], n = Demo.nR0; decide) prev ⟨t, 0, some T⟩ rfl s 1 1 ⟨![μ], P⟩ ![v]

-- The dual estimator of the circuit, its open-circuit voltage and R0, with transient states in units of 2, returns the beliefs of recursive least
-- squares over every history of times, currents, temperatures and voltages.
example (svd : Mat → Vec × Mat) (hist : List (ℝ × ℝ × ℝ × ℝ)) : ∃ E fin outs,
    Dual.fromWrappers (Demo.tracking .constant (.linearScalar 2 ⟨1, ![0]⟩) [kOcv, kR0] [kBase])
      (Demo.trackingHealth .constant .identity) ⟨3, 3, 1⟩ ⟨3, 3, 1⟩ none (some ⟨3, 3, 1⟩) (some ⟨3, 3, 1⟩) (some ⟨1, 1, 1⟩)
      ⟨1, some 0, 2⟩ ⟨1, some 0, 2⟩ = .ok E ∧
    E.run svd (hist.map fun m => (⟨[(kTime, some (.ofRow [m.1])), (kCurrent, some (.ofRow [m.2.1])), (kTemp, some (.ofRow [m.2.2.1]))]⟩,
      ⟨[(kVoltage, some (.ofRow [m.2.2.2]))]⟩)) = .ok (fin, outs) ∧
    Regressed (fun prev new s => voltWith (Demo.trackingHealth .constant .identity).asoh (Demo.trackingHealth .constant .identity).names Demo.fixed
        .constant prev new s) 1 1 false 1 ⟨0, 1, some 30⟩ ![0.5, 0, 0] ⟨![3, 4, 0.05], 1⟩
      (hist.map fun m => (⟨m.1, m.2.1, some m.2.2.1⟩, ![m.2.2.2])) outs := by
  obtain ⟨b, hb⟩ := scalar_rescales (k := 3) 2 two_ne_zero ⟨1, ![0]⟩ (.inr rfl)
  obtain ⟨E, u, t, μ, U, T, A, hE, ⟨hU, hu⟩, ⟨hT, ht⟩, ⟨hA, hμ⟩, hrun⟩ :=
    C131_dual_runs (Demo.tracking_circuit .constant (.linearScalar 2 ⟨1, ![0]⟩) [kOcv, kR0] [kBase])
    (Demo.trackingHealth_circuit .constant .identity) (by show _ = [Demo.nOcv, Demo.nR0]; rfl)
    (Demo.trackingHealth_estimable _ _) (Demo.health_linear _ _) (Demo.trackingHealth_reaches _ _) rfl
    rfl rfl
    Demo.hvState_single Demo.hvInput_single rfl rfl (nT := 3) (nA := 3) rfl rfl (by norm_num)
    (fun _ => two_ne_zero) (fun _ => one_ne_zero) hb (identity_rescales 1)
    (fun v _ => ⟨v, rfl, rfl⟩) .one .one .one .one .one ⟨1, some 0, 2⟩ ⟨1, some 0, 2⟩
    ⟨by norm_num, by norm_num⟩ ⟨by norm_num, by norm_num⟩ (by norm_num) (by norm_num) (by rintro _ ⟨⟩; norm_num) (by rintro _ ⟨⟩; norm_num)
  have hw : (∀ i, 0 ≤ E.trans.covWeights.get i) ∧ ∀ i, 0 ≤ E.asoh.covWeights.get i := by
    obtain ⟨_, _, _, _, _, _, _, _, _, _, _, _, _, -, -, -, -, -, -, -, -, -, -, -, -, -, hft, hfa, -⟩ := Dual.fromWrappers_parts hE
    constructor
    · rcases Ukf.make_eq _ _ _ _ _ _ _ _ _ with ⟨_, W, V, h, _⟩ | ⟨hc, h⟩
      rotate_left
      · cases h.symm.trans hft
      rw [← Except.ok.inj (h.symm.trans hft)]
      intro i
      simp only [Ukf.covWeights, Ukf.meanWeights, Ukf.lambda, Option.getD_some]
      split <;> norm_num <;> positivity
    · rcases Ukf.make_eq _ _ _ _ _ _ _ _ _ with ⟨_, W, V, h, _⟩ | ⟨hc, h⟩
      rotate_left
      · cases h.symm.trans hfa
      rw [← Except.ok.inj (h.symm.trans hfa)]
      intro i
      simp only [Ukf.covWeights, Ukf.meanWeights, Ukf.lambda, Option.getD_some]
      split <;> norm_num <;> positivity
  cases (Except.ok.inj hU)
  cases (Except.ok.inj hT)
  cases (Except.ok.inj hA)
  obtain rfl : ![0, 1, 30] = u := Vec.mk.inj hu |>.2 |> eq_of_heq |> fun h => by rw [← h]; funext k; fin_cases k <;> rfl
  obtain rfl : ![0.5, 0, 0] = t := Vec.mk.inj ht |>.2 |> eq_of_heq |> fun h => by rw [← h]; funext k; fin_cases k <;> rfl
  obtain rfl : ![3, 4, 0.05] = μ := Vec.mk.inj hμ |>.2 |> eq_of_heq |> fun h => by rw [← h]; funext k; fin_cases k <;> rfl
  obtain ⟨fin, outs, h1, h2⟩ := hrun hw.1 hw.2 svd (hist.map fun m =>
    (⟨[(kTime, some (.ofRow [m.1])), (kCurrent, some (.ofRow [m.2.1])), (kTemp, some (.ofRow [m.2.2.1]))]⟩,
      ⟨[(kVoltage, some (.ofRow [m.2.2.2]))]⟩)) (hist.map fun m => (![m.1, m.2.1, m.2.2.1], ![m.2.2.2])) (by
    clear hrun
    induction hist with
    | nil => exact .nil
    | cons y hist ih =>
      exact .cons ⟨⟨.ofRow [y.1, y.2.1, y.2.2.1], rfl, congrArg (Vec.mk 3) (funext fun k => by fin_cases k <;> rfl)⟩, .ofRow [y.2.2.2], rfl,
        congrArg (Vec.mk 1) (funext fun k => by fin_cases k; rfl)⟩ ih)
  refine ⟨E, fin, outs, hE, h1, ?_⟩
  rw [List.map_map] at h2
  exact h2

end Verif
