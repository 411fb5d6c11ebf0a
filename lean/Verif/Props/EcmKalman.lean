import Verif.Spec.Straight
import Mathlib.Data.List.GetD
import Verif.Proofs.Interp
import Verif.Props.RampedRuns
/-!
# Circuits with straight curves: the transient filter is the Kalman filter (C112)
-/

namespace Verif
open Ecm Cell Spec Matrix

variable {beh : Behavior} {x : Fixed} {measured series : Bool} {a : ASOH}

/-! ## Proofs: affine functions of a vector -/

/-- A function of a vector that is a linear one plus a constant. -/
def AffineFn {N : Nat} (g : (Fin N → ℝ) → ℝ) : Prop := ∃ (L : Fin N → ℝ) (c : ℝ), ∀ y, g y = L ⬝ᵥ y + c

namespace AffineFn
variable {N : Nat} {g h : (Fin N → ℝ) → ℝ}

theorem const (c : ℝ) : AffineFn fun _ : Fin N → ℝ => c := ⟨0, c, fun y => by simp⟩

theorem coord (i : Fin N) : AffineFn fun y : Fin N → ℝ => y i := ⟨Pi.single i 1, 0, fun y => by simp⟩

theorem add (hg : AffineFn g) (hh : AffineFn h) : AffineFn fun y => g y + h y := by
  obtain ⟨L, c, e⟩ := hg
  obtain ⟨L', c', e'⟩ := hh
  refine ⟨L + L', c + c', fun y => ?_⟩
  show g y + h y = _
  rw [e, e', add_dotProduct]
  ring

theorem mul (k : ℝ) (hg : AffineFn g) : AffineFn fun y => k * g y := by
  obtain ⟨L, c, e⟩ := hg
  refine ⟨k • L, k * c, fun y => ?_⟩
  show k * g y = _
  rw [e, smul_dotProduct, smul_eq_mul]
  ring

theorem congr (hg : AffineFn g) (e : ∀ y, h y = g y) : AffineFn h := by
  obtain ⟨L, c, e'⟩ := hg
  exact ⟨L, c, fun y => (e y).trans (e' y)⟩

theorem sum {k : Nat} {G : Nat → (Fin N → ℝ) → ℝ} (hG : ∀ j, AffineFn (G j)) : AffineFn fun y => ∑ j ∈ Finset.range k, G j y := by
  induction k with
  | zero => exact (const 0).congr fun y => by simp
  | succ k ih => exact (ih.add (hG k)).congr fun y => Finset.sum_range_succ ..

theorem entry (k : Nat) : AffineFn fun y : Fin N → ℝ => (List.ofFn y).getD k 0 := by
  by_cases h : k < N
  · exact (coord ⟨k, h⟩).congr fun y => by simp [List.getD_eq_getElem?_getD, h]
  · exact (const 0).congr fun y => by simp [List.getD_eq_getElem?_getD, h]

end AffineFn

theorem slopes_affine {N k : Nat} {g : (Fin N → ℝ) → Fin k → ℝ} (h : ∀ i, AffineFn fun y => g y i) (y : Fin N → ℝ) :
    g y = slopes g *ᵥ y + g 0 := by
  funext i
  obtain ⟨L, c, e⟩ := h i
  have e0 : g 0 i = c := by simp [e]
  have : slopes g i = L := by
    funext j
    simp [slopes, e]
  show g y i = slopes g i ⬝ᵥ y + g 0 i
  rw [this, e0]
  exact e y

theorem zipWith_sum (A B : List ℝ) : (List.zipWith (· * ·) A B).sum = ∑ j ∈ Finset.range B.length, A.getD j 0 * B.getD j 0 := by
  induction B generalizing A with
  | nil => simp
  | cons b B ih =>
    cases A with
    | nil => simp
    | cons a A => rw [List.zipWith_cons_cons, List.sum_cons, ih, List.length_cons, Finset.sum_range_succ']; simp [add_comm]

/-! ## Proofs: the cell -/

section
variable {N : Nat} {p : Par}

theorem irc_entry (n j : Nat) (series : Bool) (hj : j < n) (y : List ℝ) :
    (St.ofVec series n y).irc.getD j 0 = y.getD (1 + (if series then 1 else 0) + j) 0 := by
  simp [St.ofVec, List.getD_eq_getElem?_getD, List.getElem?_take, hj, List.getElem?_drop]

theorem hystNext_affine (hp : Straight p) (prev new : In) :
    AffineFn fun y : Fin N → ℝ => hystNext beh prev new (St.ofVec series p.rcs.length (List.ofFn y)) p := by
  obtain ⟨e, he⟩ := hp.hyst
  have hsoc : AffineFn fun y : Fin N → ℝ => (St.ofVec series p.rcs.length (List.ofFn y)).soc := .entry 0
  have hh : AffineFn fun y : Fin N → ℝ => (St.ofVec series p.rcs.length (List.ofFn y)).hyst := .entry _
  have hM : AffineFn fun y : Fin N → ℝ => hystTarget prev (St.ofVec series p.rcs.length (List.ofFn y)).soc p := by
    have h1 : AffineFn fun y : Fin N → ℝ => p.hystMax (St.ofVec series p.rcs.length (List.ofFn y)).soc :=
      ((AffineFn.const (p.hystMax 0)).add (hsoc.mul e)).congr fun y => he _
    unfold hystTarget
    split
    · exact (h1.mul prev.current).congr fun y => mul_comm _ _
    · exact (h1.mul (prev.current / |prev.current|)).congr fun y => by rw [mul_div_assoc, mul_comm]
  have haft : ∀ {g h : (Fin N → ℝ) → ℝ} (κ d i0 α : ℝ), AffineFn g → AffineFn h → AffineFn fun y => hystAfter (g y) (h y) κ d i0 α :=
    fun κ d i0 α hg hh => (hg.mul _).add (hh.mul _)
  unfold hystNext
  split
  · exact haft _ _ _ _ hh hM
  · exact haft _ _ _ _ (haft _ _ _ _ hh hM) ((hM.mul (-1)).congr fun y => by ring)

theorem cellStep_affine (hp : Straight p) (hN : 1 + (if series then 1 else 0) + p.rcs.length + 1 ≤ N) (prev new : In) (i : Fin N) :
    AffineFn fun y : Fin N → ℝ => cellStep beh p series prev new y i := by
  have hsoc : AffineFn fun y : Fin N → ℝ => (step beh prev new (St.ofVec series p.rcs.length (List.ofFn y)) p).soc :=
    (AffineFn.entry 0).add (.const _)
  have hrc : ∀ j, j < p.rcs.length → AffineFn fun y : Fin N → ℝ =>
      (step beh prev new (St.ofVec series p.rcs.length (List.ofFn y)) p).irc.getD j 0 := by
    intro j hj
    let rc := p.rcs[j]
    have h1 : ∀ s, rc.r s prev.temp = rc.r 0 prev.temp := fun s => (hp.rcs _ (List.getElem_mem hj) s).1 _
    have h2 : ∀ s, rc.c s = rc.c 0 := fun s => (hp.rcs _ (List.getElem_mem hj) s).2
    let tau := rc.r 0 prev.temp * rc.c 0
    let f := Real.exp (-dt prev new / tau)
    refine (((AffineFn.entry (1 + (if series then 1 else 0) + j)).mul f).add
      (.const ((1 - f) * (new.current - slope beh prev new * tau) + slope beh prev new * dt prev new))).congr fun y => ?_
    have hlen : j < (St.ofVec series p.rcs.length (List.ofFn y)).irc.length := by
      simp only [St.ofVec, List.length_take, List.length_drop, List.length_ofFn]
      cases series <;> simp only [if_true, Bool.false_eq_true, if_false] at hN ⊢ <;> omega
    have e := irc_entry p.rcs.length j series hj (List.ofFn y)
    rw [List.getD_eq_getElem?_getD, List.getElem?_eq_getElem hlen, Option.getD_some] at e
    rw [← e]
    show (List.zipWith (rcNext beh prev new (St.ofVec series p.rcs.length (List.ofFn y)).soc) p.rcs
      (St.ofVec series p.rcs.length (List.ofFn y)).irc).getD j 0 = _
    rw [List.getD_eq_getElem?_getD, List.getElem?_zipWith, List.getElem?_eq_getElem hj, List.getElem?_eq_getElem hlen]
    show rcNext beh prev new _ rc _ = _
    simp only [rcNext, h1, h2]
    ring
  have hlen : ∀ y : Fin N → ℝ, (step beh prev new (St.ofVec series p.rcs.length (List.ofFn y)) p).irc.length = p.rcs.length := by
    intro y
    simp only [step, St.ofVec, List.length_zipWith, List.length_take, List.length_drop, List.length_ofFn]
    cases series <;> simp only [if_true, Bool.false_eq_true, if_false] at hN ⊢ <;> omega
  have htail : ∀ k, AffineFn fun y : Fin N → ℝ => ((step beh prev new (St.ofVec series p.rcs.length (List.ofFn y)) p).irc ++
      [(step beh prev new (St.ofVec series p.rcs.length (List.ofFn y)) p).hyst]).getD k 0 := by
    intro k
    by_cases hk : k < p.rcs.length
    · exact (hrc k hk).congr fun y => by
        rw [List.getD_append _ _ _ _ (by rw [hlen]; exact hk)]
    · by_cases hk' : k = p.rcs.length
      · refine (hystNext_affine (beh := beh) (series := series) hp prev new).congr fun y => ?_
        rw [List.getD_append_right _ _ _ _ (by rw [hlen]; omega), hlen, hk', Nat.sub_self]
        rfl
      · refine (AffineFn.const 0).congr fun y => ?_
        rw [List.getD_append_right _ _ _ _ (by rw [hlen]; omega), hlen, List.getD_eq_default]
        simp
        omega
  unfold cellStep St.toVec
  generalize i.val = k
  cases k with
  | zero => exact hsoc
  | succ k =>
    cases series with
    | false => exact htail k
    | true =>
      cases k with
      | zero => exact (AffineFn.entry 1).add (.const _)
      | succ k => exact htail k

theorem cellVolt_affine (hp : Straight p) (new : In) (i : Fin 1) : AffineFn fun y : Fin N → ℝ => cellVolt p series new y i := by
  obtain ⟨e, he⟩ := hp.ocv new.temp
  obtain ⟨r, hr⟩ := hp.r0 new.temp
  have hsoc : AffineFn fun y : Fin N → ℝ => (St.ofVec series p.rcs.length (List.ofFn y)).soc := .entry 0
  have h1 : AffineFn fun y : Fin N → ℝ => p.ocv (St.ofVec series p.rcs.length (List.ofFn y)).soc new.temp :=
    ((AffineFn.const (p.ocv 0 new.temp)).add (hsoc.mul e)).congr fun y => he _
  have h2 : AffineFn fun y : Fin N → ℝ => new.current * p.r0 (St.ofVec series p.rcs.length (List.ofFn y)).soc new.temp :=
    (((AffineFn.const (p.r0 0 new.temp)).add (hsoc.mul r)).congr fun y => hr _).mul _
  have h3 : AffineFn fun y : Fin N → ℝ => (match (St.ofVec series p.rcs.length (List.ofFn y)).q0, p.c0 with
      | some q, some c => q / c (St.ofVec series p.rcs.length (List.ofFn y)).soc
      | _, _ => 0) := by
    cases series with
    | false => exact .const 0
    | true =>
      cases hc : p.c0 with
      | none => exact .const 0
      | some c =>
        refine ((AffineFn.entry 1).mul (c 0)⁻¹).congr fun y => ?_
        show _ / c _ = _
        rw [hp.c0 c hc, div_eq_inv_mul]
  have h4 : AffineFn fun y : Fin N → ℝ => (List.zipWith (fun i (rc : Cell.RC) => i * rc.r (St.ofVec series p.rcs.length (List.ofFn y)).soc new.temp)
      (St.ofVec series p.rcs.length (List.ofFn y)).irc p.rcs).sum := by
    refine (AffineFn.sum (k := p.rcs.length) (G := fun j y => (p.rcs.map fun rc => rc.r 0 new.temp).getD j 0 *
      (if j < p.rcs.length then (List.ofFn y).getD (1 + (if series then 1 else 0) + j) 0 else 0)) fun j => ?_).congr fun y => ?_
    · split
      · exact (AffineFn.entry _).mul _
      · exact (AffineFn.const 0).mul _
    · have e : List.zipWith (fun i (rc : Cell.RC) => i * rc.r (St.ofVec series p.rcs.length (List.ofFn y)).soc new.temp)
          (St.ofVec series p.rcs.length (List.ofFn y)).irc p.rcs =
          List.zipWith (· * ·) (St.ofVec series p.rcs.length (List.ofFn y)).irc (p.rcs.map fun rc => rc.r 0 new.temp) := by
        rw [← List.map_congr_left fun rc hrc => ((hp.rcs rc hrc (St.ofVec series p.rcs.length (List.ofFn y)).soc).1 new.temp),
          List.zipWith_map_right]
      rw [e, zipWith_sum, List.length_map]
      refine Finset.sum_congr rfl fun j hj => ?_
      have hj := Finset.mem_range.1 hj
      rw [if_pos hj, irc_entry _ _ _ hj, mul_comm]
  exact (((h1.add h2).add h3).add h4).add (.entry _)

end

theorem linInterp_line {xs ys : List ℝ} (hl : xs.length = ys.length) (hnd : xs.Nodup) (h2 : 2 ≤ xs.length) {α β : ℝ}
    (h : ∀ p ∈ xs.zip ys, p.2 = α + β * p.1) (q : ℝ) : linInterp xs ys q = α + β * q := by
  have hs := sortPts_sorted (l := xs.zip ys) (by rw [fst_zip hl]; exact hnd)
  have hperm := sortPts_perm (xs.zip ys)
  have h' : ∀ p ∈ sortPts (xs.zip ys), p.2 = α + β * p.1 := fun p hp => h p (hperm.mem_iff.1 hp)
  have hlen : 2 ≤ (sortPts (xs.zip ys)).length := by
    rw [hperm.length_eq, List.length_zip]
    omega
  rw [linInterp_eq]
  simp only
  generalize sortPts (xs.zip ys) = pts at *
  generalize pts.countP (fun p => decide (p.1 < q)) = c
  obtain ⟨m, hm, hmi⟩ : ∃ m, min (max c 1) (pts.length - 1) = m + 1 ∧ m + 1 < pts.length := ⟨min (max c 1) (pts.length - 1) - 1, by omega, by omega⟩
  rw [hm, Nat.add_sub_cancel, List.getD_eq_getElem?_getD, List.getD_eq_getElem?_getD, List.getElem?_eq_getElem hmi,
    List.getElem?_eq_getElem (show m < pts.length by omega), Option.getD_some, Option.getD_some, h' _ (List.getElem_mem _),
    h' _ (List.getElem_mem _)]
  rw [List.pairwise_iff_getElem] at hs
  have : pts[m + 1].1 - pts[m].1 ≠ 0 := (sub_pos.2 (hs m (m + 1) (by omega) hmi (by omega))).ne'
  field_simp
  ring

theorem Spec.OnLine.curve {h : Interp} (hl : OnLine h) (hc : Curve 1 h) : ∃ e, ∀ s, curveAt h 0 s = curveAt h 0 0 + e * s := by
  rcases hl with hw | ⟨hs, hw, hlen, hnd, α, β, hv⟩
  · exact ⟨0, fun s => by simp [curveAt, hw]⟩
  · have : ∀ s, curveAt h 0 s = α + β * s := by
      intro s
      simp only [curveAt, ite_self]
      rw [if_neg (by omega), hs]
      exact linInterp_line (by rw [hlen]; simp [Interp.row]) hnd (by omega) hv s
    exact ⟨β, fun s => by rw [this, this 0]; ring⟩

/-! ## C112 -/

/-- C112, what straight curves are in terms of the stored values: all curves of the circuit have one value, except that those of the open-circuit
voltage (reference and entropic), of R0 and of the hysteresis may also lie on a line; nothing is divided by zero. -/
theorem C112_straight (ha : Pars 1 a) (hocv : OnLine a.ocv.ref) (hent : OnLine a.ocv.ent) (hr0 : OnLine a.r0.interp) (hh : OnLine a.hyst)
    (hc0 : ∀ c ∈ a.c0, c.width = 1) (hrcs : ∀ rc ∈ a.rcs, rc.r.interp.width = 1 ∧ rc.c.width = 1)
    (hd : Divisors (parAt a 0)) : Straight (parAt a 0) := by
  have flat : ∀ {h : Interp}, h.width = 1 → ∀ s, curveAt h 0 s = curveAt h 0 0 := fun hw s => by simp [curveAt, hw]
  obtain ⟨e1, he1⟩ := hocv.curve ha.ref
  obtain ⟨e2, he2⟩ := hent.curve ha.ent
  obtain ⟨e3, he3⟩ := hr0.curve ha.r0.1
  refine ⟨fun t => ?_, fun t => ?_, hh.curve ha.hyst, fun c hc s => ?_, fun rc hrc s => ?_, hd⟩
  · cases t with
    | none => exact ⟨e1, he1⟩
    | some t =>
      refine ⟨e1 + (t - at2 a.ocv.refTemp 0) * e2, fun s => ?_⟩
      simp only [parAt, ocvAt]
      rw [he1 s, he2 s]
      ring
  · cases t with
    | none => exact ⟨e3, he3⟩
    | some t =>
      refine ⟨e3 * Real.exp (-at2 a.r0.tdf 0 * (t - a.r0.refTemp)), fun s => ?_⟩
      simp only [parAt, resAt]
      rw [he3 s]
      ring
  · obtain ⟨c', hc', rfl⟩ := Option.mem_map.1 hc
    exact flat (hc0 c' hc') s
  · obtain ⟨rc', hrc', rfl⟩ := List.mem_map.1 hrc
    refine ⟨fun t => ?_, flat (hrcs rc' hrc').2 s⟩
    cases t with
    | none => exact flat (hrcs rc' hrc').1 s
    | some t => simp only [resAt]; rw [flat (hrcs rc' hrc').1 s]

/-- C112, the cell: with straight curves, the state one step later and the voltage are affine functions of the state.  So the Kalman filter of
`kalmanStep` is the one for this very cell. -/
theorem C112_cell_affine {p : Par} (hp : Straight p) {N : Nat} (hN : N = 1 + (if series then 1 else 0) + p.rcs.length + 1) (prev new : In)
    (y : Fin N → ℝ) :
    cellStep beh p series prev new y = slopes (cellStep beh p series prev new) *ᵥ y + cellStep beh p series prev new 0 ∧
    cellVolt p series new y = slopes (cellVolt p series new) *ᵥ y + cellVolt p series new (0 : Fin N → ℝ) :=
  ⟨slopes_affine (cellStep_affine hp hN.ge prev new) y, slopes_affine (cellVolt_affine hp new) y⟩

/-- C112, one step of the filter of the transient states, in the coordinates of the model: exactly one step of the Kalman filter. -/
theorem C112_step {w : CellWrapper} (hw : TracksCircuit w beh x measured series a.rcs.length) {f : Ukf (HV ℝ)} (hf : f.model = w.plain.toWrapper)
    (hm : HoldsCircuit x f.mem a) (he : Estimable [] measured series a) (hp : Straight (parAt a 0))
    {μ : Fin w.nTransients → ℝ} {P Q : Matrix (Fin w.nTransients) (Fin w.nTransients) ℝ} {R : Matrix (Fin 1) (Fin 1) ℝ}
    (h : f.Holds w.nTransients 1 μ P Q R) (hP : P.PosDef) (hQ : Q.PosDef) (hR : R.PosDef) (svd : Mat → Vec × Mat)
    (new meas : Dist) {u u' : Fin (2 + (if measured then 1 else 0)) → ℝ} (hu : f.controls.mean = ⟨_, u⟩) (hu' : new.mean = ⟨_, u'⟩)
    {z : Fin 1 → ℝ} (hz : meas.mean = ⟨1, z⟩)
    (hmoves : beh = .linear → (In.ofVec measured (List.ofFn u')).time ≠ (In.ofVec measured (List.ofFn u)).time) :
    let r := kalmanStep beh (parAt a 0) series Q R (In.ofVec measured (List.ofFn u)) (In.ofVec measured (List.ofFn u')) ⟨μ, P⟩ z
    f.step svd new meas = .ok ({ f with hidden := r.1.gaussian, controls := new }, (r.1.gaussian, r.2.gaussian)) ∧ r.1.cov.PosDef := by
  have hlen : (parAt a 0).rcs.length = a.rcs.length := by simp [parAt]
  have hN : w.nTransients = 1 + (if series then 1 else 0) + (parAt a 0).rcs.length + 1 := by rw [hlen]; exact tracks_width hw
  refine h.step_affine _ _ _ _ hP hQ hR le_rfl svd new meas z hz f.mem (fun K hK X => ?_) (fun K hK X => ?_)
  · obtain ⟨k1, k2, -⟩ := tracks_update hw hm hK X (v := ⟨_, u⟩) (v' := ⟨_, u'⟩) rfl rfl
    obtain ⟨H, hH⟩ := k2 hmoves he
    obtain ⟨Z, rfl, hZ⟩ := k1 H hH
    rw [hf, hu, hu']
    show (do return (← w.plain.update f.mem ⟨K, _, X⟩ ⟨_, u⟩ ⟨_, u'⟩, f.mem) : Except Err (Mat × HV ℝ)) = _
    rw [hH, ok_bind]
    refine congrArg (fun Z => Except.ok (Mat.mk K w.nTransients Z, f.mem)) (funext fun i => ?_)
    rw [← (C112_cell_affine hp hN _ _ _).1, list_of_ofFn (hZ i)]
    funext j
    simp only [cellStep, hlen]
  · obtain ⟨-, -, -, k1, k2⟩ := tracks_update hw hm hK X (v := ⟨_, u'⟩) (v' := ⟨_, u'⟩) rfl rfl
    obtain ⟨H, hH⟩ := k2 he
    obtain ⟨Z, rfl, hZ⟩ := k1 H hH
    rw [hf, hu']
    show w.plain.predict f.mem ⟨K, _, X⟩ ⟨_, u'⟩ = _
    rw [hH]
    refine congrArg (fun Z => Except.ok (Mat.mk K 1 Z)) (funext fun i => ?_)
    rw [← (C112_cell_affine (beh := beh) hp hN (In.ofVec measured (List.ofFn u')) _ _).2]
    funext j
    obtain rfl : j = 0 := Subsingleton.elim _ _
    rw [hZ i]
    simp only [cellVolt, hlen]

theorem kalman_history {w : CellWrapper} (hw : TracksCircuit w beh x measured series a.rcs.length) (he : Estimable [] measured series a)
    (hp : Straight (parAt a 0)) {Q : Matrix (Fin w.nTransients) (Fin w.nTransients) ℝ} {R : Matrix (Fin 1) (Fin 1) ℝ}
    (hQ : Q.PosDef) (hR : R.PosDef) (svd : Mat → Vec × Mat) (hist : List (Dist × Dist)) :
    ∀ (zs : List ((Fin (2 + (if measured then 1 else 0)) → ℝ) × (Fin 1 → ℝ))) (f : Ukf (HV ℝ)) (u : Fin (2 + (if measured then 1 else 0)) → ℝ)
      (μ : Fin w.nTransients → ℝ) (P : Matrix (Fin w.nTransients) (Fin w.nTransients) ℝ),
      f.model = w.plain.toWrapper → HoldsCircuit x f.mem a → f.Holds w.nTransients 1 μ P Q R → P.PosDef → f.controls.mean = ⟨_, u⟩ →
      HasMeans hist (zs.map fun z => (⟨_, z.1⟩, z.2)) →
      (beh = .linear → ((In.ofVec measured (List.ofFn u)).time :: zs.map fun z => (In.ofVec measured (List.ofFn z.1)).time).IsChain (· ≠ ·)) →
      ∃ f', f.run svd hist = .ok (f', (kalmanHistory beh (parAt a 0) series Q R (In.ofVec measured (List.ofFn u)) ⟨μ, P⟩
        (zs.map fun z => (In.ofVec measured (List.ofFn z.1), z.2))).map fun r => (r.1.gaussian, r.2.gaussian)) := by
  induction hist with
  | nil =>
    intro zs f u μ P hf hm h hP hu hmeans hmoves
    cases zs with
    | nil => exact ⟨f, rfl⟩
    | cons z zs => cases hmeans
  | cons d hist ih =>
    intro zs f u μ P hf hm h hP hu hmeans hmoves
    cases zs with
    | nil => cases hmeans
    | cons z zs =>
      obtain ⟨new, meas⟩ := d
      obtain ⟨u', z⟩ := z
      cases hmeans with
      | cons hd hrest =>
      obtain ⟨hs, hpd⟩ := C112_step hw hf hm he hp h hP hQ hR svd new meas hu hd.1 hd.2
        fun hb => (List.isChain_cons_cons.1 (hmoves hb)).1.symm
      let r := kalmanStep beh (parAt a 0) series Q R (In.ofVec measured (List.ofFn u)) (In.ofVec measured (List.ofFn u')) ⟨μ, P⟩ z
      obtain ⟨f', hf'⟩ := ih zs { f with hidden := r.1.gaussian, controls := new } u' r.1.mean r.1.cov hf hm (h.after _ _ _ new) hpd hd.1 hrest fun hb => (List.isChain_cons_cons.1 (hmoves hb)).2
      refine ⟨f', ?_⟩
      rw [Ukf.run, hs, ok_bind]
      simp only []
      rw [hf', ok_bind]
      rfl

/-- C112, histories: whatever the history, the filter of the transient states of a circuit with straight curves estimates exactly what the
Kalman filter for this circuit does.  Under linear behaviour no two consecutive inputs may have the same time. -/
theorem C112_history {w : CellWrapper} (hw : TracksCircuit w beh x measured series a.rcs.length) {f : Ukf (HV ℝ)} (hf : f.model = w.plain.toWrapper)
    (hm : HoldsCircuit x f.mem a) (he : Estimable [] measured series a) (hp : Straight (parAt a 0))
    {μ : Fin w.nTransients → ℝ} {P Q : Matrix (Fin w.nTransients) (Fin w.nTransients) ℝ} {R : Matrix (Fin 1) (Fin 1) ℝ}
    (h : f.Holds w.nTransients 1 μ P Q R) (hP : P.PosDef) (hQ : Q.PosDef) (hR : R.PosDef) (svd : Mat → Vec × Mat)
    {u : Fin (2 + (if measured then 1 else 0)) → ℝ} (hu : f.controls.mean = ⟨_, u⟩)
    (hist : List (Dist × Dist)) (zs : List ((Fin (2 + (if measured then 1 else 0)) → ℝ) × (Fin 1 → ℝ)))
    (hmeans : HasMeans hist (zs.map fun z => (⟨_, z.1⟩, z.2)))
    (hmoves : beh = .linear →
      ((In.ofVec measured (List.ofFn u)).time :: zs.map fun z => (In.ofVec measured (List.ofFn z.1)).time).IsChain (· ≠ ·)) :
    ∃ f', f.run svd hist = .ok (f', (kalmanHistory beh (parAt a 0) series Q R (In.ofVec measured (List.ofFn u)) ⟨μ, P⟩
      (zs.map fun z => (In.ofVec measured (List.ofFn z.1), z.2))).map fun r => (r.1.gaussian, r.2.gaussian)) :=
  kalman_history hw he hp hQ hR svd hist zs f u μ P hf hm h hP hu hmeans hmoves

/-- C112, dual estimation: in every step that returns, the transient states are estimated by one step of the Kalman filter for the circuit with the
state of health estimated before, and the returned prediction is the Kalman filter's.  (The wrapper of the transient states works in the
coordinates of the model, as `initialize_unscented_kalman_filter` sets it up.) -/
theorem C112_dual_step {E E' : Dual} (hw : TracksCircuit E.cellW beh x measured series a.rcs.length) (hid : E.cellW.plain = E.cellW)
    (hmodel : E.trans.model = E.cellW.toWrapper) {g : Gaussian} {m : HV ℝ} (hg : E.asoh.hidden.convert E.asohW.hiddenConv = .ok g)
    (hcopy : E.base.asoh.makeCopy g.mean.vals none = .ok m) (hm : HoldsCircuit x m a) (he : Estimable [] measured series a)
    (hp : Straight (parAt a 0))
    {μ : Fin E.cellW.nTransients → ℝ} {P Q : Matrix (Fin E.cellW.nTransients) (Fin E.cellW.nTransients) ℝ} {R : Matrix (Fin 1) (Fin 1) ℝ}
    (h : E.trans.Holds E.cellW.nTransients 1 μ P Q R) (hP : P.PosDef) (hQ : Q.PosDef) (hR : R.PosDef) (svd : Mat → Vec × Mat)
    {inputs meas : Container ℝ} {u u' : Fin (2 + (if measured then 1 else 0)) → ℝ} {z : Fin 1 → ℝ} {V Y : Arr2 ℝ}
    (hu : E.trans.controls.mean = ⟨_, u⟩) (hV : inputs.toNumpy = .ok V) (hu' : V.flat = ⟨_, u'⟩) (hY : meas.toNumpy = .ok Y) (hz : Y.flat = ⟨1, z⟩)
    (hmoves : beh = .linear → (In.ofVec measured (List.ofFn u')).time ≠ (In.ofVec measured (List.ofFn u)).time)
    {est out : Gaussian} (hstep : E.step svd inputs meas = .ok (E', est, out)) :
    let r := kalmanStep beh (parAt a 0) series Q R (In.ofVec measured (List.ofFn u)) (In.ofVec measured (List.ofFn u')) ⟨μ, P⟩ z
    E'.trans.hidden = r.1.gaussian ∧ out = r.2.gaussian := by
  intro r
  have hc : E.cellW.controlConv = .identity := by rw [← hid]; rfl
  have ho : E.cellW.outputConv = .identity := by rw [← hid]; rfl
  obtain ⟨du, dy, pT, pA, uT, yT, uA, yA, rt, ra, t, b, oA, h1, h2, h3, h4, h5, h6, -, -, -, -, -, h12, -, -, rfl⟩ := Dual.step_ok hstep
  simp only [convertVals, hV, hY, ok_bind, pure_eq_ok, Except.ok.injEq] at h1 h2
  subst h1 h2
  rw [hc] at h4
  rw [ho] at h5 h12
  have e4 : uT = .delta ⟨V.flat⟩ := (Except.ok.inj h4).symm
  have e5 : yT = .delta ⟨Y.flat⟩ := (Except.ok.inj h5).symm
  subst e4 e5
  have hpA : pA = m := by
    simp only [Dual.getEstimatedState, Dual.converted, bind_eq_ok_iff, pure_eq_ok, Except.ok.injEq, Prod.mk.injEq] at h3
    obtain ⟨_, ⟨t0, -, a0, k2, rfl⟩, _, k3, rfl, rfl⟩ := h3
    cases hg.symm.trans k2
    exact Except.ok.inj (k3.symm.trans hcopy)
  subst hpA
  obtain ⟨k1, -⟩ := C112_step (f := { E.trans with mem := pA }) hw (by rw [hid]; exact hmodel) hm he hp
    ⟨h.nHidden, h.nOut, h.n_pos, h.hidden, h.covW, h.covV, h.augLen, h.alpha_pos, h.alpha_le, h.beta_nonneg, h.spread⟩ hP hQ hR svd
    (.delta ⟨V.flat⟩) (.delta ⟨Y.flat⟩) hu hu' hz hmoves
  cases h6.symm.trans k1
  refine ⟨rfl, ?_⟩
  exact Except.ok.inj (h12.symm.trans (Gaussian.convert_ok le_rfl rfl rfl))

/-! ## Examples -/

theorem estimable_nil {ns : List Name} (he : Estimable ns measured series a) : Estimable [] measured series a :=
  ⟨he.ocv, he.ent, he.r0, he.c0, he.rcs, he.hyst, nofun, nofun, nofun, fun _ _ _ => nofun, fun _ => nofun, fun _ _ _ => nofun, fun _ => nofun,
    fun _ _ _ _ => nofun, fun _ _ _ _ h => by rcases h with h | h <;> cases h⟩

/-- Two values interpolated linearly lie on a line. -/
theorem two_onLine (v w : ℝ) : OnLine ⟨(Arr2.ofRow [v, w]).toNd, none, .linear⟩ := by
  have hp : Interp.pinsUsed ⟨(Arr2.ofRow [v, w]).toNd, none, .linear⟩ = [0, 1] := by
    simp [Interp.width, Interp.pinsUsed, linspace01, Arr2.toNd, Arr2.ofRow, List.range_succ]
    norm_num
  have hr : Interp.row ⟨(Arr2.ofRow [v, w]).toNd, none, .linear⟩ 0 = [v, w] := rfl
  refine .inr ⟨rfl, le_rfl, by rw [hp]; rfl, by rw [hp]; simp, v, w - v, ?_⟩
  rw [hp, hr]
  intro q hq
  simp only [List.zip_cons_cons, List.zip_nil_right, List.mem_cons, List.not_mem_nil, or_false] at hq
  rcases hq with rfl | rfl <;> simp

theorem Demo.arrays_divisors : Divisors (parAt Demo.arrays 0) where
  qt := by show (10 : ℝ) ≠ 0; norm_num
  rcs rc hrc s t := by
    rw [List.mem_singleton.1 hrc]
    refine ⟨?_, show (2500 : ℝ) ≠ 0 by norm_num⟩
    cases t with
    | none => show (0.01 : ℝ) ≠ 0; norm_num
    | some t =>
      refine mul_ne_zero ?_ (Real.exp_ne_zero _)
      show (0.01 : ℝ) ≠ 0
      norm_num
  c0 := nofun

theorem Demo.arrays_straight : Straight (parAt Demo.arrays 0) :=
  C112_straight Demo.arrays_pars (two_onLine 3 4) (.inl rfl) (.inl rfl) (.inl rfl) nofun (fun rc hrc => by
    rw [List.mem_singleton.1 hrc]; exact ⟨rfl, rfl⟩) Demo.arrays_divisors

/-- A filter of the transient states of the concrete circuit. -/
noncomputable def Demo.tracker (beh : Behavior) : Ukf (HV ℝ) :=
  ⟨(Demo.tracking beh .identity [] []).toWrapper, Demo.hvUpdating [] [], ⟨⟨3, ![0.5, 0, 0]⟩, ⟨3, 3, 1⟩⟩, .delta ⟨⟨3, ![0, 1, 30]⟩⟩, 7, 1 / 2, 2, -1,
    ⟨3, 3, 1⟩, ⟨1, 1, 1⟩⟩

theorem Demo.tracker_holds (beh : Behavior) : (Demo.tracker beh).Holds 3 1 ![0.5, 0, 0] 1 1 1 where
  nHidden := rfl
  nOut := rfl
  n_pos := by norm_num
  hidden := rfl
  covW := rfl
  covV := rfl
  augLen := rfl
  alpha_pos := by norm_num [Demo.tracker]
  alpha_le := by norm_num [Demo.tracker]
  beta_nonneg := by norm_num [Demo.tracker]
  spread := by norm_num [Demo.tracker]

-- Its estimates are the Kalman filter's, for every history of times, currents, temperatures and voltages in which the time always changes.
example (beh : Behavior) (svd : Mat → Vec × Mat) (hist : List (ℝ × ℝ × ℝ × ℝ)) (ht : (0 :: hist.map (·.1)).IsChain (· ≠ ·)) :
    ∃ f', (Demo.tracker beh).run svd (hist.map fun m => (.delta ⟨⟨3, ![m.1, m.2.1, m.2.2.1]⟩⟩, .delta ⟨⟨1, ![m.2.2.2]⟩⟩)) =
      .ok (f', (kalmanHistory beh (parAt Demo.arrays 0) false 1 1 ⟨0, 1, some 30⟩ ⟨![0.5, 0, 0], 1⟩
        (hist.map fun m => (⟨m.1, m.2.1, some m.2.2.1⟩, ![m.2.2.2]))).map fun r => (r.1.gaussian, r.2.gaussian)) := by
  have hm : HasMeans (hist.map fun m => (Dist.delta ⟨⟨3, ![m.1, m.2.1, m.2.2.1]⟩⟩, Dist.delta ⟨⟨1, ![m.2.2.2]⟩⟩))
      ((hist.map fun m => ((![m.1, m.2.1, m.2.2.1] : Fin 3 → ℝ), (![m.2.2.2] : Fin 1 → ℝ))).map fun z => (⟨3, z.1⟩, z.2)) := by
    clear ht
    induction hist with
    | nil => exact .nil
    | cons m hist ih => exact .cons ⟨rfl, rfl⟩ ih
  obtain ⟨f', h⟩ := C112_history (Demo.tracking_circuit beh .identity [] []) (f := Demo.tracker beh) rfl (Demo.hv_holds [] [])
    (estimable_nil (Demo.estimating_estimable beh .identity)) Demo.arrays_straight (Demo.tracker_holds beh) .one .one .one svd
    (u := ![0, 1, 30]) rfl _ (hist.map fun m => (![m.1, m.2.1, m.2.2.1], ![m.2.2.2])) hm (fun _ => by
      rw [List.map_map]; exact ht)
  refine ⟨f', h.trans ?_⟩
  rw [List.map_map]
  rfl

/-- With any values of the estimated parameters, the concrete circuit has straight curves. -/
theorem Demo.straight_with (beh : Behavior) (op : Operator) (y : Fin 3 → ℝ) {m : HV ℝ} {b : ASOH}
    (h1 : (Demo.trackingHealth beh op).asoh.makeCopy (.d1 (List.ofFn y)) (some (Demo.trackingHealth beh op).names) = .ok m)
    (h2 : HoldsCircuit Demo.fixed m b) : Straight (parAt b 0) := by
  have e : List.ofFn y = [y 0, y 1, y 2] := by simp [List.ofFn_succ]
  rw [e] at h1
  cases (Except.ok.inj h1)
  cases (Except.ok.inj h2.read)
  exact C112_straight h2.single (two_onLine (y 0) (y 1)) (.inl rfl) (.inl rfl) (.inl rfl) nofun (fun rc hrc => by
    rw [List.mem_singleton.1 hrc]; exact ⟨rfl, rfl⟩) ⟨Demo.arrays_divisors.qt, Demo.arrays_divisors.rcs, nofun⟩

-- A dual estimator of the concrete circuit with its open-circuit voltage and R0 is built with any covariances, and whenever its first step returns –
-- whatever the time, current, temperature and voltage – the transient states were estimated by the Kalman filter for the circuit `b` of the estimator.
example {PT QT PA QA : Matrix (Fin 3) (Fin 3) ℝ} (hPT : PT.PosDef) (hQT : QT.PosDef) (hPA : PA.PosDef) (hQA : QA.PosDef) (svd : Mat → Vec × Mat) :
    ∃ (E : Dual) (b : ASOH) (μ : Fin 3 → ℝ) (P Q : Matrix (Fin 3) (Fin 3) ℝ) (R : Matrix (Fin 1) (Fin 1) ℝ),
    Dual.fromWrappers (Demo.tracking .constant .identity [kOcv, kR0] [kBase]) (Demo.trackingHealth .constant .identity) ⟨3, 3, PT⟩ ⟨3, 3, PA⟩ none
      (some ⟨3, 3, QT⟩) (some ⟨3, 3, QA⟩) (some ⟨1, 1, 1⟩) ⟨1, some 0, 2⟩ ⟨1, some 0, 2⟩ = .ok E ∧
    E.trans.hidden = ⟨⟨3, μ⟩, ⟨3, 3, P⟩⟩ ∧ ∀ (t i T v : ℝ) (E' : Dual) (est out : Gaussian),
      E.step svd ⟨[(kTime, some (.ofRow [t])), (kCurrent, some (.ofRow [i])), (kTemp, some (.ofRow [T]))]⟩ ⟨[(kVoltage, some (.ofRow [v]))]⟩ =
        .ok (E', est, out) →
      E'.trans.hidden = (kalmanStep .constant (parAt b 0) false Q R ⟨0, 1, some 30⟩ ⟨t, i, some T⟩ ⟨μ, P⟩ ![v]).1.gaussian := by
  have hT := Demo.tracking_circuit .constant .identity [kOcv, kR0] [kBase]
  have hA := Demo.trackingHealth_circuit .constant .identity
  have he := Demo.trackingHealth_estimable .constant .identity
  obtain ⟨base, ft, fa, vT, vA, V, hE, ⟨μ, P, Q, R, hft, hP, hQ, hR⟩, ⟨μA, P', Q', R', hfa, -⟩, hmT, -, -, hba, -, huT, -, hVT, -, -, M, hM, hVM⟩ :=
    dual_built hT hA he.1 rfl Demo.hvState_single Demo.hvInput_single rfl rfl (by show 1 ≤ 3; norm_num)
      (fun _ => one_ne_zero) (fun _ => one_ne_zero) (fun _ => one_ne_zero) (fun _ => one_ne_zero) (identity_rescales 3) (identity_rescales 3)
      (identity_rescales 1) (identity_rescales 1) (fun v _ => ⟨v, rfl, rfl⟩) (fun v _ => ⟨v, rfl, rfl⟩) hPT hQT hPA hQA .one ⟨1, some 0, 2⟩
      ⟨1, some 0, 2⟩ ⟨by norm_num, by norm_num⟩ ⟨by norm_num, by norm_num⟩ (by norm_num) (by norm_num)
      (by rintro _ ⟨⟩; show -((2 * 3 + 1 : Nat) : ℝ) < 0; norm_num) (by rintro _ ⟨⟩; show -((2 * 3 + 1 : Nat) : ℝ) < 0; norm_num)
  obtain ⟨m, b, h1, h2, h3, h4⟩ := estimable_copy hA he.1 μA
  have hs := Demo.straight_with .constant .identity μA h1 h2
  refine ⟨_, b, μ, P, Q, R, hE, hft.hidden, fun t i T v E' est out hstep => ?_⟩
  cases hM
  cases (Except.ok.inj hVT)
  subst hVM
  refine (C112_dual_step (E := ⟨base, _, _, ft, fa⟩) (beh := .constant) (a := b) (by rw [h3]; exact hT) rfl hmT (g := ⟨⟨3, μA⟩, ⟨3, 3, P'⟩⟩) ?_ ?_ h2 h4 hs hft hP hQ hR svd
    (u := ![0, 1, 30]) (u' := ![t, i, T]) (z := ![v]) (V := .ofRow [t, i, T]) (Y := .ofRow [v]) ?_ rfl ?_ rfl ?_ nofun hstep).1
  · show fa.hidden.convert .identity = _
    rw [hfa.hidden]
    exact Gaussian.convert_ok (by decide) rfl rfl
  · show base.asoh.makeCopy (.d1 (List.ofFn μA)) none = _
    rw [hba, makeCopy_none]
    exact h1
  · show ft.controls.mean = _
    rw [huT]
    exact congrArg (Vec.mk 3) (funext fun k => by fin_cases k <;> rfl)
  · exact congrArg (Vec.mk 3) (funext fun k => by fin_cases k <;> rfl)
  · exact congrArg (Vec.mk 1) (funext fun k => by fin_cases k; rfl)

end Verif
