import Verif.Props.EcmPipeline
import Verif.Props.RampedRuns
/-!
# Estimation of an equivalent circuit from a dataset under currents that change linearly (C107)
-/

namespace Verif
open Ecm Cell Spec Writer

/-- Rows one after the other, the time of every one being another one than before. -/
def Spec.RowTimesChange : ℝ → List Row → Prop
  | _, [] => True
  | t, row :: rest => ∃ t', lookupKey "test_time".toList row = some (.fin t') ∧ t' ≠ t ∧ RowTimesChange t' rest

/-! ## Proofs: estimators that take rows at other times than before -/

section
variable {σ : Type}

/-- An estimator that satisfies `I t` takes all inputs at other times than `t`. -/
def EstimatorOps.WorksAfter (ops : EstimatorOps σ) (I : ℝ → σ → Prop) (names outNames : List Name) : Prop :=
  ∀ t₀ e, I t₀ e → ops.Named e names outNames ∧
    ∀ t i T v : ℝ, t ≠ t₀ → ∃ e' s o, ops.step e ⟨.fin t, .fin i, .fin T⟩ ⟨.fin v⟩ = .ok (e', s, o) ∧ I t e' ∧ s.Proper ∧ s.mean.n = names.length ∧
      o.Proper ∧ o.mean.n = outNames.length

theorem EstimatorOps.WorksAfter.observes {ops : EstimatorOps σ} {I : ℝ → σ → Prop} {names outNames : List Name}
    (hw : ops.WorksAfter I names outNames) {rows : List Row} (hf : ∀ r ∈ rows, r.Finite) : ∀ {t₀ : ℝ} {e : σ}, I t₀ e → RowTimesChange t₀ rows →
      ∃ outs t' e', Observes ops e rows outs e' ∧ I t' e' ∧
        ∀ so ∈ outs, so.1.Proper ∧ so.1.mean.n = names.length ∧ so.2.Proper ∧ so.2.mean.n = outNames.length := by
  induction rows with
  | nil => exact fun {t₀ e} he _ => ⟨[], t₀, e, .nil e, he, nofun⟩
  | cons row rest ih =>
    intro t₀ e he ht
    obtain ⟨t', ht', hne, ht⟩ := ht
    obtain ⟨t, i, T, v, hrow⟩ := (hf row List.mem_cons_self).inputs
    obtain rfl : t' = t := by
      have := ((C62_row_to_inputs _ _ _ _ _ _).1 hrow).1
      rw [ht'] at this
      injection this with h
      injection h
    obtain ⟨e1, s, o, h1, h2, h3⟩ := (hw t₀ e he).2 t' i T v hne
    obtain ⟨outs, t'', e', h4, h5, h6⟩ := ih (fun r hr => hf r (List.mem_cons_of_mem _ hr)) h2 ht
    refine ⟨(s, o) :: outs, t'', e', .cons hrow h1 h4, h5, fun so hso => ?_⟩
    rcases List.mem_cons.1 hso with rfl | hso
    · exact h3
    · exact h6 so hso

end

/-! ## Proofs: controls with more values than the model's inputs -/

/-- Two controls at different times, with at least as many values as the circuit uses. -/
def Ecm.AtOtherTimes (k : Nat) (v v' : Vec) : Prop :=
  k ≤ v.n ∧ k ≤ v'.n ∧ (List.ofFn v'.get).getD 0 0 ≠ (List.ofFn v.get).getD 0 0

theorem first_getD {v : Vec} {k : Nat} (hk : 2 ≤ k) : (List.ofFn (v.first k).get).getD 0 0 = (List.ofFn v.get).getD 0 0 := by
  rw [Vec.first_toList]
  cases h : List.ofFn v.get with
  | nil => rw [List.take_nil]
  | cons y l =>
    obtain ⟨k, rfl⟩ : ∃ j, k = j + 1 := ⟨k - 1, by omega⟩
    rfl

theorem AtOtherTimes.first {v v' : Vec} {k : Nat} (hk : 2 ≤ k) (h : AtOtherTimes k v v') :
    (v.first k).n = k ∧ (v'.first k).n = k ∧ (List.ofFn (v'.first k).get).getD 0 0 ≠ (List.ofFn (v.first k).get).getD 0 0 :=
  ⟨min_eq_left h.1, min_eq_left h.2.1, by rw [first_getD hk, first_getD hk]; exact h.2.2⟩

section
variable {x : Fixed} {measured series : Bool} {a : ASOH} {asoh : HV ℝ} {tr inp : Container ℝ}

theorem uses_two (measured : Bool) : 2 ≤ 2 + (if measured then 1 else 0) := by omega

theorem joint_pin_first {w : JointWrapper} (hi : SameLayout w.inputs (circuitInput measured)) (u u' : Vec) :
    w.plain.toWrapper.pin u u' =
      w.plain.toWrapper.pin (u.first (2 + (if measured then 1 else 0))) (u'.first (2 + (if measured then 1 else 0))) := by
  have e : ∀ u, w.plain.toInputs u = w.plain.toInputs (u.first (2 + (if measured then 1 else 0))) := fun u =>
    congrArg Except.ok (input_first hi u)
  unfold Wrapper.pin
  congr 1
  · funext s X _ _
    show (do return (← w.plain.update X u u', ()) : Except Err (Mat × Unit)) = (do return (← w.plain.update X _ _, ()))
    unfold JointWrapper.update
    rw [e u, e u']
  · funext s X _
    show w.plain.predict X u' = w.plain.predict X _
    unfold JointWrapper.predict
    rw [e u']

theorem cell_pin_first {w : CellWrapper} (hi : SameLayout w.inputs (circuitInput measured)) (u u' : Vec) :
    w.plain.toWrapper.pin u u' =
      w.plain.toWrapper.pin (u.first (2 + (if measured then 1 else 0))) (u'.first (2 + (if measured then 1 else 0))) := by
  have e : ∀ u, w.plain.toInputs u = w.plain.toInputs (u.first (2 + (if measured then 1 else 0))) := fun u =>
    congrArg Except.ok (input_first hi u)
  unfold Wrapper.pin
  congr 1
  · funext s X _ _
    show (do return (← w.plain.update s X u u', s) : Except Err (Mat × HV ℝ)) = (do return (← w.plain.update s X _ _, s))
    unfold CellWrapper.update
    rw [e u, e u']
  · funext s X _
    show w.plain.predict s X u' = w.plain.predict s X _
    unfold CellWrapper.predict
    rw [e u']

theorem health_pin_first {w : DegradationWrapper} (hi : SameLayout w.inputs (circuitInput measured)) (u u' : Vec) :
    w.plain.toWrapper.pin u u' =
      w.plain.toWrapper.pin (u.first (2 + (if measured then 1 else 0))) (u'.first (2 + (if measured then 1 else 0))) := by
  have e : ∀ u, w.plain.toInputs u = w.plain.toInputs (u.first (2 + (if measured then 1 else 0))) := fun u =>
    congrArg Except.ok (input_first hi u)
  unfold Wrapper.pin
  congr 1
  · funext s X _ _
    show (do
      let r ← w.plain.update s.1 X u u'
      return (r.1, (s.1, r.2)) : Except Err (Mat × Container ℝ × Container ℝ)) = (do
      let r ← w.plain.update s.1 X _ _
      return (r.1, (s.1, r.2)))
    unfold DegradationWrapper.update
    rw [e u, e u']
  · funext s X _
    show w.plain.predict s.1 s.2 X u' = w.plain.predict s.1 s.2 X _
    unfold DegradationWrapper.predict
    rw [e u']

/-! ## Proofs: the estimators take rows -/

theorem container3_time (t i T : ℝ) : ∃ c v, CellInput.container ⟨.fin t, .fin i, .fin T⟩ = .ok c ∧ c.toNumpy = .ok v ∧ v.flat.n = 3 ∧
    (List.ofFn v.flat.get).getD 0 0 = t :=
  ⟨_, _, rfl, rfl, rfl, rfl⟩

/-- A joint estimator that fits, with controls at time `t`. -/
def Joint.FitAt (base : Online) (n k : Nat) (t : ℝ) (e : Joint) : Prop :=
  e.Fit n 1 3 (AtOtherTimes k) ∧ e.base = base ∧
    ∃ v₀, e.wrapper.controlConv.samples1 e.filter.controls.mean = .ok v₀ ∧ k ≤ v₀.n ∧ (List.ofFn v₀.get).getD 0 0 = t

theorem Joint.worksAfter (svd : Mat → Vec × Mat) (base : Online) {n k : Nat} (hk : k ≤ 3) {names : List Name} (hn : base.stateNames = .ok names)
    (hlen : names.length = n) (ho : base.nOutputs = 1) (hon : base.outputNames.length = 1) :
    (Joint.ops svd).WorksAfter (Joint.FitAt base n k) names base.outputNames := by
  rintro t₀ e ⟨he, rfl, v₀, hv₀, hkv, rfl⟩
  refine ⟨⟨hn, rfl, ho.trans hon.symm⟩, fun t i T v hne => ?_⟩
  obtain ⟨c, cv, c1, c2, c3, c4⟩ := container3_time t i T
  obtain ⟨y, yv, y1, y2, y3⟩ := container1 v
  obtain ⟨e', s, o, h1, h2, h3, -, h5, ⟨m, C, rfl, -⟩, ⟨m', C', rfl, -⟩⟩ := he.step le_rfl svd hv₀ c y c2 c3
    ⟨hkv, by omega, by rw [c4]; exact hne⟩ ⟨yv, y2, y3⟩
  obtain ⟨_, _, _, _, hH, -⟩ := he.filter
  refine ⟨e', ⟨⟨n, m⟩, ⟨n, n, C⟩⟩, ⟨⟨1, m'⟩, ⟨1, 1, C'⟩⟩, ?_, ⟨h2, h3, cv.flat, h5, by omega, c4⟩, ⟨hH.n_pos, rfl, rfl⟩, hlen.symm,
    ⟨le_rfl, rfl, rfl⟩, hon.symm⟩
  simp only [Joint.ops, c1, y1, ok_bind, h1]

/-- A dual estimator that fits, with controls at time `t`. -/
def Dual.FitAt (base : Online) (nT nA k : Nat) (IT : HV ℝ → Prop) (IA : Container ℝ × Container ℝ → Prop) (t : ℝ) (e : Dual) : Prop :=
  e.Fit nT nA 1 3 (AtOtherTimes k) IT IA ∧ e.base = base ∧
    ∃ v₀, e.cellW.controlConv.samples1 e.trans.controls.mean = .ok v₀ ∧ e.asohW.controlConv.samples1 e.asoh.controls.mean = .ok v₀ ∧ k ≤ v₀.n ∧
      (List.ofFn v₀.get).getD 0 0 = t

theorem Dual.worksAfter (svd : Mat → Vec × Mat) (base : Online) {nT nA k : Nat} (hk : k ≤ 3) {IT IA} {names : List Name}
    (hn : base.stateNames = .ok names) (hlen : names.length = nT + nA) (ho : base.nOutputs = 1) (hon : base.outputNames.length = 1) :
    (Dual.ops svd).WorksAfter (Dual.FitAt base nT nA k IT IA) names base.outputNames := by
  rintro t₀ e ⟨he, rfl, v₀, hvT, hvA, hkv, rfl⟩
  refine ⟨⟨hn, rfl, ho.trans hon.symm⟩, fun t i T v hne => ?_⟩
  obtain ⟨c, cv, c1, c2, c3, c4⟩ := container3_time t i T
  obtain ⟨y, yv, y1, y2, y3⟩ := container1 v
  obtain ⟨e', s, o, h1, h2, h4, h5, ⟨m, C, rfl, -⟩, ⟨m', C', rfl, -⟩⟩ := he.step le_rfl svd hvT hvA c y c2 c3
    ⟨hkv, by omega, by rw [c4]; exact hne⟩ ⟨yv, y2, y3⟩
  obtain ⟨_, _, _, _, hH, -⟩ := he.filterT
  have h3 : e'.base = e.base := by
    obtain ⟨_, _, _, _, _, _, _, _, _, _, _, _, _, -, -, -, -, -, -, -, -, -, -, -, -, -, -, rfl⟩ := Dual.step_ok h1
    rfl
  have hpos := hH.n_pos
  refine ⟨e', ⟨⟨nT + nA, m⟩, ⟨nT + nA, nT + nA, C⟩⟩, ⟨⟨1, m'⟩, ⟨1, 1, C'⟩⟩, ?_, ⟨h2, h3, cv.flat, h4, h5, by omega, c4⟩,
    ⟨show 1 ≤ nT + nA by omega, rfl, rfl⟩, hlen.symm, ⟨le_rfl, rfl, rfl⟩, hon.symm⟩
  simp only [Dual.ops, c1, y1, ok_bind, h1]

/-- The joint estimator of a circuit is built and can take rows of data at other times than before. -/
theorem joint_task_fits (beh : Behavior) (h : CircuitTask x asoh tr inp measured series a) (he : Estimable asoh.updatableNames measured series a)
    {T A : Arr2 ℝ} (hT : tr.toNumpy = .ok T) (hA : asoh.getParameters none = .ok A) {cov : Mat ⊕ (Mat × Mat)} (hcov : PosDefCov T.ncol A.ncol cov)
    {noise noiseT noiseA sensor : Option Mat} (hq : NoiseFor noise (T.ncol + A.ncol)) (hqT : NoiseFor noiseT T.ncol) (hqA : NoiseFor noiseA A.ncol)
    (hr : NoiseFor sensor 1) {pinv : Mat → Mat} (hpinv : IsPinv pinv) (normalize : Bool) {tune : Tuning}
    (ht : Tuned tune (2 * (T.ncol + A.ncol) + 1)) {V : Arr2 ℝ} (hV : inp.toNumpy = .ok V) :
    ∃ E names, Joint.initializeUkf pinv (Ecm.cell beh x) asoh tr inp cov none noise noiseT noiseA sensor normalize tune = .ok E ∧
      E.FitAt E.base (T.ncol + A.ncol) (2 + (if measured then 1 else 0)) ((List.ofFn V.flat.get).getD 0 0) ∧
      E.base.stateNames = .ok names ∧ names.length = T.ncol + A.ncol ∧ E.base.nOutputs = 1 ∧ E.base.outputNames.length = 1 := by
  obtain ⟨E, names, V', hE, hc, wn, wT, wA, wc, wo, ⟨d, b, hd, hh⟩, hf, hwt, hmod, hV', hVn, hu, n1, n2, n3, n4⟩ :=
    joint_task_parts beh h he hT hA hcov hq hqT hqA hr hpinv normalize ht
  cases hV'.symm.trans hV
  refine ⟨E, names, hE, ⟨?_, rfl, V.flat, ?_, hVn.ge, rfl⟩, n1, n2, n3, n4⟩
  · refine ⟨hf, hwt, ?_, ⟨d, b, hd, hh⟩, ⟨_, _, fun _ => one_ne_zero, wo ▸ identity_rescales 1⟩, fun v _ => ⟨v, by rw [wc]; rfl, by rw [wc]; rfl⟩⟩
    intro u u' v v' hu hu' hR
    obtain ⟨r1, r2, r3⟩ := AtOtherTimes.first (uses_two measured) hR
    have := circuit_pinned hc (wn ▸ he) r1 r2 r3
    rw [wT, wA, ← joint_pin_first hc.inputs] at this
    rw [hmod]
    exact joint_pin_units hd (fun _ => one_ne_zero) hh (wo ▸ identity_rescales 1) hu hu' this
  · rw [wc, hu]
    rfl

/-- The dual estimator of a circuit is built and can take rows of data at other times than before. -/
theorem dual_task_fits (beh : Behavior) (h : CircuitTask x asoh tr inp measured series a) (he : DualEstimable asoh.updatableNames measured series a)
    (hre : ∀ prev, Reaches asoh.updatableNames prev series a.rcs.length)
    {T A : Arr2 ℝ} (hT : tr.toNumpy = .ok T) (hA : asoh.getParameters none = .ok A) (hn : 1 ≤ A.ncol) {covT covA : Mat}
    (hcT : PosDefMat covT T.ncol) (hcA : PosDefMat covA A.ncol)
    {noiseT noiseA sensor : Option Mat} (hqT : NoiseFor noiseT T.ncol) (hqA : NoiseFor noiseA A.ncol)
    (hr : NoiseFor sensor 1) {pinv : Mat → Mat} (hpinv : IsPinv pinv) (normalize : Bool) {tT tA : Tuning}
    (htT : Tuned tT (2 * T.ncol + 1)) (htA : Tuned tA (2 * A.ncol + 1)) {V : Arr2 ℝ} (hV : inp.toNumpy = .ok V) :
    ∃ E IT IA names, Dual.initializeUkf pinv (Ecm.cell beh x) asoh tr inp covT covA none noiseT noiseA sensor normalize tT tA = .ok E ∧
      E.FitAt E.base T.ncol A.ncol (2 + (if measured then 1 else 0)) IT IA ((List.ofFn V.flat.get).getD 0 0) ∧
      E.base.stateNames = .ok names ∧ names.length = T.ncol + A.ncol ∧ E.base.nOutputs = 1 ∧ E.base.outputNames.length = 1 := by
  obtain ⟨E, names, V', hE, hTc, hTh, wn, wT, wA, c1, c2, c3, c4, c5, ⟨d, b, hd, hh⟩, fT, fA, gT, gA, mT, mA, hV', hVn, uT, uA, lT, lA, lm, n1, n2,
    n3, n4⟩ := dual_task_parts beh h he hT hA hn hcT hcA hqT hqA hr hpinv normalize htT htA
  cases hV'.symm.trans hV
  refine ⟨E, fun m => ∃ b, HoldsCircuit x m b ∧ b.rcs.length = a.rcs.length ∧ Estimable [] measured series b,
    fun m => ∃ s, HoldsState m.1 series a.rcs.length s, names, hE, ⟨?_, rfl, V.flat, ?_, ?_, hVn.ge, rfl⟩, n1, n2, n3, n4⟩
  · refine ⟨fT, fA, gT, gA, ?_, ?_, ⟨_, _, fun _ => one_ne_zero, c1 ▸ identity_rescales _⟩, ⟨d, b, hd, hh⟩,
      ⟨_, _, fun _ => one_ne_zero, c3 ▸ identity_rescales 1⟩, ⟨_, _, fun _ => one_ne_zero, c5 ▸ identity_rescales 1⟩,
      fun v _ => ⟨v, by rw [c2]; rfl, by rw [c2]; rfl⟩, fun v _ => ⟨v, by rw [c4]; rfl, by rw [c4]; rfl⟩, lT, fun t _ _ => lA t, lm⟩
    · intro u u' v v' hu hu' hR
      obtain ⟨r1, r2, r3⟩ := AtOtherTimes.first (uses_two measured) hR
      have := tracks_pinned hTc r1 r2 r3
      rw [wT, ← cell_pin_first hTc.inputs] at this
      rw [mT]
      exact cell_pin_units (fun _ => one_ne_zero) (fun _ => one_ne_zero) (c1 ▸ identity_rescales _) (c3 ▸ identity_rescales 1) hu hu' this
    · intro u u' v v' hu hu' hR
      obtain ⟨r1, r2, r3⟩ := AtOtherTimes.first (uses_two measured) hR
      have := health_pinned hTh (wn ▸ he) (wn ▸ hre) r1 r2 r3
      rw [wA, ← health_pin_first hTh.inputs] at this
      rw [mA]
      exact health_pin_units hd (fun _ => one_ne_zero) hh (c5 ▸ identity_rescales 1) hu hu' this
  · rw [c2, uT]
    rfl
  · rw [c4, uA]
    rfl

/-! ## C107 under linear behaviour -/

theorem uses_three (measured : Bool) : 2 + (if measured then 1 else 0) ≤ 3 := by split <;> omega

/-- C107 for joint estimation and currents that change linearly between the rows: as `C107_joint_from_data`, if no two consecutive rows have the same
time.  The first row only counts as a row; the estimator starts from the time in the template of the inputs, from which the time of the second row has
to differ.  (At equal times the code divides by zero, which the model does not represent.) -/
theorem C107_ramped_joint_from_data (h : CircuitTask x asoh tr inp measured series a) (he : Estimable asoh.updatableNames measured series a)
    {T A : Arr2 ℝ} (hT : tr.toNumpy = .ok T) (hA : asoh.getParameters none = .ok A) {cov : Mat ⊕ (Mat × Mat)} (hcov : PosDefCov T.ncol A.ncol cov)
    {noise noiseT noiseA sensor : Option Mat} (hq : NoiseFor noise (T.ncol + A.ncol)) (hqT : NoiseFor noiseT T.ncol) (hqA : NoiseFor noiseA A.ncol)
    (hr : NoiseFor sensor 1) {pinv : Mat → Mat} (hpinv : IsPinv pinv) (normalize : Bool) {tune : Tuning}
    (ht : Tuned tune (2 * (T.ncol + A.ncol) + 1)) (svd : Mat → Vec × Mat) (chunkOf : List Nat → Nat)
    (data : Data) (first : Row) (rest : List Row) (hrows : data.rows = .ok (first :: rest)) (hf : ∀ r ∈ first :: rest, r.Finite)
    {V : Arr2 ℝ} (hV : inp.toNumpy = .ok V) (htimes : RowTimesChange ((List.ofFn V.flat.get).getD 0 0) rest) :
    ∃ E table E' u, Joint.initializeUkf pinv (Ecm.cell .linear x) asoh tr inp cov none noise noiseT noiseA sensor normalize tune = .ok E ∧
      runOnline chunkOf (Joint.ops svd) data E true none = .ok (some table, E', u, none) ∧ table.rows.length = (first :: rest).length := by
  obtain ⟨E, names, hE, hI, n1, n2, n3, n4⟩ := joint_task_fits .linear h he hT hA hcov hq hqT hqA hr hpinv normalize ht hV
  have hw := Joint.worksAfter svd E.base (uses_three measured) n1 n2 n3 n4
  obtain ⟨outs, t', E', k1, k2, k3⟩ := hw.observes (fun r hr => hf r (List.mem_cons_of_mem _ hr)) hI htimes
  obtain ⟨table, u, k4, k5⟩ := run_observed chunkOf hrows (hf first List.mem_cons_self) k1 k3 (hw _ _ hI).1 (hw _ _ k2).1
  exact ⟨E, table, E', u, hE, k4, k5⟩

/-- C107 for joint estimation with a writer and currents that change linearly: as `C107_joint_stored_partial`, if no two consecutive rows have the same
time.  Missing: datasets in files, for which the number of cycles is guessed (C80), see `C107_ramped_joint_stored_from_file_partial`. -/
theorem C107_ramped_joint_stored_partial (h : CircuitTask x asoh tr inp measured series a) (he : Estimable asoh.updatableNames measured series a)
    {T A : Arr2 ℝ} (hT : tr.toNumpy = .ok T) (hA : asoh.getParameters none = .ok A) {cov : Mat ⊕ (Mat × Mat)} (hcov : PosDefCov T.ncol A.ncol cov)
    {noise noiseT noiseA sensor : Option Mat} (hq : NoiseFor noise (T.ncol + A.ncol)) (hqT : NoiseFor noiseT T.ncol) (hqA : NoiseFor noiseA A.ncol)
    (hr : NoiseFor sensor 1) {pinv : Mat → Mat} (hpinv : IsPinv pinv) (normalize : Bool) {tune : Tuning}
    (ht : Tuned tune (2 * (T.ncol + A.ncol) + 1)) (svd : Mat → Vec × Mat) (chunkOf : List Nat → Nat) (hchunk : ∀ l, 1 ≤ chunkOf l)
    (cols : List Name) (r₀ : List Num) (raw : List (List Num)) (hf : ∀ r ∈ r₀ :: raw, Row.Finite (cols.zip r))
    (hcyc : ∀ r ∈ r₀ :: raw, ∃ c : ℕ, lookupKey "cycle_number".toList (cols.zip r) = some (.fin (c : ℝ)))
    (w : Writer) (hfresh : lookupKey w.storageKey w.root = none)
    {V : Arr2 ℝ} (hV : inp.toNumpy = .ok V) (htimes : RowTimesChange ((List.ofFn V.flat.get).getD 0 0) (raw.map fun r => cols.zip r)) :
    ∃ E table E' u w', Joint.initializeUkf pinv (Ecm.cell .linear x) asoh tr inp cov none noise noiseT noiseA sensor normalize tune = .ok E ∧
      runOnline chunkOf (Joint.ops svd) (.memory (some (cols, r₀ :: raw))) E true (some w) = .ok (some table, E', u, some w') ∧
      table.rows.length = (r₀ :: raw).length := by
  obtain ⟨E, names, hE, hI, n1, n2, n3, n4⟩ := joint_task_fits .linear h he hT hA hcov hq hqT hqA hr hpinv normalize ht hV
  have hw := Joint.worksAfter svd E.base (uses_three measured) n1 n2 n3 n4
  obtain ⟨μ, P, _, _, hH, -⟩ := hI.1.filter
  have hst : ((Joint.ops svd).info E).state = .ok E.filter.hidden := rfl
  rw [hH.hidden] at hst
  have hall : ∀ r ∈ cols.zip r₀ :: raw.map (fun r => cols.zip r), ∃ y ∈ r₀ :: raw, cols.zip y = r := fun r hr => by
    rwa [← List.map_cons (f := fun r => cols.zip r), List.mem_map] at hr
  have hf' : ∀ r ∈ cols.zip r₀ :: raw.map (fun r => cols.zip r), Row.Finite r := fun r hr => by
    obtain ⟨y, hy, rfl⟩ := hall r hr
    exact hf y hy
  obtain ⟨outs, t', E', k1, k2, k3⟩ := hw.observes (fun r hr => hf' r (List.mem_cons_of_mem _ hr)) hI htimes
  obtain ⟨table, u, w', k4, k5⟩ := run_stored_observed chunkOf hchunk (data := .memory (some (cols, r₀ :: raw))) rfl hf' k1 k3 (hw _ _ hI).1 (hw _ _ k2).1
    _ hst ⟨hH.n_pos, rfl, rfl⟩ n2.symm
    (fun r hr => by obtain ⟨y, hy, rfl⟩ := hall r hr; exact hcyc y hy) w hfresh (.inr rfl) fun ss hss => memory_fits ss hss
  exact ⟨E, table, E', u, w', hE, k4, by rw [k5]; simp⟩

/-- C107 for joint estimation from a file with a writer that can grow and currents that change linearly: as `C107_joint_stored_from_file_partial`, if no
two consecutive rows have the same time.  Missing: writers that cannot grow, and cycle numbers from 128 that follow after a gap (C80). -/
theorem C107_ramped_joint_stored_from_file_partial (h : CircuitTask x asoh tr inp measured series a)
    (he : Estimable asoh.updatableNames measured series a)
    {T A : Arr2 ℝ} (hT : tr.toNumpy = .ok T) (hA : asoh.getParameters none = .ok A) {cov : Mat ⊕ (Mat × Mat)} (hcov : PosDefCov T.ncol A.ncol cov)
    {noise noiseT noiseA sensor : Option Mat} (hq : NoiseFor noise (T.ncol + A.ncol)) (hqT : NoiseFor noiseT T.ncol) (hqA : NoiseFor noiseA A.ncol)
    (hr : NoiseFor sensor 1) {pinv : Mat → Mat} (hpinv : IsPinv pinv) (normalize : Bool) {tune : Tuning}
    (ht : Tuned tune (2 * (T.ncol + A.ncol) + 1)) (svd : Mat → Vec × Mat) (chunkOf : List Nat → Nat) (hchunk : ∀ l, 1 ≤ chunkOf l)
    (first : Row) (rest : List Row) (hf : ∀ r ∈ first :: rest, r.Finite)
    (hcyc : ∀ r ∈ first :: rest, ∃ c : ℕ, lookupKey "cycle_number".toList r = some (.fin (c : ℝ)))
    (hgr : ∀ pre row post, rest = pre ++ row :: post → ∀ c : ℕ, lookupKey "cycle_number".toList row = some (.fin (c : ℝ)) →
      c < 128 ∨ ∃ row' ∈ pre, ∃ c' : ℕ, lookupKey "cycle_number".toList row' = some (.fin (c' : ℝ)) ∧ c ≤ c' + 1)
    (w : Writer) (hfresh : lookupKey w.storageKey w.root = none) (hres : w.resizable = true)
    {V : Arr2 ℝ} (hV : inp.toNumpy = .ok V) (htimes : RowTimesChange ((List.ofFn V.flat.get).getD 0 0) rest) :
    ∃ E table E' u w', Joint.initializeUkf pinv (Ecm.cell .linear x) asoh tr inp cov none noise noiseT noiseA sensor normalize tune = .ok E ∧
      runOnline chunkOf (Joint.ops svd) (.file (first :: rest)) E true (some w) = .ok (some table, E', u, some w') ∧
      table.rows.length = rest.length + 1 := by
  obtain ⟨E, names, hE, hI, n1, n2, n3, n4⟩ := joint_task_fits .linear h he hT hA hcov hq hqT hqA hr hpinv normalize ht hV
  have hw := Joint.worksAfter svd E.base (uses_three measured) n1 n2 n3 n4
  obtain ⟨μ, P, _, _, hH, -⟩ := hI.1.filter
  have hst : ((Joint.ops svd).info E).state = .ok E.filter.hidden := rfl
  rw [hH.hidden] at hst
  obtain ⟨outs, t', E', k1, k2, k3⟩ := hw.observes (fun r hr => hf r (List.mem_cons_of_mem _ hr)) hI htimes
  obtain ⟨table, u, w', k4, k5⟩ := run_stored_observed chunkOf hchunk (data := .file (first :: rest)) rfl hf k1 k3 (hw _ _ hI).1 (hw _ _ k2).1
    _ hst ⟨hH.n_pos, rfl, rfl⟩ n2.symm hcyc w hfresh (.inl hres) (file_fits hgr)
  exact ⟨E, table, E', u, w', hE, k4, k5⟩

/-- C107 for dual estimation, where it works, and currents that change linearly: as `C107_dual_from_data_partial`, if no two consecutive rows have the
same time.  Missing: parameters that do not always take part in the voltage, with which a step raises (`C106_unreached_raises`). -/
theorem C107_ramped_dual_from_data_partial (h : CircuitTask x asoh tr inp measured series a) (he : DualEstimable asoh.updatableNames measured series a)
    (hre : ∀ prev, Reaches asoh.updatableNames prev series a.rcs.length)
    {T A : Arr2 ℝ} (hT : tr.toNumpy = .ok T) (hA : asoh.getParameters none = .ok A) (hn : 1 ≤ A.ncol) {covT covA : Mat}
    (hcT : PosDefMat covT T.ncol) (hcA : PosDefMat covA A.ncol)
    {noiseT noiseA sensor : Option Mat} (hqT : NoiseFor noiseT T.ncol) (hqA : NoiseFor noiseA A.ncol)
    (hr : NoiseFor sensor 1) {pinv : Mat → Mat} (hpinv : IsPinv pinv) (normalize : Bool) {tT tA : Tuning}
    (htT : Tuned tT (2 * T.ncol + 1)) (htA : Tuned tA (2 * A.ncol + 1)) (svd : Mat → Vec × Mat) (chunkOf : List Nat → Nat)
    (data : Data) (first : Row) (rest : List Row) (hrows : data.rows = .ok (first :: rest)) (hf : ∀ r ∈ first :: rest, r.Finite)
    {V : Arr2 ℝ} (hV : inp.toNumpy = .ok V) (htimes : RowTimesChange ((List.ofFn V.flat.get).getD 0 0) rest) :
    ∃ E table E' u, Dual.initializeUkf pinv (Ecm.cell .linear x) asoh tr inp covT covA none noiseT noiseA sensor normalize tT tA = .ok E ∧
      runOnline chunkOf (Dual.ops svd) data E true none = .ok (some table, E', u, none) ∧ table.rows.length = (first :: rest).length := by
  obtain ⟨E, IT, IA, names, hE, hI, n1, n2, n3, n4⟩ := dual_task_fits .linear h he hre hT hA hn hcT hcA hqT hqA hr hpinv normalize htT htA hV
  have hw := Dual.worksAfter svd E.base (uses_three measured) (IT := IT) (IA := IA) n1 n2 n3 n4
  obtain ⟨outs, t', E', k1, k2, k3⟩ := hw.observes (fun r hr => hf r (List.mem_cons_of_mem _ hr)) hI htimes
  obtain ⟨table, u, k4, k5⟩ := run_observed chunkOf hrows (hf first List.mem_cons_self) k1 k3 (hw _ _ hI).1 (hw _ _ k2).1
  exact ⟨E, table, E', u, hE, k4, k5⟩

end

/-! ## The concrete circuit -/

theorem Demo.dataset_times (xs : List (ℝ × ℝ × ℝ × ℕ)) : ∀ t, (t :: xs.map (·.1)).IsChain (· ≠ ·) →
    RowTimesChange t (xs.map fun x => Verif.Demo.readingCols.zip (Verif.Demo.reading x)) := by
  induction xs with
  | nil => exact fun _ _ => trivial
  | cons x xs ih =>
    intro t h
    obtain ⟨h1, h2⟩ := List.isChain_cons_cons.1 h
    exact ⟨x.1, rfl, fun h => h1 h.symm, ih _ h2⟩

-- The open-circuit voltage and R0 of the concrete circuit under linearly changing currents, estimated with all defaults jointly and dually from any
-- dataset in memory in which the time of the second row is not 0 (the time of the template) and no row has the time of the row before; jointly also
-- with a writer on any file without estimates.
example (svd : Mat → Vec × Mat) (chunkOf : List Nat → Nat) (hchunk : ∀ l, 1 ≤ chunkOf l) (normalize : Bool) (y : ℝ × ℝ × ℝ × ℕ)
    (xs : List (ℝ × ℝ × ℝ × ℕ)) (ht : (0 :: xs.map (·.1)).IsChain (· ≠ ·)) (w : Writer) (hw : lookupKey w.storageKey w.root = none) :
    ∃ pinv, IsPinv pinv ∧
      (∃ E table E' u, Joint.initializeUkf pinv (Ecm.cell .linear Demo.fixed) (Demo.hvUpdating [kOcv, kR0] [kBase]) Demo.hvState Demo.coldInput
          (.inl ⟨6, 6, 1⟩) none none none none none normalize ⟨1, some 0, 2⟩ = .ok E ∧
        runOnline chunkOf (Joint.ops svd) (Verif.Demo.dataset (y :: xs)) E true none = .ok (some table, E', u, none) ∧
        table.rows.length = xs.length + 1) ∧
      (∃ E table E' u w', Joint.initializeUkf pinv (Ecm.cell .linear Demo.fixed) (Demo.hvUpdating [kOcv, kR0] [kBase]) Demo.hvState Demo.coldInput
          (.inl ⟨6, 6, 1⟩) none none none none none normalize ⟨1, some 0, 2⟩ = .ok E ∧
        runOnline chunkOf (Joint.ops svd) (Verif.Demo.dataset (y :: xs)) E true (some w) = .ok (some table, E', u, some w') ∧
        table.rows.length = xs.length + 1) ∧
      ∃ E table E' u, Dual.initializeUkf pinv (Ecm.cell .linear Demo.fixed) (Demo.hvUpdating [kOcv, kR0] [kBase]) Demo.hvState Demo.coldInput
          ⟨3, 3, 1⟩ ⟨3, 3, 1⟩ none none none none normalize ⟨1, some 0, 2⟩ ⟨1, some 0, 2⟩ = .ok E ∧
        runOnline chunkOf (Dual.ops svd) (Verif.Demo.dataset (y :: xs)) E true none = .ok (some table, E', u, none) ∧
        table.rows.length = xs.length + 1 := by
  obtain ⟨pinv, hp⟩ := exists_pinv
  have hrows := Verif.Demo.dataset_rows (y :: xs)
  have hf : ∀ r ∈ (y :: xs).map (fun x => Verif.Demo.readingCols.zip (Verif.Demo.reading x)), Row.Finite r := by
    intro r hr
    obtain ⟨y, -, rfl⟩ := List.mem_map.1 hr
    exact Verif.Demo.reading_finite y
  have hn := Demo.none_fits
  have hV : Demo.coldInput.toNumpy = .ok (.ofRow [0, 1]) := rfl
  have htimes := Demo.dataset_times xs 0 ht
  refine ⟨pinv, hp, ?_, ?_, ?_⟩
  · obtain ⟨E, table, E', u, k1, k2, k3⟩ := C107_ramped_joint_from_data Demo.cold_task Demo.cold_estimable.1 rfl rfl (.whole (Demo.one_posDef 6)) (hn _)
      (hn _) (hn _) (hn _) hp normalize (tuned_default (by omega)) svd chunkOf _ _ _ hrows hf hV htimes
    exact ⟨E, table, E', u, k1, k2, by rw [k3]; simp⟩
  · obtain ⟨E, table, E', u, w', k1, k2, k3⟩ := C107_ramped_joint_stored_partial Demo.cold_task Demo.cold_estimable.1 rfl rfl
      (.whole (Demo.one_posDef 6)) (hn _) (hn _) (hn _) (hn _) hp normalize (tuned_default (by omega)) svd chunkOf hchunk Verif.Demo.readingCols
      (Verif.Demo.reading y) (xs.map Verif.Demo.reading) (by
        intro r hr
        obtain ⟨z, -, rfl⟩ := List.mem_map.1 (show r ∈ (y :: xs).map Verif.Demo.reading from hr)
        exact Verif.Demo.reading_finite z) (by
        intro r hr
        obtain ⟨z, -, rfl⟩ := List.mem_map.1 (show r ∈ (y :: xs).map Verif.Demo.reading from hr)
        exact ⟨_, Verif.Demo.reading_cycle z⟩) w hw hV (by rw [List.map_map]; exact htimes)
    exact ⟨E, table, E', u, w', k1, k2, by rw [k3]; simp⟩
  · obtain ⟨E, table, E', u, k1, k2, k3⟩ := C107_ramped_dual_from_data_partial Demo.cold_task Demo.cold_estimable
      (Demo.trackingHealth_reaches .linear .identity) rfl rfl (by show 1 ≤ 3; decide) (Demo.one_posDef 3) (Demo.one_posDef 3) (hn _) (hn _) (hn _) hp
      normalize (tuned_default (by omega)) (tuned_default (by omega)) svd chunkOf _ _ _ hrows hf hV htimes
    exact ⟨E, table, E', u, k1, k2, by rw [k3]; simp⟩

-- The same from a file of readings of cycles before the 128th.
example (svd : Mat → Vec × Mat) (chunkOf : List Nat → Nat) (hchunk : ∀ l, 1 ≤ chunkOf l) (y : ℝ × ℝ × ℝ × ℕ) (xs : List (ℝ × ℝ × ℝ × ℕ))
    (ht : (0 :: xs.map (·.1)).IsChain (· ≠ ·)) (hxs : ∀ x ∈ xs, x.2.2.2 < 128) (w : Writer) (hw : lookupKey w.storageKey w.root = none)
    (hres : w.resizable = true) :
    ∃ pinv E table E' u w', Joint.initializeUkf pinv (Ecm.cell .linear Demo.fixed) (Demo.hvUpdating [kOcv, kR0] [kBase]) Demo.hvState Demo.coldInput
        (.inl ⟨6, 6, 1⟩) none none none none none true ⟨1, some 0, 2⟩ = .ok E ∧
      runOnline chunkOf (Joint.ops svd) (Verif.Demo.datafile (y :: xs)) E true (some w) = .ok (some table, E', u, some w') ∧
      table.rows.length = xs.length + 1 := by
  obtain ⟨pinv, hp⟩ := exists_pinv
  have hn := Demo.none_fits
  obtain ⟨E, table, E', u, w', k1, k2, k3⟩ := C107_ramped_joint_stored_from_file_partial Demo.cold_task Demo.cold_estimable.1 rfl rfl
    (.whole (Demo.one_posDef 6)) (hn _) (hn _) (hn _) (hn _) hp true (tuned_default (by omega)) svd chunkOf hchunk
    (Verif.Demo.readingCols.zip (Verif.Demo.reading y)) (xs.map fun x => Verif.Demo.readingCols.zip (Verif.Demo.reading x)) (by
      intro r hr
      obtain ⟨z, -, rfl⟩ := List.mem_map.1 (show r ∈ (y :: xs).map fun x => Verif.Demo.readingCols.zip (Verif.Demo.reading x) from hr)
      exact Verif.Demo.reading_finite z) (by
      intro r hr
      obtain ⟨z, -, rfl⟩ := List.mem_map.1 (show r ∈ (y :: xs).map fun x => Verif.Demo.readingCols.zip (Verif.Demo.reading x) from hr)
      exact ⟨_, Verif.Demo.reading_cycle z⟩) (by
      intro pre row post hpre c hc
      obtain ⟨z, hz, rfl⟩ := List.mem_map.1 (show row ∈ xs.map fun x => Verif.Demo.readingCols.zip (Verif.Demo.reading x) by rw [hpre]; simp)
      rw [Verif.Demo.reading_cycle z] at hc
      have : (z.2.2.2 : ℝ) = c := by injection hc with h; injection h
      exact .inl (Nat.cast_inj.1 this ▸ hxs z hz)) w hw hres (V := .ofRow [0, 1]) rfl (Demo.dataset_times xs 0 ht)
  exact ⟨pinv, E, table, E', u, w', k1, k2, by rw [k3, List.length_map]⟩

end Verif
