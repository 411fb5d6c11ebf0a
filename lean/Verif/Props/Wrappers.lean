import Verif.Proofs.Wrappers
/-!
# Wrappers between cell models and filters: C55, C56
-/

namespace Verif
open Matrix

/-! ## Specification -/

/-- The converter is a bijection between filter states and model states of dimension `k`, for arrays of any number of rows. -/
structure Operator.Invertible (op : Operator) (k : Nat) : Prop where
  there : ∀ X : Mat, X.n = k → ∃ Y, op.samples2 X = .ok Y ∧ Y.m = X.m ∧ Y.n = k ∧ op.invSamples2 Y = .ok X
  back : ∀ Y : Mat, Y.n = k → ∃ X, op.invSamples2 Y = .ok X ∧ X.m = Y.m ∧ X.n = k ∧ op.samples2 X = .ok Y

/-- What is assumed of a joint wrapper: a template without batch, distinct updatable parameters, and the widths computed from the
templates.  (`ready_of_make`: the constructor establishes it.) -/
structure JointWrapper.Ready (w : JointWrapper) : Prop where
  asoh_wf : w.asoh.WF
  asoh_single : Spec.Unbatched w.asoh
  names_updatable : ∀ n ∈ w.names, n ∈ w.asoh.updatableNames
  names_distinct : w.names.Nodup
  transients_wf : w.transients.WF
  transients_held : Spec.held w.transients ≠ []
  nTransients_eq : ∃ T, w.transients.toNumpy = .ok T ∧ T.ncol = w.nTransients
  nAsoh_eq : ∃ A, w.asoh.getParameters (some w.names) = .ok A ∧ A.ncol = w.nAsoh

/-- Another state of health has the selected parameters of the template, with their widths. -/
def JointWrapper.Selects (w : JointWrapper) (asoh : HV ℝ) : Prop :=
  ∀ n ∈ w.names, ∃ p x y, pathName p = n ∧ IsParam asoh p x ∧ IsParam w.asoh p y ∧ x.ncol = y.ncol

/-- The same wrapper without any conversion. -/
def BaseWrapper.plain (b : BaseWrapper) : BaseWrapper := { b with hiddenConv := .identity, controlConv := .identity, outputConv := .identity }
/-- The same wrapper without any conversion. -/
def JointWrapper.plain (w : JointWrapper) : JointWrapper := { w with toBaseWrapper := w.toBaseWrapper.plain }
/-- The same wrapper without any conversion. -/
def CellWrapper.plain (w : CellWrapper) : CellWrapper := { w with toBaseWrapper := w.toBaseWrapper.plain }
/-- The same wrapper without any conversion. -/
def DegradationWrapper.plain (w : DegradationWrapper) : DegradationWrapper := { w with toBaseWrapper := w.toBaseWrapper.plain }

/-! ## Invertible converters -/

theorem identity_invertible (k : Nat) : Operator.identity.Invertible k :=
  ⟨fun X h => ⟨X, rfl, rfl, h, rfl⟩, fun X h => ⟨X, rfl, rfl, h, rfl⟩⟩

theorem scalar_invertible {k : Nat} (c : ℝ) (hc : c ≠ 0) (b : Vec) (hb : Fits b k) : (Operator.linearScalar c b).Invertible k := by
  obtain ⟨b', _, hb2⟩ := hb.row
  have f : ∀ m (X : Matrix (Fin m) (Fin k) ℝ), (Operator.linearScalar c b).samples2 ⟨m, k, X⟩ = .ok ⟨m, k, fun i j => c * X i j + b' j⟩ :=
    fun m X => hb2 (· + ·) m fun i j => c * X i j
  have g : ∀ m (X : Matrix (Fin m) (Fin k) ℝ), (Operator.linearScalar c b).invSamples2 ⟨m, k, X⟩ =
      .ok ⟨m, k, fun i j => (X i j - b' j) * (1 / c)⟩ := by
    intro m X
    show (do return (← Mat.bop (· - ·) ⟨m, k, X⟩ (.ofRow b)).map (· * (1 / c)) : Except Err Mat) = _
    rw [hb2]; rfl
  constructor
  · rintro ⟨m, n, X⟩ h
    simp only at h
    subst h
    refine ⟨_, f m X, rfl, rfl, (g m _).trans ?_⟩
    refine congrArg (fun M => Except.ok (Mat.mk m n M)) ?_
    funext i j
    simp only [add_sub_cancel_right]
    field_simp
  · rintro ⟨m, n, X⟩ h
    simp only at h
    subst h
    refine ⟨_, g m X, rfl, rfl, (f m _).trans ?_⟩
    refine congrArg (fun M => Except.ok (Mat.mk m n M)) ?_
    funext i j
    field_simp
    ring

theorem matrix_invertible {pinv : Mat → Mat} (hpinv : IsPinv pinv) {k : Nat} (M : Matrix (Fin k) (Fin k) ℝ) (hM : M.det ≠ 0) (b : Vec)
    (hb : Fits b k) : (Operator.linear pinv ⟨k, k, M⟩ b).Invertible k := by
  obtain ⟨P, hP, _⟩ := hpinv k k M
  obtain ⟨b', _, f2, _, _, i2, _⟩ := linear_acts hP hb
  constructor
  · rintro ⟨m, n, X⟩ h
    simp only at h
    subst h
    have := (C45_samples_round_trip hpinv (m := m) M hM b hb (fun _ => 0) X).2.2.1
    rw [f2, ok_bind] at this
    exact ⟨_, f2 m X, rfl, rfl, this⟩
  · rintro ⟨m, n, X⟩ h
    simp only at h
    subst h
    have := (C45_samples_round_trip hpinv (m := m) M hM b hb (fun _ => 0) X).2.2.2
    rw [i2, ok_bind] at this
    exact ⟨_, i2 m X, rfl, rfl, this⟩

/-- The converters of `normalize_asoh` (and any others given by one factor per coordinate). -/
theorem factors_invertible {pinv : Mat → Mat} (hpinv : IsPinv pinv) {k : Nat} (d : Fin k → ℝ) (hd : ∀ i, d i ≠ 0) (b : Vec)
    (hb : Fits b k) : (Operator.linear1d pinv ⟨k, d⟩ b).Invertible k := by
  unfold Operator.linear1d
  rw [Mat.diag_of]
  exact matrix_invertible hpinv _ (by rw [Matrix.det_diagonal]; exact Finset.prod_ne_zero_iff.2 fun i _ => hd i) b hb

/-! ## The constructor -/

theorem unbatched_of_batchSize {m : HV ℝ} (hpos : ∀ p a, IsParam m p a → 1 ≤ a.nrow) {b : Nat} (hb : m.batchSize = .ok b)
    (h : ¬ b > 1) : Spec.Unbatched m := by
  intro p a hp
  have := (((C12_batch_size m hpos).1 b).1 hb).1 p a hp
  have := hpos p a hp
  omega

theorem ready_of_make {cell : Cell} {asoh : HV ℝ} {transients inputs : Container ℝ} {names : Option (List Name)} {deg : Degradation}
    {ch cc co : Operator} {w : JointWrapper} (hm : JointWrapper.make cell asoh transients inputs names deg ch cc co = .ok w)
    (ha : asoh.WF) (hpos : ∀ p a, IsParam asoh p a → 1 ≤ a.nrow) (hns : ∀ ns, names = some ns → ns.Nodup ∧ ∀ n ∈ ns, n ∈ asoh.updatableNames)
    (ht : transients.WF) (hne : Spec.held transients ≠ []) : w.Ready := by
  simp only [JointWrapper.make, BaseWrapper.make] at hm
  cases hba : asoh.batchSize with
  | error e => rw [hba] at hm; cases hm
  | ok ba =>
  cases hbt : transients.batchSize with
  | error e => rw [hba] at hm; simp only [hbt, ok_bind, error_bind] at hm; split at hm <;> cases hm
  | ok bt =>
  rw [hba, hbt] at hm
  simp only [ok_bind] at hm
  by_cases h1 : ba > 1
  · rw [if_pos h1] at hm; cases hm
  by_cases h2 : bt > 1
  · rw [if_neg h1, if_pos h2] at hm; cases hm
  rw [if_neg h1, if_neg h2] at hm
  cases hy : cell.output inputs transients asoh with
  | error e => rw [hy] at hm; cases hm
  | ok y =>
  cases hv : y.toNumpy with
  | error e => rw [hy] at hm; simp only [hv, ok_bind, error_bind] at hm; cases hm
  | ok v =>
  cases hT : transients.toNumpy with
  | error e => rw [hy] at hm; simp only [hv, hT, ok_bind, error_bind, pure_eq_ok] at hm; cases hm
  | ok T =>
  cases hA : asoh.getParameters (some (names.getD asoh.updatableNames)) with
  | error e => rw [hy] at hm; simp only [hv, hT, hA, ok_bind, error_bind, pure_eq_ok] at hm; cases hm
  | ok A =>
  rw [hy] at hm
  simp only [hv, hT, hA, ok_bind, pure_eq_ok] at hm
  cases hm
  refine ⟨ha, unbatched_of_batchSize hpos hba h1, ?_, ?_, ht, hne, ⟨T, hT, rfl⟩, ⟨A, hA, rfl⟩⟩
  · cases names with
    | none => exact fun n hn => hn
    | some ns => exact (hns ns rfl).2
  · cases names with
    | none => exact (C02_names_distinct asoh ha).2
    | some ns => exact (hns ns rfl).1

/-! ## A concrete wrapper -/

namespace Demo

/-- A state of health with one estimated number `q` and a fixed pair `r`. -/
def health : HV ℝ := .mk [['q']] [(['q'], .arr (.ofRow [5])), (['r'], .arr (.ofRow [1, 2]))]

/-- One transient number `x`, and a field without value. -/
def trans : Container ℝ := ⟨[(['x'], some (.ofRow [3])), (['h'], none)]⟩

/-- One input `i`. -/
def inp : Container ℝ := ⟨[(['i'], some (.ofRow [1]))]⟩

/-- A cell at rest showing its transient number as `v`. -/
def restCell : Cell where
  update _ _ tr _ := .ok tr
  output _ tr _ := .ok ⟨(Spec.held tr).map fun p => (['v'], some p.2)⟩

/-- Its joint wrapper, as `make` builds it. -/
def joint (op : Operator) : JointWrapper :=
  ⟨⟨restCell, health, trans, inp, op, .identity, .identity, 1⟩, [['q']], 1, 1, NoDegradation _ _ _ _⟩

theorem health_wf : health.WF := by
  rw [health, WF_iff]
  refine ⟨by decide, ?_, ?_⟩
  · intro k f h; simp at h; rcases h with ⟨rfl, _⟩ | ⟨rfl, _⟩ <;> decide
  · intro k f h; simp at h; rcases h with ⟨_, rfl⟩ | ⟨_, rfl⟩ <;> trivial

theorem health_single : Spec.Unbatched health := by
  intro p a h
  have := mem_iterParams_false.2 ⟨p, h, rfl⟩
  have hd : iterParams false health = [(['q'], .ofRow [5]), (['r'], .ofRow [1, 2])] := rfl
  rw [hd] at this
  simp at this
  rcases this with ⟨_, rfl⟩ | ⟨_, rfl⟩ <;> rfl

theorem trans_wf : trans.WF := by
  refine ⟨by decide, ?_⟩
  intro k f h
  simp [trans] at h
  rcases h with ⟨rfl, _⟩ | ⟨rfl, _⟩ <;> decide

theorem joint_made (op : Operator) : JointWrapper.make restCell health trans inp none (NoDegradation _ _ _ _) op .identity .identity =
    .ok (joint op) := rfl

theorem joint_ready (op : Operator) : (joint op).Ready :=
  ready_of_make (joint_made op) health_wf (fun p a h => (health_single p a h).ge) nofun trans_wf (by simp [trans, Spec.held])

end Demo

/-! ## C55 -/

theorem hcat_nrow {α : Type} {l : List (Arr2 α)} {B : Nat} (hne : l ≠ []) (h : ∀ a ∈ l, a.nrow = B) :
    ∃ v, Arr2.hcat l = .ok v ∧ v.nrow = B := by
  induction l with
  | nil => exact absurd rfl hne
  | cons a l ih =>
    cases l with
    | nil => exact ⟨a, rfl, h a (by simp)⟩
    | cons b l =>
      obtain ⟨w, hw1, hw2⟩ := ih (by simp) (fun x hx => h x (by simp [hx]))
      rw [Arr2.hcat, hw1]
      have ha := h a (by simp)
      have hc : Arr2.hcat2 a w = .ok ⟨a.ncol + w.ncol, List.zipWith (· ++ ·) a.rows w.rows, _⟩ := if_pos (by rw [ha, hw2])
      refine ⟨_, hc, ?_⟩
      simp only [Arr2.nrow, List.length_zipWith] at ha hw2 ⊢
      omega

theorem expandTo_nrow {α : Type} {a : Arr2 α} {B : Nat} (hB : 1 ≤ B) (h : a.nrow = 1 ∨ a.nrow = B) : (expandTo B a).nrow = B := by
  unfold expandTo
  split
  · rename_i h'
    have hlen : a.rows.length = 1 := h'.2
    obtain ⟨r, hr⟩ := List.length_eq_one_iff.1 hlen
    simp [Arr2.repeatRows, Arr2.nrow, hr]
  · omega

/-- A container whose values have one row or `B` rows each can be read. -/
theorem toNumpy_nrow {c : Container ℝ} {B : Nat} (hne : Spec.held c ≠ []) (hpos : ∀ q ∈ Spec.held c, 1 ≤ q.2.nrow)
    (hB : c.batchSize = .ok B) : ∃ T, c.toNumpy = .ok T ∧ T.nrow = B := by
  rw [toNumpy_eq hB]
  refine hcat_nrow (by simpa using hne) ?_
  intro a ha
  obtain ⟨q, hq, rfl⟩ := List.mem_map.1 ha
  have hB' := hB
  unfold Container.batchSize at hB'
  rw [present_eq, batchLoop_ok (by omega) (by
    intro n hn
    obtain ⟨q, hq, rfl⟩ := List.mem_map.1 hn
    exact hpos q hq)] at hB'
  have h := hB'.1 q.2.nrow (List.mem_cons_of_mem _ (List.mem_map_of_mem (f := fun p => p.2.nrow) hq))
  exact expandTo_nrow (batchLoop_ge hB) (by omega)

/-- C55.  Hidden states made of a state of health and transient states of any batch size `B` give back those transient states
and the selected parameters (single rows repeated for the batch), and all other parameters are those of the wrapper's template. -/
theorem C55_objects_to_hidden_and_back (w : JointWrapper) (hw : w.Ready) (hop : w.hiddenConv.Invertible (w.nTransients + w.nAsoh))
    (asoh : HV ℝ) (hwf : asoh.WF) (hpos : ∀ p a, IsParam asoh p a → 1 ≤ a.nrow) (hsel : w.Selects asoh)
    (transients : Container ℝ) (hlay : Spec.SameLayout transients w.transients) (htpos : ∀ q ∈ Spec.held transients, 1 ≤ q.2.nrow)
    (B : Nat) (hB : asoh.batchSize = .ok B) (htB : transients.batchSize = .ok B) :
    ∃ h asoh' transients', w.createHidden asoh transients = .ok h ∧ h.m = B ∧ h.n = w.nTransients + w.nAsoh ∧
      w.createInputs h = .ok (asoh', transients') ∧
      transients'.fields = transients.fields.map (fun p => (p.1, p.2.map (Spec.broadcast B))) ∧
      (∀ p x, IsParam asoh p x → pathName p ∈ w.names → IsParam asoh' p (Spec.broadcast B x)) ∧
      (∀ p x, pathName p ∉ w.names → (IsParam asoh' p x ↔ IsParam w.asoh p x)) := by
  have hB1 : 1 ≤ B := batchSize_pos hB
  have hnd : (transients.fields.map (·.1)).Nodup := by
    have h := congrArg (List.map Prod.fst) hlay
    simp only [List.map_map, Function.comp_def] at h
    rw [h]; exact hw.transients_wf.1
  have hheld : Spec.held transients ≠ [] := by
    have h := held_layout hlay
    intro h0
    have h0' : Spec.held ⟨transients.fields⟩ = [] := h0
    rw [h0'] at h
    exact hw.transients_held (by simpa using h.symm)
  obtain ⟨T, hT, hTr⟩ := toNumpy_nrow hheld htpos htB
  obtain ⟨T0, hT0, hT0n⟩ := hw.nTransients_eq
  obtain ⟨A0, hA0, hA0n⟩ := hw.nAsoh_eq
  have hTn : T.ncol = w.nTransients := by
    rw [toNumpy_len hnd hT, len_layout hnd hlay, ← toNumpy_len hw.transients_wf.1 hT0, hT0n]
  have hnames : ∀ n ∈ w.names, n ∈ asoh.allNames := by
    intro n hn
    obtain ⟨p, x, y, rfl, hx, _, _⟩ := hsel n hn
    exact mem_allNames.2 ⟨p, x, hx, rfl⟩
  obtain ⟨A, hA, hAr⟩ := C12_vector_has_batch_rows asoh hwf hpos B hB w.names hnames
  have hup : ∀ n ∈ w.names, n ∈ w.asoh.allNames := fun n hn => updatable_subset (hw.names_updatable n hn)
  have htot : totalSize w.asoh w.names = w.nAsoh := by rw [width_eq hw.asoh_wf hw.asoh_single hup hA0, hA0n]
  -- the blocks of the vector
  have hval : ∀ n ∈ w.names, (expandTo B (valueAt asoh n)).ncol = sizeAt w.asoh n := by
    intro n hn
    obtain ⟨p, x, y, rfl, hx, hy, hxy⟩ := hsel n hn
    rw [expandTo_ncol, valueAt_eq hwf (mem_iterParams_false.2 ⟨p, hx, rfl⟩), sizeAt_unbatched hw.asoh_wf hw.asoh_single hy, hxy]
  have hslices : A.slices 0 (w.names.map (sizeAt w.asoh)) = w.names.map fun n => expandTo B (valueAt asoh n) := by
    by_cases hne : w.names = []
    · rw [hne]; rfl
    · rw [getParameters_names hwf hne hnames hB] at hA
      have := Arr2.slices_hcat hA
      rw [List.map_map] at this
      rw [← this]
      congr 1
      apply List.map_congr_left
      intro n hn
      exact (hval n hn).symm
  have hAn : A.ncol = w.nAsoh := by
    rw [← htot]
    by_cases hne : w.names = []
    · rw [hne] at hA ⊢
      simp only [HV.getParameters, Option.getD_some, if_true, hB] at hA
      cases hA; rfl
    · rw [getParameters_names hwf hne hnames hB] at hA
      rw [hcat_ncol hA, List.map_map]
      unfold totalSize
      congr 1
      apply List.map_congr_left
      intro n hn
      exact hval n hn
  obtain ⟨j, hj, hjr, hjn, hj1, hj2⟩ := Arr2.hcat_pair (a := T) (b := A) (by rw [hTr, hAr])
  obtain ⟨h, hh, hhm, hhn, hback⟩ := hop.back j.toMat (by rw [Arr2.toMat_n, hjn, hTn, hAn])
  obtain ⟨a', m1, m2, m3, _, m5, m6, m7, m8⟩ := makeCopy_writes hw.asoh_wf hw.asoh_single hw.names_distinct hw.names_updatable
    (v := A) (by rw [htot, hAn]) (by omega)
  refine ⟨h, a', w.transients.makeCopy (.d2 T), ?_, ?_, hhn, ?_, ?_, ?_, m7⟩
  · simp only [JointWrapper.createHidden, hT, hA, hj, ok_bind]; exact hh
  · rw [hhm, Arr2.toMat_m, hjr, hTr]
  · simp only [JointWrapper.createInputs, hback, ok_bind, Arr2.toArr2_toMat, pure_eq_ok]
    rw [← hTn, hj1, hj2, m1]
    rfl
  · rw [← makeCopy_layout hlay]
    exact C14_to_numpy_then_from_numpy transients T B htB hT
  · intro p x hp hn
    have hv : valueAt a' (pathName p) = expandTo B x := by
      rw [hslices] at m6
      have := (List.map_inj_left.1 m6) (pathName p) hn
      rw [this, valueAt_eq hwf (mem_iterParams_false.2 ⟨p, hp, rfl⟩)]
    obtain ⟨q, x', y, hq, hx', hy, _⟩ := hsel _ hn
    have : q = p := pathName_inj hwf hwf hx' hp hq
    subst this
    rw [← expandTo_eq_broadcast hB1, ← hv]
    exact (isParam_iff_mem hw.asoh_wf m2 hy).1 (valueAt_mem (by rw [m3]; exact hup _ hn))

/-- Two rows: `x = 7, 8` with `q = 9, 10`, normalised by 2 and shifted by 1. -/
example : ∃ h asoh' transients', (Demo.joint (.linearScalar 2 ⟨1, ![1]⟩)).createHidden
      (.mk [] [(['q'], .arr (.column [9, 10]))]) ⟨[(['x'], some (.column [7, 8])), (['h'], none)]⟩ = .ok h ∧
    (Demo.joint (.linearScalar 2 ⟨1, ![1]⟩)).createInputs h = .ok (asoh', transients') ∧
    IsParam asoh' [['q']] (Spec.broadcast 2 (.column [9, 10])) ∧ IsParam asoh' [['r']] (.ofRow [1, 2]) := by
  have hq : ∀ p a, IsParam (HV.mk [] [(['q'], .arr (.column [9, 10]))] : HV ℝ) p a → p = [['q']] ∧ a = .column [9, 10] := by
    intro p a h
    cases h with
    | arr h => simp at h; exact ⟨by rw [h.1], h.2⟩
    | sub h _ => simp at h
    | tup h _ _ => simp at h
    | dict h _ _ => simp at h
    | lst h _ _ => simp at h
  obtain ⟨h, a, t, h1, _, _, h2, _, h3, h4⟩ := C55_objects_to_hidden_and_back (Demo.joint (.linearScalar 2 ⟨1, ![1]⟩)) (Demo.joint_ready _)
    (scalar_invertible 2 (by norm_num) _ (.inr rfl)) (.mk [] [(['q'], .arr (.column [9, 10]))])
    (by
      rw [WF_iff]
      refine ⟨by decide, ?_, ?_⟩
      · intro k f h; simp at h; rw [h.1]; decide
      · intro k f h; simp at h; rw [h.2]; trivial)
    (by intro p a h; rw [(hq p a h).2]; decide)
    (by
      intro n hn
      simp [Demo.joint] at hn
      subst hn
      exact ⟨[['q']], .column [9, 10], .ofRow [5], rfl, .arr (by simp), .arr (by simp), rfl⟩)
    ⟨[(['x'], some (.column [7, 8])), (['h'], none)]⟩ rfl (by intro q hq; simp [Spec.held] at hq; rw [hq]; exact Nat.le_of_ble_eq_true rfl)
    2 rfl rfl
  exact ⟨h, a, t, h1, h2, h3 _ _ (.arr (by simp)) (by simp [Demo.joint, pathName, Py.joinDots]), (h4 [['r']] _ (by simp [Demo.joint, pathName, Py.joinDots])).2 (.arr (by simp))⟩

/-- C55, conversely: model objects made of hidden states of any number of rows give back those hidden states.  Missing: a batch of several rows
when no parameter is selected, see below. -/
theorem C55_hidden_to_objects_and_back_partial (w : JointWrapper) (hw : w.Ready) (hop : w.hiddenConv.Invertible (w.nTransients + w.nAsoh))
    (h : Mat) (hn : h.n = w.nTransients + w.nAsoh) (hm : 1 ≤ h.m) (hsome : w.names ≠ [] ∨ h.m = 1) :
    ∃ asoh transients, w.createInputs h = .ok (asoh, transients) ∧ w.createHidden asoh transients = .ok h := by
  obtain ⟨Y, hY, hYm, hYn, hback⟩ := hop.there h hn
  obtain ⟨T0, hT0, hT0n⟩ := hw.nTransients_eq
  obtain ⟨A0, hA0, hA0n⟩ := hw.nAsoh_eq
  have hup : ∀ n ∈ w.names, n ∈ w.asoh.allNames := fun n hn => updatable_subset (hw.names_updatable n hn)
  have htot : totalSize w.asoh w.names = w.nAsoh := by rw [width_eq hw.asoh_wf hw.asoh_single hup hA0, hA0n]
  have hlen : w.transients.len = w.nTransients := by rw [← toNumpy_len hw.transients_wf.1 hT0, hT0n]
  have hw1 : (Y.toArr2.cols 0 w.nTransients).ncol = w.nTransients := by
    rw [Arr2.cols_ncol _ (by rw [Mat.toArr2_ncol]; omega)]; omega
  have hw2 : (Y.toArr2.cols w.nTransients Y.toArr2.ncol).ncol = w.nAsoh := by
    rw [Arr2.cols_ncol _ (by rw [Mat.toArr2_ncol]), Mat.toArr2_ncol]; omega
  have hr2 : (Y.toArr2.cols w.nTransients Y.toArr2.ncol).nrow = h.m := by rw [Arr2.cols_nrow, Mat.toArr2_nrow, hYm]
  obtain ⟨a', m1, _, _, _, _, _, _, m8⟩ := makeCopy_writes hw.asoh_wf hw.asoh_single hw.names_distinct hw.names_updatable
    (v := Y.toArr2.cols w.nTransients Y.toArr2.ncol) (by rw [htot, hw2]) (by omega)
  have m9 := (m8 (by rw [hr2]; exact hsome)).2
  refine ⟨a', w.transients.makeCopy (.d2 (Y.toArr2.cols 0 w.nTransients)), ?_, ?_⟩
  · simp only [JointWrapper.createInputs, hY, ok_bind, pure_eq_ok, m1]
  · have ht : (w.transients.makeCopy (.d2 (Y.toArr2.cols 0 w.nTransients))).toNumpy = .ok (Y.toArr2.cols 0 w.nTransients) :=
      C14_from_numpy_then_to_numpy _ hw.transients_wf hw.transients_held (.d2 _) (hw1.trans hlen.symm)
    simp only [JointWrapper.createHidden, ht, m9, ok_bind]
    rw [Arr2.hcat_cut _ (by rw [Mat.toArr2_ncol]; omega)]
    simp only [ok_bind, Mat.toMat_toArr2]
    exact hback

example (X : Matrix (Fin 3) (Fin 2) ℝ) : ∃ asoh transients, (Demo.joint (.linearScalar 2 ⟨1, ![1]⟩)).createInputs ⟨3, 2, X⟩ = .ok (asoh, transients) ∧
    (Demo.joint (.linearScalar 2 ⟨1, ![1]⟩)).createHidden asoh transients = .ok ⟨3, 2, X⟩ :=
  C55_hidden_to_objects_and_back_partial _ (Demo.joint_ready _) (scalar_invertible 2 (by norm_num) _ (.inr rfl)) _ rfl (Nat.le_add_left 1 2)
    (.inl (by simp [Demo.joint]))

/-- The full converse fails: with no parameter selected, hidden states of several rows become objects which cannot be joined again (the
state of health has no batch, so the two arrays have different numbers of rows). -/
theorem C55_batch_without_parameters_raises (w : JointWrapper) (hw : w.Ready) (hop : w.hiddenConv.Invertible (w.nTransients + w.nAsoh))
    (hnone : w.names = []) (h : Mat) (hn : h.n = w.nTransients + w.nAsoh) (hm : 1 < h.m) :
    ∃ asoh transients, w.createInputs h = .ok (asoh, transients) ∧ w.createHidden asoh transients = .error .valueError := by
  obtain ⟨Y, hY, hYm, hYn, hback⟩ := hop.there h hn
  obtain ⟨T0, hT0, hT0n⟩ := hw.nTransients_eq
  obtain ⟨A0, hA0, hA0n⟩ := hw.nAsoh_eq
  have hup : ∀ n ∈ w.names, n ∈ w.asoh.allNames := fun n hn => updatable_subset (hw.names_updatable n hn)
  have htot : totalSize w.asoh w.names = w.nAsoh := by rw [width_eq hw.asoh_wf hw.asoh_single hup hA0, hA0n]
  have hlen : w.transients.len = w.nTransients := by rw [← toNumpy_len hw.transients_wf.1 hT0, hT0n]
  have hw1 : (Y.toArr2.cols 0 w.nTransients).ncol = w.nTransients := by
    rw [Arr2.cols_ncol _ (by rw [Mat.toArr2_ncol]; omega)]; omega
  have hw2 : (Y.toArr2.cols w.nTransients Y.toArr2.ncol).ncol = w.nAsoh := by
    rw [Arr2.cols_ncol _ (by rw [Mat.toArr2_ncol]), Mat.toArr2_ncol]; omega
  have hr2 : (Y.toArr2.cols w.nTransients Y.toArr2.ncol).nrow = h.m := by rw [Arr2.cols_nrow, Mat.toArr2_nrow, hYm]
  obtain ⟨a', m1, _, _, _, _, _, m7, _⟩ := makeCopy_writes hw.asoh_wf hw.asoh_single hw.names_distinct hw.names_updatable
    (v := Y.toArr2.cols w.nTransients Y.toArr2.ncol) (by rw [htot, hw2]) (by omega)
  refine ⟨a', w.transients.makeCopy (.d2 (Y.toArr2.cols 0 w.nTransients)), ?_, ?_⟩
  · simp only [JointWrapper.createInputs, hY, ok_bind, pure_eq_ok, m1]
  · have ht : (w.transients.makeCopy (.d2 (Y.toArr2.cols 0 w.nTransients))).toNumpy = .ok (Y.toArr2.cols 0 w.nTransients) :=
      C14_from_numpy_then_to_numpy _ hw.transients_wf hw.transients_held (.d2 _) (hw1.trans hlen.symm)
    have hu' : Spec.Unbatched a' := fun p a hp => hw.asoh_single p a ((m7 p a (by rw [hnone]; simp)).1 hp)
    have hb : a'.batchSize = .ok 1 := ((C12_batch_size a' fun p a hp => by rw [hu' p a hp]).1 1).2
      ⟨fun p a hp => .inl (hu' p a hp), .inl rfl⟩
    have ha : a'.getParameters (some w.names) = .ok (Arr2.empty 1) := by
      rw [hnone]
      simp only [HV.getParameters, Option.getD_some, if_true, hb]; rfl
    simp only [JointWrapper.createHidden, ht, ha, ok_bind, Arr2.hcat, Arr2.hcat2]
    rw [if_neg]
    · rfl
    · rw [Arr2.cols_nrow, Mat.toArr2_nrow, hYm]
      simp only [Arr2.empty, Arr2.nrow, List.length_replicate]
      omega

example (X : Matrix (Fin 3) (Fin 1) ℝ) : ∃ w : JointWrapper, w.names = [] ∧ w.Ready ∧
    ∃ asoh transients, w.createInputs ⟨3, 1, X⟩ = .ok (asoh, transients) ∧ w.createHidden asoh transients = .error .valueError := by
  have hm : JointWrapper.make Demo.restCell Demo.health Demo.trans Demo.inp (some []) (NoDegradation _ _ _ _) .identity .identity
      .identity = .ok ⟨⟨Demo.restCell, Demo.health, Demo.trans, Demo.inp, .identity, .identity, .identity, 1⟩, [], 1, 0, _⟩ := rfl
  have hr := ready_of_make hm Demo.health_wf (fun p a h => (Demo.health_single p a h).ge) (by rintro ns ⟨⟩; simp) Demo.trans_wf
    (by simp [Demo.trans, Spec.held])
  exact ⟨_, rfl, hr, C55_batch_without_parameters_raises _ hr (identity_invertible _) rfl _ rfl (Nat.le_add_left 2 1)⟩

/-! ## C56 -/

/-- C56, joint wrapper.  If the hidden states `X` and the controls of the filter stand for `Y`, `v`, `v'` in model coordinates, then the
wrapper's update and prediction are those without conversion at `Y`, `v`, `v'`, converted to filter coordinates – also when they raise. -/
theorem C56_joint (w : JointWrapper) (X Y : Mat) (hY : w.hiddenConv.samples2 X = .ok Y) (u u' v v' : Vec)
    (hv : w.controlConv.samples1 u = .ok v) (hv' : w.controlConv.samples1 u' = .ok v') :
    w.update X u u' = (w.plain.update Y v v' >>= w.hiddenConv.invSamples2) ∧
    w.predict X u = (w.plain.predict Y v >>= w.outputConv.invSamples2) := by
  constructor
  · simp only [JointWrapper.update, JointWrapper.plain, BaseWrapper.plain, BaseWrapper.toInputs, JointWrapper.createInputs, hY, hv, hv',
      Operator.identity, ok_bind, pure_eq_ok, bind_assoc]
  · simp only [JointWrapper.predict, JointWrapper.plain, BaseWrapper.plain, BaseWrapper.toInputs, JointWrapper.createInputs,
      BaseWrapper.fromOutputs, hY, hv, Operator.identity, ok_bind, pure_eq_ok, bind_assoc]

/-- C56, transient states only. -/
theorem C56_cell (w : CellWrapper) (asoh : HV ℝ) (X Y : Mat) (hY : w.hiddenConv.samples2 X = .ok Y) (u u' v v' : Vec)
    (hv : w.controlConv.samples1 u = .ok v) (hv' : w.controlConv.samples1 u' = .ok v') :
    w.update asoh X u u' = (w.plain.update asoh Y v v' >>= w.hiddenConv.invSamples2) ∧
    w.predict asoh X u = (w.plain.predict asoh Y v >>= w.outputConv.invSamples2) := by
  constructor
  · simp only [CellWrapper.update, CellWrapper.plain, BaseWrapper.plain, BaseWrapper.toInputs, hY, hv, hv',
      Operator.identity, ok_bind, pure_eq_ok, bind_assoc]
  · simp only [CellWrapper.predict, CellWrapper.plain, BaseWrapper.plain, BaseWrapper.toInputs, BaseWrapper.fromOutputs, hY, hv,
      Operator.identity, ok_bind, pure_eq_ok, bind_assoc]

/-- C56, state of health only. -/
theorem C56_degradation (w : DegradationWrapper) (transients prevIn : Container ℝ) (X Y : Mat) (hY : w.hiddenConv.samples2 X = .ok Y)
    (u u' v v' : Vec) (hv : w.controlConv.samples1 u = .ok v) (hv' : w.controlConv.samples1 u' = .ok v') :
    w.update transients X u u' = (do
      let r ← w.plain.update transients Y v v'
      return (← w.hiddenConv.invSamples2 r.1, r.2)) ∧
    w.predict transients prevIn X u = (w.plain.predict transients prevIn Y v >>= w.outputConv.invSamples2) := by
  constructor
  · simp only [DegradationWrapper.update, DegradationWrapper.plain, BaseWrapper.plain, BaseWrapper.toInputs, DegradationWrapper.toAsoh,
      hY, hv, hv', Operator.identity, ok_bind, pure_eq_ok, bind_assoc]
  · simp only [DegradationWrapper.predict, DegradationWrapper.plain, BaseWrapper.plain, BaseWrapper.toInputs, DegradationWrapper.toAsoh,
      BaseWrapper.fromOutputs, hY, hv, Operator.identity, ok_bind, pure_eq_ok, bind_assoc]

theorem BaseWrapper.make_convs {cell : Cell} {asoh : HV ℝ} {tr inp : Container ℝ} {h c o : Operator} :
    BaseWrapper.make cell asoh tr inp h c o = (BaseWrapper.make cell asoh tr inp .identity .identity .identity).map
      fun b => { b with hiddenConv := h, controlConv := c, outputConv := o } := by
  unfold BaseWrapper.make
  rcases asoh.batchSize with _ | ba
  · rfl
  · show (if ba > 1 then _ else _ : Except Err BaseWrapper) = Except.map _ (if ba > 1 then _ else _)
    split
    · rfl
    · rcases tr.batchSize with _ | bt
      · rfl
      · show (if bt > 1 then _ else _ : Except Err BaseWrapper) = Except.map _ (if bt > 1 then _ else _)
        split
        · rfl
        · rcases cell.output inp tr asoh with _ | y
          · rfl
          · rcases hy : y.toNumpy with _ | v <;> simp [bind, Except.bind, Except.map, pure, Except.pure, hy]

/-- C56, the wrappers themselves: with converters `h` of hidden states, `c` of controls and `o` of outputs they are built exactly if they are without,
hold these converters, each for its purpose, and are the same otherwise. -/
theorem C56_made (cell : Cell) (asoh : HV ℝ) (tr inp : Container ℝ) (names : Option (List Name)) (deg : Degradation) (h c o : Operator) :
    (∀ w, CellWrapper.make cell asoh tr inp h c o = .ok w ↔
      (w.hiddenConv = h ∧ w.controlConv = c ∧ w.outputConv = o) ∧ CellWrapper.make cell asoh tr inp .identity .identity .identity = .ok w.plain) ∧
    (∀ w, DegradationWrapper.make cell asoh tr inp names deg h c o = .ok w ↔
      (w.hiddenConv = h ∧ w.controlConv = c ∧ w.outputConv = o) ∧ DegradationWrapper.make cell asoh tr inp names deg .identity .identity .identity = .ok w.plain) ∧
    ∀ w, JointWrapper.make cell asoh tr inp names deg h c o = .ok w ↔
      (w.hiddenConv = h ∧ w.controlConv = c ∧ w.outputConv = o) ∧ JointWrapper.make cell asoh tr inp names deg .identity .identity .identity = .ok w.plain := by
  have hid : ∀ b, BaseWrapper.make cell asoh tr inp .identity .identity .identity = .ok b →
      b.hiddenConv = .identity ∧ b.controlConv = .identity ∧ b.outputConv = .identity := fun b hb => by
    rcases hm : BaseWrapper.make cell asoh tr inp .identity .identity .identity with _ | b' <;> rw [BaseWrapper.make_convs, hm] at hb
    · exact nomatch hb
    · cases hb
      exact ⟨rfl, rfl, rfl⟩
  refine ⟨fun w => ?_, fun w => ?_, fun w => ?_⟩
  · unfold CellWrapper.make
    rw [BaseWrapper.make_convs]
    rcases hm : BaseWrapper.make cell asoh tr inp .identity .identity .identity with _ | b
    · simp [bind, Except.bind, Except.map]
    · obtain ⟨h1, h2, h3⟩ := hid b hm
      rcases tr.toNumpy with _ | v
      · simp [bind, Except.bind, Except.map]
      · obtain ⟨⟨_, _, _, _, _, _, _, _⟩, _⟩ := w
        obtain ⟨_, _, _, _, _, _, _, _⟩ := b
        simp only [bind, Except.bind, Except.map, pure, Except.pure, Except.ok.injEq, CellWrapper.plain, BaseWrapper.plain, CellWrapper.mk.injEq, BaseWrapper.mk.injEq] at *
        subst h1 h2 h3
        constructor <;> simp +contextual <;> grind
  · unfold DegradationWrapper.make
    rw [BaseWrapper.make_convs]
    rcases hm : BaseWrapper.make cell asoh tr inp .identity .identity .identity with _ | b
    · simp [bind, Except.bind, Except.map]
    · obtain ⟨h1, h2, h3⟩ := hid b hm
      rcases tr.toNumpy with _ | v
      · simp [bind, Except.bind, Except.map]
      · rcases hp : asoh.getParameters (some (names.getD asoh.updatableNames)) with _ | p
        · simp [bind, Except.bind, Except.map, hp]
        · obtain ⟨⟨_, _, _, _, _, _, _, _⟩, _, _, _, _⟩ := w
          obtain ⟨_, _, _, _, _, _, _, _⟩ := b
          simp only [bind, Except.bind, Except.map, pure, Except.pure, Except.ok.injEq, DegradationWrapper.plain, BaseWrapper.plain, DegradationWrapper.mk.injEq, BaseWrapper.mk.injEq, hp] at *
          subst h1 h2 h3
          constructor <;> simp +contextual <;> grind
  · unfold JointWrapper.make
    rw [BaseWrapper.make_convs]
    rcases hm : BaseWrapper.make cell asoh tr inp .identity .identity .identity with _ | b
    · simp [bind, Except.bind, Except.map]
    · obtain ⟨h1, h2, h3⟩ := hid b hm
      rcases tr.toNumpy with _ | v
      · simp [bind, Except.bind, Except.map]
      · rcases hp : asoh.getParameters (some (names.getD asoh.updatableNames)) with _ | p
        · simp [bind, Except.bind, Except.map, hp]
        · obtain ⟨⟨_, _, _, _, _, _, _, _⟩, _, _, _, _⟩ := w
          obtain ⟨_, _, _, _, _, _, _, _⟩ := b
          simp only [bind, Except.bind, Except.map, pure, Except.pure, Except.ok.injEq, JointWrapper.plain, BaseWrapper.plain, JointWrapper.mk.injEq, BaseWrapper.mk.injEq, hp] at *
          subst h1 h2 h3
          constructor <;> simp +contextual <;> grind

/-- With an invertible converter every model state and every successful update is reached: the filter's states and the model's states
correspond one to one, before and after the update. -/
theorem C56_joint_correspondence (w : JointWrapper) (k : Nat) (hop : w.hiddenConv.Invertible k) (u u' v v' : Vec)
    (hv : w.controlConv.samples1 u = .ok v) (hv' : w.controlConv.samples1 u' = .ok v') (Y : Mat) (hY : Y.n = k) :
    ∃ X, w.hiddenConv.samples2 X = .ok Y ∧ w.hiddenConv.invSamples2 Y = .ok X ∧
      (∀ Z, w.plain.update Y v v' = .ok Z → Z.n = k → ∃ X', w.update X u u' = .ok X' ∧ w.hiddenConv.samples2 X' = .ok Z) ∧
      (∀ e, w.plain.update Y v v' = .error e → w.update X u u' = .error e) := by
  obtain ⟨X, h1, _, _, h2⟩ := hop.back Y hY
  refine ⟨X, h2, h1, fun Z hZ hn => ?_, fun e he => ?_⟩
  · obtain ⟨X', h3, _, _, h4⟩ := hop.back Z hn
    exact ⟨X', by rw [(C56_joint w X Y h2 u u' v v' hv hv').1, hZ, ok_bind, h3], h4⟩
  · rw [(C56_joint w X Y h2 u u' v v' hv hv').1, he, error_bind]

/-- The concrete wrapper with a factor 2 and a shift by 1 on its two coordinates. -/
example (X : Matrix (Fin 3) (Fin 2) ℝ) (u u' : Vec) :
    (Demo.joint (.linearScalar 2 ⟨1, ![1]⟩)).predict ⟨3, 2, X⟩ u =
      (Demo.joint .identity).predict ⟨3, 2, fun i j => 2 * X i j + 1⟩ u := by
  have h : (Operator.linearScalar 2 ⟨1, ![1]⟩).samples2 ⟨3, 2, X⟩ = .ok ⟨3, 2, fun i j => 2 * X i j + 1⟩ :=
    Mat.bop_row_one (· + ·) (fun i j => 2 * X i j) ![1]
  rw [(C56_joint (Demo.joint (.linearScalar 2 ⟨1, ![1]⟩)) _ _ h u u' u u' rfl rfl).2]
  show (Demo.joint .identity).predict _ u >>= (fun Y => Except.ok Y) = _
  cases (Demo.joint .identity).predict ⟨3, 2, fun i j => 2 * X i j + 1⟩ u <;> rfl

end Verif
