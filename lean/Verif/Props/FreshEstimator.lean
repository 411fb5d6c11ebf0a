import Verif.Props.DualRuns
/-!
# C87–C89: what a new estimator holds, and which noise it assumes
-/

namespace Verif
open Matrix

/-! ## Lemmas -/

/-- All values of a container have one row. -/
def Container.Single (c : Container ℝ) : Prop := ∀ q ∈ Spec.held c, q.2.nrow = 1

theorem broadcast_single {a : Arr2 ℝ} (h : a.nrow = 1) : Spec.broadcast 1 a = a := by
  obtain ⟨r, hr⟩ := List.length_eq_one_iff.1 h
  apply Arr2.ext'
  · unfold Spec.broadcast; split <;> rfl
  · unfold Spec.broadcast
    split
    · rename_i r' h'
      exact h'.symm
    · rfl

theorem Container.Single.batchSize {c : Container ℝ} (h : c.Single) : c.batchSize = .ok 1 := by
  unfold Container.batchSize
  rw [present_eq, batchLoop_ok le_rfl (by
    intro n hn
    obtain ⟨q, hq, rfl⟩ := List.mem_map.1 hn
    exact (h q hq).ge)]
  refine ⟨?_, by simp⟩
  intro n hn
  rcases List.mem_cons.1 hn with rfl | hn
  · exact .inl rfl
  · obtain ⟨q, hq, rfl⟩ := List.mem_map.1 hn
    exact .inl (h q hq)

/-- Writing back what was read from a container with single rows gives the container. -/
theorem Container.Single.makeCopy {c : Container ℝ} (h : c.Single) {T : Arr2 ℝ} (hT : c.toNumpy = .ok T) : c.makeCopy (.d2 T) = c := by
  have := C14_to_numpy_then_from_numpy c T 1 h.batchSize hT
  have e : c.fields.map (fun p => (p.1, p.2.map (Spec.broadcast 1))) = c.fields := by
    conv_rhs => rw [← List.map_id c.fields]
    apply List.map_congr_left
    rintro ⟨k, _ | a⟩ hp
    · rfl
    · have : (k, a) ∈ Spec.held c := by
        unfold Spec.held
        exact List.mem_filterMap.2 ⟨(k, some a), hp, rfl⟩
      simp [broadcast_single (h _ this)]
  rw [e] at this
  obtain ⟨fs⟩ := c
  exact congrArg Container.mk this

/-- The rows of an array with a single row. -/
theorem Arr2.flat_single {a : Arr2 ℝ} (h : a.nrow = 1) : ∃ l, a = .ofRow l ∧ a.flat.toList = l ∧ a.flat.n = a.ncol := by
  obtain ⟨r, hr⟩ := List.length_eq_one_iff.1 h
  have hl : r.length = a.ncol := a.wf r (by rw [hr]; simp)
  have ha : a = .ofRow r := by
    apply Arr2.ext'
    · rw [← hl]; rfl
    · rw [hr]; rfl
  refine ⟨r, ha, ?_, ?_⟩
  · rw [ha]
    apply List.ext_getElem
    · simp [Arr2.flat, Vec.toList, Arr2.ofRow]
    · intro i h1 h2
      simp [Arr2.flat, Vec.toList, Arr2.ofRow]
      rfl
  · rw [ha]
    simp [Arr2.flat, Arr2.ofRow]

theorem Vec.append_toList (v w : Vec) : (v.append w).toList = v.toList ++ w.toList := by
  apply List.ext_getElem
  · simp [Vec.append, Vec.toList]
  · intro i h1 h2
    have hi : i < v.n + w.n := by simpa [Vec.append, Vec.toList] using h1
    by_cases h : i < v.n
    · simp [Vec.append, Vec.toList, h, Vec.at', List.getElem_append]
    · have h' : i - v.n < w.n := by omega
      simp [Vec.append, Vec.toList, h, Vec.at', List.getElem_append, h']

theorem toArr2_ofRow (v : Vec) : (Mat.ofRow v).toArr2 = .ofRow v.toList := by
  apply Arr2.ext'
  · simp [Mat.toArr2, Mat.ofRow, Arr2.ofRow, Vec.toList]
  · simp [Mat.toArr2, Mat.ofRow, Arr2.ofRow, Vec.toList]

theorem HV.makeCopy_self {m : HV ℝ} (hw : m.WF) (hu : Spec.Unbatched m) {ns : List Name} (hnd : ns.Nodup)
    (hup : ∀ n ∈ ns, n ∈ m.updatableNames) {A : Arr2 ℝ} (hA : m.getParameters (some ns) = .ok A) :
    m.makeCopy (.d2 A) (some ns) = .ok m := by
  obtain ⟨v, h1, h2⟩ := C04_get_then_update_partial m hw hu ns hnd hup
  cases h1.symm.trans hA
  unfold HV.makeCopy
  rw [h2]

theorem unbatched_nrow {m : HV ℝ} (hw : m.WF) (hu : Spec.Unbatched m) {ns : List Name} (hall : ∀ n ∈ ns, n ∈ m.allNames) {A : Arr2 ℝ}
    (hA : m.getParameters (some ns) = .ok A) : A.nrow = 1 := by
  have hb : m.batchSize = .ok 1 := ((C12_batch_size m fun p a hp => by rw [hu p a hp]).1 1).2 ⟨fun p a hp => .inl (hu p a hp), .inl rfl⟩
  obtain ⟨A', h1, h2⟩ := C12_vector_has_batch_rows m hw (fun p a hp => by rw [hu p a hp]) 1 hb ns hall
  cases h1.symm.trans hA
  exact h2

/-- Converting into filter coordinates and back changes nothing. -/
theorem Operator.Rescales.back {op : Operator} {k : Nat} {d b : Fin k → ℝ} (h : op.Rescales k d b) (hd : ∀ i, d i ≠ 0) {g g' : Gaussian}
    (hk : g.mean.n = k) (hv : g.Valid) (hg : g.convert op true = .ok g') : g'.convert op = .ok g ∧ g'.mean.n = k ∧
      op.samples1 g'.mean = .ok g.mean := by
  obtain ⟨m, c⟩ := g
  obtain ⟨v1, v2, v3⟩ := hv
  simp only at hk v1 v2 v3
  obtain ⟨μ, rfl⟩ := Vec.eta_of hk
  obtain ⟨cm, cn, C⟩ := c
  simp only at v2 v3
  have v2 := v2.symm
  have v3 := v3.symm
  subst v2 v3
  obtain ⟨x, hx⟩ := rescale_surj (r := b) hd μ
  obtain ⟨C', hC'⟩ : ∃ C', rescaleCov d d C' = C := by
    refine ⟨rescaleCov (fun i => (d i)⁻¹) (fun i => (d i)⁻¹) C, ?_⟩
    ext i j
    have := hd i
    have := hd j
    simp only [rescaleCov]
    field_simp
  have hk1 : 1 ≤ k := v1
  have e : Gaussian.convert ⟨⟨k, μ⟩, ⟨k, k, C⟩⟩ op true = .ok ⟨⟨k, x⟩, ⟨k, k, C'⟩⟩ := by
    refine Gaussian.unconvert_ok hk1 ?_ ?_
    · rw [← hx]; exact h.invSamples1 x
    · rw [← hC']; exact h.invCovariance C' _
  cases e.symm.trans hg
  exact ⟨by rw [h.convert hk1, hx, hC'], rfl, by rw [h.samples1, hx]⟩

/-- What `initialize_ukf_from_wrapper` produces. -/
theorem Joint.fromWrapper_inv {w : JointWrapper} {cov : Mat ⊕ (Mat × Mat)} {ic n nT nA s : Option Mat} {tune : Tuning} {E : Joint}
    (h : Joint.fromWrapper w cov ic n nT nA s tune = .ok E) : ∃ u T A g0 g u' q r f, convertVals w.inputs ic = .ok u ∧
      w.transients.toNumpy = .ok T ∧ w.asoh.getParameters (some w.names) = .ok A ∧
      Gaussian.make (T.flat.append A.flat) (Joint.jointCov cov) = .ok g0 ∧ g0.convert w.hiddenConv true = .ok g ∧
      u.convert w.controlConv true = .ok u' ∧ noiseToFilter w.hiddenConv (Joint.jointNoise n nT nA) = .ok q ∧
      noiseToFilter w.outputConv s = .ok r ∧ Ukf.make w.toWrapper () g u' q r tune.alpha tune.kappa tune.beta = .ok f ∧
      E.wrapper = w ∧ E.filter = f ∧ Online.make w.cell w.asoh w.transients w.inputs w.names = .ok E.base := by
  simp only [Joint.fromWrapper, bind_eq_ok_iff, pure_eq_ok, Joint.make, Except.ok.injEq] at h
  obtain ⟨u, h1, T, h2, A, h3, g0, h4, g, h5, u', h6, q, h7, r, h8, f, h9, o, h10, rfl⟩ := h
  exact ⟨u, T, A, g0, g, u', q, r, f, h1, h2, h3, h4, h5, h6, h7, h8, h9, rfl, rfl, h10⟩

/-! ## C87 -/

/-- The covariance of the whole state that the given one stands for: itself, or the block diagonal matrix of the two parts. -/
inductive GivenCov : Mat ⊕ (Mat × Mat) → Mat → Prop
  | whole (C : Mat) : GivenCov (.inl C) C
  | parts {nt na : Nat} (T : Matrix (Fin nt) (Fin nt) ℝ) (A : Matrix (Fin na) (Fin na) ℝ) :
      GivenCov (.inr (⟨nt, nt, T⟩, ⟨na, na, A⟩)) ⟨nt + na, nt + na, (Matrix.fromBlocks T 0 0 A).reindex finSumFinEquiv finSumFinEquiv⟩

theorem blockDiag_parts {nt na : Nat} (T : Matrix (Fin nt) (Fin nt) ℝ) (A : Matrix (Fin na) (Fin na) ℝ) :
    Mat.blockDiag [⟨nt, nt, T⟩, ⟨na, na, A⟩] =
      ⟨nt + na, nt + na, (Matrix.fromBlocks T 0 0 A).reindex finSumFinEquiv finSumFinEquiv⟩ := by
  rw [Mat.blockDiag_cons, Mat.blockDiag, Mat.block2_of]
  rfl

theorem GivenCov.eq {cov : Mat ⊕ (Mat × Mat)} {C : Mat} (h : GivenCov cov C) : Joint.jointCov cov = C := by
  cases h with
  | whole => rfl
  | parts T A => exact blockDiag_parts T A

/-- C87 for joint estimators.  Whatever units the filter works in, a new estimator holds the initial values: `get_estimated_state` gives
back the transient states and the state of health it was built from, and `state` in model coordinates has the values of the transient
states followed by those of the estimated parameters as mean and the given covariance (of the whole state, or of its two parts without
correlation). -/
theorem C87_new_joint_estimator (w : JointWrapper) (hw : w.Ready) (hrow : w.transients.Single) {k : Nat} {d b : Fin k → ℝ} (hd : ∀ i, d i ≠ 0)
    (hop : w.hiddenConv.Rescales k d b) (hk : w.nTransients + w.nAsoh = k) (cov : Mat ⊕ (Mat × Mat)) (ic n nT nA s : Option Mat) (tune : Tuning)
    (E : Joint) (hE : Joint.fromWrapper w cov ic n nT nA s tune = .ok E) :
    E.getEstimatedState = .ok (w.transients, w.asoh) ∧ ∃ T A g, w.transients.toNumpy = .ok T ∧
      w.asoh.getParameters (some w.names) = .ok A ∧ E.state.convert w.hiddenConv = .ok g ∧
      g.mean.toList = T.flat.toList ++ A.flat.toList ∧ ∀ C, GivenCov cov C → g.cov = C := by
  obtain ⟨u, T, A, g0, g, u', q, r, f, h1, h2, h3, h4, h5, h6, h7, h8, h9, h10, h11, h12⟩ := Joint.fromWrapper_inv hE
  have hup : ∀ n ∈ w.names, n ∈ w.asoh.allNames := fun n hn => updatable_subset (hw.names_updatable n hn)
  have hAr : A.nrow = 1 := unbatched_nrow hw.asoh_wf hw.asoh_single hup h3
  obtain ⟨T', hT', hTr⟩ := toNumpy_nrow hw.transients_held (fun q hq => (hrow q hq).ge) hrow.batchSize
  cases hT'.symm.trans h2
  obtain ⟨t, ht, ht1, ht2⟩ := Arr2.flat_single hTr
  obtain ⟨a, ha, ha1, ha2⟩ := Arr2.flat_single hAr
  obtain ⟨_, hT0, hTn⟩ := hw.nTransients_eq
  cases hT0.symm.trans h2
  obtain ⟨_, hA0, hAn⟩ := hw.nAsoh_eq
  cases hA0.symm.trans h3
  obtain ⟨hv, hm, hc⟩ := Gaussian.make_ok h4
  have hg0n : g0.mean.n = k := by rw [hm]; show T.flat.n + A.flat.n = k; omega
  obtain ⟨b1, b2, b3⟩ := hop.back hd hg0n hv h5
  obtain ⟨_, _, f3, _⟩ := Ukf.C53_constructed _ _ _ _ _ _ _ _ _ h9
  have hst : E.state = g := by rw [Joint.state, h11, f3]
  refine ⟨?_, T, A, g0, h2, h3, by rw [hst, b1], by rw [hm, Vec.append_toList], fun C hC => hc.trans hC.eq⟩
  obtain ⟨v, hv'⟩ := Vec.eta_of b2
  rw [hv'] at b3
  have hs2 := hop.rowConsistent v _ b3
  have hY : (Mat.ofRow g0.mean).toArr2 = .ofRow (t ++ a) := by rw [toArr2_ofRow, hm, Vec.append_toList, ht1, ha1]
  obtain ⟨j, j1, j2, j3, j4, j5⟩ := Arr2.hcat_pair (a := T) (b := A) (by rw [hTr, hAr])
  have hj : j = .ofRow (t ++ a) := by
    rw [ht, ha] at j1
    have : Arr2.hcat [Arr2.ofRow t, Arr2.ofRow a] = .ok (.ofRow (t ++ a)) := by
      simp only [Arr2.hcat, Arr2.hcat2, bind, Except.bind]
      rw [if_pos (show (Arr2.ofRow t).nrow = (Arr2.ofRow a).nrow from rfl)]
      refine congrArg Except.ok (Arr2.ext' ?_ ?_)
      · simp [Arr2.ofRow]
      · simp [Arr2.ofRow]
    exact Except.ok.inj (j1.symm.trans this)
  obtain ⟨asoh, p1, p2, p3, p4⟩ := createInputs_parts w hw hs2 (by show g0.mean.n = _; omega) le_rfl (.inr rfl)
  have e1 : (Mat.ofRow g0.mean).toArr2.cols 0 w.nTransients = T := by rw [hY, ← hj, ← hTn, j4]
  have e2 : (Mat.ofRow g0.mean).toArr2.cols w.nTransients (Mat.ofRow g0.mean).n = A := by
    have : (Mat.ofRow g0.mean).n = j.ncol := by show g0.mean.n = _; omega
    rw [this, hY, ← hj, ← hTn, j5]
  rw [e1] at p1 p2
  rw [e2] at p3
  cases (HV.makeCopy_self hw.asoh_wf hw.asoh_single hw.names_distinct hw.names_updatable h3).symm.trans p3
  rw [hrow.makeCopy h2] at p1
  rw [Joint.getEstimatedState, h10, hst, hv', p1]
  rfl

/-- C87 for dual estimators of all updatable parameters (see C59 for others). -/
theorem C87_new_dual_estimator (cw : CellWrapper) (aw : DegradationWrapper) (hwf : aw.asoh.WF) (hu : Spec.Unbatched aw.asoh)
    (hns : aw.names = aw.asoh.updatableNames) (hheld : Spec.held cw.transients ≠ []) (hrow : cw.transients.Single) {kT kA : Nat}
    {dT bT : Fin kT → ℝ} {dA bA : Fin kA → ℝ} (hdT : ∀ i, dT i ≠ 0) (hdA : ∀ i, dA i ≠ 0) (hT : cw.hiddenConv.Rescales kT dT bT)
    (hA : aw.hiddenConv.Rescales kA dA bA) (T A : Arr2 ℝ) (eT : cw.transients.toNumpy = .ok T) (eA : aw.asoh.getParameters none = .ok A)
    (nT : T.ncol = kT) (nA : A.ncol = kA) (covT covA : Mat) (ic qT qA s : Option Mat) (tT tA : Tuning) (E : Dual)
    (hE : Dual.fromWrappers cw aw covT covA ic qT qA s tT tA = .ok E) :
    E.getEstimatedState = .ok (cw.transients, aw.asoh) ∧
      ∃ t a, E.converted = .ok (t, a) ∧ t.mean.toList = T.flat.toList ∧ t.cov = covT ∧ a.mean.toList = A.flat.toList ∧ a.cov = covA := by
  obtain ⟨T', A', t, a, gt, ga, e1, e2, e3, e4, e5, e6, e7, e8, e9, e10, e11, e12, e13, e14, e15⟩ := Dual.fromWrappers_ok hE
  cases e1.symm.trans eT
  rw [hns] at e2
  have eA' : aw.asoh.getParameters (some aw.asoh.updatableNames) = .ok A := eA
  cases e2.symm.trans eA'
  obtain ⟨o1, o2, o3, o4, o5⟩ := Online.make_ok e15
  have hAr : A.nrow = 1 := unbatched_nrow hwf hu (fun n hn => updatable_subset hn) eA'
  obtain ⟨T', hT', hTr⟩ := toNumpy_nrow hheld (fun q hq => (hrow q hq).ge) hrow.batchSize
  cases hT'.symm.trans eT
  obtain ⟨lt, ht, ht1, ht2⟩ := Arr2.flat_single hTr
  obtain ⟨la, ha, ha1, ha2⟩ := Arr2.flat_single hAr
  obtain ⟨v1, m1, c1⟩ := Gaussian.make_ok e3
  obtain ⟨v2, m2, c2⟩ := Gaussian.make_ok e4
  obtain ⟨b1, _, _⟩ := hT.back hdT (by rw [m1]; omega) v1 e5
  obtain ⟨b2, _, _⟩ := hA.back hdA (by rw [m2]; omega) v2 e6
  have hconv : E.converted = .ok (t, a) := by
    rw [Dual.converted, e7, e8, e9, e10, b1, ok_bind, b2]
    rfl
  refine ⟨?_, t, a, hconv, by rw [m1], c1, by rw [m2], c2⟩
  have k1 : t.mean.vals = .d1 lt := by rw [m1]; exact congrArg Vals.d1 ht1
  have k2 : a.mean.vals = .d1 la := by rw [m2]; exact congrArg Vals.d1 ha1
  have q1 : cw.transients.makeCopy (.d1 lt) = cw.transients := by
    have h := hrow.makeCopy eT
    rw [ht] at h
    exact h
  have q2 : aw.asoh.makeCopy (.d1 la) none = .ok aw.asoh := by
    rw [makeCopy_d1, makeCopy_none, ← ha]
    exact HV.makeCopy_self hwf hu (C02_names_distinct _ hwf).2 (fun n hn => hn) eA'
  rw [Dual.getEstimatedState, hconv, ok_bind, o2, o3]
  simp only [k1, k2]
  rw [q1, q2]
  rfl

/-- The converters that `initialize_unscented_kalman_filter` of joint estimators chooses are changes of units. -/
theorem Joint.converter_rescales {pinv : Mat → Mat} (hpinv : IsPinv pinv) {asoh : HV ℝ} (hwf : asoh.WF) (hu : Spec.Unbatched asoh)
    {transients : Container ℝ} {T A : Arr2 ℝ} (hT : transients.toNumpy = .ok T) (hA : asoh.getParameters none = .ok A) (normalize : Bool)
    {conv : Operator} (hc : Joint.converter pinv asoh transients normalize = .ok conv) :
    ∃ d b : Fin (T.ncol + A.ncol) → ℝ, (∀ i, d i ≠ 0) ∧ conv.Rescales (T.ncol + A.ncol) d b := by
  cases normalize with
  | false =>
    cases hc
    exact ⟨fun _ => 1, fun _ => 0, fun _ => one_ne_zero, identity_rescales _⟩
  | true =>
    simp only [Joint.converter, normalizer, hA, hT, ok_bind, pure_eq_ok, Except.ok.injEq] at hc
    have hAr : A.nrow = 1 := unbatched_nrow hwf hu (fun n hn => updatable_subset hn) hA
    obtain ⟨_, _, _, hAn⟩ := Arr2.flat_single hAr
    have hn : (Vec.append ⟨T.ncol, fun _ => 1⟩ (A.flat.map fun x => if x = 0 then 1 else x)).n = T.ncol + A.ncol := by
      show T.ncol + A.flat.n = _
      rw [hAn]
    obtain ⟨d, hd⟩ := Vec.eta_of hn
    have hne : ∀ i, d i ≠ 0 := by
      intro i
      have h1 : (Vec.append ⟨T.ncol, fun _ => 1⟩ (A.flat.map fun x => if x = 0 then 1 else x)).at' i = d i := by
        rw [hd]; unfold Vec.at'; rw [dif_pos i.2]
      have hlt : i.1 < (Vec.append ⟨T.ncol, fun _ => 1⟩ (A.flat.map fun x => if x = 0 then 1 else x)).n := by rw [hn]; exact i.2
      rw [← h1]
      unfold Vec.at'
      rw [dif_pos hlt]
      simp only [Vec.append]
      by_cases hi : i.1 < T.ncol
      · rw [if_pos hi]; unfold Vec.at'; rw [dif_pos hi]; exact one_ne_zero
      · have hi' : i.1 - T.ncol < A.flat.n := by have := i.2; omega
        rw [if_neg hi]
        unfold Vec.at'
        rw [dif_pos (show i.1 - T.ncol < (A.flat.map fun x => if x = 0 then 1 else x).n from hi')]
        simp only [Vec.map]
        split
        · exact one_ne_zero
        · assumption
    obtain ⟨b', hb'⟩ := factors_rescales hpinv d hne (.zeros 1) (.inr rfl)
    rw [hd] at hc
    exact ⟨d, b', hne, hc ▸ hb'⟩

theorem BaseWrapper.make_parts {cell : Cell} {asoh : HV ℝ} {transients inputs : Container ℝ} {conv c o : Operator} {bw : BaseWrapper}
    (hb : BaseWrapper.make cell asoh transients inputs conv c o = .ok bw) :
    bw.transients = transients ∧ bw.asoh = asoh ∧ bw.hiddenConv = conv := by
  simp only [BaseWrapper.make, bind_eq_ok_iff] at hb
  obtain ⟨_, _, hb⟩ := hb
  split at hb
  · cases hb
  · simp only [bind_eq_ok_iff] at hb
    obtain ⟨_, _, hb⟩ := hb
    split at hb
    · cases hb
    · simp only [bind_eq_ok_iff, pure_eq_ok, Except.ok.injEq] at hb
      obtain ⟨_, _, _, _, rfl⟩ := hb
      exact ⟨rfl, rfl, rfl⟩

/-- C87 for joint estimators made with `initialize_unscented_kalman_filter`, with or without normalisation. -/
theorem C87_initialized_joint_estimator {pinv : Mat → Mat} (hpinv : IsPinv pinv) (cell : Cell) (asoh : HV ℝ) (hwf : asoh.WF)
    (hpos : ∀ p a, IsParam asoh p a → 1 ≤ a.nrow) (transients inputs : Container ℝ) (htr : transients.WF) (hrow : transients.Single)
    (hheld : Spec.held transients ≠ []) (cov : Mat ⊕ (Mat × Mat)) (ic n nT nA s : Option Mat) (normalize : Bool) (tune : Tuning)
    (E : Joint) (hE : Joint.initializeUkf pinv cell asoh transients inputs cov ic n nT nA s normalize tune = .ok E) :
    E.getEstimatedState = .ok (transients, asoh) ∧ ∃ T A g, transients.toNumpy = .ok T ∧ asoh.getParameters none = .ok A ∧
      E.state.convert E.wrapper.hiddenConv = .ok g ∧ g.mean.toList = T.flat.toList ++ A.flat.toList ∧ ∀ C, GivenCov cov C → g.cov = C := by
  simp only [Joint.initializeUkf, bind_eq_ok_iff] at hE
  obtain ⟨conv, h1, w, h2, h3⟩ := hE
  have hready := ready_of_make h2 hwf hpos nofun htr hheld
  simp only [JointWrapper.make, bind_eq_ok_iff, pure_eq_ok, Except.ok.injEq, Option.getD_none] at h2
  obtain ⟨bw, hb, T, hT, A, hA, rfl⟩ := h2
  obtain ⟨b1, b2, b3⟩ := BaseWrapper.make_parts hb
  have hu : Spec.Unbatched asoh := b2 ▸ hready.asoh_single
  obtain ⟨d, b, hd, hop⟩ := Joint.converter_rescales hpinv hwf hu hT hA normalize h1
  obtain ⟨r1, T', A', g, r2, r3, r4, r5, r6⟩ :=
    C87_new_joint_estimator _ hready (by simp only [b1]; exact hrow) hd (by simp only [b3]; exact hop) rfl cov ic n nT nA s tune E h3
  obtain ⟨_, _, _, _, _, _, _, _, _, _, _, _, _, _, _, _, _, _, hw, _⟩ := Joint.fromWrapper_inv h3
  simp only [b1, b2] at r1 r2 r3
  exact ⟨r1, T', A', g, r2, r3, by rw [hw]; exact r4, r5, r6⟩

/-- The converters that `initialize_unscented_kalman_filter` of dual estimators chooses are changes of units. -/
theorem Dual.converter_rescales {pinv : Mat → Mat} (hpinv : IsPinv pinv) {asoh : HV ℝ} (hwf : asoh.WF) (hu : Spec.Unbatched asoh)
    {A : Arr2 ℝ} (hA : asoh.getParameters none = .ok A) (normalize : Bool) {conv : Operator}
    (hc : Dual.converter pinv asoh normalize = .ok conv) : ∃ d b : Fin A.ncol → ℝ, (∀ i, d i ≠ 0) ∧ conv.Rescales A.ncol d b := by
  cases normalize with
  | false =>
    cases hc
    exact ⟨_, _, fun _ => one_ne_zero, identity_rescales _⟩
  | true =>
    simp only [Dual.converter, normalizer, hA, ok_bind, pure_eq_ok, Except.ok.injEq] at hc
    have hAr : A.nrow = 1 := unbatched_nrow hwf hu (fun n hn => updatable_subset hn) hA
    obtain ⟨_, _, _, hAn⟩ := Arr2.flat_single hAr
    have hn : (A.flat.map fun x => if x = 0 then 1 else x).n = A.ncol := hAn
    obtain ⟨d, hd⟩ := Vec.eta_of hn
    have hne : ∀ i, d i ≠ 0 := by
      intro i
      have h1 : (A.flat.map fun x => if x = 0 then 1 else x).at' i = d i := by
        rw [hd]; unfold Vec.at'; rw [dif_pos i.2]
      have hlt : i.1 < (A.flat.map fun x => if x = 0 then 1 else x).n := by rw [hn]; exact i.2
      rw [← h1]
      unfold Vec.at'
      rw [dif_pos hlt]
      simp only [Vec.map]
      split
      · exact one_ne_zero
      · assumption
    obtain ⟨b', hb'⟩ := factors_rescales hpinv d hne (.zeros 1) (.inr rfl)
    rw [hd] at hc
    exact ⟨d, b', hne, hc ▸ hb'⟩

/-- C87 for dual estimators made with `initialize_unscented_kalman_filter`, with or without normalisation. -/
theorem C87_initialized_dual_estimator {pinv : Mat → Mat} (hpinv : IsPinv pinv) (cell : Cell) (asoh : HV ℝ) (hwf : asoh.WF)
    (hu : Spec.Unbatched asoh) (transients inputs : Container ℝ) (hrow : transients.Single) (hheld : Spec.held transients ≠ [])
    (covT covA : Mat) (ic qT qA s : Option Mat) (normalize : Bool) (tT tA : Tuning) (E : Dual)
    (hE : Dual.initializeUkf pinv cell asoh transients inputs covT covA ic qT qA s normalize tT tA = .ok E) :
    E.getEstimatedState = .ok (transients, asoh) ∧ ∃ T A t a, transients.toNumpy = .ok T ∧ asoh.getParameters none = .ok A ∧
      E.trans.hidden.convert E.cellW.hiddenConv = .ok t ∧ E.asoh.hidden.convert E.asohW.hiddenConv = .ok a ∧
      t.mean.toList = T.flat.toList ∧ t.cov = covT ∧ a.mean.toList = A.flat.toList ∧ a.cov = covA := by
  simp only [Dual.initializeUkf, CellWrapper.make, DegradationWrapper.make, bind_eq_ok_iff, pure_eq_ok, Except.ok.injEq,
    Option.getD_none] at hE
  obtain ⟨conv, h1, cw, ⟨bc, hbc, T, hT, rfl⟩, aw, ⟨ba, hba, T', hT', A, hA, rfl⟩, h3⟩ := hE
  obtain ⟨b1, b2, b3⟩ := BaseWrapper.make_parts hbc
  obtain ⟨c1, c2, c3⟩ := BaseWrapper.make_parts hba
  obtain ⟨d, b, hd, hop⟩ := Dual.converter_rescales hpinv hwf hu hA normalize h1
  obtain ⟨r1, t, a, r2, r3, r4, r5, r6⟩ := C87_new_dual_estimator ⟨bc, T.ncol⟩ _ (by simp only [c2]; exact hwf) (by simp only [c2]; exact hu)
    (by simp only [c2]) (by simp only [b1]; exact hheld) (by simp only [b1]; exact hrow) (fun _ => one_ne_zero) hd
    (by simp only [b3]; exact identity_rescales T.ncol) (by simp only [c3]; exact hop) T A (by simp only [b1]; exact hT)
    (by simp only [c2]; exact hA) rfl rfl covT covA ic qT qA s tT tA E h3
  simp only [b1, c2] at r1
  simp only [Dual.converted, bind_eq_ok_iff, pure_eq_ok, Except.ok.injEq, Prod.mk.injEq] at r2
  obtain ⟨t', q1, a', q2, rfl, rfl⟩ := r2
  exact ⟨r1, T, A, _, _, hT, hA, q1, q2, r3, r4, r5, r6⟩

/-! ## C88 -/

/-- The noises a new filter holds: those given, or 10⁻⁸ for every coordinate. -/
theorem Ukf.noises {σ : Type} {model : Wrapper σ} {mem : σ} {hidden : Gaussian} {controls : Dist} {covW covV : Option Mat} {alpha : ℝ}
    {kappa : Option ℝ} {beta : ℝ} {f : Ukf σ} (h : Ukf.make model mem hidden controls covW covV alpha kappa beta = .ok f) :
    f.covW = covW.getD ⟨model.nHidden, model.nHidden, (1 / 10 ^ 8 : ℝ) • (1 : Matrix _ _ ℝ)⟩ ∧
    f.covV = covV.getD ⟨model.nOut, model.nOut, (1 / 10 ^ 8 : ℝ) • (1 : Matrix _ _ ℝ)⟩ := by
  have hI : ∀ n, (Mat.eye n).map (1 / 10 ^ 8 * ·) = ⟨n, n, (1 / 10 ^ 8 : ℝ) • (1 : Matrix _ _ ℝ)⟩ := by
    intro n
    rw [Mat.eye, Mat.diag_of]
    refine congrArg (Mat.mk n n) ?_
    ext i j
    by_cases hij : i = j
    · subst hij; simp
    · simp [Matrix.diagonal_apply_ne _ hij, Matrix.one_apply_ne hij]
  have key : ∀ k, Ukf.makeNoise model mem hidden controls covW covV alpha beta k = .ok f →
      f.covW = covW.getD ((Mat.eye model.nHidden).map (1 / 10 ^ 8 * ·)) ∧ f.covV = covV.getD ((Mat.eye model.nOut).map (1 / 10 ^ 8 * ·)) := by
    intro k hk
    unfold Ukf.makeNoise at hk
    simp only at hk
    split at hk
    · cases hk
    split at hk
    · cases hk
    split at hk
    · cases hk
    split at hk
    · cases hk
    cases hk
    exact ⟨rfl, rfl⟩
  have : f.covW = covW.getD ((Mat.eye model.nHidden).map (1 / 10 ^ 8 * ·)) ∧ f.covV = covV.getD ((Mat.eye model.nOut).map (1 / 10 ^ 8 * ·)) := by
    unfold Ukf.make at h
    split at h
    · cases h
    split at h
    · cases h
    split at h
    · cases h
    split at h
    · cases h
    split at h
    · exact key _ h
    · split at h
      · cases h
      · exact key _ h
  rw [hI, hI] at this
  exact this

/-- Converting a noise into filter coordinates and back changes nothing. -/
theorem noiseToFilter_back {op : Operator} {k : Nat} {d b : Fin k → ℝ} (h : op.Rescales k d b) (hd : ∀ i, d i ≠ 0)
    {C : Matrix (Fin k) (Fin k) ℝ} {q : Option Mat} (hq : noiseToFilter op (some ⟨k, k, C⟩) = .ok q) (D : Mat) (p : Vec) :
    op.covariance (q.getD D) p = .ok ⟨k, k, C⟩ := by
  obtain ⟨C', rfl⟩ : ∃ C', rescaleCov d d C' = C := by
    refine ⟨rescaleCov (fun i => (d i)⁻¹) (fun i => (d i)⁻¹) C, ?_⟩
    ext i j
    have := hd i
    have := hd j
    simp only [rescaleCov]
    field_simp
  simp only [noiseToFilter, h.invCovariance, ok_bind, pure_eq_ok, Except.ok.injEq] at hq
  subst hq
  rw [Option.getD_some, h.covariance]

theorem jointNoise_parts {nt na : Nat} (T : Matrix (Fin nt) (Fin nt) ℝ) (A : Matrix (Fin na) (Fin na) ℝ) :
    Joint.jointNoise none (some ⟨nt, nt, T⟩) (some ⟨na, na, A⟩) =
      some ⟨nt + na, nt + na, (Matrix.fromBlocks T 0 0 A).reindex finSumFinEquiv finSumFinEquiv⟩ := by
  exact congrArg some (blockDiag_parts T A)

/-- C88.  A process noise for the whole state is used as given, whatever is given for its parts; without it, the noises of the two parts,
when both are given, make a block diagonal one; the noise of the measurements is used as given as well.  All in the units of the model,
whatever the units of the filter.  Missing: only one of the two parts, see `C88_lone_part_ignored`. -/
theorem C88_process_noise_partial (w : JointWrapper) {nt na : Nat} {d b : Fin (nt + na) → ℝ} (hd : ∀ i, d i ≠ 0)
    (hop : w.hiddenConv.Rescales (nt + na) d b) (cov : Mat ⊕ (Mat × Mat)) (ic s : Option Mat) (tune : Tuning) (E : Joint) (p : Vec) :
    (∀ Q tN aN, Joint.fromWrapper w cov ic (some ⟨nt + na, nt + na, Q⟩) tN aN s tune = .ok E →
      w.hiddenConv.covariance E.filter.covW p = .ok ⟨nt + na, nt + na, Q⟩) ∧
    (∀ T A, Joint.fromWrapper w cov ic none (some ⟨nt, nt, T⟩) (some ⟨na, na, A⟩) s tune = .ok E →
      w.hiddenConv.covariance E.filter.covW p =
        .ok ⟨nt + na, nt + na, (Matrix.fromBlocks T 0 0 A).reindex finSumFinEquiv finSumFinEquiv⟩) ∧
    ∀ {o : Nat} {e c : Fin o → ℝ} (n tN aN : Option Mat) R, (∀ i, e i ≠ 0) → w.outputConv.Rescales o e c → s = some ⟨o, o, R⟩ →
      Joint.fromWrapper w cov ic n tN aN s tune = .ok E → w.outputConv.covariance E.filter.covV p = .ok ⟨o, o, R⟩ := by
  refine ⟨fun Q tN aN hE => ?_, fun T A hE => ?_, fun {o e c} n tN aN R he hout hs hE => ?_⟩
  · obtain ⟨u, T, A, g0, g, u', q, r, f, h1, h2, h3, h4, h5, h6, h7, h8, h9, h10, h11, h12⟩ := Joint.fromWrapper_inv hE
    rw [h11, (Ukf.noises h9).1]
    exact noiseToFilter_back hop hd h7 _ p
  · obtain ⟨u, _, _, g0, g, u', q, r, f, h1, h2, h3, h4, h5, h6, h7, h8, h9, h10, h11, h12⟩ := Joint.fromWrapper_inv hE
    rw [jointNoise_parts] at h7
    rw [h11, (Ukf.noises h9).1]
    exact noiseToFilter_back hop hd h7 _ p
  · obtain ⟨u, _, _, g0, g, u', q, r, f, h1, h2, h3, h4, h5, h6, h7, h8, h9, h10, h11, h12⟩ := Joint.fromWrapper_inv hE
    subst hs
    rw [h11, (Ukf.noises h9).2]
    exact noiseToFilter_back hout he h8 _ p

/-- C88 fails: the process noise of one part alone changes nothing; the estimator is the one without any process noise given. -/
theorem C88_lone_part_ignored (w : JointWrapper) (cov : Mat ⊕ (Mat × Mat)) (ic s : Option Mat) (tune : Tuning) (Q : Mat) :
    Joint.fromWrapper w cov ic none (some Q) none s tune = Joint.fromWrapper w cov ic none none none s tune ∧
    Joint.fromWrapper w cov ic none none (some Q) s tune = Joint.fromWrapper w cov ic none none none s tune :=
  ⟨rfl, rfl⟩

/-! ## C89 -/

/-- C89.  Without a process noise the filter of a joint estimator assumes 10⁻⁸ for every coordinate of its own, whatever the units: in
model coordinates that is 10⁻⁸ times the square of the factor.  Without conversion this is the documented default. -/
theorem C89_default_process_noise_partial (w : JointWrapper) {k : Nat} {d b : Fin k → ℝ} (hop : w.hiddenConv.Rescales k d b)
    (hk : w.toWrapper.nHidden = k) (cov : Mat ⊕ (Mat × Mat)) (ic s : Option Mat) (tune : Tuning) (E : Joint)
    (hE : Joint.fromWrapper w cov ic none none none s tune = .ok E) (p : Vec) :
    w.hiddenConv.covariance E.filter.covW p = .ok ⟨k, k, Matrix.diagonal fun i => 1 / 10 ^ 8 * d i ^ 2⟩ := by
  obtain ⟨u, T, A, g0, g, u', q, r, f, h1, h2, h3, h4, h5, h6, h7, h8, h9, h10, h11, h12⟩ := Joint.fromWrapper_inv hE
  have hq : q = none := (Except.ok.inj h7).symm
  subst hk
  rw [h11, (Ukf.noises h9).1, hq, Option.getD_none, hop.covariance]
  refine congrArg (fun C => Except.ok (Mat.mk _ _ C)) ?_
  ext i j
  by_cases hij : i = j
  · subst hij; simp [rescaleCov]; ring
  · simp [rescaleCov, Matrix.diagonal_apply_ne _ hij, Matrix.one_apply_ne hij]

/-- C89 fails: in units other than those of the model (or their opposites) the noise assumed by default is another one than without
conversion. -/
theorem C89_default_noise_depends_on_units (w : JointWrapper) {k : Nat} {d b : Fin k → ℝ} (hop : w.hiddenConv.Rescales k d b)
    (hk : w.toWrapper.nHidden = k) (i : Fin k) (hi : d i ^ 2 ≠ 1) (cov : Mat ⊕ (Mat × Mat)) (ic s : Option Mat) (tune : Tuning) (E E₀ : Joint)
    (hE : Joint.fromWrapper w cov ic none none none s tune = .ok E) (hE₀ : Joint.fromWrapper w.plain cov ic none none none s tune = .ok E₀)
    (p : Vec) : w.hiddenConv.covariance E.filter.covW p ≠ w.plain.hiddenConv.covariance E₀.filter.covW p := by
  have h1 := C89_default_process_noise_partial w hop hk cov ic s tune E hE p
  have h2 := C89_default_process_noise_partial w.plain (identity_rescales k) hk cov ic s tune E₀ hE₀ p
  rw [h1, h2]
  intro h
  have h := congrArg (fun g => match g with | .ok (M : Mat) => M.at' i i | .error (_ : Err) => 0) h
  simp only [Mat.at_fin, Matrix.diagonal_apply_eq] at h
  apply hi
  have h8 : (1 / 10 ^ 8 : ℝ) ≠ 0 := by norm_num
  have := mul_left_cancel₀ h8 h
  simpa using this

/-! ## A concrete estimator -/

namespace Demo

/-- The estimator of the concrete wrapper can be built with the default noises. -/
theorem joint_built_default {op : Operator} {d b : Fin 2 → ℝ} (hd : ∀ i, d i ≠ 0) (hop : op.Rescales 2 d b) : ∃ E,
    Joint.fromWrapper (joint op) (.inl ⟨2, 2, 1⟩) none none none none none ⟨1, none, 2⟩ = .ok E := by
  obtain ⟨μ, hμ⟩ := rescale_surj (r := b) hd ![3, 5]
  have hmean : Vec.append (Arr2.ofRow [(3 : ℝ)]).flat (Arr2.ofRow [(5 : ℝ)]).flat = ⟨2, ![3, 5]⟩ := by
    refine Vec.ext_at rfl fun i hi => ?_
    have : i < 2 := hi
    interval_cases i <;> rfl
  obtain ⟨P', hP', hP1⟩ := rescaleCov_surj hd (C := (1 : Matrix (Fin 2) (Fin 2) ℝ)) .one
  have hg : Gaussian.convert ⟨⟨2, ![3, 5]⟩, ⟨2, 2, 1⟩⟩ op true = .ok ⟨⟨2, μ⟩, ⟨2, 2, P'⟩⟩ :=
    Gaussian.unconvert_ok (by decide) (by rw [← hμ]; exact hop.invSamples1 μ) (by rw [← hP1]; exact hop.invCovariance P' _)
  obtain ⟨f, hf⟩ : ∃ f, Ukf.make (joint op).toWrapper () ⟨⟨2, μ⟩, ⟨2, 2, P'⟩⟩ (.delta ⟨(Arr2.ofRow [(1 : ℝ)]).flat⟩) none none 1 none 2 = .ok f := by
    rcases Ukf.make_eq (joint op).toWrapper () ⟨⟨2, μ⟩, ⟨2, 2, P'⟩⟩ (.delta ⟨(Arr2.ofRow [(1 : ℝ)]).flat⟩) none none
      1 none 2 with ⟨_, W, V, h, _⟩ | ⟨hc, _⟩
    · exact ⟨_, h⟩
    · exact absurd ⟨rfl, by norm_num, by norm_num, by norm_num, nofun, nofun, nofun⟩ hc
  refine ⟨⟨⟨restCell, health, trans, inp, 1, [['v']], [['q']]⟩, joint op, f⟩, ?_⟩
  unfold Joint.fromWrapper
  have e1 : convertVals (joint op).inputs none = .ok (.delta ⟨(Arr2.ofRow [(1 : ℝ)]).flat⟩) := rfl
  have e2 : (joint op).transients.toNumpy = .ok (.ofRow [3]) := rfl
  have e3 : (joint op).asoh.getParameters (some (joint op).names) = .ok (.ofRow [5]) := rfl
  have e4 : Dist.convert (.delta ⟨(Arr2.ofRow [(1 : ℝ)]).flat⟩) (joint op).controlConv true =
    .ok (.delta ⟨(Arr2.ofRow [(1 : ℝ)]).flat⟩) := rfl
  have e5 : (joint op).hiddenConv = op := rfl
  have e6 : noiseToFilter op (Joint.jointNoise none none none) = .ok none := rfl
  have e7 : noiseToFilter (joint op).outputConv none = .ok none := rfl
  have e8 : Gaussian.make ⟨2, ![3, 5]⟩ (Joint.jointCov (.inl ⟨2, 2, 1⟩)) = .ok ⟨⟨2, ![3, 5]⟩, ⟨2, 2, 1⟩⟩ :=
    Gaussian.make_of (by decide) _ _
  rw [e1, ok_bind, e2, ok_bind, e3, ok_bind, hmean, e8, ok_bind, e5, hg, ok_bind, e4, ok_bind, e6, ok_bind, e7, ok_bind, hf, ok_bind]
  rfl

theorem trans_single : trans.Single := by
  intro q hq
  simp [trans, Spec.held] at hq
  rw [hq]
  rfl

end Demo

/-- A new estimator of the concrete wrapper, in the units of `normalize_asoh` (the parameter has the value 5), holds the initial values, and
its default noise is 25 times the one without normalisation. -/
example : ∃ op b E E₀, op.Rescales 2 ![1, 5] b ∧
    Joint.fromWrapper (Demo.joint op) (.inl ⟨2, 2, 1⟩) none none none none none ⟨1, none, 2⟩ = .ok E ∧
    Joint.fromWrapper (Demo.joint op).plain (.inl ⟨2, 2, 1⟩) none none none none none ⟨1, none, 2⟩ = .ok E₀ ∧
    E.getEstimatedState = .ok (Demo.trans, Demo.health) ∧
    op.covariance E.filter.covW (.zeros 2) ≠ Operator.identity.covariance E₀.filter.covW (.zeros 2) := by
  obtain ⟨pinv, hpinv⟩ := exists_pinv
  have hd : ∀ i, (![1, 5] : Fin 2 → ℝ) i ≠ 0 := by intro i; fin_cases i <;> norm_num
  obtain ⟨b', hb'⟩ := factors_rescales hpinv ![1, 5] hd (.zeros 1) (.inr rfl)
  obtain ⟨E, hE⟩ := Demo.joint_built_default hd hb'
  obtain ⟨E₀, hE₀⟩ := Demo.joint_built_default (fun _ => one_ne_zero) (identity_rescales 2)
  refine ⟨_, b', E, E₀, hb', hE, hE₀, ?_, ?_⟩
  · exact (C87_new_joint_estimator _ (Demo.joint_ready _) Demo.trans_single hd hb' rfl _ _ _ _ _ _ _ E hE).1
  · exact C89_default_noise_depends_on_units (Demo.joint _) hb' rfl 1 (by norm_num) _ _ _ _ E E₀ hE hE₀ _

/-- A concrete dual estimator that can be built holds the initial values. -/
example : ∃ E, Dual.fromWrappers Demo.sumCellW Demo.sumAsohW ⟨1, 1, 1⟩ ⟨1, 1, 1⟩ none (some ⟨1, 1, 1⟩) (some ⟨1, 1, 1⟩) (some ⟨1, 1, 1⟩)
    ⟨1, none, 2⟩ ⟨1, none, 2⟩ = .ok E ∧ E.getEstimatedState = .ok (Demo.trans, Demo.health) := by
  obtain ⟨E, hE, -⟩ := Demo.sum_healthy
  exact ⟨E, hE, (C87_new_dual_estimator Demo.sumCellW Demo.sumAsohW Demo.health_wf Demo.health_single rfl
    (by simp [Demo.sumCellW, Demo.trans, Spec.held]) Demo.trans_single (fun _ => one_ne_zero) (fun _ => one_ne_zero) (identity_rescales 1)
    (identity_rescales 1) (.ofRow [3]) (.ofRow [5]) rfl rfl rfl rfl _ _ _ _ _ _ _ _ E hE).1⟩

/-- The concrete estimators made by `initialize_unscented_kalman_filter`, with normalisation, hold the initial values. -/
example : ∃ pinv E, IsPinv pinv ∧
    Joint.initializeUkf pinv Demo.restCell Demo.health Demo.trans Demo.inp (.inl ⟨2, 2, 1⟩) none none none none none true ⟨1, none, 2⟩ = .ok E ∧
    E.getEstimatedState = .ok (Demo.trans, Demo.health) := by
  obtain ⟨pinv, hpinv⟩ := exists_pinv
  have hd : ∀ i, (![1, 5] : Fin 2 → ℝ) i ≠ 0 := by intro i; fin_cases i <;> norm_num
  obtain ⟨b', hb'⟩ := factors_rescales hpinv ![1, 5] hd (.zeros 1) (.inr rfl)
  obtain ⟨E, hE⟩ := Demo.joint_built_default hd hb'
  have hv : Vec.append ⟨1, fun _ => 1⟩ ((Arr2.ofRow [(5 : ℝ)]).flat.map fun x => if x = 0 then 1 else x) = ⟨2, ![1, 5]⟩ := by
    refine Vec.ext_at rfl fun i hi => ?_
    have : i < 2 := hi
    interval_cases i
    · rfl
    · show (if (5 : ℝ) = 0 then 1 else 5) = 5
      norm_num
  have hc : Joint.converter pinv Demo.health Demo.trans true = .ok (Operator.linear1d pinv ⟨2, ![1, 5]⟩ (.zeros 1)) := by
    rw [← hv]; rfl
  have hE' : Joint.initializeUkf pinv Demo.restCell Demo.health Demo.trans Demo.inp (.inl ⟨2, 2, 1⟩) none none none none none true
      ⟨1, none, 2⟩ = .ok E := by
    rw [Joint.initializeUkf, hc, ok_bind]
    exact hE
  exact ⟨pinv, E, hpinv, hE', (C87_initialized_joint_estimator hpinv _ _ Demo.health_wf (fun p a h => (Demo.health_single p a h).ge) _ _
    (Demo.joint_ready .identity).transients_wf Demo.trans_single (Demo.joint_ready .identity).transients_held _ _ _ _ _ _ _ _ E hE').1⟩

/-- The same for dual estimators. -/
example : ∃ pinv E, IsPinv pinv ∧ Dual.initializeUkf pinv Demo.sumCell Demo.health Demo.trans Demo.inp ⟨1, 1, 1⟩ ⟨1, 1, 1⟩ none
      (some ⟨1, 1, 1⟩) (some ⟨1, 1, 1⟩) (some ⟨1, 1, 1⟩) false ⟨1, none, 2⟩ ⟨1, none, 2⟩ = .ok E ∧
    E.getEstimatedState = .ok (Demo.trans, Demo.health) := by
  obtain ⟨pinv, hpinv⟩ := exists_pinv
  obtain ⟨E, hE, -⟩ := Demo.sum_healthy
  have hE' : Dual.initializeUkf pinv Demo.sumCell Demo.health Demo.trans Demo.inp ⟨1, 1, 1⟩ ⟨1, 1, 1⟩ none
      (some ⟨1, 1, 1⟩) (some ⟨1, 1, 1⟩) (some ⟨1, 1, 1⟩) false ⟨1, none, 2⟩ ⟨1, none, 2⟩ = .ok E := hE
  exact ⟨pinv, E, hpinv, hE', (C87_initialized_dual_estimator hpinv _ _ Demo.health_wf Demo.health_single _ _ Demo.trans_single
    (Demo.joint_ready .identity).transients_held _ _ _ _ _ _ false _ _ E hE').1⟩

/-- A process noise given to the concrete estimator is the one of its filter, in the units of `normalize_asoh` too. -/
example (Q : Matrix (Fin 2) (Fin 2) ℝ) : ∃ op b E, op.Rescales 2 ![1, 5] b ∧
    Joint.fromWrapper (Demo.joint op) (.inl ⟨2, 2, 1⟩) none (some ⟨2, 2, Q⟩) none none (some ⟨1, 1, 1⟩) ⟨1, none, 2⟩ = .ok E ∧
    op.covariance E.filter.covW (.zeros 2) = .ok ⟨2, 2, Q⟩ := by
  obtain ⟨pinv, hpinv⟩ := exists_pinv
  have hd : ∀ i, (![1, 5] : Fin 2 → ℝ) i ≠ 0 := by intro i; fin_cases i <;> norm_num
  obtain ⟨b', hb'⟩ := factors_rescales hpinv ![1, 5] hd (.zeros 1) (.inr rfl)
  obtain ⟨E, hE, -⟩ := Demo.joint_built hd hb' 1 Q 1
  exact ⟨_, b', E, hb', hE, (C88_process_noise_partial (nt := 1) (na := 1) (Demo.joint _) hd hb' _ _ _ _ E _).1 Q _ _ hE⟩

end Verif
