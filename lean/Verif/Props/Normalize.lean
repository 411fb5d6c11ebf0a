import Verif.Props.DualScale
/-!
# C130: normalizing the health parameters does not change the estimates
-/

namespace Verif
open Matrix Ecm Cell Spec

/-! ## Proofs: estimators that return the same -/

/-- Loops over finite rows with estimators that return the same are the same. -/
theorem runLoop_paired {σ : Type} {ops : EstimatorOps σ} {R : σ → σ → Prop}
    (hstep : ∀ e e', R e e' → ∀ t i T v : ℝ, ∃ f f' s o, ops.step e ⟨.fin t, .fin i, .fin T⟩ ⟨.fin v⟩ = .ok (f, s, o) ∧
      ops.step e' ⟨.fin t, .fin i, .fin T⟩ ⟨.fin v⟩ = .ok (f', s, o) ∧ R f f') (dims : Option (Nat × Nat)) {rows : List Row}
    (hf : ∀ r ∈ rows, r.Finite) : ∀ {e e' : σ}, R e e' → ∀ {w : Option Writer} {q}, runLoop ops dims e w rows = .ok q →
      ∃ f', runLoop ops dims e' w rows = .ok (f', q.2) ∧ R q.1 f' := by
  induction rows with
  | nil =>
    intro e e' h w q hq
    cases hq
    exact ⟨e', rfl, h⟩
  | cons row rest ih =>
    intro e e' h w q hq
    obtain ⟨t, i, T, v, hr⟩ := (hf row List.mem_cons_self).inputs
    obtain ⟨f, f', s, o, h1, h2, h3⟩ := hstep e e' h t i T v
    simp only [runLoop, hr, h1, ok_bind, bind_eq_ok_iff, pure_eq_ok, Except.ok.injEq] at hq
    obtain ⟨line, hl, w', hw, q', hq', rfl⟩ := hq
    obtain ⟨g, k1, k2⟩ := ih (fun r hr => hf r (List.mem_cons_of_mem _ hr)) h3 hq'
    refine ⟨g, ?_, k2⟩
    simp only [runLoop, hr, h2, ok_bind, hl, hw, k1, pure_eq_ok]

/-- Runs without a writer over finite rows with estimators that return the same are the same. -/
theorem runOnline_paired {σ : Type} (chunkOf : List Nat → Nat) {ops : EstimatorOps σ} {R : σ → σ → Prop}
    (hinfo : ∀ e e', R e e' → (ops.info e).stateNames = (ops.info e').stateNames ∧ (ops.info e).outputNames = (ops.info e').outputNames ∧
      (ops.info e).nOutputs = (ops.info e').nOutputs)
    (hstep : ∀ e e', R e e' → ∀ t i T v : ℝ, ∃ f f' s o, ops.step e ⟨.fin t, .fin i, .fin T⟩ ⟨.fin v⟩ = .ok (f, s, o) ∧
      ops.step e' ⟨.fin t, .fin i, .fin T⟩ ⟨.fin v⟩ = .ok (f', s, o) ∧ R f f') {data : Data} {rows : List Row} (hrows : data.rows = .ok rows)
    (hf : ∀ r ∈ rows, r.Finite) {e e' : σ} (h : R e e') {table : Option Table} {fin : σ} {u : CellInput} {w : Option Writer} {out : Bool}
    (hrun : runOnline chunkOf ops data e out none = .ok (table, fin, u, w)) :
    ∃ fin', runOnline chunkOf ops data e' out none = .ok (table, fin', u, w) ∧ R fin fin' := by
  cases rows with
  | nil =>
    simp only [runOnline, hrows, ok_bind] at hrun
    cases hrun
  | cons first rest =>
    obtain ⟨i1, i2, i3⟩ := hinfo e e' h
    simp only [runOnline, hrows, ok_bind, bind_eq_ok_iff, openWriter, pure_eq_ok, Except.ok.injEq, Prod.mk.injEq] at hrun
    obtain ⟨io, h1, dims, h2, q, h3, tb, h4, rfl, rfl, rfl, rfl⟩ := hrun
    obtain ⟨f', k1, k2⟩ := runLoop_paired hstep dims (fun r hr => hf r (List.mem_cons_of_mem _ hr)) h h3
    obtain ⟨j1, j2, j3⟩ := hinfo _ _ k2
    refine ⟨f', ?_, k2⟩
    have h2' : dimsOf (ops.info e') out = .ok dims := by
      cases out
      · exact h2
      · simp only [dimsOf] at h2 ⊢
        rw [← i1, ← i3]
        exact h2
    have h4' : makeTable (ops.info f') (rest.length + 1) q.2.2 dims = .ok tb := by
      cases dims with
      | none => exact h4
      | some d =>
        simp only [makeTable] at h4 ⊢
        rw [← j1, ← j2]
        exact h4
    simp only [runOnline, hrows, ok_bind, h1, h2', openWriter, k1, h4', pure_eq_ok]

/-! ## Proofs: joint estimators -/

theorem joint_conjugate' {w : JointWrapper} {n o : Nat} {d b : Fin n → ℝ} {e c : Fin o → ℝ}
    (hd : ∀ i, d i ≠ 0) (he : ∀ i, e i ≠ 0) (hh : w.hiddenConv.Rescales n d b) (hout : w.outputConv.Rescales o e c) {I : Unit → Prop}
    {U : Vec → Prop} (hrow : RowWise w.plain.toWrapper n o I U) :
    Conjugate w.plain.toWrapper w.toWrapper d b e c (fun s s' => s = s' ∧ I s) (fun u u' => U u ∧ w.controlConv.samples1 u' = .ok u) := by
  refine conjugate_units hd he hh hout (fun s X Y u u' v v' hY hv hv' => ?_) (fun s X Y u v hY hv => ?_) hrow
  · show (do return (← w.update X u u', ()) : Except Err (Mat × Unit)) = (do
      let r ← (do return (← w.plain.update Y v v', ()) : Except Err (Mat × Unit))
      return (← w.hiddenConv.invSamples2 r.1, r.2))
    rw [(C56_joint w X Y hY u u' v v' hv hv').1]
    simp only [bind_assoc, pure_eq_ok, ok_bind]
  · exact (C56_joint w X Y hY u u v v hv hv).2

/-- A joint estimator `E₀` working in the units of the model and one `E` around the wrapper `w` holding the same beliefs. -/
structure Joint.Counterpart (E₀ E : Joint) (w : JointWrapper) {n o : Nat} (d b : Fin n → ℝ) (e : Fin o → ℝ) (U : Vec → Prop) : Prop where
  base : E₀.base = E.base
  wrapper : E.wrapper = w
  wrapper₀ : E₀.wrapper = w.plain
  model : E.filter.model = w.toWrapper
  model₀ : E₀.filter.model = w.plain.toWrapper
  filter : E₀.filter.Counterpart E.filter d b e
  controls : U E₀.filter.controls.mean ∧ w.controlConv.samples1 E.filter.controls.mean = .ok E₀.filter.controls.mean

section
variable {w : JointWrapper} {n o : Nat} {d b : Fin n → ℝ} {e c : Fin o → ℝ} {U : Vec → Prop}

theorem Joint.Counterpart.step {E₀ E : Joint} (h : E₀.Counterpart E w d b e U) (hd : ∀ i, d i ≠ 0) (he : ∀ i, e i ≠ 0) (ho : 1 ≤ o)
    (hh : w.hiddenConv.Rescales n d b) (hout : w.outputConv.Rescales o e c)
    (hc : ∀ v : Vec, U v → ∃ v', w.controlConv.invSamples1 v = .ok v' ∧ w.controlConv.samples1 v' = .ok v)
    (hrow : RowWise w.plain.toWrapper n o (fun _ => True) U)
    (svd : Mat → Vec × Mat) (inputs meas : Container ℝ) (hin : ∃ v, inputs.toNumpy = .ok v ∧ U v.flat)
    (hmeas : ∃ v, meas.toNumpy = .ok v ∧ v.flat.n = o) :
    ∃ F₀ F est out, E₀.step svd inputs meas = .ok (F₀, est, out) ∧ E.step svd inputs meas = .ok (F, est, out) ∧
      F₀.Counterpart F w d b e U ∧ F.base = E.base := by
  obtain ⟨hn, -⟩ := h.filter.hidden
  obtain ⟨u, hu, huU⟩ := hin
  obtain ⟨y, hy, hyn⟩ := hmeas
  obtain ⟨v, v1, v2⟩ := hc _ huU
  obtain ⟨yv, hyv⟩ := Vec.eta_of hyn
  obtain ⟨y', hy'⟩ := rescale_surj (r := c) he yv
  have hcu : convertVals inputs none = .ok (.delta ⟨u.flat⟩) := by simp only [convertVals, hu, ok_bind, pure_eq_ok]
  have hcy : convertVals meas none = .ok (.delta ⟨⟨o, yv⟩⟩) := by simp only [convertVals, hy, ok_bind, pure_eq_ok, hyv]
  have c1 : (Dist.delta ⟨u.flat⟩).convert w.controlConv true = .ok (.delta ⟨v⟩) := by
    simp only [Dist.convert, Delta.convert, if_true, v1]; rfl
  have c2 : (Dist.delta ⟨⟨o, yv⟩⟩).convert w.outputConv true = .ok (.delta ⟨⟨o, y'⟩⟩) := by
    rw [← hy']
    simp only [Dist.convert, Delta.convert, if_true, hout.invSamples1]; rfl
  have c0 : ∀ δ, (Dist.delta δ).convert .identity true = .ok (.delta δ) := fun _ => rfl
  obtain ⟨r₀, r, s₀, s, cp, m₀, m, mem, k₀, k, out1, out2⟩ :=
    h.filter.step hd he ho (c := c) (M := fun s s' => s = s' ∧ True) (U := fun u u' => U u ∧ w.controlConv.samples1 u' = .ok u)
      (by rw [h.model₀, h.model]
          exact joint_conjugate' hd he hh hout hrow) ⟨rfl, trivial⟩ h.controls svd (.delta ⟨u.flat⟩) (.delta ⟨v⟩) (.delta ⟨⟨o, yv⟩⟩)
      (.delta ⟨⟨o, y'⟩⟩) ⟨huU, v2⟩ y' rfl (by rw [hy']; rfl)
  have q1 := out1.convert hh hn
  have q2 := out2.convert hout ho
  refine ⟨{ E₀ with filter := r₀.1 }, { E with filter := r.1 }, r₀.2.1, r₀.2.2, ?_, ?_, ?_, rfl⟩
  · have e1 : w.plain.hiddenConv = .identity := rfl
    have e2 : w.plain.outputConv = .identity := rfl
    have e3 : w.plain.controlConv = .identity := rfl
    simp only [Joint.step, hcu, hcy, ok_bind, h.wrapper₀, e1, e2, e3, c0, s₀, q1.2, q2.2, pure_eq_ok]
  · simp only [Joint.step, hcu, hcy, ok_bind, h.wrapper, c1, c2, s, q1.1, q2.1, pure_eq_ok]
  · exact ⟨h.base, h.wrapper, h.wrapper₀, m.trans h.model, m₀.trans h.model₀, cp, by rw [k₀, k]; exact ⟨huU, v2⟩⟩

end

/-! ## Proofs: default noises -/

/-- The covariance of a noise that was not given. -/
theorem default_cov (n : Nat) : (Mat.eye n).map (1 / 10 ^ 8 * ·) = ⟨n, n, (1 / 10 ^ 8 : ℝ) • (1 : Matrix (Fin n) (Fin n) ℝ)⟩ := rfl

/-- Giving a noise the covariance it has by default changes nothing. -/
theorem Ukf.make_default {σ : Type} (w : Wrapper σ) (m : σ) (g : Gaussian) (u : Dist) (q r : Option Mat) (α : ℝ) (κ : Option ℝ) (β : ℝ) :
    Ukf.make w m g u q r α κ β = Ukf.make w m g u (some (q.getD ((Mat.eye w.nHidden).map (1 / 10 ^ 8 * ·))))
      (some (r.getD ((Mat.eye w.nOut).map (1 / 10 ^ 8 * ·)))) α κ β := by
  unfold Ukf.make Ukf.makeNoise
  simp only [Option.getD_some]

theorem noise_identity (q : Option Mat) : noiseToFilter .identity q = .ok q := by cases q <;> rfl

theorem noise_getD {q : Option Mat} {n : Nat} (hq : NoiseFor q n) :
    ∃ Q : Matrix (Fin n) (Fin n) ℝ, Q.PosDef ∧ q.getD ((Mat.eye n).map (1 / 10 ^ 8 * ·)) = ⟨n, n, Q⟩ := by
  cases q with
  | none => exact ⟨_, posDef_default n, rfl⟩
  | some c =>
    obtain ⟨Q, rfl, hQ⟩ := hq c rfl
    exact ⟨Q, hQ, rfl⟩

/-! ## Proofs: circuits -/

section
variable {x : Fixed} {measured series : Bool} {a : ASOH} {asoh : HV ℝ} {tr inp : Container ℝ}

theorem joint_parts {pinv : Mat → Mat} {cell : Cell} {cov : Mat ⊕ (Mat × Mat)} {noise noiseT noiseA sensor : Option Mat} {normalize : Bool}
    {tune : Tuning} {E : Joint} (h : Joint.initializeUkf pinv cell asoh tr inp cov none noise noiseT noiseA sensor normalize tune = .ok E) :
    ∃ conv, Joint.converter pinv asoh tr normalize = .ok conv ∧
      JointWrapper.make cell asoh tr inp none (NoDegradation _ _ _ _) conv .identity .identity = .ok E.wrapper ∧
      Joint.fromWrapper E.wrapper cov none noise noiseT noiseA sensor tune = .ok E := by
  simp only [Joint.initializeUkf, bind_eq_ok_iff] at h
  obtain ⟨conv, h1, w, h2, h3⟩ := h
  obtain ⟨_, _, _, _, _, _, _, _, _, _, _, _, _, _, _, _, _, _, hw, _⟩ := Joint.fromWrapper_inv h3
  rw [hw]
  exact ⟨conv, h1, h2, h3⟩

theorem BaseWrapper.make_plain {cell : Cell} {conv : Operator} {w w₀ : BaseWrapper}
    (h : BaseWrapper.make cell asoh tr inp conv .identity .identity = .ok w)
    (h₀ : BaseWrapper.make cell asoh tr inp .identity .identity .identity = .ok w₀) :
    w₀ = w.plain ∧ w.hiddenConv = conv ∧ w.controlConv = .identity ∧ w.outputConv = .identity ∧ w.asoh = asoh ∧ w.transients = tr ∧ w.inputs = inp := by
  simp only [BaseWrapper.make, bind_eq_ok_iff, pure_eq_ok] at h h₀
  obtain ⟨ba, b1, hB⟩ := h
  obtain ⟨ba₀, b1₀, hB₀⟩ := h₀
  cases b1.symm.trans b1₀
  split at hB
  · cases hB
  rename_i hba
  rw [if_neg hba] at hB₀
  simp only [bind_eq_ok_iff] at hB hB₀
  obtain ⟨bt, b2, hB⟩ := hB
  obtain ⟨bt₀, b2₀, hB₀⟩ := hB₀
  cases b2.symm.trans b2₀
  split at hB
  · cases hB
  rename_i hbt
  rw [if_neg hbt] at hB₀
  simp only [bind_eq_ok_iff, Except.ok.injEq] at hB hB₀
  obtain ⟨y, b3, z, b4, rfl⟩ := hB
  obtain ⟨y₀, b3₀, z₀, b4₀, rfl⟩ := hB₀
  cases b3.symm.trans b3₀
  cases b4.symm.trans b4₀
  exact ⟨rfl, rfl, rfl, rfl, rfl, rfl, rfl⟩

theorem JointWrapper.make_plain {cell : Cell} {ns : Option (List Name)} {deg : Degradation} {conv : Operator} {w w₀ : JointWrapper}
    (h : JointWrapper.make cell asoh tr inp ns deg conv .identity .identity = .ok w)
    (h₀ : JointWrapper.make cell asoh tr inp ns deg .identity .identity .identity = .ok w₀) :
    w₀ = w.plain ∧ w.hiddenConv = conv ∧ w.controlConv = .identity ∧ w.outputConv = .identity ∧ w.inputs = inp := by
  simp only [JointWrapper.make, bind_eq_ok_iff, pure_eq_ok, Except.ok.injEq] at h h₀
  obtain ⟨B, hB, v, hv, p, hp, rfl⟩ := h
  obtain ⟨B₀, hB₀, v₀, hv₀, p₀, hp₀, rfl⟩ := h₀
  cases hv.symm.trans hv₀
  cases hp.symm.trans hp₀
  obtain ⟨rfl, h1, h2, h3, -, -, h4⟩ := BaseWrapper.make_plain hB hB₀
  exact ⟨rfl, h1, h2, h3, h4⟩

/-- The joint estimators of a circuit with and without normalization hold the same beliefs. -/
theorem joint_counterpart (beh : Behavior) (h : CircuitTask x asoh tr inp measured series a) (he : Estimable asoh.updatableNames measured series a)
    {T A : Arr2 ℝ} (hT : tr.toNumpy = .ok T) (hA : asoh.getParameters none = .ok A) {cov : Mat ⊕ (Mat × Mat)} (hcov : PosDefCov T.ncol A.ncol cov)
    {noise noiseT noiseA sensor : Option Mat} (hq : NoiseFor noise (T.ncol + A.ncol)) (hqT : NoiseFor noiseT T.ncol) (hqA : NoiseFor noiseA A.ncol)
    (hr : NoiseFor sensor 1) (hgiven : noise ≠ none ∨ (noiseT ≠ none ∧ noiseA ≠ none)) {pinv : Mat → Mat} (hpinv : IsPinv pinv) {tune : Tuning}
    (ht : Tuned tune (2 * (T.ncol + A.ncol) + 1)) :
    ∃ E E₀ : Joint, ∃ d b : Fin (T.ncol + A.ncol) → ℝ,
      Joint.initializeUkf pinv (Ecm.cell beh x) asoh tr inp cov none noise noiseT noiseA sensor true tune = .ok E ∧
      Joint.initializeUkf pinv (Ecm.cell beh x) asoh tr inp cov none noise noiseT noiseA sensor false tune = .ok E₀ ∧
      (∀ i, d i ≠ 0) ∧ E.wrapper.hiddenConv.Rescales (T.ncol + A.ncol) d b ∧ E.wrapper.controlConv = .identity ∧
      E.wrapper.outputConv = .identity ∧ EstimatesCircuit E.wrapper beh x measured series a ∧ E.wrapper.names = asoh.updatableNames ∧
      E.wrapper.nTransients = T.ncol ∧ E.wrapper.nAsoh = A.ncol ∧
      E₀.Counterpart E E.wrapper d b (fun _ : Fin 1 => 1) (fun u => 2 + (if measured then 1 else 0) ≤ u.n) := by
  obtain ⟨E, names, V, hE, hc, wn, wT, wA, wc, wo, -, ⟨_, _, _, _, hH, -⟩, hwt, hmod, hV, hVn, hu, -⟩ := joint_task_parts beh h he hT hA hcov hq hqT hqA hr hpinv true ht
  obtain ⟨E₀, -, V₀, hE₀, -, -, -, -, -, -, -, -, hwt₀, hmod₀, hV₀, -, hu₀, -⟩ :=
    joint_task_parts beh h he hT hA hcov hq hqT hqA hr hpinv false ht
  obtain rfl := Except.ok.inj (hV.symm.trans hV₀)
  obtain ⟨conv, hconv, hw, hfw⟩ := joint_parts hE
  obtain ⟨conv₀, hconv₀, hw₀, hfw₀⟩ := joint_parts hE₀
  cases hconv₀
  obtain ⟨p1, p2, p3, p4, p5⟩ := JointWrapper.make_plain hw hw₀
  obtain ⟨d, b, hd, hh⟩ := Joint.converter_rescales hpinv h.asoh.wf h.asoh.unbatched hT hA true hconv
  rw [← p2] at hh
  refine ⟨E, E₀, d, b, hE, hE₀, hd, hh, p3, p4, hc, wn, wT, wA, ?_⟩
  obtain ⟨u, T', A', g0, g, u', q, r, f, h1, h2, h3, h4, h5, h6, h7, h8, h9, h10, h11, h12⟩ := Joint.fromWrapper_inv hfw
  obtain ⟨v, T₀, A₀, g0₀, g₀, v', q₀, r₀, f₀, k1, k2, k3, k4, k5, k6, k7, k8, k9, k10, k11, k12⟩ := Joint.fromWrapper_inv hfw₀
  rw [p1] at k2 k3 k5 k7 k8 k9 k12
  cases h2.symm.trans k2
  cases h3.symm.trans k3
  cases h4.symm.trans k4
  obtain ⟨P, hPe, hP⟩ := posDefCov_joint hcov
  rw [hPe] at h4
  obtain ⟨hn, y, -, rfl⟩ := Gaussian.make_inv h4
  obtain ⟨Q, hQ, hQe⟩ : ∃ Q : Matrix (Fin (T.ncol + A.ncol)) (Fin (T.ncol + A.ncol)) ℝ, Q.PosDef ∧
      Joint.jointNoise noise noiseT noiseA = some ⟨_, _, Q⟩ := by
    obtain ⟨c, hc⟩ : ∃ c, Joint.jointNoise noise noiseT noiseA = some c := by
      rcases hgiven with h | ⟨h, h'⟩
      · obtain ⟨c, rfl⟩ := Option.ne_none_iff_exists'.1 h
        exact ⟨c, rfl⟩
      · obtain ⟨c, rfl⟩ := Option.ne_none_iff_exists'.1 h
        obtain ⟨c', rfl⟩ := Option.ne_none_iff_exists'.1 h'
        cases noise <;> exact ⟨_, rfl⟩
    obtain ⟨Q, rfl, hQ⟩ := noise_joint hq hqT hqA c hc
    exact ⟨Q, hQ, hc⟩
  rw [hQe] at h7 k7
  rw [p4] at h8
  obtain rfl : sensor = r := Except.ok.inj ((noise_identity sensor).symm.trans h8)
  obtain rfl : sensor = r₀ := Except.ok.inj ((noise_identity sensor).symm.trans k8)
  obtain ⟨R, hR, hRe⟩ := noise_getD hr
  have o1 : E.wrapper.toWrapper.nOut = 1 := by rw [← hmod]; exact hH.nOut
  have mk : ∀ {σ : Type} {w : Wrapper σ} (m : σ) (g : Gaussian) (u : Dist) (q : Mat), w.nOut = 1 →
      Ukf.make w m g u (some q) sensor tune.alpha tune.kappa tune.beta =
        Ukf.make w m g u (some q) (some ⟨1, 1, R⟩) tune.alpha tune.kappa tune.beta := by
    intro σ w m g u q hw
    rw [Ukf.make_default, hw, hRe]
    rfl
  have q1 : ∃ q1, q = some q1 := by
    simp only [noiseToFilter, bind_eq_ok_iff, pure_eq_ok, Except.ok.injEq] at h7
    obtain ⟨q1, -, rfl⟩ := h7
    exact ⟨q1, rfl⟩
  have q2 : ∃ q2, q₀ = some q2 := by
    simp only [noiseToFilter, bind_eq_ok_iff, pure_eq_ok, Except.ok.injEq] at k7
    obtain ⟨q1, -, rfl⟩ := k7
    exact ⟨q1, rfl⟩
  obtain ⟨q1, rfl⟩ := q1
  obtain ⟨q2, rfl⟩ := q2
  rw [mk _ _ _ _ o1] at h9
  rw [mk (w := E.wrapper.plain.toWrapper) _ _ _ _ o1] at k9
  subst h11 k11
  refine ⟨Except.ok.inj (k12.symm.trans h12), rfl, p1, hmod, by rw [hmod₀, p1],
    counterpart_of_make (w := E.wrapper.toWrapper) (w₀ := E.wrapper.plain.toWrapper) (out := .identity) (c := fun _ => 0) hd (fun _ => one_ne_zero) hh
      (identity_rescales 1) hn rfl rfl hP hQ hR h5 h7 rfl h9 k5 k7 rfl k9 hwt₀, ?_⟩
  rw [hu, hu₀, p3]
  exact ⟨hVn.ge, rfl⟩

/-- C130 for joint estimation of circuits.  Whoever estimates parameters of an equivalent circuit jointly with its transient states and gives the
process noise (as a whole or its two parts) gets the same estimates, predicted outputs and standard deviations from every dataset, line by line,
whether the parameters are normalized or not. -/
theorem C130_joint_normalization (h : CircuitTask x asoh tr inp measured series a) (he : Estimable asoh.updatableNames measured series a)
    {T A : Arr2 ℝ} (hT : tr.toNumpy = .ok T) (hA : asoh.getParameters none = .ok A) {cov : Mat ⊕ (Mat × Mat)} (hcov : PosDefCov T.ncol A.ncol cov)
    {noise noiseT noiseA sensor : Option Mat} (hq : NoiseFor noise (T.ncol + A.ncol)) (hqT : NoiseFor noiseT T.ncol) (hqA : NoiseFor noiseA A.ncol)
    (hr : NoiseFor sensor 1) (hgiven : noise ≠ none ∨ (noiseT ≠ none ∧ noiseA ≠ none)) {pinv : Mat → Mat} (hpinv : IsPinv pinv) {tune : Tuning}
    (ht : Tuned tune (2 * (T.ncol + A.ncol) + 1)) (svd : Mat → Vec × Mat) (chunkOf : List Nat → Nat)
    (data : Data) (rows : List Row) (hrows : data.rows = .ok rows) (hne : rows ≠ []) (hf : ∀ r ∈ rows, r.Finite) :
    ∃ E E₀ table F F₀ u, Joint.initializeUkf pinv (Ecm.cell .constant x) asoh tr inp cov none noise noiseT noiseA sensor true tune = .ok E ∧
      Joint.initializeUkf pinv (Ecm.cell .constant x) asoh tr inp cov none noise noiseT noiseA sensor false tune = .ok E₀ ∧
      runOnline chunkOf (Joint.ops svd) data E true none = .ok (some table, F, u, none) ∧
      runOnline chunkOf (Joint.ops svd) data E₀ true none = .ok (some table, F₀, u, none) ∧ table.rows.length = rows.length := by
  obtain ⟨E₁, table, F, u, hE₁, hrun, hlen⟩ :=
    C107_joint_from_data h he hT hA hcov hq hqT hqA hr hpinv true ht svd chunkOf data rows hrows hne hf
  obtain ⟨E, E₀, d, b, hE, hE₀, hd, hh, wc, wo, hc, wn, wT, wA, hcp⟩ := joint_counterpart .constant h he hT hA hcov hq hqT hqA hr hgiven hpinv ht
  obtain rfl := Except.ok.inj (hE.symm.trans hE₁)
  have hrow := joint_longer hc.inputs (circuit_rowWise hc (wn ▸ he))
  rw [wT, wA] at hrow
  generalize E.wrapper = w at *
  obtain ⟨F₀, k1, -⟩ := runOnline_paired chunkOf (ops := Joint.ops svd)
    (R := fun e e₀ => e₀.Counterpart e w d b (fun _ : Fin 1 => 1) (fun u => 2 + (if measured then 1 else 0) ≤ u.n))
    (fun e e₀ hR => by
      show e.base.stateNames = e₀.base.stateNames ∧ e.base.outputNames = e₀.base.outputNames ∧ e.base.nOutputs = e₀.base.nOutputs
      rw [hR.base]
      exact ⟨rfl, rfl, rfl⟩)
    (fun e e₀ hR t i T v => by
      obtain ⟨c, cv, c1, c2, c3⟩ := container3 t i T
      obtain ⟨y, yv, y1, y2, y3⟩ := container1 v
      obtain ⟨f₀, f, s, o, s1, s2, s3, -⟩ := hR.step (c := fun _ => 0) hd (fun _ => one_ne_zero) le_rfl hh (wo ▸ identity_rescales 1)
        (fun v _ => by rw [wc]; exact ⟨v, rfl, rfl⟩) hrow svd c y ⟨cv, c2, by rw [c3]; split <;> omega⟩ ⟨yv, y2, y3⟩
      refine ⟨f, f₀, s, o, ?_, ?_, s3⟩
      · simp only [Joint.ops, c1, y1, ok_bind, s2]
      · simp only [Joint.ops, c1, y1, ok_bind, s1])
    hrows hf hcp hrun
  exact ⟨E, E₀, table, F, F₀, u, hE, hE₀, hrun, k1, hlen⟩

theorem Ukf.make_process {σ : Type} (w : Wrapper σ) (m : σ) (g : Gaussian) (u : Dist) (r : Option Mat) (α : ℝ) (κ : Option ℝ) (β : ℝ) :
    Ukf.make w m g u none r α κ β = Ukf.make w m g u (some ((Mat.eye w.nHidden).map (1 / 10 ^ 8 * ·))) r α κ β := by
  unfold Ukf.make Ukf.makeNoise
  simp only [Option.getD_some, Option.getD_none]

theorem Ukf.make_sensor {σ : Type} (w : Wrapper σ) (m : σ) (g : Gaussian) (u : Dist) (q : Option Mat) (α : ℝ) (κ : Option ℝ) (β : ℝ) :
    Ukf.make w m g u q none α κ β = Ukf.make w m g u q (some ((Mat.eye w.nOut).map (1 / 10 ^ 8 * ·))) α κ β := by
  unfold Ukf.make Ukf.makeNoise
  simp only [Option.getD_some, Option.getD_none]

theorem Dual.fromWrappers_default {cw : CellWrapper} {aw : DegradationWrapper} (c1 : cw.hiddenConv = .identity) (c2 : cw.outputConv = .identity)
    (c3 : aw.outputConv = .identity) {nT o : Nat} (n1 : cw.toWrapper.nHidden = nT) (n2 : cw.toWrapper.nOut = o) (n3 : aw.toWrapper.nOut = o)
    (PT PA : Mat) (qT qA r : Option Mat) (tT tA : Tuning) :
    Dual.fromWrappers cw aw PT PA none qT qA r tT tA = Dual.fromWrappers cw aw PT PA none
      (some (qT.getD ((Mat.eye nT).map (1 / 10 ^ 8 * ·)))) qA (some (r.getD ((Mat.eye o).map (1 / 10 ^ 8 * ·)))) tT tA := by
  unfold Dual.fromWrappers
  simp only [c1, c2, c3, noise_identity, ok_bind]
  cases qT <;> cases r <;>
    simp only [Option.getD_some, Option.getD_none, Ukf.make_process cw.toWrapper, Ukf.make_sensor cw.toWrapper, Ukf.make_sensor aw.toWrapper, n1, n2, n3]

theorem dual_parts {pinv : Mat → Mat} {cell : Cell} {covT covA : Mat} {noiseT noiseA sensor : Option Mat} {normalize : Bool}
    {tT tA : Tuning} {E : Dual} (h : Dual.initializeUkf pinv cell asoh tr inp covT covA none noiseT noiseA sensor normalize tT tA = .ok E) :
    ∃ conv, Dual.converter pinv asoh normalize = .ok conv ∧ CellWrapper.make cell asoh tr inp .identity .identity .identity = .ok E.cellW ∧
      DegradationWrapper.make cell asoh tr inp none (NoDegradation _ _ _ _) conv .identity .identity = .ok E.asohW ∧
      Dual.fromWrappers E.cellW E.asohW covT covA none noiseT noiseA sensor tT tA = .ok E := by
  simp only [Dual.initializeUkf, bind_eq_ok_iff] at h
  obtain ⟨conv, h1, cw, h2, aw, h3, h4⟩ := h
  obtain ⟨_, _, _, _, _, _, _, _, _, _, _, _, _, -, -, -, -, -, -, -, -, -, -, -, -, -, -, -, rfl, rfl, -⟩ := Dual.fromWrappers_parts h4
  exact ⟨conv, h1, h2, h3, h4⟩

theorem DegradationWrapper.make_plain {cell : Cell} {ns : Option (List Name)} {deg : Degradation} {conv : Operator} {w w₀ : DegradationWrapper}
    (h : DegradationWrapper.make cell asoh tr inp ns deg conv .identity .identity = .ok w)
    (h₀ : DegradationWrapper.make cell asoh tr inp ns deg .identity .identity .identity = .ok w₀) :
    w₀ = w.plain ∧ w.hiddenConv = conv ∧ w.controlConv = .identity ∧ w.outputConv = .identity ∧ w.asoh = asoh ∧ w.transients = tr ∧ w.inputs = inp := by
  simp only [DegradationWrapper.make, bind_eq_ok_iff, pure_eq_ok, Except.ok.injEq] at h h₀
  obtain ⟨B, hB, v, hv, p, hp, rfl⟩ := h
  obtain ⟨B₀, hB₀, v₀, hv₀, p₀, hp₀, rfl⟩ := h₀
  cases hv.symm.trans hv₀
  cases hp.symm.trans hp₀
  obtain ⟨rfl, h⟩ := BaseWrapper.make_plain hB hB₀
  exact ⟨rfl, h⟩

theorem CellWrapper.make_plain {cell : Cell} {w : CellWrapper}
    (h : CellWrapper.make cell asoh tr inp .identity .identity .identity = .ok w) : w = w.plain ∧ w.inputs = inp ∧ w.transients = tr := by
  simp only [CellWrapper.make, bind_eq_ok_iff, pure_eq_ok, Except.ok.injEq] at h
  obtain ⟨B, hB, v, hv, rfl⟩ := h
  obtain ⟨h1, -, -, -, -, h2, h3⟩ := BaseWrapper.make_plain hB hB
  refine ⟨?_, h3, h2⟩
  show (⟨B, v.ncol⟩ : CellWrapper) = ⟨B.plain, v.ncol⟩
  rw [← h1]

/-- The dual estimators of a circuit with and without normalization hold the same beliefs. -/
theorem dual_counterpart (beh : Behavior) (h : CircuitTask x asoh tr inp measured series a) (he : DualEstimable asoh.updatableNames measured series a)
    {T A : Arr2 ℝ} (hT : tr.toNumpy = .ok T) (hA : asoh.getParameters none = .ok A) (hn : 1 ≤ A.ncol) {covT covA : Mat}
    (hcT : PosDefMat covT T.ncol) (hcA : PosDefMat covA A.ncol)
    {noiseT sensor : Option Mat} {noiseA : Mat} (hqT : NoiseFor noiseT T.ncol) (hqA : PosDefMat noiseA A.ncol)
    (hr : NoiseFor sensor 1) {pinv : Mat → Mat} (hpinv : IsPinv pinv) {tT tA : Tuning}
    (htT : Tuned tT (2 * T.ncol + 1)) (htA : Tuned tA (2 * A.ncol + 1)) :
    ∃ E E₀ : Dual, ∃ d b : Fin A.ncol → ℝ,
      Dual.initializeUkf pinv (Ecm.cell beh x) asoh tr inp covT covA none noiseT (some noiseA) sensor true tT tA = .ok E ∧
      Dual.initializeUkf pinv (Ecm.cell beh x) asoh tr inp covT covA none noiseT (some noiseA) sensor false tT tA = .ok E₀ ∧
      (∀ i, d i ≠ 0) ∧ E.cellW.hiddenConv = .identity ∧ E.cellW.controlConv = .identity ∧ E.cellW.outputConv = .identity ∧
      E.asohW.hiddenConv.Rescales A.ncol d b ∧ E.asohW.controlConv = .identity ∧ E.asohW.outputConv = .identity ∧
      TracksCircuit E.cellW beh x measured series a.rcs.length ∧ TracksHealth E.asohW beh x measured a ∧ E.asohW.names = asoh.updatableNames ∧
      E.cellW.nTransients = T.ncol ∧ E.asohW.nAsoh = A.ncol ∧
      (∀ y : Fin A.ncol → ℝ, ∃ m, E.base.asoh.makeCopy (Vec.vals ⟨A.ncol, y⟩) none = .ok m ∧
        ∃ b, HoldsCircuit x m b ∧ b.rcs.length = a.rcs.length ∧ Estimable [] measured series b) ∧
      (∀ t : Fin T.ncol → ℝ, ∃ s, HoldsState (E.base.transients.makeCopy (Vec.vals ⟨T.ncol, t⟩)) series a.rcs.length s) ∧
      E₀.Counterpart E E.cellW E.asohW (fun _ : Fin T.ncol => 1) (fun _ => 0) d b (fun _ : Fin 1 => 1) (fun _ => 1)
        (fun u => 2 + (if measured then 1 else 0) ≤ u.n) (fun m => ∃ s, HoldsState m.1 series a.rcs.length s) := by
  have hqA' : NoiseFor (some noiseA) A.ncol := by rintro _ ⟨⟩; exact hqA
  obtain ⟨E, names, V, hE, hTc, hTh, wn, wT, wA, c1, c2, c3, c4, c5, -, ⟨_, _, _, _, hHT, -⟩, ⟨_, _, _, _, hHA, -⟩, -, -, mT, mA, hV, hVn, uT, uA, lT, lA, lm, -⟩ :=
    dual_task_parts beh h he hT hA hn hcT hcA hqT hqA' hr hpinv true htT htA
  obtain ⟨E₀, -, V₀, hE₀, -, -, -, -, -, -, -, -, -, -, -, -, -, g1, g2, -⟩ :=
    dual_task_parts beh h he hT hA hn hcT hcA hqT hqA' hr hpinv false htT htA
  obtain ⟨conv, hconv, hcw, haw, hfw⟩ := dual_parts hE
  obtain ⟨conv₀, hconv₀, hcw₀, haw₀, hfw₀⟩ := dual_parts hE₀
  cases hconv₀
  obtain ⟨p1, p2, p3, p4, p5, p6, p7⟩ := DegradationWrapper.make_plain haw haw₀
  obtain ⟨r1, r2, r3⟩ := CellWrapper.make_plain hcw
  obtain ⟨d, b, hd, hh⟩ := Dual.converter_rescales hpinv h.asoh.wf h.asoh.unbatched hA true hconv
  rw [← p2] at hh
  refine ⟨E, E₀, d, b, hE, hE₀, hd, c1, c2, c3, hh, c4, c5, hTc, hTh, wn, wT, wA, lT, lA, ?_⟩
  obtain ⟨PT, rfl, hPT⟩ := hcT
  obtain ⟨PA, rfl, hPA⟩ := hcA
  obtain ⟨QA, rfl, hQA⟩ := hqA
  obtain ⟨QT, hQT, hQTe⟩ := noise_getD hqT
  obtain ⟨R, hR, hRe⟩ := noise_getD hr
  have o1 : E.cellW.toWrapper.nOut = 1 := by rw [← mT]; exact hHT.nOut
  have o2 : E.asohW.toWrapper.nOut = 1 := by rw [← mA]; exact hHA.nOut
  have o3 : E.cellW.toWrapper.nHidden = T.ncol := wT
  rw [p1, ← Except.ok.inj (hcw.symm.trans hcw₀)] at hfw₀
  rw [Dual.fromWrappers_default c1 c3 c5 o3 o1 o2, hQTe, hRe] at hfw
  rw [Dual.fromWrappers_default (aw := E.asohW.plain) c1 c3 rfl o3 o1 o2, hQTe, hRe, r1] at hfw₀
  refine Dual.counterpart_built (cT := fun _ => 0) (cA := fun _ => 0) (fun _ => one_ne_zero) hd (fun _ => one_ne_zero) (fun _ => one_ne_zero) (c1 ▸ identity_rescales _) hh
    (c3 ▸ identity_rescales 1) (c5 ▸ identity_rescales 1) (fun v _ => by rw [c2]; exact ⟨v, rfl, rfl⟩) (fun v _ => by rw [c4]; exact ⟨v, rfl, rfl⟩)
    ?_ ⟨V, by rw [r2]; exact hV, hVn.ge⟩ hPT hQT hPA hQA hR hfw hfw₀ g1 g2
  obtain ⟨T', hT', hTl, -, hTb⟩ := state_back h.transients h.transients_single
  have := holds_copy h.transients (t := T'.flat.toList) (by rw [Vec.toList, List.length_ofFn, hTl])
  rw [hTb] at this
  rw [p6]
  exact ⟨_, this⟩

/-- C130 for dual estimation of circuits: as `C130_joint_normalization`, given the process noise of the parameters. -/
theorem C130_dual_normalization (h : CircuitTask x asoh tr inp measured series a) (he : DualEstimable asoh.updatableNames measured series a)
    (hre : ∀ prev, Reaches asoh.updatableNames prev series a.rcs.length)
    {T A : Arr2 ℝ} (hT : tr.toNumpy = .ok T) (hA : asoh.getParameters none = .ok A) (hn : 1 ≤ A.ncol) {covT covA : Mat}
    (hcT : PosDefMat covT T.ncol) (hcA : PosDefMat covA A.ncol)
    {noiseT sensor : Option Mat} {noiseA : Mat} (hqT : NoiseFor noiseT T.ncol) (hqA : PosDefMat noiseA A.ncol)
    (hr : NoiseFor sensor 1) {pinv : Mat → Mat} (hpinv : IsPinv pinv) {tT tA : Tuning}
    (htT : Tuned tT (2 * T.ncol + 1)) (htA : Tuned tA (2 * A.ncol + 1)) (svd : Mat → Vec × Mat) (chunkOf : List Nat → Nat)
    (data : Data) (rows : List Row) (hrows : data.rows = .ok rows) (hne : rows ≠ []) (hf : ∀ r ∈ rows, r.Finite) :
    ∃ E E₀ table F F₀ u,
      Dual.initializeUkf pinv (Ecm.cell .constant x) asoh tr inp covT covA none noiseT (some noiseA) sensor true tT tA = .ok E ∧
      Dual.initializeUkf pinv (Ecm.cell .constant x) asoh tr inp covT covA none noiseT (some noiseA) sensor false tT tA = .ok E₀ ∧
      runOnline chunkOf (Dual.ops svd) data E true none = .ok (some table, F, u, none) ∧
      runOnline chunkOf (Dual.ops svd) data E₀ true none = .ok (some table, F₀, u, none) ∧ table.rows.length = rows.length := by
  have hqA' : NoiseFor (some noiseA) A.ncol := by rintro _ ⟨⟩; exact hqA
  obtain ⟨E₁, table, F, u, hE₁, hrun, hlen⟩ :=
    C107_dual_from_data_partial h he hre hT hA hn hcT hcA hqT hqA' hr hpinv true htT htA svd chunkOf data rows hrows hne hf
  obtain ⟨E, E₀, d, b, hE, hE₀, hd, c1, c2, c3, hh, c4, c5, hTc, hTh, wn, wT, wA, lT, lA, hcp⟩ :=
    dual_counterpart .constant h he hT hA hn hcT hcA hqT hqA hr hpinv htT htA
  obtain rfl := Except.ok.inj (hE.symm.trans hE₁)
  have rT := cell_longer hTc.inputs (tracks_rowWise hTc)
  have rA := health_longer hTh.inputs (health_rowWise hTh (wn ▸ he) (wn ▸ hre))
  rw [wT] at rT
  rw [wA] at rA
  generalize hcw : E.cellW = cw at *
  generalize haw : E.asohW = aw at *
  generalize hbase : E.base = base at *
  obtain ⟨F₀, k1, -⟩ := runOnline_paired chunkOf (ops := Dual.ops svd)
    (R := fun e e₀ => e₀.Counterpart e cw aw (fun _ : Fin T.ncol => 1) (fun _ => 0) d b (fun _ : Fin 1 => 1) (fun _ => 1)
        (fun u => 2 + (if measured then 1 else 0) ≤ u.n) (fun m => ∃ s, HoldsState m.1 series a.rcs.length s) ∧ e.base = base)
    (fun e e₀ hR => by
      show e.base.stateNames = e₀.base.stateNames ∧ e.base.outputNames = e₀.base.outputNames ∧ e.base.nOutputs = e₀.base.nOutputs
      rw [hR.1.base]
      exact ⟨rfl, rfl, rfl⟩)
    (fun e e₀ hR t i T v => by
      obtain ⟨hR, hb⟩ := hR
      obtain ⟨c, cv, c1', c2', c3'⟩ := container3 t i T
      obtain ⟨y, yv, y1, y2, y3⟩ := container1 v
      obtain ⟨f₀, f, s, o, s1, s2, s3, s4⟩ := hR.step (cT := fun _ => 0) (cA := fun _ => 0) (fun _ => one_ne_zero) hd (fun _ => one_ne_zero)
        (fun _ => one_ne_zero) le_rfl (c1 ▸ identity_rescales _) hh (c3 ▸ identity_rescales 1) (c5 ▸ identity_rescales 1)
        (fun v _ => by rw [c2]; exact ⟨v, rfl, rfl⟩) (fun v _ => by rw [c4]; exact ⟨v, rfl, rfl⟩) rT rA (by rw [hb]; exact lT)
        (fun t _ _ => by rw [hb]; exact lA t) svd c y ⟨cv, c2', by rw [c3']; split <;> omega⟩ ⟨yv, y2, y3⟩
      refine ⟨f, f₀, s, o, ?_, ?_, s3, s4.trans hb⟩
      · simp only [Dual.ops, c1', y1, ok_bind, s2]
      · simp only [Dual.ops, c1', y1, ok_bind, s1])
    hrows hf ⟨hcp, hbase⟩ hrun
  exact ⟨E, E₀, table, F, F₀, u, hE, hE₀, hrun, k1, hlen⟩

end

-- The open-circuit voltage and R0 of the concrete circuit estimated from any dataset in memory with given process noise, jointly and dually.
example (svd : Mat → Vec × Mat) (chunkOf : List Nat → Nat) (xs : List (ℝ × ℝ × ℝ × ℕ)) (hne : xs ≠ []) :
    ∃ pinv, IsPinv pinv ∧
      (∃ E E₀ table F F₀ u,
        Joint.initializeUkf pinv (Ecm.cell .constant Demo.fixed) (Demo.hvUpdating [kOcv, kR0] [kBase]) Demo.hvState Demo.hvInput
          (.inr (⟨3, 3, 1⟩, ⟨3, 3, 1⟩)) none none (some ⟨3, 3, 1⟩) (some ⟨3, 3, 1⟩) none true ⟨1, some 0, 2⟩ = .ok E ∧
        Joint.initializeUkf pinv (Ecm.cell .constant Demo.fixed) (Demo.hvUpdating [kOcv, kR0] [kBase]) Demo.hvState Demo.hvInput
          (.inr (⟨3, 3, 1⟩, ⟨3, 3, 1⟩)) none none (some ⟨3, 3, 1⟩) (some ⟨3, 3, 1⟩) none false ⟨1, some 0, 2⟩ = .ok E₀ ∧
        runOnline chunkOf (Joint.ops svd) (Verif.Demo.dataset xs) E true none = .ok (some table, F, u, none) ∧
        runOnline chunkOf (Joint.ops svd) (Verif.Demo.dataset xs) E₀ true none = .ok (some table, F₀, u, none) ∧ table.rows.length = xs.length) ∧
      ∃ E E₀ table F F₀ u,
        Dual.initializeUkf pinv (Ecm.cell .constant Demo.fixed) (Demo.hvUpdating [kOcv, kR0] [kBase]) Demo.hvState Demo.coldInput
          ⟨3, 3, 1⟩ ⟨3, 3, 1⟩ none none (some ⟨3, 3, 1⟩) none true ⟨1, some 0, 2⟩ ⟨1, some 0, 2⟩ = .ok E ∧
        Dual.initializeUkf pinv (Ecm.cell .constant Demo.fixed) (Demo.hvUpdating [kOcv, kR0] [kBase]) Demo.hvState Demo.coldInput
          ⟨3, 3, 1⟩ ⟨3, 3, 1⟩ none none (some ⟨3, 3, 1⟩) none false ⟨1, some 0, 2⟩ ⟨1, some 0, 2⟩ = .ok E₀ ∧
        runOnline chunkOf (Dual.ops svd) (Verif.Demo.dataset xs) E true none = .ok (some table, F, u, none) ∧
        runOnline chunkOf (Dual.ops svd) (Verif.Demo.dataset xs) E₀ true none = .ok (some table, F₀, u, none) ∧ table.rows.length = xs.length := by
  obtain ⟨pinv, hp⟩ := exists_pinv
  have hrows := Verif.Demo.dataset_rows xs
  have hne' : xs.map (fun x => Verif.Demo.readingCols.zip (Verif.Demo.reading x)) ≠ [] := by simpa using hne
  have hf : ∀ r ∈ xs.map (fun x => Verif.Demo.readingCols.zip (Verif.Demo.reading x)), Row.Finite r := by
    intro r hr
    obtain ⟨y, -, rfl⟩ := List.mem_map.1 hr
    exact Verif.Demo.reading_finite y
  have hn := Demo.none_fits
  have h1 : ∀ n, NoiseFor (some ⟨n, n, 1⟩) n := by
    rintro n _ ⟨⟩
    exact Demo.one_posDef n
  refine ⟨pinv, hp, ?_, ?_⟩
  · obtain ⟨E, E₀, table, F, F₀, u, k1, k2, k3, k4, k5⟩ := C130_joint_normalization Demo.warm_task Demo.warm_estimable.1 rfl rfl
      (.parts (Demo.one_posDef 3) (Demo.one_posDef 3)) (hn _) (h1 3) (h1 3) (hn _) (.inr ⟨nofun, nofun⟩) hp (tuned_default (by omega)) svd chunkOf _ _
      hrows hne' hf
    exact ⟨E, E₀, table, F, F₀, u, k1, k2, k3, k4, by rw [k5, List.length_map]⟩
  · obtain ⟨E, E₀, table, F, F₀, u, k1, k2, k3, k4, k5⟩ := C130_dual_normalization Demo.cold_task Demo.cold_estimable
      (Demo.trackingHealth_reaches .constant .identity) rfl rfl (by show 1 ≤ 3; decide) (Demo.one_posDef 3) (Demo.one_posDef 3) (hn _) (Demo.one_posDef 3)
      (hn _) hp (tuned_default (by omega)) (tuned_default (by omega)) svd chunkOf _ _ hrows hne' hf
    exact ⟨E, E₀, table, F, F₀, u, k1, k2, k3, k4, by rw [k5, List.length_map]⟩

end Verif
