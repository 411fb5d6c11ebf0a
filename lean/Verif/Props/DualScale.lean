import Verif.Props.EcmPipeline
/-!
# C130: estimates do not depend on the units a filter works in

The specifications `Operator.Rescales`, `RowWise`, `InUnits` and `Conjugate` (Verif/Props/UkfScale.lean, Verif/Props/Ukf.lean) are used.
-/

namespace Verif
open Matrix Ecm Spec

/-! ## Proofs: models in other units -/

/-- A model around converters is the model without them in other units. -/
theorem conjugate_units {σ : Type} {w₀ w : Wrapper σ} {hid out ctl : Operator} {n o : Nat} {d b : Fin n → ℝ} {e c : Fin o → ℝ}
    (hd : ∀ i, d i ≠ 0) (he : ∀ i, e i ≠ 0) (hh : hid.Rescales n d b) (hout : out.Rescales o e c) {I : σ → Prop} {U : Vec → Prop}
    (hupd : ∀ s X Y u u' v v', hid.samples2 X = .ok Y → ctl.samples1 u = .ok v → ctl.samples1 u' = .ok v' →
      w.update s X u u' = (do
        let r ← w₀.update s Y v v'
        return (← hid.invSamples2 r.1, r.2)))
    (hpred : ∀ s X Y u v, hid.samples2 X = .ok Y → ctl.samples1 u = .ok v →
      w.predict s X u = (w₀.predict s Y v >>= out.invSamples2))
    (hrow : RowWise w₀ n o I U) :
    Conjugate w₀ w d b e c (fun s s' => s = s' ∧ I s) (fun u u' => U u ∧ ctl.samples1 u' = .ok u) := by
  rintro s _ v u v' u' ⟨rfl, hs⟩ ⟨hvU, hv⟩ ⟨hvU', hv'⟩
  obtain ⟨g, k, t, ht, hY, hZ⟩ := hrow s v v' hs hvU hvU'
  have inv : ∀ {m : Nat} {a r : Fin m → ℝ}, (∀ i, a i ≠ 0) → ∀ x, rescale a r (fun i => (x i - r i) / a i) = x := by
    intro m a r ha x
    funext i
    have := ha i
    simp only [rescale]
    field_simp
    ring
  refine ⟨g, fun x i => (g (rescale d b x) i - b i) / d i, k, fun x i => (k (rescale d b x) i - c i) / e i, t, t, ⟨rfl, ht⟩,
    fun x => (inv hd _).symm, fun x => (inv he _).symm, hY, hZ, fun K hK X => ?_, fun K hK X => ?_⟩
  · rw [hupd s _ _ _ _ _ _ (hh.samples2 K X) hv hv', hY K hK fun i => rescale d b (X i), ok_bind]
    have h4 := hh.invSamples2 K fun i j => (g (rescale d b (X i)) j - b j) / d j
    have h5 : (fun i => rescale d b fun j => (g (rescale d b (X i)) j - b j) / d j) = fun i => g (rescale d b (X i)) :=
      funext fun i => inv hd _
    rw [h5] at h4
    rw [h4]
    rfl
  · rw [hpred t _ _ _ _ (hh.samples2 K X) hv', hZ K hK fun i => rescale d b (X i), ok_bind]
    have h4 := hout.invSamples2 K fun i j => (k (rescale d b (X i)) j - c j) / e j
    have h5 : (fun i => rescale e c fun j => (k (rescale d b (X i)) j - c j) / e j) = fun i => k (rescale d b (X i)) :=
      funext fun i => inv he _
    rw [h5] at h4
    exact h4

theorem cell_conjugate {w : CellWrapper} {n o : Nat} {d b : Fin n → ℝ} {e c : Fin o → ℝ}
    (hd : ∀ i, d i ≠ 0) (he : ∀ i, e i ≠ 0) (hh : w.hiddenConv.Rescales n d b) (hout : w.outputConv.Rescales o e c) {I : HV ℝ → Prop}
    {U : Vec → Prop} (hrow : RowWise w.plain.toWrapper n o I U) :
    Conjugate w.plain.toWrapper w.toWrapper d b e c (fun s s' => s = s' ∧ I s) (fun u u' => U u ∧ w.controlConv.samples1 u' = .ok u) := by
  refine conjugate_units hd he hh hout (fun s X Y u u' v v' hY hv hv' => ?_) (fun s X Y u v hY hv => ?_) hrow
  · show (do return (← w.update s X u u', s) : Except Err (Mat × HV ℝ)) = (do
      let r ← (do return (← w.plain.update s Y v v', s) : Except Err (Mat × HV ℝ))
      return (← w.hiddenConv.invSamples2 r.1, r.2))
    rw [(C56_cell w s X Y hY u u' v v' hv hv').1]
    simp only [bind_assoc, pure_eq_ok, ok_bind]
  · exact (C56_cell w s X Y hY u u v v hv hv).2

theorem health_conjugate {w : DegradationWrapper} {n o : Nat} {d b : Fin n → ℝ} {e c : Fin o → ℝ}
    (hd : ∀ i, d i ≠ 0) (he : ∀ i, e i ≠ 0) (hh : w.hiddenConv.Rescales n d b) (hout : w.outputConv.Rescales o e c)
    {I : Container ℝ × Container ℝ → Prop} {U : Vec → Prop} (hrow : RowWise w.plain.toWrapper n o I U) :
    Conjugate w.plain.toWrapper w.toWrapper d b e c (fun s s' => s = s' ∧ I s) (fun u u' => U u ∧ w.controlConv.samples1 u' = .ok u) := by
  refine conjugate_units hd he hh hout (fun s X Y u u' v v' hY hv hv' => ?_) (fun s X Y u v hY hv => ?_) hrow
  · show (do
      let r ← w.update s.1 X u u'
      return (r.1, (s.1, r.2)) : Except Err (Mat × Container ℝ × Container ℝ)) = (do
      let r ← (do
        let r ← w.plain.update s.1 Y v v'
        return (r.1, (s.1, r.2)) : Except Err (Mat × Container ℝ × Container ℝ))
      return (← w.hiddenConv.invSamples2 r.1, r.2))
    rw [(C56_degradation w s.1 s.2 X Y hY u u' v v' hv hv').1]
    simp only [bind_assoc, pure_eq_ok, ok_bind]
  · exact (C56_degradation w s.1 s.2 X Y hY u u v v hv hv).2

/-! ## Proofs: filters in other units -/

/-- A filter `f` and one `f'` holding the same beliefs and noises in other units. -/
structure Ukf.Counterpart {σ τ : Type} (f : Ukf σ) (f' : Ukf τ) {n o : Nat} (d b : Fin n → ℝ) (e : Fin o → ℝ) : Prop where
  holds : ∃ μ P Q R, f'.Holds n o μ P Q R ∧ f.Holds n o (rescale d b μ) (rescaleCov d d P) (rescaleCov d d Q) (rescaleCov e e R) ∧
    P.PosDef ∧ Q.PosDef ∧ R.PosDef
  alpha : f.alpha = f'.alpha
  beta : f.beta = f'.beta
  kappa : f.kappa = f'.kappa
  weights : ∀ i, 0 ≤ f'.covWeights.get i

namespace Ukf
variable {σ τ : Type} {f : Ukf σ} {f' : Ukf τ} {n o : Nat} {d b : Fin n → ℝ} {e c : Fin o → ℝ}

theorem Counterpart.withMem (h : f.Counterpart f' d b e) (m : σ) (m' : τ) : Counterpart { f with mem := m } { f' with mem := m' } d b e := by
  obtain ⟨⟨μ, P, Q, R, h1, h2, h3⟩, ha, hb, hk, hw⟩ := h
  exact ⟨⟨μ, P, Q, R, ⟨h1.nHidden, h1.nOut, h1.n_pos, h1.hidden, h1.covW, h1.covV, h1.augLen, h1.alpha_pos, h1.alpha_le, h1.beta_nonneg, h1.spread⟩,
    ⟨h2.nHidden, h2.nOut, h2.n_pos, h2.hidden, h2.covW, h2.covV, h2.augLen, h2.alpha_pos, h2.alpha_le, h2.beta_nonneg, h2.spread⟩, h3⟩, ha, hb, hk, hw⟩

theorem Counterpart.step (h : f.Counterpart f' d b e) (hd : ∀ i, d i ≠ 0) (he : ∀ i, e i ≠ 0) (ho : 1 ≤ o) {M U}
    (hconj : Conjugate f.model f'.model d b e c M U) (hM : M f.mem f'.mem) (hU : U f.controls.mean f'.controls.mean) (svd : Mat → Vec × Mat)
    (new new' meas meas' : Dist) (hU2 : U new.mean new'.mean) (z' : Fin o → ℝ) (hz' : meas'.mean = ⟨o, z'⟩)
    (hz : meas.mean = ⟨o, rescale e c z'⟩) :
    ∃ r r', f.step svd new meas = .ok r ∧ f'.step svd new' meas' = .ok r' ∧ r.1.Counterpart r'.1 d b e ∧ r.1.model = f.model ∧
      r'.1.model = f'.model ∧ M r.1.mem r'.1.mem ∧ r.1.controls = new ∧ r'.1.controls = new' ∧ InUnits d b r.2.1 r'.2.1 ∧
      InUnits e c r.2.2 r'.2.2 := by
  obtain ⟨⟨μ, P, Q, R, h', h, hP, hQ, hR⟩, ha, hb, hk, hw⟩ := h
  obtain ⟨g, g', k, k', t, t', hM', hg, hk', hY, hZ, hY', hZ'⟩ := hconj _ _ _ _ _ _ hM hU hU2
  obtain ⟨x, Px, y, S, hPx, hs', hs⟩ := step_rescale hd he h' h ha hb hk hP hQ hR ho (h'.wc0_nonneg hw) svd new meas new' meas' z' hz' hz
    hg hk' hY hZ hY' hZ'
  exact ⟨_, _, hs, hs', ⟨⟨x, Px, Q, R, h'.after x Px t' new', h.after _ _ t new, hPx, hQ, hR⟩, ha, hb, hk, hw⟩, rfl, rfl, hM', rfl, rfl,
    ⟨x, Px, rfl, rfl⟩, ⟨y, S, rfl, rfl⟩⟩

end Ukf

theorem InUnits.convert {op : Operator} {k : Nat} {d b : Fin k → ℝ} (hop : op.Rescales k d b) (hk : 1 ≤ k) {h g : Gaussian} (hu : InUnits d b h g) :
    g.convert op = .ok h ∧ h.convert .identity = .ok h := by
  obtain ⟨μ, S, rfl, rfl⟩ := hu
  refine ⟨hop.convert hk μ S, ?_⟩
  exact (C45_identity_round_trip _ ⟨hk, rfl, rfl⟩ ⟨⟨k, μ⟩⟩).1

theorem Ukf.Counterpart.hidden {σ τ : Type} {f : Ukf σ} {f' : Ukf τ} {n o : Nat} {d b : Fin n → ℝ} {e : Fin o → ℝ} (h : f.Counterpart f' d b e) :
    1 ≤ n ∧ InUnits d b f.hidden f'.hidden := by
  obtain ⟨⟨μ, P, Q, R, h1, h2, _⟩, _⟩ := h
  exact ⟨h1.n_pos, μ, P, h1.hidden, h2.hidden⟩

/-! ## Proofs: dual estimators -/

/-- A dual estimator `E₀` working in the units of the model and one `E` around the wrappers `cw`, `aw` holding the same beliefs. -/
structure Dual.Counterpart (E₀ E : Dual) (cw : CellWrapper) (aw : DegradationWrapper) {nT nA o : Nat} (dT bT : Fin nT → ℝ) (dA bA : Fin nA → ℝ)
    (eT eA : Fin o → ℝ) (U : Vec → Prop) (IA : Container ℝ × Container ℝ → Prop) : Prop where
  base : E₀.base = E.base
  cell : E.cellW = cw
  health : E.asohW = aw
  cell₀ : E₀.cellW = cw.plain
  health₀ : E₀.asohW = aw.plain
  modelT : E.trans.model = cw.toWrapper
  modelA : E.asoh.model = aw.toWrapper
  modelT₀ : E₀.trans.model = cw.plain.toWrapper
  modelA₀ : E₀.asoh.model = aw.plain.toWrapper
  filterT : E₀.trans.Counterpart E.trans dT bT eT
  filterA : E₀.asoh.Counterpart E.asoh dA bA eA
  memory : E₀.asoh.mem.2 = E.asoh.mem.2
  memory_ok : IA E.asoh.mem
  controlsT : U E₀.trans.controls.mean ∧ cw.controlConv.samples1 E.trans.controls.mean = .ok E₀.trans.controls.mean
  controlsA : U E₀.asoh.controls.mean ∧ aw.controlConv.samples1 E.asoh.controls.mean = .ok E₀.asoh.controls.mean

section
variable {cw : CellWrapper} {aw : DegradationWrapper} {nT nA o nu : Nat} {dT bT : Fin nT → ℝ} {dA bA : Fin nA → ℝ} {eT cT eA cA : Fin o → ℝ}
  {IT : HV ℝ → Prop} {IA : Container ℝ × Container ℝ → Prop} {U : Vec → Prop}

theorem Dual.Counterpart.step {E₀ E : Dual} (h : E₀.Counterpart E cw aw dT bT dA bA eT eA U IA)
    (hdT : ∀ i, dT i ≠ 0) (hdA : ∀ i, dA i ≠ 0) (heT : ∀ i, eT i ≠ 0) (heA : ∀ i, eA i ≠ 0) (ho : 1 ≤ o)
    (hhT : cw.hiddenConv.Rescales nT dT bT) (hhA : aw.hiddenConv.Rescales nA dA bA)
    (houtT : cw.outputConv.Rescales o eT cT) (houtA : aw.outputConv.Rescales o eA cA)
    (hcT : ∀ v : Vec, U v → ∃ v', cw.controlConv.invSamples1 v = .ok v' ∧ cw.controlConv.samples1 v' = .ok v)
    (hcA : ∀ v : Vec, U v → ∃ v', aw.controlConv.invSamples1 v = .ok v' ∧ aw.controlConv.samples1 v' = .ok v)
    (hrowT : RowWise cw.plain.toWrapper nT o IT U) (hrowA : RowWise aw.plain.toWrapper nA o IA U)
    (linkT : ∀ a : Fin nA → ℝ, ∃ A, E.base.asoh.makeCopy (Vec.vals ⟨nA, a⟩) none = .ok A ∧ IT A)
    (linkA : ∀ (t : Fin nT → ℝ) (m : Container ℝ × Container ℝ), IA m → IA (E.base.transients.makeCopy (Vec.vals ⟨nT, t⟩), m.2))
    (svd : Mat → Vec × Mat) (inputs meas : Container ℝ) (hin : ∃ v, inputs.toNumpy = .ok v ∧ U v.flat)
    (hmeas : ∃ v, meas.toNumpy = .ok v ∧ v.flat.n = o) :
    ∃ F₀ F est out, E₀.step svd inputs meas = .ok (F₀, est, out) ∧ E.step svd inputs meas = .ok (F, est, out) ∧
      F₀.Counterpart F cw aw dT bT dA bA eT eA U IA ∧ F.base = E.base := by
  obtain ⟨hnT, uT⟩ := h.filterT.hidden
  obtain ⟨hnA, uA⟩ := h.filterA.hidden
  -- the estimates both start from
  have hest : ∃ t a A, IT A ∧ E.base.asoh.makeCopy (Vec.vals ⟨nA, a⟩) none = .ok A ∧
      E.getEstimatedState = .ok (E.base.transients.makeCopy (Vec.vals ⟨nT, t⟩), A) ∧
      E₀.getEstimatedState = .ok (E.base.transients.makeCopy (Vec.vals ⟨nT, t⟩), A) := by
    have k1 := uT.convert hhT hnT
    have k2 := uA.convert hhA hnA
    obtain ⟨t, _, _, ht⟩ := id uT
    obtain ⟨a, _, _, ha⟩ := id uA
    obtain ⟨A, l1, l2⟩ := linkT (rescale dA bA a)
    refine ⟨rescale dT bT t, rescale dA bA a, A, l2, l1, ?_, ?_⟩
    · simp only [Dual.getEstimatedState, Dual.converted, h.cell, h.health, k1.1, k2.1, ok_bind, pure_eq_ok]
      simp only [ha, ht, l1, ok_bind]
    · have e1 : cw.plain.hiddenConv = .identity := rfl
      have e2 : aw.plain.hiddenConv = .identity := rfl
      simp only [Dual.getEstimatedState, Dual.converted, h.cell₀, h.health₀, e1, e2, k1.2, k2.2, ok_bind, pure_eq_ok, h.base]
      simp only [ha, ht, l1, ok_bind]
  obtain ⟨t, a, A, hA, -, hg, hg₀⟩ := hest
  obtain ⟨u, hu, huU⟩ := hin
  obtain ⟨y, hy, hyn⟩ := hmeas
  obtain ⟨vT, vT1, vT2⟩ := hcT _ huU
  obtain ⟨vA, vA1, vA2⟩ := hcA _ huU
  obtain ⟨yv, hyv⟩ := Vec.eta_of hyn
  obtain ⟨yT, hyT⟩ := rescale_surj (r := cT) heT yv
  obtain ⟨yA, hyA⟩ := rescale_surj (r := cA) heA yv
  have hcu : convertVals inputs none = .ok (.delta ⟨u.flat⟩) := by simp only [convertVals, hu, ok_bind, pure_eq_ok]
  have hcy : convertVals meas none = .ok (.delta ⟨⟨o, yv⟩⟩) := by simp only [convertVals, hy, ok_bind, pure_eq_ok, hyv]
  have c1 : (Dist.delta ⟨u.flat⟩).convert cw.controlConv true = .ok (.delta ⟨vT⟩) := by
    simp only [Dist.convert, Delta.convert, if_true, vT1]; rfl
  have c2 : (Dist.delta ⟨u.flat⟩).convert aw.controlConv true = .ok (.delta ⟨vA⟩) := by
    simp only [Dist.convert, Delta.convert, if_true, vA1]; rfl
  have c3 : (Dist.delta ⟨⟨o, yv⟩⟩).convert cw.outputConv true = .ok (.delta ⟨⟨o, yT⟩⟩) := by
    rw [← hyT]
    simp only [Dist.convert, Delta.convert, if_true, houtT.invSamples1]; rfl
  have c4 : (Dist.delta ⟨⟨o, yv⟩⟩).convert aw.outputConv true = .ok (.delta ⟨⟨o, yA⟩⟩) := by
    rw [← hyA]
    simp only [Dist.convert, Delta.convert, if_true, houtA.invSamples1]; rfl
  have c0 : ∀ δ, (Dist.delta δ).convert .identity true = .ok (.delta δ) := fun _ => rfl
  obtain ⟨rT₀, rT, sT₀, sT, cpT, mT₀, mT, memT, kT₀, kT, outT1, outT2⟩ :=
    (h.filterT.withMem A A).step hdT heT ho (c := cT) (M := fun s s' => s = s' ∧ IT s) (U := fun u u' => U u ∧ cw.controlConv.samples1 u' = .ok u)
      (by show Conjugate E₀.trans.model E.trans.model _ _ _ _ _ _
          rw [h.modelT₀, h.modelT]
          exact cell_conjugate hdT heT hhT houtT hrowT) ⟨rfl, hA⟩ h.controlsT svd (.delta ⟨u.flat⟩) (.delta ⟨vT⟩) (.delta ⟨⟨o, yv⟩⟩)
      (.delta ⟨⟨o, yT⟩⟩) ⟨huU, vT2⟩ yT rfl (by rw [hyT]; rfl)
  obtain ⟨rA₀, rA, sA₀, sA, cpA, mA₀, mA, memA, kA₀, kA, outA1, outA2⟩ :=
    (h.filterA.withMem (E.base.transients.makeCopy (Vec.vals ⟨nT, t⟩), E₀.asoh.mem.2)
      (E.base.transients.makeCopy (Vec.vals ⟨nT, t⟩), E.asoh.mem.2)).step hdA heA ho (c := cA) (M := fun s s' => s = s' ∧ IA s)
      (U := fun u u' => U u ∧ aw.controlConv.samples1 u' = .ok u)
      (by show Conjugate E₀.asoh.model E.asoh.model _ _ _ _ _ _
          rw [h.modelA₀, h.modelA]
          exact health_conjugate hdA heA hhA houtA hrowA)
      ⟨by rw [h.memory], by rw [h.memory]; exact linkA t _ h.memory_ok⟩ h.controlsA svd (.delta ⟨u.flat⟩) (.delta ⟨vA⟩) (.delta ⟨⟨o, yv⟩⟩)
      (.delta ⟨⟨o, yA⟩⟩) ⟨huU, vA2⟩ yA rfl (by rw [hyA]; rfl)
  have q1 := outT1.convert hhT hnT
  have q2 := outT2.convert houtT ho
  have q3 := outA1.convert hhA hnA
  have q4 := outA2.convert houtA ho
  obtain ⟨est, hcomb⟩ : ∃ est, Gaussian.combineWith rT₀.2.1 [.dist rA₀.2.1] = .ok est := by
    obtain ⟨x, Px, _, e1⟩ := outT1
    obtain ⟨x', Px', _, e2⟩ := outA1
    rw [e1, e2]
    have e3 : Mat.blockDiag [⟨nT, nT, rescaleCov dT dT Px⟩, ⟨nA, nA, rescaleCov dA dA Px'⟩] = ⟨_, _, blk2 (rescaleCov dT dT Px) (rescaleCov dA dA Px')⟩ := by
      rw [Mat.blockDiag_cons, Mat.blockDiag, Mat.block2_of]
    have e4 : (Vec.concat [⟨nT, rescale dT bT x⟩, ⟨nA, rescale dA bA x'⟩]).n = nT + nA := by rw [Vec.concat_n]; simp
    obtain ⟨z, hz⟩ := Vec.eta_of e4
    refine ⟨⟨⟨nT + nA, z⟩, ⟨nT + nA, nT + nA, blk2 (rescaleCov dT dT Px) (rescaleCov dA dA Px')⟩⟩, ?_⟩
    show Gaussian.make (Vec.concat [⟨nT, rescale dT bT x⟩, ⟨nA, rescale dA bA x'⟩])
      (Mat.blockDiag [⟨nT, nT, rescaleCov dT dT Px⟩, ⟨nA, nA, rescaleCov dA dA Px'⟩]) = _
    rw [e3, hz, Gaussian.make_of (by omega)]
  refine ⟨{ E₀ with trans := rT₀.1, asoh := rA₀.1 }, { E with trans := rT.1, asoh := rA.1 }, est, rT₀.2.2, ?_, ?_, ?_, rfl⟩
  · have e1 : cw.plain.hiddenConv = .identity := rfl
    have e2 : aw.plain.hiddenConv = .identity := rfl
    have e3 : cw.plain.outputConv = .identity := rfl
    have e4 : aw.plain.outputConv = .identity := rfl
    have e5 : cw.plain.controlConv = .identity := rfl
    have e6 : aw.plain.controlConv = .identity := rfl
    simp only [Dual.step, hcu, hcy, hg₀, ok_bind, h.cell₀, h.health₀, e1, e2, e3, e4, e5, e6, c0, sT₀, sA₀, q1.2, q2.2, q3.2, q4.2, hcomb, pure_eq_ok]
  · simp only [Dual.step, hcu, hcy, hg, ok_bind, h.cell, h.health, c1, c2, c3, c4, sT, sA, q1.1, q2.1, q3.1, q4.1, hcomb, pure_eq_ok]
  · exact ⟨h.base, h.cell, h.health, h.cell₀, h.health₀, mT.trans h.modelT, mA.trans h.modelA, mT₀.trans h.modelT₀, mA₀.trans h.modelA₀, cpT, cpA,
      congrArg Prod.snd memA.1, memA.1 ▸ memA.2, by rw [kT₀, kT]; exact ⟨huU, vT2⟩, by rw [kA₀, kA]; exact ⟨huU, vA2⟩⟩

/-- Two filters made of the same belief and noises, one of them in other units. -/
theorem counterpart_of_make {σ τ : Type} {w : Wrapper σ} {w₀ : Wrapper τ} {m : σ} {m₀ : τ} {n o : Nat} {hid out : Operator} {d b : Fin n → ℝ}
    {e c : Fin o → ℝ} (hd : ∀ i, d i ≠ 0) (he : ∀ i, e i ≠ 0) (hh : hid.Rescales n d b) (hout : out.Rescales o e c) (hn : 1 ≤ n)
    (hw1 : w₀.nHidden = w.nHidden) (hw2 : w₀.nOut = w.nOut) {y : Fin n → ℝ} {P Q : Matrix (Fin n) (Fin n) ℝ} {R : Matrix (Fin o) (Fin o) ℝ}
    (hP : P.PosDef) (hQ : Q.PosDef) (hR : R.PosDef) {g g₀ : Gaussian} {q r q₀ r₀ : Option Mat} {u u₀ : Dist} {tune : Tuning} {f : Ukf σ} {f₀ : Ukf τ}
    (hg : Gaussian.convert ⟨⟨n, y⟩, ⟨n, n, P⟩⟩ hid true = .ok g) (hq : noiseToFilter hid (some ⟨n, n, Q⟩) = .ok q)
    (hr : noiseToFilter out (some ⟨o, o, R⟩) = .ok r) (hf : Ukf.make w m g u q r tune.alpha tune.kappa tune.beta = .ok f)
    (hg₀ : Gaussian.convert ⟨⟨n, y⟩, ⟨n, n, P⟩⟩ .identity true = .ok g₀) (hq₀ : noiseToFilter .identity (some ⟨n, n, Q⟩) = .ok q₀)
    (hr₀ : noiseToFilter .identity (some ⟨o, o, R⟩) = .ok r₀) (hf₀ : Ukf.make w₀ m₀ g₀ u₀ q₀ r₀ tune.alpha tune.kappa tune.beta = .ok f₀)
    (hwt : ∀ i, 0 ≤ f₀.covWeights.get i) : f₀.Counterpart f d b e := by
  obtain ⟨y, rfl⟩ := rescale_surj (r := b) hd y
  obtain ⟨P, hP', rfl⟩ := rescaleCov_surj hd hP
  obtain ⟨Q, hQ', rfl⟩ := rescaleCov_surj hd hQ
  obtain ⟨R, hR', rfl⟩ := rescaleCov_surj he hR
  rw [Gaussian.unconvert_ok hn (hh.invSamples1 y) (hh.invCovariance P _)] at hg
  cases hg
  have k0 := (C45_identity_round_trip ⟨⟨n, rescale d b y⟩, ⟨n, n, rescaleCov d d P⟩⟩ ⟨hn, rfl, rfl⟩ ⟨⟨n, y⟩⟩).2.1
  cases hg₀.symm.trans k0
  simp only [noiseToFilter, hh.invCovariance, hout.invCovariance, ok_bind, pure_eq_ok, Except.ok.injEq] at hq hr
  replace hq₀ : some (⟨n, n, rescaleCov d d Q⟩ : Mat) = q₀ := Except.ok.inj hq₀
  replace hr₀ : some (⟨o, o, rescaleCov e e R⟩ : Mat) = r₀ := Except.ok.inj hr₀
  subst hq hr hq₀ hr₀
  have hF := Ukf.holds_of_make _ _ _ _ _ _ hn hf
  have hF₀ := Ukf.holds_of_make _ _ _ _ _ _ hn hf₀
  obtain ⟨p1, p2, p3, p4, p5, p6, p7, p8, p9, -⟩ := Ukf.C53_constructed _ _ _ _ _ _ _ _ _ hf
  obtain ⟨q1, q2, q3, q4, q5, q6, q7, q8, q9, -⟩ := Ukf.C53_constructed _ _ _ _ _ _ _ _ _ hf₀
  have hlen2 : f₀.augLen = f.augLen := by rw [p7, q7, hw1, hw2]
  have hkap : f₀.kappa = f.kappa := by
    cases hk : tune.kappa with
    | none =>
      have := p9 hk
      have := q9 hk
      rw [hlen2] at this
      linarith
    | some k => rw [p8 k hk, q8 k hk]
  refine ⟨⟨y, P, Q, R, hF, hF₀, hP', hQ', hR'⟩, q5.trans p5.symm, q6.trans p6.symm, hkap, ?_⟩
  have e : f₀.covWeights = f.covWeights := by
    rw [hF₀.covWeights, hF.covWeights]
    simp only [Ukf.wc0, Ukf.wm0, Ukf.w1, Ukf.scale, Ukf.lambda, hlen2, hkap, p5, q5, p6, q6]
  rw [e] at hwt
  exact hwt

/-- What a successful construction of a dual estimator has done. -/
theorem Dual.fromWrappers_parts {PT PA : Mat} {QT QA R : Option Mat} {tT tA : Tuning} {E : Dual}
    (h : Dual.fromWrappers cw aw PT PA none QT QA R tT tA = .ok E) :
    ∃ u T A t a gT uT qT rT gA uA qA rA, convertVals cw.inputs none = .ok u ∧ cw.transients.toNumpy = .ok T ∧
      aw.asoh.getParameters (some aw.names) = .ok A ∧ Gaussian.make T.flat PT = .ok t ∧ Gaussian.make A.flat PA = .ok a ∧
      t.convert cw.hiddenConv true = .ok gT ∧ u.convert cw.controlConv true = .ok uT ∧ noiseToFilter cw.hiddenConv QT = .ok qT ∧
      noiseToFilter cw.outputConv R = .ok rT ∧
      a.convert aw.hiddenConv true = .ok gA ∧ u.convert aw.controlConv true = .ok uA ∧ noiseToFilter aw.hiddenConv QA = .ok qA ∧
      noiseToFilter aw.outputConv R = .ok rA ∧
      Ukf.make cw.toWrapper cw.asoh gT uT qT rT tT.alpha tT.kappa tT.beta = .ok E.trans ∧
      Ukf.make aw.toWrapper (aw.transients, aw.inputs) gA uA qA rA tA.alpha tA.kappa tA.beta = .ok E.asoh ∧
      E.cellW = cw ∧ E.asohW = aw ∧ Online.make cw.cell aw.asoh cw.transients cw.inputs aw.names = .ok E.base := by
  simp only [Dual.fromWrappers, bind_eq_ok_iff, Dual.make, pure_eq_ok] at h
  obtain ⟨it, h1, ia, h2, c, h3, h⟩ := h
  cases c with
  | false => cases h
  | true =>
    simp only [Bool.not_true, Bool.false_eq_true, if_false, bind_eq_ok_iff, Except.ok.injEq] at h
    obtain ⟨u, hu, T, hT, t, ht, A, hA, a, ha, gt, hgt, ut, hut, qt, hqt, rt, hrt, ft, hft, ga, hga, ua, hua, qa, hqa, ra, hra, fa, hfa, o, ho, rfl⟩ := h
    exact ⟨u, T, A, t, a, gt, ut, qt, rt, ga, ua, qa, ra, hu, hT, hA, ht, ha, hgt, hut, hqt, hrt, hga, hua, hqa, hra, hft, hfa, rfl, rfl, ho⟩

theorem Gaussian.make_inv {v : Vec} {n : Nat} {P : Matrix (Fin n) (Fin n) ℝ} {g : Gaussian} (h : Gaussian.make v ⟨n, n, P⟩ = .ok g) :
    1 ≤ n ∧ ∃ y, v = ⟨n, y⟩ ∧ g = ⟨⟨n, y⟩, ⟨n, n, P⟩⟩ := by
  unfold Gaussian.make at h
  by_cases hc : 1 ≤ v.n ∧ 1 ≤ n ∧ n = v.n ∧ n = v.n
  · rw [if_pos hc] at h
    cases h
    obtain ⟨y, rfl⟩ := Vec.eta_of hc.2.2.1.symm
    exact ⟨hc.2.1, y, rfl, rfl⟩
  · rw [if_neg hc] at h
    cases h

/-- Two dual estimators built of the same prior and noises, one in the units of the model. -/
theorem Dual.counterpart_built (hdT : ∀ i, dT i ≠ 0) (hdA : ∀ i, dA i ≠ 0) (heT : ∀ i, eT i ≠ 0) (heA : ∀ i, eA i ≠ 0)
    (hhT : cw.hiddenConv.Rescales nT dT bT) (hhA : aw.hiddenConv.Rescales nA dA bA)
    (houtT : cw.outputConv.Rescales o eT cT) (houtA : aw.outputConv.Rescales o eA cA)
    (hcT : ∀ v : Vec, U v → ∃ v', cw.controlConv.invSamples1 v = .ok v' ∧ cw.controlConv.samples1 v' = .ok v)
    (hcA : ∀ v : Vec, U v → ∃ v', aw.controlConv.invSamples1 v = .ok v' ∧ aw.controlConv.samples1 v' = .ok v)
    (hmem : IA (aw.transients, aw.inputs)) (hin : ∃ v, cw.inputs.toNumpy = .ok v ∧ U v.flat)
    {PT QT : Matrix (Fin nT) (Fin nT) ℝ} {PA QA : Matrix (Fin nA) (Fin nA) ℝ} {R : Matrix (Fin o) (Fin o) ℝ} (hPT : PT.PosDef) (hQT : QT.PosDef)
    (hPA : PA.PosDef) (hQA : QA.PosDef) (hR : R.PosDef) {tT tA : Tuning} {E E₀ : Dual}
    (hE : Dual.fromWrappers cw aw ⟨nT, nT, PT⟩ ⟨nA, nA, PA⟩ none (some ⟨nT, nT, QT⟩) (some ⟨nA, nA, QA⟩) (some ⟨o, o, R⟩) tT tA = .ok E)
    (hE₀ : Dual.fromWrappers cw.plain aw.plain ⟨nT, nT, PT⟩ ⟨nA, nA, PA⟩ none (some ⟨nT, nT, QT⟩) (some ⟨nA, nA, QA⟩) (some ⟨o, o, R⟩) tT tA = .ok E₀)
    (hwT : ∀ i, 0 ≤ E₀.trans.covWeights.get i) (hwA : ∀ i, 0 ≤ E₀.asoh.covWeights.get i) :
    E₀.Counterpart E cw aw dT bT dA bA eT eA U IA := by
  obtain ⟨u, T, A, t, a, gT, uT, qT, rT, gA, uA, qA, rA, x1, x2, x3, x4, x5, x6, x7, x8, x9, x10, x11, x12, x13, x14, x15, x16, x17, x18⟩ :=
    Dual.fromWrappers_parts hE
  obtain ⟨u', T', A', t', a', gT', uT', qT', rT', gA', uA', qA', rA', z1, z2, z3, z4, z5, z6, z7, z8, z9, z10, z11, z12, z13, z14, z15, z16, z17, z18⟩ :=
    Dual.fromWrappers_parts hE₀
  cases x1.symm.trans z1
  cases x2.symm.trans z2
  cases x3.symm.trans z3
  cases x4.symm.trans z4
  cases x5.symm.trans z5
  obtain ⟨hnT, yT, -, rfl⟩ := Gaussian.make_inv x4
  obtain ⟨hnA, yA, -, rfl⟩ := Gaussian.make_inv x5
  obtain ⟨p1, p2, -, p4, -⟩ := Ukf.C53_constructed _ _ _ _ _ _ _ _ _ x14
  obtain ⟨q1, q2, -, q4, -⟩ := Ukf.C53_constructed _ _ _ _ _ _ _ _ _ x15
  obtain ⟨p1', p2', -, p4', -⟩ := Ukf.C53_constructed _ _ _ _ _ _ _ _ _ z14
  obtain ⟨q1', q2', -, q4', -⟩ := Ukf.C53_constructed _ _ _ _ _ _ _ _ _ z15
  obtain ⟨v, hv, hvU⟩ := hin
  have hu : u = .delta ⟨v.flat⟩ := by
    have : convertVals cw.inputs none = .ok (.delta ⟨v.flat⟩) := by simp only [convertVals, hv, ok_bind, pure_eq_ok]
    exact Except.ok.inj (x1.symm.trans this)
  subst hu
  have ctl : ∀ {op : Operator} {ud : Dist}, (∀ v : Vec, U v → ∃ v', op.invSamples1 v = .ok v' ∧ op.samples1 v' = .ok v) →
      (Dist.delta ⟨v.flat⟩).convert op true = .ok ud → op.samples1 ud.mean = .ok v.flat := by
    intro op ud hc h
    obtain ⟨v', h1, h2⟩ := hc _ hvU
    have : (Dist.delta ⟨v.flat⟩).convert op true = .ok (.delta ⟨v'⟩) := by
      simp only [Dist.convert, Delta.convert, if_true, h1]; rfl
    cases h.symm.trans this
    exact h2
  have i1 : uT' = .delta ⟨v.flat⟩ := (Except.ok.inj z7).symm
  have i2 : uA' = .delta ⟨v.flat⟩ := (Except.ok.inj z11).symm
  refine ⟨Except.ok.inj (z18.symm.trans x18), x16, x17, z16, z17, p1, q1, p1', q1',
    counterpart_of_make (w := cw.toWrapper) (w₀ := cw.plain.toWrapper) hdT heT hhT houtT hnT rfl rfl hPT hQT hR x6 x8 x9 x14 z6 z8 z9 z14 hwT,
    counterpart_of_make (w := aw.toWrapper) (w₀ := aw.plain.toWrapper) hdA heA hhA houtA hnA rfl rfl hPA hQA hR x10 x12 x13 x15 z10 z12 z13 z15 hwA, ?_, ?_, ?_, ?_⟩
  · rw [q2, q2']; rfl
  · rw [q2]; exact hmem
  · rw [p4, p4', i1]
    exact ⟨hvU, ctl hcT x7⟩
  · rw [q4, q4', i2]
    exact ⟨hvU, ctl hcA x11⟩

/-! ## C130 -/

/-- C130, dual estimation.  Two dual estimators of the same cell, one working in the units of the model and one in units of its own for
transient states, parameters and outputs (and with any invertible conversion of the inputs), built from the same prior and the same noises:
over every history both return exactly the same estimates and predicted outputs.

The models have to treat every hidden state by itself (`hrowT`, `hrowA`; `IT` and `IA` say what they need to know of the other part), work
with what the other filter estimates (`linkT`, `linkA`), and all weights must not be negative. -/
theorem C130_dual_in_any_units (hdT : ∀ i, dT i ≠ 0) (hdA : ∀ i, dA i ≠ 0) (heT : ∀ i, eT i ≠ 0) (heA : ∀ i, eA i ≠ 0) (ho : 1 ≤ o)
    (hhT : cw.hiddenConv.Rescales nT dT bT) (hhA : aw.hiddenConv.Rescales nA dA bA)
    (houtT : cw.outputConv.Rescales o eT cT) (houtA : aw.outputConv.Rescales o eA cA)
    (hcT : ∀ v : Vec, U v → ∃ v', cw.controlConv.invSamples1 v = .ok v' ∧ cw.controlConv.samples1 v' = .ok v)
    (hcA : ∀ v : Vec, U v → ∃ v', aw.controlConv.invSamples1 v = .ok v' ∧ aw.controlConv.samples1 v' = .ok v)
    (hrowT : RowWise cw.plain.toWrapper nT o IT U) (hrowA : RowWise aw.plain.toWrapper nA o IA U)
    (linkT : ∀ a : Fin nA → ℝ, ∃ A, aw.asoh.makeCopy (Vec.vals ⟨nA, a⟩) none = .ok A ∧ IT A)
    (linkA : ∀ (t : Fin nT → ℝ) (m : Container ℝ × Container ℝ), IA m → IA (cw.transients.makeCopy (Vec.vals ⟨nT, t⟩), m.2))
    (hmem : IA (aw.transients, aw.inputs)) (hin : ∃ v, cw.inputs.toNumpy = .ok v ∧ U v.flat)
    {PT QT : Matrix (Fin nT) (Fin nT) ℝ} {PA QA : Matrix (Fin nA) (Fin nA) ℝ} {R : Matrix (Fin o) (Fin o) ℝ} (hPT : PT.PosDef) (hQT : QT.PosDef)
    (hPA : PA.PosDef) (hQA : QA.PosDef) (hR : R.PosDef) {tT tA : Tuning} {E E₀ : Dual}
    (hE : Dual.fromWrappers cw aw ⟨nT, nT, PT⟩ ⟨nA, nA, PA⟩ none (some ⟨nT, nT, QT⟩) (some ⟨nA, nA, QA⟩) (some ⟨o, o, R⟩) tT tA = .ok E)
    (hE₀ : Dual.fromWrappers cw.plain aw.plain ⟨nT, nT, PT⟩ ⟨nA, nA, PA⟩ none (some ⟨nT, nT, QT⟩) (some ⟨nA, nA, QA⟩) (some ⟨o, o, R⟩) tT tA = .ok E₀)
    (hwT : ∀ i, 0 ≤ E₀.trans.covWeights.get i) (hwA : ∀ i, 0 ≤ E₀.asoh.covWeights.get i) (svd : Mat → Vec × Mat)
    (hist : List (Container ℝ × Container ℝ)) (hhist : ∀ x ∈ hist, (∃ v, x.1.toNumpy = .ok v ∧ U v.flat) ∧
      ∃ y, x.2.toNumpy = .ok y ∧ y.flat.n = o) :
    ∃ fin fin₀ outs, E.run svd hist = .ok (fin, outs) ∧ E₀.run svd hist = .ok (fin₀, outs) ∧ outs.length = hist.length := by
  have h := Dual.counterpart_built hdT hdA heT heA hhT hhA houtT houtA hcT hcA hmem hin hPT hQT hPA hQA hR hE hE₀ hwT hwA
  obtain ⟨_, _, _, _, _, _, _, _, _, _, _, _, _, -, -, -, -, -, -, -, -, -, -, -, -, -, -, -, -, -, hb⟩ := Dual.fromWrappers_parts hE
  obtain ⟨-, b1, b2, -⟩ := Online.make_ok hb
  replace linkT : ∀ a : Fin nA → ℝ, ∃ A, E.base.asoh.makeCopy (Vec.vals ⟨nA, a⟩) none = .ok A ∧ IT A := by rw [b1]; exact linkT
  replace linkA : ∀ (t : Fin nT → ℝ) (m : Container ℝ × Container ℝ), IA m → IA (E.base.transients.makeCopy (Vec.vals ⟨nT, t⟩), m.2) := by
    rw [b2]; exact linkA
  clear hE hE₀ hwT hwA hb b1 b2
  induction hist generalizing E E₀ with
  | nil => exact ⟨E, E₀, [], rfl, rfl, rfl⟩
  | cons x hist ih =>
    obtain ⟨hx1, hx2⟩ := hhist x (List.mem_cons_self ..)
    obtain ⟨F₀, F, est, out, s₀, s, h', hb⟩ := h.step hdT hdA heT heA ho hhT hhA houtT houtA hcT hcA hrowT hrowA linkT linkA svd x.1 x.2 hx1 hx2
    obtain ⟨fin, fin₀, outs, i1, i2, i3⟩ := ih (fun y hy => hhist y (List.mem_cons_of_mem _ hy)) h' (by rw [hb]; exact linkT) (by rw [hb]; exact linkA)
    obtain ⟨x1, x2⟩ := x
    refine ⟨fin, fin₀, (est, out) :: outs, ?_, ?_, by simp [i3]⟩
    · simp only [Dual.run, s, ok_bind, i1, pure_eq_ok]
    · simp only [Dual.run, s₀, ok_bind, i2, pure_eq_ok]

end

/-! ## A concrete estimator in any units -/

namespace Demo

/-- The wrappers of the concrete cell around any converters. -/
noncomputable def sumCellIn (hid out : Operator) : CellWrapper := ⟨⟨sumCell, health, trans, inp, hid, .identity, out, 1⟩, 1⟩

noncomputable def sumAsohIn (hid out : Operator) : DegradationWrapper :=
  ⟨⟨sumCell, health, trans, inp, hid, .identity, out, 1⟩, [['q']], 1, 1, NoDegradation _ _ _ _⟩

theorem sum_built {hT oT hA oA : Operator} {dT bT dA bA eT cT eA cA : Fin 1 → ℝ} (zT : ∀ i, dT i ≠ 0) (zA : ∀ i, dA i ≠ 0) (yT : ∀ i, eT i ≠ 0)
    (yA : ∀ i, eA i ≠ 0) (rT : hT.Rescales 1 dT bT) (rA : hA.Rescales 1 dA bA) (sT : oT.Rescales 1 eT cT) (sA : oA.Rescales 1 eA cA) :
    ∃ E, Dual.fromWrappers (sumCellIn hT oT) (sumAsohIn hA oA) ⟨1, 1, 1⟩ ⟨1, 1, 1⟩ none (some ⟨1, 1, 1⟩) (some ⟨1, 1, 1⟩) (some ⟨1, 1, 1⟩)
      ⟨1, none, 2⟩ ⟨1, none, 2⟩ = .ok E ∧ (∀ i, 0 ≤ E.trans.covWeights.get i) ∧ ∀ i, 0 ≤ E.asoh.covWeights.get i := by
  have tuned : Tuned ⟨1, none, 2⟩ (2 * 1 + 1) := by
    refine ⟨⟨by norm_num, by norm_num⟩, by norm_num, nofun, ?_⟩
    simp only [centreWeight, Option.getD_none]
    norm_num
  have given : ∀ c, some (⟨1, 1, 1⟩ : Mat) = some c → PosDefMat c 1 := by
    rintro _ ⟨⟩
    exact ⟨1, rfl, .one⟩
  obtain ⟨gT, qT, pT, t1, t2, t3, t4⟩ := filter_ready (sumCellIn hT oT).toWrapper health (n := 1) (o := 1) rfl rfl le_rfl zT yT rT sT (fun _ => 3)
    (P := 1) .one given given ⟨1, none, 2⟩ tuned
  obtain ⟨gA, qA, pA, a1, a2, a3, a4⟩ := filter_ready (sumAsohIn hA oA).toWrapper (trans, inp) (n := 1) (o := 1) rfl rfl le_rfl zA yA rA sA
    (fun _ => 5) (P := 1) .one given given ⟨1, none, 2⟩ tuned
  obtain ⟨ft, t5, -, t6, -⟩ := t4 (.delta ⟨(Arr2.ofRow [(1 : ℝ)]).flat⟩)
  obtain ⟨fa, a5, -, a6, -⟩ := a4 (.delta ⟨(Arr2.ofRow [(1 : ℝ)]).flat⟩)
  obtain ⟨base, hb⟩ : ∃ base, Online.make sumCell health trans inp [['q']] = .ok base := ⟨_, rfl⟩
  have e1 : convertVals inp none = .ok (.delta ⟨(Arr2.ofRow [(1 : ℝ)]).flat⟩) := rfl
  have e2 : trans.toNumpy = .ok (.ofRow [3]) := rfl
  have e3 : health.getParameters (some [['q']]) = .ok (.ofRow [5]) := rfl
  have e4 : inp.toNumpy = .ok (.ofRow [1]) := rfl
  have e5 : (Dist.delta ⟨(Arr2.ofRow [(1 : ℝ)]).flat⟩).convert .identity true = .ok (.delta ⟨(Arr2.ofRow [(1 : ℝ)]).flat⟩) := rfl
  refine ⟨⟨base, sumCellIn hT oT, sumAsohIn hA oA, ft, fa⟩, ?_, t6, a6⟩
  unfold Dual.fromWrappers
  simp only [show (sumCellIn hT oT).inputs = inp from rfl, show (sumCellIn hT oT).transients = trans from rfl,
    show (sumAsohIn hA oA).asoh = health from rfl, show (sumCellIn hT oT).asoh = health from rfl,
    show (sumAsohIn hA oA).names = [['q']] from rfl, show (sumAsohIn hA oA).inputs = inp from rfl, show (sumAsohIn hA oA).transients = trans from rfl,
    show (sumCellIn hT oT).hiddenConv = hT from rfl, show (sumCellIn hT oT).outputConv = oT from rfl,
    show (sumCellIn hT oT).controlConv = .identity from rfl, show (sumAsohIn hA oA).hiddenConv = hA from rfl,
    show (sumAsohIn hA oA).outputConv = oA from rfl, show (sumAsohIn hA oA).controlConv = .identity from rfl]
  rw [e4, ok_bind, ok_bind, Dual.allClose_self, ok_bind]
  simp only [Bool.not_true, Bool.false_eq_true, if_false]
  rw [e1, ok_bind, e2, ok_bind, flat_one 3, Gaussian.make_of le_rfl, ok_bind, e3, ok_bind, flat_one 5, Gaussian.make_of le_rfl, ok_bind, t1, ok_bind,
    e5, ok_bind, t2, ok_bind, t3, ok_bind, t5, ok_bind, a1, ok_bind, ok_bind, a2, ok_bind, a3, ok_bind, a5, ok_bind]
  unfold Dual.make
  rw [show Online.make (sumCellIn hT oT).cell (sumAsohIn hA oA).asoh (sumCellIn hT oT).transients (sumCellIn hT oT).inputs (sumAsohIn hA oA).names =
    .ok base from hb]
  rfl

end Demo

-- The concrete cell: one estimator in its units, the other with transient states, parameters and voltages in units of their own.
example (svd : Mat → Vec × Mat) (hist : List (ℝ × ℝ)) : ∃ E E₀ fin fin₀ outs,
    Dual.fromWrappers (Demo.sumCellIn (.linearScalar 2 ⟨1, ![1]⟩) (.linearScalar 1000 ⟨1, ![0]⟩))
      (Demo.sumAsohIn (.linearScalar 5 ⟨1, ![0]⟩) (.linearScalar (-3) ⟨1, ![7]⟩)) ⟨1, 1, 1⟩ ⟨1, 1, 1⟩ none (some ⟨1, 1, 1⟩) (some ⟨1, 1, 1⟩)
      (some ⟨1, 1, 1⟩) ⟨1, none, 2⟩ ⟨1, none, 2⟩ = .ok E ∧
    Dual.fromWrappers Demo.sumCellW Demo.sumAsohW ⟨1, 1, 1⟩ ⟨1, 1, 1⟩ none (some ⟨1, 1, 1⟩) (some ⟨1, 1, 1⟩) (some ⟨1, 1, 1⟩)
      ⟨1, none, 2⟩ ⟨1, none, 2⟩ = .ok E₀ ∧
    E.run svd (Demo.readings hist) = .ok (fin, outs) ∧ E₀.run svd (Demo.readings hist) = .ok (fin₀, outs) ∧ outs.length = hist.length := by
  obtain ⟨b1, r1⟩ := scalar_rescales (k := 1) 2 two_ne_zero ⟨1, ![1]⟩ (.inr rfl)
  obtain ⟨b2, r2⟩ := scalar_rescales (k := 1) 1000 (by norm_num) ⟨1, ![0]⟩ (.inr rfl)
  obtain ⟨b3, r3⟩ := scalar_rescales (k := 1) 5 (by norm_num) ⟨1, ![0]⟩ (.inr rfl)
  obtain ⟨b4, r4⟩ := scalar_rescales (k := 1) (-3) (by norm_num) ⟨1, ![7]⟩ (.inr rfl)
  have z1 : ∀ i : Fin 1, (fun _ => (2 : ℝ)) i ≠ 0 := fun _ => two_ne_zero
  have z2 : ∀ i : Fin 1, (fun _ => (1000 : ℝ)) i ≠ 0 := fun _ => by norm_num
  have z3 : ∀ i : Fin 1, (fun _ => (5 : ℝ)) i ≠ 0 := fun _ => by norm_num
  have z4 : ∀ i : Fin 1, (fun _ => (-3 : ℝ)) i ≠ 0 := fun _ => by norm_num
  have z0 : ∀ i : Fin 1, (fun _ => (1 : ℝ)) i ≠ 0 := fun _ => one_ne_zero
  obtain ⟨E, hE, -⟩ := Demo.sum_built z1 z3 z2 z4 r1 r3 r2 r4
  obtain ⟨E₀, hE₀, w1, w2⟩ := Demo.sum_built z0 z0 z0 z0 (identity_rescales 1) (identity_rescales 1) (identity_rescales 1) (identity_rescales 1)
  obtain ⟨fin, fin₀, outs, k1, k2, k3⟩ := C130_dual_in_any_units (cw := Demo.sumCellIn (.linearScalar 2 ⟨1, ![1]⟩) (.linearScalar 1000 ⟨1, ![0]⟩))
    (aw := Demo.sumAsohIn (.linearScalar 5 ⟨1, ![0]⟩) (.linearScalar (-3) ⟨1, ![7]⟩)) (U := fun _ => True) (IT := Demo.SingleQ) (IA := Demo.SingleX)
    z1 z3 z2 z4 le_rfl r1 r3 r2 r4
    (fun v _ => ⟨v, rfl, rfl⟩) (fun v _ => ⟨v, rfl, rfl⟩) Demo.sumCellW_rowWise Demo.sumAsohW_rowWise
    (fun a => by
      obtain ⟨A, k1, k2⟩ := Demo.health_copy le_rfl (K := 1) fun _ => a
      refine ⟨A, ?_, a 0, k2⟩
      have : Vec.vals ⟨1, a⟩ = .d1 [a 0] := by simp [Vec.vals]
      rw [this, makeCopy_d1, ← k1]
      rfl)
    (fun t _ _ => ⟨t 0, Demo.trans_copy (K := 1) fun _ => t⟩) ⟨3, rfl⟩ ⟨.ofRow [1], rfl, trivial⟩ .one .one .one .one .one hE hE₀ w1 w2 svd
    (Demo.readings hist) (by
      intro x hx
      obtain ⟨y, _, rfl⟩ := List.mem_map.1 hx
      exact ⟨⟨.ofRow [y.1], rfl, trivial⟩, .ofRow [y.2], rfl, rfl⟩)
  exact ⟨E, E₀, fin, fin₀, outs, hE, hE₀, k1, k2, by rw [k3, Demo.readings, List.length_map]⟩

end Verif
