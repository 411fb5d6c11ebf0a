import Verif.Props.EstimatorsDual
/-!
# Dual estimation over any history: C76
-/

namespace Verif
open Matrix

/-- A converter takes controls of `nu` values to such that a model can work with. -/
def Operator.TakesControls (op : Operator) (nu : Nat) (U : Vec → Prop) : Prop :=
  ∀ v : Vec, v.n = nu → ∃ v', op.invSamples1 v = .ok v' ∧ U v'

/-- What a dual estimator has to satisfy to run: both filters hold positive definite covariances, non-negative weights and models that
treat every hidden state by itself and work with all controls in `UT` and `UA`; the converters of the hidden states and outputs are changes
of units, those of the controls take `nu` values to controls in `UT` and `UA`; and each filter's model can work with whatever the other filter
estimates. -/
structure Dual.Healthy (e : Dual) (nT nA o nu : Nat) (UT UA : Vec → Prop) (IT : HV ℝ → Prop) (IA : Container ℝ × Container ℝ → Prop) : Prop where
  filterT : ∃ μ P Q R, e.trans.Holds nT o μ P Q R ∧ P.PosDef ∧ Q.PosDef ∧ R.PosDef
  filterA : ∃ μ P Q R, e.asoh.Holds nA o μ P Q R ∧ P.PosDef ∧ Q.PosDef ∧ R.PosDef
  weightsT : ∀ i, 0 ≤ e.trans.covWeights.get i
  weightsA : ∀ i, 0 ≤ e.asoh.covWeights.get i
  modelT : RowWise e.trans.model nT o IT UT
  modelA : RowWise e.asoh.model nA o IA UA
  hiddenT : ∃ d b : Fin nT → ℝ, (∀ i, d i ≠ 0) ∧ e.cellW.hiddenConv.Rescales nT d b
  hiddenA : ∃ d b : Fin nA → ℝ, (∀ i, d i ≠ 0) ∧ e.asohW.hiddenConv.Rescales nA d b
  outputT : ∃ d b : Fin o → ℝ, (∀ i, d i ≠ 0) ∧ e.cellW.outputConv.Rescales o d b
  outputA : ∃ d b : Fin o → ℝ, (∀ i, d i ≠ 0) ∧ e.asohW.outputConv.Rescales o d b
  controlT : e.cellW.controlConv.TakesControls nu UT
  controlA : e.asohW.controlConv.TakesControls nu UA
  controlsT : UT e.trans.controls.mean
  controlsA : UA e.asoh.controls.mean
  linkT : ∀ a : Fin nA → ℝ, ∃ A, e.base.asoh.makeCopy (Vec.vals ⟨nA, a⟩) none = .ok A ∧ IT A
  linkA : ∀ (t : Fin nT → ℝ) (m : Container ℝ × Container ℝ), IA m → IA (e.base.transients.makeCopy (Vec.vals ⟨nT, t⟩), m.2)
  memory : IA e.asoh.mem

theorem Operator.Rescales.convert {op : Operator} {k : Nat} {d b : Fin k → ℝ} (h : op.Rescales k d b) (hk : 1 ≤ k) (x : Fin k → ℝ)
    (P : Matrix (Fin k) (Fin k) ℝ) : Gaussian.convert ⟨⟨k, x⟩, ⟨k, k, P⟩⟩ op = .ok ⟨⟨k, rescale d b x⟩, ⟨k, k, rescaleCov d d P⟩⟩ :=
  Gaussian.convert_ok hk (h.samples1 x) (h.covariance P _)

theorem Gaussian.combine_posDef {m n : Nat} (hm : 1 ≤ m) (x : Fin m → ℝ) (y : Fin n → ℝ) {A : Matrix (Fin m) (Fin m) ℝ}
    {B : Matrix (Fin n) (Fin n) ℝ} (hA : A.PosDef) (hB : B.PosDef) : ∃ z, ∃ C : Matrix (Fin (m + n)) (Fin (m + n)) ℝ,
    Gaussian.combine ⟨⟨m, x⟩, ⟨m, m, A⟩⟩ [⟨⟨n, y⟩, ⟨n, n, B⟩⟩] = .ok ⟨⟨m + n, z⟩, ⟨m + n, m + n, C⟩⟩ ∧ C.PosDef := by
  have e1 : Mat.blockDiag [⟨m, m, A⟩, ⟨n, n, B⟩] = ⟨_, _, blk2 A B⟩ := by
    rw [Mat.blockDiag_cons, Mat.blockDiag, Mat.block2_of]
  have e2 : (Vec.concat [⟨m, x⟩, ⟨n, y⟩]).n = m + n := by rw [Vec.concat_n]; simp
  obtain ⟨z, hz⟩ := Vec.eta_of e2
  refine ⟨z, blk2 A B, ?_, blk2_posDef hA hB⟩
  show Gaussian.make (Vec.concat [⟨m, x⟩, ⟨n, y⟩]) (Mat.blockDiag [⟨m, m, A⟩, ⟨n, n, B⟩]) = _
  rw [e1, hz, Gaussian.make_of (by omega)]

theorem Dual.Healthy.estimated {e : Dual} {nT nA o nu : Nat} {UT UA IT IA} (h : e.Healthy nT nA o nu UT UA IT IA) :
    ∃ t A, e.getEstimatedState = .ok (e.base.transients.makeCopy (Vec.vals ⟨nT, t⟩), A) ∧ IT A := by
  obtain ⟨μT, PT, _, _, hT, _⟩ := h.filterT
  obtain ⟨μA, PA, _, _, hA, _⟩ := h.filterA
  obtain ⟨dT, bT, _, cT⟩ := h.hiddenT
  obtain ⟨dA, bA, _, cA⟩ := h.hiddenA
  obtain ⟨A, h1, h2⟩ := h.linkT (rescale dA bA μA)
  refine ⟨rescale dT bT μT, A, ?_, h2⟩
  simp only [Dual.getEstimatedState, Dual.converted, hT.hidden, hA.hidden, cT.convert hT.n_pos μT PT,
    cA.convert hA.n_pos μA PA, ok_bind, pure_eq_ok, h1]

/-- One step of a healthy dual estimator succeeds and leaves it healthy. -/
theorem Dual.Healthy.step {e : Dual} {nT nA o nu : Nat} {UT UA IT IA} (h : e.Healthy nT nA o nu UT UA IT IA) (ho : 1 ≤ o) (svd : Mat → Vec × Mat)
    (inputs meas : Container ℝ) (hin : ∃ v, inputs.toNumpy = .ok v ∧ v.flat.n = nu) (hmeas : ∃ v, meas.toNumpy = .ok v ∧ v.flat.n = o) :
    ∃ e' est out, e.step svd inputs meas = .ok (e', est, out) ∧ e'.Healthy nT nA o nu UT UA IT IA ∧
      (∃ m C, est = ⟨⟨nT + nA, m⟩, ⟨nT + nA, nT + nA, C⟩⟩ ∧ C.PosDef) ∧ ∃ m C, out = ⟨⟨o, m⟩, ⟨o, o, C⟩⟩ ∧ C.PosDef := by
  obtain ⟨t0, A0, hest, hIT⟩ := h.estimated
  obtain ⟨μT, PT, QT, RT, hT, pT, qT, rT⟩ := h.filterT
  obtain ⟨μA, PA, QA, RA, hA, pA, qA, rA⟩ := h.filterA
  obtain ⟨dT, bT, zT, cT⟩ := h.hiddenT
  obtain ⟨dA, bA, zA, cA⟩ := h.hiddenA
  obtain ⟨eT, fT, wT, oT⟩ := h.outputT
  obtain ⟨eA, fA, wA, oA⟩ := h.outputA
  obtain ⟨u, hu, hun⟩ := hin
  obtain ⟨y, hy, hyn⟩ := hmeas
  obtain ⟨uT, u1, u2⟩ := h.controlT u.flat hun
  obtain ⟨uA, u3, u4⟩ := h.controlA u.flat hun
  obtain ⟨yv, hyv⟩ := Vec.eta_of hyn
  obtain ⟨yT, rfl⟩ := rescale_surj (r := fT) wT yv
  obtain ⟨yA, hyA⟩ := rescale_surj (r := fA) wA (rescale eT fT yT)
  have hcu : convertVals inputs none = .ok (.delta ⟨u.flat⟩) := by simp only [convertVals, hu, ok_bind, pure_eq_ok]
  have hcy : convertVals meas none = .ok (.delta ⟨⟨o, rescale eT fT yT⟩⟩) := by simp only [convertVals, hy, ok_bind, pure_eq_ok, hyv]
  have c1 : (Dist.delta ⟨u.flat⟩).convert e.cellW.controlConv true = .ok (.delta ⟨uT⟩) := by
    simp only [Dist.convert, Delta.convert, if_true, u1]; rfl
  have c2 : (Dist.delta ⟨u.flat⟩).convert e.asohW.controlConv true = .ok (.delta ⟨uA⟩) := by
    simp only [Dist.convert, Delta.convert, if_true, u3]; rfl
  have c3 : (Dist.delta ⟨⟨o, rescale eT fT yT⟩⟩).convert e.cellW.outputConv true = .ok (.delta ⟨⟨o, yT⟩⟩) := by
    simp only [Dist.convert, Delta.convert, if_true, oT.invSamples1]; rfl
  have c4 : (Dist.delta ⟨⟨o, rescale eT fT yT⟩⟩).convert e.asohW.outputConv true = .ok (.delta ⟨⟨o, yA⟩⟩) := by
    rw [← hyA]
    simp only [Dist.convert, Delta.convert, if_true, oA.invSamples1]; rfl
  have hT' : Ukf.Holds { e.trans with mem := A0 } nT o μT PT QT RT :=
    ⟨hT.nHidden, hT.nOut, hT.n_pos, hT.hidden, hT.covW, hT.covV, hT.augLen, hT.alpha_pos, hT.alpha_le, hT.beta_nonneg, hT.spread⟩
  have hA' : Ukf.Holds { e.asoh with mem := (e.base.transients.makeCopy (Vec.vals ⟨nT, t0⟩), e.asoh.mem.2) } nA o μA PA QA RA :=
    ⟨hA.nHidden, hA.nOut, hA.n_pos, hA.hidden, hA.covW, hA.covV, hA.augLen, hA.alpha_pos, hA.alpha_le, hA.beta_nonneg, hA.spread⟩
  obtain ⟨_, pr, ft, μT', _, mT, ST, PT', _, _, _, sT1, sT2, _, sT3, sT4, _, sT5, sT6, _, sT7, sT8⟩ :=
    Ukf.C51_step_partial (f := { e.trans with mem := A0 }) h.modelT hT' pT qT rT ho h.weightsT svd hIT h.controlsT (.delta ⟨uT⟩)
      (.delta ⟨⟨o, yT⟩⟩) u2 yT rfl
  obtain ⟨_, pa, fa, μA', _, mA, SA, PA', _, _, _, sA1, sA2, _, sA3, sA4, _, sA5, sA6, sA9, sA7, sA8⟩ :=
    Ukf.C51_step_partial (f := { e.asoh with mem := (e.base.transients.makeCopy (Vec.vals ⟨nT, t0⟩), e.asoh.mem.2) }) h.modelA hA' pA qA rA
      ho h.weightsA svd (h.linkA t0 _ h.memory) h.controlsA (.delta ⟨uA⟩) (.delta ⟨⟨o, yA⟩⟩) u4 yA rfl
  obtain ⟨z, C, k1, k2⟩ := Gaussian.combine_posDef hT.n_pos (rescale dT bT μT') (rescale dA bA μA') (rescaleCov_posDef zT sT4)
    (rescaleCov_posDef zA sA4)
  have k1' : Gaussian.combineWith ⟨⟨nT, rescale dT bT μT'⟩, ⟨nT, nT, rescaleCov dT dT PT'⟩⟩
      [.dist ⟨⟨nA, rescale dA bA μA'⟩, ⟨nA, nA, rescaleCov dA dA PA'⟩⟩] = .ok ⟨⟨nT + nA, z⟩, ⟨nT + nA, nT + nA, C⟩⟩ := k1
  refine ⟨{ e with trans := ft, asoh := fa }, _, ⟨⟨o, rescale eT fT mT⟩, ⟨o, o, rescaleCov eT eT ST⟩⟩, ?_, ?_, ⟨z, C, rfl, k2⟩,
    ⟨_, _, rfl, rescaleCov_posDef wT sT3⟩⟩
  · simp only [Dual.step, hcu, hcy, hest, c1, c2, c3, c4, sT2, sA2, sT1, sA1, ok_bind, pure_eq_ok,
      cT.convert hT.n_pos μT' PT', cA.convert hA.n_pos μA' PA',
      oT.convert ho mT ST, oA.convert ho mA SA, k1']
  · exact ⟨⟨_, _, _, _, sT5, sT4, qT, rT⟩, ⟨_, _, _, _, sA5, sA4, qA, rA⟩, by show ∀ i, 0 ≤ ft.covWeights.get i; rw [sT8]; exact h.weightsT,
      by show ∀ i, 0 ≤ fa.covWeights.get i; rw [sA8]; exact h.weightsA, by simp only [sT6]; exact h.modelT, by simp only [sA6]; exact h.modelA, h.hiddenT, h.hiddenA,
      h.outputT, h.outputA, h.controlT, h.controlA, by simp only [sT7]; exact u2, by simp only [sA7]; exact u4, h.linkT, h.linkA, sA9⟩

/-- C76.  A dual estimator whose models treat every hidden state by itself and can work with what the other filter estimates runs through
every history of well-formed inputs and measurements; every covariance it returns is positive definite. -/
theorem C76_dual_runs {e : Dual} {nT nA o nu : Nat} {UT UA IT IA} (h : e.Healthy nT nA o nu UT UA IT IA) (ho : 1 ≤ o) (svd : Mat → Vec × Mat)
    (hist : List (Container ℝ × Container ℝ)) (hhist : ∀ x ∈ hist, (∃ v, x.1.toNumpy = .ok v ∧ v.flat.n = nu) ∧
      ∃ y, x.2.toNumpy = .ok y ∧ y.flat.n = o) :
    ∃ fin outs, e.run svd hist = .ok (fin, outs) ∧ outs.length = hist.length ∧
      ∀ x ∈ outs, (∃ m C, x.1 = ⟨⟨nT + nA, m⟩, ⟨nT + nA, nT + nA, C⟩⟩ ∧ C.PosDef) ∧ ∃ m C, x.2 = ⟨⟨o, m⟩, ⟨o, o, C⟩⟩ ∧ C.PosDef := by
  induction hist generalizing e with
  | nil => exact ⟨e, [], rfl, rfl, nofun⟩
  | cons x hist ih =>
    obtain ⟨hx1, hx2⟩ := hhist x (List.mem_cons_self ..)
    obtain ⟨e', est, out, h1, h2, h3, h4⟩ := h.step ho svd x.1 x.2 hx1 hx2
    obtain ⟨fin, outs, i1, i2, i3⟩ := ih h2 fun y hy => hhist y (List.mem_cons_of_mem _ hy)
    refine ⟨fin, (est, out) :: outs, ?_, by simp [i2], ?_⟩
    · obtain ⟨x1, x2⟩ := x
      simp only [Dual.run, h1, ok_bind, i1, pure_eq_ok]
    · intro y hy
      rcases List.mem_cons.1 hy with rfl | hy
      · exact ⟨h3, h4⟩
      · exact i3 y hy

/-! ## A concrete dual estimator -/

namespace Demo

/-- A cell at rest showing the sum of its transient number and of its parameter `q`. -/
noncomputable def sumCell : Cell where
  update _ _ tr _ := .ok tr
  output _ tr a := do
    let t ← tr.toNumpy
    let p ← a.getParameters (some [['q']])
    let v ← Mat.bop (· + ·) t.toMat p.toMat
    return ⟨[(['v'], some v.toArr2)]⟩

noncomputable def sumCellW : CellWrapper := ⟨⟨sumCell, health, trans, inp, .identity, .identity, .identity, 1⟩, 1⟩

noncomputable def sumAsohW : DegradationWrapper :=
  ⟨⟨sumCell, health, trans, inp, .identity, .identity, .identity, 1⟩, [['q']], 1, 1, NoDegradation _ _ _ _⟩

theorem ofRow_toMat (c : ℝ) : (Arr2.ofRow [c]).toMat = .ofRow ⟨1, fun _ => c⟩ := by
  refine Mat.ext_at rfl rfl fun i hi j hj => ?_
  have h1 : i < 1 := hi
  have h2 : j < 1 := hj
  interval_cases i
  interval_cases j
  rfl

theorem sumCell_made : CellWrapper.make sumCell health trans inp .identity .identity .identity = .ok sumCellW ∧
    DegradationWrapper.make sumCell health trans inp none (NoDegradation _ _ _ _) .identity .identity .identity = .ok sumAsohW :=
  ⟨rfl, rfl⟩

-- C56_made: the cell wrapper with a converter of hidden states.
example (op : Operator) : ∃ w, CellWrapper.make sumCell health trans inp op .identity .identity = .ok w ∧ w.hiddenConv = op ∧ w.plain = sumCellW :=
  ⟨{ sumCellW with hiddenConv := op }, ((C56_made sumCell health trans inp none (NoDegradation _ _ _ _) op .identity .identity).1 _).2 ⟨⟨rfl, rfl, rfl⟩, sumCell_made.1⟩, rfl, rfl⟩

theorem sumCell_output (i : Container ℝ) (tr : Container ℝ) (a : HV ℝ) {T A M : Mat} (hT : tr.toNumpy = .ok T.toArr2)
    (hA : a.getParameters (some [['q']]) = .ok A.toArr2) (h : Mat.bop (· + ·) T A = .ok M) :
    sumCell.output i tr a = .ok ⟨[(['v'], some M.toArr2)]⟩ := by
  simp only [sumCell, hT, hA, ok_bind, Mat.toMat_toArr2, h, pure_eq_ok]

theorem one_field (M : Mat) : (Container.toNumpy ⟨[(['v'], some M.toArr2)]⟩) = .ok M.toArr2 := by
  have h := C14_from_numpy_then_to_numpy (⟨[(['v'], some M.toArr2)]⟩ : Container ℝ) ⟨by simp, by simp⟩ (by simp [Spec.held]) (.d2 M.toArr2)
    (by simp [Container.len]; rfl)
  have e : Container.fromNumpy ⟨[(['v'], some M.toArr2)]⟩ (.d2 M.toArr2) = ⟨[(['v'], some M.toArr2)]⟩ := by
    simp only [Container.fromNumpy, Container.fillFrom, Vals.to2d, Nat.zero_add, Arr2.cols_full]
  rw [e] at h
  exact h

/-- What is needed of the state of health when the transient state is estimated: a single number `q`. -/
def SingleQ (a : HV ℝ) : Prop := ∃ c, a.getParameters (some [['q']]) = .ok (.ofRow [c])

/-- What is needed of the transient state when the state of health is estimated: a single number. -/
def SingleX (m : Container ℝ × Container ℝ) : Prop := ∃ c, m.1.toNumpy = .ok (.ofRow [c])

theorem toArr2_row (c : ℝ) : Mat.toArr2 (.ofRow ⟨1, fun _ => c⟩) = .ofRow [c] := by
  rw [← ofRow_toMat, Arr2.toArr2_toMat]

theorem trans_copy {K : Nat} (X : Matrix (Fin K) (Fin 1) ℝ) : (trans.makeCopy (.d2 (Mat.toArr2 ⟨K, 1, X⟩))).toNumpy = .ok (Mat.toArr2 ⟨K, 1, X⟩) :=
  C14_from_numpy_then_to_numpy _ trans_wf (by simp [trans, Spec.held]) (.d2 _) rfl

theorem health_copy {K : Nat} (hK : 1 ≤ K) (X : Matrix (Fin K) (Fin 1) ℝ) : ∃ A, health.makeCopy (.d2 (Mat.toArr2 ⟨K, 1, X⟩)) (some [['q']]) = .ok A ∧
    A.getParameters (some [['q']]) = .ok (Mat.toArr2 ⟨K, 1, X⟩) := by
  have hr : (Mat.toArr2 ⟨K, 1, X⟩).nrow = K := by simp [Mat.toArr2, Arr2.nrow]
  obtain ⟨A, h1, _, _, _, _, _, _, h2⟩ := makeCopy_writes health_wf health_single (ns := [['q']]) (by simp)
    (by intro n hn; simp at hn; subst hn; exact List.mem_cons_self ..) (v := Mat.toArr2 ⟨K, 1, X⟩) rfl (by omega)
  exact ⟨A, h1, (h2 (.inl (by simp))).2⟩

theorem sumCellW_rowWise : RowWise sumCellW.toWrapper 1 1 SingleQ (fun _ => True) := by
  rintro a u u' ⟨c, hc⟩ _ _
  refine ⟨fun x => x, fun x j => x j + c, a, ⟨c, hc⟩, fun K hK X => ?_, fun K hK X => ?_⟩
  · show (do return (← sumCellW.update a ⟨K, 1, X⟩ u u', a) : Except Err (Mat × HV ℝ)) = _
    have : sumCellW.update a ⟨K, 1, X⟩ u u' = .ok ⟨K, 1, X⟩ := by
      show (do Operator.identity.invSamples2 (← (trans.makeCopy (.d2 (Mat.toArr2 ⟨K, 1, X⟩))).toNumpy).toMat : Except Err Mat) = _
      rw [trans_copy, ok_bind, Mat.toMat_toArr2]
      rfl
    rw [this]
    rfl
  · show sumCellW.predict a ⟨K, 1, X⟩ u' = _
    have ho := sumCell_output (sumCellW.inputs.makeCopy u'.vals) _ a (trans_copy X) (hc.trans (congrArg _ (toArr2_row c).symm))
      (Mat.bop_row (· + ·) X fun _ => c)
    show (do sumCellW.fromOutputs (← sumCell.output (sumCellW.inputs.makeCopy u'.vals) (trans.makeCopy (.d2 (Mat.toArr2 ⟨K, 1, X⟩))) a) : Except Err Mat) = _
    rw [ho, ok_bind, BaseWrapper.fromOutputs, one_field, ok_bind, Mat.toMat_toArr2]
    rfl

theorem sumAsohW_rowWise : RowWise sumAsohW.toWrapper 1 1 SingleX (fun _ => True) := by
  rintro ⟨tr, pi⟩ u u' ⟨c, hc⟩ _ _
  have hc' : tr.toNumpy = .ok (Mat.toArr2 (.ofRow ⟨1, fun _ => c⟩)) := hc.trans (congrArg _ (toArr2_row c).symm)
  refine ⟨fun x => x, fun x j => c + x j, (tr, sumAsohW.inputs.makeCopy u.vals), ⟨c, hc⟩, fun K hK X => ?_, fun K hK X => ?_⟩
  · obtain ⟨A, h1, h2⟩ := health_copy hK X
    have h3 : sumAsohW.toAsoh ⟨K, 1, X⟩ = .ok A := h1
    have ho := sumCell_output (sumAsohW.inputs.makeCopy u'.vals) tr A hc' h2 (Mat.bop_row_left (· + ·) (fun _ => c) X)
    have hu : ∀ u, sumAsohW.toInputs u = .ok (sumAsohW.inputs.makeCopy u.vals) := fun _ => rfl
    have hcell : sumAsohW.cell = sumCell := rfl
    have hdeg : sumAsohW.deg = NoDegradation _ _ _ _ := rfl
    have hns : sumAsohW.names = [['q']] := rfl
    have hid : sumAsohW.hiddenConv = .identity := rfl
    simp only [DegradationWrapper.toWrapper, DegradationWrapper.update, hu, h3, ok_bind, hcell, ho, hdeg, NoDegradation, hns, h2, hid,
      Mat.toMat_toArr2, pure_eq_ok]
    rfl
  · obtain ⟨A, h1, h2⟩ := health_copy hK X
    have h3 : sumAsohW.toAsoh ⟨K, 1, X⟩ = .ok A := h1
    have ho := sumCell_output (sumAsohW.inputs.makeCopy u'.vals) tr A hc' h2 (Mat.bop_row_left (· + ·) (fun _ => c) X)
    have hu : ∀ u, sumAsohW.toInputs u = .ok (sumAsohW.inputs.makeCopy u.vals) := fun _ => rfl
    have hcell : sumAsohW.cell = sumCell := rfl
    have hup : ∀ p n t a, sumCell.update p n t a = .ok t := fun _ _ _ _ => rfl
    simp only [DegradationWrapper.toWrapper, DegradationWrapper.predict, hu, h3, ok_bind, hcell, hup, ho, BaseWrapper.fromOutputs, one_field,
      Mat.toMat_toArr2]
    rfl

theorem flat_one (c : ℝ) : (Arr2.ofRow [c]).flat = ⟨1, fun _ => c⟩ := by
  refine Vec.ext_at rfl fun i hi => ?_
  have h1 : i < 1 := hi
  interval_cases i
  rfl

/-- The estimator that `initialize_ukf_from_wrappers` builds of the two wrappers is healthy. -/
theorem sum_healthy : ∃ e, Dual.fromWrappers sumCellW sumAsohW ⟨1, 1, 1⟩ ⟨1, 1, 1⟩ none (some ⟨1, 1, 1⟩) (some ⟨1, 1, 1⟩) (some ⟨1, 1, 1⟩)
    ⟨1, none, 2⟩ ⟨1, none, 2⟩ = .ok e ∧ ∀ nu, e.Healthy 1 1 1 nu (fun _ => True) (fun _ => True) SingleQ SingleX := by
  have hb : ∃ base, Online.make sumCellW.cell sumAsohW.asoh sumCellW.transients sumCellW.inputs sumAsohW.names = .ok base := ⟨_, rfl⟩
  obtain ⟨base, hb⟩ := hb
  obtain ⟨ft, fa, h1, h2, h3, h4, h5, h6, h7, h8, h9, h10, h11⟩ := Dual.built_plain (cw := sumCellW) (aw := sumAsohW) rfl rfl rfl rfl rfl rfl rfl
    (I := .ofRow [1]) (T := .ofRow [3]) (A := .ofRow [5]) rfl rfl rfl (nT := 1) (nA := 1) (o := 1) le_rfl le_rfl (μT := fun _ => 3)
    (μA := fun _ => 5) (flat_one 3) (flat_one 5) rfl rfl rfl rfl (by decide) (by decide) hb 1 1 1 1 1
  obtain ⟨_, b2, b3, _⟩ := Online.make_ok hb
  refine ⟨_, h1, fun nu => ⟨⟨_, _, _, _, h2, .one, .one, .one⟩, ⟨_, _, _, _, h3, .one, .one, .one⟩, h10, h11, h4 ▸ sumCellW_rowWise, h5 ▸ sumAsohW_rowWise,
    ⟨_, _, fun _ => one_ne_zero, identity_rescales 1⟩, ⟨_, _, fun _ => one_ne_zero, identity_rescales 1⟩,
    ⟨_, _, fun _ => one_ne_zero, identity_rescales 1⟩, ⟨_, _, fun _ => one_ne_zero, identity_rescales 1⟩, fun v _ => ⟨v, rfl, trivial⟩,
    fun v _ => ⟨v, rfl, trivial⟩, trivial, trivial, fun a => ?_, ?_, ?_⟩⟩
  · obtain ⟨A, k1, k2⟩ := health_copy le_rfl (K := 1) fun _ => a
    refine ⟨A, ?_, a 0, k2.trans ?_⟩
    · show base.asoh.makeCopy _ _ = _
      rw [b2]
      have : Vec.vals ⟨1, a⟩ = .d1 [a 0] := by simp [Vec.vals]
      rw [this, makeCopy_d1, ← k1]
      rfl
    · rfl
  · rintro t m _
    refine ⟨t 0, ?_⟩
    show (base.transients.makeCopy _).toNumpy = _
    rw [b3]
    have := trans_copy (K := 1) fun _ => t
    exact this
  · simp only [h7]
    exact ⟨3, rfl⟩

end Demo

/-- Every history of currents and voltages, with the estimator of the concrete wrappers. -/
example (svd : Mat → Vec × Mat) (hist : List (ℝ × ℝ)) : ∃ e fin outs,
    Dual.fromWrappers Demo.sumCellW Demo.sumAsohW ⟨1, 1, 1⟩ ⟨1, 1, 1⟩ none (some ⟨1, 1, 1⟩) (some ⟨1, 1, 1⟩) (some ⟨1, 1, 1⟩)
      ⟨1, none, 2⟩ ⟨1, none, 2⟩ = .ok e ∧ e.run svd (Demo.readings hist) = .ok (fin, outs) ∧ outs.length = hist.length := by
  obtain ⟨e, h1, h2⟩ := Demo.sum_healthy
  obtain ⟨fin, outs, h3, h4, _⟩ := C76_dual_runs (h2 1) le_rfl svd (Demo.readings hist) (by
    intro x hx
    obtain ⟨y, _, rfl⟩ := List.mem_map.1 hx
    exact ⟨⟨.ofRow [y.1], rfl, rfl⟩, .ofRow [y.2], rfl, rfl⟩)
  exact ⟨e, fin, outs, h1, h3, by rw [h4, Demo.readings, List.length_map]⟩

/-- The hypotheses of `C58_returned_estimate_partial`, `C61_previous_posteriors` and `C61_combines_new_posteriors` are met by every step of
the concrete estimator. -/
example (svd : Mat → Vec × Mat) (i v : ℝ) : ∃ e e' est out,
    Dual.fromWrappers Demo.sumCellW Demo.sumAsohW ⟨1, 1, 1⟩ ⟨1, 1, 1⟩ none (some ⟨1, 1, 1⟩) (some ⟨1, 1, 1⟩) (some ⟨1, 1, 1⟩)
      ⟨1, none, 2⟩ ⟨1, none, 2⟩ = .ok e ∧
    e.step svd ⟨[(['i'], some (.ofRow [i]))]⟩ ⟨[(['v'], some (.ofRow [v]))]⟩ = .ok (e', est, out) ∧ est.mean.n = 2 := by
  obtain ⟨e, h1, h2⟩ := Demo.sum_healthy
  obtain ⟨e', est, out, h3, _, ⟨m, C, h4, _⟩, _⟩ := (h2 1).step le_rfl svd ⟨[(['i'], some (.ofRow [i]))]⟩ ⟨[(['v'], some (.ofRow [v]))]⟩
    ⟨.ofRow [i], rfl, rfl⟩ ⟨.ofRow [v], rfl, rfl⟩
  exact ⟨e, e', est, out, h1, h3, by rw [h4]⟩

end Verif
