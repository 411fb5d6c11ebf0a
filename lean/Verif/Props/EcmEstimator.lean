import Verif.Props.EcmCell
import Verif.Props.FreshEstimator
/-!
# A joint estimator of an equivalent circuit can be built and runs (C103)
-/

namespace Verif
open Ecm Cell Spec

variable {w : JointWrapper} {beh : Behavior} {x : Fixed} {measured series : Bool} {a : ASOH}

/-! ## Proofs -/

/-- The parameters read from the template with given values are unique, and there are some for every vector of the right length. -/
theorem CellWith.unique {z : List ℝ} {p q : Par} (h : CellWith w x z p) (h' : CellWith w x z q) : p = q := by
  obtain ⟨m, b, h1, h2, rfl⟩ := h
  obtain ⟨m', b', h1', h2', rfl⟩ := h'
  rw [h1] at h1'
  cases h1'
  rw [h2] at h2'
  cases h2'
  rfl

theorem list_of_ofFn {n : Nat} {f : Fin n → ℝ} {l : List ℝ} (h : List.ofFn f = l) : f = fun j : Fin n => l.getD j.val 0 := by
  subst h
  funext j
  simp [List.getD_eq_getElem?_getD]

open Classical in
/-- The wrapper of an equivalent circuit under constant behaviour acts on every hidden state by itself. -/
theorem circuit_rowWise (hc : EstimatesCircuit w .constant x measured series a) (he : Estimable w.names measured series a) :
    RowWise w.plain.toWrapper (w.nTransients + w.nAsoh) 1 (fun _ => True) (fun u => u.n = 2 + (if measured then 1 else 0)) := by
  rintro s u u' - hu hu'
  have hex : ∀ y : Fin (w.nTransients + w.nAsoh) → ℝ, ∃ p, CellWith w x ((List.ofFn y).drop w.nTransients) p := by
    intro y
    obtain ⟨_, b, _, _, _, _, _, _, _, _, _, _, _, _, h⟩ := circuit_parts hc le_rfl (fun _ : Fin 1 => y)
    exact ⟨_, h 0⟩
  choose par hpar using hex
  refine ⟨fun y j => ((step .constant (In.ofVec measured (List.ofFn u.get)) (In.ofVec measured (List.ofFn u'.get))
      (St.ofVec series a.rcs.length (List.ofFn y)) (par y)).toVec ++ (List.ofFn y).drop w.nTransients).getD j.val 0,
    fun y _ => volt (In.ofVec measured (List.ofFn u'.get)) (St.ofVec series a.rcs.length (List.ofFn y)) (par y), (), trivial,
    fun K hK X => ?_, fun K hK X => ?_⟩
  · obtain ⟨k1, k2, -⟩ := circuit_update hc hK X hu hu'
    obtain ⟨H, hH⟩ := k2 nofun he
    obtain ⟨Z, rfl, h⟩ := k1 H hH
    have e : Z = fun i (j : Fin (w.nTransients + w.nAsoh)) => ((step .constant (In.ofVec measured (List.ofFn u.get)) (In.ofVec measured (List.ofFn u'.get))
        (St.ofVec series a.rcs.length (List.ofFn (X i))) (par (X i))).toVec ++ (List.ofFn (X i)).drop w.nTransients).getD j.val 0 := by
      funext i
      obtain ⟨p, hp, h1⟩ := h i
      obtain rfl := CellWith.unique hp (hpar (X i))
      exact list_of_ofFn h1
    show (do return (← w.plain.update ⟨K, _, X⟩ u u', ()) : Except Err (Mat × Unit)) = _
    rw [hH, ok_bind, e]
    rfl
  · obtain ⟨k1, k2⟩ := circuit_predict hc hK X hu'
    obtain ⟨H, hH⟩ := k2 he
    obtain ⟨Z, rfl, h⟩ := k1 H hH
    have e : Z = fun i _ => volt (In.ofVec measured (List.ofFn u'.get)) (St.ofVec series a.rcs.length (List.ofFn (X i))) (par (X i)) := by
      funext i j
      obtain rfl : j = 0 := Subsingleton.elim _ _
      obtain ⟨p, hp, h1⟩ := h i
      obtain rfl := CellWith.unique hp (hpar (X i))
      exact h1
    show w.plain.predict ⟨K, _, X⟩ u' = _
    rw [hH, e]

/-- A new joint estimator in any units of a model that acts on every hidden state by itself is healthy. -/
theorem joint_healthy_of (w : JointWrapper) {n o nu : Nat} {d b : Fin n → ℝ} {e c : Fin o → ℝ} (hd : ∀ i, d i ≠ 0)
    (he : ∀ i, e i ≠ 0) (hh : w.hiddenConv.Rescales n d b) (hout : w.outputConv.Rescales o e c)
    (hctl : ∀ v : Vec, v.n = nu → ∃ v', w.controlConv.invSamples1 v = .ok v' ∧ w.controlConv.samples1 v' = .ok v)
    (hrow : RowWise w.plain.toWrapper n o (fun _ => True) (fun u => u.n = nu))
    {P Q : Matrix (Fin n) (Fin n) ℝ} {R : Matrix (Fin o) (Fin o) ℝ} (hP : P.PosDef) (hQ : Q.PosDef) (hR : R.PosDef) (tune : Tuning)
    {E : Joint} (hE : Joint.fromWrapper w (.inl ⟨n, n, P⟩) none (some ⟨n, n, Q⟩) none none (some ⟨o, o, R⟩) tune = .ok E)
    (hwt : ∀ i, 0 ≤ E.filter.covWeights.get i) (hin : ∃ v, w.inputs.toNumpy = .ok v ∧ v.flat.n = nu) :
    E.Healthy n o nu (fun u => ∃ v, w.controlConv.samples1 u = .ok v ∧ v.n = nu) := by
  obtain ⟨u, T, A, g0, g, u', q, r, f, a1, a2, a3, a4, a5, a6, a7, a8, a9, hw, hf⟩ := Joint.fromWrapper_ok hE
  have hg0 : 1 ≤ n ∧ g0 = ⟨T.flat.append A.flat, ⟨n, n, P⟩⟩ ∧ (T.flat.append A.flat).n = n := by
    unfold Gaussian.make at a4
    by_cases hc : 1 ≤ (T.flat.append A.flat).n ∧ 1 ≤ n ∧ n = (T.flat.append A.flat).n ∧ n = (T.flat.append A.flat).n
    · rw [if_pos hc] at a4
      cases a4
      exact ⟨hc.2.1, rfl, hc.2.2.1.symm⟩
    · rw [if_neg hc] at a4
      cases a4
  obtain ⟨hn, rfl, hlen⟩ := hg0
  obtain ⟨μ, hμ⟩ := Vec.eta_of hlen
  rw [hμ] at a5
  obtain ⟨μ', rfl⟩ := rescale_surj (r := b) hd μ
  obtain ⟨P', hP', rfl⟩ := rescaleCov_surj hd hP
  obtain ⟨Q', hQ', rfl⟩ := rescaleCov_surj hd hQ
  obtain ⟨R', hR', rfl⟩ := rescaleCov_surj he hR
  rw [Gaussian.unconvert_ok hn (hh.invSamples1 μ') (hh.invCovariance P' _)] at a5
  cases a5
  cases (hh.invCovariance Q' _).symm.trans a7
  cases (hout.invCovariance R' _).symm.trans a8
  have hF := Ukf.holds_of_make _ _ _ _ _ _ hn a9
  obtain ⟨p1, p2, p3, p4, -⟩ := Ukf.C53_constructed _ _ _ _ _ _ _ _ _ a9
  refine ⟨⟨μ', P', Q', R', hf ▸ hF, hP', hQ', hR'⟩, hwt, ?_, ?_, ?_, ?_, ?_⟩
  · rw [hf, p1]
    rintro s v v' - ⟨y, hy, hyn⟩ ⟨y', hy', hyn'⟩
    obtain ⟨g, g', k, k', t, t', -, -, -, -, -, hY, hZ⟩ := joint_conjugate hd he hh hout hrow s s y v y' v' trivial ⟨hyn, hy⟩ ⟨hyn', hy'⟩
    exact ⟨g', k', t', trivial, hY, hZ⟩
  · rw [hw]
    exact ⟨d, b, hd, hh⟩
  · rw [hw]
    exact ⟨e, c, he, hout⟩
  · rw [hw]
    intro v hv
    obtain ⟨v', h1, h2⟩ := hctl v hv
    exact ⟨v', h1, v, h2, hv⟩
  · obtain ⟨v, hv, hvn⟩ := hin
    obtain ⟨v', h1, h2⟩ := hctl _ hvn
    have e0 : convertVals w.inputs none = .ok (.delta ⟨v.flat⟩) := by simp only [convertVals, hv, ok_bind, pure_eq_ok]
    cases e0.symm.trans a1
    have e1 : u' = .delta ⟨v'⟩ := by
      have : (Dist.delta ⟨v.flat⟩).convert w.controlConv true = .ok (.delta ⟨v'⟩) := by
        show (do return ⟨← w.controlConv.invSamples1 v.flat⟩ : Except Err Delta).map Dist.delta = _
        rw [h1]
        rfl
      exact Except.ok.inj (a6.symm.trans this)
    rw [hf, p4, e1]
    exact ⟨_, h2, hvn⟩

/-- The hidden state made of the values of the templates stands for the templates. -/
theorem createInputs_own (w : JointWrapper) (hw : w.Ready) (hrow : w.transients.Single) : ∃ T A, ∃ y : Fin (w.nTransients + w.nAsoh) → ℝ,
    w.transients.toNumpy = .ok T ∧ w.asoh.getParameters (some w.names) = .ok A ∧ T.flat.append A.flat = ⟨_, y⟩ ∧
    w.plain.createInputs ⟨1, _, fun _ => y⟩ = .ok (w.asoh, w.transients) := by
  obtain ⟨T, h2, hTn⟩ := hw.nTransients_eq
  obtain ⟨A, h3, hAn⟩ := hw.nAsoh_eq
  have hup : ∀ n ∈ w.names, n ∈ w.asoh.allNames := fun n hn => updatable_subset (hw.names_updatable n hn)
  have hAr : A.nrow = 1 := unbatched_nrow hw.asoh_wf hw.asoh_single hup h3
  obtain ⟨T', hT', hTr⟩ := toNumpy_nrow hw.transients_held (fun q hq => (hrow q hq).ge) hrow.batchSize
  cases hT'.symm.trans h2
  obtain ⟨t, ht, ht1, ht2⟩ := Arr2.flat_single hTr
  obtain ⟨a, ha, ha1, ha2⟩ := Arr2.flat_single hAr
  obtain ⟨y, hy⟩ := Vec.eta_of (v := T.flat.append A.flat) (k := w.nTransients + w.nAsoh) (by show T.flat.n + A.flat.n = _; omega)
  refine ⟨T, A, y, h2, h3, hy, ?_⟩
  have hY : (Mat.toArr2 ⟨1, _, fun _ => y⟩) = .ofRow (t ++ a) := by
    rw [show (⟨1, _, fun _ => y⟩ : Mat) = Mat.ofRow ⟨_, y⟩ from rfl, toArr2_ofRow, ← hy, Vec.append_toList, ht1, ha1]
  obtain ⟨j, j1, j2, j3, j4, j5⟩ := Arr2.hcat_pair (a := T) (b := A) (by rw [hTr, hAr])
  have hj : j = .ofRow (t ++ a) := by
    rw [ht, ha] at j1
    have : Arr2.hcat [Arr2.ofRow t, Arr2.ofRow a] = .ok (.ofRow (t ++ a)) := by
      simp only [Arr2.hcat, Arr2.hcat2, bind, Except.bind]
      rw [if_pos (show (Arr2.ofRow t).nrow = (Arr2.ofRow a).nrow from rfl)]
      refine congrArg Except.ok (Arr2.ext' ?_ ?_)
      · simp [Arr2.ofRow]
      · simp [Arr2.ofRow]
    exact Except.ok.inj (j1.symm.trans this)
  obtain ⟨asoh, p1, p2, p3, p4⟩ := createInputs_parts w.plain (plain_ready hw) (h := ⟨1, _, fun _ => y⟩) (Y := ⟨1, _, fun _ => y⟩) rfl rfl
    le_rfl (.inr rfl)
  have e1 : (Mat.toArr2 ⟨1, _, fun _ => y⟩).cols 0 w.nTransients = T := by rw [hY, ← hj, ← hTn, j4]
  have e2 : (Mat.toArr2 ⟨1, _, fun _ => y⟩).cols w.nTransients (w.nTransients + w.nAsoh) = A := by
    have : w.nTransients + w.nAsoh = j.ncol := by omega
    rw [hY, this, ← hj, ← hTn, j5]
  replace p1 : w.plain.createInputs ⟨1, _, fun _ => y⟩ = .ok (asoh, w.transients.makeCopy (.d2
    ((Mat.toArr2 ⟨1, _, fun _ => y⟩).cols 0 w.nTransients))) := p1
  replace p3 : w.asoh.makeCopy (.d2 ((Mat.toArr2 ⟨1, _, fun _ => y⟩).cols w.nTransients (w.nTransients + w.nAsoh))) (some w.names) = .ok asoh := p3
  rw [e1] at p1
  rw [e2] at p3
  cases (HV.makeCopy_self hw.asoh_wf hw.asoh_single hw.names_distinct hw.names_updatable h3).symm.trans p3
  rw [hrow.makeCopy h2] at p1
  exact p1

/-- The inputs of a circuit as a vector, and back. -/
theorem circuit_inputs (hc : EstimatesCircuit w beh x measured series a) (hi : w.inputs.Single) : ∃ V, w.inputs.toNumpy = .ok V ∧
    V.flat.n = 2 + (if measured then 1 else 0) ∧ w.plain.toInputs V.flat = .ok w.inputs := by
  have hk : (w.inputs.fields.map (·.1)).Nodup := by
    have := congrArg (List.map Prod.fst) hc.inputs
    simp only [List.map_map, Function.comp_def] at this
    rw [show w.inputs.fields.map (·.1) = _ from this]
    cases measured <;> decide
  have hne : held w.inputs ≠ [] := by
    intro h
    have h1 := hc.inputs
    unfold SameLayout at h1
    have h2 : w.inputs.fields.map (fun p => (p.1, p.2.map Arr2.ncol)) = (kTime, some 1) :: (circuitInput measured).fields.tail.map (fun p => (p.1, p.2.map Arr2.ncol)) := h1
    cases hf : w.inputs.fields with
    | nil => rw [hf] at h2; cases h2
    | cons p ps =>
      rw [hf, List.map_cons, List.cons.injEq] at h2
      obtain ⟨k, _ | v⟩ := p
      · simp at h2
      · unfold held at h
        rw [hf] at h
        cases h
  obtain ⟨V, hV, hVr⟩ := toNumpy_nrow hne (fun q hq => (hi q hq).ge) hi.batchSize
  obtain ⟨l, h1, h2, h3⟩ := Arr2.flat_single hVr
  have hn : V.ncol = 2 + (if measured then 1 else 0) := by
    rw [toNumpy_len hk hV, len_layout hk hc.inputs]
    cases measured <;> rfl
  refine ⟨V, hV, by rw [h3, hn], ?_⟩
  have e : w.plain.toInputs V.flat = .ok (w.inputs.makeCopy (.d2 (.ofRow V.flat.toList))) := rfl
  rw [e, h2, ← h1, hi.makeCopy hV]

/-- The common part of the estimators accepts a circuit. -/
theorem circuit_online (hc : EstimatesCircuit w beh x measured series a) (he : Estimable w.names measured series a)
    (ht : w.transients.Single) (hi : w.inputs.Single) : ∃ o, Online.make w.cell w.asoh w.transients w.inputs w.names = .ok o := by
  obtain ⟨T, A, y, -, -, -, h1⟩ := createInputs_own w hc.ready ht
  obtain ⟨V, hV, hVn, h2⟩ := circuit_inputs hc hi
  obtain ⟨H, hH⟩ := (circuit_predict hc le_rfl (fun _ : Fin 1 => y) hVn).2 he
  unfold JointWrapper.predict at hH
  rw [h2, ok_bind, h1, ok_bind] at hH
  obtain ⟨Y, hY, -⟩ := bind_ok.1 hH
  have hY1 : w.cell.output w.inputs w.transients w.asoh = .ok Y := hY
  have hYn : ∃ yn, Y.allNames = .ok yn := by
    rw [hc.cell] at hY1
    simp only [Ecm.cell, bind_eq_ok_iff, pure_eq_ok, Except.ok.injEq] at hY1
    obtain ⟨_, _, _, _, _, _, v, _, rfl⟩ := hY1
    exact ⟨_, rfl⟩
  obtain ⟨yn, hyn⟩ := hYn
  have hb : w.asoh.batchSize = .ok 1 :=
    ((C12_batch_size w.asoh fun p a hp => by rw [hc.ready.asoh_single p a hp]).1 1).2 ⟨fun p a hp => .inl (hc.ready.asoh_single p a hp), .inl rfl⟩
  unfold Online.make
  rw [hY1, ok_bind, hyn, ok_bind, ht.batchSize, ok_bind, if_neg (by simp), hb, ok_bind, if_neg (by simp)]
  exact ⟨_, rfl⟩

/-- `initialize_ukf_from_wrapper` builds an estimator of every wrapper that the common part accepts. -/
theorem joint_built_of (w : JointWrapper) (hw : w.Ready) (ht : w.transients.Single) {o nu : Nat} (ho : w.nOut = o)
    (hn : 1 ≤ w.nTransients + w.nAsoh)
    {d b : Fin (w.nTransients + w.nAsoh) → ℝ} {e c : Fin o → ℝ} (hd : ∀ i, d i ≠ 0) (he : ∀ i, e i ≠ 0)
    (hh : w.hiddenConv.Rescales (w.nTransients + w.nAsoh) d b) (hout : w.outputConv.Rescales o e c)
    (hctl : ∀ v : Vec, v.n = nu → ∃ v', w.controlConv.invSamples1 v = .ok v' ∧ w.controlConv.samples1 v' = .ok v)
    {P Q : Matrix (Fin (w.nTransients + w.nAsoh)) (Fin (w.nTransients + w.nAsoh)) ℝ} {R : Matrix (Fin o) (Fin o) ℝ}
    (hP : P.PosDef) (hQ : Q.PosDef) (hR : R.PosDef) (tune : Tuning) (ha : 1 / 1000 ≤ tune.alpha ∧ tune.alpha ≤ 1) (hb : 0 ≤ tune.beta)
    (hk : ∀ k, tune.kappa = some k → -((2 * (w.nTransients + w.nAsoh) + o : Nat) : ℝ) < k)
    (hin : ∃ v, w.inputs.toNumpy = .ok v ∧ v.flat.n = nu)
    (hon : ∃ o, Online.make w.cell w.asoh w.transients w.inputs w.names = .ok o) :
    ∃ E, Joint.fromWrapper w (.inl ⟨_, _, P⟩) none (some ⟨_, _, Q⟩) none none (some ⟨o, o, R⟩) tune = .ok E := by
  obtain ⟨T, A, y, h1, h2, h3, -⟩ := createInputs_own w hw ht
  obtain ⟨v, hv, hvn⟩ := hin
  obtain ⟨v', hv1, hv2⟩ := hctl _ hvn
  obtain ⟨on, hon⟩ := hon
  obtain ⟨μ', rfl⟩ := rescale_surj (r := b) hd y
  obtain ⟨P', hP', rfl⟩ := rescaleCov_surj hd hP
  obtain ⟨Q', hQ', rfl⟩ := rescaleCov_surj hd hQ
  obtain ⟨R', hR', rfl⟩ := rescaleCov_surj he hR
  have e1 : convertVals w.inputs none = .ok (.delta ⟨v.flat⟩) := by simp only [convertVals, hv, ok_bind, pure_eq_ok]
  have e4 : (Dist.delta ⟨v.flat⟩).convert w.controlConv true = .ok (.delta ⟨v'⟩) := by
    show (do return ⟨← w.controlConv.invSamples1 v.flat⟩ : Except Err Delta).map Dist.delta = _
    rw [hv1]
    rfl
  have e8 : Gaussian.make ⟨_, rescale d b μ'⟩ (Joint.jointCov (.inl ⟨_, _, rescaleCov d d P'⟩)) =
      .ok ⟨⟨_, rescale d b μ'⟩, ⟨_, _, rescaleCov d d P'⟩⟩ := Gaussian.make_of hn _ _
  have e5 : Gaussian.convert ⟨⟨_, rescale d b μ'⟩, ⟨_, _, rescaleCov d d P'⟩⟩ w.hiddenConv true = .ok ⟨⟨_, μ'⟩, ⟨_, _, P'⟩⟩ :=
    Gaussian.unconvert_ok hn (hh.invSamples1 μ') (hh.invCovariance P' ⟨_, rescale d b μ'⟩)
  have e6 : noiseToFilter w.hiddenConv (Joint.jointNoise (some ⟨_, _, rescaleCov d d Q'⟩) none none) = .ok (some ⟨_, _, Q'⟩) := by
    show (do return some (← w.hiddenConv.invCovariance _ _) : Except Err (Option Mat)) = _
    rw [hh.invCovariance Q' _]
    rfl
  have e7 : noiseToFilter w.outputConv (some ⟨o, o, rescaleCov e e R'⟩) = .ok (some ⟨o, o, R'⟩) := by
    show (do return some (← w.outputConv.invCovariance _ _) : Except Err (Option Mat)) = _
    rw [hout.invCovariance R' _]
    rfl
  obtain ⟨f, hf⟩ : ∃ f, Ukf.make w.toWrapper () ⟨⟨_, μ'⟩, ⟨_, _, P'⟩⟩ (.delta ⟨v'⟩) (some ⟨_, _, Q'⟩) (some ⟨o, o, R'⟩) tune.alpha
      tune.kappa tune.beta = .ok f := by
    rcases Ukf.make_eq w.toWrapper () ⟨⟨_, μ'⟩, ⟨_, _, P'⟩⟩ (.delta ⟨v'⟩) (some ⟨_, _, Q'⟩) (some ⟨o, o, R'⟩) tune.alpha tune.kappa
      tune.beta with ⟨_, W, V, h, _⟩ | ⟨hc, _⟩
    · exact ⟨_, h⟩
    · refine absurd ⟨rfl, ha.1, ha.2, hb, ?_, ?_, ?_⟩ hc
      · intro k hk'
        have := hk k hk'
        rw [← ho] at this
        exact this
      · rintro _ ⟨⟩; exact ⟨rfl, rfl⟩
      · rintro _ ⟨⟩; exact ⟨ho.symm, ho.symm⟩
  refine ⟨⟨on, w, f⟩, ?_⟩
  unfold Joint.fromWrapper
  rw [e1, ok_bind, h1, ok_bind, h2, ok_bind, h3, e8, ok_bind, e5, ok_bind, e4, ok_bind, e6, ok_bind, e7, ok_bind, hf, ok_bind]
  unfold Joint.make
  rw [hon]
  rfl

/-! ## C103 -/

/-- C103.  Joint estimation of an equivalent circuit under constant currents works from the first to the last measurement: if the choice of
parameters is `Estimable`, positive definite covariances for the hidden states, the process noise and the sensor noise give an estimator, in
any units; and if its weights are not negative, it runs through every history of inputs and voltages, all its estimates and predictions
having positive definite covariances.

`hnz`: no quantity the circuit divides by – the capacity, the RC resistances and capacitances, the series capacitance – vanishes for any
values of the estimated parameters.  (The proof does not use it; where it fails, the code computes infinities or NaN with a warning, which the
model does not represent.) -/
theorem C103_circuit_estimator_runs (hc : EstimatesCircuit w .constant x measured series a) (he : Estimable w.names measured series a)
    (_hnz : ∀ z, z.length = w.nAsoh → ∀ p, CellWith w x z p → p.qt ≠ 0 ∧ (∀ rc ∈ p.rcs, ∀ s t, rc.r s t ≠ 0 ∧ rc.c s ≠ 0) ∧ ∀ c ∈ p.c0, ∀ s, c s ≠ 0)
    (ht : w.transients.Single) (hi : w.inputs.Single) (ho : w.nOut = 1)
    {n : Nat} (hn : w.nTransients + w.nAsoh = n) {d b : Fin n → ℝ} {e c : Fin 1 → ℝ} (hd : ∀ i, d i ≠ 0) (he' : ∀ i, e i ≠ 0)
    (hh : w.hiddenConv.Rescales n d b) (hout : w.outputConv.Rescales 1 e c)
    (hctl : ∀ v : Vec, v.n = 2 + (if measured then 1 else 0) → ∃ v', w.controlConv.invSamples1 v = .ok v' ∧ w.controlConv.samples1 v' = .ok v)
    {P Q : Matrix (Fin n) (Fin n) ℝ} {R : Matrix (Fin 1) (Fin 1) ℝ}
    (hP : P.PosDef) (hQ : Q.PosDef) (hR : R.PosDef) (tune : Tuning) (ha : 1 / 1000 ≤ tune.alpha ∧ tune.alpha ≤ 1) (hb : 0 ≤ tune.beta)
    (hk : ∀ k, tune.kappa = some k → -((2 * n + 1 : Nat) : ℝ) < k) :
    ∃ E, Joint.fromWrapper w (.inl ⟨n, n, P⟩) none (some ⟨n, n, Q⟩) none none (some ⟨1, 1, R⟩) tune = .ok E ∧
      ((∀ i, 0 ≤ E.filter.covWeights.get i) → ∀ (svd : Mat → Vec × Mat) (hist : List (Container ℝ × Container ℝ)),
        (∀ m ∈ hist, (∃ v, m.1.toNumpy = .ok v ∧ v.flat.n = 2 + (if measured then 1 else 0)) ∧ ∃ y, m.2.toNumpy = .ok y ∧ y.flat.n = 1) →
        ∃ fin outs, E.run svd hist = .ok (fin, outs) ∧ outs.length = hist.length ∧
          ∀ m ∈ outs, (∃ μ C, m.1 = ⟨⟨n, μ⟩, ⟨n, n, C⟩⟩ ∧ C.PosDef) ∧
            ∃ μ C, m.2 = ⟨⟨1, μ⟩, ⟨1, 1, C⟩⟩ ∧ C.PosDef) := by
  subst hn
  obtain ⟨V, hV, hVn, -⟩ := circuit_inputs hc hi
  obtain ⟨E, hE⟩ := joint_built_of w hc.ready ht ho (by have := circuit_width hc; omega) hd he' hh hout hctl hP hQ hR tune ha hb hk
    ⟨V, hV, hVn⟩ (circuit_online hc he ht hi)
  refine ⟨E, hE, fun hwt svd hist hhist => ?_⟩
  exact C78_joint_runs (joint_healthy_of w hd he' hh hout hctl (circuit_rowWise hc he) hP hQ hR tune hE hwt ⟨V, hV, hVn⟩) le_rfl svd hist hhist

-- The estimator of the concrete circuit's open-circuit voltage and R0, in units of 2 of all hidden states, is built and runs through every
-- history of times, currents, temperatures and voltages.
example (svd : Mat → Vec × Mat) (hist : List (ℝ × ℝ × ℝ × ℝ)) : ∃ E fin outs,
    Joint.fromWrapper (Demo.estimating .constant (.linearScalar 2 ⟨1, ![0]⟩)) (.inl ⟨6, 6, 1⟩) none (some ⟨6, 6, 1⟩) none none (some ⟨1, 1, 1⟩)
      ⟨1, some 0, 2⟩ = .ok E ∧
    E.run svd (hist.map fun m => (⟨[(kTime, some (.ofRow [m.1])), (kCurrent, some (.ofRow [m.2.1])), (kTemp, some (.ofRow [m.2.2.1]))]⟩,
      ⟨[(kVoltage, some (.ofRow [m.2.2.2]))]⟩)) = .ok (fin, outs) ∧ outs.length = hist.length := by
  obtain ⟨b, hb⟩ := scalar_rescales (k := 6) 2 two_ne_zero ⟨1, ![0]⟩ (.inr rfl)
  obtain ⟨E, hE, hrun⟩ := C103_circuit_estimator_runs (Demo.estimating_circuit .constant (.linearScalar 2 ⟨1, ![0]⟩))
    (Demo.estimating_estimable _ _) (fun z hz p => Demo.estimating_divisors _ _ z hz p) Demo.hvState_single Demo.hvInput_single rfl (n := 6) rfl
    (fun _ => two_ne_zero) (fun _ => one_ne_zero) hb (identity_rescales 1) (fun v _ => ⟨v, rfl, rfl⟩) .one .one .one ⟨1, some 0, 2⟩
    ⟨by norm_num, by norm_num⟩ (by norm_num) (by rintro _ ⟨⟩; norm_num)
  have hw : ∀ i, 0 ≤ E.filter.covWeights.get i := by
    obtain ⟨u, T, A, g0, g, u', q, r, f, -, -, -, -, -, -, -, -, a9, -, hf⟩ := Joint.fromWrapper_ok hE
    rcases Ukf.make_eq _ _ _ _ _ _ _ _ _ with ⟨_, W, V, h, _⟩ | ⟨hc, h⟩
    rotate_left
    · cases h.symm.trans a9
    cases h.symm.trans a9
    rw [hf]
    intro i
    simp only [Ukf.covWeights, Ukf.meanWeights, Ukf.lambda, Option.getD_some]
    split <;> norm_num <;> positivity
  obtain ⟨fin, outs, h1, h2, -⟩ := hrun hw svd (hist.map fun m =>
    (⟨[(kTime, some (.ofRow [m.1])), (kCurrent, some (.ofRow [m.2.1])), (kTemp, some (.ofRow [m.2.2.1]))]⟩,
      ⟨[(kVoltage, some (.ofRow [m.2.2.2]))]⟩)) (by
    intro m hm
    obtain ⟨y, _, rfl⟩ := List.mem_map.1 hm
    exact ⟨⟨.ofRow [y.1, y.2.1, y.2.2.1], rfl, rfl⟩, .ofRow [y.2.2.2], rfl, rfl⟩)
  exact ⟨E, fin, outs, hE, h1, by rw [h2, List.length_map]⟩

end Verif
