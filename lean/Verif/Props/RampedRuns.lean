import Verif.Props.EcmDualRuns
import Verif.Props.EcmEstimator
/-!
# Estimation of an equivalent circuit under currents that change linearly (C103, C106)
-/

namespace Verif
open Ecm Cell Spec

/-- Inputs of `nu` values and measurements of one value, one after the other, the first value of every input – the time – being another one than
before. -/
def Spec.TimesChange (nu : Nat) : ℝ → List (Container ℝ × Container ℝ) → Prop
  | _, [] => True
  | t, m :: rest => ∃ V Y, m.1.toNumpy = .ok V ∧ V.flat.n = nu ∧ m.2.toNumpy = .ok Y ∧ Y.flat.n = 1 ∧
    (List.ofFn V.flat.get).getD 0 0 ≠ t ∧ TimesChange nu ((List.ofFn V.flat.get).getD 0 0) rest

variable {x : Fixed} {measured series : Bool} {a : ASOH}

/-! ## Proofs: a model with its controls fixed -/

/-- The model for one pair of controls. -/
def Wrapper.pin {σ : Type} (w : Wrapper σ) (u u' : Vec) : Wrapper σ where
  nHidden := w.nHidden
  nOut := w.nOut
  update s X _ _ := w.update s X u u'
  predict s X _ := w.predict s X u'

theorem Ukf.step_pin {σ : Type} (f : Ukf σ) (svd : Mat → Vec × Mat) (new meas : Dist) :
    f.step svd new meas = (Ukf.step svd { f with model := f.model.pin f.controls.mean new.mean } new meas).map
      fun r => ({ r.1 with model := f.model }, r.2) := by
  have e1 : Ukf.buildSigma svd { f with model := f.model.pin f.controls.mean new.mean } = f.buildSigma svd := rfl
  have e2 : ∀ X, Ukf.estimationUpdate { f with model := f.model.pin f.controls.mean new.mean } X new = f.estimationUpdate X new := fun _ => rfl
  unfold Ukf.step
  rw [e1]
  simp only [e2]
  cases f.buildSigma svd with
  | error err => rfl
  | ok X =>
  simp only [ok_bind]
  cases f.estimationUpdate X new with
  | error err => rfl
  | ok p =>
  simp only [ok_bind]
  cases Ukf.correctionUpdate svd p.x p.y p.covXY meas <;> rfl

theorem Ukf.Holds.with_model {σ : Type} {f : Ukf σ} {n o : Nat} {μ : Fin n → ℝ} {P Q : Matrix (Fin n) (Fin n) ℝ} {R : Matrix (Fin o) (Fin o) ℝ}
    (h : f.Holds n o μ P Q R) {w : Wrapper σ} (h1 : w.nHidden = n) (h2 : w.nOut = o) : Ukf.Holds { f with model := w } n o μ P Q R :=
  ⟨h1, h2, h.n_pos, h.hidden, h.covW, h.covV, h.augLen, h.alpha_pos, h.alpha_le, h.beta_nonneg, h.spread⟩

/-- What a joint estimator has to satisfy to run through inputs that follow one another as `R` says. -/
structure Joint.Fit (e : Joint) (n o nu : Nat) (R : Vec → Vec → Prop) : Prop where
  filter : ∃ μ P Q R, e.filter.Holds n o μ P Q R ∧ P.PosDef ∧ Q.PosDef ∧ R.PosDef
  weights : ∀ i, 0 ≤ e.filter.covWeights.get i
  model : ∀ u u' v v', e.wrapper.controlConv.samples1 u = .ok v → e.wrapper.controlConv.samples1 u' = .ok v' → R v v' →
    RowWise (e.filter.model.pin u u') n o (fun _ => True) (fun _ => True)
  hidden : ∃ d b : Fin n → ℝ, (∀ i, d i ≠ 0) ∧ e.wrapper.hiddenConv.Rescales n d b
  output : ∃ d b : Fin o → ℝ, (∀ i, d i ≠ 0) ∧ e.wrapper.outputConv.Rescales o d b
  control : ∀ v : Vec, v.n = nu → ∃ v', e.wrapper.controlConv.invSamples1 v = .ok v' ∧ e.wrapper.controlConv.samples1 v' = .ok v

theorem Joint.Fit.step {e : Joint} {n o nu : Nat} {R} (h : e.Fit n o nu R) (ho : 1 ≤ o) (svd : Mat → Vec × Mat)
    {v₀ : Vec} (hv₀ : e.wrapper.controlConv.samples1 e.filter.controls.mean = .ok v₀)
    (inputs meas : Container ℝ) {V : Arr2 ℝ} (hV : inputs.toNumpy = .ok V) (hVn : V.flat.n = nu) (hR : R v₀ V.flat)
    (hmeas : ∃ v, meas.toNumpy = .ok v ∧ v.flat.n = o) :
    ∃ e' est out, e.step svd inputs meas = .ok (e', est, out) ∧ e'.Fit n o nu R ∧ e'.base = e.base ∧ e'.wrapper = e.wrapper ∧
      e'.wrapper.controlConv.samples1 e'.filter.controls.mean = .ok V.flat ∧
      (∃ m C, est = ⟨⟨n, m⟩, ⟨n, n, C⟩⟩ ∧ C.PosDef) ∧ ∃ m C, out = ⟨⟨o, m⟩, ⟨o, o, C⟩⟩ ∧ C.PosDef := by
  obtain ⟨u', hu1, hu2⟩ := h.control V.flat hVn
  obtain ⟨μ, P, Q, S, hH, p, q, r⟩ := h.filter
  let e₀ : Joint := { e with filter := { e.filter with model := e.filter.model.pin e.filter.controls.mean u' } }
  have hh : e₀.Healthy n o nu (fun _ => True) := ⟨⟨μ, P, Q, S, hH.with_model hH.nHidden hH.nOut, p, q, r⟩, h.weights,
    h.model _ _ _ _ hv₀ hu2 hR, h.hidden, h.output, fun v hv => by
      obtain ⟨v', h1, -⟩ := h.control v hv
      exact ⟨v', h1, trivial⟩, trivial⟩
  obtain ⟨e', est, out, s1, s2, s3, s4, s5, s6⟩ := hh.step ho svd inputs meas ⟨V, hV, hVn⟩ hmeas
  have hcu : convertVals inputs none = .ok (.delta ⟨V.flat⟩) := by simp only [convertVals, hV, ok_bind, pure_eq_ok]
  have c1 : (Dist.delta ⟨V.flat⟩).convert e.wrapper.controlConv true = .ok (.delta ⟨u'⟩) := by
    simp only [Dist.convert, Delta.convert, if_true, hu1]; rfl
  simp only [Joint.step, hcu, ok_bind, show e₀.wrapper = e.wrapper from rfl, c1, bind_eq_ok_iff, pure_eq_ok, Except.ok.injEq, Prod.mk.injEq] at s1
  obtain ⟨y, y1, y', y2, ⟨f', g1, g2⟩, y3, est', y4, out', y5, rfl, rfl, rfl⟩ := s1
  have hs : e.filter.step svd (.delta ⟨u'⟩) y' = .ok ({ f' with model := e.filter.model }, g1, g2) := by
    rw [Ukf.step_pin]
    show (e₀.filter.step svd (.delta ⟨u'⟩) y').map _ = _
    rw [y3]
    rfl
  have hk : f'.controls = .delta ⟨u'⟩ ∧ f'.model = e₀.filter.model := by
    simp only [Ukf.step, bind_eq_ok_iff, pure_eq_ok, Except.ok.injEq, Prod.mk.injEq] at y3
    obtain ⟨_, _, _, _, _, _, rfl, _⟩ := y3
    exact ⟨rfl, rfl⟩
  refine ⟨{ e with filter := { f' with model := e.filter.model } }, est', out', ?_, ?_, rfl, rfl, ?_, s5, s6⟩
  · simp only [Joint.step, hcu, ok_bind, c1, y1, y2, hs, y4, y5, pure_eq_ok]
  · obtain ⟨μ', P', Q', S', hH', p', q', r'⟩ := s2.filter
    exact ⟨⟨μ', P', Q', S', hH'.with_model hH.nHidden hH.nOut, p', q', r'⟩, s2.weights, h.model, h.hidden, h.output, h.control⟩
  · show e.wrapper.controlConv.samples1 f'.controls.mean = _
    rw [hk.1]
    exact hu2

theorem Joint.Fit.run {n nu : Nat} (svd : Mat → Vec × Mat) (hist : List (Container ℝ × Container ℝ)) :
    ∀ {e : Joint} {v₀ : Vec}, e.Fit n 1 nu (fun v v' => v.n = nu ∧ v'.n = nu ∧ (List.ofFn v'.get).getD 0 0 ≠ (List.ofFn v.get).getD 0 0) →
    e.wrapper.controlConv.samples1 e.filter.controls.mean = .ok v₀ → v₀.n = nu → TimesChange nu ((List.ofFn v₀.get).getD 0 0) hist →
    ∃ fin outs, e.run svd hist = .ok (fin, outs) ∧ outs.length = hist.length ∧
      ∀ x ∈ outs, (∃ m C, x.1 = ⟨⟨n, m⟩, ⟨n, n, C⟩⟩ ∧ C.PosDef) ∧ ∃ m C, x.2 = ⟨⟨1, m⟩, ⟨1, 1, C⟩⟩ ∧ C.PosDef := by
  induction hist with
  | nil => exact fun _ _ _ _ => ⟨_, [], rfl, rfl, nofun⟩
  | cons x hist ih =>
    intro e v₀ h hv₀ hn₀ ht
    obtain ⟨V, Y, hV, hVn, hY, hYn, hne, hrest⟩ := ht
    obtain ⟨e', est, out, h1, h2, -, -, h5, h6, h7⟩ := h.step le_rfl svd hv₀ x.1 x.2 hV hVn ⟨hn₀, hVn, hne⟩ ⟨Y, hY, hYn⟩
    obtain ⟨fin, outs, i1, i2, i3⟩ := ih h2 h5 hVn hrest
    refine ⟨fin, (est, out) :: outs, ?_, by simp [i2], ?_⟩
    · obtain ⟨x1, x2⟩ := x
      simp only [Joint.run, h1, ok_bind, i1, pure_eq_ok]
    · intro y hy
      rcases List.mem_cons.1 hy with rfl | hy
      · exact ⟨h6, h7⟩
      · exact i3 y hy

/-! ## Proofs: joint estimation -/

open Classical in
/-- For two inputs at different times, the wrapper of an equivalent circuit acts on every hidden state by itself. -/
theorem circuit_pinned {w : JointWrapper} {beh : Behavior} (hc : EstimatesCircuit w beh x measured series a) (he : Estimable w.names measured series a)
    {u u' : Vec} (hu : u.n = 2 + (if measured then 1 else 0)) (hu' : u'.n = 2 + (if measured then 1 else 0))
    (ht : (List.ofFn u'.get).getD 0 0 ≠ (List.ofFn u.get).getD 0 0) :
    RowWise (w.plain.toWrapper.pin u u') (w.nTransients + w.nAsoh) 1 (fun _ => True) (fun _ => True) := by
  rintro s - - - - -
  have hex : ∀ y : Fin (w.nTransients + w.nAsoh) → ℝ, ∃ p, CellWith w x ((List.ofFn y).drop w.nTransients) p := by
    intro y
    obtain ⟨_, b, _, _, _, _, _, _, _, _, _, _, _, _, h⟩ := circuit_parts hc le_rfl (fun _ : Fin 1 => y)
    exact ⟨_, h 0⟩
  choose par hpar using hex
  refine ⟨fun y j => ((step beh (In.ofVec measured (List.ofFn u.get)) (In.ofVec measured (List.ofFn u'.get))
      (St.ofVec series a.rcs.length (List.ofFn y)) (par y)).toVec ++ (List.ofFn y).drop w.nTransients).getD j.val 0,
    fun y _ => volt (In.ofVec measured (List.ofFn u'.get)) (St.ofVec series a.rcs.length (List.ofFn y)) (par y), (), trivial,
    fun K hK X => ?_, fun K hK X => ?_⟩
  · obtain ⟨k1, k2, -⟩ := circuit_update hc hK X hu hu'
    obtain ⟨H, hH⟩ := k2 (fun _ => ht) he
    obtain ⟨Z, rfl, h⟩ := k1 H hH
    have e : Z = fun i (j : Fin (w.nTransients + w.nAsoh)) => ((step beh (In.ofVec measured (List.ofFn u.get)) (In.ofVec measured (List.ofFn u'.get))
        (St.ofVec series a.rcs.length (List.ofFn (X i))) (par (X i))).toVec ++ (List.ofFn (X i)).drop w.nTransients).getD j.val 0 := by
      funext i
      obtain ⟨p, hp, h1⟩ := h i
      obtain rfl := CellWith.unique hp (hpar (X i))
      exact list_of_ofFn h1
    show (do return (← w.plain.update ⟨K, _, X⟩ u u', ()) : Except Err (Mat × Unit)) = _
    rw [hH, ok_bind, e]
    rfl
  · obtain ⟨k1, k2⟩ := circuit_predict hc hK X hu'
    obtain ⟨H, hH⟩ := k2 he
    obtain ⟨Z, rfl, h⟩ := k1 H hH
    have e : Z = fun i _ => volt (In.ofVec measured (List.ofFn u'.get)) (St.ofVec series a.rcs.length (List.ofFn (X i))) (par (X i)) := by
      funext i j
      obtain rfl : j = 0 := Subsingleton.elim _ _
      obtain ⟨p, hp, h1⟩ := h i
      obtain rfl := CellWith.unique hp (hpar (X i))
      exact h1
    show w.plain.predict ⟨K, _, X⟩ u' = _
    rw [hH, e]

theorem joint_pin_units {w : JointWrapper} {n o : Nat} {d b : Fin n → ℝ} {e c : Fin o → ℝ} (hd : ∀ i, d i ≠ 0) (he : ∀ i, e i ≠ 0)
    (hh : w.hiddenConv.Rescales n d b) (hout : w.outputConv.Rescales o e c) {u u' v v' : Vec} (hv : w.controlConv.samples1 u = .ok v)
    (hv' : w.controlConv.samples1 u' = .ok v') (hrow : RowWise (w.plain.toWrapper.pin v v') n o (fun _ => True) (fun _ => True)) :
    RowWise (w.toWrapper.pin u u') n o (fun _ => True) (fun _ => True) := by
  have := rowWise_units (w₀ := w.plain.toWrapper.pin v v') (w := w.toWrapper.pin u u') (ctl := .identity) hd he hh hout
    (fun s X Y _ _ _ _ hY _ _ => by
      show (do return (← w.update X u u', ()) : Except Err (Mat × Unit)) = (do
        let r ← (do return (← w.plain.update Y v v', ()) : Except Err (Mat × Unit))
        return (← w.hiddenConv.invSamples2 r.1, r.2))
      rw [(C56_joint w X Y hY u u' v v' hv hv').1]
      simp only [bind_assoc, pure_eq_ok, ok_bind])
    (fun s X Y _ _ hY _ => (C56_joint w X Y hY u' u' v' v' hv' hv').2) hrow
  intro s p p' hs _ _
  exact this s p p' hs ⟨p, rfl, trivial⟩ ⟨p', rfl, trivial⟩

/-- A new joint estimator in any units of a model that acts on every hidden state by itself for the inputs allowed. -/
theorem joint_fit_of (w : JointWrapper) {n o nu : Nat} {d b : Fin n → ℝ} {e c : Fin o → ℝ} (hd : ∀ i, d i ≠ 0)
    (he : ∀ i, e i ≠ 0) (hh : w.hiddenConv.Rescales n d b) (hout : w.outputConv.Rescales o e c)
    (hctl : ∀ v : Vec, v.n = nu → ∃ v', w.controlConv.invSamples1 v = .ok v' ∧ w.controlConv.samples1 v' = .ok v) {N : Vec → Vec → Prop}
    (hrow : ∀ v v', N v v' → RowWise (w.plain.toWrapper.pin v v') n o (fun _ => True) (fun _ => True))
    {P Q : Matrix (Fin n) (Fin n) ℝ} {R : Matrix (Fin o) (Fin o) ℝ} (hP : P.PosDef) (hQ : Q.PosDef) (hR : R.PosDef) (tune : Tuning)
    {E : Joint} (hE : Joint.fromWrapper w (.inl ⟨n, n, P⟩) none (some ⟨n, n, Q⟩) none none (some ⟨o, o, R⟩) tune = .ok E)
    (hwt : ∀ i, 0 ≤ E.filter.covWeights.get i) {V : Arr2 ℝ} (hV : w.inputs.toNumpy = .ok V) (hVn : V.flat.n = nu) :
    E.Fit n o nu N ∧ E.wrapper.controlConv.samples1 E.filter.controls.mean = .ok V.flat := by
  obtain ⟨u, T, A, g0, g, u', q, r, f, a1, a2, a3, a4, a5, a6, a7, a8, a9, hw, hf⟩ := Joint.fromWrapper_ok hE
  have hg0 : 1 ≤ n ∧ g0 = ⟨T.flat.append A.flat, ⟨n, n, P⟩⟩ ∧ (T.flat.append A.flat).n = n := by
    unfold Gaussian.make at a4
    by_cases hc : 1 ≤ (T.flat.append A.flat).n ∧ 1 ≤ n ∧ n = (T.flat.append A.flat).n ∧ n = (T.flat.append A.flat).n
    · rw [if_pos hc] at a4
      cases a4
      exact ⟨hc.2.1, rfl, hc.2.2.1.symm⟩
    · rw [if_neg hc] at a4
      cases a4
  obtain ⟨hn, rfl, hlen⟩ := hg0
  obtain ⟨μ, hμ⟩ := Vec.eta_of hlen
  rw [hμ] at a5
  obtain ⟨μ', rfl⟩ := rescale_surj (r := b) hd μ
  obtain ⟨P', hP', rfl⟩ := rescaleCov_surj hd hP
  obtain ⟨Q', hQ', rfl⟩ := rescaleCov_surj hd hQ
  obtain ⟨R', hR', rfl⟩ := rescaleCov_surj he hR
  rw [Gaussian.unconvert_ok hn (hh.invSamples1 μ') (hh.invCovariance P' _)] at a5
  cases a5
  cases (hh.invCovariance Q' _).symm.trans a7
  cases (hout.invCovariance R' _).symm.trans a8
  have hF := Ukf.holds_of_make _ _ _ _ _ _ hn a9
  obtain ⟨p1, p2, p3, p4, -⟩ := Ukf.C53_constructed _ _ _ _ _ _ _ _ _ a9
  refine ⟨⟨⟨μ', P', Q', R', hf ▸ hF, hP', hQ', hR'⟩, hwt, ?_, ?_, ?_, ?_⟩, ?_⟩
  · rw [hf, p1, hw]
    intro v v' y y' hy hy' hN
    exact joint_pin_units hd he hh hout hy hy' (hrow y y' hN)
  · rw [hw]
    exact ⟨d, b, hd, hh⟩
  · rw [hw]
    exact ⟨e, c, he, hout⟩
  · rw [hw]
    exact hctl
  · obtain ⟨v', h1, h2⟩ := hctl _ hVn
    have e0 : convertVals w.inputs none = .ok (.delta ⟨V.flat⟩) := by simp only [convertVals, hV, ok_bind, pure_eq_ok]
    cases e0.symm.trans a1
    have e1 : u' = .delta ⟨v'⟩ := by
      have : (Dist.delta ⟨V.flat⟩).convert w.controlConv true = .ok (.delta ⟨v'⟩) := by
        show (do return ⟨← w.controlConv.invSamples1 V.flat⟩ : Except Err Delta).map Dist.delta = _
        rw [h1]
        rfl
      exact Except.ok.inj (a6.symm.trans this)
    rw [hf, p4, e1, hw]
    exact h2

/-! ## C103 under linear behaviour -/

/-- C103 for currents that change linearly between the measurements: joint estimation of an equivalent circuit works from the first to the last
measurement, if no two consecutive inputs – the initial ones included – have the same time.  (At equal times the code divides by zero, which gives
infinities or NaN with a warning; the model does not represent these.)  `hnz` as in `C103_circuit_estimator_runs`. -/
theorem C103_ramped_circuit_estimator_runs {w : JointWrapper} (hc : EstimatesCircuit w .linear x measured series a)
    (he : Estimable w.names measured series a)
    (_hnz : ∀ z, z.length = w.nAsoh → ∀ p, CellWith w x z p → p.qt ≠ 0 ∧ (∀ rc ∈ p.rcs, ∀ s t, rc.r s t ≠ 0 ∧ rc.c s ≠ 0) ∧ ∀ c ∈ p.c0, ∀ s, c s ≠ 0)
    (ht : w.transients.Single) (hi : w.inputs.Single) (ho : w.nOut = 1)
    {n : Nat} (hn : w.nTransients + w.nAsoh = n) {d b : Fin n → ℝ} {e c : Fin 1 → ℝ} (hd : ∀ i, d i ≠ 0) (he' : ∀ i, e i ≠ 0)
    (hh : w.hiddenConv.Rescales n d b) (hout : w.outputConv.Rescales 1 e c)
    (hctl : ∀ v : Vec, v.n = 2 + (if measured then 1 else 0) → ∃ v', w.controlConv.invSamples1 v = .ok v' ∧ w.controlConv.samples1 v' = .ok v)
    {P Q : Matrix (Fin n) (Fin n) ℝ} {R : Matrix (Fin 1) (Fin 1) ℝ}
    (hP : P.PosDef) (hQ : Q.PosDef) (hR : R.PosDef) (tune : Tuning) (ha : 1 / 1000 ≤ tune.alpha ∧ tune.alpha ≤ 1) (hb : 0 ≤ tune.beta)
    (hk : ∀ k, tune.kappa = some k → -((2 * n + 1 : Nat) : ℝ) < k) :
    ∃ E V, Joint.fromWrapper w (.inl ⟨n, n, P⟩) none (some ⟨n, n, Q⟩) none none (some ⟨1, 1, R⟩) tune = .ok E ∧ w.inputs.toNumpy = .ok V ∧
      ((∀ i, 0 ≤ E.filter.covWeights.get i) → ∀ (svd : Mat → Vec × Mat) (hist : List (Container ℝ × Container ℝ)),
        TimesChange (2 + (if measured then 1 else 0)) ((List.ofFn V.flat.get).getD 0 0) hist →
        ∃ fin outs, E.run svd hist = .ok (fin, outs) ∧ outs.length = hist.length ∧
          ∀ m ∈ outs, (∃ μ C, m.1 = ⟨⟨n, μ⟩, ⟨n, n, C⟩⟩ ∧ C.PosDef) ∧
            ∃ μ C, m.2 = ⟨⟨1, μ⟩, ⟨1, 1, C⟩⟩ ∧ C.PosDef) := by
  subst hn
  obtain ⟨V, hV, hVn, -⟩ := circuit_inputs hc hi
  obtain ⟨E, hE⟩ := joint_built_of w hc.ready ht ho (by have := circuit_width hc; omega) hd he' hh hout hctl hP hQ hR tune ha hb hk
    ⟨V, hV, hVn⟩ (circuit_online hc he ht hi)
  refine ⟨E, V, hE, hV, fun hwt svd hist hhist => ?_⟩
  obtain ⟨h1, h2⟩ := joint_fit_of w hd he' hh hout hctl
    (N := fun v v' => v.n = 2 + (if measured then 1 else 0) ∧ v'.n = 2 + (if measured then 1 else 0) ∧ (List.ofFn v'.get).getD 0 0 ≠ (List.ofFn v.get).getD 0 0)
    (fun v v' hN => circuit_pinned hc he hN.1 hN.2.1 hN.2.2) hP hQ hR tune hE hwt hV hVn
  exact h1.run svd hist h2 hVn hhist

theorem Demo.readings_change (hist : List (ℝ × ℝ × ℝ × ℝ)) : ∀ t, (t :: hist.map (·.1)).IsChain (· ≠ ·) →
    TimesChange 3 t (hist.map fun m => (⟨[(kTime, some (.ofRow [m.1])), (kCurrent, some (.ofRow [m.2.1])), (kTemp, some (.ofRow [m.2.2.1]))]⟩,
      ⟨[(kVoltage, some (.ofRow [m.2.2.2]))]⟩)) := by
  induction hist with
  | nil => exact fun _ _ => trivial
  | cons m hist ih =>
    intro t h
    obtain ⟨h1, h2⟩ := List.isChain_cons_cons.1 h
    exact ⟨.ofRow [m.1, m.2.1, m.2.2.1], .ofRow [m.2.2.2], rfl, rfl, rfl, rfl, fun h => h1 h.symm, ih _ h2⟩

-- The estimator of the concrete circuit's open-circuit voltage and R0 under linearly changing currents, in units of 2 of all hidden states, is
-- built and runs through every history of times, currents, temperatures and voltages in which the time always changes.
example (svd : Mat → Vec × Mat) (hist : List (ℝ × ℝ × ℝ × ℝ)) (ht : (0 :: hist.map (·.1)).IsChain (· ≠ ·)) : ∃ E fin outs,
    Joint.fromWrapper (Demo.estimating .linear (.linearScalar 2 ⟨1, ![0]⟩)) (.inl ⟨6, 6, 1⟩) none (some ⟨6, 6, 1⟩) none none (some ⟨1, 1, 1⟩)
      ⟨1, some 0, 2⟩ = .ok E ∧
    E.run svd (hist.map fun m => (⟨[(kTime, some (.ofRow [m.1])), (kCurrent, some (.ofRow [m.2.1])), (kTemp, some (.ofRow [m.2.2.1]))]⟩,
      ⟨[(kVoltage, some (.ofRow [m.2.2.2]))]⟩)) = .ok (fin, outs) ∧ outs.length = hist.length := by
  obtain ⟨b, hb⟩ := scalar_rescales (k := 6) 2 two_ne_zero ⟨1, ![0]⟩ (.inr rfl)
  obtain ⟨E, V, hE, hV, hrun⟩ := C103_ramped_circuit_estimator_runs (Demo.estimating_circuit .linear (.linearScalar 2 ⟨1, ![0]⟩))
    (Demo.estimating_estimable _ _) (fun z hz p => Demo.estimating_divisors _ _ z hz p) Demo.hvState_single Demo.hvInput_single rfl (n := 6) rfl
    (fun _ => two_ne_zero) (fun _ => one_ne_zero) hb (identity_rescales 1) (fun v _ => ⟨v, rfl, rfl⟩) .one .one .one ⟨1, some 0, 2⟩
    ⟨by norm_num, by norm_num⟩ (by norm_num) (by rintro _ ⟨⟩; norm_num)
  have hw : ∀ i, 0 ≤ E.filter.covWeights.get i := by
    obtain ⟨u, T, A, g0, g, u', q, r, f, -, -, -, -, -, -, -, -, a9, -, hf⟩ := Joint.fromWrapper_ok hE
    rcases Ukf.make_eq _ _ _ _ _ _ _ _ _ with ⟨_, W, V, h, _⟩ | ⟨hc, h⟩
    rotate_left
    · cases h.symm.trans a9
    cases h.symm.trans a9
    rw [hf]
    intro i
    simp only [Ukf.covWeights, Ukf.meanWeights, Ukf.lambda, Option.getD_some]
    split <;> norm_num <;> positivity
  have hV' : V = .ofRow [0, 1, 30] := Except.ok.inj (hV.symm.trans rfl)
  subst hV'
  obtain ⟨fin, outs, h1, h2, -⟩ := hrun hw svd _ (Demo.readings_change hist 0 ht)
  exact ⟨E, fin, outs, hE, h1, by rw [h2, List.length_map]⟩

/-! ## Proofs: dual estimation -/

theorem tracks_pinned {w : CellWrapper} {n : Nat} {beh : Behavior} (hw : TracksCircuit w beh x measured series n)
    {u u' : Vec} (hu : u.n = 2 + (if measured then 1 else 0)) (hu' : u'.n = 2 + (if measured then 1 else 0))
    (ht : (List.ofFn u'.get).getD 0 0 ≠ (List.ofFn u.get).getD 0 0) :
    RowWise (w.plain.toWrapper.pin u u') w.nTransients 1
      (fun m => ∃ a, HoldsCircuit x m a ∧ a.rcs.length = n ∧ Estimable [] measured series a) (fun _ => True) := by
  rintro m - - ⟨a, hm, rfl, he⟩ - -
  refine ⟨fun y j => (step beh (In.ofVec measured (List.ofFn u.get)) (In.ofVec measured (List.ofFn u'.get))
      (St.ofVec series a.rcs.length (List.ofFn y)) (parAt a 0)).toVec.getD j.val 0,
    fun y _ => volt (In.ofVec measured (List.ofFn u'.get)) (St.ofVec series a.rcs.length (List.ofFn y)) (parAt a 0), m,
    ⟨a, hm, rfl, he⟩, fun K hK X => ?_, fun K hK X => ?_⟩
  · obtain ⟨k1, k2, -⟩ := tracks_update hw hm hK X hu hu'
    obtain ⟨H, hH⟩ := k2 (fun _ => ht) he
    obtain ⟨Z, rfl, h⟩ := k1 H hH
    show (do return (← w.plain.update m ⟨K, _, X⟩ u u', m) : Except Err (Mat × HV ℝ)) = _
    rw [hH, ok_bind, show Z = _ from funext fun i => list_of_ofFn (h i)]
    rfl
  · obtain ⟨-, -, -, k1, k2⟩ := tracks_update hw hm hK X hu' hu'
    obtain ⟨H, hH⟩ := k2 he
    obtain ⟨Z, rfl, h⟩ := k1 H hH
    have e : Z = fun i _ => volt (In.ofVec measured (List.ofFn u'.get)) (St.ofVec series a.rcs.length (List.ofFn (X i))) (parAt a 0) := by
      funext i j
      obtain rfl : j = 0 := Subsingleton.elim _ _
      exact h i
    show w.plain.predict m ⟨K, _, X⟩ u' = _
    rw [hH, e]

theorem health_pinned {w : DegradationWrapper} {beh : Behavior} (hc : TracksHealth w beh x measured a) (he : DualEstimable w.names measured series a)
    (hr : ∀ prev, Reaches w.names prev series a.rcs.length)
    {u u' : Vec} (hu : u.n = 2 + (if measured then 1 else 0)) (hu' : u'.n = 2 + (if measured then 1 else 0))
    (ht : (List.ofFn u'.get).getD 0 0 ≠ (List.ofFn u.get).getD 0 0) :
    RowWise (w.plain.toWrapper.pin u u') w.nAsoh 1 (fun m => ∃ s, HoldsState m.1 series a.rcs.length s) (fun _ => True) := by
  rintro ⟨tr, pi⟩ - - ⟨s, hs⟩ - -
  have hex : ∀ y : Fin w.nAsoh → ℝ, ∃ p, CircuitWith w.asoh w.names x (List.ofFn y) p := by
    intro y
    obtain ⟨_, b, _, _, _, _, _, h⟩ := health_parts hc le_rfl (fun _ : Fin 1 => y)
    exact ⟨_, h 0⟩
  choose par hpar using hex
  refine ⟨fun y => y, fun y _ => volt (In.ofVec measured (List.ofFn u'.get)) (step beh (In.ofVec measured (List.ofFn u.get))
      (In.ofVec measured (List.ofFn u'.get)) s (par y)) (par y), (tr, w.inputs.makeCopy (.d1 (List.ofFn u.get))), ⟨s, hs⟩,
    fun K hK X => ?_, fun K hK X => ?_⟩
  · obtain ⟨k1, -, k3, -⟩ := health_step hc hs hK X hu hu' (fun _ => ht)
    obtain ⟨⟨r, h⟩, -⟩ := k3 he
    obtain rfl := k1 r h
    show (do
      let r ← w.plain.update tr ⟨K, _, X⟩ u u'
      return (r.1, (tr, r.2)) : Except Err (Mat × Container ℝ × Container ℝ)) = _
    rw [h]
    rfl
  · obtain ⟨-, k2, k3, -⟩ := health_step hc hs hK X hu hu' (fun _ => ht)
    obtain ⟨-, P, h⟩ := k3 he
    obtain ⟨y, y1, y2, -⟩ := k2 P h
    show w.plain.predict tr (w.inputs.makeCopy (.d1 (List.ofFn u.get))) ⟨K, _, X⟩ u' = _
    rw [h, y2 (hr _)]
    congr 2
    funext i j
    obtain ⟨p, hp, h1⟩ := y1 i
    obtain rfl := circuitWith_unique hp (hpar (X i))
    exact h1

theorem cell_pin_units {w : CellWrapper} {n o : Nat} {d b : Fin n → ℝ} {e c : Fin o → ℝ} (hd : ∀ i, d i ≠ 0) (he : ∀ i, e i ≠ 0)
    (hh : w.hiddenConv.Rescales n d b) (hout : w.outputConv.Rescales o e c) {u u' v v' : Vec} (hv : w.controlConv.samples1 u = .ok v)
    (hv' : w.controlConv.samples1 u' = .ok v') {I : HV ℝ → Prop} (hrow : RowWise (w.plain.toWrapper.pin v v') n o I (fun _ => True)) :
    RowWise (w.toWrapper.pin u u') n o I (fun _ => True) := by
  have := rowWise_units (w₀ := w.plain.toWrapper.pin v v') (w := w.toWrapper.pin u u') (ctl := .identity) hd he hh hout
    (fun s X Y _ _ _ _ hY _ _ => by
      show (do return (← w.update s X u u', s) : Except Err (Mat × HV ℝ)) = (do
        let r ← (do return (← w.plain.update s Y v v', s) : Except Err (Mat × HV ℝ))
        return (← w.hiddenConv.invSamples2 r.1, r.2))
      rw [(C56_cell w s X Y hY u u' v v' hv hv').1]
      simp only [bind_assoc, pure_eq_ok, ok_bind])
    (fun s X Y _ _ hY _ => (C56_cell w s X Y hY u' u' v' v' hv' hv').2) hrow
  intro s p p' hs _ _
  exact this s p p' hs ⟨p, rfl, trivial⟩ ⟨p', rfl, trivial⟩

theorem health_pin_units {w : DegradationWrapper} {n o : Nat} {d b : Fin n → ℝ} {e c : Fin o → ℝ} (hd : ∀ i, d i ≠ 0) (he : ∀ i, e i ≠ 0)
    (hh : w.hiddenConv.Rescales n d b) (hout : w.outputConv.Rescales o e c) {u u' v v' : Vec} (hv : w.controlConv.samples1 u = .ok v)
    (hv' : w.controlConv.samples1 u' = .ok v') {I : Container ℝ × Container ℝ → Prop}
    (hrow : RowWise (w.plain.toWrapper.pin v v') n o I (fun _ => True)) :
    RowWise (w.toWrapper.pin u u') n o I (fun _ => True) := by
  have := rowWise_units (w₀ := w.plain.toWrapper.pin v v') (w := w.toWrapper.pin u u') (ctl := .identity) hd he hh hout
    (fun s X Y _ _ _ _ hY _ _ => by
      show (do
        let r ← w.update s.1 X u u'
        return (r.1, (s.1, r.2)) : Except Err (Mat × Container ℝ × Container ℝ)) = (do
        let r ← (do
          let r ← w.plain.update s.1 Y v v'
          return (r.1, (s.1, r.2)) : Except Err (Mat × Container ℝ × Container ℝ))
        return (← w.hiddenConv.invSamples2 r.1, r.2))
      rw [(C56_degradation w s.1 s.2 X Y hY u u' v v' hv hv').1]
      simp only [bind_assoc, pure_eq_ok, ok_bind])
    (fun s X Y _ _ hY _ => (C56_degradation w s.1 s.2 X Y hY u' u' v' v' hv' hv').2) hrow
  intro s p p' hs _ _
  exact this s p p' hs ⟨p, rfl, trivial⟩ ⟨p', rfl, trivial⟩

/-- What a dual estimator has to satisfy to run through inputs that follow one another as `R` says. -/
structure Dual.Fit (e : Dual) (nT nA o nu : Nat) (R : Vec → Vec → Prop) (IT : HV ℝ → Prop) (IA : Container ℝ × Container ℝ → Prop) : Prop where
  filterT : ∃ μ P Q R, e.trans.Holds nT o μ P Q R ∧ P.PosDef ∧ Q.PosDef ∧ R.PosDef
  filterA : ∃ μ P Q R, e.asoh.Holds nA o μ P Q R ∧ P.PosDef ∧ Q.PosDef ∧ R.PosDef
  weightsT : ∀ i, 0 ≤ e.trans.covWeights.get i
  weightsA : ∀ i, 0 ≤ e.asoh.covWeights.get i
  modelT : ∀ u u' v v', e.cellW.controlConv.samples1 u = .ok v → e.cellW.controlConv.samples1 u' = .ok v' → R v v' →
    RowWise (e.trans.model.pin u u') nT o IT (fun _ => True)
  modelA : ∀ u u' v v', e.asohW.controlConv.samples1 u = .ok v → e.asohW.controlConv.samples1 u' = .ok v' → R v v' →
    RowWise (e.asoh.model.pin u u') nA o IA (fun _ => True)
  hiddenT : ∃ d b : Fin nT → ℝ, (∀ i, d i ≠ 0) ∧ e.cellW.hiddenConv.Rescales nT d b
  hiddenA : ∃ d b : Fin nA → ℝ, (∀ i, d i ≠ 0) ∧ e.asohW.hiddenConv.Rescales nA d b
  outputT : ∃ d b : Fin o → ℝ, (∀ i, d i ≠ 0) ∧ e.cellW.outputConv.Rescales o d b
  outputA : ∃ d b : Fin o → ℝ, (∀ i, d i ≠ 0) ∧ e.asohW.outputConv.Rescales o d b
  controlT : ∀ v : Vec, v.n = nu → ∃ v', e.cellW.controlConv.invSamples1 v = .ok v' ∧ e.cellW.controlConv.samples1 v' = .ok v
  controlA : ∀ v : Vec, v.n = nu → ∃ v', e.asohW.controlConv.invSamples1 v = .ok v' ∧ e.asohW.controlConv.samples1 v' = .ok v
  linkT : ∀ a : Fin nA → ℝ, ∃ A, e.base.asoh.makeCopy (Vec.vals ⟨nA, a⟩) none = .ok A ∧ IT A
  linkA : ∀ (t : Fin nT → ℝ) (m : Container ℝ × Container ℝ), IA m → IA (e.base.transients.makeCopy (Vec.vals ⟨nT, t⟩), m.2)
  memory : IA e.asoh.mem

theorem Dual.Fit.step {e : Dual} {nT nA o nu : Nat} {R IT IA} (h : e.Fit nT nA o nu R IT IA) (ho : 1 ≤ o) (svd : Mat → Vec × Mat)
    {v₀ : Vec} (hT₀ : e.cellW.controlConv.samples1 e.trans.controls.mean = .ok v₀) (hA₀ : e.asohW.controlConv.samples1 e.asoh.controls.mean = .ok v₀)
    (inputs meas : Container ℝ) {V : Arr2 ℝ} (hV : inputs.toNumpy = .ok V) (hVn : V.flat.n = nu) (hR : R v₀ V.flat)
    (hmeas : ∃ v, meas.toNumpy = .ok v ∧ v.flat.n = o) :
    ∃ e' est out, e.step svd inputs meas = .ok (e', est, out) ∧ e'.Fit nT nA o nu R IT IA ∧
      e'.cellW.controlConv.samples1 e'.trans.controls.mean = .ok V.flat ∧ e'.asohW.controlConv.samples1 e'.asoh.controls.mean = .ok V.flat ∧
      (∃ m C, est = ⟨⟨nT + nA, m⟩, ⟨nT + nA, nT + nA, C⟩⟩ ∧ C.PosDef) ∧ ∃ m C, out = ⟨⟨o, m⟩, ⟨o, o, C⟩⟩ ∧ C.PosDef := by
  obtain ⟨uT, uT1, uT2⟩ := h.controlT V.flat hVn
  obtain ⟨uA, uA1, uA2⟩ := h.controlA V.flat hVn
  obtain ⟨μT, PT, QT, ST, hT, pT, qT, rT⟩ := h.filterT
  obtain ⟨μA, PA, QA, SA, hA, pA, qA, rA⟩ := h.filterA
  let e₀ : Dual := { e with
    trans := { e.trans with model := e.trans.model.pin e.trans.controls.mean uT }
    asoh := { e.asoh with model := e.asoh.model.pin e.asoh.controls.mean uA } }
  have hh : e₀.Healthy nT nA o nu (fun _ => True) (fun _ => True) IT IA := by
    refine ⟨⟨μT, PT, QT, ST, hT.with_model hT.nHidden hT.nOut, pT, qT, rT⟩, ⟨μA, PA, QA, SA, hA.with_model hA.nHidden hA.nOut, pA, qA, rA⟩,
      h.weightsT, h.weightsA, h.modelT _ _ _ _ hT₀ uT2 hR, h.modelA _ _ _ _ hA₀ uA2 hR, h.hiddenT, h.hiddenA, h.outputT, h.outputA,
      ?_, ?_, trivial, trivial, h.linkT, h.linkA, h.memory⟩
    · intro v hv
      obtain ⟨v', h1, -⟩ := h.controlT v hv
      exact ⟨v', h1, trivial⟩
    · intro v hv
      obtain ⟨v', h1, -⟩ := h.controlA v hv
      exact ⟨v', h1, trivial⟩
  obtain ⟨e', est, out, s1, s2, s3, s4⟩ := hh.step ho svd inputs meas ⟨V, hV, hVn⟩ hmeas
  obtain ⟨u, y, prevT, prevA, wT, yT, wA, yA, ⟨ft, gt, ot⟩, ⟨fa, ga, oa⟩, t, a, outA, h1, h2, h3, h4, h5, h6, h7, h8, h9, h10, h11, h12, h13, h14, rfl⟩ :=
    Dual.step_ok s1
  have hcu : convertVals inputs none = .ok (.delta ⟨V.flat⟩) := by simp only [convertVals, hV, ok_bind, pure_eq_ok]
  cases hcu.symm.trans h1
  have c1 : (Dist.delta ⟨V.flat⟩).convert e.cellW.controlConv true = .ok (.delta ⟨uT⟩) := by
    simp only [Dist.convert, Delta.convert, if_true, uT1]; rfl
  have c2 : (Dist.delta ⟨V.flat⟩).convert e.asohW.controlConv true = .ok (.delta ⟨uA⟩) := by
    simp only [Dist.convert, Delta.convert, if_true, uA1]; rfl
  cases c1.symm.trans h4
  cases c2.symm.trans h7
  have kT := Ukf.step_hidden h6
  have kA := Ukf.step_hidden h9
  have t1 : Ukf.step svd { e.trans with mem := prevA } (.delta ⟨uT⟩) yT = .ok ({ ft with model := e.trans.model }, gt, ot) := by
    rw [Ukf.step_pin]
    show (Ukf.step svd { e₀.trans with mem := prevA } (.delta ⟨uT⟩) yT).map _ = _
    rw [h6]
    rfl
  have a1 : Ukf.step svd { e.asoh with mem := (prevT, e.asoh.mem.2) } (.delta ⟨uA⟩) yA = .ok ({ fa with model := e.asoh.model }, ga, oa) := by
    rw [Ukf.step_pin]
    show (Ukf.step svd { e₀.asoh with mem := (prevT, e₀.asoh.mem.2) } (.delta ⟨uA⟩) yA).map _ = _
    rw [h9]
    rfl
  refine ⟨{ e with trans := { ft with model := e.trans.model }, asoh := { fa with model := e.asoh.model } }, est, out, ?_, ?_, ?_, ?_, s3, s4⟩
  · have h3' : e.getEstimatedState = .ok (prevT, prevA) := h3
    have h5' : y.convert e.cellW.outputConv true = .ok yT := h5
    have h8' : y.convert e.asohW.outputConv true = .ok yA := h8
    have h10' : gt.convert e.cellW.hiddenConv = .ok t := h10
    have h11' : ga.convert e.asohW.hiddenConv = .ok a := h11
    have h12' : ot.convert e.cellW.outputConv = .ok out := h12
    have h13' : oa.convert e.asohW.outputConv = .ok outA := h13
    have h14' : Gaussian.combineWith t [.dist a] = .ok est := h14
    simp only [Dual.step, hcu, ok_bind, h2, h3', c1, h5', t1, c2, h8', a1, h10', h11', h12', h13', h14', pure_eq_ok]
  · obtain ⟨μT', PT', QT', ST', hT', pT', qT', rT'⟩ := s2.filterT
    obtain ⟨μA', PA', QA', SA', hA', pA', qA', rA'⟩ := s2.filterA
    exact ⟨⟨μT', PT', QT', ST', hT'.with_model hT.nHidden hT.nOut, pT', qT', rT'⟩,
      ⟨μA', PA', QA', SA', hA'.with_model hA.nHidden hA.nOut, pA', qA', rA'⟩, s2.weightsT, s2.weightsA, h.modelT, h.modelA, h.hiddenT, h.hiddenA,
      h.outputT, h.outputA, h.controlT, h.controlA, h.linkT, h.linkA, s2.memory⟩
  · show e.cellW.controlConv.samples1 ft.controls.mean = _
    rw [show ft.controls = _ from kT.2.1]
    exact uT2
  · show e.asohW.controlConv.samples1 fa.controls.mean = _
    rw [show fa.controls = _ from kA.2.1]
    exact uA2

theorem Dual.Fit.run {nT nA nu : Nat} {IT IA} (svd : Mat → Vec × Mat) (hist : List (Container ℝ × Container ℝ)) :
    ∀ {e : Dual} {v₀ : Vec}, e.Fit nT nA 1 nu (fun v v' => v.n = nu ∧ v'.n = nu ∧ (List.ofFn v'.get).getD 0 0 ≠ (List.ofFn v.get).getD 0 0) IT IA →
    e.cellW.controlConv.samples1 e.trans.controls.mean = .ok v₀ → e.asohW.controlConv.samples1 e.asoh.controls.mean = .ok v₀ →
    v₀.n = nu → TimesChange nu ((List.ofFn v₀.get).getD 0 0) hist →
    ∃ fin outs, e.run svd hist = .ok (fin, outs) ∧ outs.length = hist.length ∧
      ∀ x ∈ outs, (∃ m C, x.1 = ⟨⟨nT + nA, m⟩, ⟨nT + nA, nT + nA, C⟩⟩ ∧ C.PosDef) ∧ ∃ m C, x.2 = ⟨⟨1, m⟩, ⟨1, 1, C⟩⟩ ∧ C.PosDef := by
  induction hist with
  | nil => exact fun _ _ _ _ _ => ⟨_, [], rfl, rfl, nofun⟩
  | cons x hist ih =>
    intro e v₀ h hT₀ hA₀ hn₀ ht
    obtain ⟨V, Y, hV, hVn, hY, hYn, hne, hrest⟩ := ht
    obtain ⟨e', est, out, h1, h2, h3, h4, h6, h7⟩ := h.step le_rfl svd hT₀ hA₀ x.1 x.2 hV hVn ⟨hn₀, hVn, hne⟩ ⟨Y, hY, hYn⟩
    obtain ⟨fin, outs, i1, i2, i3⟩ := ih h2 h3 h4 hVn hrest
    refine ⟨fin, (est, out) :: outs, ?_, by simp [i2], ?_⟩
    · obtain ⟨x1, x2⟩ := x
      simp only [Dual.run, h1, ok_bind, i1, pure_eq_ok]
    · intro y hy
      rcases List.mem_cons.1 hy with rfl | hy
      · exact ⟨h6, h7⟩
      · exact i3 y hy

/-! ## C106 under linear behaviour -/

/-- C106, where it works, for currents that change linearly between the measurements: dual estimation of an equivalent circuit works from the first to
the last measurement, if no two consecutive inputs – the initial ones included – have the same time.  (At equal times the code divides by zero, which
the model does not represent.)  The other hypotheses, and what is missing, are as in `C106_dual_circuit_runs_partial`. -/
theorem C106_ramped_dual_circuit_runs_partial {cw : CellWrapper} {aw : DegradationWrapper}
    (hT : TracksCircuit cw .linear x measured series a.rcs.length) (hA : TracksHealth aw .linear x measured a)
    (hall : aw.names = aw.asoh.updatableNames) (he : DualEstimable aw.names measured series a)
    (hr : ∀ prev, Reaches aw.names prev series a.rcs.length)
    (_hnz : ∀ z, z.length = aw.nAsoh → ∀ p, CircuitWith aw.asoh aw.names x z p →
      p.qt ≠ 0 ∧ (∀ rc ∈ p.rcs, ∀ s t, rc.r s t ≠ 0 ∧ rc.c s ≠ 0) ∧ ∀ c ∈ p.c0, ∀ s, c s ≠ 0)
    (htr : aw.transients = cw.transients) (hin : aw.inputs = cw.inputs)
    (ht : cw.transients.Single) (hi : cw.inputs.Single) (hoT : cw.nOut = 1) (hoA : aw.nOut = 1)
    {nT nA : Nat} (hnT : cw.nTransients = nT) (hnA' : aw.nAsoh = nA) (hnA : 1 ≤ nA)
    {dT bT : Fin nT → ℝ} {dA bA : Fin nA → ℝ} {eT cT eA cA : Fin 1 → ℝ}
    (hdT : ∀ i, dT i ≠ 0) (hdA : ∀ i, dA i ≠ 0) (heT : ∀ i, eT i ≠ 0) (heA : ∀ i, eA i ≠ 0)
    (hhT : cw.hiddenConv.Rescales nT dT bT) (hhA : aw.hiddenConv.Rescales nA dA bA)
    (houtT : cw.outputConv.Rescales 1 eT cT) (houtA : aw.outputConv.Rescales 1 eA cA)
    (hcT : ∀ v : Vec, v.n = 2 + (if measured then 1 else 0) → ∃ v', cw.controlConv.invSamples1 v = .ok v' ∧ cw.controlConv.samples1 v' = .ok v)
    (hcA : ∀ v : Vec, v.n = 2 + (if measured then 1 else 0) → ∃ v', aw.controlConv.invSamples1 v = .ok v' ∧ aw.controlConv.samples1 v' = .ok v)
    {PT QT : Matrix (Fin nT) (Fin nT) ℝ} {PA QA : Matrix (Fin nA) (Fin nA) ℝ}
    {R : Matrix (Fin 1) (Fin 1) ℝ} (hPT : PT.PosDef) (hQT : QT.PosDef) (hPA : PA.PosDef) (hQA : QA.PosDef) (hR : R.PosDef)
    (tT tA : Tuning) (haT : 1 / 1000 ≤ tT.alpha ∧ tT.alpha ≤ 1) (haA : 1 / 1000 ≤ tA.alpha ∧ tA.alpha ≤ 1) (hbT : 0 ≤ tT.beta)
    (hbA : 0 ≤ tA.beta) (hkT : ∀ k, tT.kappa = some k → -((2 * nT + 1 : Nat) : ℝ) < k)
    (hkA : ∀ k, tA.kappa = some k → -((2 * nA + 1 : Nat) : ℝ) < k) :
    ∃ E V, Dual.fromWrappers cw aw ⟨nT, nT, PT⟩ ⟨nA, nA, PA⟩ none (some ⟨nT, nT, QT⟩) (some ⟨nA, nA, QA⟩) (some ⟨1, 1, R⟩) tT tA = .ok E ∧
      cw.inputs.toNumpy = .ok V ∧ ((∀ i, 0 ≤ E.trans.covWeights.get i) → (∀ i, 0 ≤ E.asoh.covWeights.get i) →
        ∀ (svd : Mat → Vec × Mat) (hist : List (Container ℝ × Container ℝ)),
        TimesChange (2 + (if measured then 1 else 0)) ((List.ofFn V.flat.get).getD 0 0) hist →
        ∃ fin outs, E.run svd hist = .ok (fin, outs) ∧ outs.length = hist.length ∧
          ∀ m ∈ outs, (∃ μ C, m.1 = ⟨⟨nT + nA, μ⟩, ⟨nT + nA, nT + nA, C⟩⟩ ∧ C.PosDef) ∧ ∃ μ C, m.2 = ⟨⟨1, μ⟩, ⟨1, 1, C⟩⟩ ∧ C.PosDef) := by
  subst hnT hnA'
  obtain ⟨base, ft, fa, vT, vA, V, hE, hft, hfa, hmT, hmA, hmem, hba, hbt, huT, huA, hVT, hVA, hVn, W, hW, rfl⟩ :=
    dual_built hT hA he.1 hin ht hi hoT hoA hnA hdT hdA heT heA hhT hhA houtT houtA hcT hcA hPT hQT hPA hQA hR tT tA haT haA hbT hbA hkT hkA
  have hw := tracks_width hT
  refine ⟨_, W, hE, hW, fun hwT hwA svd hist hhist => ?_⟩
  have hH : Dual.Fit ⟨base, cw, aw, ft, fa⟩ cw.nTransients aw.nAsoh 1 (2 + (if measured then 1 else 0))
      (fun v v' => v.n = 2 + (if measured then 1 else 0) ∧ v'.n = 2 + (if measured then 1 else 0) ∧ (List.ofFn v'.get).getD 0 0 ≠ (List.ofFn v.get).getD 0 0)
      (fun m => ∃ b, HoldsCircuit x m b ∧ b.rcs.length = a.rcs.length ∧ Estimable [] measured series b)
      (fun m => ∃ s, HoldsState m.1 series a.rcs.length s) := by
    refine ⟨hft, hfa, hwT, hwA, ?_, ?_, ⟨dT, bT, hdT, hhT⟩, ⟨dA, bA, hdA, hhA⟩, ⟨eT, cT, heT, houtT⟩, ⟨eA, cA, heA, houtA⟩, hcT, hcA, ?_, ?_, ?_⟩
    · intro u u' v v' hu hu' hne
      show RowWise (ft.model.pin _ _) _ _ _ _
      rw [hmT]
      exact cell_pin_units hdT heT hhT houtT hu hu' (tracks_pinned hT hne.1 hne.2.1 hne.2.2)
    · intro u u' v v' hu hu' hne
      show RowWise (fa.model.pin _ _) _ _ _ _
      rw [hmA]
      exact health_pin_units hdA heA hhA houtA hu hu' (health_pinned hA he hr hne.1 hne.2.1 hne.2.2)
    · intro y
      obtain ⟨m, b, h1, h2, h3, h4⟩ := estimable_copy hA he.1 y
      refine ⟨m, ?_, b, h2, h3, h4⟩
      show base.asoh.makeCopy (.d1 (List.ofFn y)) none = _
      rw [hba, makeCopy_none, ← hall]
      exact h1
    · intro t m _
      refine ⟨St.ofVec series a.rcs.length (List.ofFn t), ?_⟩
      show HoldsState (base.transients.makeCopy (.d1 (List.ofFn t))) _ _ _
      rw [hbt]
      exact holds_copy hT.transients (by rw [List.length_ofFn, hw])
    · show ∃ s, HoldsState fa.mem.1 _ _ s
      rw [hmem, htr]
      obtain ⟨T, -, h2, -, h4⟩ := state_back hT.transients ht
      have := holds_copy hT.transients (t := T.flat.toList) (by rw [Vec.toList, List.length_ofFn, h2])
      rw [h4] at this
      exact ⟨_, this⟩
  exact hH.run svd hist (by show cw.controlConv.samples1 ft.controls.mean = _; rw [huT]; exact hVT)
    (by show aw.controlConv.samples1 fa.controls.mean = _; rw [huA]; exact hVA) hVn hhist

-- Dual estimation of the concrete circuit with its open-circuit voltage and R0 under linearly changing currents, in units of 2 of all hidden states,
-- is built and runs through every history of times, currents, temperatures and voltages in which the time always changes.
example (svd : Mat → Vec × Mat) (hist : List (ℝ × ℝ × ℝ × ℝ)) (ht : (0 :: hist.map (·.1)).IsChain (· ≠ ·)) : ∃ E fin outs,
    Dual.fromWrappers (Demo.tracking .linear (.linearScalar 2 ⟨1, ![0]⟩) [kOcv, kR0] [kBase])
      (Demo.trackingHealth .linear (.linearScalar 2 ⟨1, ![0]⟩)) ⟨3, 3, 1⟩ ⟨3, 3, 1⟩ none (some ⟨3, 3, 1⟩) (some ⟨3, 3, 1⟩) (some ⟨1, 1, 1⟩)
      ⟨1, some 0, 2⟩ ⟨1, some 0, 2⟩ = .ok E ∧
    E.run svd (hist.map fun m => (⟨[(kTime, some (.ofRow [m.1])), (kCurrent, some (.ofRow [m.2.1])), (kTemp, some (.ofRow [m.2.2.1]))]⟩,
      ⟨[(kVoltage, some (.ofRow [m.2.2.2]))]⟩)) = .ok (fin, outs) ∧ outs.length = hist.length := by
  obtain ⟨b, hb⟩ := scalar_rescales (k := 3) 2 two_ne_zero ⟨1, ![0]⟩ (.inr rfl)
  obtain ⟨E, V, hE, hV, hrun⟩ := C106_ramped_dual_circuit_runs_partial (Demo.tracking_circuit .linear (.linearScalar 2 ⟨1, ![0]⟩) [kOcv, kR0] [kBase])
    (Demo.trackingHealth_circuit .linear (.linearScalar 2 ⟨1, ![0]⟩)) (by show _ = [Demo.nOcv, Demo.nR0]; rfl)
    (Demo.trackingHealth_estimable _ _) (Demo.trackingHealth_reaches _ _) (fun z hz p => Demo.trackingHealth_divisors _ _ z hz p) rfl rfl
    Demo.hvState_single Demo.hvInput_single rfl rfl (nT := 3) (nA := 3) rfl rfl (by norm_num)
    (fun _ => two_ne_zero) (fun _ => two_ne_zero) (fun _ => one_ne_zero) (fun _ => one_ne_zero) hb hb (identity_rescales 1) (identity_rescales 1)
    (fun v _ => ⟨v, rfl, rfl⟩) (fun v _ => ⟨v, rfl, rfl⟩) .one .one .one .one .one ⟨1, some 0, 2⟩ ⟨1, some 0, 2⟩
    ⟨by norm_num, by norm_num⟩ ⟨by norm_num, by norm_num⟩ (by norm_num) (by norm_num) (by rintro _ ⟨⟩; norm_num) (by rintro _ ⟨⟩; norm_num)
  have hw : (∀ i, 0 ≤ E.trans.covWeights.get i) ∧ ∀ i, 0 ≤ E.asoh.covWeights.get i := by
    simp only [Dual.fromWrappers, bind_eq_ok_iff, Dual.make, pure_eq_ok] at hE
    obtain ⟨it, h1, ia, h2, c, h3, h⟩ := hE
    cases c with
    | false => cases h
    | true =>
      simp only [Bool.not_true, Bool.false_eq_true, if_false, bind_eq_ok_iff, Except.ok.injEq] at h
      obtain ⟨u, _, T, hT, t, ht, A, hA, a, ha, gt, hgt, ut, _, qt, _, rt, _, ft, hft, ga, hga, ua, _, qa, _, ra, _, fa, hfa, o, ho, rfl⟩ := h
      constructor
      · rcases Ukf.make_eq _ _ _ _ _ _ _ _ _ with ⟨_, W, V, h, _⟩ | ⟨hc, h⟩
        rotate_left
        · cases h.symm.trans hft
        cases h.symm.trans hft
        intro i
        simp only [Ukf.covWeights, Ukf.meanWeights, Ukf.lambda, Option.getD_some]
        split <;> norm_num <;> positivity
      · rcases Ukf.make_eq _ _ _ _ _ _ _ _ _ with ⟨_, W, V, h, _⟩ | ⟨hc, h⟩
        rotate_left
        · cases h.symm.trans hfa
        cases h.symm.trans hfa
        intro i
        simp only [Ukf.covWeights, Ukf.meanWeights, Ukf.lambda, Option.getD_some]
        split <;> norm_num <;> positivity
  have hV' : V = .ofRow [0, 1, 30] := Except.ok.inj (hV.symm.trans rfl)
  subst hV'
  obtain ⟨fin, outs, h1, h2, -⟩ := hrun hw.1 hw.2 svd _ (Demo.readings_change hist 0 ht)
  exact ⟨E, fin, outs, hE, h1, by rw [h2, List.length_map]⟩

end Verif
