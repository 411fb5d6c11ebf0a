import Verif.Props.DualRuns
/-!
# Joint estimation over any history: C78
-/

namespace Verif
open Matrix

/-- What a joint estimator has to satisfy to run: its filter holds positive definite covariances, non-negative weights and a model that
treats every hidden state by itself and works with all controls in `U`; the converters of the hidden state and the outputs are changes of
units, that of the controls takes `nu` values to controls in `U`. -/
structure Joint.Healthy (e : Joint) (n o nu : Nat) (U : Vec → Prop) : Prop where
  filter : ∃ μ P Q R, e.filter.Holds n o μ P Q R ∧ P.PosDef ∧ Q.PosDef ∧ R.PosDef
  weights : ∀ i, 0 ≤ e.filter.covWeights.get i
  model : RowWise e.filter.model n o (fun _ => True) U
  hidden : ∃ d b : Fin n → ℝ, (∀ i, d i ≠ 0) ∧ e.wrapper.hiddenConv.Rescales n d b
  output : ∃ d b : Fin o → ℝ, (∀ i, d i ≠ 0) ∧ e.wrapper.outputConv.Rescales o d b
  control : e.wrapper.controlConv.TakesControls nu U
  controls : U e.filter.controls.mean

/-- One step of a healthy joint estimator succeeds and leaves it healthy. -/
theorem Joint.Healthy.step {e : Joint} {n o nu : Nat} {U} (h : e.Healthy n o nu U) (ho : 1 ≤ o) (svd : Mat → Vec × Mat)
    (inputs meas : Container ℝ) (hin : ∃ v, inputs.toNumpy = .ok v ∧ v.flat.n = nu) (hmeas : ∃ v, meas.toNumpy = .ok v ∧ v.flat.n = o) :
    ∃ e' est out, e.step svd inputs meas = .ok (e', est, out) ∧ e'.Healthy n o nu U ∧ e'.base = e.base ∧ e'.wrapper = e.wrapper ∧
      (∃ m C, est = ⟨⟨n, m⟩, ⟨n, n, C⟩⟩ ∧ C.PosDef) ∧ ∃ m C, out = ⟨⟨o, m⟩, ⟨o, o, C⟩⟩ ∧ C.PosDef := by
  obtain ⟨μ, P, Q, R, hH, p, q, r⟩ := h.filter
  obtain ⟨d, b, z, c⟩ := h.hidden
  obtain ⟨d', b', z', oc⟩ := h.output
  obtain ⟨u, hu, hun⟩ := hin
  obtain ⟨y, hy, hyn⟩ := hmeas
  obtain ⟨u', u1, u2⟩ := h.control u.flat hun
  obtain ⟨yv, hyv⟩ := Vec.eta_of hyn
  obtain ⟨y', rfl⟩ := rescale_surj (r := b') z' yv
  have hcu : convertVals inputs none = .ok (.delta ⟨u.flat⟩) := by simp only [convertVals, hu, ok_bind, pure_eq_ok]
  have hcy : convertVals meas none = .ok (.delta ⟨⟨o, rescale d' b' y'⟩⟩) := by simp only [convertVals, hy, ok_bind, pure_eq_ok, hyv]
  have c1 : (Dist.delta ⟨u.flat⟩).convert e.wrapper.controlConv true = .ok (.delta ⟨u'⟩) := by
    simp only [Dist.convert, Delta.convert, if_true, u1]; rfl
  have c2 : (Dist.delta ⟨⟨o, rescale d' b' y'⟩⟩).convert e.wrapper.outputConv true = .ok (.delta ⟨⟨o, y'⟩⟩) := by
    simp only [Dist.convert, Delta.convert, if_true, oc.invSamples1]; rfl
  obtain ⟨_, pr, f', μ', _, m, S, P', _, _, _, s1, s2, _, s3, s4, _, s5, s6, _, s7, s8⟩ :=
    Ukf.C51_step_partial h.model hH p q r ho h.weights svd trivial h.controls (.delta ⟨u'⟩) (.delta ⟨⟨o, y'⟩⟩) u2 y' rfl
  refine ⟨{ e with filter := f' }, ⟨⟨n, rescale d b μ'⟩, ⟨n, n, rescaleCov d d P'⟩⟩, ⟨⟨o, rescale d' b' m⟩, ⟨o, o, rescaleCov d' d' S⟩⟩, ?_, ?_, rfl, rfl,
    ⟨_, _, rfl, rescaleCov_posDef z s4⟩, ⟨_, _, rfl, rescaleCov_posDef z' s3⟩⟩
  · simp only [Joint.step, hcu, hcy, c1, c2, s2, s1, ok_bind, pure_eq_ok, c.convert hH.n_pos μ' P', oc.convert ho m S]
  · exact ⟨⟨_, _, _, _, s5, s4, q, r⟩, by show ∀ i, 0 ≤ f'.covWeights.get i; rw [s8]; exact h.weights, by simp only [s6]; exact h.model, h.hidden,
      h.output, h.control, by simp only [s7]; exact u2⟩

/-- C78.  A joint estimator whose model treats every hidden state by itself runs through every history of well-formed inputs and
measurements; every covariance it returns is positive definite. -/
theorem C78_joint_runs {e : Joint} {n o nu : Nat} {U} (h : e.Healthy n o nu U) (ho : 1 ≤ o) (svd : Mat → Vec × Mat)
    (hist : List (Container ℝ × Container ℝ)) (hhist : ∀ x ∈ hist, (∃ v, x.1.toNumpy = .ok v ∧ v.flat.n = nu) ∧
      ∃ y, x.2.toNumpy = .ok y ∧ y.flat.n = o) :
    ∃ fin outs, e.run svd hist = .ok (fin, outs) ∧ outs.length = hist.length ∧
      ∀ x ∈ outs, (∃ m C, x.1 = ⟨⟨n, m⟩, ⟨n, n, C⟩⟩ ∧ C.PosDef) ∧ ∃ m C, x.2 = ⟨⟨o, m⟩, ⟨o, o, C⟩⟩ ∧ C.PosDef := by
  induction hist generalizing e with
  | nil => exact ⟨e, [], rfl, rfl, nofun⟩
  | cons x hist ih =>
    obtain ⟨hx1, hx2⟩ := hhist x (List.mem_cons_self ..)
    obtain ⟨e', est, out, h1, h2, -, -, h3, h4⟩ := h.step ho svd x.1 x.2 hx1 hx2
    obtain ⟨fin, outs, i1, i2, i3⟩ := ih h2 fun y hy => hhist y (List.mem_cons_of_mem _ hy)
    refine ⟨fin, (est, out) :: outs, ?_, by simp [i2], ?_⟩
    · obtain ⟨x1, x2⟩ := x
      simp only [Joint.run, h1, ok_bind, i1, pure_eq_ok]
    · intro y hy
      rcases List.mem_cons.1 hy with rfl | hy
      · exact ⟨h3, h4⟩
      · exact i3 y hy

namespace Demo

/-- The estimator that `initialize_ukf_from_wrapper` builds of the concrete wrapper is healthy, in any units. -/
theorem joint_healthy {op : Operator} {d b : Fin 2 → ℝ} (hd : ∀ i, d i ≠ 0) (hop : op.Rescales 2 d b) : ∃ E,
    Joint.fromWrapper (joint op) (.inl ⟨2, 2, 1⟩) none (some ⟨2, 2, 1⟩) none none (some ⟨1, 1, 1⟩) ⟨1, none, 2⟩ = .ok E ∧
    E.wrapper = joint op ∧ ∀ nu, E.Healthy 2 1 nu fun _ => True := by
  obtain ⟨E, hE, hwt⟩ := joint_built hd hop 1 1 1
  obtain ⟨u, T, A, g0, g, u', q, r, f, a1, a2, a3, a4, a5, a6, a7, a8, a9, hw, hf⟩ := Joint.fromWrapper_ok hE
  obtain ⟨μ, hμ⟩ := rescale_surj (r := b) hd ![3, 5]
  have hT : T = .ofRow [3] := (Except.ok.inj a2).symm
  have hA : A = .ofRow [5] := (Except.ok.inj a3).symm
  subst hT hA
  have hmean : Vec.append (Arr2.ofRow [(3 : ℝ)]).flat (Arr2.ofRow [(5 : ℝ)]).flat = ⟨2, ![3, 5]⟩ := by
    refine Vec.ext_at rfl fun i hi => ?_
    have : i < 2 := hi
    interval_cases i <;> rfl
  rw [hmean, Gaussian.make_of (by decide)] at a4
  cases a4
  obtain ⟨C, hC, hC1⟩ := rescaleCov_surj hd (C := (1 : Matrix (Fin 2) (Fin 2) ℝ)) .one
  have e1 : op.invCovariance ⟨2, 2, 1⟩ ⟨2, ![3, 5]⟩ = .ok ⟨2, 2, C⟩ := by rw [← hC1]; exact hop.invCovariance C _
  have e2 : op.invCovariance ⟨2, 2, 1⟩ (.zeros 2) = .ok ⟨2, 2, C⟩ := by rw [← hC1]; exact hop.invCovariance C _
  have e3 : op.invSamples1 ⟨2, ![3, 5]⟩ = .ok ⟨2, μ⟩ := by rw [← hμ]; exact hop.invSamples1 μ
  cases (Gaussian.unconvert_ok (g := ⟨⟨2, ![3, 5]⟩, ⟨2, 2, 1⟩⟩) (by decide) e3 e1).symm.trans a5
  cases e2.symm.trans a7
  have e4 : r = ⟨1, 1, 1⟩ := (Except.ok.inj a8).symm
  subst e4
  have hF := Ukf.holds_of_make _ _ _ _ _ _ (by decide) a9
  obtain ⟨p1, -⟩ := Ukf.C53_constructed _ _ _ _ _ _ _ _ _ a9
  refine ⟨E, hE, hw, fun nu => ⟨⟨μ, C, C, 1, hf ▸ hF, hC, hC, .one⟩, hwt, ?_, ?_, ?_, ?_, trivial⟩⟩
  · rw [hf, p1]
    exact joint_rowWise' (rescale d b) hop.samples2 hop.invSamples2
  · rw [hw]
    exact ⟨d, b, hd, hop⟩
  · rw [hw]
    exact ⟨_, _, fun _ => one_ne_zero, identity_rescales 1⟩
  · rw [hw]
    exact fun v _ => ⟨v, rfl, trivial⟩

end Demo

/-- Every history of currents and voltages, with the estimator of the concrete wrapper in units of 1/4 and -3. -/
example (svd : Mat → Vec × Mat) (hist : List (ℝ × ℝ)) : ∃ op b E fin outs, op.Rescales 2 ![1 / 4, -3] b ∧
    Joint.fromWrapper (Demo.joint op) (.inl ⟨2, 2, 1⟩) none (some ⟨2, 2, 1⟩) none none (some ⟨1, 1, 1⟩) ⟨1, none, 2⟩ = .ok E ∧
    E.run svd (Demo.readings hist) = .ok (fin, outs) ∧ outs.length = hist.length := by
  obtain ⟨pinv, hpinv⟩ := exists_pinv
  have hd : ∀ i, (![1 / 4, -3] : Fin 2 → ℝ) i ≠ 0 := by intro i; fin_cases i <;> norm_num
  obtain ⟨b', hb'⟩ := factors_rescales hpinv ![1 / 4, -3] hd ⟨1, ![1]⟩ (.inr rfl)
  obtain ⟨E, h1, -, h2⟩ := Demo.joint_healthy hd hb'
  obtain ⟨fin, outs, h3, h4, -⟩ := C78_joint_runs (h2 1) le_rfl svd (Demo.readings hist) (by
    intro x hx
    obtain ⟨y, _, rfl⟩ := List.mem_map.1 hx
    exact ⟨⟨.ofRow [y.1], rfl, rfl⟩, .ofRow [y.2], rfl, rfl⟩)
  exact ⟨_, b', E, fin, outs, hb', h1, h3, by rw [h4, Demo.readings, List.length_map]⟩

end Verif
