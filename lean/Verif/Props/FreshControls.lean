import Verif.Props.FreshEstimator
/-!
# The controls of a new estimator (C87, C88)
-/

namespace Verif
open Spec

/-- The controls that inputs with values `V` stand for: certain, or with the given covariance. -/
inductive GivenControls (V : Vec) : Option Mat → Dist → Prop
  | certain : GivenControls V none (.delta ⟨V⟩)
  | uncertain (C : Mat) : GivenControls V (some C) (.gaussian ⟨V, C⟩)

theorem convertVals_given {c : Container ℝ} {ic : Option Mat} {u : Dist} (h : convertVals c ic = .ok u) : ∃ V, c.toNumpy = .ok V ∧
    GivenControls V.flat ic u ∧ ∀ C, ic = some C → ∃ g, u = .gaussian g ∧ g.Valid := by
  simp only [convertVals, bind_eq_ok_iff] at h
  obtain ⟨V, hV, h⟩ := h
  refine ⟨V, hV, ?_⟩
  cases ic with
  | none =>
    cases h
    exact ⟨.certain, nofun⟩
  | some C =>
    simp only [bind_eq_ok_iff, pure_eq_ok, Except.ok.injEq] at h
    obtain ⟨g, hg, rfl⟩ := h
    obtain ⟨hv, hm, hc⟩ := Gaussian.make_ok hg
    obtain ⟨m, c⟩ := g
    simp only at hm hc
    subst hm hc
    exact ⟨.uncertain _, fun _ _ => ⟨_, rfl, hv⟩⟩

theorem Dist.back {op : Operator} {k : Nat} {d b : Fin k → ℝ} (h : op.Rescales k d b) (hd : ∀ i, d i ≠ 0) {V : Vec} (hV : V.n = k) {ic : Option Mat}
    {u u' : Dist} (hu : GivenControls V ic u) (hval : ∀ C, ic = some C → ∃ g, u = .gaussian g ∧ g.Valid) (hc : u.convert op true = .ok u') :
    u'.convert op = .ok u := by
  cases hu with
  | certain =>
    obtain ⟨v, rfl⟩ := Vec.eta_of hV
    obtain ⟨x, hx⟩ := rescale_surj (r := b) hd v
    have e : Dist.convert (.delta ⟨⟨k, v⟩⟩) op true = .ok (.delta ⟨⟨k, x⟩⟩) := by
      have := h.invSamples1 x
      rw [hx] at this
      simp only [Dist.convert, Delta.convert, if_true, this]
      rfl
    cases e.symm.trans hc
    have := h.samples1 x
    rw [hx] at this
    simp only [Dist.convert, Delta.convert, Bool.false_eq_true, if_false, this]
    rfl
  | uncertain C =>
    obtain ⟨_, ⟨⟩, hv⟩ := hval C rfl
    simp only [Dist.convert] at hc
    cases hg : Gaussian.convert ⟨V, C⟩ op true with
    | error err => rw [hg] at hc; cases hc
    | ok g' =>
      rw [hg] at hc
      cases hc
      obtain ⟨h1, -⟩ := h.back hd hV hv hg
      simp only [Dist.convert, h1]
      rfl

/-! ## C87 -/

/-- C87 for the controls of joint estimators: the controls held at the start are, in units of the model, the values of the initial inputs, with the
given covariance if there is one. -/
theorem C87_new_joint_controls (w : JointWrapper) {k : Nat} {d b : Fin k → ℝ} (hd : ∀ i, d i ≠ 0) (hop : w.controlConv.Rescales k d b)
    (V : Arr2 ℝ) (hV : w.inputs.toNumpy = .ok V) (hk : V.flat.n = k) (cov : Mat ⊕ (Mat × Mat)) (ic n nT nA s : Option Mat) (tune : Tuning)
    (E : Joint) (hE : Joint.fromWrapper w cov ic n nT nA s tune = .ok E) :
    ∃ u, E.filter.controls.convert w.controlConv = .ok u ∧ GivenControls V.flat ic u := by
  obtain ⟨u, T, A, g0, g, u', q, r, f, h1, h2, h3, h4, h5, h6, h7, h8, h9, h10, h11, h12⟩ := Joint.fromWrapper_inv hE
  obtain ⟨V', hV', hg, hv⟩ := convertVals_given h1
  cases hV'.symm.trans hV
  obtain ⟨_, _, _, f4, _⟩ := Ukf.C53_constructed _ _ _ _ _ _ _ _ _ h9
  refine ⟨u, ?_, hg⟩
  rw [h11, f4]
  exact Dist.back hop hd hk hg hv h6

/-- C87 for the controls of dual estimators: both filters hold the initial inputs. -/
theorem C87_new_dual_controls (cw : CellWrapper) (aw : DegradationWrapper) {k : Nat} {dT bT dA bA : Fin k → ℝ} (hdT : ∀ i, dT i ≠ 0)
    (hdA : ∀ i, dA i ≠ 0) (hT : cw.controlConv.Rescales k dT bT) (hA : aw.controlConv.Rescales k dA bA)
    (V : Arr2 ℝ) (hV : cw.inputs.toNumpy = .ok V) (hk : V.flat.n = k) (covT covA : Mat) (ic qT qA s : Option Mat) (tT tA : Tuning) (E : Dual)
    (hE : Dual.fromWrappers cw aw covT covA ic qT qA s tT tA = .ok E) :
    ∃ u, E.trans.controls.convert cw.controlConv = .ok u ∧ E.asoh.controls.convert aw.controlConv = .ok u ∧ GivenControls V.flat ic u := by
  simp only [Dual.fromWrappers, bind_eq_ok_iff, Dual.make, pure_eq_ok] at hE
  obtain ⟨it, h1, ia, h2, c, h3, h⟩ := hE
  cases c with
  | false => cases h
  | true =>
    simp only [Bool.not_true, Bool.false_eq_true, if_false, bind_eq_ok_iff, Except.ok.injEq] at h
    obtain ⟨u, hu, T, _, t, _, A, _, a, _, gt, _, ut, hut, qt, _, rt, _, ft, hft, ga, _, ua, hua, qa, _, ra, _, fa, hfa, o, ho, rfl⟩ := h
    obtain ⟨V', hV', hg, hv⟩ := convertVals_given hu
    cases hV'.symm.trans hV
    obtain ⟨_, _, _, b4, _⟩ := Ukf.C53_constructed _ _ _ _ _ _ _ _ _ hft
    obtain ⟨_, _, _, c4, _⟩ := Ukf.C53_constructed _ _ _ _ _ _ _ _ _ hfa
    refine ⟨u, ?_, ?_, hg⟩
    · show ft.controls.convert _ = _
      rw [b4]
      exact Dist.back hT hdT hk hg hv hut
    · show fa.controls.convert _ = _
      rw [c4]
      exact Dist.back hA hdA hk hg hv hua

/-- The covariance of the inputs does not matter for whether a joint estimator can be built. -/
theorem Joint.fromWrapper_uncertain {w : JointWrapper} {cov : Mat ⊕ (Mat × Mat)} {n nT nA s : Option Mat} {tune : Tuning} {E : Joint}
    (h : Joint.fromWrapper w cov none n nT nA s tune = .ok E) {C : Mat} {u u' : Dist} (h1 : convertVals w.inputs (some C) = .ok u)
    (h2 : u.convert w.controlConv true = .ok u') : ∃ E', Joint.fromWrapper w cov (some C) n nT nA s tune = .ok E' := by
  obtain ⟨_, T, A, g0, g, v, q, r, f, -, a2, a3, a4, a5, -, a7, a8, a9, -, -, a12⟩ := Joint.fromWrapper_inv h
  obtain ⟨f', hf'⟩ := (Ukf.C53_constructible_iff w.toWrapper () g u' q r tune.alpha tune.kappa tune.beta).1.2
    ((Ukf.C53_constructible_iff w.toWrapper () g v q r tune.alpha tune.kappa tune.beta).1.1 ⟨f, a9⟩)
  refine ⟨⟨E.base, w, f'⟩, ?_⟩
  unfold Joint.fromWrapper Joint.make
  rw [h1, ok_bind, a2, ok_bind, a3, ok_bind, a4, ok_bind, a5, ok_bind, h2, ok_bind, a7, ok_bind, a8, ok_bind, hf', ok_bind, a12]
  rfl

-- The concrete estimator, built with an uncertain input: its filter holds the input 1 with that covariance.
example (c : ℝ) : ∃ E, Joint.fromWrapper (Demo.joint .identity) (.inl ⟨2, 2, 1⟩) (some ⟨1, 1, fun _ _ => c⟩) none none none none ⟨1, none, 2⟩ = .ok E ∧
    ∃ u, E.filter.controls.convert .identity = .ok u ∧ GivenControls (Arr2.ofRow [(1 : ℝ)]).flat (some ⟨1, 1, fun _ _ => c⟩) u := by
  obtain ⟨E₀, hE₀⟩ := Demo.joint_built_default (fun _ => one_ne_zero) (identity_rescales 2)
  have h1 : convertVals (Demo.joint .identity).inputs (some ⟨1, 1, fun _ _ => c⟩) =
      .ok (.gaussian ⟨⟨1, (Arr2.ofRow [(1 : ℝ)]).flat.get⟩, ⟨1, 1, fun _ _ => c⟩⟩) := by
    have := Gaussian.make_of (n := 1) (by decide) (Arr2.ofRow [(1 : ℝ)]).flat.get (fun _ _ => c)
    show (do return Dist.gaussian (← Gaussian.make ⟨1, (Arr2.ofRow [(1 : ℝ)]).flat.get⟩ ⟨1, 1, fun _ _ => c⟩) : Except Err Dist) = _
    rw [this]
    rfl
  obtain ⟨E, hE⟩ := Joint.fromWrapper_uncertain hE₀ h1 (u' := .gaussian ⟨⟨1, (Arr2.ofRow [(1 : ℝ)]).flat.get⟩, ⟨1, 1, fun _ _ => c⟩⟩) (by
    have := Gaussian.make_of (n := 1) (by decide) (Arr2.ofRow [(1 : ℝ)]).flat.get (fun _ _ => c)
    show (Gaussian.make ⟨1, (Arr2.ofRow [(1 : ℝ)]).flat.get⟩ ⟨1, 1, fun _ _ => c⟩).map Dist.gaussian = _
    rw [this]
    rfl)
  exact ⟨E, hE, C87_new_joint_controls _ (fun _ => one_ne_zero) (identity_rescales 1) _ rfl rfl _ _ _ _ _ _ _ E hE⟩

-- Both filters of the concrete dual estimator hold the input 1.
example : ∃ E, Dual.fromWrappers Demo.sumCellW Demo.sumAsohW ⟨1, 1, 1⟩ ⟨1, 1, 1⟩ none (some ⟨1, 1, 1⟩) (some ⟨1, 1, 1⟩) (some ⟨1, 1, 1⟩)
    ⟨1, none, 2⟩ ⟨1, none, 2⟩ = .ok E ∧ ∃ u, E.trans.controls.convert .identity = .ok u ∧ E.asoh.controls.convert .identity = .ok u ∧
      GivenControls (Arr2.ofRow [(1 : ℝ)]).flat none u := by
  obtain ⟨E, hE, -⟩ := Demo.sum_healthy
  exact ⟨E, hE, C87_new_dual_controls Demo.sumCellW Demo.sumAsohW (fun _ => one_ne_zero) (fun _ => one_ne_zero) (identity_rescales 1)
    (identity_rescales 1) _ rfl rfl _ _ _ _ _ _ _ _ E hE⟩

end Verif
