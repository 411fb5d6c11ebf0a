import Verif.Proofs.UkfScale
import Verif.Props.Wrappers
import Verif.Proofs.RestCell
import Verif.Model.Estimators
/-!
# C56 for filters and estimators: the choice of units does not change the estimates

The specifications `rescale` and `rescaleCov` (Verif/Proofs/UkfScale.lean) and `RowWise` (Verif/Props/Ukf.lean) are used besides those below.
-/

namespace Verif
open Matrix

/-! ## Specification -/

/-- The converter multiplies every one of `k` coordinates by a factor and adds an offset. -/
structure Operator.Rescales (op : Operator) (k : Nat) (d b : Fin k → ℝ) : Prop where
  samples1 : ∀ v, op.samples1 ⟨k, v⟩ = .ok ⟨k, rescale d b v⟩
  samples2 : ∀ m (X : Matrix (Fin m) (Fin k) ℝ), op.samples2 ⟨m, k, X⟩ = .ok ⟨m, k, fun i => rescale d b (X i)⟩
  covariance : ∀ C p, op.covariance ⟨k, k, C⟩ p = .ok ⟨k, k, rescaleCov d d C⟩
  invSamples1 : ∀ v, op.invSamples1 ⟨k, rescale d b v⟩ = .ok ⟨k, v⟩
  invSamples2 : ∀ m (X : Matrix (Fin m) (Fin k) ℝ), op.invSamples2 ⟨m, k, fun i => rescale d b (X i)⟩ = .ok ⟨m, k, X⟩
  invCovariance : ∀ C p, op.invCovariance ⟨k, k, rescaleCov d d C⟩ p = .ok ⟨k, k, C⟩

/-- Two models that act on every state by itself, in the same way up to the units of states (`d`, `b`) and outputs (`e`, `c`).  `M`
relates what they remember, `U` their inputs. -/
def Conjugate {σ τ : Type} (w : Wrapper σ) (w' : Wrapper τ) {n o : Nat} (d b : Fin n → ℝ) (e c : Fin o → ℝ) (M : σ → τ → Prop)
    (U : Vec → Vec → Prop) : Prop :=
  ∀ s s' u u' v v', M s s' → U u u' → U v v' → ∃ (g g' : (Fin n → ℝ) → Fin n → ℝ) (k k' : (Fin n → ℝ) → Fin o → ℝ) (t : σ) (t' : τ),
    M t t' ∧ (∀ x, g (rescale d b x) = rescale d b (g' x)) ∧ (∀ x, k (rescale d b x) = rescale e c (k' x)) ∧
    (∀ K, 1 ≤ K → ∀ X : Matrix (Fin K) (Fin n) ℝ, w.update s ⟨K, n, X⟩ u v = .ok (⟨K, n, fun i => g (X i)⟩, t)) ∧
    (∀ K, 1 ≤ K → ∀ X : Matrix (Fin K) (Fin n) ℝ, w.predict t ⟨K, n, X⟩ v = .ok ⟨K, o, fun i => k (X i)⟩) ∧
    (∀ K, 1 ≤ K → ∀ X : Matrix (Fin K) (Fin n) ℝ, w'.update s' ⟨K, n, X⟩ u' v' = .ok (⟨K, n, fun i => g' (X i)⟩, t')) ∧
    ∀ K, 1 ≤ K → ∀ X : Matrix (Fin K) (Fin n) ℝ, w'.predict t' ⟨K, n, X⟩ v' = .ok ⟨K, o, fun i => k' (X i)⟩

/-- `h` is `g` in the units `d`, `b`. -/
def InUnits {k : Nat} (d b : Fin k → ℝ) (h g : Gaussian) : Prop :=
  ∃ μ S, g = ⟨⟨k, μ⟩, ⟨k, k, S⟩⟩ ∧ h = ⟨⟨k, rescale d b μ⟩, ⟨k, k, rescaleCov d d S⟩⟩

/-! ## The converters -/

theorem identity_rescales (k : Nat) : Operator.identity.Rescales k (fun _ => 1) (fun _ => 0) := by
  have h1 : ∀ v : Fin k → ℝ, rescale (fun _ => 1) (fun _ => 0) v = v := fun v => by funext i; simp [rescale]
  have h2 : ∀ C : Matrix (Fin k) (Fin k) ℝ, rescaleCov (fun _ => 1) (fun _ => 1) C = C := fun C => by ext i j; simp [rescaleCov]
  constructor <;> intros <;> simp only [h1, h2] <;> rfl

theorem scalar_rescales {k : Nat} (s : ℝ) (hs : s ≠ 0) (b : Vec) (hb : Fits b k) :
    ∃ b', (Operator.linearScalar s b).Rescales k (fun _ => s) b' := by
  obtain ⟨b', h1, h2⟩ := hb.row
  refine ⟨b', fun v => h1 (· + ·) fun i => s * v i, fun m X => h2 (· + ·) m fun i j => s * X i j, fun C p => ?_, fun v => ?_,
    fun m X => ?_, fun C p => ?_⟩
  · refine congrArg (fun M => Except.ok (Mat.mk k k M)) ?_
    ext i j
    simp only [rescaleCov]
    ring
  · show (do return (← Vec.bop (· - ·) ⟨k, rescale (fun _ => s) b' v⟩ b).map (· * (1 / s)) : Except Err Vec) = _
    rw [h1, ok_bind]
    refine congrArg (fun M => Except.ok (Vec.mk k M)) ?_
    funext i
    simp only [rescale]
    field_simp
    ring
  · have e := h2 (· - ·) m fun i => rescale (fun _ => s) b' (X i)
    show (Mat.bop (· - ·) ⟨m, k, fun i => rescale (fun _ => s) b' (X i)⟩ (.ofRow b) >>= fun r => pure (r.map (· * (1 / s))) :
      Except Err Mat) = _
    refine (congrArg (· >>= fun r => pure (r.map (· * (1 / s)))) e).trans ?_
    refine congrArg (fun M => Except.ok (Mat.mk m k M)) ?_
    funext i j
    simp only [rescale]
    field_simp
    ring
  · refine congrArg (fun M => Except.ok (Mat.mk k k M)) ?_
    ext i j
    simp only [rescaleCov]
    field_simp

theorem factors_rescales {pinv : Mat → Mat} (hpinv : IsPinv pinv) {k : Nat} (d : Fin k → ℝ) (hd : ∀ i, d i ≠ 0) (b : Vec)
    (hb : Fits b k) : ∃ b', (Operator.linear1d pinv ⟨k, d⟩ b).Rescales k d b' := by
  unfold Operator.linear1d
  rw [Mat.diag_of]
  obtain ⟨P, hP, hMP⟩ := hpinv k k (Matrix.diagonal d)
  have hu : IsUnit (Matrix.diagonal d).det := by
    rw [Matrix.det_diagonal]; exact (Finset.prod_ne_zero_iff.2 fun i _ => hd i).isUnit
  have hid : Matrix.diagonal d * P = 1 := by
    have := congrArg (· * (Matrix.diagonal d)⁻¹) hMP
    simpa [Matrix.mul_assoc, Matrix.mul_nonsing_inv _ hu] using this
  have hid2 : P * Matrix.diagonal d = 1 := mul_eq_one_comm.1 hid
  have hid3 : Pᵀ * Matrix.diagonal d = 1 := by
    have := congrArg Matrix.transpose hid
    rwa [Matrix.transpose_mul, Matrix.diagonal_transpose, Matrix.transpose_one] at this
  obtain ⟨b', f1, f2, fc, i1, i2, ic⟩ := linear_acts hP hb
  have er : ∀ v : Fin k → ℝ, v ᵥ* Matrix.diagonal d + b' = rescale d b' v := fun v => by
    funext i
    rw [Pi.add_apply, Matrix.vecMul_diagonal]
    simp only [rescale]
    ring
  have ei : ∀ v : Fin k → ℝ, (rescale d b' v - b') ᵥ* P = v := fun v => by
    rw [← er, add_sub_cancel_right, Matrix.vecMul_vecMul, hid, Matrix.vecMul_one]
  refine ⟨b', fun v => by rw [f1, er], fun m X => ?_, fun C p => ?_, fun v => by rw [i1, ei], fun m X => ?_, fun C p => ?_⟩
  · rw [f2]; simp only [er]
  · rw [fc, Matrix.diagonal_transpose, rescaleCov_eq]
  · refine (i2 m _).trans ?_
    simp only [ei]
  · rw [ic, rescaleCov_eq, Matrix.mul_assoc, Matrix.mul_assoc, hid, Matrix.mul_one, ← Matrix.mul_assoc, hid3, Matrix.one_mul]

/-! ## Filters -/

namespace Ukf
variable {σ τ : Type} {n o : Nat} {Q' : Matrix (Fin n) (Fin n) ℝ} {R' : Matrix (Fin o) (Fin o) ℝ} {d b : Fin n → ℝ} {e c : Fin o → ℝ}

/-- C56 for filters.  Two filters with corresponding models, beliefs and noises, given corresponding inputs and measurements: both run
through any history, and every estimate and every predicted output of the one is that of the other in other units.
(A case meeting the hypotheses: the example at the end of this file.) -/
theorem C56_filter_in_other_units {w : Wrapper σ} {w' : Wrapper τ} {M U} (hd : ∀ i, d i ≠ 0) (he : ∀ i, e i ≠ 0)
    (hconj : Conjugate w w' d b e c M U) (hQ : Q'.PosDef) (hR : R'.PosDef) (ho : 1 ≤ o) (svd : Mat → Vec × Mat)
    {hist hist' : List (Dist × Dist)} (hh : List.Forall₂ (fun x x' => U x.1.mean x'.1.mean ∧ ∃ z', x'.2.mean = ⟨o, z'⟩ ∧
      x.2.mean = ⟨o, rescale e c z'⟩) hist hist') :
    ∀ (f : Ukf σ) (f' : Ukf τ) (μ' : Fin n → ℝ) (P' : Matrix (Fin n) (Fin n) ℝ), f.model = w → f'.model = w' →
    f'.Holds n o μ' P' Q' R' → f.Holds n o (rescale d b μ') (rescaleCov d d P') (rescaleCov d d Q') (rescaleCov e e R') →
    f.alpha = f'.alpha → f.beta = f'.beta → f.kappa = f'.kappa → P'.PosDef → (∀ i, 0 ≤ f'.covWeights.get i) →
    M f.mem f'.mem → U f.controls.mean f'.controls.mean →
    ∃ fin fin' outs outs', f.run svd hist = .ok (fin, outs) ∧ f'.run svd hist' = .ok (fin', outs') ∧
      List.Forall₂ (fun x x' => InUnits d b x.1 x'.1 ∧ InUnits e c x.2 x'.2) outs outs' ∧ InUnits d b fin.hidden fin'.hidden := by
  induction hh with
  | nil =>
    intro f f' μ' P' _ _ h' h _ _ _ _ _ _ _
    exact ⟨f, f', [], [], rfl, rfl, .nil, μ', P', h'.hidden, h.hidden⟩
  | cons hx _ ih =>
    rename_i x x' hist hist' _
    intro f f' μ' P' hw hw' h' h ha hb hk hP hwt hM hU
    obtain ⟨new, meas⟩ := x
    obtain ⟨new', meas'⟩ := x'
    obtain ⟨hU2, z', hz', hz⟩ := hx
    obtain ⟨g, g', k, k', t, t', hM', hg, hk', hY, hZ, hY', hZ'⟩ := hconj _ _ _ _ _ _ hM hU hU2
    subst hw hw'
    obtain ⟨x, Px, y, S, hPx, hs', hs⟩ := step_rescale hd he h' h ha hb hk hP hQ hR ho (h'.wc0_nonneg hwt) svd new meas new' meas' z' hz' hz
      hg hk' hY hZ hY' hZ'
    obtain ⟨fin, fin', outs, outs', r, r', ho1, ho2⟩ := ih
      { f with hidden := ⟨⟨n, rescale d b x⟩, ⟨n, n, rescaleCov d d Px⟩⟩, mem := t, controls := new }
      { f' with hidden := ⟨⟨n, x⟩, ⟨n, n, Px⟩⟩, mem := t', controls := new' } x Px rfl rfl (h'.after x Px t' new') (h.after _ _ t new)
      ha hb hk hPx hwt hM' hU2
    refine ⟨fin, fin', (⟨⟨n, rescale d b x⟩, ⟨n, n, rescaleCov d d Px⟩⟩, ⟨⟨o, rescale e c y⟩, ⟨o, o, rescaleCov e e S⟩⟩) :: outs,
      (⟨⟨n, x⟩, ⟨n, n, Px⟩⟩, ⟨⟨o, y⟩, ⟨o, o, S⟩⟩) :: outs', ?_, ?_, .cons ⟨⟨x, Px, rfl, rfl⟩, ⟨y, S, rfl, rfl⟩⟩ ho1, ho2⟩
    · rw [run, hs, ok_bind]
      simp only []
      rw [r, ok_bind]
      rfl
    · rw [run, hs', ok_bind]
      simp only []
      rw [r', ok_bind]
      rfl

end Ukf

/-! ## Joint estimators -/

theorem bind_eq_ok_iff {α β : Type} {x : Except Err α} {f : α → Except Err β} {c : β} :
    (x >>= f) = .ok c ↔ ∃ a, x = .ok a ∧ f a = .ok c := by
  cases x with
  | error e => simp
  | ok a => simp

theorem forall₂_left {α β : Type} {r : α → β → Prop} {l : List α} {l' : List β} (h : List.Forall₂ r l l') : ∀ x ∈ l, ∃ y, r x y := by
  induction h with
  | nil => nofun
  | cons h _ ih =>
    intro x hx
    rcases List.mem_cons.1 hx with rfl | hx
    · exact ⟨_, h⟩
    · exact ih x hx

theorem Ukf.run_length {σ : Type} (svd : Mat → Vec × Mat) (hist : List (Dist × Dist)) : ∀ (f f' : Ukf σ) (outs),
    f.run svd hist = .ok (f', outs) → outs.length = hist.length := by
  induction hist with
  | nil => intro f f' outs h; cases h; rfl
  | cons x hist ih =>
    intro f f' outs h
    simp only [Ukf.run, bind_eq_ok_iff, pure_eq_ok, Except.ok.injEq, Prod.mk.injEq] at h
    obtain ⟨r, _, s, hr, _, rfl⟩ := h
    rw [List.length_cons, List.length_cons, ih _ _ _ hr]

/-- The wrapper and its counterpart without conversion are the same model in different units. -/
theorem joint_conjugate {w : JointWrapper} {n o nu : Nat} {d b : Fin n → ℝ} {e c : Fin o → ℝ} (hd : ∀ i, d i ≠ 0) (he : ∀ i, e i ≠ 0)
    (hh : w.hiddenConv.Rescales n d b) (hout : w.outputConv.Rescales o e c)
    (hrow : RowWise w.plain.toWrapper n o (fun _ => True) (fun u => u.n = nu)) :
    Conjugate w.plain.toWrapper w.toWrapper d b e c (fun _ _ => True) (fun u u' => u.n = nu ∧ w.controlConv.samples1 u' = .ok u) := by
  rintro s s' u u' v v' - ⟨hu, hu'⟩ ⟨hv, hv'⟩
  obtain ⟨g, k, t, -, hY, hZ⟩ := hrow s u v trivial hu hv
  have inv : ∀ {m : Nat} {a r : Fin m → ℝ}, (∀ i, a i ≠ 0) → ∀ x, rescale a r (fun i => (x i - r i) / a i) = x := by
    intro m a r ha x
    funext i
    have := ha i
    simp only [rescale]
    field_simp
    ring
  refine ⟨g, fun x i => (g (rescale d b x) i - b i) / d i, k, fun x i => (k (rescale d b x) i - c i) / e i, t, t, trivial,
    fun x => (inv hd _).symm, fun x => (inv he _).symm, hY, hZ, fun K hK X => ?_, fun K hK X => ?_⟩
  · have h1 := (C56_joint w ⟨K, n, X⟩ _ (hh.samples2 K X) u' v' u v hu' hv').1
    have h2 := hY K hK fun i => rescale d b (X i)
    have h3 : w.plain.update ⟨K, n, fun i => rescale d b (X i)⟩ u v = .ok ⟨K, n, fun i => g (rescale d b (X i))⟩ := by
      obtain ⟨Z, hZ1, hZ2⟩ := bind_eq_ok_iff.1 h2
      rw [hZ1]
      cases hZ2
      rfl
    rw [h3, ok_bind] at h1
    have h4 := hh.invSamples2 K fun i j => (g (rescale d b (X i)) j - b j) / d j
    have h5 : (fun i => rescale d b fun j => (g (rescale d b (X i)) j - b j) / d j) = fun i => g (rescale d b (X i)) :=
      funext fun i => inv hd _
    rw [h5] at h4
    rw [h4] at h1
    show (do return (← w.update ⟨K, n, X⟩ u' v', ())) = _
    rw [h1]
    rfl
  · have h1 := (C56_joint w ⟨K, n, X⟩ _ (hh.samples2 K X) v' v' v v hv' hv').2
    have h3 : w.plain.predict ⟨K, n, fun i => rescale d b (X i)⟩ v = .ok ⟨K, o, fun i => k (rescale d b (X i))⟩ :=
      hZ K hK fun i => rescale d b (X i)
    rw [h3, ok_bind] at h1
    have h4 := hout.invSamples2 K fun i j => (k (rescale d b (X i)) j - c j) / e j
    have h5 : (fun i => rescale e c fun j => (k (rescale d b (X i)) j - c j) / e j) = fun i => k (rescale d b (X i)) :=
      funext fun i => inv he _
    rw [h5] at h4
    rw [h4] at h1
    exact h1

/-- What a successful construction with given noises has done. -/
theorem Joint.fromWrapper_ok {w : JointWrapper} {P Q R : Mat} {uc : Option Mat} {tune : Tuning} {E : Joint}
    (h : Joint.fromWrapper w (.inl P) uc (some Q) none none (some R) tune = .ok E) :
    ∃ u T A g0 g u' q r f, convertVals w.inputs uc = .ok u ∧ w.transients.toNumpy = .ok T ∧
      w.asoh.getParameters (some w.names) = .ok A ∧ Gaussian.make (T.flat.append A.flat) P = .ok g0 ∧
      g0.convert w.hiddenConv true = .ok g ∧ u.convert w.controlConv true = .ok u' ∧
      w.hiddenConv.invCovariance Q (.zeros Q.m) = .ok q ∧ w.outputConv.invCovariance R (.zeros R.m) = .ok r ∧
      Ukf.make w.toWrapper () g u' (some q) (some r) tune.alpha tune.kappa tune.beta = .ok f ∧ E.wrapper = w ∧ E.filter = f := by
  simp only [Joint.fromWrapper, bind_eq_ok_iff, noiseToFilter, Joint.jointNoise, Joint.jointCov, pure_eq_ok, Joint.make, Except.ok.injEq] at h
  obtain ⟨u, h1, T, h2, A, h3, g0, h4, g, h5, u', h6, _, ⟨q, h7, rfl⟩, _, ⟨r, h8, rfl⟩, f, h9, o, h10, rfl⟩ := h
  exact ⟨u, T, A, g0, g, u', q, r, f, h1, h2, h3, h4, h5, h6, h7, h8, h9, rfl, rfl⟩

/-- Running an estimator is running its filter between conversions. -/
theorem Joint.run_of (svd : Mat → Vec × Mat) {hist : List (Container ℝ × Container ℝ)} {fh : List (Dist × Dist)} (w : JointWrapper)
    (hh : List.Forall₂ (fun x x' => ∃ u y, convertVals x.1 none = .ok u ∧ convertVals x.2 none = .ok y ∧
      u.convert w.controlConv true = .ok x'.1 ∧ y.convert w.outputConv true = .ok x'.2) hist fh) :
    ∀ (E : Joint) (fin : Ukf Unit) (outs couts : List (Gaussian × Gaussian)), E.wrapper = w → E.filter.run svd fh = .ok (fin, outs) →
    List.Forall₂ (fun o c => o.1.convert w.hiddenConv = .ok c.1 ∧ o.2.convert w.outputConv = .ok c.2) outs couts →
    E.run svd hist = .ok ({ E with filter := fin }, couts) := by
  induction hh with
  | nil =>
    intro E fin outs couts _ hr hc
    cases hr
    cases hc
    rfl
  | cons hx _ ih =>
    intro E fin outs couts hw hr hc
    rename_i x x' _ _ _
    obtain ⟨u, y, h1, h2, h3, h4⟩ := hx
    subst hw
    simp only [Ukf.run, bind_eq_ok_iff] at hr
    obtain ⟨r, hs, s, hr, he⟩ := hr
    cases he
    cases hc with
    | cons hc1 hc2 =>
    rename_i c1 couts
    have := ih { E with filter := r.1 } s.1 s.2 couts rfl hr hc2
    rw [Joint.run, Joint.step, h1, ok_bind, h2, ok_bind, h3, ok_bind, h4, ok_bind, hs, ok_bind, hc1.1, ok_bind, hc1.2, ok_bind, pure_eq_ok,
      ok_bind, this]
    rfl

theorem Vec.eta_of {v : Vec} {k : Nat} (h : v.n = k) : ∃ g : Fin k → ℝ, v = ⟨k, g⟩ := by
  obtain ⟨n, g⟩ := v
  simp only at h
  subst h
  exact ⟨g, rfl⟩

theorem rescale_surj {k : Nat} {a r : Fin k → ℝ} (ha : ∀ i, a i ≠ 0) (x : Fin k → ℝ) : ∃ x', rescale a r x' = x := by
  refine ⟨fun i => (x i - r i) / a i, ?_⟩
  funext i
  have := ha i
  simp only [rescale]
  field_simp
  ring

theorem rescaleCov_surj {k : Nat} {a : Fin k → ℝ} (ha : ∀ i, a i ≠ 0) {C : Matrix (Fin k) (Fin k) ℝ} (hC : C.PosDef) :
    ∃ C' : Matrix (Fin k) (Fin k) ℝ, C'.PosDef ∧ rescaleCov a a C' = C := by
  refine ⟨rescaleCov (fun i => (a i)⁻¹) (fun i => (a i)⁻¹) C, rescaleCov_posDef (fun i => inv_ne_zero (ha i)) hC, ?_⟩
  ext i j
  have := ha i
  have := ha j
  simp only [rescaleCov]
  field_simp

/-- C56 for estimators.  Two joint estimators of the same cell, one working in the coordinates of the model and one in units of its own for
states and outputs (and with any invertible conversion of the inputs), built from the same prior and the same noises: over every history
both return exactly the same estimates and predicted outputs. -/
theorem C56_joint_estimates_in_any_units (w : JointWrapper) {n o nu : Nat} {d b : Fin n → ℝ} {e c : Fin o → ℝ} (hd : ∀ i, d i ≠ 0)
    (he : ∀ i, e i ≠ 0) (hh : w.hiddenConv.Rescales n d b) (hout : w.outputConv.Rescales o e c)
    (hctl : ∀ v : Vec, v.n = nu → ∃ v', w.controlConv.invSamples1 v = .ok v' ∧ w.controlConv.samples1 v' = .ok v)
    (hrow : RowWise w.plain.toWrapper n o (fun _ => True) (fun u => u.n = nu)) (ho : 1 ≤ o)
    {P Q : Matrix (Fin n) (Fin n) ℝ} {R : Matrix (Fin o) (Fin o) ℝ} (hP : P.PosDef) (hQ : Q.PosDef) (hR : R.PosDef) (tune : Tuning)
    {E E₀ : Joint} (hE : Joint.fromWrapper w (.inl ⟨n, n, P⟩) none (some ⟨n, n, Q⟩) none none (some ⟨o, o, R⟩) tune = .ok E)
    (hE₀ : Joint.fromWrapper w.plain (.inl ⟨n, n, P⟩) none (some ⟨n, n, Q⟩) none none (some ⟨o, o, R⟩) tune = .ok E₀)
    (hwt : ∀ i, 0 ≤ E₀.filter.covWeights.get i) (hin : ∃ v, w.inputs.toNumpy = .ok v ∧ v.flat.n = nu) (svd : Mat → Vec × Mat)
    (hist : List (Container ℝ × Container ℝ)) (hhist : ∀ x ∈ hist, (∃ v, x.1.toNumpy = .ok v ∧ v.flat.n = nu) ∧
      ∃ y, x.2.toNumpy = .ok y ∧ y.flat.n = o) :
    ∃ fin fin₀ outs, E.run svd hist = .ok (fin, outs) ∧ E₀.run svd hist = .ok (fin₀, outs) ∧ outs.length = hist.length := by
  obtain ⟨u, T, A, g0, g, u', q, r, f, a1, a2, a3, a4, a5, a6, a7, a8, a9, hw, hf⟩ := Joint.fromWrapper_ok hE
  obtain ⟨u₀, T₀, A₀, g0₀, g₀, u₀', q₀, r₀, f₀, b1, b2, b3, b4, b5, b6, b7, b8, b9, hw₀, hf₀⟩ := Joint.fromWrapper_ok hE₀
  cases a2.symm.trans b2
  cases a3.symm.trans b3
  cases a1.symm.trans b1
  -- the prior
  have hg0 : 1 ≤ n ∧ g0 = ⟨T.flat.append A.flat, ⟨n, n, P⟩⟩ ∧ (T.flat.append A.flat).n = n := by
    unfold Gaussian.make at a4
    by_cases hc : 1 ≤ (T.flat.append A.flat).n ∧ 1 ≤ n ∧ n = (T.flat.append A.flat).n ∧ n = (T.flat.append A.flat).n
    · rw [if_pos hc] at a4
      cases a4
      exact ⟨hc.2.1, rfl, hc.2.2.1.symm⟩
    · rw [if_neg hc] at a4
      cases a4
  obtain ⟨hn, rfl, hlen⟩ := hg0
  cases a4.symm.trans b4
  obtain ⟨μ, hμ⟩ := Vec.eta_of hlen
  rw [hμ] at a5 b5
  obtain ⟨μ', rfl⟩ := rescale_surj (r := b) hd μ
  obtain ⟨P', hP', rfl⟩ := rescaleCov_surj hd hP
  obtain ⟨Q', hQ', rfl⟩ := rescaleCov_surj hd hQ
  obtain ⟨R', hR', rfl⟩ := rescaleCov_surj he hR
  rw [Gaussian.unconvert_ok hn (hh.invSamples1 μ') (hh.invCovariance P' _)] at a5
  cases a5
  have b5' : g₀ = ⟨⟨n, rescale d b μ'⟩, ⟨n, n, rescaleCov d d P'⟩⟩ := by
    have := (C45_identity_round_trip ⟨⟨n, rescale d b μ'⟩, ⟨n, n, rescaleCov d d P'⟩⟩ ⟨hn, rfl, rfl⟩ ⟨⟨n, μ'⟩⟩).2.1
    exact Except.ok.inj (b5.symm.trans this)
  subst b5'
  cases (hh.invCovariance Q' _).symm.trans a7
  cases (hout.invCovariance R' _).symm.trans a8
  have b7' : q₀ = ⟨n, n, rescaleCov d d Q'⟩ := (Except.ok.inj b7).symm
  have b8' : r₀ = ⟨o, o, rescaleCov e e R'⟩ := (Except.ok.inj b8).symm
  subst b7' b8'
  -- the filters
  have hF := Ukf.holds_of_make _ _ _ _ _ _ hn a9
  have hF₀ := Ukf.holds_of_make _ _ _ _ _ _ hn b9
  obtain ⟨p1, p2, p3, p4, p5, p6, p7, p8, p9, -⟩ := Ukf.C53_constructed _ _ _ _ _ _ _ _ _ a9
  obtain ⟨q1, q2, q3, q4, q5, q6, q7, q8, q9, -⟩ := Ukf.C53_constructed _ _ _ _ _ _ _ _ _ b9
  have hlen2 : f₀.augLen = f.augLen := by rw [p7, q7]; rfl
  have hkap : f₀.kappa = f.kappa := by
    cases hk : tune.kappa with
    | none =>
      have := p9 hk
      have := q9 hk
      rw [hlen2] at this
      linarith
    | some k => rw [p8 k hk, q8 k hk]
  have hwt' : ∀ i, 0 ≤ f.covWeights.get i := by
    have e : f₀.covWeights = f.covWeights := by
      rw [hF₀.covWeights, hF.covWeights]
      simp only [Ukf.wc0, Ukf.wm0, Ukf.w1, Ukf.scale, Ukf.lambda, hlen2, hkap, p5, q5, p6, q6]
    rw [hf₀, e] at hwt
    exact hwt
  -- the inputs
  have hconv : ∀ (x : Container ℝ) (v : Arr2 ℝ), x.toNumpy = .ok v → convertVals x none = .ok (.delta ⟨v.flat⟩) := by
    intro x v hv
    unfold convertVals
    rw [hv, ok_bind]
    rfl
  have hU : f₀.controls.mean.n = nu ∧ w.controlConv.samples1 f.controls.mean = .ok f₀.controls.mean := by
    obtain ⟨v, hv, hvn⟩ := hin
    cases (hconv _ _ hv).symm.trans a1
    obtain ⟨v', h1, h2⟩ := hctl _ hvn
    have e1 : u' = .delta ⟨v'⟩ := by
      have : (Dist.delta ⟨v.flat⟩).convert w.controlConv true = .ok (.delta ⟨v'⟩) := by
        show (do return ⟨← w.controlConv.invSamples1 v.flat⟩ : Except Err Delta).map Dist.delta = _
        rw [h1]
        rfl
      exact Except.ok.inj (a6.symm.trans this)
    have e2 : u₀' = .delta ⟨v.flat⟩ := (Except.ok.inj b6).symm
    rw [p4, q4, e1, e2]
    exact ⟨hvn, h2⟩
  -- the histories the filters see
  have key : ∃ fh fh₀ : List (Dist × Dist), List.Forall₂ (fun x x' => ∃ u y, convertVals x.1 none = .ok u ∧ convertVals x.2 none = .ok y ∧
        u.convert w.controlConv true = .ok x'.1 ∧ y.convert w.outputConv true = .ok x'.2) hist fh ∧
      List.Forall₂ (fun x x' => ∃ u y, convertVals x.1 none = .ok u ∧ convertVals x.2 none = .ok y ∧
        u.convert w.plain.controlConv true = .ok x'.1 ∧ y.convert w.plain.outputConv true = .ok x'.2) hist fh₀ ∧
      List.Forall₂ (fun x x' => (x.1.mean.n = nu ∧ w.controlConv.samples1 x'.1.mean = .ok x.1.mean) ∧ ∃ z', x'.2.mean = ⟨o, z'⟩ ∧
        x.2.mean = ⟨o, rescale e c z'⟩) fh₀ fh := by
    clear hE hE₀
    induction hist with
    | nil => exact ⟨[], [], .nil, .nil, .nil⟩
    | cons x hist ih =>
      obtain ⟨fh, fh₀, k1, k2, k3⟩ := ih fun x hx => hhist x (List.mem_cons_of_mem _ hx)
      obtain ⟨⟨v, hv, hvn⟩, y, hy, hyn⟩ := hhist x (List.mem_cons_self ..)
      obtain ⟨v', h1, h2⟩ := hctl _ hvn
      obtain ⟨z, hz⟩ := Vec.eta_of hyn
      obtain ⟨z', rfl⟩ := rescale_surj (r := c) he z
      have h3 := hout.invSamples1 z'
      refine ⟨(.delta ⟨v'⟩, .delta ⟨⟨o, z'⟩⟩) :: fh, (.delta ⟨v.flat⟩, .delta ⟨y.flat⟩) :: fh₀,
        .cons ⟨_, _, hconv _ _ hv, hconv _ _ hy, ?_, ?_⟩ k1, .cons ⟨_, _, hconv _ _ hv, hconv _ _ hy, rfl, rfl⟩ k2,
        .cons ⟨⟨hvn, h2⟩, z', rfl, hz⟩ k3⟩
      · show (do return ⟨← w.controlConv.invSamples1 v.flat⟩ : Except Err Delta).map Dist.delta = _
        rw [h1]
        rfl
      · show (do return ⟨← w.outputConv.invSamples1 y.flat⟩ : Except Err Delta).map Dist.delta = _
        rw [hz, h3]
        rfl
  obtain ⟨fh, fh₀, k1, k2, k3⟩ := key
  obtain ⟨fin₀, fin, outs₀, outs, r1, r2, r3, -⟩ := Ukf.C56_filter_in_other_units hd he (joint_conjugate hd he hh hout hrow) hQ' hR' ho svd k3
    f₀ f μ' P' q1 p1 hF hF₀ (q5.trans p5.symm) (q6.trans p6.symm) hkap hP' hwt' trivial hU
  have c1 : List.Forall₂ (fun o c => o.1.convert w.hiddenConv = .ok c.1 ∧ o.2.convert w.outputConv = .ok c.2) outs outs₀ := by
    refine r3.flip.imp ?_
    rintro x x' ⟨⟨m, S, h1, h2⟩, m', S', h3, h4⟩
    refine ⟨?_, ?_⟩
    · rw [h2, Gaussian.convert_ok hn (μ := rescale d b m) (S := rescaleCov d d S)]
      · rw [h1]; exact hh.samples1 m
      · rw [h1]; exact hh.covariance S _
    · rw [h4, Gaussian.convert_ok ho (μ := rescale e c m') (S := rescaleCov e e S')]
      · rw [h3]; exact hout.samples1 m'
      · rw [h3]; exact hout.covariance S' _
  have c2 : List.Forall₂ (fun o c => o.1.convert w.plain.hiddenConv = .ok c.1 ∧ o.2.convert w.plain.outputConv = .ok c.2) outs₀ outs₀ := by
    refine List.forall₂_same.2 fun x hx => ?_
    obtain ⟨x', ⟨m, S, h1, h2⟩, m', S', h3, h4⟩ := forall₂_left r3 x hx
    exact ⟨(C45_identity_round_trip x.1 (by rw [h2]; exact ⟨hn, rfl, rfl⟩) ⟨⟨n, m⟩⟩).1,
      (C45_identity_round_trip x.2 (by rw [h4]; exact ⟨ho, rfl, rfl⟩) ⟨⟨n, m⟩⟩).1⟩
  refine ⟨_, _, outs₀, Joint.run_of svd w k1 E fin outs outs₀ hw (by rw [hf]; exact r2) c1,
    Joint.run_of svd w.plain k2 E₀ fin₀ outs₀ outs₀ hw₀ (by rw [hf₀]; exact r1) c2, ?_⟩
  exact (Ukf.run_length svd fh₀ f₀ fin₀ outs₀ r1).trans k2.length_eq.symm

/-! ## Examples -/

namespace Demo

/-- An estimator of the concrete wrapper can be built in any units; with the default tuning its weights are not negative. -/
theorem joint_built {op : Operator} {d b : Fin 2 → ℝ} (hd : ∀ i, d i ≠ 0) (hop : op.Rescales 2 d b) (P Q : Matrix (Fin 2) (Fin 2) ℝ)
    (R : Matrix (Fin 1) (Fin 1) ℝ) : ∃ E, Joint.fromWrapper (joint op) (.inl ⟨2, 2, P⟩) none (some ⟨2, 2, Q⟩) none none (some ⟨1, 1, R⟩)
      ⟨1, none, 2⟩ = .ok E ∧ (∀ i, 0 ≤ E.filter.covWeights.get i) := by
  obtain ⟨μ, hμ⟩ := rescale_surj (r := b) hd ![3, 5]
  have hcov : ∀ C p, ∃ C', op.invCovariance ⟨2, 2, C⟩ p = .ok ⟨2, 2, C'⟩ := by
    intro C p
    refine ⟨fun i j => C i j / d i / d j, ?_⟩
    have h : C = rescaleCov d d fun i j => C i j / d i / d j := by
      ext i j
      have h1 := hd i
      have h2 := hd j
      simp only [rescaleCov]
      field_simp
    conv_lhs => rw [h]
    exact hop.invCovariance _ _
  have hmean : Vec.append (Arr2.ofRow [(3 : ℝ)]).flat (Arr2.ofRow [(5 : ℝ)]).flat = ⟨2, ![3, 5]⟩ := by
    refine Vec.ext_at rfl fun i hi => ?_
    have : i < 2 := hi
    interval_cases i <;> rfl
  obtain ⟨P', hP'⟩ := hcov P ⟨2, ![3, 5]⟩
  obtain ⟨Q', hQ'⟩ := hcov Q (.zeros 2)
  have hg : Gaussian.convert ⟨⟨2, ![3, 5]⟩, ⟨2, 2, P⟩⟩ op true = .ok ⟨⟨2, μ⟩, ⟨2, 2, P'⟩⟩ :=
    Gaussian.unconvert_ok (by decide) (by rw [← hμ]; exact hop.invSamples1 μ) hP'
  have hmake : ∃ f, Ukf.make (joint op).toWrapper () ⟨⟨2, μ⟩, ⟨2, 2, P'⟩⟩ (.delta ⟨(Arr2.ofRow [(1 : ℝ)]).flat⟩) (some ⟨2, 2, Q'⟩)
      (some ⟨1, 1, R⟩) 1 none 2 = .ok f ∧ ∀ i, 0 ≤ f.covWeights.get i := by
    rcases Ukf.make_eq (joint op).toWrapper () ⟨⟨2, μ⟩, ⟨2, 2, P'⟩⟩ (.delta ⟨(Arr2.ofRow [(1 : ℝ)]).flat⟩) (some ⟨2, 2, Q'⟩) (some ⟨1, 1, R⟩)
      1 none 2 with ⟨_, W, V, h, _⟩ | ⟨hc, _⟩
    · refine ⟨_, h, fun i => ?_⟩
      simp only [Ukf.covWeights, Ukf.meanWeights, Ukf.lambda, joint, JointWrapper.toWrapper]
      split <;> norm_num
    · refine absurd ?_ hc
      refine ⟨rfl, by norm_num, by norm_num, by norm_num, nofun, ?_, ?_⟩
      · rintro _ ⟨⟩; exact ⟨rfl, rfl⟩
      · rintro _ ⟨⟩; exact ⟨rfl, rfl⟩
  obtain ⟨f, hf, hw⟩ := hmake
  refine ⟨⟨⟨restCell, health, trans, inp, 1, [['v']], [['q']]⟩, joint op, f⟩, ?_, hw⟩
  unfold Joint.fromWrapper
  have e1 : convertVals (joint op).inputs none = .ok (.delta ⟨(Arr2.ofRow [(1 : ℝ)]).flat⟩) := rfl
  have e2 : (joint op).transients.toNumpy = .ok (.ofRow [3]) := rfl
  have e3 : (joint op).asoh.getParameters (some (joint op).names) = .ok (.ofRow [5]) := rfl
  have e4 : Dist.convert (.delta ⟨(Arr2.ofRow [(1 : ℝ)]).flat⟩) (joint op).controlConv true =
    .ok (.delta ⟨(Arr2.ofRow [(1 : ℝ)]).flat⟩) := rfl
  have e5 : (joint op).hiddenConv = op := rfl
  have e6 : noiseToFilter op (Joint.jointNoise (some ⟨2, 2, Q⟩) none none) = .ok (some ⟨2, 2, Q'⟩) := by
    simp only [Joint.jointNoise, noiseToFilter, hQ', ok_bind, pure_eq_ok]
  have e7 : noiseToFilter (joint op).outputConv (some ⟨1, 1, R⟩) = .ok (some ⟨1, 1, R⟩) := rfl
  have e8 : Gaussian.make ⟨2, ![3, 5]⟩ (Joint.jointCov (.inl ⟨2, 2, P⟩)) = .ok ⟨⟨2, ![3, 5]⟩, ⟨2, 2, P⟩⟩ :=
    Gaussian.make_of (by decide) _ _
  simp only [e1, e2, e3, e4, e5, e6, e7, hmean, e8, hg, hf, ok_bind]
  rfl

end Demo

/-- The concrete wrapper with the first state in units of 1/4 and the second in units of -3 shifted by 1, over any history of readings. -/
example (svd : Mat → Vec × Mat) (hist : List (ℝ × ℝ)) : ∃ op E E₀ fin fin₀ outs,
    Joint.fromWrapper (Demo.joint op) (.inl ⟨2, 2, 1⟩) none (some ⟨2, 2, 1⟩) none none (some ⟨1, 1, 1⟩) ⟨1, none, 2⟩ = .ok E ∧
    Joint.fromWrapper (Demo.joint .identity) (.inl ⟨2, 2, 1⟩) none (some ⟨2, 2, 1⟩) none none (some ⟨1, 1, 1⟩) ⟨1, none, 2⟩ = .ok E₀ ∧
    (∃ b, op.Rescales 2 ![1 / 4, -3] b) ∧
    E.run svd (hist.map fun x => (⟨[(['i'], some (.ofRow [x.1]))]⟩, ⟨[(['v'], some (.ofRow [x.2]))]⟩)) = .ok (fin, outs) ∧
    E₀.run svd (hist.map fun x => (⟨[(['i'], some (.ofRow [x.1]))]⟩, ⟨[(['v'], some (.ofRow [x.2]))]⟩)) = .ok (fin₀, outs) ∧
    outs.length = hist.length := by
  obtain ⟨pinv, hpinv⟩ := exists_pinv
  have hd : ∀ i, (![1 / 4, -3] : Fin 2 → ℝ) i ≠ 0 := by intro i; fin_cases i <;> norm_num
  obtain ⟨b', hb'⟩ := factors_rescales hpinv ![1 / 4, -3] hd ⟨1, ![1]⟩ (.inr rfl)
  obtain ⟨E, hE, _⟩ := Demo.joint_built hd hb' 1 1 1
  obtain ⟨E₀, hE₀, hw⟩ := Demo.joint_built (fun _ => one_ne_zero) (identity_rescales 2) 1 1 1
  obtain ⟨fin, fin₀, outs, h1, h2, h3⟩ := C56_joint_estimates_in_any_units (Demo.joint _) hd (fun _ => one_ne_zero) hb'
    (identity_rescales 1) (nu := 1) (fun v _ => ⟨v, rfl, rfl⟩) (fun s u u' a _ _ => Demo.joint_rowWise s u u' a trivial trivial) le_rfl
    .one .one .one ⟨1, none, 2⟩ hE hE₀ hw ⟨.ofRow [1], rfl, rfl⟩ svd
    (hist.map fun x => (⟨[(['i'], some (.ofRow [x.1]))]⟩, ⟨[(['v'], some (.ofRow [x.2]))]⟩)) (by
      intro x hx
      obtain ⟨y, _, rfl⟩ := List.mem_map.1 hx
      exact ⟨⟨.ofRow [y.1], rfl, rfl⟩, .ofRow [y.2], rfl, rfl⟩)
  refine ⟨_, E, E₀, fin, fin₀, outs, hE, hE₀, ⟨b', hb'⟩, h1, h2, by rw [h3, List.length_map]⟩

end Verif
