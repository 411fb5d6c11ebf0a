import Verif.Proofs.UkfStep
/-!
# Properties of the unscented Kalman filter (C48–C54)

The specifications `wmean`, `wcov` (Verif/Props/Distributions.lean), `Ukf.Holds`, `Ukf.augMean` and `Ukf.augCov`
(Verif/Proofs/Ukf.lean) are used besides those below.
-/

namespace Verif
open Matrix

/-! ## Specification -/

/-- A Gaussian belief about `k` numbers. -/
structure Belief (k : Nat) where
  mean : Fin k → ℝ
  cov : Matrix (Fin k) (Fin k) ℝ

/-- The belief as the code represents it. -/
def Belief.gaussian {k : Nat} (b : Belief k) : Gaussian := ⟨⟨k, b.mean⟩, ⟨k, k, b.cov⟩⟩

/-- The Kalman filter's prediction of the state `x' = F x + c + w`. -/
noncomputable def kalmanPredict {n : Nat} (F : Matrix (Fin n) (Fin n) ℝ) (c : Fin n → ℝ) (Q : Matrix (Fin n) (Fin n) ℝ) (b : Belief n) :
    Belief n := ⟨F *ᵥ b.mean + c, F * b.cov * Fᵀ + Q⟩

/-- The Kalman filter's prediction of the output `y = H x + d + v`. -/
noncomputable def kalmanOutput {n o : Nat} (H : Matrix (Fin o) (Fin n) ℝ) (d : Fin o → ℝ) (R : Matrix (Fin o) (Fin o) ℝ) (b : Belief n) :
    Belief o := ⟨H *ᵥ b.mean + d, H * b.cov * Hᵀ + R⟩

/-- The Kalman gain. -/
noncomputable def kalmanGain {n o : Nat} (H : Matrix (Fin o) (Fin n) ℝ) (R : Matrix (Fin o) (Fin o) ℝ) (b : Belief n) :
    Matrix (Fin n) (Fin o) ℝ := b.cov * Hᵀ * (H * b.cov * Hᵀ + R)⁻¹

/-- The Kalman filter's belief after seeing the output `z`. -/
noncomputable def kalmanCorrect {n o : Nat} (H : Matrix (Fin o) (Fin n) ℝ) (d : Fin o → ℝ) (R : Matrix (Fin o) (Fin o) ℝ) (b : Belief n)
    (z : Fin o → ℝ) : Belief n :=
  ⟨b.mean + kalmanGain H R b *ᵥ (z - (H *ᵥ b.mean + d)), (1 - kalmanGain H R b * H) * b.cov⟩

/-- A model affine in the state: the matrices may depend on the inputs and on what the model remembers. -/
structure AffineModel {σ : Type} (w : Wrapper σ) (n o : Nat) where
  F : σ → Vec → Vec → Matrix (Fin n) (Fin n) ℝ
  c : σ → Vec → Vec → Fin n → ℝ
  next : σ → Vec → Vec → σ
  H : σ → Vec → Matrix (Fin o) (Fin n) ℝ
  d : σ → Vec → Fin o → ℝ
  update : ∀ s u u' K, 1 ≤ K → ∀ X : Matrix (Fin K) (Fin n) ℝ,
    w.update s ⟨K, n, X⟩ u u' = .ok (⟨K, n, fun i => F s u u' *ᵥ X i + c s u u'⟩, next s u u')
  predict : ∀ s u K, 1 ≤ K → ∀ X : Matrix (Fin K) (Fin n) ℝ, w.predict s ⟨K, n, X⟩ u = .ok ⟨K, o, fun i => H s u *ᵥ X i + d s u⟩

/-- The Kalman filter over a history of inputs and measurements: posterior and predicted output of every step. -/
noncomputable def kalmanRun {σ : Type} {w : Wrapper σ} {n o : Nat} (A : AffineModel w n o) (Q : Matrix (Fin n) (Fin n) ℝ)
    (R : Matrix (Fin o) (Fin o) ℝ) : σ → Vec → Belief n → List (Vec × (Fin o → ℝ)) → List (Belief n × Belief o)
  | _, _, _, [] => []
  | s, u, b, (u', z) :: rest =>
    let s' := A.next s u u'
    let pred := kalmanPredict (A.F s u u') (A.c s u u') Q b
    let post := kalmanCorrect (A.H s' u') (A.d s' u') R pred z
    (post, kalmanOutput (A.H s' u') (A.d s' u') R pred) :: kalmanRun A Q R s' u' post rest

/-- A history of distributions has these means: inputs and measurements. -/
def HasMeans {o : Nat} (hist : List (Dist × Dist)) (zs : List (Vec × (Fin o → ℝ))) : Prop :=
  List.Forall₂ (fun h z => h.1.mean = z.1 ∧ h.2.mean = ⟨o, z.2⟩) hist zs

/-- A model that acts on every state by itself, in an arbitrary way that may depend on the inputs and on what it remembers.  `I` is
what can be said of the latter, `U` of the inputs. -/
def RowWise {σ : Type} (w : Wrapper σ) (n o : Nat) (I : σ → Prop) (U : Vec → Prop) : Prop :=
  ∀ s u u', I s → U u → U u' → ∃ (g : (Fin n → ℝ) → Fin n → ℝ) (k : (Fin n → ℝ) → Fin o → ℝ) (s' : σ), I s' ∧
    (∀ K, 1 ≤ K → ∀ X : Matrix (Fin K) (Fin n) ℝ, w.update s ⟨K, n, X⟩ u u' = .ok (⟨K, n, fun i => g (X i)⟩, s')) ∧
    ∀ K, 1 ≤ K → ∀ X : Matrix (Fin K) (Fin n) ℝ, w.predict s' ⟨K, n, X⟩ u' = .ok ⟨K, o, fun i => k (X i)⟩

/-- A singular value decomposition `A = U diag(s) Vh` as `np.linalg.svd` gives it (`s` and `Vh`). -/
structure IsSvd {n : Nat} (A : Matrix (Fin n) (Fin n) ℝ) (s : Fin n → ℝ) (Vh : Matrix (Fin n) (Fin n) ℝ) : Prop where
  nonneg : ∀ i, 0 ≤ s i
  antitone : Antitone s
  orthogonal : Vh * Vhᵀ = 1
  factor : ∃ U : Matrix (Fin n) (Fin n) ℝ, Uᵀ * U = 1 ∧ A = U * Matrix.diagonal s * Vh

/-- Two models answer alike for every change of inputs along `u, us…` and for every one of the inputs `us`. -/
def SameAlong {σ : Type} (w w' : Wrapper σ) : Vec → List Vec → Prop
  | _, [] => True
  | u, u' :: us => (∀ s X, w.update s X u u' = w'.update s X u u') ∧ (∀ s X, w.predict s X u' = w'.predict s X u') ∧
    SameAlong w w' u' us

namespace Ukf
variable {σ : Type} {f : Ukf σ} {n o : Nat} {μ : Fin n → ℝ} {P Q : Matrix (Fin n) (Fin n) ℝ} {R : Matrix (Fin o) (Fin o) ℝ}

/-! ## Examples used below -/

/-- A linear model of two hidden numbers, the first of which is seen. -/
noncomputable def demoModel : Wrapper Unit where
  nHidden := 2
  nOut := 1
  update _ X _ _ := do return (← X.mul ⟨2, 2, !![1, 0; 1, 1]⟩, ())
  predict _ X _ := X.mul ⟨2, 1, !![1; 0]⟩

noncomputable def demoAffine : AffineModel demoModel 2 1 where
  F _ _ _ := !![1, 1; 0, 1]
  c _ _ _ := 0
  next _ _ _ := ()
  H _ _ := !![1, 0]
  d _ _ := 0
  update s u u' K _ X := by
    simp only [demoModel, Mat.mul_of, ok_bind, pure_eq_ok, add_zero]
    refine congrArg (fun M => Except.ok (Mat.mk K 2 M, ())) ?_
    ext i j
    rw [Matrix.mul_apply]
    simp only [Matrix.mulVec, dotProduct]
    exact Finset.sum_congr rfl fun k _ => by fin_cases j <;> fin_cases k <;> simp
  predict s u K _ X := by
    simp only [demoModel, Mat.mul_of, add_zero]
    refine congrArg (fun M => Except.ok (Mat.mk K 1 M)) ?_
    ext i j
    rw [Matrix.mul_apply]
    simp only [Matrix.mulVec, dotProduct]
    exact Finset.sum_congr rfl fun k _ => by fin_cases j; fin_cases k <;> simp

/-- A filter of that model. -/
noncomputable def demo : Ukf Unit :=
  ⟨demoModel, (), ⟨⟨2, ![1, 2]⟩, ⟨2, 2, 1⟩⟩, .delta ⟨⟨1, ![3]⟩⟩, 5, 1 / 2, 2, -1, ⟨2, 2, 1⟩, ⟨1, 1, 1⟩⟩

theorem demo_holds : demo.Holds 2 1 ![1, 2] 1 1 1 where
  nHidden := rfl
  nOut := rfl
  n_pos := by norm_num
  hidden := rfl
  covW := rfl
  covV := rfl
  augLen := rfl
  alpha_pos := by norm_num [demo]
  alpha_le := by norm_num [demo]
  beta_nonneg := by norm_num [demo]
  spread := by norm_num [demo]

/-! ## C48: sigma points -/

theorem bop_row_ok {l k : Nat} (hl : 2 ≤ l) (A : Matrix (Fin l) (Fin l) ℝ) (b : Fin k → ℝ) {r}
    (h : Mat.bop (· + ·) ⟨l, l, A⟩ (.ofRow ⟨k, b⟩) = .ok r) : ∃ c : Fin l → ℝ, r = ⟨l, l, fun i j => A i j + c j⟩ ∧
      ∀ B : Matrix (Fin l) (Fin l) ℝ, Mat.bop (· + ·) ⟨l, l, B⟩ (.ofRow ⟨k, b⟩) = .ok ⟨l, l, fun i j => B i j + c j⟩ := by
  by_cases hk : k = l
  · subst hk
    rw [Mat.bop_row] at h
    exact ⟨b, (Except.ok.inj h).symm, fun B => Mat.bop_row _ _ _⟩
  by_cases h1 : k = 1
  · subst h1
    rw [Mat.bop_row_one] at h
    exact ⟨fun _ => b 0, (Except.ok.inj h).symm, fun B => Mat.bop_row_one _ _ _⟩
  · exfalso
    have : Nd.bdim l k = none := by
      unfold Nd.bdim
      rw [if_neg (fun h => hk h.symm), if_neg (by omega), if_neg h1]
    simp [Mat.bop, Mat.ofRow, this] at h

/-- What the repair of a square matrix can give: something is added to its rows. -/
theorem enforcePsd_ok {l : Nat} (hl : 2 ≤ l) (svd : Mat → Vec × Mat) (A : Matrix (Fin l) (Fin l) ℝ) {r}
    (h : enforcePsd svd ⟨l, l, A⟩ = .ok r) : ∃ c : Fin l → ℝ, r = ⟨l, l, fun i j => (A i j + A j i + c j + c j) / 4⟩ := by
  unfold enforcePsd at h
  rcases h1 : Mat.vecMul (svd ⟨l, l, A⟩).1 (svd ⟨l, l, A⟩).2 with e | v
  · simp [h1] at h
  rcases h2 : Mat.mulVec (svd ⟨l, l, A⟩).2.transpose v with e | w
  · simp [h1, h2] at h
  simp only [h1, h2, ok_bind, Mat.transpose_of, Mat.bop_of] at h
  rcases h3 : Mat.bop (· + ·) ⟨l, l, fun i j => A i j + Aᵀ i j⟩ (Mat.ofRow w) with e | b
  · rw [h3] at h
    simp at h
  obtain ⟨c, hc, hall⟩ := bop_row_ok (k := w.n) hl (fun i j => A i j + Aᵀ i j) w.get h3
  have h4 := hall (fun i j => A i j + Aᵀ i j + c j)
  simp only [h3, hc, ok_bind] at h
  change Mat.bop (· + ·) ⟨l, l, fun i j => A i j + Aᵀ i j + c j⟩ (Mat.ofRow w) = _ at h4
  rw [h4, ok_bind] at h
  exact ⟨c, (Except.ok.inj h).symm⟩

theorem augCov_isSymm (hP : P.IsSymm) (hQ : Q.IsSymm) (hR : R.IsSymm) : (augCov P Q R).IsSymm := by
  have key : ∀ {a b : Nat} {X : Matrix (Fin a) (Fin a) ℝ} {Y : Matrix (Fin b) (Fin b) ℝ}, X.IsSymm → Y.IsSymm → (blk2 X Y).IsSymm := by
    intro a b X Y hX hY
    ext i j
    rw [Matrix.transpose_apply]
    refine Fin.addCases (fun i => ?_) (fun i => ?_) i <;> refine Fin.addCases (fun j => ?_) (fun j => ?_) j <;>
      simp only [blk2_ll, blk2_lr, blk2_rl, blk2_rr]
    · exact hX.apply _ _
    · exact hY.apply _ _
  exact key hP (key hQ hR)

theorem augCov_posDef_iff : (augCov P Q R).PosDef ↔ P.PosDef ∧ Q.PosDef ∧ R.PosDef := by
  refine ⟨fun h => ?_, fun ⟨a, b, c⟩ => augCov_posDef a b c⟩
  have key : ∀ {a b : Nat} {X : Matrix (Fin a) (Fin a) ℝ} {Y : Matrix (Fin b) (Fin b) ℝ}, (blk2 X Y).PosDef → X.PosDef ∧ Y.PosDef := by
    intro a b X Y h
    constructor
    · have := h.submatrix (e := Fin.castAdd b) (Fin.castAdd_injective a b)
      have e : (blk2 X Y).submatrix (Fin.castAdd b) (Fin.castAdd b) = X := by ext i j; simp
      rwa [e] at this
    · have := h.submatrix (e := Fin.natAdd a) (Fin.natAdd_injective b a)
      have e : (blk2 X Y).submatrix (Fin.natAdd a) (Fin.natAdd a) = Y := by ext i j; simp
      rwa [e] at this
  exact ⟨(key h).1, key (key h).2⟩

theorem Holds.blockDiag (h : f.Holds n o μ P Q R) :
    Mat.blockDiag [f.hidden.cov, f.covW, f.covV] = ⟨n + (n + o), n + (n + o), augCov P Q R⟩ := by
  rw [h.hidden, h.covW, h.covV, Mat.blockDiag_cons, Mat.blockDiag_cons, Mat.blockDiag, Mat.block2_of, Mat.block2_of]
  rfl

theorem Holds.buildSigma_error (h : f.Holds n o μ P Q R) (svd : Mat → Vec × Mat) {e}
    (he : ensurePsd svd ⟨_, _, augCov P Q R⟩ = .error e) : f.buildSigma svd = .error e := by
  unfold buildSigma
  rw [h.blockDiag, he]
  rfl

theorem Holds.buildSigma_error' (h : f.Holds n o μ P Q R) (svd : Mat → Vec × Mat) {A e}
    (he : ensurePsd svd ⟨_, _, augCov P Q R⟩ = .ok A) (hc : cholesky A = .error e) : f.buildSigma svd = .error e := by
  unfold buildSigma
  rw [h.blockDiag, he]
  simp only [ok_bind]
  rw [hc]
  rfl

/-- Exactness of the sigma points: they weigh out to the mean and the covariance of the state with its noises. -/
def ExactPoints (f : Ukf σ) (svd : Mat → Vec × Mat) (n o : Nat) (μ : Fin n → ℝ) (P Q : Matrix (Fin n) (Fin n) ℝ)
    (R : Matrix (Fin o) (Fin o) ℝ) : Prop :=
  ∃ (K : Nat) (X : Matrix (Fin K) (Fin (n + (n + o))) ℝ) (wm wc : Fin K → ℝ),
    f.buildSigma svd = .ok ⟨K, n + (n + o), X⟩ ∧ f.meanWeights = ⟨K, wm⟩ ∧ f.covWeights = ⟨K, wc⟩ ∧
    wmean wm X = augMean o μ ∧ wcov wc X (augMean o μ) = augCov P Q R

/-- C48 for positive definite covariances.  Missing: singular ones, for which it fails (`C48_exact_iff`). -/
theorem C48_points_exact_partial (h : f.Holds n o μ P Q R) (svd : Mat → Vec × Mat) (hP : P.PosDef) (hQ : Q.PosDef) (hR : R.PosDef) :
    f.ExactPoints svd n o μ P Q R := by
  have hA := augCov_posDef hP hQ hR
  obtain ⟨L, hL⟩ := exists_isCholesky hA
  refine ⟨_, _, _, _, h.buildSigma_of svd (ensurePsd_posDef svd hA) hL, h.meanWeights, h.covWeights,
    wmean_sigmaPts _ _ _ _ _ h.weights_sum, ?_⟩
  rw [wcov_sigmaPts _ _ _ _ _ h.gamma_sq, Matrix.transpose_transpose, hL.mul_transpose (posDef_isSymm hA)]

example : demo.ExactPoints (fun _ => (⟨0, Fin.elim0⟩, ⟨0, 0, 0⟩)) 2 1 ![1, 2] 1 1 1 :=
  C48_points_exact_partial demo_holds _ .one .one .one

/-- The points are exact only if all three covariances are positive definite, whatever the singular value decomposition gives.  (`P` is
not zero; the number of outputs is not zero.) -/
theorem C48_exact_iff (h : f.Holds n o μ P Q R) (svd : Mat → Vec × Mat) (ho : 1 ≤ o) (hP : P.IsSymm) (hQ : Q.IsSymm) (hR : R.IsSymm)
    (hP0 : P ≠ 0) : f.ExactPoints svd n o μ P Q R ↔ P.PosDef ∧ Q.PosDef ∧ R.PosDef := by
  refine ⟨fun ⟨K, X, wm, wc, hb, _, hc, _, hcov⟩ => ?_, fun ⟨a, b, c⟩ => C48_points_exact_partial h svd a b c⟩
  have hsymm : (augCov P Q R).IsSymm := augCov_isSymm hP hQ hR
  by_contra hnot
  have hnone : ¬ ∃ L, IsCholesky (augCov P Q R) L := fun ⟨L, hL⟩ => hnot (augCov_posDef_iff.1 (hL.posDef hsymm))
  have hen : ensurePsd svd ⟨_, _, augCov P Q R⟩ = enforcePsd svd ⟨_, _, augCov P Q R⟩ := by
    unfold ensurePsd
    rw [if_pos (allCloseT_of_isSymm hsymm), cholesky_none hnone]
  -- the points were built from a repaired matrix
  rcases hr : enforcePsd svd ⟨_, _, augCov P Q R⟩ with e | r
  · rw [h.buildSigma_error svd (hen.trans hr)] at hb
    cases hb
  have hl : 2 ≤ n + (n + o) := by have := h.n_pos; omega
  obtain ⟨c, rfl⟩ := enforcePsd_ok hl svd (augCov P Q R) hr
  by_cases hL : ∃ L, IsCholesky (fun i j => (augCov P Q R i j + augCov P Q R j i + c j + c j) / 4) L
  swap
  · rw [h.buildSigma_error' svd (hen.trans hr) (cholesky_none hL)] at hb
    cases hb
  obtain ⟨L, hL⟩ := hL
  rw [h.buildSigma_of svd (hen.trans hr) hL] at hb
  rw [h.covWeights] at hc
  obtain ⟨rfl, hX⟩ := Mat.mk.inj (Except.ok.inj hb)
  obtain ⟨_, hX⟩ := hX
  obtain ⟨_, hw⟩ := Vec.mk.inj hc
  have hX' := eq_of_heq hX
  have hw' := eq_of_heq hw
  rw [← hX', ← hw', wcov_sigmaPts _ _ _ _ _ h.gamma_sq, Matrix.transpose_transpose] at hcov
  have key : ∀ i j, j ≤ i → c j = augCov P Q R i j := fun i j hij => by
    have := hL.2.2 i j hij
    rw [hcov] at this
    have h2 := hsymm.apply i j
    simp only at this
    linarith
  apply hP0
  have hlow : ∀ p q, q ≤ p → P p q = 0 := fun p q hpq => by
    have h1 := key (Fin.castAdd (n + o) p) (Fin.castAdd (n + o) q) (by
      rw [Fin.le_def] at hpq ⊢; exact hpq)
    have h2 := key (Fin.natAdd n (Fin.natAdd n ⟨0, ho⟩)) (Fin.castAdd (n + o) q) (by
      rw [Fin.le_def, Fin.val_natAdd, Fin.val_castAdd]; omega)
    rw [h1] at h2
    exact (blk2_ll P (blk2 Q R) p q).symm.trans (h2.trans (blk2_rl P (blk2 Q R) _ _))
  ext p q
  rcases le_total q p with hpq | hpq
  · exact hlow p q hpq
  · rw [← hP.apply]
    exact hlow q p hpq

/-- The same filter without process noise (which the constructor accepts): its points are never exact. -/
example (svd : Mat → Vec × Mat) : ¬ ({ demo with covW := ⟨2, 2, 0⟩ } : Ukf Unit).ExactPoints svd 2 1 ![1, 2] 1 0 1 := by
  have hh : Ukf.Holds { demo with covW := ⟨2, 2, 0⟩ } 2 1 ![1, 2] 1 0 1 :=
    { demo_holds with covW := rfl, hidden := rfl }
  rw [C48_exact_iff hh svd le_rfl (by simp [Matrix.IsSymm]) (by simp [Matrix.IsSymm]) (by simp [Matrix.IsSymm]) one_ne_zero]
  rintro ⟨_, h0, _⟩
  have := h0.diag_pos (i := 0)
  simp at this

/-! ## C53: construction -/

theorem makeNoise_eq (model : Wrapper σ) (mem : σ) (hidden : Gaussian) (controls : Dist) (covW covV : Option Mat) (alpha beta kappa : ℝ) :
    ((∀ W, covW = some W → W.m = model.nHidden ∧ W.n = model.nHidden) ∧ (∀ V, covV = some V → V.m = model.nOut ∧ V.n = model.nOut) ∧
      ∃ W V, makeNoise model mem hidden controls covW covV alpha beta kappa =
        .ok ⟨model, mem, hidden, controls, 2 * model.nHidden + model.nOut, alpha, beta, kappa, W, V⟩ ∧
        (∀ W', covW = some W' → W = W') ∧ ∀ V', covV = some V' → V = V') ∨
    (¬ ((∀ W, covW = some W → W.m = model.nHidden ∧ W.n = model.nHidden) ∧ (∀ V, covV = some V → V.m = model.nOut ∧ V.n = model.nOut)) ∧
      makeNoise model mem hidden controls covW covV alpha beta kappa = .error .assertionError) := by
  have hW : (∀ W, covW = some W → W.m = model.nHidden ∧ W.n = model.nHidden) ↔
      ((covW.getD ((Mat.eye model.nHidden).map (1 / 10 ^ 8 * ·))).m = model.nHidden ∧
        (covW.getD ((Mat.eye model.nHidden).map (1 / 10 ^ 8 * ·))).n = model.nHidden) := by
    cases covW with
    | none => simp [Mat.eye, Mat.map, Mat.diag]
    | some W => simp
  have hV : (∀ W, covV = some W → W.m = model.nOut ∧ W.n = model.nOut) ↔
      ((covV.getD ((Mat.eye model.nOut).map (1 / 10 ^ 8 * ·))).m = model.nOut ∧
        (covV.getD ((Mat.eye model.nOut).map (1 / 10 ^ 8 * ·))).n = model.nOut) := by
    cases covV with
    | none => simp [Mat.eye, Mat.map, Mat.diag]
    | some W => simp
  have gW : ∀ W', covW = some W' → covW.getD ((Mat.eye model.nHidden).map (1 / 10 ^ 8 * ·)) = W' := by rintro W' rfl; rfl
  have gV : ∀ W', covV = some W' → covV.getD ((Mat.eye model.nOut).map (1 / 10 ^ 8 * ·)) = W' := by rintro W' rfl; rfl
  rw [hW, hV]
  unfold makeNoise
  generalize covW.getD ((Mat.eye model.nHidden).map (1 / 10 ^ 8 * ·)) = W at *
  generalize covV.getD ((Mat.eye model.nOut).map (1 / 10 ^ 8 * ·)) = V at *
  simp only []
  by_cases h1 : W.m = W.n
  · by_cases h2 : V.m = V.n
    · by_cases h3 : W.m = model.nHidden
      · by_cases h4 : V.m = model.nOut
        · left
          rw [if_neg (not_not.2 h1), if_neg (not_not.2 h2), if_neg (not_not.2 h3), if_neg (not_not.2 h4)]
          exact ⟨⟨h3, h1 ▸ h3⟩, ⟨h4, h2 ▸ h4⟩, W, V, rfl, gW, gV⟩
        · right
          rw [if_neg (not_not.2 h1), if_neg (not_not.2 h2), if_neg (not_not.2 h3), if_pos h4]
          exact ⟨fun h => h4 h.2.1, rfl⟩
      · right
        rw [if_neg (not_not.2 h1), if_neg (not_not.2 h2), if_pos h3]
        exact ⟨fun h => h3 h.1.1, rfl⟩
    · right
      rw [if_neg (not_not.2 h1), if_pos h2]
      exact ⟨fun h => h2 (h.2.1.trans h.2.2.symm), rfl⟩
  · right
    rw [if_pos h1]
    exact ⟨fun h => h1 (h.1.1.trans h.1.2.symm), rfl⟩

/-- The constructor: all conditions and the filter, or an error. -/
theorem make_eq (model : Wrapper σ) (mem : σ) (hidden : Gaussian) (controls : Dist) (covW covV : Option Mat) (alpha : ℝ)
    (kappa : Option ℝ) (beta : ℝ) :
    let cond := hidden.mean.n = model.nHidden ∧ 1 / 1000 ≤ alpha ∧ alpha ≤ 1 ∧ 0 ≤ beta ∧
      (∀ k, kappa = some k → -((2 * model.nHidden + model.nOut : Nat) : ℝ) < k) ∧
      (∀ W, covW = some W → W.m = model.nHidden ∧ W.n = model.nHidden) ∧
      ∀ V, covV = some V → V.m = model.nOut ∧ V.n = model.nOut
    (cond ∧ ∃ W V, make model mem hidden controls covW covV alpha kappa beta = .ok
        ⟨model, mem, hidden, controls, 2 * model.nHidden + model.nOut, alpha, beta,
          kappa.getD (3 - (2 * model.nHidden + model.nOut : Nat)), W, V⟩ ∧
        (∀ W', covW = some W' → W = W') ∧ ∀ V', covV = some V' → V = V') ∨
    (¬ cond ∧ make model mem hidden controls covW covV alpha kappa beta = .error .assertionError) := by
  intro cond
  unfold make
  by_cases h1 : model.nHidden = hidden.dim
  swap
  · right
    rw [if_pos h1]
    exact ⟨fun h => h1 h.1.symm, rfl⟩
  rw [if_neg (not_not.2 h1)]
  by_cases h2 : 1 / 1000 ≤ alpha
  swap
  · right
    rw [if_pos h2]
    exact ⟨fun h => h2 h.2.1, rfl⟩
  rw [if_neg (not_not.2 h2)]
  by_cases h3 : alpha ≤ 1
  swap
  · right
    rw [if_pos h3]
    exact ⟨fun h => h3 h.2.2.1, rfl⟩
  rw [if_neg (not_not.2 h3)]
  by_cases h4 : 0 ≤ beta
  swap
  · right
    rw [if_pos h4]
    exact ⟨fun h => h4 h.2.2.2.1, rfl⟩
  rw [if_neg (not_not.2 h4)]
  cases kappa with
  | none =>
    rcases makeNoise_eq model mem hidden controls covW covV alpha beta (3 - (2 * model.nHidden + model.nOut : Nat)) with h | h
    · left
      exact ⟨⟨h1.symm, h2, h3, h4, nofun, h.1, h.2.1⟩, h.2.2⟩
    · right
      exact ⟨fun hc => h.1 hc.2.2.2.2.2, h.2⟩
  | some k =>
    simp only []
    by_cases h5 : 0 < (2 * model.nHidden + model.nOut : Nat) + k
    · rw [if_neg (not_not.2 h5)]
      rcases makeNoise_eq model mem hidden controls covW covV alpha beta k with h | h
      · left
        refine ⟨⟨h1.symm, h2, h3, h4, fun k' hk => ?_, h.1, h.2.1⟩, h.2.2⟩
        cases hk
        linarith
      · right
        exact ⟨fun hc => h.1 hc.2.2.2.2.2, h.2⟩
    · right
      rw [if_pos h5]
      refine ⟨fun hc => h5 ?_, rfl⟩
      have := hc.2.2.2.2.1 k rfl
      linarith

/-- The filter can be constructed exactly when the tuning is legal and all dimensions match; otherwise the constructor raises
AssertionError. -/
theorem C53_constructible_iff (model : Wrapper σ) (mem : σ) (hidden : Gaussian) (controls : Dist) (covW covV : Option Mat) (alpha : ℝ)
    (kappa : Option ℝ) (beta : ℝ) :
    ((∃ f, make model mem hidden controls covW covV alpha kappa beta = .ok f) ↔
      hidden.mean.n = model.nHidden ∧ 1 / 1000 ≤ alpha ∧ alpha ≤ 1 ∧ 0 ≤ beta ∧
      (∀ k, kappa = some k → -((2 * model.nHidden + model.nOut : Nat) : ℝ) < k) ∧
      (∀ W, covW = some W → W.m = model.nHidden ∧ W.n = model.nHidden) ∧
      ∀ V, covV = some V → V.m = model.nOut ∧ V.n = model.nOut) ∧
    ∀ e, make model mem hidden controls covW covV alpha kappa beta = .error e → e = .assertionError := by
  rcases make_eq model mem hidden controls covW covV alpha kappa beta with ⟨hc, W, V, h, _⟩ | ⟨hc, h⟩
  · exact ⟨⟨fun _ => hc, fun _ => ⟨_, h⟩⟩, fun e he => by rw [h] at he; cases he⟩
  · refine ⟨⟨fun ⟨f, hf⟩ => ?_, fun h' => absurd h' hc⟩, fun e he => ?_⟩
    · rw [h] at hf; cases hf
    · rw [h] at he; cases he; rfl

/-- Defaults: both noises given by the code, `alpha = 1`, `kappa = 0`, `beta = 2`. -/
example : ∃ f, make demoModel () ⟨⟨2, ![1, 2]⟩, ⟨2, 2, 1⟩⟩ (.delta ⟨⟨1, ![3]⟩⟩) none none 1 (some 0) 2 = .ok f := by
  rw [(C53_constructible_iff _ _ _ _ _ _ _ _ _).1]
  refine ⟨rfl, by norm_num, le_rfl, by norm_num, fun k hk => ?_, nofun, nofun⟩
  cases hk
  norm_num [demoModel]

/-- A constructed filter has the given parts, a positive spread of its points, and weights that are not divided by zero. -/
theorem C53_constructed (model : Wrapper σ) (mem : σ) (hidden : Gaussian) (controls : Dist) (covW covV : Option Mat) (alpha : ℝ)
    (kappa : Option ℝ) (beta : ℝ) (hmake : make model mem hidden controls covW covV alpha kappa beta = .ok f) :
    f.model = model ∧ f.mem = mem ∧ f.hidden = hidden ∧ f.controls = controls ∧ f.alpha = alpha ∧ f.beta = beta ∧
    f.augLen = 2 * model.nHidden + model.nOut ∧ (∀ k, kappa = some k → f.kappa = k) ∧
    (kappa = none → f.augLen + f.kappa = 3) ∧ (∀ W, covW = some W → f.covW = W) ∧ (∀ V, covV = some V → f.covV = V) ∧
    0 < f.gamma ∧ 0 < f.alpha * f.alpha * (f.augLen + f.kappa) := by
  rcases make_eq model mem hidden controls covW covV alpha kappa beta with ⟨hc, W, V, h, hW, hV⟩ | ⟨hc, h⟩
  swap
  · rw [h] at hmake; cases hmake
  rw [h] at hmake
  cases hmake
  have hspread : 0 < ((2 * model.nHidden + model.nOut : Nat) : ℝ) + kappa.getD (3 - (2 * model.nHidden + model.nOut : Nat)) := by
    cases kappa with
    | none => simp
    | some k => have := hc.2.2.2.2.1 k rfl; simp only [Option.getD_some]; linarith
  have ha : 0 < alpha := by have := hc.2.1; linarith
  refine ⟨rfl, rfl, rfl, rfl, rfl, rfl, rfl, ?_, ?_, hW, hV, mul_pos ha (Real.sqrt_pos.2 hspread), mul_pos (mul_pos ha ha) hspread⟩
  · rintro k rfl; rfl
  · rintro rfl; simp

/-! ## C49: weights -/

theorem C49_weights (model : Wrapper σ) (mem : σ) (hidden : Gaussian) (controls : Dist) (covW covV : Option Mat) (alpha : ℝ)
    (kappa : Option ℝ) (beta : ℝ) (hmake : make model mem hidden controls covW covV alpha kappa beta = .ok f) :
    ∃ wm wc : Fin (2 * (2 * model.nHidden + model.nOut) + 1) → ℝ, f.meanWeights = ⟨_, wm⟩ ∧ f.covWeights = ⟨_, wc⟩ ∧
      ∑ i, wm i = 1 ∧ wc 0 = wm 0 + (1 - alpha ^ 2 + beta) ∧ (∀ i, i ≠ 0 → wc i = wm i) ∧
      (∀ i, i ≠ 0 → 0 < wm i) ∧ (alpha = 1 → kappa = some 0 → beta = 2 → ∀ i, 0 ≤ wm i ∧ 0 ≤ wc i) := by
  obtain ⟨_, _, _, _, ha, hb, hl, hk, _, _, _, _, hs⟩ := C53_constructed model mem hidden controls covW covV alpha kappa beta hmake
  subst ha hb
  rw [← hl]
  have hne : ∀ i : Fin (2 * f.augLen + 1), i ≠ 0 → i.1 ≠ 0 := fun i hi h0 => hi (Fin.ext h0)
  refine ⟨f.meanWeights.get, f.covWeights.get, rfl, rfl, ?_, ?_, fun i hi => ?_, fun i hi => ?_, ?_⟩
  · refine (Fin.sum_univ_succ fun i : Fin (2 * f.augLen + 1) =>
      (if i.1 = 0 then f.lambda else 1 / 2) / (f.alpha * f.alpha * (f.augLen + f.kappa))).trans ?_
    simp only [Fin.val_succ, Fin.val_zero, if_true, Nat.add_eq_zero_iff, one_ne_zero, and_false, if_false,
      Finset.sum_const, Finset.card_univ, Fintype.card_fin, nsmul_eq_mul]
    rw [lambda]
    push_cast
    have hs' := hs.ne'
    generalize f.alpha * f.alpha * (f.augLen + f.kappa) = D at hs'
    field_simp
    ring
  · simp only [covWeights]
    rw [if_pos (by rfl), pow_two]
  · simp only [covWeights]
    rw [if_neg (hne i hi)]
  · simp only [meanWeights]
    rw [if_neg (hne i hi)]
    exact div_pos (by norm_num) hs
  · intro h1 h2 h3 i
    have hk := hk 0 h2
    have hl0 : f.lambda = 0 := by rw [lambda, h1, hk]; ring
    have : 0 ≤ f.meanWeights.get i := by
      simp only [meanWeights]
      split
      · rw [hl0, zero_div]
      · exact div_nonneg (by norm_num) hs.le
    refine ⟨this, ?_⟩
    simp only [covWeights]
    split
    · rw [h1, h3]; linarith
    · exact this

example : ∃ f : Ukf Unit, ∃ wm : Fin 11 → ℝ, f.meanWeights = ⟨11, wm⟩ ∧ ∑ i, wm i = 1 ∧ wm 1 = 1 / 10 := by
  obtain ⟨f, hf⟩ : ∃ f, make demoModel () ⟨⟨2, ![1, 2]⟩, ⟨2, 2, 1⟩⟩ (.delta ⟨⟨1, ![3]⟩⟩) none none 1 (some 0) 2 = .ok f := by
    rw [(C53_constructible_iff _ _ _ _ _ _ _ _ _).1]
    refine ⟨rfl, by norm_num, le_rfl, by norm_num, fun k hk => ?_, nofun, nofun⟩
    cases hk
    norm_num [demoModel]
  obtain ⟨_, _, _, _, ha, hb, hl, hk, _⟩ := C53_constructed _ _ _ _ _ _ _ _ _ hf
  obtain ⟨wm, wc, hm, _, hs, _⟩ := C49_weights _ _ _ _ _ _ _ _ _ hf
  refine ⟨f, wm, hm, hs, ?_⟩
  have h1 : f.meanWeights.at' 1 = wm 1 := by rw [hm]; exact Vec.at_fin wm 1
  have hlt : 1 < f.meanWeights.n := by rw [hm]; change 1 < 11; norm_num
  refine h1.symm.trans ?_
  rw [Vec.at_lt hlt]
  simp only [meanWeights, one_ne_zero, if_false, ha, hl, hk 0 rfl]
  norm_num [demoModel]

/-! ## C50: affine models -/

/-- A constructed filter satisfies `Holds` (so that this says what constructed filters are). -/
theorem holds_of_make (model : Wrapper σ) (mem : σ) (controls : Dist) (alpha : ℝ) (kappa : Option ℝ) (beta : ℝ) (hn : 1 ≤ n)
    (hmake : make model mem ⟨⟨n, μ⟩, ⟨n, n, P⟩⟩ controls (some ⟨n, n, Q⟩) (some ⟨o, o, R⟩) alpha kappa beta = .ok f) :
    f.Holds n o μ P Q R := by
  rcases make_eq model mem ⟨⟨n, μ⟩, ⟨n, n, P⟩⟩ controls (some ⟨n, n, Q⟩) (some ⟨o, o, R⟩) alpha kappa beta with ⟨hc, _⟩ | ⟨_, h⟩
  swap
  · rw [h] at hmake; cases hmake
  obtain ⟨h1, h2, h3, h4, h5, h6, h7, h8, h9, h10, h11, h12, h13⟩ := C53_constructed _ _ _ _ _ _ _ _ _ hmake
  have hnn : n = model.nHidden := hc.1
  have hno : o = model.nOut := (hc.2.2.2.2.2.2 _ rfl).1
  have ha : 0 < f.alpha := by rw [h5]; have := hc.2.1; linarith
  refine ⟨by rw [h1, hnn], by rw [h1, hno], hn, h3, h10 _ rfl, h11 _ rfl, by rw [h7, ← hnn, ← hno], h5 ▸ hc.2.1, h5 ▸ hc.2.2.1,
    h6 ▸ hc.2.2.2.1, ?_⟩
  exact (mul_pos_iff_of_pos_left (mul_pos ha ha)).1 h13

/-- The prediction of the Kalman filter, and its gain. -/
theorem C50_prediction_and_gain (A : AffineModel f.model n o) (h : f.Holds n o μ P Q R) (hP : P.PosDef) (hQ : Q.PosDef) (hR : R.PosDef)
    (ho : 1 ≤ o) (svd : Mat → Vec × Mat) (new : Dist) :
    let u := f.controls.mean
    let s := A.next f.mem u new.mean
    let pred := kalmanPredict (A.F f.mem u new.mean) (A.c f.mem u new.mean) Q ⟨μ, P⟩
    let out := kalmanOutput (A.H s new.mean) (A.d s new.mean) R pred
    ∃ sigma p, f.buildSigma svd = .ok sigma ∧ f.estimationUpdate sigma new = .ok p ∧ p.x = pred.gaussian ∧ p.y = out.gaussian ∧
      gainMatrix p.covXY p.y.cov = .ok ⟨n, o, kalmanGain (A.H s new.mean) R pred⟩ := by
  intro u s pred out
  obtain ⟨sigma, h1, h2⟩ := h.est_affine _ _ _ _ hP hQ hR ho svd new _ (A.update f.mem u new.mean) (A.predict s new.mean)
  refine ⟨sigma, _, h1, h2, rfl, rfl, ?_⟩
  exact gainMatrix_of _ _ (posDef_blocks (affine_joint _ _ hP hQ hR)).2.det_pos.ne'

/-- One step: the posterior and the predicted output of the Kalman filter. -/
theorem C50_step (A : AffineModel f.model n o) (h : f.Holds n o μ P Q R) (hP : P.PosDef) (hQ : Q.PosDef) (hR : R.PosDef) (ho : 1 ≤ o)
    (svd : Mat → Vec × Mat) (new meas : Dist) (z : Fin o → ℝ) (hz : meas.mean = ⟨o, z⟩) :
    let u := f.controls.mean
    let s := A.next f.mem u new.mean
    let pred := kalmanPredict (A.F f.mem u new.mean) (A.c f.mem u new.mean) Q ⟨μ, P⟩
    let out := kalmanOutput (A.H s new.mean) (A.d s new.mean) R pred
    let post := kalmanCorrect (A.H s new.mean) (A.d s new.mean) R pred z
    f.step svd new meas = .ok ({ f with hidden := post.gaussian, mem := s, controls := new }, (post.gaussian, out.gaussian)) ∧
      post.cov.PosDef := by
  intro u s pred out post
  exact h.step_affine _ _ _ _ hP hQ hR ho svd new meas z hz _ (A.update f.mem u new.mean) (A.predict s new.mean)

theorem history_affine {w : Wrapper σ} (A : AffineModel w n o) (hQ : Q.PosDef) (hR : R.PosDef) (ho : 1 ≤ o) (svd : Mat → Vec × Mat)
    (hist : List (Dist × Dist)) : ∀ (zs : List (Vec × (Fin o → ℝ))) (f : Ukf σ) (μ : Fin n → ℝ) (P : Matrix (Fin n) (Fin n) ℝ),
    f.model = w → f.Holds n o μ P Q R → P.PosDef → HasMeans hist zs →
    ∃ f', f.run svd hist =
      .ok (f', (kalmanRun A Q R f.mem f.controls.mean ⟨μ, P⟩ zs).map fun r => (r.1.gaussian, r.2.gaussian)) := by
  induction hist with
  | nil =>
    intro zs f μ P hw h hP hm
    cases hm
    exact ⟨f, rfl⟩
  | cons x hist ih =>
    intro zs f μ P hw h hP hm
    obtain ⟨new, meas⟩ := x
    cases hm with
    | cons hx hrest =>
      rename_i z zs
      obtain ⟨u', z⟩ := z
      obtain ⟨hu, hz⟩ := hx
      simp only at hu hz
      subst hu
      subst hw
      obtain ⟨hs, hpd⟩ := C50_step A h hP hQ hR ho svd new meas z hz
      let post := kalmanCorrect (A.H (A.next f.mem f.controls.mean new.mean) new.mean)
        (A.d (A.next f.mem f.controls.mean new.mean) new.mean) R
        (kalmanPredict (A.F f.mem f.controls.mean new.mean) (A.c f.mem f.controls.mean new.mean) Q ⟨μ, P⟩) z
      have hf := h.after post.mean post.cov (A.next f.mem f.controls.mean new.mean) new
      obtain ⟨f', hf'⟩ := ih zs _ _ _ (by rfl) hf hpd hrest
      refine ⟨f', ?_⟩
      rw [run, hs, ok_bind]
      simp only []
      rw [Belief.gaussian, hf', ok_bind]
      rfl

/-- Any history: the filter gives exactly what the Kalman filter gives. -/
theorem C50_history (A : AffineModel f.model n o) (h : f.Holds n o μ P Q R) (hP : P.PosDef) (hQ : Q.PosDef) (hR : R.PosDef) (ho : 1 ≤ o)
    (svd : Mat → Vec × Mat) (hist : List (Dist × Dist)) (zs : List (Vec × (Fin o → ℝ))) (hm : HasMeans hist zs) :
    ∃ f', f.run svd hist =
      .ok (f', (kalmanRun A Q R f.mem f.controls.mean ⟨μ, P⟩ zs).map fun r => (r.1.gaussian, r.2.gaussian)) :=
  history_affine A hQ hR ho svd hist zs f μ P rfl h hP hm

/-- Three measurements given to the example. -/
example (svd : Mat → Vec × Mat) (a b c : ℝ) : ∃ f', demo.run svd
      [(.delta ⟨⟨1, ![3]⟩⟩, .delta ⟨⟨1, ![a]⟩⟩), (.delta ⟨⟨1, ![3]⟩⟩, .delta ⟨⟨1, ![b]⟩⟩), (.delta ⟨⟨1, ![3]⟩⟩, .delta ⟨⟨1, ![c]⟩⟩)] =
    .ok (f', (kalmanRun demoAffine 1 1 () ⟨1, ![3]⟩ ⟨![1, 2], 1⟩ [(⟨1, ![3]⟩, ![a]), (⟨1, ![3]⟩, ![b]), (⟨1, ![3]⟩, ![c])]).map
      fun r => (r.1.gaussian, r.2.gaussian)) :=
  C50_history (f := demo) demoAffine demo_holds .one .one .one le_rfl svd _ _
    (.cons ⟨rfl, rfl⟩ (.cons ⟨rfl, rfl⟩ (.cons ⟨rfl, rfl⟩ .nil)))

/-! ## C51: covariances -/

theorem Holds.wc0_nonneg (h : f.Holds n o μ P Q R) (hw : ∀ i, 0 ≤ f.covWeights.get i) : 0 ≤ f.wc0 := by
  have e := h.covWeights
  have hlt : 0 < f.covWeights.n := by rw [e]; change 0 < 1 + (n + (n + o)) + (n + (n + o)); omega
  have h0 := hw ⟨0, hlt⟩
  rw [← Vec.at_lt hlt, e, Vec.at_lt (v := ⟨_, _⟩) (by change 0 < 1 + (n + (n + o)) + (n + (n + o)); omega)] at h0
  simpa [wts] using h0

theorem shrinks {S : Matrix (Fin o) (Fin o) ℝ} (hS : S.PosSemidef) (Px : Matrix (Fin n) (Fin n) ℝ) (K : Matrix (Fin n) (Fin o) ℝ) :
    (Px - (Px - K * (S * Kᵀ))).PosSemidef := by
  rw [sub_sub_cancel, ← Matrix.mul_assoc, ← Matrix.conjTranspose_eq_transpose_of_trivial]
  exact hS.mul_mul_conjTranspose_same K

/-- Whatever the points and the model, predicted covariances are symmetric and positive semi-definite, and when that of the outputs is
positive definite the covariance that the correction starts from (`P - K S Kᵀ`, before any repair) is positive semi-definite and not larger
than the predicted one. -/
theorem C51_predictions_valid (h : f.Holds n o μ P Q R) (ho : 1 ≤ o) (hw : ∀ i, 0 ≤ f.covWeights.get i)
    (X : Matrix (Fin (1 + (n + (n + o)) + (n + (n + o)))) (Fin (n + (n + o))) ℝ) (new : Dist) {Y Z m}
    (hY : f.model.update f.mem ⟨_, _, xPart X⟩ f.controls.mean new.mean = .ok (⟨_, n, Y⟩, m))
    (hZ : f.model.predict m ⟨_, _, noisy Y (wPart X)⟩ new.mean = .ok ⟨1 + (n + (n + o)) + (n + (n + o)), o, Z⟩) :
    ∃ (x : Fin n → ℝ) (Px : Matrix (Fin n) (Fin n) ℝ) (y : Fin o → ℝ) (S : Matrix (Fin o) (Fin o) ℝ) (C : Matrix (Fin n) (Fin o) ℝ),
      f.estimationUpdate ⟨_, _, X⟩ new = .ok ⟨⟨⟨n, x⟩, ⟨n, n, Px⟩⟩, ⟨⟨o, y⟩, ⟨o, o, S⟩⟩, ⟨n, o, C⟩, m⟩ ∧
      Px.PosSemidef ∧ S.PosSemidef ∧ (S.PosDef → ∃ K : Matrix (Fin n) (Fin o) ℝ, gainMatrix ⟨n, o, C⟩ ⟨o, o, S⟩ = .ok ⟨n, o, K⟩ ∧
        (Px - K * (S * Kᵀ)).PosSemidef ∧ (Px - (Px - K * (S * Kᵀ))).PosSemidef) := by
  have hv : ∀ i, 0 ≤ wts (n + (n + o)) f.wc0 f.w1 i := fun i => by
    simp only [wts]
    split
    · exact h.wc0_nonneg hw
    · exact h.w1_pos.le
  have key := h.estimation_of ho X new hY hZ
  have hJ := joint_posSemidef hv (noisy Y (wPart X)) (wmean (wts (n + (n + o)) f.wm0 f.w1) (noisy Y (wPart X)))
    (noisy Z (vPart X)) (wmean (wts (n + (n + o)) f.wm0 f.w1) (noisy Z (vPart X)))
  refine ⟨_, _, _, _, _, key, ?_, ?_, fun hS => ?_⟩
  · exact hJ.submatrix (Sum.inl : Fin n → Fin n ⊕ Fin o)
  · exact hJ.submatrix (Sum.inr : Fin o → Fin n ⊕ Fin o)
  refine ⟨_, gainMatrix_of _ _ hS.det_pos.ne', ?_, ?_⟩
  · rw [gain_form _ (posDef_isSymm hS) hS.det_pos.ne']
    letI := hS.isUnit.invertible
    have := (Matrix.PosDef.fromBlocks₂₂ _ _ hS).1 (by rw [Matrix.conjTranspose_eq_transpose_of_trivial]; exact hJ)
    rwa [Matrix.conjTranspose_eq_transpose_of_trivial] at this
  · exact shrinks hS.posSemidef _ _

/-- One step of a filter with positive definite covariances and a model that acts on every state by itself: it succeeds, all covariances
are positive definite, and the correction does not enlarge the predicted one.  Missing: singular covariances, for which the repair
spoils the result (`C51_singular_correction_invalid`). -/
theorem C51_step_partial {I U} (hrow : RowWise f.model n o I U) (h : f.Holds n o μ P Q R) (hP : P.PosDef) (hQ : Q.PosDef) (hR : R.PosDef)
    (ho : 1 ≤ o) (hw : ∀ i, 0 ≤ f.covWeights.get i) (svd : Mat → Vec × Mat) (hI : I f.mem) (hu : U f.controls.mean) (new meas : Dist)
    (hnew : U new.mean) (z : Fin o → ℝ) (hz : meas.mean = ⟨o, z⟩) :
    ∃ sigma p f' μ' Px m S P', f.buildSigma svd = .ok sigma ∧ f.estimationUpdate sigma new = .ok p ∧
      p.x.cov = ⟨n, n, Px⟩ ∧ p.y = ⟨⟨o, m⟩, ⟨o, o, S⟩⟩ ∧ f.step svd new meas = .ok (f', (⟨⟨n, μ'⟩, ⟨n, n, P'⟩⟩, p.y)) ∧
      Px.PosDef ∧ S.PosDef ∧ P'.PosDef ∧ (Px - P').PosSemidef ∧
      f'.Holds n o μ' P' Q R ∧ f'.model = f.model ∧ I f'.mem ∧ f'.controls = new ∧ f'.covWeights = f.covWeights := by
  obtain ⟨g, k, s', hI', hY, hZ⟩ := hrow f.mem f.controls.mean new.mean hI hu hnew
  obtain ⟨L, hL⟩ := exists_isCholesky (augCov_posDef hP hQ hR)
  have hJ := h.rowwise_joint (h.wc0_nonneg hw) hL g k
  have hb := h.buildSigma_of svd (ensurePsd_posDef svd (augCov_posDef hP hQ hR)) hL
  have hest := h.estimation_of ho (sigmaPts (augMean o μ) f.gamma Lᵀ) new (hY _ (by omega) _) (hZ _ (by omega) _)
  obtain ⟨hs, hpd⟩ := h.step_of hP hQ hR ho svd hL new meas z hz (hY _ (by omega) _) (hZ _ (by omega) _) _ _ _ _ _ rfl rfl rfl rfl rfl hJ
  refine ⟨_, _, _, _, _, _, _, _, hb, hest, rfl, rfl, hs, (posDef_blocks hJ).1, (posDef_blocks hJ).2, hpd, ?_, h.after _ _ _ _, rfl, hI', rfl, rfl⟩
  rw [← gain_form _ (posDef_isSymm (posDef_blocks hJ).2) (posDef_blocks hJ).2.det_pos.ne']
  exact shrinks (posDef_blocks hJ).2.posSemidef _ _

theorem history_rowwise {w : Wrapper σ} {I U} (hrow : RowWise w n o I U) (hQ : Q.PosDef) (hR : R.PosDef) (ho : 1 ≤ o)
    (svd : Mat → Vec × Mat) (hist : List (Dist × Dist)) (hin : ∀ x ∈ hist, U x.1.mean) (hmeas : ∀ x ∈ hist, x.2.mean.n = o) :
    ∀ (f : Ukf σ) (μ : Fin n → ℝ) (P : Matrix (Fin n) (Fin n) ℝ), f.model = w → f.Holds n o μ P Q R → P.PosDef →
    (∀ i, 0 ≤ f.covWeights.get i) → I f.mem → U f.controls.mean →
    ∃ f' outs, f.run svd hist = .ok (f', outs) ∧ outs.length = hist.length ∧
      ∀ x ∈ outs, ∃ m P' y S, x.1 = ⟨⟨n, m⟩, ⟨n, n, P'⟩⟩ ∧ P'.PosDef ∧ x.2 = ⟨⟨o, y⟩, ⟨o, o, S⟩⟩ ∧ S.PosDef := by
  induction hist with
  | nil =>
    intro f μ P _ _ _ _ _ _
    exact ⟨f, [], rfl, rfl, nofun⟩
  | cons x hist ih =>
    intro f μ P hw h hP hwt hI hu
    obtain ⟨new, meas⟩ := x
    obtain ⟨sigma, p, f', μ', Px, ym, S, P', _, _, _, hyc, hs, _, hS, hP', _, hH, hm, hI', hc', hwt'⟩ :=
      C51_step_partial (hw ▸ hrow) h hP hQ hR ho hwt svd hI hu new meas (hin _ (List.mem_cons_self ..))
        (fun i => meas.mean.get (i.cast (hmeas _ (List.mem_cons_self ..)).symm))
        (Vec.ext_at (hmeas _ (List.mem_cons_self ..)) fun i hi => by
          rw [Vec.at_lt hi, Vec.at_lt (v := ⟨o, _⟩) (lt_of_lt_of_eq hi (hmeas _ (List.mem_cons_self ..)))]; rfl)
    obtain ⟨f'', outs, hrun, hlen, hall⟩ := ih (fun x hx => hin x (List.mem_cons_of_mem _ hx))
      (fun x hx => hmeas x (List.mem_cons_of_mem _ hx)) f' μ' P' (hm.trans hw) hH hP' (by rw [hwt']; exact hwt) hI'
      (by rw [hc']; exact hin _ (List.mem_cons_self ..))
    refine ⟨f'', _ :: outs, by rw [run, hs, ok_bind]; simp only []; rw [hrun, ok_bind]; rfl, by simp [hlen], ?_⟩
    intro x hx
    rcases List.mem_cons.1 hx with rfl | hx
    · exact ⟨μ', P', ym, S, rfl, hP', hyc, hS⟩
    · exact hall x hx

/-- Any history: with non-negative weights and positive definite covariances no step fails, and every covariance returned is positive
definite.  Missing: singular covariances. -/
theorem C51_history_partial {I U} (hrow : RowWise f.model n o I U) (h : f.Holds n o μ P Q R) (hP : P.PosDef) (hQ : Q.PosDef)
    (hR : R.PosDef) (ho : 1 ≤ o) (hw : ∀ i, 0 ≤ f.covWeights.get i) (svd : Mat → Vec × Mat) (hI : I f.mem) (hu : U f.controls.mean)
    (hist : List (Dist × Dist)) (hin : ∀ x ∈ hist, U x.1.mean) (hmeas : ∀ x ∈ hist, x.2.mean.n = o) :
    ∃ f' outs, f.run svd hist = .ok (f', outs) ∧ outs.length = hist.length ∧
      ∀ x ∈ outs, ∃ m P' y S, x.1 = ⟨⟨n, m⟩, ⟨n, n, P'⟩⟩ ∧ P'.PosDef ∧ x.2 = ⟨⟨o, y⟩, ⟨o, o, S⟩⟩ ∧ S.PosDef :=
  history_rowwise hrow hQ hR ho svd hist hin hmeas f μ P rfl h hP hw hI hu

/-- A model that is not linear: it squares the hidden number and shows its sine. -/
noncomputable def demoSquare : Wrapper Unit where
  nHidden := 1
  nOut := 1
  update _ X _ _ := .ok (X.map (· ^ 2), ())
  predict _ X _ := .ok (X.map Real.sin)

theorem demoSquare_rowWise : RowWise demoSquare 1 1 (fun _ => True) (fun _ => True) :=
  fun _ _ _ _ _ _ => ⟨fun x i => x i ^ 2, fun x i => Real.sin (x i), (), trivial, fun _ _ _ => rfl, fun _ _ _ => rfl⟩

/-- A filter of it with the default tuning. -/
noncomputable def demoSquareFilter : Ukf Unit :=
  ⟨demoSquare, (), ⟨⟨1, ![1]⟩, ⟨1, 1, 1⟩⟩, .delta ⟨⟨1, ![3]⟩⟩, 3, 1, 2, 0, ⟨1, 1, 1⟩, ⟨1, 1, 1⟩⟩

example (svd : Mat → Vec × Mat) (hist : List (Dist × Dist)) (hmeas : ∀ x ∈ hist, x.2.mean.n = 1) :
    ∃ f' outs, demoSquareFilter.run svd hist = .ok (f', outs) ∧ outs.length = hist.length := by
  have hh : demoSquareFilter.Holds 1 1 ![1] 1 1 1 := by
    refine ⟨rfl, rfl, le_rfl, rfl, rfl, rfl, rfl, ?_, ?_, ?_, ?_⟩ <;> norm_num [demoSquareFilter]
  obtain ⟨f', outs, h1, h2, _⟩ := C51_history_partial (f := demoSquareFilter) demoSquare_rowWise hh .one .one .one le_rfl
    (fun i => by
      simp only [covWeights, meanWeights, lambda, demoSquareFilter]
      split <;> norm_num) svd trivial trivial hist (fun _ _ => trivial) hmeas
  exact ⟨f', outs, h1, h2⟩

end Ukf

/-! ## C52: covariance repair -/

/-- Positive definite matrices are returned as they are.  Missing: what is returned otherwise (`C52_repair_not_symmetric`). -/
theorem C52_positive_definite_kept_partial {n : Nat} {A : Matrix (Fin n) (Fin n) ℝ} (hA : A.PosDef) (svd : Mat → Vec × Mat) :
    ensurePsd svd ⟨n, n, A⟩ = .ok ⟨n, n, A⟩ := ensurePsd_posDef svd hA

theorem enforcePsd_of {n : Nat} (svd : Mat → Vec × Mat) (A : Matrix (Fin n) (Fin n) ℝ) (s : Fin n → ℝ) (V : Matrix (Fin n) (Fin n) ℝ)
    (h : svd ⟨n, n, A⟩ = (⟨n, s⟩, ⟨n, n, V⟩)) :
    enforcePsd svd ⟨n, n, A⟩ = .ok ⟨n, n, fun i j => (A i j + A j i + (Vᵀ *ᵥ (s ᵥ* V)) j + (Vᵀ *ᵥ (s ᵥ* V)) j) / 4⟩ := by
  have e1 : Mat.bop (· + ·) ⟨n, n, A⟩ ⟨n, n, Aᵀ⟩ = .ok ⟨n, n, A + Aᵀ⟩ := Mat.bop_of _ _ _
  have e2 : ∀ (B : Matrix (Fin n) (Fin n) ℝ) (h : Fin n → ℝ),
    Mat.bop (· + ·) ⟨n, n, B⟩ (.ofRow ⟨n, h⟩) = .ok ⟨n, n, B + Matrix.of fun _ j => h j⟩ := fun B h => Mat.bop_row _ _ _
  unfold enforcePsd
  simp only [h, Mat.vecMul_of, ok_bind, Mat.transpose_of, Mat.mulVec_of, e1, e2]
  rfl

theorem ensurePsd_symm {n : Nat} (svd : Mat → Vec × Mat) {A : Matrix (Fin n) (Fin n) ℝ} (hA : A.IsSymm) (hno : ¬ A.PosDef) :
    ensurePsd svd ⟨n, n, A⟩ = enforcePsd svd ⟨n, n, A⟩ := by
  unfold ensurePsd
  rw [if_pos (allCloseT_of_isSymm hA), cholesky_none fun ⟨L, hL⟩ => hno (hL.posDef hA)]

/-- Right singular vectors of a diagonal matrix. -/
theorem IsSvd.diagonal {n : Nat} {a s : Fin n → ℝ} {V : Matrix (Fin n) (Fin n) ℝ} (h : IsSvd (Matrix.diagonal a) s V) (k i : Fin n) :
    V k i * (a i ^ 2 - s k ^ 2) = 0 := by
  obtain ⟨U, hU, hf⟩ := h.factor
  have h1 : (Matrix.diagonal a)ᵀ * Matrix.diagonal a = Vᵀ * Matrix.diagonal s * Matrix.diagonal s * V := by
    rw [hf]
    simp only [Matrix.transpose_mul, Matrix.diagonal_transpose, Matrix.mul_assoc]
    rw [← Matrix.mul_assoc Uᵀ, hU, Matrix.one_mul]
  have h2 : V * ((Matrix.diagonal a)ᵀ * Matrix.diagonal a) = Matrix.diagonal s * Matrix.diagonal s * V := by
    rw [h1]
    simp only [← Matrix.mul_assoc]
    rw [h.orthogonal, Matrix.one_mul]
  have h3 := congrFun (congrFun h2 k) i
  rw [Matrix.diagonal_transpose, Matrix.diagonal_mul_diagonal, Matrix.mul_diagonal, Matrix.diagonal_mul_diagonal, Matrix.diagonal_mul] at h3
  nlinarith [h3]

/-- A single number is repaired as it should be: it is replaced by zero when it is negative. -/
theorem C52_scalar_repaired (svd : Mat → Vec × Mat) (a : ℝ) (s : Fin 1 → ℝ) (V : Matrix (Fin 1) (Fin 1) ℝ)
    (hsvd : svd ⟨1, 1, Matrix.diagonal fun _ => a⟩ = (⟨1, s⟩, ⟨1, 1, V⟩)) (hs : IsSvd (Matrix.diagonal fun _ => a) s V) :
    ensurePsd svd ⟨1, 1, Matrix.diagonal fun _ => a⟩ = .ok ⟨1, 1, Matrix.diagonal fun _ => max a 0⟩ := by
  by_cases ha : 0 < a
  · rw [max_eq_left ha.le]
    exact ensurePsd_posDef svd (Matrix.PosDef.diagonal fun _ => ha)
  · have hno : ¬ (Matrix.diagonal fun _ : Fin 1 => a).PosDef := fun h => ha (by simpa using h.diag_pos (i := 0))
    push Not at ha
    rw [max_eq_right ha, ensurePsd_symm svd (Matrix.diagonal_transpose _) hno, enforcePsd_of svd _ s V hsvd]
    have hV : V 0 0 * V 0 0 = 1 := by
      have := congrFun (congrFun hs.orthogonal 0) 0
      simpa [Matrix.mul_apply] using this
    have hs' : s 0 = -a := by
      have h1 := hs.diagonal 0 0
      have h2 : V 0 0 ≠ 0 := fun h0 => by rw [h0] at hV; norm_num at hV
      have h3 : a ^ 2 - s 0 ^ 2 = 0 := (mul_eq_zero.1 h1).resolve_left h2
      have h4 := hs.nonneg 0
      have h5 : (s 0 + a) * (s 0 - a) = 0 := by nlinarith
      rcases mul_eq_zero.1 h5 with h | h <;> linarith
    refine congrArg (fun M => Except.ok (Mat.mk 1 1 M)) ?_
    funext i j
    rw [Subsingleton.elim j 0, Subsingleton.elim i 0]
    simp only [Matrix.mulVec, Matrix.vecMul, dotProduct, Matrix.transpose_apply, Fin.sum_univ_one, hs', Matrix.diagonal_apply_eq]
    have : V 0 0 * (-a * V 0 0) = -a := by rw [mul_left_comm, hV, mul_one]
    rw [this]
    ring

example : IsSvd (Matrix.diagonal fun _ : Fin 1 => (-3 : ℝ)) (fun _ => 3) 1 :=
  ⟨fun _ => by norm_num, fun _ _ _ => le_rfl, by simp, -1, by simp, by
    ext i j; rw [Subsingleton.elim i 0, Subsingleton.elim j 0]; simp⟩

/-- The rows of `V` for a diagonal matrix of two different squares, the larger one second. -/
theorem IsSvd.two {a s : Fin 2 → ℝ} {V : Matrix (Fin 2) (Fin 2) ℝ} (h : IsSvd (Matrix.diagonal a) s V) (p q : Fin 2) (hpq : p ≠ q)
    (ha : a p ^ 2 < a q ^ 2) :
    s 0 ^ 2 = a q ^ 2 ∧ s 1 ^ 2 = a p ^ 2 ∧ V 0 p = 0 ∧ V 1 q = 0 ∧ V 0 q ^ 2 = 1 ∧ V 1 p ^ 2 = 1 := by
  have hsum : ∀ k, V k p ^ 2 + V k q ^ 2 = 1 := by
    intro k
    have := congrFun (congrFun h.orthogonal k) k
    rw [Matrix.mul_apply, Fin.sum_univ_two] at this
    simp only [Matrix.transpose_apply, Matrix.one_apply_eq] at this
    fin_cases p <;> fin_cases q <;> first | exact absurd rfl hpq | (simp only [Fin.zero_eta, Fin.mk_one] at *; nlinarith)
  have hort : V 0 p * V 1 p + V 0 q * V 1 q = 0 := by
    have := congrFun (congrFun h.orthogonal 0) 1
    rw [Matrix.mul_apply, Fin.sum_univ_two] at this
    simp only [Matrix.transpose_apply, ne_eq, zero_ne_one, not_false_eq_true, Matrix.one_apply_ne] at this
    fin_cases p <;> fin_cases q <;> first | exact absurd rfl hpq | (simp only [Fin.zero_eta, Fin.mk_one] at *; nlinarith)
  -- each row is along one of the two axes
  have hrow : ∀ k, (V k p = 0 ∧ s k ^ 2 = a q ^ 2) ∨ (V k q = 0 ∧ s k ^ 2 = a p ^ 2) := by
    intro k
    rcases mul_eq_zero.1 (h.diagonal k p) with h1 | h1
    · left
      refine ⟨h1, ?_⟩
      rcases mul_eq_zero.1 (h.diagonal k q) with h2 | h2
      · have := hsum k
        rw [h1, h2] at this
        norm_num at this
      · linarith
    · right
      refine ⟨?_, by linarith⟩
      rcases mul_eq_zero.1 (h.diagonal k q) with h2 | h2
      · exact h2
      · linarith
  have hmono : s 1 ^ 2 ≤ s 0 ^ 2 := by
    have h1 := h.antitone (show (0 : Fin 2) ≤ 1 by decide)
    have h2 := h.nonneg 1
    exact pow_le_pow_left₀ h2 h1 2
  have h0 := hsum 0
  have h1 := hsum 1
  rcases hrow 0 with ⟨a1, a2⟩ | ⟨a1, a2⟩ <;> rcases hrow 1 with ⟨b1, b2⟩ | ⟨b1, b2⟩
  · exfalso
    rw [a1] at h0 hort
    rw [b1] at h1 hort
    have h3 : V 0 q * V 1 q = 0 := by linarith
    rcases mul_eq_zero.1 h3 with h4 | h4
    · rw [h4] at h0; norm_num at h0
    · rw [h4] at h1; norm_num at h1
  · rw [a1] at h0
    rw [b1] at h1
    exact ⟨a2, b2, a1, b1, by linarith, by linarith⟩
  · linarith
  · exfalso
    rw [a1] at h0 hort
    rw [b1] at h1 hort
    have h3 : V 0 p * V 1 p = 0 := by linarith
    rcases mul_eq_zero.1 h3 with h4 | h4
    · rw [h4] at h0; norm_num at h0
    · rw [h4] at h1; norm_num at h1

/-- C52 fails: the repaired form of a diagonal matrix is not symmetric.  Whatever singular value decomposition is given, for any
negative numbers of different size. -/
theorem C52_repair_not_symmetric (svd : Mat → Vec × Mat) (a : Fin 2 → ℝ) (ha : a 0 ^ 2 < a 1 ^ 2) (h1 : a 0 < 0)
    (s : Fin 2 → ℝ) (V : Matrix (Fin 2) (Fin 2) ℝ) (hsvd : svd ⟨2, 2, Matrix.diagonal a⟩ = (⟨2, s⟩, ⟨2, 2, V⟩))
    (hs : IsSvd (Matrix.diagonal a) s V) :
    ∃ B : Matrix (Fin 2) (Fin 2) ℝ, ensurePsd svd ⟨2, 2, Matrix.diagonal a⟩ = .ok ⟨2, 2, B⟩ ∧ ¬ B.IsSymm := by
  have hno : ¬ (Matrix.diagonal a).PosDef := fun h => by
    have := h.diag_pos (i := 0)
    rw [Matrix.diagonal_apply_eq] at this
    linarith
  refine ⟨_, (ensurePsd_symm svd (Matrix.diagonal_transpose _) hno).trans (enforcePsd_of svd _ s V hsvd), fun hsym => ?_⟩
  obtain ⟨e1, e2, e3, e4, e5, e6⟩ := hs.two 0 1 (by decide) ha
  have h3 := hsym.apply 0 1
  simp only [Matrix.mulVec, Matrix.vecMul, dotProduct, Fin.sum_univ_two, Matrix.transpose_apply, e3, e4, mul_zero, zero_mul, add_zero,
    zero_add, ne_eq, zero_ne_one, not_false_eq_true, Matrix.diagonal_apply_ne, one_ne_zero] at h3
  have h4 := hs.nonneg 0
  have h5 := hs.nonneg 1
  have h6 : V 1 0 * V 0 1 * (s 0 - s 1) = 0 := by linarith
  have h7 : V 1 0 ≠ 0 := fun h => by rw [h] at e6; norm_num at e6
  have h8 : V 0 1 ≠ 0 := fun h => by rw [h] at e5; norm_num at e5
  have h9 : s 0 = s 1 := by
    rcases mul_eq_zero.1 h6 with h | h
    · exact absurd h (mul_ne_zero h7 h8)
    · linarith
  rw [h9] at e1
  linarith

/-- The numbers of the example and their decomposition. -/
example : IsSvd (Matrix.diagonal ![-1, -2]) ![2, 1] !![0, 1; 1, 0] := by
  refine ⟨fun i => by fin_cases i <;> norm_num, fun i j hij => ?_, ?_, !![0, -1; -1, 0], ?_, ?_⟩
  · fin_cases i <;> fin_cases j <;> simp_all
  · ext i j; fin_cases i <;> fin_cases j <;> simp [Matrix.mul_apply, Fin.sum_univ_two]
  · ext i j; fin_cases i <;> fin_cases j <;> simp [Matrix.mul_apply, Fin.sum_univ_two]
  · ext i j; fin_cases i <;> fin_cases j <;> simp [Matrix.mul_apply, Fin.sum_univ_two, Matrix.diagonal, Matrix.vecHead, Matrix.vecTail]

/-- C51 fails when the corrected covariance is singular: with predicted covariances `diag(1, 0)` and 1 that are not correlated, the
correction gives a covariance that is not symmetric, whatever singular value decomposition is given. -/
theorem C51_singular_correction_invalid (svd : Mat → Vec × Mat) (s : Fin 2 → ℝ) (V : Matrix (Fin 2) (Fin 2) ℝ)
    (hsvd : svd ⟨2, 2, Matrix.diagonal ![1, 0]⟩ = (⟨2, s⟩, ⟨2, 2, V⟩)) (hs : IsSvd (Matrix.diagonal ![1, 0]) s V) (meas : Dist)
    (z : Fin 1 → ℝ) (hz : meas.mean = ⟨1, z⟩) :
    ∃ g B, Ukf.correctionUpdate svd ⟨⟨2, 0⟩, ⟨2, 2, Matrix.diagonal ![1, 0]⟩⟩ ⟨⟨1, 0⟩, ⟨1, 1, 1⟩⟩ ⟨2, 1, 0⟩ meas = .ok g ∧
      g.cov = ⟨2, 2, B⟩ ∧ ¬ B.IsSymm := by
  have hno : ¬ (Matrix.diagonal ![1, 0] : Matrix (Fin 2) (Fin 2) ℝ).PosDef := fun h => by
    have := h.diag_pos (i := 1)
    simp at this
  have hen := (ensurePsd_symm svd (Matrix.diagonal_transpose _) hno).trans (enforcePsd_of svd _ s V hsvd)
  have hg : gainMatrix ⟨2, 1, 0⟩ ⟨1, 1, 1⟩ = .ok ⟨2, 1, 0⟩ := by
    rw [Ukf.gainMatrix_of _ _ (by simp), Ukf.gain, Matrix.zero_mul]
  have e0 : Mat.mul ⟨1, 1, 1⟩ ⟨1, 2, 0⟩ = .ok ⟨1, 2, (0 : Matrix (Fin 1) (Fin 2) ℝ)⟩ := by rw [Mat.mul_of, Matrix.mul_zero]
  have e1 : Mat.mul ⟨2, 1, 0⟩ ⟨1, 2, 0⟩ = .ok ⟨2, 2, (0 : Matrix (Fin 2) (Fin 2) ℝ)⟩ := by rw [Mat.mul_of, Matrix.mul_zero]
  have e2 : Mat.bop (· - ·) ⟨2, 2, Matrix.diagonal ![1, 0]⟩ ⟨2, 2, 0⟩ = .ok ⟨2, 2, (Matrix.diagonal ![1, 0] : Matrix (Fin 2) (Fin 2) ℝ)⟩ := by
    rw [Mat.bop_of]
    exact congrArg (fun M => Except.ok (Mat.mk 2 2 M)) (sub_zero _)
  refine ⟨⟨⟨2, fun i => (0 : Fin 2 → ℝ) i + ((0 : Matrix (Fin 2) (Fin 1) ℝ) *ᵥ fun i => z i - (0 : Fin 1 → ℝ) i) i⟩, ⟨2, 2, fun i j =>
    ((Matrix.diagonal ![1, 0] : Matrix (Fin 2) (Fin 2) ℝ) i j + (Matrix.diagonal ![1, 0] : Matrix (Fin 2) (Fin 2) ℝ) j i +
      (Vᵀ *ᵥ (s ᵥ* V)) j + (Vᵀ *ᵥ (s ᵥ* V)) j) / 4⟩⟩, _, ?_, rfl, fun hsym => ?_⟩
  · unfold Ukf.correctionUpdate
    simp only [hg, hz, ok_bind, Vec.bop_of, Mat.mulVec_of, Mat.transpose_of, Matrix.transpose_zero, e0, e1, e2, hen]
    exact Gaussian.make_of (by norm_num) _ _
  · obtain ⟨e1, e2, e3, e4, e5, e6⟩ := hs.two 1 0 (by decide) (by simp)
    have h3 := hsym.apply 0 1
    simp only [Matrix.mulVec, Matrix.vecMul, dotProduct, Fin.sum_univ_two, Matrix.transpose_apply, e3, e4, mul_zero, zero_mul, add_zero,
      zero_add, ne_eq, zero_ne_one, not_false_eq_true, Matrix.diagonal_apply_ne, one_ne_zero] at h3
    have h4 := hs.nonneg 0
    have h5 := hs.nonneg 1
    simp at e1 e2
    rw [e2] at h3
    have h6 : V 0 0 * (s 0 * V 0 0) = s 0 := by rw [mul_left_comm, ← pow_two, e5, mul_one]
    rw [h6] at h3
    simp at h3
    rcases e1 with h | h <;> linarith

example : IsSvd (Matrix.diagonal ![1, 0]) ![1, 0] 1 := by
  refine ⟨fun i => by fin_cases i <;> norm_num, fun i j hij => ?_, by simp, 1, by simp, by simp⟩
  fin_cases i <;> fin_cases j <;> simp_all

namespace Ukf
variable {σ : Type}

/-! ## C54: bookkeeping -/

/-- After any sequence of steps: one result per step, the last one being what is stored; the stored controls are the last inputs given;
nothing else of the filter has changed. -/
theorem C54_stored (svd : Mat → Vec × Mat) (hist : List (Dist × Dist)) : ∀ (f f' : Ukf σ) (outs : List (Gaussian × Gaussian)),
    f.run svd hist = .ok (f', outs) →
    outs.length = hist.length ∧ f'.controls = ((hist.map Prod.fst).getLast?).getD f.controls ∧
    f'.hidden = ((outs.map Prod.fst).getLast?).getD f.hidden ∧
    f' = { f with hidden := f'.hidden, mem := f'.mem, controls := f'.controls } := by
  induction hist with
  | nil =>
    intro f f' outs h
    cases h
    exact ⟨rfl, rfl, rfl, rfl⟩
  | cons x hist ih =>
    intro f f' outs h
    obtain ⟨new, meas⟩ := x
    rw [run] at h
    rcases hs : f.step svd new meas with e | r
    · rw [hs] at h; cases h
    rw [hs, ok_bind] at h
    rcases hr : run svd r.1 hist with e | q
    · rw [hr] at h; cases h
    rw [hr, ok_bind] at h
    cases h
    have hr1 : r.1.controls = new ∧ r.1.hidden = r.2.1 ∧ r.1 = { f with hidden := r.1.hidden, mem := r.1.mem, controls := r.1.controls } := by
      unfold step at hs
      rcases h1 : f.buildSigma svd with e | sigma
      · rw [h1] at hs; cases hs
      rw [h1, ok_bind] at hs
      rcases h2 : f.estimationUpdate sigma new with e | p
      · rw [h2] at hs; cases hs
      rw [h2, ok_bind] at hs
      rcases h3 : correctionUpdate svd p.x p.y p.covXY meas with e | g
      · rw [h3] at hs; cases hs
      rw [h3, ok_bind] at hs
      cases hs
      exact ⟨rfl, rfl, rfl⟩
    obtain ⟨i1, i2, i3, i4⟩ := ih r.1 q.1 q.2 hr
    refine ⟨by simp [i1], ?_, ?_, ?_⟩
    · rw [i2, hr1.1, List.map_cons, List.getLast?_cons]
      rfl
    · rw [i3, hr1.2.1, List.map_cons, List.getLast?_cons]
      rfl
    · rw [hr1.2.2] at i4
      exact i4

/-- The model is evolved from the inputs of the previous step to those of the present one, and asked for outputs at the latter: a model
that answers alike there, however different elsewhere, gives the same estimates. -/
theorem C54_inputs_used (svd : Mat → Vec × Mat) (w : Wrapper σ) (hist : List (Dist × Dist)) : ∀ (f : Ukf σ),
    w.nHidden = f.model.nHidden → w.nOut = f.model.nOut →
    SameAlong f.model w f.controls.mean (hist.map fun x => x.1.mean) →
    Ukf.run svd { f with model := w } hist = (f.run svd hist).map fun r => ({ r.1 with model := w }, r.2) := by
  induction hist with
  | nil => intro f _ _ _; rfl
  | cons x hist ih =>
    intro f hn ho hsame
    obtain ⟨new, meas⟩ := x
    obtain ⟨hu, hp, hrest⟩ := hsame
    have hb : Ukf.buildSigma svd { f with model := w } = f.buildSigma svd := by
      unfold buildSigma
      simp only [hn, ho]
      rfl
    have he : ∀ sigma, Ukf.estimationUpdate { f with model := w } sigma new = f.estimationUpdate sigma new := by
      intro sigma
      unfold estimationUpdate
      simp only [hn, ← hu, ← hp]
      rfl
    have hs : Ukf.step svd { f with model := w } new meas = (f.step svd new meas).map fun r => ({ r.1 with model := w }, r.2) := by
      unfold step
      rw [hb]
      rcases h1 : f.buildSigma svd with e | sigma
      · rfl
      rw [ok_bind, ok_bind, he]
      rcases h2 : f.estimationUpdate sigma new with e | p
      · rfl
      rw [ok_bind, ok_bind]
      rcases h3 : correctionUpdate svd p.x p.y p.covXY meas with e | g
      · rfl
      rfl
    rw [run, run, hs]
    rcases h1 : f.step svd new meas with e | r
    · rfl
    have hst := C54_stored svd [(new, meas)] f r.1 [r.2] (by rw [run, h1]; rfl)
    have hm : r.1.model = f.model := by rw [hst.2.2.2]
    have hc : r.1.controls = new := hst.2.1
    have key := ih r.1 (hm ▸ hn) (hm ▸ ho) (by rw [hm, hc]; exact hrest)
    change (Ukf.run svd { r.1 with model := w } hist >>= fun s => pure (s.1, r.2 :: s.2)) = _
    rw [key]
    rcases h2 : run svd r.1 hist with e | q
    · rw [ok_bind, h2]; rfl
    · rw [ok_bind, h2]; rfl

/-- The identity model, and one that differs from it only at inputs that are not given. -/
example (svd : Mat → Vec × Mat) (meas : Dist) : Ukf.run svd { demoSquareFilter with
      model := { demoSquare with predict := fun s X u => if u.n = 1 then demoSquare.predict s X u else .error .valueError } }
      [(.delta ⟨⟨1, ![4]⟩⟩, meas)] = (demoSquareFilter.run svd [(.delta ⟨⟨1, ![4]⟩⟩, meas)]).map fun r => ({ r.1 with
      model := { demoSquare with predict := fun s X u => if u.n = 1 then demoSquare.predict s X u else .error .valueError } }, r.2) :=
  C54_inputs_used svd _ _ demoSquareFilter rfl rfl ⟨fun _ _ => rfl, fun _ _ => rfl, trivial⟩

/-- A measurement that is exactly the predicted output leaves the predicted mean. -/
theorem C54_perfect_measurement {n o : Nat} (svd : Mat → Vec × Mat) (x : Fin n → ℝ) (y : Fin o → ℝ) (Px : Mat)
    (S : Matrix (Fin o) (Fin o) ℝ) (C : Matrix (Fin n) (Fin o) ℝ) (meas : Dist) (hz : meas.mean = ⟨o, y⟩) (g : Gaussian)
    (hg : correctionUpdate svd ⟨⟨n, x⟩, Px⟩ ⟨⟨o, y⟩, ⟨o, o, S⟩⟩ ⟨n, o, C⟩ meas = .ok g) : g.mean = ⟨n, x⟩ := by
  by_cases hS : S.det = 0
  · unfold correctionUpdate gainMatrix at hg
    rw [Mat.inv_singular S hS] at hg
    cases hg
  unfold correctionUpdate at hg
  have e0 : (fun i => y i - y i) = (0 : Fin o → ℝ) := funext fun i => sub_self _
  have e1 : Mat.mulVec ⟨n, o, gain C S⟩ ⟨o, 0⟩ = .ok ⟨n, 0⟩ := by rw [Mat.mulVec_of, Matrix.mulVec_zero]
  have e2 : (fun i => x i + (0 : Fin n → ℝ) i) = x := add_zero x
  simp only [gainMatrix_of C S hS, hz, ok_bind, Vec.bop_of, e0, e1, e2, Mat.transpose_of, Mat.mul_of] at hg
  rcases h1 : Mat.bop (· - ·) Px ⟨n, n, gain C S * (S * (gain C S)ᵀ)⟩ with e | cov
  · rw [h1] at hg; cases hg
  rw [h1, ok_bind] at hg
  rcases h2 : ensurePsd svd cov with e | cov
  · rw [h2] at hg; cases hg
  rw [h2, ok_bind] at hg
  unfold Gaussian.make at hg
  split at hg
  · cases hg; rfl
  · cases hg

example (svd : Mat → Vec × Mat) : correctionUpdate svd ⟨⟨1, ![5]⟩, ⟨1, 1, Matrix.diagonal ![2]⟩⟩ ⟨⟨1, ![7]⟩, ⟨1, 1, 1⟩⟩ ⟨1, 1, 1⟩
    (.delta ⟨⟨1, ![7]⟩⟩) = .ok ⟨⟨1, ![5] + gain 1 1 *ᵥ (![7] - ![7])⟩, ⟨1, 1, Matrix.diagonal ![2] - gain 1 1 * (1 * (gain 1 1)ᵀ)⟩⟩ := by
  refine correction_of svd le_rfl _ _ _ _ _ _ ![7] rfl (by simp) ?_
  have : (Matrix.diagonal ![2] - gain 1 1 * (1 * (gain 1 1)ᵀ) : Matrix (Fin 1) (Fin 1) ℝ) = 1 := by
    ext i j
    rw [Subsingleton.elim i 0, Subsingleton.elim j 0]
    simp [gain]
    norm_num
  rw [this]
  exact .one

end Ukf
end Verif
