import Verif.Proofs.Cholesky
import Verif.Props.Distributions
import Mathlib.Algebra.BigOperators.Fin
import Mathlib.LinearAlgebra.Matrix.SchurComplement
/-!
# The filter on arrays that fit, as matrices
-/

namespace Verif
open Matrix

/-! ## Arrays -/

theorem Mat.at_mk {m n : Nat} (A : Matrix (Fin m) (Fin n) ℝ) {i j : Nat} (hi : i < m) (hj : j < n) :
    Mat.at' ⟨m, n, A⟩ i j = A ⟨i, hi⟩ ⟨j, hj⟩ := Mat.at_lt (A := ⟨m, n, A⟩) hi hj

/-- Rows of one matrix above those of another. -/
def stack {a b n : Nat} (A : Matrix (Fin a) (Fin n) ℝ) (B : Matrix (Fin b) (Fin n) ℝ) : Matrix (Fin (a + b)) (Fin n) ℝ :=
  fun i => Fin.addCases (motive := fun _ => Fin n → ℝ) A B i

theorem stack_left {a b n : Nat} (A : Matrix (Fin a) (Fin n) ℝ) (B : Matrix (Fin b) (Fin n) ℝ) (i : Fin a) :
    stack A B (Fin.castAdd b i) = A i := Fin.addCases_left i

theorem stack_right {a b n : Nat} (A : Matrix (Fin a) (Fin n) ℝ) (B : Matrix (Fin b) (Fin n) ℝ) (i : Fin b) :
    stack A B (Fin.natAdd a i) = B i := Fin.addCases_right i

theorem Mat.vstack_of {a b n : Nat} (A : Matrix (Fin a) (Fin n) ℝ) (B : Matrix (Fin b) (Fin n) ℝ) :
    Mat.vstack ⟨a, n, A⟩ ⟨b, n, B⟩ = .ok ⟨a + b, n, stack A B⟩ := by
  unfold Mat.vstack
  rw [if_pos rfl]
  refine congrArg (fun M => Except.ok (Mat.mk (a + b) n M)) ?_
  funext i j
  refine Fin.addCases (motive := fun i => (if i.1 < a then Mat.at' ⟨a, n, A⟩ i j else Mat.at' ⟨b, n, B⟩ (i.1 - a) j) = stack A B i j)
    (fun i => ?_) (fun i => ?_) i
  · rw [stack_left, if_pos (by simp)]
    exact Mat.at_fin A i j
  · rw [stack_right, if_neg (by simp)]
    simp only [Fin.val_natAdd, Nat.add_sub_cancel_left]
    exact Mat.at_fin B i j

theorem Mat.bop_row_left (f : ℝ → ℝ → ℝ) {m n : Nat} (x : Fin n → ℝ) (B : Matrix (Fin m) (Fin n) ℝ) :
    Mat.bop f (.ofRow ⟨n, x⟩) ⟨m, n, B⟩ = .ok ⟨m, n, fun i j => f (x j) (B i j)⟩ := by
  have hd : Nd.bdim 1 m = some m := by unfold Nd.bdim; split <;> simp_all
  unfold Mat.bop Mat.ofRow
  simp only [hd, bdim_self]
  refine congrArg (fun M => Except.ok (Mat.mk m n M)) ?_
  funext i j
  rw [Mat.clip_fin, Mat.clip_fin, Mat.at_fin]
  have : Mat.at' ⟨1, n, fun _ j => x j⟩ 0 j = x j := Mat.at_fin (fun (_ : Fin 1) j => x j) 0 j
  simp only [if_true]
  exact congrArg (f · (B i j)) this

theorem Mat.cols_of {K N b : Nat} (X : Matrix (Fin K) (Fin N) ℝ) (a e : Nat) (he : e = a + b) (h : a + b ≤ N) :
    Mat.cols ⟨K, N, X⟩ a e = ⟨K, b, fun i j => X i ⟨a + j, by omega⟩⟩ := by
  subst he
  have hn : (Mat.cols ⟨K, N, X⟩ a (a + b)).n = b := by simp only [Mat.cols]; omega
  refine Mat.ext_at rfl hn fun i hi j hj => ?_
  rw [hn] at hj
  have e1 : (Mat.cols ⟨K, N, X⟩ a (a + b)).at' i j = Mat.at' ⟨K, N, X⟩ i (min a N + j) := Mat.at_lt hi (by omega)
  have e2 : Mat.at' ⟨K, N, X⟩ i (min a N + j) = X ⟨i, hi⟩ ⟨a + j, by omega⟩ := by
    rw [Nat.min_eq_left (by omega)]
    exact Mat.at_mk X hi (by omega)
  rw [e1, e2]
  exact (Mat.at_mk (fun i (j : Fin b) => X i ⟨a + j, by omega⟩ : Matrix (Fin K) (Fin b) ℝ) hi hj).symm

theorem Mat.cols_left {K a b : Nat} (X : Matrix (Fin K) (Fin (a + b)) ℝ) :
    Mat.cols ⟨K, a + b, X⟩ 0 a = ⟨K, a, fun i j => X i (Fin.castAdd b j)⟩ := by
  rw [Mat.cols_of (b := a) X 0 a (by omega) (by omega)]
  refine congrArg (Mat.mk K a) ?_
  funext i j
  congr 1
  ext; simp

theorem Mat.cols_mid {K a b c : Nat} (X : Matrix (Fin K) (Fin (a + (b + c))) ℝ) :
    Mat.cols ⟨K, a + (b + c), X⟩ a (a + b) = ⟨K, b, fun i j => X i (Fin.natAdd a (Fin.castAdd c j))⟩ :=
  Mat.cols_of (b := b) X a (a + b) rfl (by omega)

theorem Mat.cols_last {K a b c : Nat} (X : Matrix (Fin K) (Fin (a + (b + c))) ℝ) :
    Mat.cols ⟨K, a + (b + c), X⟩ (a + b) (a + (b + c)) = ⟨K, c, fun i j => X i (Fin.natAdd a (Fin.natAdd b j))⟩ := by
  rw [Mat.cols_of (b := c) X (a + b) (a + (b + c)) (by omega) (by omega)]
  refine congrArg (Mat.mk K c) ?_
  funext i j
  congr 1
  ext; simp [Nat.add_assoc]

/-- Two blocks on the diagonal. -/
def blk2 {m n : Nat} (A : Matrix (Fin m) (Fin m) ℝ) (B : Matrix (Fin n) (Fin n) ℝ) : Matrix (Fin (m + n)) (Fin (m + n)) ℝ :=
  (Matrix.fromBlocks A 0 0 B).submatrix finSumFinEquiv.symm finSumFinEquiv.symm

@[simp] theorem blk2_ll {m n : Nat} (A : Matrix (Fin m) (Fin m) ℝ) (B : Matrix (Fin n) (Fin n) ℝ) (i j : Fin m) :
    blk2 A B (Fin.castAdd n i) (Fin.castAdd n j) = A i j := by simp [blk2]

@[simp] theorem blk2_lr {m n : Nat} (A : Matrix (Fin m) (Fin m) ℝ) (B : Matrix (Fin n) (Fin n) ℝ) (i : Fin m) (j : Fin n) :
    blk2 A B (Fin.castAdd n i) (Fin.natAdd m j) = 0 := by simp [blk2]

@[simp] theorem blk2_rl {m n : Nat} (A : Matrix (Fin m) (Fin m) ℝ) (B : Matrix (Fin n) (Fin n) ℝ) (i : Fin n) (j : Fin m) :
    blk2 A B (Fin.natAdd m i) (Fin.castAdd n j) = 0 := by simp [blk2]

@[simp] theorem blk2_rr {m n : Nat} (A : Matrix (Fin m) (Fin m) ℝ) (B : Matrix (Fin n) (Fin n) ℝ) (i j : Fin n) :
    blk2 A B (Fin.natAdd m i) (Fin.natAdd m j) = B i j := by simp [blk2]

theorem Mat.block2_of {m n : Nat} (A : Matrix (Fin m) (Fin m) ℝ) (B : Matrix (Fin n) (Fin n) ℝ) :
    Mat.block2 ⟨m, m, A⟩ ⟨n, n, B⟩ = ⟨m + n, m + n, blk2 A B⟩ := by
  unfold Mat.block2
  refine congrArg (Mat.mk (m + n) (m + n)) ?_
  funext i j
  refine Fin.addCases (fun i => ?_) (fun i => ?_) i <;> refine Fin.addCases (fun j => ?_) (fun j => ?_) j
  · simp
  · simp
  · simp
  · have h1 : ¬ m + i.1 < m := by omega
    have h2 : ¬ m + j.1 < m := by omega
    simp only [Fin.val_natAdd, h1, h2, if_false, Nat.add_sub_cancel_left, Mat.at_fin, blk2_rr]

theorem fromBlocks_posDef {m n : Nat} {A : Matrix (Fin m) (Fin m) ℝ} {B : Matrix (Fin n) (Fin n) ℝ} (hA : A.PosDef) (hB : B.PosDef) :
    (Matrix.fromBlocks A 0 0 B).PosDef := by
  refine .of_dotProduct_mulVec_pos ?_ fun x hx => ?_
  · rw [Matrix.IsHermitian, Matrix.fromBlocks_conjTranspose, hA.isHermitian, hB.isHermitian]; simp
  · rw [← Sum.elim_comp_inl_inr x]
    have h1 := hA.posSemidef.dotProduct_mulVec_nonneg (x ∘ Sum.inl)
    have h2 := hB.posSemidef.dotProduct_mulVec_nonneg (x ∘ Sum.inr)
    simp only [star_trivial] at h1 h2
    have e : star (Sum.elim (x ∘ Sum.inl) (x ∘ Sum.inr)) ⬝ᵥ Matrix.fromBlocks A 0 0 B *ᵥ Sum.elim (x ∘ Sum.inl) (x ∘ Sum.inr) =
        (x ∘ Sum.inl) ⬝ᵥ A *ᵥ (x ∘ Sum.inl) + (x ∘ Sum.inr) ⬝ᵥ B *ᵥ (x ∘ Sum.inr) := by
      rw [star_trivial, Matrix.fromBlocks_mulVec, Sum.elim_comp_inl, Sum.elim_comp_inr, sumElim_dotProduct_sumElim]
      simp
    rw [e]
    by_cases h : x ∘ Sum.inl = 0
    · have h' : x ∘ Sum.inr ≠ 0 := by
        intro h'
        apply hx
        rw [← Sum.elim_comp_inl_inr x, h, h']
        ext i; cases i <;> rfl
      have := hB.dotProduct_mulVec_pos h'
      rw [star_trivial] at this
      linarith
    · have := hA.dotProduct_mulVec_pos h
      rw [star_trivial] at this
      linarith

theorem blk2_posDef {m n : Nat} {A : Matrix (Fin m) (Fin m) ℝ} {B : Matrix (Fin n) (Fin n) ℝ} (hA : A.PosDef) (hB : B.PosDef) :
    (blk2 A B).PosDef := (fromBlocks_posDef hA hB).submatrix finSumFinEquiv.symm.injective

theorem Vec.append_of {m n : Nat} (a : Fin m → ℝ) (b : Fin n → ℝ) : Vec.append ⟨m, a⟩ ⟨n, b⟩ = ⟨m + n, Fin.append a b⟩ := by
  unfold Vec.append
  refine congrArg (Vec.mk (m + n)) ?_
  funext i
  refine Fin.addCases (fun i => ?_) (fun i => ?_) i
  · simp
  · have h1 : ¬ m + i.1 < m := by omega
    simp only [Fin.val_natAdd, h1, if_false, Nat.add_sub_cancel_left, Vec.at_fin, Fin.append_right]

/-! ## Averages and covariances -/

/-- Weighted cross-covariance of two arrays of samples around two centres. -/
def wcross {K n k : Nat} (v : Fin K → ℝ) (X : Matrix (Fin K) (Fin n) ℝ) (μ : Fin n → ℝ) (Y : Matrix (Fin K) (Fin k) ℝ) (ν : Fin k → ℝ) :
    Matrix (Fin n) (Fin k) ℝ := fun a b => ∑ i, v i * (X i a - μ a) * (Y i b - ν b)

theorem wcov_eq_wcross {K n : Nat} (v : Fin K → ℝ) (X : Matrix (Fin K) (Fin n) ℝ) (μ : Fin n → ℝ) : wcov v X μ = wcross v X μ X μ := rfl

theorem average_of {K n : Nat} (X : Matrix (Fin K) (Fin n) ℝ) (w : Fin K → ℝ) (hw : ∑ i, w i = 1) :
    average ⟨K, n, X⟩ ⟨K, w⟩ = .ok ⟨n, wmean w X⟩ := by
  unfold average
  rw [if_neg (by simp), if_neg (by simp [hw])]
  refine congrArg (fun M => Except.ok (Vec.mk n M)) ?_
  funext j
  simp only [hw, div_one, wmean, Vec.at_fin]
  exact Finset.sum_congr rfl fun i _ => mul_comm _ _

theorem unscentedCov_of {K n k : Nat} (v : Fin K → ℝ) (X : Matrix (Fin K) (Fin n) ℝ) (μ : Fin n → ℝ) (Y : Matrix (Fin K) (Fin k) ℝ)
    (ν : Fin k → ℝ) : unscentedCov ⟨K, v⟩ ⟨K, n, fun i j => X i j - μ j⟩ ⟨K, k, fun i j => Y i j - ν j⟩ =
      .ok ⟨n, k, wcross v X μ Y ν⟩ := by
  unfold unscentedCov
  rw [Mat.diag_of, Mat.mul_of (Matrix.diagonal v) (fun i j => Y i j - ν j : Matrix (Fin K) (Fin k) ℝ), ok_bind,
    Mat.transpose_of (fun i j => X i j - μ j : Matrix (Fin K) (Fin n) ℝ), Mat.mul_of]
  refine congrArg (fun M => Except.ok (Mat.mk n k M)) ?_
  ext a b
  rw [Matrix.mul_apply]
  refine Finset.sum_congr rfl fun i _ => ?_
  let D : Matrix (Fin K) (Fin k) ℝ := fun i j => Y i j - ν j
  have e : (Matrix.diagonal v * D) i b = v i * (Y i b - ν b) := Matrix.diagonal_mul v D i b
  refine (congrArg ((X i a - μ a) * ·) e).trans ?_
  ring

theorem assemble_of {K n : Nat} (X : Matrix (Fin K) (Fin n) ℝ) (w v : Fin K → ℝ) (hw : ∑ i, w i = 1) :
    assemble ⟨K, n, X⟩ ⟨K, w⟩ ⟨K, v⟩ = .ok (⟨n, wmean w X⟩, ⟨n, n, wcov v X (wmean w X)⟩) := by
  unfold assemble
  rw [average_of X w hw, ok_bind, Mat.bop_row, ok_bind, unscentedCov_of, ok_bind]
  rfl

/-! ## The filter -/

/-- A filter with `n` hidden and `o` output dimensions, mean `μ`, covariance `P` and noises `Q` and `R`, tuned legally. -/
structure Ukf.Holds {σ : Type} (f : Ukf σ) (n o : Nat) (μ : Fin n → ℝ) (P Q : Matrix (Fin n) (Fin n) ℝ) (R : Matrix (Fin o) (Fin o) ℝ) :
    Prop where
  nHidden : f.model.nHidden = n
  nOut : f.model.nOut = o
  n_pos : 1 ≤ n
  hidden : f.hidden = ⟨⟨n, μ⟩, ⟨n, n, P⟩⟩
  covW : f.covW = ⟨n, n, Q⟩
  covV : f.covV = ⟨o, o, R⟩
  augLen : f.augLen = 2 * n + o
  alpha_pos : 1 / 1000 ≤ f.alpha
  alpha_le : f.alpha ≤ 1
  beta_nonneg : 0 ≤ f.beta
  spread : 0 < f.augLen + f.kappa

/-- One weight for the centre and one for all the other points. -/
def wts (l : Nat) (a b : ℝ) : Fin (1 + l + l) → ℝ := fun i => if i.1 = 0 then a else b

theorem sum_wts {l : Nat} (a b : ℝ) (g : Fin (1 + l + l) → ℝ) :
    ∑ i, wts l a b i * g i = a * g (Fin.castAdd l (Fin.castAdd l 0)) + b * ∑ k, g (Fin.castAdd l (Fin.natAdd 1 k)) +
      b * ∑ k, g (Fin.natAdd (1 + l) k) := by
  rw [Fin.sum_univ_add, Fin.sum_univ_add]
  simp only [wts, Finset.mul_sum]
  simp [Nat.add_eq_zero_iff]

theorem sum_wts_one {l : Nat} (a b : ℝ) : ∑ i, wts l a b i = a + 2 * l * b := by
  have := sum_wts (l := l) a b fun _ => 1
  simp only [mul_one, Finset.sum_const, Finset.card_univ, Fintype.card_fin, nsmul_eq_mul] at this
  rw [this]; ring

/-- The points: the centre, and one on either side of it along every row of `S`. -/
def sigmaPts {l : Nat} (c : Fin l → ℝ) (γ : ℝ) (S : Matrix (Fin l) (Fin l) ℝ) : Matrix (Fin (1 + l + l)) (Fin l) ℝ := fun i =>
  Fin.addCases (motive := fun _ => Fin l → ℝ)
    (fun i => Fin.addCases (motive := fun _ => Fin l → ℝ) (fun _ => c) (fun k j => c j + γ * S k j) i) (fun k j => c j + -γ * S k j) i

@[simp] theorem sigmaPts_centre {l : Nat} (c : Fin l → ℝ) (γ : ℝ) (S : Matrix (Fin l) (Fin l) ℝ) (z : Fin 1) :
    sigmaPts c γ S (Fin.castAdd l (Fin.castAdd l z)) = c := by simp [sigmaPts]

@[simp] theorem sigmaPts_plus {l : Nat} (c : Fin l → ℝ) (γ : ℝ) (S : Matrix (Fin l) (Fin l) ℝ) (k : Fin l) :
    sigmaPts c γ S (Fin.castAdd l (Fin.natAdd 1 k)) = fun j => c j + γ * S k j := by simp [sigmaPts]

@[simp] theorem sigmaPts_minus {l : Nat} (c : Fin l → ℝ) (γ : ℝ) (S : Matrix (Fin l) (Fin l) ℝ) (k : Fin l) :
    sigmaPts c γ S (Fin.natAdd (1 + l) k) = fun j => c j + -γ * S k j := by simp [sigmaPts]

theorem wmean_sigmaPts {l : Nat} (c : Fin l → ℝ) (γ : ℝ) (S : Matrix (Fin l) (Fin l) ℝ) (a b : ℝ) (h : a + 2 * l * b = 1) :
    wmean (wts l a b) (sigmaPts c γ S) = c := by
  funext j
  rw [wmean, sum_wts]
  simp only [sigmaPts_centre, sigmaPts_plus, sigmaPts_minus, Finset.sum_add_distrib, Finset.sum_const, Finset.card_univ,
    Fintype.card_fin, nsmul_eq_mul, neg_mul, Finset.sum_neg_distrib]
  have : c j = (a + 2 * l * b) * c j := by rw [h, one_mul]
  linarith

theorem wcov_sigmaPts {l : Nat} (c : Fin l → ℝ) (γ : ℝ) (S : Matrix (Fin l) (Fin l) ℝ) (a b : ℝ) (h : 2 * b * γ ^ 2 = 1) :
    wcov (wts l a b) (sigmaPts c γ S) c = Sᵀ * S := by
  ext p q
  simp only [wcov, mul_assoc]
  rw [sum_wts (g := fun i => (sigmaPts c γ S i p - c p) * (sigmaPts c γ S i q - c q))]
  simp only [sigmaPts_centre, sigmaPts_plus, sigmaPts_minus, sub_self, zero_mul, mul_zero, zero_add, add_sub_cancel_left,
    Matrix.mul_apply, Matrix.transpose_apply]
  have h1 : ∑ k, γ * S k p * (γ * S k q) = γ ^ 2 * ∑ k, S k p * S k q := by
    rw [Finset.mul_sum]; exact Finset.sum_congr rfl fun k _ => by ring
  have h2 : ∑ k, -γ * S k p * (-γ * S k q) = γ ^ 2 * ∑ k, S k p * S k q := by
    rw [Finset.mul_sum]; exact Finset.sum_congr rfl fun k _ => by ring
  rw [h1, h2]
  have : ∑ k, S k p * S k q = 2 * b * γ ^ 2 * ∑ k, S k p * S k q := by rw [h, one_mul]
  linarith

namespace Ukf
variable {σ : Type} {f : Ukf σ} {n o : Nat} {μ : Fin n → ℝ} {P Q : Matrix (Fin n) (Fin n) ℝ} {R : Matrix (Fin o) (Fin o) ℝ}

/-- `α² (L + κ)`. -/
noncomputable def scale (f : Ukf σ) : ℝ := f.alpha * f.alpha * (f.augLen + f.kappa)

/-- Weight of the centre in means. -/
noncomputable def wm0 (f : Ukf σ) : ℝ := f.lambda / f.scale

/-- Weight of the centre in covariances. -/
noncomputable def wc0 (f : Ukf σ) : ℝ := f.wm0 + (1 - f.alpha * f.alpha + f.beta)

/-- Weight of the other points. -/
noncomputable def w1 (f : Ukf σ) : ℝ := 1 / 2 / f.scale

theorem Holds.scale_pos (h : f.Holds n o μ P Q R) : 0 < f.scale := by
  have := h.alpha_pos
  have : 0 < f.alpha := by linarith
  exact mul_pos (mul_pos this this) h.spread

theorem Holds.w1_pos (h : f.Holds n o μ P Q R) : 0 < f.w1 := div_pos (by norm_num) h.scale_pos

theorem Holds.gamma_pos (h : f.Holds n o μ P Q R) : 0 < f.gamma := by
  have := h.alpha_pos
  exact mul_pos (by linarith) (Real.sqrt_pos.2 h.spread)

theorem Holds.gamma_sq (h : f.Holds n o μ P Q R) : 2 * f.w1 * f.gamma ^ 2 = 1 := by
  have hs := h.scale_pos
  have : f.gamma ^ 2 = f.scale := by
    unfold gamma scale
    rw [mul_pow, Real.sq_sqrt h.spread.le]; ring
  rw [this, w1]
  field_simp

theorem Holds.weights_sum (h : f.Holds n o μ P Q R) : f.wm0 + 2 * (n + (n + o) : Nat) * f.w1 = 1 := by
  have hs := h.scale_pos
  have hl : f.lambda = f.scale - f.augLen := rfl
  have ha : (f.augLen : ℝ) = (n + (n + o) : Nat) := by rw [h.augLen]; push_cast; ring
  rw [wm0, w1, hl, ha]
  field_simp
  ring

theorem Holds.meanWeights (h : f.Holds n o μ P Q R) :
    f.meanWeights = ⟨1 + (n + (n + o)) + (n + (n + o)), wts (n + (n + o)) f.wm0 f.w1⟩ := by
  have hL : 2 * f.augLen + 1 = 1 + (n + (n + o)) + (n + (n + o)) := by rw [h.augLen]; omega
  refine Vec.ext_at hL fun i hi => ?_
  have hi' : i < 1 + (n + (n + o)) + (n + (n + o)) := lt_of_lt_of_eq hi hL
  rw [Vec.at_lt hi, Vec.at_lt (v := ⟨1 + (n + (n + o)) + (n + (n + o)), _⟩) hi']
  simp only [Ukf.meanWeights, wts, wm0, w1, scale]
  split <;> rfl

theorem Holds.covWeights (h : f.Holds n o μ P Q R) :
    f.covWeights = ⟨1 + (n + (n + o)) + (n + (n + o)), wts (n + (n + o)) f.wc0 f.w1⟩ := by
  have hL : 2 * f.augLen + 1 = 1 + (n + (n + o)) + (n + (n + o)) := by rw [h.augLen]; omega
  refine Vec.ext_at hL fun i hi => ?_
  have hi' : i < 1 + (n + (n + o)) + (n + (n + o)) := lt_of_lt_of_eq hi hL
  rw [Vec.at_lt hi, Vec.at_lt (v := ⟨1 + (n + (n + o)) + (n + (n + o)), _⟩) hi']
  simp only [Ukf.covWeights, Ukf.meanWeights, wts, wm0, w1, wc0, scale]
  split <;> rfl

/-- Centre of the augmented state: no noise. -/
def augMean (o : Nat) (μ : Fin n → ℝ) : Fin (n + (n + o)) → ℝ := Fin.append μ 0

/-- Covariance of the augmented state: state, process noise and sensor noise independent. -/
def augCov (P Q : Matrix (Fin n) (Fin n) ℝ) (R : Matrix (Fin o) (Fin o) ℝ) : Matrix (Fin (n + (n + o))) (Fin (n + (n + o))) ℝ :=
  blk2 P (blk2 Q R)

theorem augCov_posDef (hP : P.PosDef) (hQ : Q.PosDef) (hR : R.PosDef) : (augCov P Q R).PosDef := blk2_posDef hP (blk2_posDef hQ hR)

/-- The points built from a Cholesky factor. -/
theorem Holds.buildSigma_of (h : f.Holds n o μ P Q R) (svd : Mat → Vec × Mat) {A L : Matrix (Fin (n + (n + o))) (Fin (n + (n + o))) ℝ}
    (he : ensurePsd svd ⟨_, _, augCov P Q R⟩ = .ok ⟨_, _, A⟩) (hL : IsCholesky A L) :
    f.buildSigma svd = .ok ⟨_, _, sigmaPts (augMean o μ) f.gamma Lᵀ⟩ := by
  have ha : f.augLen = n + (n + o) := by rw [h.augLen]; omega
  unfold buildSigma
  rw [h.hidden, h.covW, h.covV, h.nHidden, h.nOut, ha]
  have e1 : Mat.blockDiag [⟨n, n, P⟩, ⟨n, n, Q⟩, ⟨o, o, R⟩] = ⟨_, _, augCov P Q R⟩ := by
    rw [Mat.blockDiag_cons, Mat.blockDiag_cons, Mat.blockDiag, Mat.block2_of, Mat.block2_of]; rfl
  simp only [e1, he, ok_bind, cholesky_ok hL, Mat.transpose_of]
  have e2 : (Vec.append ⟨n, μ⟩ (Vec.zeros (n + o))) = ⟨n + (n + o), augMean o μ⟩ := by
    unfold Vec.zeros
    rw [Vec.append_of]; rfl
  have e3 : Mat.ofRow (Vec.zeros (n + (n + o))) = ⟨1, n + (n + o), 0⟩ := rfl
  have e4 : ∀ g : ℝ, Mat.map (g * ·) ⟨n + (n + o), n + (n + o), Lᵀ⟩ = ⟨_, _, g • Lᵀ⟩ := fun g => rfl
  rw [e2, e3, e4, e4, Mat.vstack_of, ok_bind, Mat.vstack_of, ok_bind, Mat.bop_row_left]
  refine congrArg (fun M => Except.ok (Mat.mk _ _ M)) ?_
  funext i j
  refine Fin.addCases (fun i => ?_) (fun i => ?_) i
  · rw [stack_left]
    refine Fin.addCases (fun i => ?_) (fun i => ?_) i
    · rw [stack_left, sigmaPts_centre]; exact add_zero _
    · rw [stack_right, sigmaPts_plus]; rfl
  · rw [stack_right, sigmaPts_minus]; rfl

/-- Process noise added to the evolved states. -/
def noisy {K a : Nat} (X : Matrix (Fin K) (Fin a) ℝ) (W : Matrix (Fin K) (Fin a) ℝ) : Matrix (Fin K) (Fin a) ℝ := fun i j => X i j + W i j

/-- State part of augmented points. -/
def xPart {K : Nat} (X : Matrix (Fin K) (Fin (n + (n + o))) ℝ) : Matrix (Fin K) (Fin n) ℝ := fun i j => X i (Fin.castAdd (n + o) j)

/-- Process-noise part of augmented points. -/
def wPart {K : Nat} (X : Matrix (Fin K) (Fin (n + (n + o))) ℝ) : Matrix (Fin K) (Fin n) ℝ :=
  fun i j => X i (Fin.natAdd n (Fin.castAdd o j))

/-- Sensor-noise part of augmented points. -/
def vPart {K : Nat} (X : Matrix (Fin K) (Fin (n + (n + o))) ℝ) : Matrix (Fin K) (Fin o) ℝ :=
  fun i j => X i (Fin.natAdd n (Fin.natAdd n j))

/-- The prediction from given points, when the model returns arrays that fit. -/
theorem Holds.estimation_of (h : f.Holds n o μ P Q R) (ho : 1 ≤ o)
    (X : Matrix (Fin (1 + (n + (n + o)) + (n + (n + o)))) (Fin (n + (n + o))) ℝ) (new : Dist) {Y Z m}
    (hY : f.model.update f.mem ⟨_, _, xPart X⟩ f.controls.mean new.mean = .ok (⟨_, n, Y⟩, m))
    (hZ : f.model.predict m ⟨_, _, noisy Y (wPart X)⟩ new.mean = .ok ⟨_, o, Z⟩) :
    let xs := noisy Y (wPart X)
    let ys := noisy Z (vPart X)
    let wm := wts (n + (n + o)) f.wm0 f.w1
    let wc := wts (n + (n + o)) f.wc0 f.w1
    f.estimationUpdate ⟨_, _, X⟩ new = .ok ⟨⟨⟨n, wmean wm xs⟩, ⟨n, n, wcov wc xs (wmean wm xs)⟩⟩,
      ⟨⟨o, wmean wm ys⟩, ⟨o, o, wcov wc ys (wmean wm ys)⟩⟩, ⟨n, o, wcross wc xs (wmean wm xs) ys (wmean wm ys)⟩, m⟩ := by
  intro xs ys wm wc
  have hw : ∑ i, wm i = 1 := by rw [sum_wts_one]; exact h.weights_sum
  have c1 : Mat.cols ⟨_, _, X⟩ 0 n = ⟨_, n, xPart X⟩ := Mat.cols_left X
  have c2 : Mat.cols ⟨_, _, X⟩ n (2 * n) = ⟨_, n, wPart X⟩ := by rw [Nat.two_mul]; exact Mat.cols_mid X
  have c3 : Mat.cols ⟨_, _, X⟩ (2 * n) (n + (n + o)) = ⟨_, o, vPart X⟩ := by rw [Nat.two_mul]; exact Mat.cols_last X
  have b1 : Mat.bopInto (· + ·) ⟨_, n, Y⟩ ⟨_, n, wPart X⟩ = .ok ⟨_, n, xs⟩ := Mat.bopInto_of _ _ _
  have b2 : Mat.bopInto (· + ·) ⟨_, o, Z⟩ ⟨_, o, vPart X⟩ = .ok ⟨_, o, ys⟩ := Mat.bopInto_of _ _ _
  unfold estimationUpdate
  simp only [h.nHidden, c1, c2, c3, hY, ok_bind, b1, h.meanWeights, h.covWeights]
  rw [assemble_of xs wm wc hw]
  simp only [ok_bind]
  rw [Gaussian.make_of h.n_pos]
  simp only [ok_bind]
  have hZ' : f.model.predict m ⟨_, n, xs⟩ new.mean = .ok ⟨_, o, Z⟩ := hZ
  rw [hZ']
  simp only [ok_bind, b2]
  rw [assemble_of ys wm wc hw]
  simp only [ok_bind]
  rw [Gaussian.make_of ho]
  simp only [ok_bind, Mat.bop_row, unscentedCov_of]
  rfl

/-- The gain. -/
noncomputable def gain {n o : Nat} (C : Matrix (Fin n) (Fin o) ℝ) (S : Matrix (Fin o) (Fin o) ℝ) : Matrix (Fin n) (Fin o) ℝ := C * S⁻¹

theorem gainMatrix_of {n o : Nat} (C : Matrix (Fin n) (Fin o) ℝ) (S : Matrix (Fin o) (Fin o) ℝ) (hS : S.det ≠ 0) :
    gainMatrix ⟨n, o, C⟩ ⟨o, o, S⟩ = .ok ⟨n, o, gain C S⟩ := by
  unfold gainMatrix
  rw [Mat.inv_of S hS, ok_bind, Mat.mul_of]; rfl

/-- The correction when the corrected covariance is positive definite. -/
theorem correction_of (svd : Mat → Vec × Mat) (hn : 1 ≤ n) (x : Fin n → ℝ) (Px : Matrix (Fin n) (Fin n) ℝ) (y : Fin o → ℝ)
    (S : Matrix (Fin o) (Fin o) ℝ) (C : Matrix (Fin n) (Fin o) ℝ) (meas : Dist) (z : Fin o → ℝ) (hz : meas.mean = ⟨o, z⟩)
    (hS : S.det ≠ 0) (hpd : (Px - gain C S * (S * (gain C S)ᵀ)).PosDef) :
    correctionUpdate svd ⟨⟨n, x⟩, ⟨n, n, Px⟩⟩ ⟨⟨o, y⟩, ⟨o, o, S⟩⟩ ⟨n, o, C⟩ meas =
      .ok ⟨⟨n, x + gain C S *ᵥ (z - y)⟩, ⟨n, n, Px - gain C S * (S * (gain C S)ᵀ)⟩⟩ := by
  unfold correctionUpdate
  simp only [gainMatrix_of C S hS, hz, ok_bind, Vec.bop_of]
  have e1 : Mat.mulVec ⟨n, o, gain C S⟩ ⟨o, fun i => z i - y i⟩ = .ok ⟨n, gain C S *ᵥ (z - y)⟩ := Mat.mulVec_of _ _
  rw [e1]
  simp only [ok_bind, Vec.bop_of, Mat.transpose_of, Mat.mul_of, Mat.bop_of]
  have e2 : ensurePsd svd ⟨n, n, fun i j => Px i j - (gain C S * (S * (gain C S)ᵀ)) i j⟩ =
      .ok ⟨n, n, Px - gain C S * (S * (gain C S)ᵀ)⟩ := ensurePsd_posDef svd hpd
  rw [e2]
  simp only [ok_bind]
  exact Gaussian.make_of hn _ _

end Ukf
end Verif
