import Verif.Props.Ukf
/-!
# The unscented filter in other units
-/

namespace Verif
open Matrix

/-- One factor and one offset per coordinate. -/
def rescale {k : Nat} (d b : Fin k → ℝ) (x : Fin k → ℝ) : Fin k → ℝ := fun i => d i * x i + b i

/-- What becomes of a covariance (between quantities with factors `d` and `e`). -/
def rescaleCov {k l : Nat} (d : Fin k → ℝ) (e : Fin l → ℝ) (A : Matrix (Fin k) (Fin l) ℝ) : Matrix (Fin k) (Fin l) ℝ :=
  fun i j => d i * A i j * e j

theorem rescaleCov_eq {k l : Nat} (d : Fin k → ℝ) (e : Fin l → ℝ) (A : Matrix (Fin k) (Fin l) ℝ) :
    rescaleCov d e A = Matrix.diagonal d * A * Matrix.diagonal e := by
  ext i j
  rw [Matrix.mul_diagonal, Matrix.diagonal_mul]
  rfl

theorem rescaleCov_transpose {k l : Nat} (d : Fin k → ℝ) (e : Fin l → ℝ) (A : Matrix (Fin k) (Fin l) ℝ) :
    (rescaleCov d e A)ᵀ = rescaleCov e d Aᵀ := by
  ext i j
  simp only [Matrix.transpose_apply, rescaleCov]
  ring

theorem rescaleCov_posDef {k : Nat} {d : Fin k → ℝ} (hd : ∀ i, d i ≠ 0) {A : Matrix (Fin k) (Fin k) ℝ} (hA : A.PosDef) :
    (rescaleCov d d A).PosDef := by
  rw [rescaleCov_eq]
  have h : IsUnit (Matrix.diagonal d) := by
    rw [Matrix.isUnit_iff_isUnit_det, Matrix.det_diagonal]
    exact (Finset.prod_ne_zero_iff.2 fun i _ => hd i).isUnit
  have := (Matrix.IsUnit.posDef_star_right_conjugate_iff (x := A) h).2 hA
  rwa [Matrix.star_eq_conjTranspose, Matrix.conjTranspose_eq_transpose_of_trivial, Matrix.diagonal_transpose] at this

/-- The correction with rescaled covariances. -/
theorem gain_rescale {n o : Nat} {d : Fin n → ℝ} {e : Fin o → ℝ} (he : ∀ i, e i ≠ 0) (C : Matrix (Fin n) (Fin o) ℝ)
    (S : Matrix (Fin o) (Fin o) ℝ) :
    rescaleCov d e C * (rescaleCov e e S)⁻¹ = Matrix.diagonal d * (C * S⁻¹) * (Matrix.diagonal e)⁻¹ := by
  have hdet : IsUnit (Matrix.diagonal e).det := by
    rw [Matrix.det_diagonal]; exact (Finset.prod_ne_zero_iff.2 fun i _ => he i).isUnit
  rw [rescaleCov_eq, rescaleCov_eq, Matrix.mul_inv_rev, Matrix.mul_inv_rev]
  simp only [Matrix.mul_assoc]
  rw [Matrix.mul_nonsing_inv_cancel_left _ _ hdet]

/-! ## The factorisation -/

/-- The factor of a rescaled covariance. -/
noncomputable def rescaleFactor {l : Nat} (t : Fin l → ℝ) (L : Matrix (Fin l) (Fin l) ℝ) : Matrix (Fin l) (Fin l) ℝ :=
  fun i j => t i * L i j * (t j / |t j|)

theorem IsCholesky.rescale {l : Nat} {A L : Matrix (Fin l) (Fin l) ℝ} (h : IsCholesky A L) {t : Fin l → ℝ} (ht : ∀ i, t i ≠ 0) :
    IsCholesky (rescaleCov t t A) (rescaleFactor t L) := by
  have hs : ∀ k, (t k / |t k|) * (t k / |t k|) = 1 := fun k => by
    have : |t k| ≠ 0 := abs_ne_zero.2 (ht k)
    field_simp
    exact (sq_abs (t k)).symm
  refine ⟨fun i j hij => by simp only [rescaleFactor, h.1 i j hij, mul_zero, zero_mul], fun i => ?_, fun i j hij => ?_⟩
  · have e : t i * L i i * (t i / |t i|) = |t i| * L i i := by
      have : |t i| ≠ 0 := abs_ne_zero.2 (ht i)
      field_simp
      rw [sq_abs, mul_comm]
    rw [rescaleFactor, e]
    exact mul_pos (abs_pos.2 (ht i)) (h.2.1 i)
  · rw [rescaleCov, ← h.2.2 i j hij, Matrix.mul_apply, Matrix.mul_apply, Finset.mul_sum, Finset.sum_mul]
    refine Finset.sum_congr rfl fun k _ => ?_
    simp only [Matrix.transpose_apply, rescaleFactor]
    calc t i * L i k * (t k / |t k|) * (t j * L j k * (t k / |t k|)) = t i * (L i k * L j k) * t j * ((t k / |t k|) * (t k / |t k|)) := by ring
      _ = _ := by rw [hs, mul_one]

/-! ## The points -/

section
variable {l : Nat} (t : Fin l → ℝ)

/-- Where the factor is negative, the points on either side are exchanged. -/
noncomputable def flip (i : Fin (1 + l + l)) : Fin (1 + l + l) :=
  Fin.addCases (motive := fun _ => Fin (1 + l + l))
    (fun i => Fin.addCases (motive := fun _ => Fin (1 + l + l)) (fun z => Fin.castAdd l (Fin.castAdd l z))
      (fun k => if 0 < t k then Fin.castAdd l (Fin.natAdd 1 k) else Fin.natAdd (1 + l) k) i)
    (fun k => if 0 < t k then Fin.natAdd (1 + l) k else Fin.castAdd l (Fin.natAdd 1 k)) i

@[simp] theorem flip_centre (z : Fin 1) : flip t (Fin.castAdd l (Fin.castAdd l z)) = Fin.castAdd l (Fin.castAdd l z) := by
  simp [flip]

@[simp] theorem flip_plus (k : Fin l) : flip t (Fin.castAdd l (Fin.natAdd 1 k)) =
    if 0 < t k then Fin.castAdd l (Fin.natAdd 1 k) else Fin.natAdd (1 + l) k := by simp [flip]

@[simp] theorem flip_minus (k : Fin l) : flip t (Fin.natAdd (1 + l) k) =
    if 0 < t k then Fin.natAdd (1 + l) k else Fin.castAdd l (Fin.natAdd 1 k) := by simp [flip]

theorem point_cases {l : Nat} {p : Fin (1 + l + l) → Prop} (h0 : ∀ z, p (Fin.castAdd l (Fin.castAdd l z)))
    (h1 : ∀ k, p (Fin.castAdd l (Fin.natAdd 1 k))) (h2 : ∀ k, p (Fin.natAdd (1 + l) k)) (i) : p i :=
  Fin.addCases (fun i => Fin.addCases h0 h1 i) h2 i

theorem flip_involutive : Function.Involutive (flip t) := by
  intro i
  induction i using point_cases with
  | h0 z =>
    simp
  | h1 k =>
    by_cases h : 0 < t k <;> simp [h]
  | h2 k =>
    by_cases h : 0 < t k <;> simp [h]

/-- The exchange as a permutation. -/
noncomputable def flipPerm : Equiv.Perm (Fin (1 + l + l)) := (flip_involutive t).toPerm

theorem wts_flip (a b : ℝ) (i : Fin (1 + l + l)) : wts l a b (flipPerm t i) = wts l a b i := by
  show wts l a b (flip t i) = _
  induction i using point_cases with
  | h0 z =>
    simp
  | h1 k =>
    by_cases h : 0 < t k <;> simp [h, wts]
  | h2 k =>
    by_cases h : 0 < t k <;> simp [h, wts]

theorem sigmaPts_rescale (ht : ∀ i, t i ≠ 0) (c r : Fin l → ℝ) (γ : ℝ) (L : Matrix (Fin l) (Fin l) ℝ) (i : Fin (1 + l + l)) :
    sigmaPts (rescale t r c) γ (rescaleFactor t L)ᵀ i =
      rescale t r (sigmaPts c γ Lᵀ (flipPerm t i)) := by
  show _ = rescale t r (sigmaPts c γ Lᵀ (flip t i))
  induction i using point_cases with
  | h0 z =>
    rw [flip_centre, sigmaPts_centre, sigmaPts_centre]
  | h1 k =>
    rw [flip_plus, sigmaPts_plus]
    funext j
    by_cases h : 0 < t k
    · rw [if_pos h, sigmaPts_plus]
      simp only [rescale, Matrix.transpose_apply, rescaleFactor, abs_of_pos h, div_self h.ne']
      ring
    · have h' : t k < 0 := lt_of_le_of_ne (not_lt.1 h) (ht k)
      rw [if_neg h, sigmaPts_minus]
      simp only [rescale, Matrix.transpose_apply, rescaleFactor, abs_of_neg h', div_neg, div_self h'.ne]
      ring
  | h2 k =>
    rw [flip_minus, sigmaPts_minus]
    funext j
    by_cases h : 0 < t k
    · rw [if_pos h, sigmaPts_minus]
      simp only [rescale, Matrix.transpose_apply, rescaleFactor, abs_of_pos h, div_self h.ne']
      ring
    · have h' : t k < 0 := lt_of_le_of_ne (not_lt.1 h) (ht k)
      rw [if_neg h, sigmaPts_plus]
      simp only [rescale, Matrix.transpose_apply, rescaleFactor, abs_of_neg h', div_neg, div_self h'.ne]
      ring
end

/-! ## Moments -/

theorem wmean_rescale {K n : Nat} {w : Fin K → ℝ} (hw : ∑ i, w i = 1) (π : Equiv.Perm (Fin K)) (hπ : ∀ i, w (π i) = w i)
    (d b : Fin n → ℝ) {X X' : Matrix (Fin K) (Fin n) ℝ} (h : ∀ i, X i = rescale d b (X' (π i))) :
    wmean w X = rescale d b (wmean w X') := by
  funext j
  simp only [wmean, h, rescale]
  have : ∀ i, w i * (d j * X' (π i) j + b j) = (fun i => w i * (d j * X' i j + b j)) (π i) := fun i => by simp only [hπ]
  rw [Finset.sum_congr rfl fun i _ => this i, Equiv.sum_comp π fun i => w i * (d j * X' i j + b j)]
  simp only [mul_add, Finset.sum_add_distrib, ← Finset.sum_mul, hw, one_mul, Finset.mul_sum]
  congr 1
  exact Finset.sum_congr rfl fun i _ => by ring

theorem wcross_rescale {K n k : Nat} {v : Fin K → ℝ} (π : Equiv.Perm (Fin K)) (hπ : ∀ i, v (π i) = v i)
    (d b : Fin n → ℝ) (e c : Fin k → ℝ) {X X' : Matrix (Fin K) (Fin n) ℝ} (h : ∀ i, X i = rescale d b (X' (π i)))
    {Y Y' : Matrix (Fin K) (Fin k) ℝ} (h' : ∀ i, Y i = rescale e c (Y' (π i))) (μ : Fin n → ℝ) (ν : Fin k → ℝ) :
    wcross v X (rescale d b μ) Y (rescale e c ν) = rescaleCov d e (wcross v X' μ Y' ν) := by
  ext p q
  simp only [wcross, h, h', rescale, rescaleCov]
  have : ∀ i, v i * (d p * X' (π i) p + b p - (d p * μ p + b p)) * (e q * Y' (π i) q + c q - (e q * ν q + c q)) =
      (fun i => d p * (v i * (X' i p - μ p) * (Y' i q - ν q)) * e q) (π i) := fun i => by
    simp only [hπ]; ring
  rw [Finset.sum_congr rfl fun i _ => this i,
    Equiv.sum_comp π fun i => d p * (v i * (X' i p - μ p) * (Y' i q - ν q)) * e q, Finset.mul_sum, Finset.sum_mul]

namespace Ukf
variable {σ τ : Type} {f : Ukf σ} {f' : Ukf τ} {n o : Nat} {μ' : Fin n → ℝ} {P' Q' : Matrix (Fin n) (Fin n) ℝ}
  {R' : Matrix (Fin o) (Fin o) ℝ} {d b : Fin n → ℝ} {e c : Fin o → ℝ}

/-- The factors of the augmented state. -/
def augFactor (d : Fin n → ℝ) (e : Fin o → ℝ) : Fin (n + (n + o)) → ℝ := Fin.append d (Fin.append d e)

theorem augFactor_ne_zero (hd : ∀ i, d i ≠ 0) (he : ∀ i, e i ≠ 0) (i : Fin (n + (n + o))) : augFactor d e i ≠ 0 := by
  unfold augFactor
  refine Fin.addCases (fun i => ?_) (fun i => ?_) i
  · rw [Fin.append_left]; exact hd i
  · rw [Fin.append_right]
    refine Fin.addCases (fun i => ?_) (fun i => ?_) i
    · rw [Fin.append_left]; exact hd i
    · rw [Fin.append_right]; exact he i

theorem blk2_rescale {k l : Nat} (d : Fin k → ℝ) (e : Fin l → ℝ) (A : Matrix (Fin k) (Fin k) ℝ) (B : Matrix (Fin l) (Fin l) ℝ) :
    blk2 (rescaleCov d d A) (rescaleCov e e B) = rescaleCov (Fin.append d e) (Fin.append d e) (blk2 A B) := by
  ext i j
  refine Fin.addCases (fun i => ?_) (fun i => ?_) i <;> refine Fin.addCases (fun j => ?_) (fun j => ?_) j <;>
    simp only [blk2_ll, blk2_lr, blk2_rl, blk2_rr] <;> simp only [rescaleCov] <;> simp

theorem augCov_rescale : augCov (rescaleCov d d P') (rescaleCov d d Q') (rescaleCov e e R') =
    rescaleCov (augFactor d e) (augFactor d e) (augCov P' Q' R') := by
  unfold augCov augFactor
  rw [blk2_rescale, blk2_rescale]

theorem augMean_rescale : augMean o (rescale d b μ') = rescale (augFactor d e) (augMean o b) (augMean o μ') := by
  funext i
  unfold augMean augFactor rescale
  refine Fin.addCases (fun i => ?_) (fun i => ?_) i <;> simp

/-- One step of two filters whose models, beliefs, noises, inputs and measurements correspond. -/
theorem step_rescale (hd : ∀ i, d i ≠ 0) (he : ∀ i, e i ≠ 0) (h' : f'.Holds n o μ' P' Q' R')
    (h : f.Holds n o (rescale d b μ') (rescaleCov d d P') (rescaleCov d d Q') (rescaleCov e e R'))
    (halpha : f.alpha = f'.alpha) (hbeta : f.beta = f'.beta) (hkappa : f.kappa = f'.kappa)
    (hP : P'.PosDef) (hQ : Q'.PosDef) (hR : R'.PosDef) (ho : 1 ≤ o) (hw : 0 ≤ f'.wc0) (svd : Mat → Vec × Mat)
    (new meas new' meas' : Dist) (z' : Fin o → ℝ) (hz' : meas'.mean = ⟨o, z'⟩) (hz : meas.mean = ⟨o, rescale e c z'⟩)
    {g g' : (Fin n → ℝ) → Fin n → ℝ} {k k' : (Fin n → ℝ) → Fin o → ℝ} (hg : ∀ x, g (rescale d b x) = rescale d b (g' x))
    (hk : ∀ x, k (rescale d b x) = rescale e c (k' x)) {m : σ} {m' : τ}
    (hY : ∀ K, 1 ≤ K → ∀ X : Matrix (Fin K) (Fin n) ℝ, f.model.update f.mem ⟨K, n, X⟩ f.controls.mean new.mean = .ok (⟨K, n, fun i => g (X i)⟩, m))
    (hZ : ∀ K, 1 ≤ K → ∀ X : Matrix (Fin K) (Fin n) ℝ, f.model.predict m ⟨K, n, X⟩ new.mean = .ok ⟨K, o, fun i => k (X i)⟩)
    (hY' : ∀ K, 1 ≤ K → ∀ X : Matrix (Fin K) (Fin n) ℝ,
      f'.model.update f'.mem ⟨K, n, X⟩ f'.controls.mean new'.mean = .ok (⟨K, n, fun i => g' (X i)⟩, m'))
    (hZ' : ∀ K, 1 ≤ K → ∀ X : Matrix (Fin K) (Fin n) ℝ, f'.model.predict m' ⟨K, n, X⟩ new'.mean = .ok ⟨K, o, fun i => k' (X i)⟩) :
    ∃ (x : Fin n → ℝ) (Px : Matrix (Fin n) (Fin n) ℝ) (y : Fin o → ℝ) (S : Matrix (Fin o) (Fin o) ℝ), Px.PosDef ∧
      f'.step svd new' meas' = .ok ({ f' with hidden := ⟨⟨n, x⟩, ⟨n, n, Px⟩⟩, mem := m', controls := new' },
        (⟨⟨n, x⟩, ⟨n, n, Px⟩⟩, ⟨⟨o, y⟩, ⟨o, o, S⟩⟩)) ∧
      f.step svd new meas = .ok ({ f with hidden := ⟨⟨n, rescale d b x⟩, ⟨n, n, rescaleCov d d Px⟩⟩, mem := m, controls := new },
        (⟨⟨n, rescale d b x⟩, ⟨n, n, rescaleCov d d Px⟩⟩, ⟨⟨o, rescale e c y⟩, ⟨o, o, rescaleCov e e S⟩⟩)) := by
  have hlen : f.augLen = f'.augLen := h.augLen.trans h'.augLen.symm
  have hgam : f.gamma = f'.gamma := by simp only [gamma, halpha, hkappa, hlen]
  have hwm : f.wm0 = f'.wm0 := by simp only [wm0, scale, lambda, halpha, hkappa, hlen]
  have hwc : f.wc0 = f'.wc0 := by simp only [wc0, wm0, scale, lambda, halpha, hbeta, hkappa, hlen]
  have hw1 : f.w1 = f'.w1 := by simp only [w1, scale, halpha, hkappa, hlen]
  obtain ⟨L, hL'⟩ := exists_isCholesky (augCov_posDef hP hQ hR)
  have ht := augFactor_ne_zero hd he
  have hL : IsCholesky (augCov (rescaleCov d d P') (rescaleCov d d Q') (rescaleCov e e R')) (rescaleFactor (augFactor d e) L) := by
    rw [augCov_rescale]; exact hL'.rescale ht
  have hX : ∀ i, sigmaPts (augMean o (rescale d b μ')) f.gamma (rescaleFactor (augFactor d e) L)ᵀ i =
      rescale (augFactor d e) (augMean o b) (sigmaPts (augMean o μ') f'.gamma Lᵀ (flipPerm (augFactor d e) i)) := fun i => by
    rw [augMean_rescale (e := e), hgam]
    exact sigmaPts_rescale _ ht _ _ _ _ i
  have hJ' := h'.rowwise_joint hw hL' g' k'
  have hJ := h.rowwise_joint (hwc ▸ hw) hL g k
  obtain ⟨hs', hpd'⟩ := h'.step_of hP hQ hR ho svd hL' new' meas' z' hz' (hY' _ (by omega) _) (hZ' _ (by omega) _) _ _ _ _ _ rfl rfl rfl rfl rfl hJ'
  obtain ⟨hs, -⟩ := h.step_of (rescaleCov_posDef hd hP) (rescaleCov_posDef hd hQ) (rescaleCov_posDef he hR) ho svd hL new meas _ hz
    (hY _ (by omega) _) (hZ _ (by omega) _) _ _ _ _ _ rfl rfl rfl rfl rfl hJ
  have hsum : ∑ i, wts (n + (n + o)) f'.wm0 f'.w1 i = 1 := by rw [sum_wts_one]; exact h'.weights_sum
  have hpm := wts_flip (augFactor d e) f'.wm0 f'.w1
  have hpc := wts_flip (augFactor d e) f'.wc0 f'.w1
  rw [hwm, hwc, hw1] at hs
  generalize wts (n + (n + o)) f'.wm0 f'.w1 = wm at hs hs' hsum hpm hpd'
  generalize wts (n + (n + o)) f'.wc0 f'.w1 = wc at hs hs' hpc hpd'
  generalize sigmaPts (augMean o (rescale d b μ')) f.gamma (rescaleFactor (augFactor d e) L)ᵀ = X at hs hX
  generalize sigmaPts (augMean o μ') f'.gamma Lᵀ = X' at hs' hX hpd'
  generalize flipPerm (augFactor d e) = π at hX hpm hpc
  have hxs : ∀ i, noisy (fun i => g (xPart X i)) (wPart X) i =
      rescale d b (noisy (fun i => g' (xPart X' i)) (wPart X') (π i)) := fun i => by
    have e1 : xPart X i = rescale d b (xPart X' (π i)) := by
      funext q
      simp only [xPart, hX, rescale, augFactor, augMean, Fin.append_left]
    funext q
    simp only [noisy]
    rw [e1, hg]
    simp only [noisy, wPart, hX, rescale, augFactor, augMean, Fin.append_left, Fin.append_right, Pi.zero_apply]
    ring
  have hys : ∀ i, noisy (fun i => k (noisy (fun i => g (xPart X i)) (wPart X) i)) (vPart X) i =
      rescale e c (noisy (fun i => k' (noisy (fun i => g' (xPart X' i)) (wPart X') i)) (vPart X') (π i)) := fun i => by
    funext q
    show k (noisy (fun i => g (xPart X i)) (wPart X) i) q + vPart X i q = _
    rw [hxs, hk]
    simp only [noisy, vPart, hX, rescale, augFactor, augMean, Fin.append_right, Pi.zero_apply]
    ring
  generalize noisy (fun i => k (noisy (fun i => g (xPart X i)) (wPart X) i)) (vPart X) = ys at hs hys
  generalize noisy (fun i => k' (noisy (fun i => g' (xPart X' i)) (wPart X') i)) (vPart X') = ys' at hs' hys hpd'
  generalize noisy (fun i => g (xPart X i)) (wPart X) = xs at hs hxs
  generalize noisy (fun i => g' (xPart X' i)) (wPart X') = xs' at hs' hxs hpd'
  have mx := wmean_rescale hsum π hpm d b hxs
  have my := wmean_rescale hsum π hpm e c hys
  have cx := wcross_rescale π hpc d b d b hxs hxs (wmean wm xs') (wmean wm xs')
  have cy := wcross_rescale π hpc e c e c hys hys (wmean wm ys') (wmean wm ys')
  have cxy := wcross_rescale π hpc d b e c hxs hys (wmean wm xs') (wmean wm ys')
  simp only [wcov_eq_wcross] at hs hs' hpd'
  rw [mx, my, cx, cy, cxy] at hs
  generalize wmean wm xs' = x at *
  generalize wmean wm ys' = y at *
  generalize wcross wc xs' x xs' x = Px at *
  generalize wcross wc ys' y ys' y = S at *
  generalize wcross wc xs' x ys' y = C at *
  refine ⟨_, _, _, _, hpd', hs', ?_⟩
  have hdet : IsUnit (Matrix.diagonal e).det := by
    rw [Matrix.det_diagonal]; exact (Finset.prod_ne_zero_iff.2 fun i _ => he i).isUnit
  have e1 : rescale d b x + gain (rescaleCov d e C) (rescaleCov e e S) *ᵥ (rescale e c z' - rescale e c y) =
      rescale d b (x + gain C S *ᵥ (z' - y)) := by
    have ez : rescale e c z' - rescale e c y = Matrix.diagonal e *ᵥ (z' - y) := by
      funext i
      rw [Matrix.mulVec_diagonal]
      simp only [rescale, Pi.sub_apply]
      ring
    rw [ez, gain, gain_rescale he, Matrix.mulVec_mulVec, Matrix.mul_assoc, Matrix.nonsing_inv_mul _ hdet, Matrix.mul_one,
      ← Matrix.mulVec_mulVec]
    funext i
    rw [Pi.add_apply, Matrix.mulVec_diagonal]
    simp only [rescale, Pi.add_apply, gain]
    ring
  have e2 : rescaleCov d d Px - rescaleCov d e C * (rescaleCov e e S)⁻¹ * (rescaleCov d e C)ᵀ =
      rescaleCov d d (Px - C * S⁻¹ * Cᵀ) := by
    rw [gain_rescale he, rescaleCov_transpose, rescaleCov_eq e d, Matrix.mul_assoc (Matrix.diagonal e),
      Matrix.mul_assoc _ (Matrix.diagonal e)⁻¹, Matrix.nonsing_inv_mul_cancel_left _ _ hdet]
    rw [rescaleCov_eq, rescaleCov_eq, Matrix.mul_sub, Matrix.sub_mul]
    simp only [Matrix.mul_assoc]
  rw [e1, e2] at hs
  exact hs

end Ukf
end Verif
