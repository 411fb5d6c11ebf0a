import Verif.Proofs.UkfMoments
/-!
# One step of the unscented filter
-/

namespace Verif
open Matrix

theorem vecMul_eq_zero_of_triangular {n : Nat} {T : Matrix (Fin n) (Fin n) ℝ} (h1 : ∀ i j, i < j → T i j = 0) (h2 : ∀ i, 0 < T i i)
    {a : Fin n → ℝ} (h : a ᵥ* T = 0) : a = 0 := by
  have hd : T.det ≠ 0 := by
    rw [Matrix.det_of_isLowerTriangular T fun i j hij => h1 i j hij]
    exact Finset.prod_ne_zero_iff.2 fun i _ => (h2 i).ne'
  exact Matrix.eq_zero_of_vecMul_eq_zero hd h

namespace Ukf
variable {σ : Type} {f : Ukf σ} {n o : Nat} {μ : Fin n → ℝ} {P Q : Matrix (Fin n) (Fin n) ℝ} {R : Matrix (Fin o) (Fin o) ℝ}

theorem Holds.after (h : f.Holds n o μ P Q R) (μ' : Fin n → ℝ) (P' : Matrix (Fin n) (Fin n) ℝ) (m : σ) (u : Dist) :
    Ukf.Holds { f with hidden := ⟨⟨n, μ'⟩, ⟨n, n, P'⟩⟩, mem := m, controls := u } n o μ' P' Q R :=
  ⟨h.nHidden, h.nOut, h.n_pos, rfl, h.covW, h.covV, h.augLen, h.alpha_pos, h.alpha_le, h.beta_nonneg, h.spread⟩

/-- A whole step, from the model's answers at the sigma points, when states and outputs are jointly spread. -/
theorem Holds.step_of (h : f.Holds n o μ P Q R) (hP : P.PosDef) (hQ : Q.PosDef) (hR : R.PosDef) (ho : 1 ≤ o) (svd : Mat → Vec × Mat)
    {L : Matrix (Fin (n + (n + o))) (Fin (n + (n + o))) ℝ} (hL : IsCholesky (augCov P Q R) L) (new meas : Dist) (z : Fin o → ℝ)
    (hz : meas.mean = ⟨o, z⟩) {Y Z m}
    (hY : f.model.update f.mem ⟨_, _, xPart (sigmaPts (augMean o μ) f.gamma Lᵀ)⟩ f.controls.mean new.mean = .ok (⟨_, n, Y⟩, m))
    (hZ : f.model.predict m ⟨_, _, noisy Y (wPart (sigmaPts (augMean o μ) f.gamma Lᵀ))⟩ new.mean = .ok ⟨_, o, Z⟩) :
    let xs := noisy Y (wPart (sigmaPts (augMean o μ) f.gamma Lᵀ))
    let ys := noisy Z (vPart (sigmaPts (augMean o μ) f.gamma Lᵀ))
    let wm := wts (n + (n + o)) f.wm0 f.w1
    let wc := wts (n + (n + o)) f.wc0 f.w1
    ∀ x y Px S C, wmean wm xs = x → wmean wm ys = y → wcov wc xs x = Px → wcov wc ys y = S → wcross wc xs x ys y = C →
    (Matrix.fromBlocks Px C Cᵀ S).PosDef →
    f.step svd new meas = .ok ({ f with
        hidden := ⟨⟨n, x + gain C S *ᵥ (z - y)⟩, ⟨n, n, Px - C * S⁻¹ * Cᵀ⟩⟩, mem := m, controls := new },
      (⟨⟨n, x + gain C S *ᵥ (z - y)⟩, ⟨n, n, Px - C * S⁻¹ * Cᵀ⟩⟩, ⟨⟨o, y⟩, ⟨o, o, S⟩⟩)) ∧ (Px - C * S⁻¹ * Cᵀ).PosDef := by
  intro xs ys wm wc x y Px S C ex ey eP eS eC hJ
  have hS := (posDef_blocks hJ).2
  have hd : S.det ≠ 0 := hS.det_pos.ne'
  have hpd := schur_posDef hJ
  refine ⟨?_, hpd⟩
  have ef := gain_form C (posDef_isSymm hS) hd
  rw [← ef] at hpd ⊢
  subst ex ey eP eS eC
  unfold step
  rw [h.buildSigma_of svd (ensurePsd_posDef svd (augCov_posDef hP hQ hR)) hL, ok_bind]
  rw [h.estimation_of ho _ new hY hZ, ok_bind, correction_of svd h.n_pos _ _ _ _ _ meas z hz hd hpd, ok_bind]
  rfl

/-! ## Models that are affine in the state -/

theorem row_parts {K k : Nat} (X : Matrix (Fin K) (Fin (n + (n + o))) ℝ) (A B : Matrix (Fin n) (Fin k) ℝ) (D : Matrix (Fin o) (Fin k) ℝ)
    (i : Fin K) : X i ᵥ* stack A (stack B D) = xPart X i ᵥ* A + (wPart X i ᵥ* B + vPart X i ᵥ* D) := by
  have e : X i = Fin.append (xPart X i) (Fin.append (wPart X i) (vPart X i)) := by
    funext j
    refine Fin.addCases (fun j => ?_) (fun j => ?_) j
    · rw [Fin.append_left]; rfl
    · rw [Fin.append_right]
      refine Fin.addCases (fun j => ?_) (fun j => ?_) j
      · rw [Fin.append_left]; rfl
      · rw [Fin.append_right]; rfl
  conv_lhs => rw [e]
  rw [append_vecMul_stack, append_vecMul_stack]

section
variable (F : Matrix (Fin n) (Fin n) ℝ) (H : Matrix (Fin o) (Fin n) ℝ) (c : Fin n → ℝ) (d : Fin o → ℝ)

theorem noisy_affine_x {K : Nat} (X : Matrix (Fin K) (Fin (n + (n + o))) ℝ) :
    noisy (fun i => F *ᵥ xPart X i + c) (wPart X) = fun i => X i ᵥ* stack Fᵀ (stack 1 0) + c := by
  funext i
  rw [row_parts, Matrix.vecMul_transpose, Matrix.vecMul_one, Matrix.vecMul_zero, add_zero]
  funext j
  simp only [noisy, Pi.add_apply]
  ring

theorem noisy_affine_y {K : Nat} (X : Matrix (Fin K) (Fin (n + (n + o))) ℝ) :
    noisy (fun i => H *ᵥ noisy (fun i => F *ᵥ xPart X i + c) (wPart X) i + d) (vPart X) =
      fun i => X i ᵥ* stack (H * F)ᵀ (stack Hᵀ 1) + (H *ᵥ c + d) := by
  funext i
  rw [row_parts, Matrix.vecMul_transpose, Matrix.vecMul_one, Matrix.vecMul_transpose, ← Matrix.mulVec_mulVec]
  have e : noisy (fun i => F *ᵥ xPart X i + c) (wPart X) i = F *ᵥ xPart X i + c + wPart X i := rfl
  have e2 : noisy (fun i => H *ᵥ noisy (fun i => F *ᵥ xPart X i + c) (wPart X) i + d) (vPart X) i =
      H *ᵥ noisy (fun i => F *ᵥ xPart X i + c) (wPart X) i + d + vPart X i := rfl
  rw [e2, e]
  funext j
  simp only [Matrix.mulVec_add, Pi.add_apply]
  ring

variable (P Q R)

theorem moments_xx : (stack Fᵀ (stack 1 0))ᵀ * augCov P Q R * stack Fᵀ (stack 1 0) = F * P * Fᵀ + Q := by
  unfold augCov
  rw [stack_blk2_stack, stack_blk2_stack]
  simp

theorem moments_xy : (stack Fᵀ (stack 1 0))ᵀ * augCov P Q R * stack (H * F)ᵀ (stack Hᵀ 1) = (F * P * Fᵀ + Q) * Hᵀ := by
  unfold augCov
  rw [stack_blk2_stack, stack_blk2_stack]
  simp [Matrix.transpose_mul, Matrix.mul_assoc, Matrix.add_mul]

theorem moments_yy :
    (stack (H * F)ᵀ (stack Hᵀ 1))ᵀ * augCov P Q R * stack (H * F)ᵀ (stack Hᵀ 1) = H * (F * P * Fᵀ + Q) * Hᵀ + R := by
  unfold augCov
  rw [stack_blk2_stack, stack_blk2_stack]
  simp [Matrix.transpose_mul, Matrix.mul_assoc, Matrix.add_mul, Matrix.mul_add, add_assoc]

variable {P Q R}

/-- The predicted state and output of an affine model are jointly spread. -/
theorem affine_joint (hP : P.PosDef) (hQ : Q.PosDef) (hR : R.PosDef) :
    (Matrix.fromBlocks (F * P * Fᵀ + Q) ((F * P * Fᵀ + Q) * Hᵀ) ((F * P * Fᵀ + Q) * Hᵀ)ᵀ (H * (F * P * Fᵀ + Q) * Hᵀ + R)).PosDef := by
  have hM : (F * P * Fᵀ + Q).PosDef := by
    have := hP.posSemidef.mul_mul_conjTranspose_same F
    rw [Matrix.conjTranspose_eq_transpose_of_trivial] at this
    exact Matrix.PosDef.posSemidef_add this hQ
  generalize F * P * Fᵀ + Q = M at hM
  have hsymm := posDef_isSymm hM
  letI := hM.isUnit.invertible
  refine Matrix.PosDef.of_dotProduct_mulVec_pos ?_ fun z hz => ?_
  · rw [Matrix.IsHermitian, Matrix.conjTranspose_eq_transpose_of_trivial, Matrix.fromBlocks_transpose, Matrix.transpose_transpose,
      hsymm.eq, Matrix.transpose_add, (posDef_isSymm hR).eq, Matrix.transpose_mul, Matrix.transpose_mul, Matrix.transpose_transpose,
      hsymm.eq, Matrix.transpose_mul, hsymm.eq, Matrix.mul_assoc]
  · have ht : (M * Hᵀ)ᴴ = (M * Hᵀ)ᵀ := Matrix.conjTranspose_eq_transpose_of_trivial _
    have key := Matrix.schur_complement_eq₁₁ (M * Hᵀ) (H * M * Hᵀ + R) (fun i => z (.inl i)) (fun i => z (.inr i)) hM.isHermitian
    rw [ht, ← sumElim_ext] at key
    rw [Matrix.dotProduct_mulVec, key]
    have e1 : H * M * Hᵀ + R - (M * Hᵀ)ᵀ * M⁻¹ * (M * Hᵀ) = R := by
      rw [Matrix.transpose_mul, Matrix.transpose_transpose, hsymm.eq, Matrix.mul_assoc (H * M), Matrix.inv_mul_cancel_left_of_invertible,
        add_sub_cancel_left]
    have e2 : M⁻¹ * (M * Hᵀ) = Hᵀ := Matrix.inv_mul_cancel_left_of_invertible _ _
    rw [e1, e2, ← Matrix.dotProduct_mulVec, ← Matrix.dotProduct_mulVec]
    by_cases hb : (fun i => z (.inr i)) = 0
    · have ha : (fun i => z (.inl i)) ≠ 0 := by
        intro ha
        apply hz
        rw [sumElim_ext z, ha, hb]
        funext i
        cases i <;> rfl
      rw [hb]
      simp only [Matrix.mulVec_zero, add_zero, star_zero, zero_dotProduct]
      exact hM.dotProduct_mulVec_pos ha
    · exact add_pos_of_nonneg_of_pos (hM.posSemidef.dotProduct_mulVec_nonneg _) (hR.dotProduct_mulVec_pos hb)

theorem corrected_form {M : Matrix (Fin n) (Fin n) ℝ} (hM : M.IsSymm) (H : Matrix (Fin o) (Fin n) ℝ) (T : Matrix (Fin o) (Fin o) ℝ) :
    M - M * Hᵀ * T * (M * Hᵀ)ᵀ = (1 - M * Hᵀ * T * H) * M := by
  rw [Matrix.transpose_mul, Matrix.transpose_transpose, hM.eq, Matrix.sub_mul, Matrix.one_mul, Matrix.mul_assoc _ H M]

/-- The prediction with a model affine in the state. -/
theorem Holds.est_affine (h : f.Holds n o μ P Q R) (hP : P.PosDef) (hQ : Q.PosDef) (hR : R.PosDef) (ho : 1 ≤ o)
    (svd : Mat → Vec × Mat) (new : Dist) (m : σ)
    (hY : ∀ K, 1 ≤ K → ∀ X : Matrix (Fin K) (Fin n) ℝ,
      f.model.update f.mem ⟨K, n, X⟩ f.controls.mean new.mean = .ok (⟨K, n, fun i => F *ᵥ X i + c⟩, m))
    (hZ : ∀ K, 1 ≤ K → ∀ X : Matrix (Fin K) (Fin n) ℝ, f.model.predict m ⟨K, n, X⟩ new.mean = .ok ⟨K, o, fun i => H *ᵥ X i + d⟩) :
    let x := F *ᵥ μ + c
    let M := F * P * Fᵀ + Q
    let y := H *ᵥ x + d
    let S := H * M * Hᵀ + R
    ∃ sigma, f.buildSigma svd = .ok sigma ∧
      f.estimationUpdate sigma new = .ok ⟨⟨⟨n, x⟩, ⟨n, n, M⟩⟩, ⟨⟨o, y⟩, ⟨o, o, S⟩⟩, ⟨n, o, M * Hᵀ⟩, m⟩ := by
  intro x M y S
  obtain ⟨L, hL⟩ := exists_isCholesky (augCov_posDef hP hQ hR)
  have hLL := hL.mul_transpose (posDef_isSymm (augCov_posDef hP hQ hR))
  refine ⟨_, h.buildSigma_of svd (ensurePsd_posDef svd (augCov_posDef hP hQ hR)) hL, ?_⟩
  have key := h.estimation_of ho _ new (hY _ (by omega) (xPart (sigmaPts (augMean o μ) f.gamma Lᵀ))) (hZ _ (by omega) _)
  have hw : ∑ i, wts (n + (n + o)) f.wm0 f.w1 i = 1 := by rw [sum_wts_one]; exact h.weights_sum
  have hm := wmean_sigmaPts (augMean o μ) f.gamma Lᵀ f.wm0 f.w1 h.weights_sum
  have hc := wcov_sigmaPts (augMean o μ) f.gamma Lᵀ f.wc0 f.w1 h.gamma_sq
  rw [Matrix.transpose_transpose, hLL] at hc
  generalize sigmaPts (augMean o μ) f.gamma Lᵀ = X at key hm hc ⊢
  have ex := noisy_affine_x F c X
  have ey := noisy_affine_y F H c d X
  rw [ey, ex] at key
  have mx : augMean o μ ᵥ* stack Fᵀ (stack 1 0) + c = x := by
    rw [augMean, append_vecMul_stack, Matrix.vecMul_transpose, Matrix.zero_vecMul, add_zero]
  have my : augMean o μ ᵥ* stack (H * F)ᵀ (stack Hᵀ 1) + (H *ᵥ c + d) = y := by
    rw [augMean, append_vecMul_stack, Matrix.vecMul_transpose, Matrix.zero_vecMul, add_zero, ← Matrix.mulVec_mulVec, ← add_assoc,
      ← Matrix.mulVec_add]
  have wx := wmean_affine _ hw X (stack Fᵀ (stack 1 0)) c
  have wy := wmean_affine _ hw X (stack (H * F)ᵀ (stack Hᵀ 1)) (H *ᵥ c + d)
  rw [hm, mx] at wx
  rw [hm, my] at wy
  have cx := wcross_affine (wts (n + (n + o)) f.wc0 f.w1) X (augMean o μ) (stack Fᵀ (stack 1 0)) c (stack Fᵀ (stack 1 0)) c
  have cy := wcross_affine (wts (n + (n + o)) f.wc0 f.w1) X (augMean o μ) (stack (H * F)ᵀ (stack Hᵀ 1)) (H *ᵥ c + d)
    (stack (H * F)ᵀ (stack Hᵀ 1)) (H *ᵥ c + d)
  have cxy := wcross_affine (wts (n + (n + o)) f.wc0 f.w1) X (augMean o μ) (stack Fᵀ (stack 1 0)) c
    (stack (H * F)ᵀ (stack Hᵀ 1)) (H *ᵥ c + d)
  rw [hc, mx, moments_xx] at cx
  rw [hc, my, moments_yy] at cy
  rw [hc, mx, my, moments_xy] at cxy
  change wcov (wts (n + (n + o)) f.wc0 f.w1) (fun i => X i ᵥ* stack Fᵀ (stack 1 0) + c) x = _ at cx
  change wcov (wts (n + (n + o)) f.wc0 f.w1) (fun i => X i ᵥ* stack (H * F)ᵀ (stack Hᵀ 1) + (H *ᵥ c + d)) y = _ at cy
  dsimp only at key
  rw [wx, wy, cx, cy, cxy] at key
  exact key

/-- One step with a model affine in the state. -/
theorem Holds.step_affine (h : f.Holds n o μ P Q R) (hP : P.PosDef) (hQ : Q.PosDef) (hR : R.PosDef) (ho : 1 ≤ o)
    (svd : Mat → Vec × Mat) (new meas : Dist) (z : Fin o → ℝ) (hz : meas.mean = ⟨o, z⟩) (m : σ)
    (hY : ∀ K, 1 ≤ K → ∀ X : Matrix (Fin K) (Fin n) ℝ,
      f.model.update f.mem ⟨K, n, X⟩ f.controls.mean new.mean = .ok (⟨K, n, fun i => F *ᵥ X i + c⟩, m))
    (hZ : ∀ K, 1 ≤ K → ∀ X : Matrix (Fin K) (Fin n) ℝ, f.model.predict m ⟨K, n, X⟩ new.mean = .ok ⟨K, o, fun i => H *ᵥ X i + d⟩) :
    let x := F *ᵥ μ + c
    let M := F * P * Fᵀ + Q
    let y := H *ᵥ x + d
    let S := H * M * Hᵀ + R
    let K := M * Hᵀ * S⁻¹
    let x' := x + K *ᵥ (z - y)
    let P' := (1 - K * H) * M
    f.step svd new meas = .ok ({ f with hidden := ⟨⟨n, x'⟩, ⟨n, n, P'⟩⟩, mem := m, controls := new },
      (⟨⟨n, x'⟩, ⟨n, n, P'⟩⟩, ⟨⟨o, y⟩, ⟨o, o, S⟩⟩)) ∧ P'.PosDef := by
  intro x M y S K x' P'
  obtain ⟨sigma, h1, h2⟩ := h.est_affine F H c d hP hQ hR ho svd new m hY hZ
  have hJ := affine_joint F H hP hQ hR
  have hS := (posDef_blocks hJ).2
  have hd : S.det ≠ 0 := hS.det_pos.ne'
  have hMs := posDef_isSymm (posDef_blocks hJ).1
  have hpd := schur_posDef hJ
  have e : M - gain (M * Hᵀ) S * (S * (gain (M * Hᵀ) S)ᵀ) = P' := by
    rw [gain_form _ (posDef_isSymm hS) hd]
    exact corrected_form hMs H S⁻¹
  rw [← gain_form _ (posDef_isSymm hS) hd] at hpd
  have h3 := correction_of svd h.n_pos x M y S (M * Hᵀ) meas z hz hd hpd
  change (M - gain (M * Hᵀ) S * (S * (gain (M * Hᵀ) S)ᵀ)).PosDef at hpd
  rw [e] at h3 hpd
  refine ⟨?_, hpd⟩
  unfold step
  rw [h1, ok_bind, h2, ok_bind]
  simp only []
  rw [h3]
  rfl
end

/-! ## Models that act on every state by itself -/

/-- The predicted states and outputs are jointly spread, whatever the model does to each state. -/
theorem Holds.rowwise_joint (h : f.Holds n o μ P Q R) (hw : 0 ≤ f.wc0)
    {L : Matrix (Fin (n + (n + o))) (Fin (n + (n + o))) ℝ} (hL : IsCholesky (augCov P Q R) L)
    (g : (Fin n → ℝ) → Fin n → ℝ) (k : (Fin n → ℝ) → Fin o → ℝ) :
    let X := sigmaPts (augMean o μ) f.gamma Lᵀ
    let xs := noisy (fun i => g (xPart X i)) (wPart X)
    let ys := noisy (fun i => k (xs i)) (vPart X)
    let wm := wts (n + (n + o)) f.wm0 f.w1
    let wc := wts (n + (n + o)) f.wc0 f.w1
    (Matrix.fromBlocks (wcov wc xs (wmean wm xs)) (wcross wc xs (wmean wm xs) ys (wmean wm ys))
      (wcross wc xs (wmean wm xs) ys (wmean wm ys))ᵀ (wcov wc ys (wmean wm ys))).PosDef := by
  intro X xs ys wm wc
  have hg := h.gamma_pos
  have hw1 := h.w1_pos
  have hv : ∀ i, 0 ≤ wc i := fun i => by
    simp only [wc, wts]
    split
    · exact hw
    · exact hw1.le
  have p1 : ∀ j, wc (Fin.castAdd _ (Fin.natAdd 1 j)) ≠ 0 := fun j => by
    simp only [wc, wts, Fin.val_castAdd, Fin.val_natAdd]
    rw [if_neg (by omega)]
    exact hw1.ne'
  have p2 : ∀ j, wc (Fin.natAdd (1 + (n + (n + o))) j) ≠ 0 := fun j => by
    simp only [wc, wts, Fin.val_natAdd]
    rw [if_neg (by omega)]
    exact hw1.ne'
  refine joint_posDef hv _ _ _ _ fun a b hab => ?_
  -- parts of the point on either side along column `j`
  have plus : ∀ j q, X (Fin.castAdd _ (Fin.natAdd 1 j)) q = augMean o μ q + f.gamma * L q j := fun j q => by
    simp only [X, sigmaPts_plus, Matrix.transpose_apply]
  have minus : ∀ j q, X (Fin.natAdd (1 + (n + (n + o))) j) q = augMean o μ q + -f.gamma * L q j := fun j q => by
    simp only [X, sigmaPts_minus, Matrix.transpose_apply]
  have hx : ∀ j : Fin (n + o), xPart X (Fin.castAdd _ (Fin.natAdd 1 (Fin.natAdd n j))) =
      xPart X (Fin.natAdd (1 + (n + (n + o))) (Fin.natAdd n j)) := fun j => by
    funext q
    have : L (Fin.castAdd (n + o) q) (Fin.natAdd n j) = 0 := hL.1 _ _ (by
      rw [Fin.lt_def, Fin.val_castAdd, Fin.val_natAdd]; omega)
    simp only [xPart, plus, minus, this, mul_zero]
  have hwv : ∀ j : Fin o, wPart X (Fin.castAdd _ (Fin.natAdd 1 (Fin.natAdd n (Fin.natAdd n j)))) =
      wPart X (Fin.natAdd (1 + (n + (n + o))) (Fin.natAdd n (Fin.natAdd n j))) := fun j => by
    funext q
    have : L (Fin.natAdd n (Fin.castAdd o q)) (Fin.natAdd n (Fin.natAdd n j)) = 0 := hL.1 _ _ (by
      rw [Fin.lt_def, Fin.val_natAdd, Fin.val_natAdd, Fin.val_castAdd, Fin.val_natAdd]; omega)
    simp only [wPart, plus, minus, this, mul_zero]
  have hb : b = 0 := by
    refine vecMul_eq_zero_of_triangular (T := fun p j => L (Fin.natAdd n (Fin.natAdd n p)) (Fin.natAdd n (Fin.natAdd n j)))
      (fun i j hij => hL.1 _ _ (by simpa using hij)) (fun i => hL.2.1 _) ?_
    funext j
    have h1 := hab _ (p1 (Fin.natAdd n (Fin.natAdd n j)))
    have h2 := hab _ (p2 (Fin.natAdd n (Fin.natAdd n j)))
    have exs : xs (Fin.castAdd _ (Fin.natAdd 1 (Fin.natAdd n (Fin.natAdd n j)))) =
        xs (Fin.natAdd (1 + (n + (n + o))) (Fin.natAdd n (Fin.natAdd n j))) := by
      funext q
      simp only [xs, noisy, hx, hwv]
    rw [exs] at h1
    have h3 : ∑ q, b q * (ys (Fin.castAdd _ (Fin.natAdd 1 (Fin.natAdd n (Fin.natAdd n j)))) q - wmean wm ys q) -
        ∑ q, b q * (ys (Fin.natAdd (1 + (n + (n + o))) (Fin.natAdd n (Fin.natAdd n j))) q - wmean wm ys q) = 0 := by linarith
    rw [← Finset.sum_sub_distrib] at h3
    have h4 : ∀ q, b q * (ys (Fin.castAdd _ (Fin.natAdd 1 (Fin.natAdd n (Fin.natAdd n j)))) q - wmean wm ys q) -
        b q * (ys (Fin.natAdd (1 + (n + (n + o))) (Fin.natAdd n (Fin.natAdd n j))) q - wmean wm ys q) =
        2 * f.gamma * (b q * L (Fin.natAdd n (Fin.natAdd n q)) (Fin.natAdd n (Fin.natAdd n j))) := fun q => by
      simp only [ys, noisy, exs, vPart, plus, minus]
      ring
    rw [Finset.sum_congr rfl fun q _ => h4 q, ← Finset.mul_sum] at h3
    exact (mul_eq_zero.1 h3).resolve_left (by positivity)
  refine ⟨?_, hb⟩
  refine vecMul_eq_zero_of_triangular (T := fun p j => L (Fin.natAdd n (Fin.castAdd o p)) (Fin.natAdd n (Fin.castAdd o j)))
    (fun i j hij => hL.1 _ _ (by
      rw [Fin.lt_def] at hij ⊢
      simp only [Fin.val_natAdd, Fin.val_castAdd]
      omega)) (fun i => hL.2.1 _) ?_
  funext j
  have h1 := hab _ (p1 (Fin.natAdd n (Fin.castAdd o j)))
  have h2 := hab _ (p2 (Fin.natAdd n (Fin.castAdd o j)))
  rw [hb] at h1 h2
  simp only [Pi.zero_apply, zero_mul, Finset.sum_const_zero, add_zero] at h1 h2
  have h3 := congrArg₂ (· - ·) h1 h2
  simp only [sub_zero] at h3
  rw [← Finset.sum_sub_distrib] at h3
  have h4 : ∀ q, a q * (xs (Fin.castAdd _ (Fin.natAdd 1 (Fin.natAdd n (Fin.castAdd o j)))) q - wmean wm xs q) -
      a q * (xs (Fin.natAdd (1 + (n + (n + o))) (Fin.natAdd n (Fin.castAdd o j))) q - wmean wm xs q) =
      2 * f.gamma * (a q * L (Fin.natAdd n (Fin.castAdd o q)) (Fin.natAdd n (Fin.castAdd o j))) := fun q => by
    simp only [xs, noisy, hx, wPart, plus, minus]
    ring
  rw [Finset.sum_congr rfl fun q _ => h4 q, ← Finset.mul_sum] at h3
  exact (mul_eq_zero.1 h3).resolve_left (by positivity)

end Ukf
end Verif
