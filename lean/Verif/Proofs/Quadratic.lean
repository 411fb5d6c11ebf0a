import Verif.Spec.Quadratic
import Verif.Props.OfflineCircuit
import Verif.Proofs.Statistics
/-!
# Quadratic functions of sigma points and of random vectors
-/

namespace Verif
open Ecm Cell Spec Matrix MeasureTheory

/-! ## Quadratic functions -/

namespace Spec.Quadratic
variable {N : Nat} {g h : (Fin N → ℝ) → ℝ}

theorem of_affine (hg : AffineFn g) : Quadratic g := by
  obtain ⟨L, c, e⟩ := hg
  exact ⟨c, L, 0, fun y => by rw [e]; simp [add_comm]⟩

theorem add (hg : Quadratic g) (hh : Quadratic h) : Quadratic fun y => g y + h y := by
  obtain ⟨c, b, A, e⟩ := hg
  obtain ⟨c', b', A', e'⟩ := hh
  refine ⟨c + c', b + b', A + A', fun y => ?_⟩
  show g y + h y = _
  rw [e, e', add_dotProduct, Matrix.add_mulVec, dotProduct_add]
  ring

theorem mul (k : ℝ) (hg : Quadratic g) : Quadratic fun y => k * g y := by
  obtain ⟨c, b, A, e⟩ := hg
  refine ⟨k * c, k • b, k • A, fun y => ?_⟩
  show k * g y = _
  rw [e, smul_dotProduct, Matrix.smul_mulVec, dotProduct_smul, smul_eq_mul, smul_eq_mul]
  ring

theorem prod (hg : AffineFn g) (hh : AffineFn h) : Quadratic fun y => g y * h y := by
  obtain ⟨L, c, e⟩ := hg
  obtain ⟨M, d, e'⟩ := hh
  refine ⟨c * d, c • M + d • L, vecMulVec L M, fun y => ?_⟩
  show g y * h y = _
  rw [e, e', add_dotProduct, smul_dotProduct, smul_dotProduct, smul_eq_mul, smul_eq_mul, Matrix.vecMulVec_mulVec, dotProduct_comm y]
  simp only [smul_dotProduct, op_smul_eq_smul, smul_eq_mul]
  ring

theorem congr (hg : Quadratic g) (e : ∀ y, h y = g y) : Quadratic h := by
  obtain ⟨c, b, A, e'⟩ := hg
  exact ⟨c, b, A, fun y => (e y).trans (e' y)⟩

theorem sum {ι : Type} (s : Finset ι) {G : ι → (Fin N → ℝ) → ℝ} (hG : ∀ j, Quadratic (G j)) : Quadratic fun y => ∑ j ∈ s, G j y := by
  classical
  induction s using Finset.induction_on with
  | empty => exact (of_affine (.const 0)).congr fun y => by simp
  | insert j s hj ih => exact ((hG j).add ih).congr fun y => Finset.sum_insert hj

theorem comp {M : Nat} {g : (Fin M → ℝ) → ℝ} {G : (Fin N → ℝ) → Fin M → ℝ} (hg : Quadratic g) (hG : ∀ i, AffineFn fun y => G y i) :
    Quadratic fun y => g (G y) := by
  obtain ⟨c, b, A, e⟩ := hg
  refine (((of_affine (.const c)).add (sum Finset.univ fun j => (of_affine (hG j)).mul (b j))).add
    (sum Finset.univ fun j => sum Finset.univ fun k => (prod (hG j) (hG k)).mul (A j k))).congr fun y => ?_
  rw [e]
  simp only [dotProduct, mulVec, Finset.mul_sum]
  congr 1
  exact Finset.sum_congr rfl fun j _ => Finset.sum_congr rfl fun k _ => by ring

/-- Around a point. -/
theorem around (hg : Quadratic g) (m : Fin N → ℝ) : ∃ (l : Fin N → ℝ) (A : Matrix (Fin N) (Fin N) ℝ),
    ∀ y, g y = g m + ∑ j, l j * (y j - m j) + ∑ j, ∑ k, A j k * ((y j - m j) * (y k - m k)) := by
  obtain ⟨c, b, A, e⟩ := hg
  refine ⟨fun j => b j + ∑ k, (A j k + A k j) * m k, A, fun y => ?_⟩
  rw [e, e]
  simp only [dotProduct, mulVec, Finset.mul_sum, Finset.sum_mul, add_mul, Finset.sum_add_distrib]
  have e1 : ∑ j, ∑ k, A k j * m k * (y j - m j) = ∑ j, ∑ k, A j k * m j * (y k - m k) := Finset.sum_comm
  have e2 : ∑ j, b j * y j = ∑ j, b j * m j + ∑ j, b j * (y j - m j) := by
    rw [← Finset.sum_add_distrib]; exact Finset.sum_congr rfl fun j _ => by ring
  rw [e1, e2]
  have e3 : ∑ j, ∑ k, y j * (A j k * y k) = ∑ j, ∑ k, m j * (A j k * m k) + ∑ j, ∑ k, A j k * m k * (y j - m j) +
      ∑ j, ∑ k, A j k * m j * (y k - m k) + ∑ j, ∑ k, A j k * ((y j - m j) * (y k - m k)) := by
    simp only [← Finset.sum_add_distrib]
    exact Finset.sum_congr rfl fun j _ => Finset.sum_congr rfl fun k _ => by ring
  rw [e3]
  ring

/-- Weighted points and a random vector with the same mean and covariance have the same mean value of a quadratic function. -/
theorem moments (hg : Quadratic g) {K : Nat} {w : Fin K → ℝ} {Z : Matrix (Fin K) (Fin N) ℝ} {m : Fin N → ℝ} {C : Matrix (Fin N) (Fin N) ℝ}
    (hw : ∑ i, w i = 1) (hm : wmean w Z = m) (hC : wcov w Z m = C) {Ω : Type} [MeasurableSpace Ω] {ℙ : Measure Ω} [IsProbabilityMeasure ℙ]
    {Y : Ω → Fin N → ℝ} (hY : Spread ℙ (fun ω => Y ω - m) C) :
    Integrable (fun ω => g (Y ω)) ℙ ∧ ∫ ω, g (Y ω) ∂ℙ = ∑ i, w i * g (Z i) := by
  obtain ⟨l, A, e⟩ := hg.around m
  have i1 : ∀ j, Integrable (fun ω => Y ω j - m j) ℙ := fun j => (hY.square j).integrable (by norm_num)
  have i2 : ∀ j k, Integrable (fun ω => (Y ω j - m j) * (Y ω k - m k)) ℙ := fun j k => (hY.square j).integrable_mul (hY.square k)
  have j1 : Integrable (fun ω => ∑ j, l j * (Y ω j - m j)) ℙ := integrable_finsetSum _ fun j _ => (i1 j).const_mul _
  have j2 : Integrable (fun ω => ∑ j, ∑ k, A j k * ((Y ω j - m j) * (Y ω k - m k))) ℙ :=
    integrable_finsetSum _ fun j _ => integrable_finsetSum _ fun k _ => (i2 j k).const_mul _
  have eq : (fun ω => g (Y ω)) = fun ω => g m + ∑ j, l j * (Y ω j - m j) + ∑ j, ∑ k, A j k * ((Y ω j - m j) * (Y ω k - m k)) :=
    funext fun ω => e (Y ω)
  have d1 : ∀ j, ∑ i, w i * (Z i j - m j) = 0 := fun j => by
    simp only [mul_sub, Finset.sum_sub_distrib, ← Finset.sum_mul, hw, one_mul]
    rw [← hm]
    simp [wmean]
  have d2 : ∀ j k, ∑ i, w i * ((Z i j - m j) * (Z i k - m k)) = C j k := fun j k => by
    rw [← hC]
    simp only [wcov, mul_assoc]
  rw [eq]
  refine ⟨((integrable_const _).add j1).add j2, ?_⟩
  have l1 : ∫ ω, g (Y ω) ∂ℙ = g m + ∑ j, ∑ k, A j k * C j k := by
    have j0 : Integrable (fun ω => g m + ∑ j, l j * (Y ω j - m j)) ℙ := (integrable_const _).add j1
    rw [eq, integral_add j0 j2, integral_add (integrable_const _) j1, integral_finsetSum _ fun j _ => (i1 j).const_mul _,
      integral_finsetSum (f := fun j ω => ∑ k, A j k * ((Y ω j - m j) * (Y ω k - m k))) _ fun j _ =>
        integrable_finsetSum _ fun k _ => (i2 j k).const_mul _]
    have a1 : ∀ j, ∫ ω, l j * (Y ω j - m j) ∂ℙ = 0 := fun j => by
      rw [integral_const_mul]
      exact (congrArg _ (hY.mean j)).trans (mul_zero _)
    have a2 : ∀ j, ∫ ω, ∑ k, A j k * ((Y ω j - m j) * (Y ω k - m k)) ∂ℙ = ∑ k, A j k * C j k := fun j => by
      rw [integral_finsetSum _ fun k _ => (i2 j k).const_mul _]
      refine Finset.sum_congr rfl fun k _ => ?_
      rw [integral_const_mul]
      exact congrArg _ (hY.cov j k)
    simp [a1, a2]
  rw [eq] at l1
  rw [l1]
  have r1 : ∑ i, w i * g (Z i) = ∑ i, w i * g m + ∑ j, l j * ∑ i, w i * (Z i j - m j) +
      ∑ j, ∑ k, A j k * ∑ i, w i * ((Z i j - m j) * (Z i k - m k)) := by
    have s1 : ∑ j, l j * ∑ i, w i * (Z i j - m j) = ∑ i, w i * ∑ j, l j * (Z i j - m j) := by
      simp only [Finset.mul_sum]
      rw [Finset.sum_comm]
      exact Finset.sum_congr rfl fun _ _ => Finset.sum_congr rfl fun _ _ => by ring
    have s2 : ∑ j, ∑ k, A j k * ∑ i, w i * ((Z i j - m j) * (Z i k - m k)) =
        ∑ i, w i * ∑ j, ∑ k, A j k * ((Z i j - m j) * (Z i k - m k)) := by
      simp only [Finset.mul_sum]
      conv_rhs => rw [Finset.sum_comm]
      refine Finset.sum_congr rfl fun _ _ => ?_
      conv_rhs => rw [Finset.sum_comm]
      exact Finset.sum_congr rfl fun _ _ => Finset.sum_congr rfl fun _ _ => by ring
    rw [s1, s2, ← Finset.sum_add_distrib, ← Finset.sum_add_distrib]
    exact Finset.sum_congr rfl fun i _ => by rw [e (Z i)]; ring
  rw [r1, ← Finset.sum_mul, hw, one_mul]
  simp only [d1, d2, mul_zero, Finset.sum_const_zero, add_zero]

end Spec.Quadratic

/-! ## The filter -/

namespace Ukf
variable {σ : Type} {f : Ukf σ} {n o : Nat} {μ : Fin n → ℝ} {P Q : Matrix (Fin n) (Fin n) ℝ} {R : Matrix (Fin o) (Fin o) ℝ}

/-- States and their noise of points. -/
def xwPart {K : Nat} (X : Matrix (Fin K) (Fin (n + (n + o))) ℝ) : Matrix (Fin K) (Fin (n + n)) ℝ := fun i => Fin.append (xPart X i) (wPart X i)

theorem wmean_xwPart {K : Nat} {w : Fin K → ℝ} {X : Matrix (Fin K) (Fin (n + (n + o))) ℝ} (h : wmean w X = augMean o μ) :
    wmean w (xwPart X) = Fin.append μ 0 := by
  funext j
  refine Fin.addCases (fun j => ?_) (fun j => ?_) j
  · have := congrFun h (Fin.castAdd (n + o) j)
    simp only [wmean, augMean, Fin.append_left] at this
    simp only [wmean, xwPart, xPart, Fin.append_left, this]
  · have := congrFun h (Fin.natAdd n (Fin.castAdd o j))
    simp only [wmean, augMean, Fin.append_right] at this
    simp only [wmean, xwPart, wPart, Fin.append_right, this]
    rfl

theorem wmean_vPart {K : Nat} {w : Fin K → ℝ} {X : Matrix (Fin K) (Fin (n + (n + o))) ℝ} (h : wmean w X = augMean o μ) :
    wmean w (vPart X) = 0 := by
  funext j
  have := congrFun h (Fin.natAdd n (Fin.natAdd n j))
  simp only [wmean, augMean, Fin.append_right] at this
  simp only [wmean, vPart, this]
  rfl

theorem wcov_xwPart {K : Nat} {w : Fin K → ℝ} {X : Matrix (Fin K) (Fin (n + (n + o))) ℝ} (h : wcov w X (augMean o μ) = augCov P Q R) :
    wcov w (xwPart X) (Fin.append μ 0) = blk2 P Q := by
  have e (p q : Fin (n + (n + o))) := congrFun (congrFun h p) q
  funext j k
  refine Fin.addCases (fun j => ?_) (fun j => ?_) j <;> refine Fin.addCases (fun k => ?_) (fun k => ?_) k
  · have := e (Fin.castAdd (n + o) j) (Fin.castAdd (n + o) k)
    simp only [wcov, augMean, augCov, blk2_ll, Fin.append_left] at this
    simp only [wcov, xwPart, xPart, wPart, Fin.append_left, blk2_ll, this]
  · have := e (Fin.castAdd (n + o) j) (Fin.natAdd n (Fin.castAdd o k))
    simp only [wcov, augMean, augCov, blk2_lr, Fin.append_left, Fin.append_right] at this
    simp only [wcov, xwPart, xPart, wPart, Fin.append_left, Fin.append_right, blk2_lr]
    exact this
  · have := e (Fin.natAdd n (Fin.castAdd o j)) (Fin.castAdd (n + o) k)
    simp only [wcov, augMean, augCov, blk2_rl, Fin.append_left, Fin.append_right] at this
    simp only [wcov, xwPart, xPart, wPart, Fin.append_left, Fin.append_right, blk2_rl]
    exact this
  · have := e (Fin.natAdd n (Fin.castAdd o j)) (Fin.natAdd n (Fin.castAdd o k))
    simp only [wcov, augMean, augCov, blk2_ll, blk2_rr, Fin.append_right] at this
    simp only [wcov, xwPart, xPart, wPart, Fin.append_right, blk2_rr]
    exact this

theorem spread_append {Ω : Type} [MeasurableSpace Ω] {ℙ : Measure Ω} {X W : Ω → Fin n → ℝ} (hX : Spread ℙ (fun ω => X ω - μ) P) (hW : Spread ℙ W Q)
    (hu : Uncorrelated ℙ (fun ω => X ω - μ) W) : Spread ℙ (fun ω => Fin.append (X ω) (W ω) - Fin.append μ 0) (blk2 P Q) := by
  have el : ∀ ω (j : Fin n), (Fin.append (X ω) (W ω) - Fin.append μ 0 : Fin (n + n) → ℝ) (Fin.castAdd n j) = (X ω - μ) j := fun ω j => by simp
  have er : ∀ ω (j : Fin n), (Fin.append (X ω) (W ω) - Fin.append μ 0 : Fin (n + n) → ℝ) (Fin.natAdd n j) = W ω j := fun ω j => by
    rw [Pi.sub_apply, Fin.append_right, Fin.append_right]
    exact sub_zero _
  refine ⟨fun i => ?_, fun i => ?_, fun i j => ?_⟩
  · refine Fin.addCases (fun i => ?_) (fun i => ?_) i
    · simp only [el]; exact hX.square i
    · simp only [er]; exact hW.square i
  · refine Fin.addCases (fun i => ?_) (fun i => ?_) i
    · simp only [el]; exact hX.mean i
    · simp only [er]; exact hW.mean i
  · refine Fin.addCases (fun i => ?_) (fun i => ?_) i <;> refine Fin.addCases (fun j => ?_) (fun j => ?_) j
    · simp only [el, blk2_ll]; exact hX.cov i j
    · simp only [el, er, blk2_lr]; exact hu i j
    · simp only [el, er, blk2_rl]
      simp only [mul_comm (W _ i)]
      exact hu j i
    · simp only [er, blk2_rr]; exact hW.cov i j

/-- The predicted output of one step. -/
theorem Holds.expected (h : f.Holds n o μ P Q R) (hP : P.PosDef) (hQ : Q.PosDef) (hR : R.PosDef) (ho : 1 ≤ o) (svd : Mat → Vec × Mat) (new : Dist)
    {g : (Fin n → ℝ) → Fin n → ℝ} {k : (Fin n → ℝ) → Fin o → ℝ} {m : σ}
    (hY : ∀ K, 1 ≤ K → ∀ X : Matrix (Fin K) (Fin n) ℝ, f.model.update f.mem ⟨K, n, X⟩ f.controls.mean new.mean = .ok (⟨K, n, fun i => g (X i)⟩, m))
    (hZ : ∀ K, 1 ≤ K → ∀ X : Matrix (Fin K) (Fin n) ℝ, f.model.predict m ⟨K, n, X⟩ new.mean = .ok ⟨K, o, fun i => k (X i)⟩)
    (hq : ∀ i, Quadratic fun z : Fin (n + n) → ℝ => k (g (fun j => z (Fin.castAdd n j)) + fun j => z (Fin.natAdd n j)) i) :
    ∃ sigma p y, f.buildSigma svd = .ok sigma ∧ f.estimationUpdate sigma new = .ok p ∧ p.y.mean = ⟨o, y⟩ ∧ ExpectedOutput g k Q ⟨μ, P⟩ y := by
  have hA := augCov_posDef hP hQ hR
  obtain ⟨L, hL⟩ := exists_isCholesky hA
  have hw : ∑ i, wts (n + (n + o)) f.wm0 f.w1 i = 1 := by rw [sum_wts_one]; exact h.weights_sum
  have m1 : wmean (wts (n + (n + o)) f.wm0 f.w1) (sigmaPts (augMean o μ) f.gamma Lᵀ) = augMean o μ := wmean_sigmaPts _ _ _ _ _ h.weights_sum
  have m2 : wcov (wts (n + (n + o)) f.wm0 f.w1) (sigmaPts (augMean o μ) f.gamma Lᵀ) (augMean o μ) = augCov P Q R := by
    rw [wcov_sigmaPts _ _ _ _ _ h.gamma_sq, Matrix.transpose_transpose, hL.mul_transpose (posDef_isSymm hA)]
  refine ⟨_, _, _, h.buildSigma_of svd (ensurePsd_posDef svd hA) hL,
    h.estimation_of ho (sigmaPts (augMean o μ) f.gamma Lᵀ) new (hY _ (by omega) _) (hZ _ (by omega) _), rfl, ?_⟩
  intro Ω _ ℙ _ X W hX hW hu i
  obtain ⟨k1, k2⟩ := (hq i).moments hw (wmean_xwPart m1) (wcov_xwPart m2) (spread_append hX hW hu)
  simp only [Fin.append_left, Fin.append_right] at k1 k2
  refine ⟨k1, k2.trans ?_⟩
  have hv := congrFun (wmean_vPart m1) i
  simp only [wmean] at hv
  simp only [wmean, noisy, mul_add, Finset.sum_add_distrib]
  rw [hv]
  simp only [xwPart, Fin.append_left, Fin.append_right]
  exact (add_zero _).symm

end Ukf

end Verif
