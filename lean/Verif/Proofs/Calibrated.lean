import Verif.Spec.Calibrated
import Verif.Proofs.Statistics
import Mathlib.Probability.Distributions.Gaussian.HasGaussianLaw.Independence
/-!
# Sums of normal random numbers
-/

namespace Verif
open Matrix MeasureTheory Spec
open ProbabilityTheory (gaussianReal IndepFun HasGaussianLaw gaussianReal_map_add_const variance_of_integral_eq_zero isGaussian_of_map_eq_gaussianReal covariance covariance_eq_sub)

variable {Ω : Type} [MeasurableSpace Ω] {ℙ : Measure Ω} {n m o : Nat} {S : Set (Ω → ℝ)}

/-- Sums of multiples of random numbers, and a constant. -/
def aff (S : Set (Ω → ℝ)) : Submodule ℝ (Ω → ℝ) := Submodule.span ℝ S ⊔ Submodule.span ℝ {fun _ => 1}

theorem aff_of {X : Ω → ℝ} (h : X ∈ S) : X ∈ aff S := Submodule.mem_sup_left (Submodule.subset_span h)

theorem aff_const (c : ℝ) : (fun _ => c) ∈ aff S := by
  have : (fun _ : Ω => c) = c • fun _ : Ω => (1 : ℝ) := by funext ω; simp
  rw [this]
  exact Submodule.smul_mem _ _ (Submodule.mem_sup_right (Submodule.subset_span rfl))

/-- All numbers of a random vector are such sums. -/
def Aff (S : Set (Ω → ℝ)) (a : Ω → Fin n → ℝ) : Prop := ∀ i, (fun ω => a ω i) ∈ aff S

theorem Aff.const (c : Fin n → ℝ) : Aff S fun _ : Ω => c := fun i => aff_const (c i)

theorem Aff.add {a b : Ω → Fin n → ℝ} (ha : Aff S a) (hb : Aff S b) : Aff S fun ω => a ω + b ω := fun i => Submodule.add_mem _ (ha i) (hb i)

theorem Aff.sub {a b : Ω → Fin n → ℝ} (ha : Aff S a) (hb : Aff S b) : Aff S fun ω => a ω - b ω := fun i => Submodule.sub_mem _ (ha i) (hb i)

theorem aff_sum {ι : Type} [Fintype ι] {X : ι → Ω → ℝ} (h : ∀ i, X i ∈ aff S) (c : ι → ℝ) : (fun ω => ∑ i, c i * X i ω) ∈ aff S := by
  have : (fun ω => ∑ i, c i * X i ω) = ∑ i, c i • X i := by
    funext ω
    simp
  rw [this]
  exact Submodule.sum_mem _ fun i _ => Submodule.smul_mem _ _ (h i)

theorem Aff.mulVec {a : Ω → Fin n → ℝ} (ha : Aff S a) (M : Matrix (Fin m) (Fin n) ℝ) : Aff S fun ω => M *ᵥ a ω := fun i => aff_sum ha (M i)

theorem Aff.made {ys : List (Ω → Fin o → ℝ)} {g : Ω → Fin n → ℝ} (hg : MadeFrom ys g) (hy : ∀ y ∈ ys, Aff S y) : Aff S g := by
  induction ys generalizing g with
  | nil =>
    obtain ⟨c, hc⟩ := hg
    rw [show g = fun _ => c from funext hc]
    exact .const c
  | cons y ys ih =>
    obtain ⟨G, hG⟩ := hg
    have := (ih hG fun y h => hy y (List.mem_cons_of_mem _ h)).add ((hy y (List.mem_cons_self ..)).mulVec G)
    simpa using this

/-! ## They are normal -/

theorem measurable_of {X : Ω → ℝ} {a : ℝ} {v : NNReal} (h : ℙ.map X = gaussianReal a v) : AEMeasurable X ℙ :=
  AEMeasurable.of_map_ne_zero (by rw [h]; exact IsProbabilityMeasure.ne_zero _)

theorem aff_normal (hS : JointlyNormal ℙ S) {X : Ω → ℝ} (h : X ∈ aff S) : ∃ a v, ℙ.map X = gaussianReal a v := by
  obtain ⟨Y, hY, Z, hZ, rfl⟩ := Submodule.mem_sup.1 h
  obtain ⟨c, rfl⟩ := Submodule.mem_span_singleton.1 hZ
  obtain ⟨v, hv⟩ := hS Y hY
  refine ⟨0 + c, v, ?_⟩
  have hm := measurable_of hv
  rw [← gaussianReal_map_add_const, ← hv, AEMeasurable.map_map_of_aemeasurable (by fun_prop) hm]
  congr 1
  funext ω
  simp

theorem aff_measurable (hS : JointlyNormal ℙ S) {X : Ω → ℝ} (h : X ∈ aff S) : AEMeasurable X ℙ := by
  obtain ⟨a, v, h⟩ := aff_normal hS h
  exact measurable_of h

theorem aff_gaussian (hS : JointlyNormal ℙ S) {X : Ω → ℝ} (h : X ∈ aff S) : HasGaussianLaw X ℙ := by
  obtain ⟨a, v, h⟩ := aff_normal hS h
  exact ⟨by rw [h]; infer_instance⟩

theorem aff_square (hS : JointlyNormal ℙ S) {X : Ω → ℝ} (h : X ∈ aff S) : MemLp X 2 ℙ := (aff_gaussian hS h).memLp_two

theorem aff_law (hS : JointlyNormal ℙ S) {X : Ω → ℝ} (h : X ∈ aff S) (h0 : ∫ ω, X ω ∂ℙ = 0) {v : ℝ} (h1 : ∫ ω, X ω * X ω ∂ℙ = v) :
    ℙ.map X = gaussianReal 0 v.toNNReal := by
  have hg := aff_gaussian hS h
  have := hg.isProbabilityMeasure
  rw [hg.map_eq_gaussianReal, h0, variance_of_integral_eq_zero hg.aemeasurable h0]
  congr 2
  rw [← h1]
  exact integral_congr_ae (.of_forall fun ω => sq (X ω))

theorem aff_pair {ι κ : Type} [Fintype ι] [Fintype κ] (hS : JointlyNormal ℙ S) {X : ι → Ω → ℝ} {Y : κ → Ω → ℝ}
    (hX : ∀ i, X i ∈ aff S) (hY : ∀ j, Y j ∈ aff S) : HasGaussianLaw (fun ω => (fun i => X i ω, fun j => Y j ω)) ℙ := by
  classical
  refine ⟨isGaussian_of_map_eq_gaussianReal fun L => ?_⟩
  have hm : AEMeasurable (fun ω => (fun i => X i ω, fun j => Y j ω)) ℙ :=
    (aemeasurable_pi_lambda _ fun i => aff_measurable hS (hX i)).prodMk (aemeasurable_pi_lambda _ fun j => aff_measurable hS (hY j))
  rw [AEMeasurable.map_map_of_aemeasurable (by fun_prop) hm]
  refine aff_normal hS ?_
  have e : (L ∘ fun ω => (fun i => X i ω, fun j => Y j ω)) =
      (fun ω => ∑ i, L (Pi.single i 1, 0) * X i ω) + fun ω => ∑ j, L (0, Pi.single j 1) * Y j ω := by
    funext ω
    have h1 : ((fun i => X i ω, fun j => Y j ω) : (ι → ℝ) × (κ → ℝ)) =
        (∑ i, X i ω • ((Pi.single i 1, 0) : (ι → ℝ) × (κ → ℝ))) + ∑ j, Y j ω • ((0, Pi.single j 1) : (ι → ℝ) × (κ → ℝ)) := by
      refine Prod.ext ?_ ?_
      · funext k
        simp [Prod.fst_sum, Finset.sum_apply, Pi.single_apply]
      · funext k
        simp [Prod.snd_sum, Finset.sum_apply, Pi.single_apply]
    simp only [Function.comp_apply, h1, map_add, map_sum, map_smul, smul_eq_mul, Pi.add_apply]
    simp only [mul_comm]
  rw [e]
  exact Submodule.add_mem _ (aff_sum hX _) (aff_sum hY _)

variable [IsProbabilityMeasure ℙ]

/-- The error of a best estimate is uncorrelated with all measurements. -/
theorem Spec.Best.unc {ys : List (Ω → Fin o → ℝ)} {x : Ω → Fin n → ℝ} {b : Reported Ω n} (h : Best ℙ ys x b) (hy : ∀ y ∈ ys, Sq ℙ y)
    {y : Ω → Fin o → ℝ} (hm : y ∈ ys) : Uncorrelated ℙ (fun ω => b.mean ω - x ω) y := by
  intro i j
  have made : MadeFrom ys y := by
    obtain ⟨l, r, rfl⟩ := List.append_of_mem hm
    have := (Spec.MadeFrom.last l y).append r
    simpa using this
  have se := h.error.square i
  have sy := hy y hm j
  have i1 : Integrable (fun ω => (b.mean ω i - x ω i) * (b.mean ω i - x ω i)) ℙ := se.integrable_mul se
  have i2 : Integrable (fun ω => (b.mean ω i - x ω i) * y ω j) ℙ := se.integrable_mul sy
  have i3 : Integrable (fun ω => y ω j * y ω j) ℙ := sy.integrable_mul sy
  have key : ∀ c : ℝ, 0 ≤ 2 * c * ∫ ω, (b.mean ω i - x ω i) * y ω j ∂ℙ + c * c * ∫ ω, y ω j * y ω j ∂ℙ := fun c => by
    have := h.least _ (h.linear.add (made.mulVec (Matrix.single i j c))) (Pi.single i 1)
    have e1 : ∀ ω, (Pi.single i 1 ⬝ᵥ (b.mean ω - x ω)) ^ 2 = (b.mean ω i - x ω i) * (b.mean ω i - x ω i) := fun ω => by
      rw [single_dotProduct, one_mul, Pi.sub_apply, sq]
    have e2 : ∀ ω, (Pi.single i 1 ⬝ᵥ (b.mean ω + Matrix.single i j c *ᵥ y ω - x ω)) ^ 2 = (b.mean ω i - x ω i) * (b.mean ω i - x ω i) +
        (2 * c * ((b.mean ω i - x ω i) * y ω j) + c * c * (y ω j * y ω j)) := fun ω => by
      rw [single_dotProduct, one_mul, Pi.sub_apply, Pi.add_apply]
      have : (Matrix.single i j c *ᵥ y ω) i = c * y ω j := by simp [Matrix.mulVec, dotProduct, Matrix.single_apply]
      rw [this]
      ring
    simp only [e1, e2] at this
    rw [integral_add i1 (show Integrable (fun ω => 2 * c * ((b.mean ω i - x ω i) * y ω j) + c * c * (y ω j * y ω j)) ℙ from (i2.const_mul _).add (i3.const_mul _)),
      integral_add (i2.const_mul _) (i3.const_mul _), integral_const_mul, integral_const_mul] at this
    linarith
  show ∫ ω, (b.mean ω i - x ω i) * y ω j ∂ℙ = 0
  generalize (∫ ω, (b.mean ω i - x ω i) * y ω j ∂ℙ) = B at key
  have hC : 0 ≤ ∫ ω, y ω j * y ω j ∂ℙ := integral_nonneg fun ω => mul_self_nonneg _
  generalize (∫ ω, y ω j * y ω j ∂ℙ) = C at key hC
  have := key (-B / (C + 1))
  by_contra hB
  have hB' : 0 < B * B := mul_self_pos.2 hB
  have : 2 * (-B / (C + 1)) * B + -B / (C + 1) * (-B / (C + 1)) * C = -(B * B) * (C + 2) / ((C + 1) * (C + 1)) := by
    field_simp
    ring
  have : 0 < (B * B) * (C + 2) / ((C + 1) * (C + 1)) := by positivity
  simp only [neg_mul, neg_div] at *
  linarith

theorem normal_around (hS : JointlyNormal ℙ S) {ys : List (Ω → Fin o → ℝ)} {x : Ω → Fin n → ℝ} {b : Reported Ω n} (h : Best ℙ ys x b)
    (hx : Aff S x) (hy : ∀ y ∈ ys, Aff S y) : NormalAround ℙ ys x b := by
  have hs : ∀ y ∈ ys, Sq ℙ y := fun y hm i => aff_square hS (hy y hm i)
  have hb : Aff S b.mean := .made h.linear hy
  have he : Aff S fun ω => x ω - b.mean ω := hx.sub hb
  have neg : ∀ ω i, x ω i - b.mean ω i = -(b.mean ω i - x ω i) := fun ω i => by ring
  refine ⟨h.definite, ?_, ?_⟩
  · intro v
    let V : Matrix (Fin 1) (Fin n) ℝ := Matrix.of fun _ => v
    obtain ⟨k1, k2, k3⟩ := spread_iff.1 h.error
    have e : ∀ ω, v ⬝ᵥ (x ω - b.mean ω) = -(V *ᵥ (b.mean ω - x ω)) 0 := fun ω => by
      show _ = -(v ⬝ᵥ (b.mean ω - x ω))
      rw [← dotProduct_neg, neg_sub]
    refine aff_law hS (he.mulVec V 0) ?_ ?_
    · show ∫ ω, v ⬝ᵥ (x ω - b.mean ω) ∂ℙ = 0
      simp only [e, integral_neg, neg_eq_zero]
      have := cross_mulVec V k1 (Sq.const (ℙ := ℙ) (fun _ : Fin 1 => (1 : ℝ)))
      rw [show cross ℙ (fun ω => b.mean ω - x ω) (fun _ _ => 1) = 0 from k2, Matrix.mul_zero] at this
      exact cross_unit.1 this 0
    · show ∫ ω, v ⬝ᵥ (x ω - b.mean ω) * v ⬝ᵥ (x ω - b.mean ω) ∂ℙ = _
      simp only [e, neg_mul_neg]
      have := cross_mulVec V k1 (k1.mulVec V)
      rw [cross_mulVec' V k1 k1, k3] at this
      refine (congrFun (congrFun this 0) 0).trans ?_
      rw [← Matrix.mul_assoc, Matrix.mul_apply]
      simp only [transpose_apply, V, of_apply]
      rw [dotProduct_mulVec]
      rfl
  · let Y : Fin ys.length × Fin o → Ω → ℝ := fun j ω => ys[j.1] ω j.2
    have hY : ∀ j, Y j ∈ aff S := fun j => hy _ (List.getElem_mem _) j.2
    have hcov : ∀ i j, covariance (fun ω => x ω i - b.mean ω i) (Y j) ℙ = 0 := fun i j => by
      refine (covariance_eq_sub (aff_square hS (he i)) (aff_square hS (hY j))).trans ?_
      have h0 : ∫ ω, (x ω i - b.mean ω i) ∂ℙ = 0 := by
        simp only [neg, integral_neg, neg_eq_zero]
        exact h.error.mean i
      have h1 : ∫ ω, (x ω i - b.mean ω i) * Y j ω ∂ℙ = 0 := by
        simp only [neg, neg_mul, integral_neg, neg_eq_zero]
        exact h.unc hs (List.getElem_mem _) i j.2
      refine (congrArg₂ (fun a b => a - b * ∫ ω, Y j ω ∂ℙ) h1 h0).trans ?_
      simp
    have := (aff_pair hS he hY).indepFun_of_covariance_eval hcov
    exact this.comp measurable_id (show Measurable fun (f : Fin ys.length × Fin o → ℝ) (j : Fin ys.length) (i : Fin o) => f (j, i) by fun_prop)

theorem calibrated (hS : JointlyNormal ℙ S) {truth : List ((Ω → Fin n → ℝ) × (Ω → Fin o → ℝ))} {out : List (Reported Ω n × Reported Ω o)}
    (h : Consistent ℙ [] truth out) (ht : ∀ t ∈ truth, Aff S t.1 ∧ Aff S t.2) : Calibrated ℙ truth out := by
  refine ⟨h.1, fun k t b h1 h2 => ?_⟩
  obtain ⟨k1, k2, -⟩ := h.2 k t b h1 h2
  have hm := ht t (List.mem_of_getElem? h1)
  have hy : ∀ k, ∀ y ∈ (truth.take k).map (·.2), Aff S y := fun k y hy => by
    obtain ⟨t, htm, rfl⟩ := List.mem_map.1 hy
    exact (ht t (List.mem_of_mem_take htm)).2
  exact ⟨normal_around hS k1 hm.1 (hy _), normal_around hS k2 hm.2 (hy _)⟩

end Verif
