import Verif.Props.Calibrated
import Verif.Props.StatisticsPossible
import Mathlib.Probability.Distributions.Gaussian.Multivariate
/-!
# C146: there is such noise
-/

namespace Verif
open Ecm Cell Matrix Spec MeasureTheory
open ProbabilityTheory (gaussianReal IsGaussian multivariateGaussian stdGaussian covariance_eval_multivariateGaussian multivariateGaussian_zero_one integral_strongDual_stdGaussian
  covariance_eq_sub)

/-- C146, normal noise as it is supposed there exists: for all covariances and in any number of steps. -/
theorem C146_possible {ι : Type} {n o : Nat} {P Q : Matrix (Fin n) (Fin n) ℝ} {R : Matrix (Fin o) (Fin o) ℝ} (hP : P.PosDef) (hQ : Q.PosDef)
    (hR : R.PosDef) (us : List ι) : ∃ (Ω : Type) (_ : MeasurableSpace Ω) (ℙ : Measure Ω) (e : Ω → Fin n → ℝ)
      (ds : List (ι × (Ω → Fin n → ℝ) × (Ω → Fin o → ℝ))), IsProbabilityMeasure ℙ ∧ ds.map (·.1) = us ∧ White ℙ e P Q R ds ∧ JointlyNormal ℙ (sources e ds) := by
  let T := Option (Fin n ⊕ Fin us.length × (Fin n ⊕ Fin o))
  let ℙ := stdGaussian (EuclideanSpace ℝ T)
  let num : EuclideanSpace ℝ T → T → ℝ := fun ω t => ω t
  have hsq : ∀ t, MemLp (fun ω => num ω t) 2 ℙ := fun t => IsGaussian.memLp_dual ℙ (EuclideanSpace.proj t) 2 (by simp)
  have hmean : ∀ t, ∫ ω, num ω t ∂ℙ = 0 := fun t => integral_strongDual_stdGaussian (EuclideanSpace.proj t)
  have hcov : ∀ s t, ∫ ω, num ω s * num ω t ∂ℙ = if s = t then 1 else 0 := fun s t => by
    have h1 := covariance_eval_multivariateGaussian (μ := 0) (S := (1 : Matrix T T ℝ)) Matrix.PosSemidef.one s t
    rw [multivariateGaussian_zero_one] at h1
    have h2 := covariance_eq_sub (hsq s) (hsq t)
    rw [hmean, zero_mul, sub_zero] at h2
    rw [Matrix.one_apply] at h1
    exact h2.symm.trans h1
  obtain ⟨e, ds, h1, h2, h3, h4⟩ := white_from hP hQ hR us (ℙ := ℙ) num hsq hmean hcov
  refine ⟨_, inferInstance, ℙ, e, ds, inferInstance, h1, h2, fun X hX => ?_⟩
  have hc : ∃ c, X = fun ω => c ⬝ᵥ num ω := by
    refine Submodule.span_induction ?_ ⟨0, funext fun ω => (zero_dotProduct _).symm⟩ ?_ ?_ hX
    · rintro Y (⟨i, rfl⟩ | ⟨d, hd, ⟨i, rfl⟩ | ⟨i, rfl⟩⟩)
      · exact (h3 i).imp fun c hc => funext hc
      · exact ((h4 d hd).1 i).imp fun c hc => funext hc
      · exact ((h4 d hd).2 i).imp fun c hc => funext hc
    · rintro Y Z - - ⟨c, rfl⟩ ⟨c', rfl⟩
      exact ⟨c + c', funext fun ω => (add_dotProduct _ _ _).symm⟩
    · rintro r Y - ⟨c, rfl⟩
      exact ⟨r • c, funext fun ω => by rw [smul_dotProduct]; rfl⟩
  obtain ⟨c, rfl⟩ := hc
  let L : StrongDual ℝ (EuclideanSpace ℝ T) := ∑ t, c t • EuclideanSpace.proj t
  have hL : (fun ω => c ⬝ᵥ num ω) = L := funext fun ω => by
    simp [L, dotProduct, num]
  have h := IsGaussian.map_eq_gaussianReal (μ := ℙ) L
  rw [integral_strongDual_stdGaussian] at h
  exact ⟨_, hL ▸ h⟩

theorem normal_from {ι : Type} {n o : Nat} (μ : Fin n → ℝ) {P Q : Matrix (Fin n) (Fin n) ℝ} {R : Matrix (Fin o) (Fin o) ℝ} (hP : P.PosDef) (hQ : Q.PosDef)
    (hR : R.PosDef) (us : List ι) : ∃ (Ω : Type) (_ : MeasurableSpace Ω) (ℙ : Measure Ω) (x : Ω → Fin n → ℝ)
      (ds : List (ι × (Ω → Fin n → ℝ) × (Ω → Fin o → ℝ))), IsProbabilityMeasure ℙ ∧ ds.map (·.1) = us ∧ White ℙ (fun ω => μ - x ω) P Q R ds ∧
        JointlyNormal ℙ (sources (fun ω => μ - x ω) ds) := by
  obtain ⟨Ω, i, ℙ, e, ds, h1, h2, h3, h4⟩ := C146_possible hP hQ hR us
  exact ⟨Ω, i, ℙ, fun ω => μ - e ω, ds, h1, h2, by simpa only [sub_sub_cancel] using h3, by simpa only [sub_sub_cancel] using h4⟩

/-! ## Examples -/

-- The linear filter of two numbers that starts at (1, 2) with unit covariances, whatever its inputs are: there is noise for which its theorem speaks, and then, in
-- every step, whatever has been measured until then, the second number is within two standard
-- deviations of its estimate as often as a normal number is.
example (svd : Mat → Vec × Mat) (us : List Vec) :
    ∃ (Ω : Type) (_ : MeasurableSpace Ω) (ℙ : Measure Ω) (x : Ω → Fin 2 → ℝ) (ds : List (Vec × (Ω → Fin 2 → ℝ) × (Ω → Fin 1 → ℝ))) (truth : List ((Ω → Fin 2 → ℝ) × (Ω → Fin 1 → ℝ)))
      (out : List (Reported Ω 2 × Reported Ω 1)), ds.map (·.1) = us ∧ out.length = us.length ∧
      (∀ ω, disturbedRun Ukf.demoAffine () ⟨1, ![3]⟩ (x ω) (noiseAt ds ω) = truth.map fun t => (t.1 ω, t.2 ω)) ∧
      (∀ ω, ∃ f', Ukf.demo.run svd ((us.zip ((disturbedRun Ukf.demoAffine () ⟨1, ![3]⟩ (x ω) (noiseAt ds ω)).map (·.2))).map
        fun z => (Dist.delta ⟨z.1⟩, Dist.delta ⟨⟨1, z.2⟩⟩)) = .ok (f', out.map fun b => ((b.1.at ω).gaussian, (b.2.at ω).gaussian))) ∧
      ∀ (k : Nat) t b, truth[k]? = some t → out[k]? = some b →
        ∀ B : Set (Fin ((truth.take (k + 1)).map Prod.snd).length → Fin 1 → ℝ), MeasurableSet B →
        ℙ {ω | |t.1 ω 1 - b.1.mean ω 1| ≤ 2 * √(b.1.cov 1 1) ∧ (fun j => ((truth.take (k + 1)).map Prod.snd)[j] ω) ∈ B} =
          gaussianReal 0 1 (Set.Icc (-2) 2) * ℙ {ω | (fun j => ((truth.take (k + 1)).map Prod.snd)[j] ω) ∈ B} := by
  obtain ⟨Ω, i, ℙ, x, ds, h1, rfl, h3, h4⟩ := normal_from ![1, 2] (P := 1) (Q := 1) (R := (1 : Matrix (Fin 1) (Fin 1) ℝ)) .one .one .one us
  obtain ⟨truth, out, k1, k2, k3, k4, k5⟩ := C146_affine (f := Ukf.demo) Ukf.demoAffine Ukf.demo_holds .one .one .one le_rfl svd x ds h3 h4
    (fun ω => (((ds.map (·.1)).zip ((disturbedRun Ukf.demoAffine () ⟨1, ![3]⟩ (x ω) (noiseAt ds ω)).map (·.2))).map
        fun z => (Dist.delta ⟨z.1⟩, Dist.delta ⟨⟨1, z.2⟩⟩))) fun ω => by
      rw [HasMeans, List.forall₂_map_left_iff]
      exact List.forall₂_same.2 fun z _ => ⟨rfl, rfl⟩
  refine ⟨Ω, i, ℙ, x, ds, truth, out, rfl, by rw [k4, k1, List.length_map], k2, k3, fun k t b ht hb B hB => ?_⟩
  have hs : (Pi.single 1 1 : Fin 2 → ℝ) ⬝ᵥ b.1.cov *ᵥ Pi.single 1 1 = b.1.cov 1 1 := by simp
  have := C146_within (k5 k t b ht hb).1 (v := Pi.single 1 1) (by simp) 2 hB
  rw [hs] at this
  simpa only [single_dotProduct, one_mul, Pi.sub_apply] using this

-- The filter of the concrete circuit that starts at SOC 1/2, with any inputs at different times.
example (beh : Behavior) (svd : Mat → Vec × Mat) (us : List (Fin 3 → ℝ)) (ht : (0 :: us.map (· 0)).IsChain (· ≠ ·)) :
    ∃ (Ω : Type) (_ : MeasurableSpace Ω) (ℙ : Measure Ω) (y : Ω → Fin 3 → ℝ) (ds : List ((Fin 3 → ℝ) × (Ω → Fin 3 → ℝ) × (Ω → Fin 1 → ℝ)))
      (truth : List ((Ω → Fin 3 → ℝ) × (Ω → Fin 1 → ℝ))) (out : List (Reported Ω 3 × Reported Ω 1)), ds.map (·.1) = us ∧ out.length = us.length ∧
      (∀ ω, disturbedCell (N := 3) beh (parAt Demo.arrays 0) false ⟨0, 1, some 30⟩ (y ω) ((noiseAt ds ω).map fun d => (⟨d.1 0, d.1 1, some (d.1 2)⟩, d.2)) =
        truth.map fun t => (t.1 ω, t.2 ω)) ∧
      (∀ ω, ∃ f', (Demo.tracker beh).run svd (List.zipWith (fun u t => (.delta ⟨⟨3, u⟩⟩, .delta ⟨⟨1, t.2⟩⟩)) us (truth.map fun t => (t.1 ω, t.2 ω))) =
        .ok (f', out.map fun b => ((b.1.at ω).gaussian, (b.2.at ω).gaussian))) ∧ Calibrated ℙ truth out := by
  have ei : ∀ u : Fin 3 → ℝ, In.ofVec true (List.ofFn u) = ⟨u 0, u 1, some (u 2)⟩ := fun u => by simp [In.ofVec, List.ofFn_succ]
  obtain ⟨Ω, i, ℙ, y, ds, h1, rfl, h3, h4⟩ := normal_from ![0.5, 0, 0] (P := 1) (Q := 1) (R := (1 : Matrix (Fin 1) (Fin 1) ℝ)) .one .one .one us
  have h := C146_circuit (Demo.tracking_circuit beh .identity [] []) (estimable_nil (Demo.estimating_estimable beh .identity)) Demo.arrays_straight
    .one .one svd (f := Demo.tracker beh) rfl (Demo.hv_holds [] []) (Demo.tracker_holds beh) .one (u := ![0, 1, 30]) rfl ds
    (fun _ => by
      simp only [ei, List.map_cons]
      exact ht) y h3 h4
  simp only [ei] at h
  obtain ⟨truth, out, k1, k2, k3, k4⟩ := h _ fun ω => measures_zip (ds.map (·.1)) _
  refine ⟨Ω, i, ℙ, y, ds, truth, out, rfl, k4.1.trans (k1.trans (List.length_map _).symm), k2, fun ω => ?_, k4⟩
  exact (congrArg (fun l : List ((Fin 3 → ℝ) × (Fin 1 → ℝ)) => ∃ f', (Demo.tracker beh).run svd
    (List.zipWith (fun u t => (.delta ⟨⟨3, u⟩⟩, .delta ⟨⟨1, t.2⟩⟩)) (ds.map (·.1)) l) =
      .ok (f', out.map fun b => ((b.1.at ω).gaussian, (b.2.at ω).gaussian))) (k2 ω)).mp (k3 ω)

-- The estimator of R0 of the concrete circuit, built with unit covariances at SOC 1/2 and 50 mΩ, with any inputs at different times: there are cells for which its
-- theorem speaks.
example (beh : Behavior) (svd : Mat → Vec × Mat) (us : List (Fin 3 → ℝ)) (ht : beh = .linear → (0 :: us.map (· 0)).IsChain (· ≠ ·)) :
    ∃ (E : Joint) (Ω : Type) (_ : MeasurableSpace Ω) (ℙ : Measure Ω) (y : Ω → Fin 4 → ℝ) (ds : List ((Fin 3 → ℝ) × (Ω → Fin 4 → ℝ) × (Ω → Fin 1 → ℝ)))
      (truth : List ((Ω → Fin 4 → ℝ) × (Ω → Fin 1 → ℝ))) (out : List (Reported Ω 4 × Reported Ω 1)),
      Joint.fromWrapper (Demo.estimatingR0 beh .identity) (.inl ⟨4, 4, 1⟩) none (some ⟨4, 4, 1⟩) none none (some ⟨1, 1, 1⟩) ⟨1 / 2, none, 2⟩ = .ok E ∧
      ds.map (·.1) = us ∧ out.length = us.length ∧
      (∀ ω, disturbedJoint (Demo.estimatingR0 beh .identity) Demo.fixed beh false 1 ⟨0, 1, some 30⟩ (y ω)
        ((noiseAt ds ω).map fun d => (⟨d.1 0, d.1 1, some (d.1 2)⟩, d.2)) = truth.map fun t => (t.1 ω, t.2 ω)) ∧
      (∀ ω, ∃ fin, E.run svd ((us.zip (truth.map fun t => t.2 ω)).map fun m =>
        (⟨[(kTime, some (.ofRow [m.1 0])), (kCurrent, some (.ofRow [m.1 1])), (kTemp, some (.ofRow [m.1 2]))]⟩, ⟨[(kVoltage, some (.ofRow [m.2 0]))]⟩)) =
          .ok (fin, out.map fun b => ((b.1.at ω).gaussian, (b.2.at ω).gaussian))) ∧ Calibrated ℙ truth out := by
  have ei : ∀ u : Fin 3 → ℝ, In.ofVec true (List.ofFn u) = ⟨u 0, u 1, some (u 2)⟩ := fun u => by simp [In.ofVec, List.ofFn_succ]
  obtain ⟨E, u, μ, U, T, A, hE, ⟨hU, hu⟩, ⟨hT, hA, hy⟩, hrun⟩ := C146_estimator (Demo.estimatingR0_circuit beh .identity) (Demo.estimatingR0_estimable _ _)
    (Demo.estimatingR0_straight _ _) rfl Demo.hvState_single Demo.hvInput_single rfl .one .one .one ⟨1 / 2, none, 2⟩ ⟨by norm_num, by norm_num⟩ (by norm_num) nofun
  cases (Except.ok.inj hU)
  obtain rfl : ![0, 1, 30] = u := Vec.mk.inj hu |>.2 |> eq_of_heq |> fun h => by rw [← h]; funext k; fin_cases k <;> rfl
  obtain ⟨Ω, i, ℙ, y, ds, h1, rfl, h3, h4⟩ := normal_from μ (P := 1) (Q := 1) (R := (1 : Matrix (Fin 1) (Fin 1) ℝ)) .one .one .one us
  have h := hrun svd Ω ℙ ds (fun hb => by simp only [ei, List.map_cons]; exact ht hb) y h3 h4
  simp only [ei] at h
  have hm : ∀ (us : List (Fin 3 → ℝ)) (vs : List (Fin 1 → ℝ)), List.Forall₂ (fun (m : Container ℝ × Container ℝ) (h : (Fin 3 → ℝ) × (Fin 1 → ℝ)) =>
      (∃ v, m.1.toNumpy = .ok v ∧ v.flat = ⟨_, h.1⟩) ∧ ∃ y, m.2.toNumpy = .ok y ∧ y.flat = ⟨1, h.2⟩)
      ((us.zip vs).map fun m =>
        (⟨[(kTime, some (.ofRow [m.1 0])), (kCurrent, some (.ofRow [m.1 1])), (kTemp, some (.ofRow [m.1 2]))]⟩, ⟨[(kVoltage, some (.ofRow [m.2 0]))]⟩)) (us.zip vs) :=
    fun us vs => List.forall₂_map_left_iff.2 (List.forall₂_same.2 fun z _ =>
      ⟨⟨.ofRow [z.1 0, z.1 1, z.1 2], rfl, congrArg (Vec.mk 3) (funext fun k => by fin_cases k <;> rfl)⟩, .ofRow [z.2 0], rfl,
        congrArg (Vec.mk 1) (funext fun k => by fin_cases k; rfl)⟩)
  obtain ⟨truth, out, k1, k2, k3, k4⟩ := h _ fun ω => hm _ _
  refine ⟨E, Ω, i, ℙ, y, ds, truth, out, hE, rfl, k4.1.trans (k1.trans (List.length_map _).symm), k2, fun ω => ?_, k4⟩
  have := k3 ω
  rw [show _ = _ from k2 ω, List.map_map] at this
  exact this

end Verif
