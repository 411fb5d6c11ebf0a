import Verif.Props.Statistics
import Mathlib.Probability.ProbabilityMassFunction.Integrals
import Mathlib.Probability.Distributions.Uniform
/-!
# C144: there is such noise
-/

namespace Verif
open Ecm Cell Matrix Spec MeasureTheory

section

variable {T : Type} [Fintype T] [DecidableEq T]

/-- One of the numbers `z` is `√|T|` or `-√|T|`, the others are 0. -/
noncomputable def coin (ω : T × Bool) (t : T) : ℝ := if ω.1 = t then (if ω.2 then √(Fintype.card T) else -√(Fintype.card T)) else 0

local instance : MeasurableSpace (T × Bool) := ⊤

/-- All cases are equally likely. -/
noncomputable def coins (T : Type) [Fintype T] [Nonempty T] : Measure (T × Bool) := (PMF.uniformOfFintype (T × Bool)).toMeasure

variable [Nonempty T]

instance : IsProbabilityMeasure (coins T) := by unfold coins; infer_instance

theorem coins_integral (f : T × Bool → ℝ) : ∫ ω, f ω ∂coins T = (Fintype.card T : ℝ)⁻¹ / 2 * ∑ t, (f (t, true) + f (t, false)) := by
  rw [coins, PMF.integral_eq_sum]
  simp only [PMF.uniformOfFintype_apply, Fintype.card_prod, Fintype.card_bool, smul_eq_mul]
  rw [← Finset.mul_sum, Fintype.sum_prod_type]
  simp only [Fintype.sum_bool]
  congr 1
  simp [ENNReal.toReal_inv]
  ring

theorem coins_memLp (f : T × Bool → ℝ) : MemLp f 2 (coins T) := MemLp.of_discrete

theorem coin_mean (t : T) : ∫ ω, coin ω t ∂coins T = 0 := by
  rw [coins_integral]
  have : ∀ s : T, coin (s, true) t + coin (s, false) t = 0 := fun s => by
    by_cases h : s = t <;> simp [coin, h]
  simp [this]

theorem coin_cov (s t : T) : ∫ ω, coin ω s * coin ω t ∂coins T = if s = t then 1 else 0 := by
  rw [coins_integral]
  have hc : (0 : ℝ) < Fintype.card T := by exact_mod_cast Fintype.card_pos
  by_cases h : s = t
  · subst h
    have : ∀ r : T, coin (r, true) s * coin (r, true) s + coin (r, false) s * coin (r, false) s = if r = s then 2 * (Fintype.card T : ℝ) else 0 := fun r => by
      by_cases hr : r = s
      · simp only [coin, hr, if_true]
        simp [Real.mul_self_sqrt hc.le]
        ring
      · simp [coin, hr]
    simp only [this, Finset.sum_ite_eq', Finset.mem_univ, if_true]
    field_simp
  · have : ∀ r : T, coin (r, true) s * coin (r, true) t + coin (r, false) s * coin (r, false) t = 0 := fun r => by
      by_cases hr : r = s
      · have : r ≠ t := fun h' => h (hr.symm.trans h')
        simp [coin, this]
      · simp [coin, hr]
    simp [this, h]

/-- Noise made from enough uncorrelated random numbers `z` of variance 1. -/
theorem white_from {ι : Type} {n o : Nat} {P Q : Matrix (Fin n) (Fin n) ℝ} {R : Matrix (Fin o) (Fin o) ℝ} (hP : P.PosDef) (hQ : Q.PosDef)
    (hR : R.PosDef) (us : List ι) {Ω : Type} [MeasurableSpace Ω] {ℙ : Measure Ω} [IsProbabilityMeasure ℙ]
    (num : Ω → Option (Fin n ⊕ Fin us.length × (Fin n ⊕ Fin o)) → ℝ) (hsq : ∀ t, MemLp (fun ω => num ω t) 2 ℙ) (hmean : ∀ t, ∫ ω, num ω t ∂ℙ = 0)
    (hcov : ∀ s t, ∫ ω, num ω s * num ω t ∂ℙ = if s = t then 1 else 0) :
    ∃ (e : Ω → Fin n → ℝ) (ds : List (ι × (Ω → Fin n → ℝ) × (Ω → Fin o → ℝ))), ds.map (·.1) = us ∧ White ℙ e P Q R ds ∧
      (∀ i, ∃ c, ∀ ω, e ω i = c ⬝ᵥ num ω) ∧ ∀ d ∈ ds, (∀ i, ∃ c, ∀ ω, d.2.1 ω i = c ⬝ᵥ num ω) ∧ ∀ i, ∃ c, ∀ ω, d.2.2 ω i = c ⬝ᵥ num ω := by
  obtain ⟨LP, eP⟩ : ∃ L : Matrix (Fin n) (Fin n) ℝ, L * Lᵀ = P := (exists_isCholesky hP).imp fun _ k => k.mul_transpose (posDef_isSymm hP)
  obtain ⟨LQ, eQ⟩ : ∃ L : Matrix (Fin n) (Fin n) ℝ, L * Lᵀ = Q := (exists_isCholesky hQ).imp fun _ k => k.mul_transpose (posDef_isSymm hQ)
  obtain ⟨LR, eR⟩ : ∃ L : Matrix (Fin o) (Fin o) ℝ, L * Lᵀ = R := (exists_isCholesky hR).imp fun _ k => k.mul_transpose (posDef_isSymm hR)
  let T := Option (Fin n ⊕ Fin us.length × (Fin n ⊕ Fin o))
  let z {m : Nat} (b : Fin m → T) : Ω → Fin m → ℝ := fun ω i => num ω (b i)
  have sz : ∀ {m : Nat} (b : Fin m → T), Sq ℙ (z b) := fun b i => hsq _
  have uz : ∀ {m : Nat} (b : Fin m → T), cross ℙ (z b) unit = 0 := fun b => cross_unit.2 fun i => hmean _
  have cz : ∀ {m : Nat} (b : Fin m → T), Function.Injective b → cross ℙ (z b) (z b) = 1 := fun b hb => by
    ext i j
    rw [Matrix.one_apply]
    refine (hcov _ _).trans ?_
    simp [hb.eq_iff]
  have nz : ∀ {m k : Nat} (b : Fin m → T) (c : Fin k → T), (∀ i j, b i ≠ c j) → cross ℙ (z b) (z c) = 0 := fun b c h => by
    ext i j
    refine (hcov _ _).trans ?_
    simp [h i j]
  have spread : ∀ {m : Nat} (L : Matrix (Fin m) (Fin m) ℝ) (b : Fin m → T), Function.Injective b → Spread ℙ (fun ω => L *ᵥ z b ω) (L * Lᵀ) := fun L b hb =>
    spread_iff.2 ⟨(sz b).mulVec L, (cross_mulVec L (sz b) (Sq.const _)).trans ((congrArg (L * ·) (uz b)).trans (Matrix.mul_zero L)), by
      rw [cross_mulVec L (sz b) ((sz b).mulVec L), cross_mulVec' L (sz b) (sz b), cz b hb, Matrix.one_mul]⟩
  have unc : ∀ {m k : Nat} (L : Matrix (Fin m) (Fin m) ℝ) (M : Matrix (Fin k) (Fin k) ℝ) (b : Fin m → T) (c : Fin k → T), (∀ i j, b i ≠ c j) →
      Uncorrelated ℙ (fun ω => L *ᵥ z b ω) (fun ω => M *ᵥ z c ω) := fun L M b c h => unc_iff.2 (by
    rw [cross_mulVec L (sz b) ((sz c).mulVec M), cross_mulVec' M (sz b) (sz c), nz b c h]; simp)
  let b0 : Fin n → T := fun i => some (.inl i)
  let bw (k : Fin us.length) : Fin n → T := fun i => some (.inr (k, .inl i))
  let bv (k : Fin us.length) : Fin o → T := fun i => some (.inr (k, .inr i))
  have i0 : Function.Injective b0 := fun i j h => Sum.inl.inj (Option.some.inj h)
  have iw : ∀ k, Function.Injective (bw k) := fun k i j h => Sum.inl.inj (Prod.ext_iff.1 (Sum.inr.inj (Option.some.inj h))).2
  have iv : ∀ k, Function.Injective (bv k) := fun k i j h => Sum.inr.inj (Prod.ext_iff.1 (Sum.inr.inj (Option.some.inj h))).2
  have comb : ∀ {m : Nat} (L : Matrix (Fin m) (Fin m) ℝ) (b : Fin m → T) (i : Fin m), ∃ c : T → ℝ, ∀ ω, (L *ᵥ z b ω) i = c ⬝ᵥ num ω := fun L b i =>
    ⟨fun t => ∑ j, if b j = t then L i j else 0, fun ω => by
      simp only [Matrix.mulVec, dotProduct, Finset.sum_mul, z]
      rw [Finset.sum_comm]
      refine Finset.sum_congr rfl fun j _ => ?_
      simp⟩
  refine ⟨fun ω => LP *ᵥ z b0 ω,
    (List.finRange us.length).map fun k => (us.get k, fun ω => LQ *ᵥ z (bw k) ω, fun ω => LR *ᵥ z (bv k) ω),
    by rw [List.map_map]; exact List.map_get_finRange us, ⟨eP ▸ spread LP b0 i0, ?_, ?_, ?_, ?_⟩, comb LP b0, fun d hd => ?_⟩
  · intro d hd
    obtain ⟨k, -, rfl⟩ := List.mem_map.1 hd
    exact eQ ▸ spread LQ (bw k) (iw k)
  · intro d hd
    obtain ⟨k, -, rfl⟩ := List.mem_map.1 hd
    exact eR ▸ spread LR (bv k) (iv k)
  · intro d hd
    obtain ⟨k, -, rfl⟩ := List.mem_map.1 hd
    exact ⟨unc _ _ _ _ fun i j h => (by cases Option.some.inj h), unc _ _ _ _ fun i j h => (by cases Option.some.inj h), unc _ _ _ _ fun i j h => (by cases (Prod.ext_iff.1 (Sum.inr.inj (Option.some.inj h))).2)⟩
  · rw [List.pairwise_map]
    refine (List.nodup_finRange us.length).imp fun {k l} h => ?_
    exact ⟨unc _ _ _ _ fun i j g => h (Prod.ext_iff.1 (Sum.inr.inj (Option.some.inj g))).1, unc _ _ _ _ fun i j g => h (Prod.ext_iff.1 (Sum.inr.inj (Option.some.inj g))).1, unc _ _ _ _ fun i j g => h (Prod.ext_iff.1 (Sum.inr.inj (Option.some.inj g))).1,
      unc _ _ _ _ fun i j g => h (Prod.ext_iff.1 (Sum.inr.inj (Option.some.inj g))).1⟩
  · obtain ⟨k, -, rfl⟩ := List.mem_map.1 hd
    exact ⟨comb LQ (bw k), comb LR (bv k)⟩

/-- C144, noise as it is supposed there exists: for all covariances and in any number of steps. -/
theorem C144_possible {ι : Type} {n o : Nat} {P Q : Matrix (Fin n) (Fin n) ℝ} {R : Matrix (Fin o) (Fin o) ℝ} (hP : P.PosDef) (hQ : Q.PosDef)
    (hR : R.PosDef) (us : List ι) : ∃ (Ω : Type) (_ : MeasurableSpace Ω) (ℙ : Measure Ω) (e : Ω → Fin n → ℝ)
      (ds : List (ι × (Ω → Fin n → ℝ) × (Ω → Fin o → ℝ))), IsProbabilityMeasure ℙ ∧ ds.map (·.1) = us ∧ White ℙ e P Q R ds := by
  obtain ⟨e, ds, h1, h2, -⟩ := white_from hP hQ hR us (ℙ := coins (Option (Fin n ⊕ Fin us.length × (Fin n ⊕ Fin o)))) (fun ω t => coin ω t)
    (fun _ => coins_memLp _) coin_mean coin_cov
  exact ⟨_, inferInstance, coins _, e, ds, inferInstance, h1, h2⟩

end

/-- The same, as errors of a first estimate `μ`. -/
theorem possible_from {ι : Type} {n o : Nat} (μ : Fin n → ℝ) {P Q : Matrix (Fin n) (Fin n) ℝ} {R : Matrix (Fin o) (Fin o) ℝ} (hP : P.PosDef) (hQ : Q.PosDef)
    (hR : R.PosDef) (us : List ι) : ∃ (Ω : Type) (_ : MeasurableSpace Ω) (ℙ : Measure Ω) (x : Ω → Fin n → ℝ)
      (ds : List (ι × (Ω → Fin n → ℝ) × (Ω → Fin o → ℝ))), IsProbabilityMeasure ℙ ∧ ds.map (·.1) = us ∧ White ℙ (fun ω => μ - x ω) P Q R ds := by
  obtain ⟨Ω, i, ℙ, e, ds, h1, h2, h3⟩ := C144_possible hP hQ hR us
  exact ⟨Ω, i, ℙ, fun ω => μ - e ω, ds, h1, h2, by simpa only [sub_sub_cancel] using h3⟩

/-! ## Examples -/

-- The linear filter of two numbers that starts at (1, 2) with unit covariances, whatever its inputs are: there is noise for which its theorem speaks, and then the
-- squares of the errors of all estimates have the reported variances as means.
example (svd : Mat → Vec × Mat) (us : List Vec) :
    ∃ (Ω : Type) (_ : MeasurableSpace Ω) (ℙ : Measure Ω) (x : Ω → Fin 2 → ℝ) (ds : List (Vec × (Ω → Fin 2 → ℝ) × (Ω → Fin 1 → ℝ))) (truth : List ((Ω → Fin 2 → ℝ) × (Ω → Fin 1 → ℝ)))
      (out : List (Reported Ω 2 × Reported Ω 1)), ds.map (·.1) = us ∧ out.length = us.length ∧
      (∀ ω, disturbedRun Ukf.demoAffine () ⟨1, ![3]⟩ (x ω) (noiseAt ds ω) = truth.map fun t => (t.1 ω, t.2 ω)) ∧
      (∀ ω, ∃ f', Ukf.demo.run svd ((us.zip ((disturbedRun Ukf.demoAffine () ⟨1, ![3]⟩ (x ω) (noiseAt ds ω)).map (·.2))).map
        fun z => (Dist.delta ⟨z.1⟩, Dist.delta ⟨⟨1, z.2⟩⟩)) = .ok (f', out.map fun b => ((b.1.at ω).gaussian, (b.2.at ω).gaussian))) ∧
      ∀ (k : Nat) t b, truth[k]? = some t → out[k]? = some b → ∀ i, ∫ ω, (b.1.mean ω i - t.1 ω i) * (b.1.mean ω i - t.1 ω i) ∂ℙ = b.1.cov i i := by
  obtain ⟨Ω, i, ℙ, x, ds, h1, rfl, h3⟩ := possible_from ![1, 2] (P := 1) (Q := 1) (R := (1 : Matrix (Fin 1) (Fin 1) ℝ)) .one .one .one us
  obtain ⟨truth, out, k1, k2, k3, k4, k5⟩ := C144_affine (f := Ukf.demo) Ukf.demoAffine Ukf.demo_holds .one .one .one le_rfl svd x ds h3
    (fun ω => (((ds.map (·.1)).zip ((disturbedRun Ukf.demoAffine () ⟨1, ![3]⟩ (x ω) (noiseAt ds ω)).map (·.2))).map
        fun z => (Dist.delta ⟨z.1⟩, Dist.delta ⟨⟨1, z.2⟩⟩))) fun ω => by
      rw [HasMeans, List.forall₂_map_left_iff]
      exact List.forall₂_same.2 fun z _ => ⟨rfl, rfl⟩
  exact ⟨Ω, i, ℙ, x, ds, truth, out, rfl, by rw [k4, k1, List.length_map], k2, k3, fun k t b ht hb i => (k5 k t b ht hb).1.error.cov i i⟩

-- The filter of the concrete circuit that starts at SOC 1/2, with any inputs at different times.
example (beh : Behavior) (svd : Mat → Vec × Mat) (us : List (Fin 3 → ℝ)) (ht : (0 :: us.map (· 0)).IsChain (· ≠ ·)) :
    ∃ (Ω : Type) (_ : MeasurableSpace Ω) (ℙ : Measure Ω) (y : Ω → Fin 3 → ℝ) (ds : List ((Fin 3 → ℝ) × (Ω → Fin 3 → ℝ) × (Ω → Fin 1 → ℝ)))
      (truth : List ((Ω → Fin 3 → ℝ) × (Ω → Fin 1 → ℝ))) (out : List (Reported Ω 3 × Reported Ω 1)), ds.map (·.1) = us ∧ out.length = us.length ∧
      (∀ ω, disturbedCell (N := 3) beh (parAt Demo.arrays 0) false ⟨0, 1, some 30⟩ (y ω) ((noiseAt ds ω).map fun d => (⟨d.1 0, d.1 1, some (d.1 2)⟩, d.2)) =
        truth.map fun t => (t.1 ω, t.2 ω)) ∧
      (∀ ω, ∃ f', (Demo.tracker beh).run svd (List.zipWith (fun u t => (.delta ⟨⟨3, u⟩⟩, .delta ⟨⟨1, t.2⟩⟩)) us (truth.map fun t => (t.1 ω, t.2 ω))) =
        .ok (f', out.map fun b => ((b.1.at ω).gaussian, (b.2.at ω).gaussian))) ∧ Consistent ℙ [] truth out := by
  have ei : ∀ u : Fin 3 → ℝ, In.ofVec true (List.ofFn u) = ⟨u 0, u 1, some (u 2)⟩ := fun u => by simp [In.ofVec, List.ofFn_succ]
  obtain ⟨Ω, i, ℙ, y, ds, h1, rfl, h3⟩ := possible_from ![0.5, 0, 0] (P := 1) (Q := 1) (R := (1 : Matrix (Fin 1) (Fin 1) ℝ)) .one .one .one us
  have h := C144_circuit (Demo.tracking_circuit beh .identity [] []) (estimable_nil (Demo.estimating_estimable beh .identity)) Demo.arrays_straight
    .one .one svd (f := Demo.tracker beh) rfl (Demo.hv_holds [] []) (Demo.tracker_holds beh) .one (u := ![0, 1, 30]) rfl ds
    (fun _ => by
      simp only [ei, List.map_cons]
      exact ht) y h3
  simp only [ei] at h
  obtain ⟨truth, out, k1, k2, k3, k4⟩ := h _ fun ω => measures_zip (ds.map (·.1)) _
  refine ⟨Ω, i, ℙ, y, ds, truth, out, rfl, k4.1.trans (k1.trans (List.length_map _).symm), k2, fun ω => ?_, k4⟩
  exact (congrArg (fun l : List ((Fin 3 → ℝ) × (Fin 1 → ℝ)) => ∃ f', (Demo.tracker beh).run svd
    (List.zipWith (fun u t => (.delta ⟨⟨3, u⟩⟩, .delta ⟨⟨1, t.2⟩⟩)) (ds.map (·.1)) l) =
      .ok (f', out.map fun b => ((b.1.at ω).gaussian, (b.2.at ω).gaussian))) (k2 ω)).mp (k3 ω)

-- The estimator of R0 of the concrete circuit, built with unit covariances at SOC 1/2 and 50 mΩ, with any inputs at different times: there are cells for which its
-- theorem speaks, and the variance reported with the resistance in any step is that of its error then.
example (beh : Behavior) (svd : Mat → Vec × Mat) (us : List (Fin 3 → ℝ)) (ht : beh = .linear → (0 :: us.map (· 0)).IsChain (· ≠ ·)) :
    ∃ (E : Joint) (Ω : Type) (_ : MeasurableSpace Ω) (ℙ : Measure Ω) (y : Ω → Fin 4 → ℝ) (ds : List ((Fin 3 → ℝ) × (Ω → Fin 4 → ℝ) × (Ω → Fin 1 → ℝ)))
      (truth : List ((Ω → Fin 4 → ℝ) × (Ω → Fin 1 → ℝ))) (out : List (Reported Ω 4 × Reported Ω 1)),
      Joint.fromWrapper (Demo.estimatingR0 beh .identity) (.inl ⟨4, 4, 1⟩) none (some ⟨4, 4, 1⟩) none none (some ⟨1, 1, 1⟩) ⟨1 / 2, none, 2⟩ = .ok E ∧
      ds.map (·.1) = us ∧ out.length = us.length ∧
      (∀ ω, disturbedJoint (Demo.estimatingR0 beh .identity) Demo.fixed beh false 1 ⟨0, 1, some 30⟩ (y ω)
        ((noiseAt ds ω).map fun d => (⟨d.1 0, d.1 1, some (d.1 2)⟩, d.2)) = truth.map fun t => (t.1 ω, t.2 ω)) ∧
      (∀ ω, ∃ fin, E.run svd ((us.zip (truth.map fun t => t.2 ω)).map fun m =>
        (⟨[(kTime, some (.ofRow [m.1 0])), (kCurrent, some (.ofRow [m.1 1])), (kTemp, some (.ofRow [m.1 2]))]⟩, ⟨[(kVoltage, some (.ofRow [m.2 0]))]⟩)) =
          .ok (fin, out.map fun b => ((b.1.at ω).gaussian, (b.2.at ω).gaussian))) ∧
      ∀ (k : Nat) t b, truth[k]? = some t → out[k]? = some b → ∫ ω, (b.1.mean ω 3 - t.1 ω 3) * (b.1.mean ω 3 - t.1 ω 3) ∂ℙ = b.1.cov 3 3 := by
  have ei : ∀ u : Fin 3 → ℝ, In.ofVec true (List.ofFn u) = ⟨u 0, u 1, some (u 2)⟩ := fun u => by simp [In.ofVec, List.ofFn_succ]
  obtain ⟨E, u, μ, U, T, A, hE, ⟨hU, hu⟩, ⟨hT, hA, hy⟩, hrun⟩ := C144_estimator (Demo.estimatingR0_circuit beh .identity) (Demo.estimatingR0_estimable _ _)
    (Demo.estimatingR0_straight _ _) rfl Demo.hvState_single Demo.hvInput_single rfl .one .one .one ⟨1 / 2, none, 2⟩ ⟨by norm_num, by norm_num⟩ (by norm_num) nofun
  cases (Except.ok.inj hU)
  obtain rfl : ![0, 1, 30] = u := Vec.mk.inj hu |>.2 |> eq_of_heq |> fun h => by rw [← h]; funext k; fin_cases k <;> rfl
  obtain ⟨Ω, i, ℙ, y, ds, h1, rfl, h3⟩ := possible_from μ (P := 1) (Q := 1) (R := (1 : Matrix (Fin 1) (Fin 1) ℝ)) .one .one .one us
  have h := hrun svd Ω ℙ ds (fun hb => by simp only [ei, List.map_cons]; exact ht hb) y h3
  simp only [ei] at h
  have hm : ∀ (us : List (Fin 3 → ℝ)) (vs : List (Fin 1 → ℝ)), List.Forall₂ (fun (m : Container ℝ × Container ℝ) (h : (Fin 3 → ℝ) × (Fin 1 → ℝ)) =>
      (∃ v, m.1.toNumpy = .ok v ∧ v.flat = ⟨_, h.1⟩) ∧ ∃ y, m.2.toNumpy = .ok y ∧ y.flat = ⟨1, h.2⟩)
      ((us.zip vs).map fun m =>
        (⟨[(kTime, some (.ofRow [m.1 0])), (kCurrent, some (.ofRow [m.1 1])), (kTemp, some (.ofRow [m.1 2]))]⟩, ⟨[(kVoltage, some (.ofRow [m.2 0]))]⟩)) (us.zip vs) :=
    fun us vs => List.forall₂_map_left_iff.2 (List.forall₂_same.2 fun z _ =>
      ⟨⟨.ofRow [z.1 0, z.1 1, z.1 2], rfl, congrArg (Vec.mk 3) (funext fun k => by fin_cases k <;> rfl)⟩, .ofRow [z.2 0], rfl,
        congrArg (Vec.mk 1) (funext fun k => by fin_cases k; rfl)⟩)
  obtain ⟨truth, out, k1, k2, k3, k4⟩ := h _ fun ω => hm _ _
  refine ⟨E, Ω, i, ℙ, y, ds, truth, out, hE, rfl, k4.1.trans (k1.trans (List.length_map _).symm), k2, fun ω => ?_,
    fun k t b ht hb => (k4.2 k t b ht hb).1.error.cov (3 : Fin 4) (3 : Fin 4)⟩
  have := k3 ω
  rw [show _ = _ from k2 ω, List.map_map] at this
  exact this

end Verif
