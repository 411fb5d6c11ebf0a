import Verif.Props.UkfSigma
/-!
# C124: the estimates of the filter are those of least squares
-/

namespace Verif
open Ecm Cell Matrix Spec

/-! ## Specification -/

/-- The squares of all deviations from an affine model, in units of the noises, of a system that goes from `x` through the states `xs` while its inputs
and measurements are `zs`. -/
noncomputable def Spec.deviations {σ : Type} {w : Wrapper σ} {n o : Nat} (A : AffineModel w n o) (Q : Matrix (Fin n) (Fin n) ℝ) (R : Matrix (Fin o) (Fin o) ℝ) :
    σ → Vec → List (Vec × (Fin o → ℝ)) → (Fin n → ℝ) → List (Fin n → ℝ) → ℝ
  | s, u, (u', z) :: zs, x, x' :: xs =>
    let s' := A.next s u u'
    misfit (x' - (A.F s u u' *ᵥ x + A.c s u u')) Q + misfit (z - (A.H s' u' *ᵥ x' + A.d s' u')) R + deviations A Q R s' u' zs x' xs
  | _, _, _, _, _ => 0

/-- The squares of all deviations from the circuit equations, in units of the noises, of a cell that goes from `y` through the states `ys` while its
inputs and measured voltages are `zs`. -/
noncomputable def Spec.cellDeviations (beh : Behavior) (p : Par) (series : Bool) {N : Nat} (Q : Matrix (Fin N) (Fin N) ℝ) (R : Matrix (Fin 1) (Fin 1) ℝ) :
    In → List (In × (Fin 1 → ℝ)) → (Fin N → ℝ) → List (Fin N → ℝ) → ℝ
  | prev, (new, z) :: zs, y, y' :: ys =>
    misfit (y' - cellStep beh p series prev new y) Q + misfit (z - cellVolt p series new y') R + cellDeviations beh p series Q R new zs y' ys
  | _, _, _, _ => 0

/-- Of all the ways through `k` further states that end in `x'`, for every `x'`, the cheapest costs `S` and the misfit of `x'` to the belief `b`. -/
def Spec.Cheapest {n : Nat} (cost : (Fin n → ℝ) → List (Fin n → ℝ) → ℝ) (k : Nat) (b : Belief n) (S : ℝ) : Prop :=
  ∀ x', IsLeast {c | ∃ x xs, xs.length = k ∧ xs.getLastD x = x' ∧ c = cost x xs} (S + misfit (x' - b.mean) b.cov)

/-- The misfits of measurements to their predictions. -/
noncomputable def Spec.surprise {n o : Nat} (zs : List (Fin o → ℝ)) (out : List (Belief n × Belief o)) : ℝ :=
  (List.zipWith (fun z b => misfit (z - b.2.mean) b.2.cov) zs out).sum

/-! ## One step -/

section
variable {n o : Nat} {P Q : Matrix (Fin n) (Fin n) ℝ} {R : Matrix (Fin o) (Fin o) ℝ}

theorem misfit_neg (e : Fin n → ℝ) (P : Matrix (Fin n) (Fin n) ℝ) : misfit (-e) P = misfit e P := by
  simp [misfit, mulVec_neg]

theorem misfit_sub_comm (x y : Fin n → ℝ) (P : Matrix (Fin n) (Fin n) ℝ) : misfit (x - y) P = misfit (y - x) P := by
  rw [← misfit_neg, neg_sub]

/-- Predicting: the cheapest way to a state. -/
theorem misfit_predict (hP : P.PosDef) (hQ : Q.PosDef) (F : Matrix (Fin n) (Fin n) ℝ) (c μ : Fin n → ℝ) (x' : Fin n → ℝ) :
    let pred := kalmanPredict F c Q ⟨μ, P⟩
    (∀ x, misfit (x' - pred.mean) pred.cov ≤ misfit (x - μ) P + misfit (x' - (F *ᵥ x + c)) Q) ∧
      ∃ x, misfit (x - μ) P + misfit (x' - (F *ᵥ x + c)) Q = misfit (x' - pred.mean) pred.cov := by
  intro pred
  have hp : pred.cov.PosDef := Ukf.predict_posDef hP hQ
  have uP : IsUnit P.det := isUnit_iff_ne_zero.2 hP.det_pos.ne'
  have uQ : IsUnit Q.det := isUnit_iff_ne_zero.2 hQ.det_pos.ne'
  have up : IsUnit pred.cov.det := isUnit_iff_ne_zero.2 hp.det_pos.ne'
  constructor
  · intro x
    obtain ⟨s0, hs⟩ := (misfit_le_iff hP).1 (le_refl (misfit (x - μ) P))
    obtain ⟨t0, ht⟩ := (misfit_le_iff hQ).1 (le_refl (misfit (x' - (F *ᵥ x + c)) Q))
    refine (misfit_le_iff hp).2 ⟨add_nonneg s0 t0, ?_⟩
    have := within_add s0 t0 hP.posSemidef hQ.posSemidef hs ht F 1
    convert this using 1
    · simp only [pred, kalmanPredict, mulVec_sub, one_mulVec]; abel
    · simp [pred, kalmanPredict]
  · obtain ⟨v, hv⟩ : ∃ v, v = pred.cov⁻¹ *ᵥ (x' - pred.mean) := ⟨_, rfl⟩
    have hv' : pred.cov *ᵥ v = x' - pred.mean := by rw [hv, mulVec_mulVec, mul_nonsing_inv _ up, one_mulVec]
    refine ⟨μ + P *ᵥ (Fᵀ *ᵥ v), ?_⟩
    have e1 : x' - (F *ᵥ (μ + P *ᵥ (Fᵀ *ᵥ v)) + c) = Q *ᵥ v := by
      have : pred.cov *ᵥ v = F *ᵥ (P *ᵥ (Fᵀ *ᵥ v)) + Q *ᵥ v := by
        simp only [pred, kalmanPredict, add_mulVec, ← mulVec_mulVec]
      rw [this] at hv'
      have e : x' = F *ᵥ (P *ᵥ (Fᵀ *ᵥ v)) + Q *ᵥ v + (F *ᵥ μ + c) := by
        rw [hv']; simp [pred, kalmanPredict]
      rw [e, mulVec_add]; abel
    rw [e1, add_sub_cancel_left]
    have e2 : misfit (P *ᵥ (Fᵀ *ᵥ v)) P = v ⬝ᵥ F *ᵥ (P *ᵥ (Fᵀ *ᵥ v)) := by
      rw [misfit, mulVec_mulVec _ P⁻¹, nonsing_inv_mul _ uP, one_mulVec, dotProduct_comm, mulVec_transpose, ← dotProduct_mulVec]
    have e3 : misfit (Q *ᵥ v) Q = v ⬝ᵥ Q *ᵥ v := by
      rw [misfit, mulVec_mulVec _ Q⁻¹, nonsing_inv_mul _ uQ, one_mulVec, dotProduct_comm]
    have e4 : misfit (x' - pred.mean) pred.cov = v ⬝ᵥ pred.cov *ᵥ v := by
      rw [misfit, ← hv, hv', dotProduct_comm]
    rw [e2, e3, e4, ← dotProduct_add]
    simp only [pred, kalmanPredict, add_mulVec, ← mulVec_mulVec]

/-- Correcting: misfits to what was believed and to the measurement are those to what is believed now and of the measurement to its prediction. -/
theorem misfit_correct (hP : P.PosDef) (hR : R.PosDef) (H : Matrix (Fin o) (Fin n) ℝ) (d z : Fin o → ℝ) (μ x : Fin n → ℝ) :
    let post := kalmanCorrect H d R ⟨μ, P⟩ z
    let out := kalmanOutput H d R ⟨μ, P⟩
    misfit (x - μ) P + misfit (z - (H *ᵥ x + d)) R = misfit (z - out.mean) out.cov + misfit (x - post.mean) post.cov := by
  intro post out
  have hS : out.cov.PosDef := Ukf.innovation_posDef hP hR H
  have uP : IsUnit P.det := isUnit_iff_ne_zero.2 hP.det_pos.ne'
  have uR : IsUnit R.det := isUnit_iff_ne_zero.2 hR.det_pos.ne'
  have uS : IsUnit out.cov.det := isUnit_iff_ne_zero.2 hS.det_pos.ne'
  obtain ⟨G, hG⟩ : ∃ G, G = kalmanGain H R ⟨μ, P⟩ := ⟨_, rfl⟩
  obtain ⟨S, hS'⟩ : ∃ S, S = out.cov := ⟨_, rfl⟩
  have eS : S = H * P * Hᵀ + R := hS'
  have eG : G = P * Hᵀ * S⁻¹ := by rw [hG, eS]; rfl
  rw [← hS'] at uS
  -- the information matrix
  obtain ⟨J, hJ⟩ : ∃ J, J = P⁻¹ + Hᵀ * R⁻¹ * H := ⟨_, rfl⟩
  have eJG : J * G = Hᵀ * R⁻¹ := by
    have : J * (P * Hᵀ) = Hᵀ * R⁻¹ * S := by
      rw [hJ, eS, Matrix.add_mul, ← Matrix.mul_assoc, nonsing_inv_mul _ uP, Matrix.one_mul, Matrix.mul_add, Matrix.mul_assoc Hᵀ R⁻¹ R, nonsing_inv_mul _ uR,
        Matrix.mul_one, add_comm]
      simp only [Matrix.mul_assoc]
    rw [eG, ← Matrix.mul_assoc, this, Matrix.mul_assoc, mul_nonsing_inv _ uS, Matrix.mul_one]
  have eC : post.cov⁻¹ = J := by
    refine inv_eq_left_inv ?_
    show J * ((1 - kalmanGain H R ⟨μ, P⟩ * H) * P) = 1
    rw [← hG, Matrix.sub_mul, Matrix.one_mul, Matrix.mul_sub, Matrix.mul_assoc G, ← Matrix.mul_assoc J G, eJG, hJ, Matrix.add_mul, nonsing_inv_mul _ uP]
    simp only [Matrix.mul_assoc, add_sub_cancel_right]
  have eR : Gᵀ * Hᵀ * R⁻¹ = R⁻¹ - S⁻¹ := by
    have sS : (S⁻¹)ᵀ = S⁻¹ := by rw [transpose_nonsing_inv, hS', (posDef_isSymm hS).eq]
    have sP : Pᵀ = P := (posDef_isSymm hP).eq
    have : H * P * Hᵀ = S - R := by rw [eS]; abel
    rw [eG, transpose_mul, transpose_mul, transpose_transpose, sS, sP, Matrix.mul_assoc S⁻¹, this, Matrix.mul_sub, nonsing_inv_mul _ uS, Matrix.sub_mul,
      Matrix.one_mul, Matrix.mul_assoc, mul_nonsing_inv _ uR, Matrix.mul_one]
  obtain ⟨e, he⟩ : ∃ e, e = x - μ := ⟨_, rfl⟩
  obtain ⟨ε, hε⟩ : ∃ ε, ε = z - (H *ᵥ μ + d) := ⟨_, rfl⟩
  have e1 : z - (H *ᵥ x + d) = ε - H *ᵥ e := by rw [he, hε, mulVec_sub]; abel
  have e2 : x - post.mean = e - G *ᵥ ε := by
    show x - (μ + kalmanGain H R ⟨μ, P⟩ *ᵥ (z - (H *ᵥ μ + d))) = _
    rw [← hG, he, hε]; abel
  have e3 : z - out.mean = ε := hε.symm
  rw [e1, e2, e3, ← he, ← hS']
  simp only [misfit, eC]
  have sJ : Jᵀ = J := by
    have sP : (P⁻¹)ᵀ = P⁻¹ := by rw [transpose_nonsing_inv, (posDef_isSymm hP).eq]
    have sR : (R⁻¹)ᵀ = R⁻¹ := by rw [transpose_nonsing_inv, (posDef_isSymm hR).eq]
    rw [hJ, transpose_add, transpose_mul, transpose_mul, transpose_transpose, sP, sR, Matrix.mul_assoc]
  have sR : (R⁻¹).IsSymm := by rw [Matrix.IsSymm, transpose_nonsing_inv, (posDef_isSymm hR).eq]
  have c1 : J *ᵥ (G *ᵥ ε) = Hᵀ *ᵥ (R⁻¹ *ᵥ ε) := by rw [mulVec_mulVec, eJG, mulVec_mulVec]
  have c2 : G *ᵥ ε ⬝ᵥ J *ᵥ e = e ⬝ᵥ Hᵀ *ᵥ (R⁻¹ *ᵥ ε) := by rw [dot_symm sJ, c1]
  have c3 : G *ᵥ ε ⬝ᵥ Hᵀ *ᵥ (R⁻¹ *ᵥ ε) = ε ⬝ᵥ R⁻¹ *ᵥ ε - ε ⬝ᵥ S⁻¹ *ᵥ ε := by
    rw [← dotProduct_sub, ← sub_mulVec, ← eR, dotProduct_comm, dotProduct_mulVec, ← mulVec_transpose, dotProduct_comm, ← mulVec_mulVec, ← mulVec_mulVec]
  have c4 : ∀ v w, H *ᵥ v ⬝ᵥ w = v ⬝ᵥ Hᵀ *ᵥ w := fun v w => by rw [mulVec_transpose, dotProduct_comm v, ← dotProduct_mulVec, dotProduct_comm]
  have c5 : e ⬝ᵥ J *ᵥ e = e ⬝ᵥ P⁻¹ *ᵥ e + e ⬝ᵥ Hᵀ *ᵥ (R⁻¹ *ᵥ (H *ᵥ e)) := by
    rw [hJ, add_mulVec, dotProduct_add, ← mulVec_mulVec, ← mulVec_mulVec]
  have c6 : ε ⬝ᵥ R⁻¹ *ᵥ (H *ᵥ e) = e ⬝ᵥ Hᵀ *ᵥ (R⁻¹ *ᵥ ε) := by rw [dot_symm sR, c4]
  simp only [mulVec_sub, sub_dotProduct, dotProduct_sub, c1, c2, c3, c4, c5, c6]
  ring

/-- One step of the cheapest way. -/
theorem Cheapest.step {F : Matrix (Fin n) (Fin n) ℝ} {c : Fin n → ℝ} {H : Matrix (Fin o) (Fin n) ℝ} {d z : Fin o → ℝ} {μ : Fin n → ℝ} (hP : P.PosDef)
    (hQ : Q.PosDef) (hR : R.PosDef) {g : (Fin n → ℝ) → Fin n → ℝ} (hg : ∀ x, g x = F *ᵥ x + c) {v : (Fin n → ℝ) → Fin o → ℝ} (hv : ∀ x, v x = H *ᵥ x + d)
    {rest cost : (Fin n → ℝ) → List (Fin n → ℝ) → ℝ} (hcost : ∀ x x' xs, cost x (x' :: xs) = misfit (x' - g x) Q + misfit (z - v x') R + rest x' xs)
    {k : Nat} {b : Belief n} {S : ℝ} :
    let pred := kalmanPredict F c Q ⟨μ, P⟩
    let post := kalmanCorrect H d R pred z
    let out := kalmanOutput H d R pred
    Cheapest (fun x xs => misfit (x - post.mean) post.cov + rest x xs) k b S →
    Cheapest (fun x xs => misfit (x - μ) P + cost x xs) (k + 1) b (misfit (z - out.mean) out.cov + S) := by
  intro pred post out h x'
  have hp : pred.cov.PosDef := Ukf.predict_posDef hP hQ
  obtain ⟨⟨y, ys, h1, h2, h3⟩, h4⟩ := h x'
  have hcor := fun y => misfit_correct hp hR H d z pred.mean y
  constructor
  · obtain ⟨x, hx⟩ := (misfit_predict hP hQ F c μ y).2
    refine ⟨x, y :: ys, by simp [h1], by rw [List.getLastD_cons, h2], ?_⟩
    simp only at h3
    have := hcor y
    show _ = misfit (x - μ) P + cost x (y :: ys)
    rw [hcost, hg, hv, add_assoc, h3]
    linarith
  · rintro _ ⟨x, xs, k1, k2, rfl⟩
    cases xs with
    | nil => cases k1
    | cons y ys =>
      have := (misfit_predict hP hQ F c μ y).1 x
      have := hcor y
      have := h4 ⟨y, ys, by simpa using k1, by rw [← k2, List.getLastD_cons], rfl⟩
      show _ ≤ misfit (x - μ) P + cost x (y :: ys)
      rw [hcost, hg, hv]
      linarith

theorem Cheapest.nil {μ : Fin n → ℝ} {rest : (Fin n → ℝ) → List (Fin n → ℝ) → ℝ} (h : ∀ x, rest x [] = 0) :
    Cheapest (fun x xs => misfit (x - μ) P + rest x xs) 0 ⟨μ, P⟩ 0 := by
  intro x'
  constructor
  · exact ⟨x', [], rfl, rfl, by simp only [h]; ring⟩
  · rintro _ ⟨x, xs, k1, k2, rfl⟩
    cases List.length_eq_zero_iff.1 k1
    cases k2
    exact le_of_eq (by simp only [h, List.getLastD_nil]; ring)

end

theorem kalmanRun_cheapest {σ : Type} {w : Wrapper σ} {n o : Nat} (A : AffineModel w n o) {Q : Matrix (Fin n) (Fin n) ℝ} {R : Matrix (Fin o) (Fin o) ℝ}
    (hQ : Q.PosDef) (hR : R.PosDef) (zs : List (Vec × (Fin o → ℝ))) : ∀ (s : σ) (u : Vec) (b : Belief n), b.cov.PosDef →
    Cheapest (fun x xs => misfit (x - b.mean) b.cov + deviations A Q R s u zs x xs) zs.length (((kalmanRun A Q R s u b zs).map Prod.fst).getLastD b)
      (surprise (zs.map Prod.snd) (kalmanRun A Q R s u b zs)) := by
  induction zs with
  | nil => intro s u b _; exact Cheapest.nil fun x => by simp [deviations]
  | cons z zs ih =>
    intro s u b hb
    obtain ⟨u', z⟩ := z
    have h := ih (A.next s u u') u' _ (Ukf.correct_posDef (H := A.H (A.next s u u') u') (d := A.d (A.next s u u') u') (z := z)
      (Ukf.predict_posDef (F := A.F s u u') (c := A.c s u u') hb hQ) hR)
    have := Cheapest.step hb hQ hR (fun _ => rfl) (fun _ => rfl) (cost := deviations A Q R s u ((u', z) :: zs)) (fun x x' xs => rfl) h
    simpa only [kalmanRun, List.map_cons, List.getLastD_cons, surprise, List.zipWith_cons_cons, List.sum_cons, List.length_cons] using this

theorem kalmanHistory_cheapest {beh : Behavior} {p : Par} {series : Bool} (hp : Straight p) {N : Nat}
    (hN : N = 1 + (if series then 1 else 0) + p.rcs.length + 1) {Q : Matrix (Fin N) (Fin N) ℝ} {R : Matrix (Fin 1) (Fin 1) ℝ}
    (hQ : Q.PosDef) (hR : R.PosDef) (zs : List (In × (Fin 1 → ℝ))) : ∀ (prev : In) (b : Belief N), b.cov.PosDef →
    Cheapest (fun y ys => misfit (y - b.mean) b.cov + cellDeviations beh p series Q R prev zs y ys) zs.length
      (((kalmanHistory beh p series Q R prev b zs).map Prod.fst).getLastD b) (surprise (zs.map Prod.snd) (kalmanHistory beh p series Q R prev b zs)) := by
  induction zs with
  | nil => intro prev b _; exact Cheapest.nil fun x => by simp [cellDeviations]
  | cons z zs ih =>
    intro prev b hb
    obtain ⟨new, z⟩ := z
    have h := ih new _ (Ukf.correct_posDef (H := slopes (cellVolt p series new)) (d := cellVolt p series new (0 : Fin N → ℝ)) (z := z)
      (Ukf.predict_posDef (F := slopes (cellStep beh p series prev new)) (c := cellStep beh p series prev new 0) hb hQ) hR)
    have := Cheapest.step hb hQ hR (fun y => (C112_cell_affine (beh := beh) hp hN prev new y).1) (fun y => (C112_cell_affine (beh := beh) hp hN prev new y).2)
      (cost := cellDeviations beh p series Q R prev ((new, z) :: zs)) (fun x x' xs => rfl) h
    simpa only [kalmanHistory, kalmanStep, List.map_cons, List.getLastD_cons, surprise, List.zipWith_cons_cons, List.sum_cons, List.length_cons] using this

theorem kalmanRun_last {σ : Type} {w : Wrapper σ} {n o : Nat} (A : AffineModel w n o) {Q : Matrix (Fin n) (Fin n) ℝ} {R : Matrix (Fin o) (Fin o) ℝ}
    (hQ : Q.PosDef) (hR : R.PosDef) (zs : List (Vec × (Fin o → ℝ))) : ∀ (s : σ) (u : Vec) (b : Belief n), b.cov.PosDef →
    (((kalmanRun A Q R s u b zs).map Prod.fst).getLastD b).cov.PosDef := by
  induction zs with
  | nil => intro s u b h; exact h
  | cons z zs ih =>
    intro s u b hb
    simp only [kalmanRun, List.map_cons, List.getLastD_cons]
    exact ih _ _ _ (Ukf.correct_posDef (Ukf.predict_posDef hb hQ) hR)

theorem kalmanHistory_last {beh : Behavior} {p : Par} {series : Bool} {N : Nat} {Q : Matrix (Fin N) (Fin N) ℝ} {R : Matrix (Fin 1) (Fin 1) ℝ}
    (hQ : Q.PosDef) (hR : R.PosDef) (zs : List (In × (Fin 1 → ℝ))) : ∀ (prev : In) (b : Belief N), b.cov.PosDef →
    (((kalmanHistory beh p series Q R prev b zs).map Prod.fst).getLastD b).cov.PosDef ∧ (kalmanHistory beh p series Q R prev b zs).length = zs.length := by
  induction zs with
  | nil => intro prev b h; exact ⟨h, rfl⟩
  | cons z zs ih =>
    intro prev b hb
    obtain ⟨h1, h2⟩ := ih z.1 _ (Ukf.correct_posDef (H := slopes (cellVolt p series z.1)) (d := cellVolt p series z.1 (0 : Fin N → ℝ)) (z := z.2)
      (Ukf.predict_posDef (F := slopes (cellStep beh p series prev z.1)) (c := cellStep beh p series prev z.1 0) hb hQ) hR)
    simp only [kalmanHistory, kalmanStep, List.map_cons, List.getLastD_cons, List.length_cons]
    exact ⟨h1, congrArg Nat.succ h2⟩

/-! ## C124 -/

/-- C124 for every affine model.  For a history with inputs and measurements `zs` the filter returns beliefs `out` such that, of all ways of the system that
end in a given state, the cheapest (least squares of the deviations from the first estimate, from the model and from the measurements, in units of the
covariances) costs as much as all measurements missed their predictions, and the misfit of the state to the last estimate. -/
theorem C124_affine {σ : Type} {f : Ukf σ} {n o : Nat} {μ : Fin n → ℝ} {P Q : Matrix (Fin n) (Fin n) ℝ} {R : Matrix (Fin o) (Fin o) ℝ}
    (A : AffineModel f.model n o) (h : f.Holds n o μ P Q R) (hP : P.PosDef) (hQ : Q.PosDef) (hR : R.PosDef) (ho : 1 ≤ o) (svd : Mat → Vec × Mat)
    (hist : List (Dist × Dist)) (zs : List (Vec × (Fin o → ℝ))) (hm : HasMeans hist zs) :
    ∃ f' out, f.run svd hist = .ok (f', out.map fun r => (r.1.gaussian, r.2.gaussian)) ∧ out.length = zs.length ∧
      Cheapest (fun x xs => misfit (x - μ) P + deviations A Q R f.mem f.controls.mean zs x xs) zs.length ((out.map Prod.fst).getLastD ⟨μ, P⟩)
        (surprise (zs.map Prod.snd) out) ∧ ((out.map Prod.fst).getLastD ⟨μ, P⟩).cov.PosDef := by
  obtain ⟨f', h'⟩ := Ukf.C50_history A h hP hQ hR ho svd hist zs hm
  exact ⟨f', _, h', Ukf.kalmanRun_length A .., kalmanRun_cheapest A hQ hR zs _ _ _ hP, kalmanRun_last A hQ hR zs _ _ _ hP⟩

/-- C124 for the filter of the transient states of a circuit with straight curves. -/
theorem C124_circuit {beh : Behavior} {x : Fixed} {measured series : Bool} {a : ASOH} {w : CellWrapper}
    (hw : TracksCircuit w beh x measured series a.rcs.length) (he : Estimable [] measured series a)
    (hp : Straight (parAt a 0)) {Q : Matrix (Fin w.nTransients) (Fin w.nTransients) ℝ} {R : Matrix (Fin 1) (Fin 1) ℝ}
    (hQ : Q.PosDef) (hR : R.PosDef) (svd : Mat → Vec × Mat) {f : Ukf (HV ℝ)} (hf : f.model = w.plain.toWrapper)
    (hm : HoldsCircuit x f.mem a) {μ : Fin w.nTransients → ℝ} {P : Matrix (Fin w.nTransients) (Fin w.nTransients) ℝ}
    (h : f.Holds w.nTransients 1 μ P Q R) (hP : P.PosDef) {u : Fin (2 + (if measured then 1 else 0)) → ℝ} (hu : f.controls.mean = ⟨_, u⟩)
    (hist : List (Dist × Dist)) (zs : List ((Fin (2 + (if measured then 1 else 0)) → ℝ) × (Fin 1 → ℝ)))
    (hmeans : HasMeans hist (zs.map fun z => (⟨_, z.1⟩, z.2)))
    (hmoves : beh = .linear →
      ((In.ofVec measured (List.ofFn u)).time :: zs.map fun z => (In.ofVec measured (List.ofFn z.1)).time).IsChain (· ≠ ·)) :
    ∃ f' out, f.run svd hist = .ok (f', out.map fun r => (r.1.gaussian, r.2.gaussian)) ∧ out.length = zs.length ∧
      Cheapest (fun y ys => misfit (y - μ) P + cellDeviations beh (parAt a 0) series Q R (In.ofVec measured (List.ofFn u))
        (zs.map fun z => (In.ofVec measured (List.ofFn z.1), z.2)) y ys) zs.length ((out.map Prod.fst).getLastD ⟨μ, P⟩) (surprise (zs.map Prod.snd) out) ∧
      ((out.map Prod.fst).getLastD ⟨μ, P⟩).cov.PosDef := by
  have hN : w.nTransients = 1 + (if series then 1 else 0) + (parAt a 0).rcs.length + 1 := by
    rw [show (parAt a 0).rcs.length = a.rcs.length by simp [parAt]]; exact tracks_width hw
  obtain ⟨f', h'⟩ := C112_history hw hf hm he hp h hP hQ hR svd hu hist zs hmeans hmoves
  have hc := kalmanHistory_cheapest (beh := beh) (series := series) hp hN hQ hR (zs.map fun z => (In.ofVec measured (List.ofFn z.1), z.2))
    (In.ofVec measured (List.ofFn u)) ⟨μ, P⟩ hP
  obtain ⟨k1, k2⟩ := kalmanHistory_last (beh := beh) (p := parAt a 0) (series := series) hQ hR (zs.map fun z => (In.ofVec measured (List.ofFn z.1), z.2))
    (In.ofVec measured (List.ofFn u)) ⟨μ, P⟩ hP
  rw [List.length_map] at k2
  refine ⟨f', _, h', k2, ?_, k1⟩
  rwa [List.length_map, List.map_map] at hc

/-- C124, what this says about the estimate: no way of the system is cheaper than the sum of what the measurements missed their predictions by, one
way costs just that, and every such way ends in the estimate. -/
theorem C124_estimate_is_best {n k : Nat} {cost : (Fin n → ℝ) → List (Fin n → ℝ) → ℝ} {b : Belief n} {S : ℝ} (h : Cheapest cost k b S) (hb : b.cov.PosDef) :
    IsLeast {c | ∃ x xs, xs.length = k ∧ c = cost x xs} S ∧ ∀ x xs, xs.length = k → cost x xs = S → xs.getLastD x = b.mean := by
  refine ⟨⟨?_, ?_⟩, fun x xs hk hS => ?_⟩
  · obtain ⟨⟨x, xs, h1, -, h3⟩, -⟩ := h b.mean
    exact ⟨x, xs, h1, by rw [← h3]; simp [misfit]⟩
  · rintro _ ⟨x, xs, hk, rfl⟩
    have := (h (xs.getLastD x)).2 ⟨x, xs, hk, rfl, rfl⟩
    have := misfit_nonneg hb (xs.getLastD x - b.mean)
    linarith
  · have := (h (xs.getLastD x)).2 ⟨x, xs, hk, rfl, rfl⟩
    have h0 : misfit (xs.getLastD x - b.mean) b.cov = 0 := le_antisymm (by linarith) (misfit_nonneg hb _)
    by_contra hne
    have := hb.inv.dotProduct_mulVec_pos (sub_ne_zero.2 hne)
    simp only [star_trivial] at this
    exact absurd h0 this.ne'

/-! ## Examples -/

-- A position and a speed: the filter of two numbers starts at (1, 2) and gets two measurements `a`, `b` of the position, all with unit noise.  What it estimates
-- then is the end of the only way that minimises the sum of these squares.
example (svd : Mat → Vec × Mat) (a b : ℝ) : ∃ (f' : Ukf Unit) (e₁ e₂ : Belief 2) (y₁ y₂ : Belief 1),
    Ukf.demo.run svd [(.delta ⟨⟨1, ![3]⟩⟩, .delta ⟨⟨1, ![a]⟩⟩), (.delta ⟨⟨1, ![3]⟩⟩, .delta ⟨⟨1, ![b]⟩⟩)] =
      .ok (f', [(e₁.gaussian, y₁.gaussian), (e₂.gaussian, y₂.gaussian)]) ∧
    let S := misfit (![a] - y₁.mean) y₁.cov + misfit (![b] - y₂.mean) y₂.cov
    let cost (x y z : Fin 2 → ℝ) := (x 0 - 1) ^ 2 + (x 1 - 2) ^ 2 + (y 0 - (x 0 + x 1)) ^ 2 + (y 1 - x 1) ^ 2 + (a - y 0) ^ 2 +
      (z 0 - (y 0 + y 1)) ^ 2 + (z 1 - y 1) ^ 2 + (b - z 0) ^ 2
    (∀ x y z, S ≤ cost x y z) ∧ (∃ x y z, cost x y z = S) ∧ ∀ x y z, cost x y z = S → z = e₂.mean := by
  obtain ⟨f', out, h1, h2, h3, h4⟩ := C124_affine (f := Ukf.demo) Ukf.demoAffine Ukf.demo_holds .one .one .one le_rfl svd
    [(.delta ⟨⟨1, ![3]⟩⟩, .delta ⟨⟨1, ![a]⟩⟩), (.delta ⟨⟨1, ![3]⟩⟩, .delta ⟨⟨1, ![b]⟩⟩)] [(⟨1, ![3]⟩, ![a]), (⟨1, ![3]⟩, ![b])]
    (.cons ⟨rfl, rfl⟩ (.cons ⟨rfl, rfl⟩ .nil))
  match out, h2 with
  | [(e₁, y₁), (e₂, y₂)], _ =>
    obtain ⟨k1, k2⟩ := C124_estimate_is_best h3 h4
    have eS : surprise ([((⟨1, ![3]⟩ : Vec), ![a]), (⟨1, ![3]⟩, ![b])].map Prod.snd) [(e₁, y₁), (e₂, y₂)] =
      misfit (![a] - y₁.mean) y₁.cov + misfit (![b] - y₂.mean) y₂.cov := by simp [surprise]
    have ec : ∀ x y z : Fin 2 → ℝ, misfit (x - ![1, 2]) 1 + deviations Ukf.demoAffine 1 1 Ukf.demo.mem Ukf.demo.controls.mean
        [(⟨1, ![3]⟩, ![a]), (⟨1, ![3]⟩, ![b])] x [y, z] = (x 0 - 1) ^ 2 + (x 1 - 2) ^ 2 + (y 0 - (x 0 + x 1)) ^ 2 + (y 1 - x 1) ^ 2 + (a - y 0) ^ 2 +
      (z 0 - (y 0 + y 1)) ^ 2 + (z 1 - y 1) ^ 2 + (b - z 0) ^ 2 := by
      intro x y z
      simp [deviations, misfit, Ukf.demoAffine, Matrix.mulVec, dotProduct, Fin.sum_univ_two]
      ring
    refine ⟨f', e₁, e₂, y₁, y₂, h1, fun x y z => ?_, ?_, fun x y z h => ?_⟩
    · rw [← eS]
      exact (k1.2 ⟨x, [y, z], rfl, rfl⟩).trans_eq (ec x y z)
    · obtain ⟨x, xs, l, e⟩ := k1.1
      match xs, l with
      | [y, z], _ => exact ⟨x, y, z, (ec x y z).symm.trans (e.symm.trans eS)⟩
    · exact k2 x [y, z] rfl (by rw [eS, ← h]; exact ec x y z)

-- The filter of the concrete circuit: whatever was measured, no way of the cell through states `ys` explains it better than the estimates do.
example (beh : Behavior) (svd : Mat → Vec × Mat) (hist : List (ℝ × ℝ × ℝ × ℝ)) (ht : (0 :: hist.map (·.1)).IsChain (· ≠ ·)) :
    ∃ f' out, (Demo.tracker beh).run svd (hist.map fun m => (.delta ⟨⟨3, ![m.1, m.2.1, m.2.2.1]⟩⟩, .delta ⟨⟨1, ![m.2.2.2]⟩⟩)) =
        .ok (f', out.map fun r : Belief 3 × Belief 1 => (r.1.gaussian, r.2.gaussian)) ∧
      ∀ (y : Fin 3 → ℝ) (ys : List (Fin 3 → ℝ)), ys.length = hist.length → surprise (hist.map fun m => ![m.2.2.2]) out ≤
        misfit (y - ![0.5, 0, 0]) 1 + cellDeviations beh (parAt Demo.arrays 0) false 1 1 ⟨0, 1, some 30⟩
          (hist.map fun m => (⟨m.1, m.2.1, some m.2.2.1⟩, ![m.2.2.2])) y ys := by
  have hm : HasMeans (hist.map fun m => (Dist.delta ⟨⟨3, ![m.1, m.2.1, m.2.2.1]⟩⟩, Dist.delta ⟨⟨1, ![m.2.2.2]⟩⟩))
      ((hist.map fun m => ((![m.1, m.2.1, m.2.2.1] : Fin 3 → ℝ), (![m.2.2.2] : Fin 1 → ℝ))).map fun z => (⟨3, z.1⟩, z.2)) := by
    clear ht
    induction hist with
    | nil => exact .nil
    | cons m hist ih => exact .cons ⟨rfl, rfl⟩ ih
  obtain ⟨f', out, h1, -, h2, h3⟩ := C124_circuit (Demo.tracking_circuit beh .identity [] []) (estimable_nil (Demo.estimating_estimable beh .identity))
    Demo.arrays_straight .one .one svd (f := Demo.tracker beh) rfl (Demo.hv_holds [] []) (Demo.tracker_holds beh) .one (u := ![0, 1, 30]) rfl _
    (hist.map fun m => (![m.1, m.2.1, m.2.2.1], ![m.2.2.2])) hm (fun _ => by rw [List.map_map]; exact ht)
  refine ⟨f', out, h1, fun y ys hl => ?_⟩
  have := (C124_estimate_is_best h2 h3).1.2 ⟨y, ys, hl.trans (List.length_map _).symm, rfl⟩
  simp only [List.map_map] at this
  exact this

end Verif
