import Verif.Props.UkfOrder
import Verif.Props.EcmTruth
import Mathlib.Algebra.QuadraticDiscriminant
/-!
# C116: errors of the filter in terms of its own covariances
-/

namespace Verif
open Ecm Cell Matrix Spec

/-! ## Specification -/

/-- The size of the vector `e` in units of the covariance `P` (the squared Mahalanobis distance from 0). -/
noncomputable def Spec.misfit {n : Nat} (e : Fin n → ℝ) (P : Matrix (Fin n) (Fin n) ℝ) : ℝ := e ⬝ᵥ P⁻¹ *ᵥ e

/-- What a system does that follows an affine model up to disturbances: of every step its new inputs, the disturbance of the state and that of the
measurement are given, the result are its states and its measurements. -/
noncomputable def Spec.disturbedRun {σ : Type} {w : Wrapper σ} {n o : Nat} (A : AffineModel w n o) :
    σ → Vec → (Fin n → ℝ) → List (Vec × (Fin n → ℝ) × (Fin o → ℝ)) → List ((Fin n → ℝ) × (Fin o → ℝ))
  | _, _, _, [] => []
  | s, u, x, (u', q, r) :: rest =>
    let s' := A.next s u u'
    let x' := A.F s u u' *ᵥ x + A.c s u u' + q
    (x', A.H s' u' *ᵥ x' + A.d s' u' + r) :: disturbedRun A s' u' x' rest

/-- What a cell does that follows the circuit equations up to disturbances. -/
noncomputable def Spec.disturbedCell (beh : Behavior) (p : Par) (series : Bool) {N : Nat} :
    In → (Fin N → ℝ) → List (In × (Fin N → ℝ) × (Fin 1 → ℝ)) → List ((Fin N → ℝ) × (Fin 1 → ℝ))
  | _, _, [] => []
  | prev, y, (new, q, r) :: rest =>
    let y' := cellStep beh p series prev new y + q
    (y', cellVolt p series new y' + r) :: disturbedCell beh p series new y' rest

/-- After every step the estimate is off the true state, and was the predicted output off the measurement, in units of the covariances reported with
them, by no more than `E` plus all disturbances so far in units of `Q` and `R`. -/
def Spec.Bounded {ι : Type} {n o : Nat} (Q : Matrix (Fin n) (Fin n) ℝ) (R : Matrix (Fin o) (Fin o) ℝ) (E : ℝ) (ds : List (ι × (Fin n → ℝ) × (Fin o → ℝ)))
    (truth : List ((Fin n → ℝ) × (Fin o → ℝ))) (out : List (Belief n × Belief o)) : Prop :=
  out.length = ds.length ∧ truth.length = ds.length ∧ ∀ i b t, out[i]? = some b → truth[i]? = some t →
    let total := E + ((ds.take (i + 1)).map fun d => misfit d.2.1 Q + misfit d.2.2 R).sum
    b.1.cov.PosDef ∧ b.2.cov.PosDef ∧ misfit (b.1.mean - t.1) b.1.cov ≤ total ∧ misfit (b.2.mean - t.2) b.2.cov ≤ total

/-! ## Misfits -/

section
variable {n o m : Nat} {s t : ℝ} {e : Fin n → ℝ} {P Q : Matrix (Fin n) (Fin n) ℝ} {R : Matrix (Fin o) (Fin o) ℝ}

/-- The square of `w · e` is at most `s` times the variance of `w · x`, for all `w`. -/
def Within (s : ℝ) (e : Fin n → ℝ) (P : Matrix (Fin n) (Fin n) ℝ) : Prop := ∀ w, (w ⬝ᵥ e) ^ 2 ≤ s * (w ⬝ᵥ P *ᵥ w)

theorem quad_nonneg (h : P.PosSemidef) (w : Fin n → ℝ) : 0 ≤ w ⬝ᵥ P *ᵥ w := by simpa using h.dotProduct_mulVec_nonneg w

theorem dot_symm (h : P.IsSymm) (v w : Fin n → ℝ) : v ⬝ᵥ P *ᵥ w = w ⬝ᵥ P *ᵥ v := by
  rw [dotProduct_mulVec, ← mulVec_transpose, h.eq, dotProduct_comm]

theorem misfit_nonneg (h : P.PosDef) (e : Fin n → ℝ) : 0 ≤ misfit e P := quad_nonneg h.inv.posSemidef e

/-- Being of a size at most `s` in units of a covariance, in all directions. -/
theorem misfit_le_iff (h : P.PosDef) : misfit e P ≤ s ↔ 0 ≤ s ∧ Within s e P := by
  have hu : IsUnit P.det := isUnit_iff_ne_zero.2 h.det_pos.ne'
  have hv : P *ᵥ (P⁻¹ *ᵥ e) = e := by rw [mulVec_mulVec, mul_nonsing_inv _ hu, one_mulVec]
  have h0 := misfit_nonneg h e
  have hm : P⁻¹ *ᵥ e ⬝ᵥ P *ᵥ (P⁻¹ *ᵥ e) = misfit e P := by rw [hv, dotProduct_comm]; rfl
  constructor
  · intro hs
    refine ⟨h0.trans hs, fun w => ?_⟩
    have hd := discrim_le_zero (a := misfit e P) (b := 2 * (w ⬝ᵥ e)) (c := w ⬝ᵥ P *ᵥ w) fun x => by
      have := quad_nonneg h.posSemidef (w + x • (P⁻¹ *ᵥ e))
      have ex : (w + x • (P⁻¹ *ᵥ e)) ⬝ᵥ P *ᵥ (w + x • (P⁻¹ *ᵥ e)) = misfit e P * (x * x) + 2 * (w ⬝ᵥ e) * x + w ⬝ᵥ P *ᵥ w := by
        have h2 : P⁻¹ *ᵥ e ⬝ᵥ P *ᵥ w = w ⬝ᵥ e := by rw [dot_symm (posDef_isSymm h), hv]
        simp only [mulVec_add, mulVec_smul, add_dotProduct, dotProduct_add, smul_dotProduct, dotProduct_smul, hm, h2, smul_eq_mul]
        rw [hv]
        ring
      rwa [ex] at this
    have := mul_le_mul_of_nonneg_right hs (quad_nonneg h.posSemidef w)
    simp only [discrim] at hd
    nlinarith
  · rintro ⟨hs, hw⟩
    have := hw (P⁻¹ *ᵥ e)
    rw [hm, show P⁻¹ *ᵥ e ⬝ᵥ e = misfit e P from dotProduct_comm _ _] at this
    by_contra hlt
    nlinarith

theorem within_add (hs : 0 ≤ s) (ht : 0 ≤ t) {q : Fin o → ℝ} (hP : P.PosSemidef) (hR : R.PosSemidef) (he : Within s e P) (hq : Within t q R)
    (M : Matrix (Fin m) (Fin n) ℝ) (K : Matrix (Fin m) (Fin o) ℝ) : Within (s + t) (M *ᵥ e + K *ᵥ q) (M * P * Mᵀ + K * R * Kᵀ) := by
  intro w
  have e1 : ∀ {k} (M : Matrix (Fin m) (Fin k) ℝ) (e : Fin k → ℝ), w ⬝ᵥ M *ᵥ e = Mᵀ *ᵥ w ⬝ᵥ e := fun M e => by
    rw [mulVec_transpose, ← dotProduct_mulVec]
  have e2 : ∀ {k} (M : Matrix (Fin m) (Fin k) ℝ) (P : Matrix (Fin k) (Fin k) ℝ), w ⬝ᵥ (M * P * Mᵀ) *ᵥ w = Mᵀ *ᵥ w ⬝ᵥ P *ᵥ (Mᵀ *ᵥ w) := fun M P => by
    rw [Matrix.mul_assoc, ← mulVec_mulVec, e1, ← mulVec_mulVec]
  rw [dotProduct_add, add_mulVec, dotProduct_add, e1, e1, e2, e2]
  have h1 := he (Mᵀ *ᵥ w)
  have h2 := hq (Kᵀ *ᵥ w)
  have p1 := quad_nonneg hP (Mᵀ *ᵥ w)
  have p2 := quad_nonneg hR (Kᵀ *ᵥ w)
  generalize Mᵀ *ᵥ w ⬝ᵥ e = a at *
  generalize Kᵀ *ᵥ w ⬝ᵥ q = b at *
  generalize Mᵀ *ᵥ w ⬝ᵥ P *ᵥ (Mᵀ *ᵥ w) = A at *
  generalize Kᵀ *ᵥ w ⬝ᵥ R *ᵥ (Kᵀ *ᵥ w) = B at *
  have h3 : 2 * (a * b) ≤ s * B + t * A := by
    refine le_of_sq_le_sq' ?_ (by positivity)
    have h4 : (a * b) ^ 2 ≤ (s * A) * (t * B) := by
      rw [mul_pow]
      exact mul_le_mul h1 h2 (sq_nonneg b) (by positivity)
    nlinarith [sq_nonneg (s * B - t * A)]
  nlinarith
where
  le_of_sq_le_sq' {x y : ℝ} (h : x ^ 2 ≤ y ^ 2) (hy : 0 ≤ y) : x ≤ y := (abs_le.1 (abs_le_of_sq_le_sq h hy)).2

/-- One step of the Kalman filter of a disturbed system. -/
theorem misfit_step (hP : P.PosDef) (hQ : Q.PosDef) (hR : R.PosDef) (F : Matrix (Fin n) (Fin n) ℝ) (c : Fin n → ℝ) (H : Matrix (Fin o) (Fin n) ℝ)
    (d : Fin o → ℝ) (μ x q : Fin n → ℝ) (r : Fin o → ℝ) :
    let x' := F *ᵥ x + c + q
    let z := H *ᵥ x' + d + r
    let pred := kalmanPredict F c Q ⟨μ, P⟩
    let post := kalmanCorrect H d R pred z
    let out := kalmanOutput H d R pred
    let total := misfit (μ - x) P + (misfit q Q + misfit r R)
    post.cov.PosDef ∧ out.cov.PosDef ∧ misfit (post.mean - x') post.cov ≤ total ∧ misfit (out.mean - z) out.cov ≤ total := by
  intro x' z pred post out total
  have hp : pred.cov.PosDef := Ukf.predict_posDef hP hQ
  have hpost : post.cov.PosDef := Ukf.correct_posDef hp hR
  have hout : out.cov.PosDef := Ukf.innovation_posDef hp hR H
  obtain ⟨s0, hs⟩ := (misfit_le_iff hP).1 (le_refl (misfit (μ - x) P))
  obtain ⟨t0, ht⟩ := (misfit_le_iff hQ).1 (le_refl (misfit q Q))
  obtain ⟨r0, hr⟩ := (misfit_le_iff hR).1 (le_refl (misfit r R))
  have h1 : Within (misfit (μ - x) P + misfit q Q) (pred.mean - x') pred.cov := by
    have := within_add s0 t0 hP.posSemidef hQ.posSemidef hs ht F (-1)
    convert this using 1
    · simp only [pred, x', kalmanPredict, mulVec_sub, neg_mulVec, one_mulVec]; abel
    · simp [pred, kalmanPredict]
  have hst := add_nonneg s0 t0
  have htot : 0 ≤ total := add_nonneg s0 (add_nonneg t0 r0)
  have etot : total = misfit (μ - x) P + misfit q Q + misfit r R := (add_assoc _ _ _).symm
  refine ⟨hpost, hout, (misfit_le_iff hpost).2 ⟨htot, ?_⟩, (misfit_le_iff hout).2 ⟨htot, ?_⟩⟩
  · rw [etot]
    obtain ⟨G, hG⟩ : ∃ G, G = kalmanGain H R pred := ⟨_, rfl⟩
    have := within_add hst r0 hp.posSemidef hR.posSemidef h1 hr (1 - G * H) G
    have ej := Ukf.joseph_eq H (posDef_isSymm hp) (posDef_isSymm hout) hout.det_pos.ne' G G hG
    rw [sub_self, Matrix.zero_mul, Matrix.zero_mul, add_zero] at ej
    convert this using 1
    · simp only [post, kalmanCorrect, z, ← hG, sub_mulVec, one_mulVec, mulVec_sub, mulVec_add, ← mulVec_mulVec]; abel
    · simp only [post, kalmanCorrect, ← hG]; exact ej.symm
  · rw [etot]
    have := within_add hst r0 hp.posSemidef hR.posSemidef h1 hr H (-1)
    convert this using 1
    · simp only [out, kalmanOutput, z, mulVec_sub, neg_mulVec, one_mulVec]; abel
    · simp [out, kalmanOutput]

end

theorem Spec.Bounded.cons {ι : Type} {n o : Nat} {Q : Matrix (Fin n) (Fin n) ℝ} {R : Matrix (Fin o) (Fin o) ℝ} {E E' : ℝ} {d : ι × (Fin n → ℝ) × (Fin o → ℝ)}
    {ds : List (ι × (Fin n → ℝ) × (Fin o → ℝ))} {t : (Fin n → ℝ) × (Fin o → ℝ)} {truth : List ((Fin n → ℝ) × (Fin o → ℝ))} {b : Belief n × Belief o}
    {out : List (Belief n × Belief o)} (h1 : b.1.cov.PosDef) (h2 : b.2.cov.PosDef)
    (h3 : misfit (b.1.mean - t.1) b.1.cov ≤ E + (misfit d.2.1 Q + misfit d.2.2 R))
    (h4 : misfit (b.2.mean - t.2) b.2.cov ≤ E + (misfit d.2.1 Q + misfit d.2.2 R)) (hE : E' ≤ E + (misfit d.2.1 Q + misfit d.2.2 R))
    (h : Bounded Q R E' ds truth out) : Bounded Q R E (d :: ds) (t :: truth) (b :: out) := by
  obtain ⟨l1, l2, hb⟩ := h
  refine ⟨by simp [l1], by simp [l2], fun i => ?_⟩
  cases i with
  | zero =>
    intro b' t' hb' ht'
    simp only [List.getElem?_cons_zero, Option.some.injEq] at hb' ht'
    subst hb' ht'
    simpa using ⟨h1, h2, h3, h4⟩
  | succ i =>
    intro b' t' hb' ht'
    rw [List.getElem?_cons_succ] at hb' ht'
    obtain ⟨k1, k2, k3, k4⟩ := hb i b' t' hb' ht'
    simp only [List.take_succ_cons, List.map_cons, List.sum_cons] at k3 k4 ⊢
    exact ⟨k1, k2, by linarith, by linarith⟩

theorem Spec.Bounded.nil {ι : Type} {n o : Nat} {Q : Matrix (Fin n) (Fin n) ℝ} {R : Matrix (Fin o) (Fin o) ℝ} {E : ℝ} :
    Bounded (ι := ι) Q R E [] [] [] := ⟨rfl, rfl, fun i b t h => by simp at h⟩

theorem kalmanRun_bounded {σ : Type} {w : Wrapper σ} {n o : Nat} (A : AffineModel w n o) {Q : Matrix (Fin n) (Fin n) ℝ} {R : Matrix (Fin o) (Fin o) ℝ}
    (hQ : Q.PosDef) (hR : R.PosDef) (ds : List (Vec × (Fin n → ℝ) × (Fin o → ℝ))) : ∀ (s : σ) (u : Vec) (μ x : Fin n → ℝ) (P : Matrix (Fin n) (Fin n) ℝ),
    P.PosDef → Bounded Q R (misfit (μ - x) P) ds (disturbedRun A s u x ds)
      (kalmanRun A Q R s u ⟨μ, P⟩ ((ds.map (·.1)).zip ((disturbedRun A s u x ds).map (·.2)))) := by
  induction ds with
  | nil => intros; exact .nil
  | cons d ds ih =>
    intro s u μ x P hP
    obtain ⟨u', q, r⟩ := d
    obtain ⟨h1, h2, h3, h4⟩ := misfit_step hP hQ hR (A.F s u u') (A.c s u u') (A.H (A.next s u u') u') (A.d (A.next s u u') u') μ x q r
    exact .cons h1 h2 h3 h4 h3 (ih (A.next s u u') u' _ _ _ h1)

theorem kalmanHistory_bounded {beh : Behavior} {p : Par} {series : Bool} (hp : Straight p) {N : Nat}
    (hN : N = 1 + (if series then 1 else 0) + p.rcs.length + 1) {Q : Matrix (Fin N) (Fin N) ℝ} {R : Matrix (Fin 1) (Fin 1) ℝ}
    (hQ : Q.PosDef) (hR : R.PosDef) (ds : List (In × (Fin N → ℝ) × (Fin 1 → ℝ))) : ∀ (prev : In) (μ y : Fin N → ℝ) (P : Matrix (Fin N) (Fin N) ℝ),
    P.PosDef → Bounded Q R (misfit (μ - y) P) ds (disturbedCell beh p series prev y ds)
      (kalmanHistory beh p series Q R prev ⟨μ, P⟩ ((ds.map (·.1)).zip ((disturbedCell beh p series prev y ds).map (·.2)))) := by
  induction ds with
  | nil => intros; exact .nil
  | cons d ds ih =>
    intro prev μ y P hP
    obtain ⟨new, q, r⟩ := d
    obtain ⟨h1, h2, h3, h4⟩ := misfit_step hP hQ hR (slopes (cellStep beh p series prev new)) (cellStep beh p series prev new 0)
      (slopes (cellVolt p series new)) (cellVolt p series new 0) μ y q r
    have e1 := (C112_cell_affine (beh := beh) hp hN prev new y).1
    have e2 := (C112_cell_affine (beh := beh) hp hN prev new (cellStep beh p series prev new y + q)).2
    rw [← e1, ← e2] at h1 h3 h4
    exact .cons h1 h2 h3 h4 h3 (ih new _ _ _ h1)

/-! ## C116 -/

/-- C116 for every affine model. -/
theorem C116_affine {σ : Type} {f : Ukf σ} {n o : Nat} {μ : Fin n → ℝ} {P Q : Matrix (Fin n) (Fin n) ℝ} {R : Matrix (Fin o) (Fin o) ℝ}
    (A : AffineModel f.model n o) (h : f.Holds n o μ P Q R) (hP : P.PosDef) (hQ : Q.PosDef) (hR : R.PosDef) (ho : 1 ≤ o) (svd : Mat → Vec × Mat)
    (x : Fin n → ℝ) (ds : List (Vec × (Fin n → ℝ) × (Fin o → ℝ))) (hist : List (Dist × Dist)) :
    let truth := disturbedRun A f.mem f.controls.mean x ds
    HasMeans hist ((ds.map (·.1)).zip (truth.map (·.2))) →
    ∃ f' out, f.run svd hist = .ok (f', out.map fun r => (r.1.gaussian, r.2.gaussian)) ∧ Bounded Q R (misfit (μ - x) P) ds truth out := by
  intro truth hm
  obtain ⟨f', h'⟩ := Ukf.C50_history A h hP hQ hR ho svd hist _ hm
  exact ⟨f', _, h', kalmanRun_bounded A hQ hR ds _ _ _ _ _ hP⟩

theorem Spec.Bounded.of_map {ι κ : Type} {n o : Nat} {Q : Matrix (Fin n) (Fin n) ℝ} {R : Matrix (Fin o) (Fin o) ℝ} {E : ℝ} (g : ι → κ)
    {ds : List (ι × (Fin n → ℝ) × (Fin o → ℝ))} {truth : List ((Fin n → ℝ) × (Fin o → ℝ))} {out : List (Belief n × Belief o)}
    (h : Bounded Q R E (ds.map fun d => (g d.1, d.2)) truth out) : Bounded Q R E ds truth out := by
  simp only [Bounded, List.length_map, ← List.map_take, List.map_map] at h
  exact h

/-- C116 for the filter of the transient states of a circuit with straight curves. -/
theorem C116_circuit {beh : Behavior} {x : Fixed} {measured series : Bool} {a : ASOH} {w : CellWrapper}
    (hw : TracksCircuit w beh x measured series a.rcs.length) (he : Estimable [] measured series a)
    (hp : Straight (parAt a 0)) {Q : Matrix (Fin w.nTransients) (Fin w.nTransients) ℝ} {R : Matrix (Fin 1) (Fin 1) ℝ}
    (hQ : Q.PosDef) (hR : R.PosDef) (svd : Mat → Vec × Mat) {f : Ukf (HV ℝ)} (hf : f.model = w.plain.toWrapper)
    (hm : HoldsCircuit x f.mem a) {μ : Fin w.nTransients → ℝ} {P : Matrix (Fin w.nTransients) (Fin w.nTransients) ℝ}
    (h : f.Holds w.nTransients 1 μ P Q R) (hP : P.PosDef) {u : Fin (2 + (if measured then 1 else 0)) → ℝ} (hu : f.controls.mean = ⟨_, u⟩)
    (ds : List ((Fin (2 + (if measured then 1 else 0)) → ℝ) × (Fin w.nTransients → ℝ) × (Fin 1 → ℝ)))
    (hmoves : beh = .linear → ((u :: ds.map (·.1)).map fun u => (In.ofVec measured (List.ofFn u)).time).IsChain (· ≠ ·))
    (y : Fin w.nTransients → ℝ) (hist : List (Dist × Dist)) :
    let truth := disturbedCell beh (parAt a 0) series (In.ofVec measured (List.ofFn u)) y (ds.map fun d => (In.ofVec measured (List.ofFn d.1), d.2))
    Measures hist (ds.map (·.1)) truth →
    ∃ f' out, f.run svd hist = .ok (f', out.map fun r => (r.1.gaussian, r.2.gaussian)) ∧ Bounded Q R (misfit (μ - y) P) ds truth out := by
  intro truth hhist
  have hN : w.nTransients = 1 + (if series then 1 else 0) + (parAt a 0).rcs.length + 1 := by
    rw [show (parAt a 0).rcs.length = a.rcs.length by simp [parAt]]; exact tracks_width hw
  have hb := kalmanHistory_bounded (beh := beh) (series := series) hp hN hQ hR (ds.map fun d => (In.ofVec measured (List.ofFn d.1), d.2))
    (In.ofVec measured (List.ofFn u)) μ y P hP
  have hl : truth.length = ds.length := by have := hb.2.1; rwa [List.length_map] at this
  obtain ⟨f', h'⟩ := C112_history hw hf hm he hp h hP hQ hR svd hu hist ((ds.map Prod.fst).zip (truth.map Prod.snd)) hhist fun hb => by
    have e : (((ds.map Prod.fst).zip (truth.map Prod.snd)).map fun z => (In.ofVec measured (List.ofFn z.1)).time) =
        (ds.map Prod.fst).map fun u => (In.ofVec measured (List.ofFn u)).time := by
      conv_rhs => rw [← List.map_fst_zip (l₁ := ds.map Prod.fst) (l₂ := truth.map Prod.snd) (by simp [hl]), List.map_map]
      rfl
    rw [e]
    exact hmoves hb
  refine ⟨f', _, h', ?_⟩
  have e : (((ds.map Prod.fst).zip (truth.map Prod.snd)).map fun z => (In.ofVec measured (List.ofFn z.1), z.2)) =
      ((ds.map fun d => (In.ofVec measured (List.ofFn d.1), d.2)).map (·.1)).zip (truth.map (·.2)) := by
    have e' : (ds.map fun d => (In.ofVec measured (List.ofFn d.1), d.2)).map (·.1) = (ds.map Prod.fst).map fun u => In.ofVec measured (List.ofFn u) := by
      simp
    rw [e']
    generalize ds.map Prod.fst = l
    rw [List.zip_map_left]
    rfl
  rw [e]
  exact hb.of_map (fun u => In.ofVec measured (List.ofFn u))

/-- C116, a bound on the size in units of a covariance is one for every direction: `(w · e)²` is at most that many variances of `w · x`. -/
theorem C116_directions {n : Nat} {e : Fin n → ℝ} {P : Matrix (Fin n) (Fin n) ℝ} (hP : P.PosDef) {s : ℝ} (hs : 0 ≤ s) :
    misfit e P ≤ s ↔ ∀ w, (w ⬝ᵥ e) ^ 2 ≤ s * (w ⬝ᵥ P *ᵥ w) :=
  (misfit_le_iff hP).trans (and_iff_right hs)

/-- C116, each number: its error is at most as many of its own standard deviations. -/
theorem C116_each {n : Nat} {e : Fin n → ℝ} {P : Matrix (Fin n) (Fin n) ℝ} (hP : P.PosDef) (i : Fin n) : |e i| ≤ √(misfit e P) * √(P i i) := by
  have := ((misfit_le_iff hP).1 (le_refl (misfit e P))).2 (Pi.single i 1)
  simp only [single_dotProduct, one_mul, mulVec_single, MulOpposite.op_one, one_smul] at this
  rw [← Real.sqrt_mul (misfit_nonneg hP e)]
  exact Real.abs_le_sqrt this

/-! ## Examples -/

-- The linear filter of two numbers that starts at (1, 2), for a system that starts at (1, 2.5), so off by a quarter of a variance, and is disturbed in any way.
example (svd : Mat → Vec × Mat) (ds : List (Vec × (Fin 2 → ℝ) × (Fin 1 → ℝ))) :
    let truth := disturbedRun Ukf.demoAffine () ⟨1, ![3]⟩ ![1, 2.5] ds
    let hist := (((ds.map (·.1)).zip (truth.map (·.2))).map fun z => (Dist.delta ⟨z.1⟩, Dist.delta ⟨⟨1, z.2⟩⟩))
    ∃ f' out, Ukf.demo.run svd hist = .ok (f', out.map fun r => (r.1.gaussian, r.2.gaussian)) ∧ Bounded 1 1 (1 / 4) ds truth out := by
  have h := C116_affine (f := Ukf.demo) Ukf.demoAffine Ukf.demo_holds .one .one .one le_rfl svd ![1, 2.5] ds
  have e : misfit ((![1, 2] : Fin 2 → ℝ) - ![1, 2.5]) 1 = 1 / 4 := by
    rw [misfit, inv_one, one_mulVec]; norm_num
  rw [e] at h
  refine h _ ?_
  rw [HasMeans, List.forall₂_map_left_iff]
  exact List.forall₂_same.2 fun z _ => ⟨rfl, rfl⟩

-- The filter of the concrete circuit starts at SOC 1/2 and the cell at 0.4, which is a hundredth of a variance.
example (beh : Behavior) (svd : Mat → Vec × Mat) (ds : List ((Fin 3 → ℝ) × (Fin 3 → ℝ) × (Fin 1 → ℝ))) (ht : (0 :: ds.map (·.1 0)).IsChain (· ≠ ·)) :
    let truth := disturbedCell (N := 3) beh (parAt Demo.arrays 0) false ⟨0, 1, some 30⟩ ![0.4, 0, 0]
      (ds.map fun d => (⟨d.1 0, d.1 1, some (d.1 2)⟩, d.2))
    ∃ f' out, (Demo.tracker beh).run svd (List.zipWith (fun u t => (.delta ⟨⟨3, u⟩⟩, .delta ⟨⟨1, t.2⟩⟩)) (ds.map (·.1)) truth) =
        .ok (f', out.map fun r => (r.1.gaussian, r.2.gaussian)) ∧
      Bounded 1 1 (1 / 100) ds truth out := by
  have ei : ∀ u : Fin 3 → ℝ, In.ofVec true (List.ofFn u) = ⟨u 0, u 1, some (u 2)⟩ := fun u => by simp [In.ofVec, List.ofFn_succ]
  have h := C116_circuit (Demo.tracking_circuit beh .identity [] []) (estimable_nil (Demo.estimating_estimable beh .identity)) Demo.arrays_straight
    .one .one svd (f := Demo.tracker beh) rfl (Demo.hv_holds [] []) (Demo.tracker_holds beh) .one (u := ![0, 1, 30]) rfl ds
    (fun _ => by
      simp only [ei, List.map_cons]
      have e := List.map_map (g := fun u : Fin 3 → ℝ => u 0) (f := fun d : (Fin 3 → ℝ) × (Fin 3 → ℝ) × (Fin 1 → ℝ) => d.1) (l := ds)
      exact (congrArg (fun l => List.IsChain (· ≠ ·) ((0 : ℝ) :: l)) e).mpr ht) ![0.4, 0, 0]
  have e : misfit ((![0.5, 0, 0] : Fin 3 → ℝ) - ![0.4, 0, 0]) 1 = 1 / 100 := by
    rw [misfit, inv_one, one_mulVec]; norm_num
  simp only [ei] at h
  have h' := h _ (measures_zip (ds.map (·.1)) _)
  rw [← e]
  exact h'

-- Zero misfits are those of no disturbance at all: a bound without disturbances stays at its first value.
example (P : Matrix (Fin 2) (Fin 2) ℝ) : misfit 0 P = 0 := by simp [misfit]

end Verif
