import Verif.Props.UkfLeast
/-!
# C125: what a step makes of its measurement
-/

namespace Verif
open Ecm Cell Matrix Spec

section
variable {n o : Nat} {P Q : Matrix (Fin n) (Fin n) ℝ} {R : Matrix (Fin o) (Fin o) ℝ}

/-- The output of the corrected state misses the measurement by the part of what the prediction missed it by that the sensor noise has in the covariance. -/
theorem residual_correct (hP : P.PosDef) (hR : R.PosDef) (H : Matrix (Fin o) (Fin n) ℝ) (d z : Fin o → ℝ) (μ : Fin n → ℝ) :
    let post := kalmanCorrect H d R ⟨μ, P⟩ z
    let out := kalmanOutput H d R ⟨μ, P⟩
    z - (H *ᵥ post.mean + d) = R *ᵥ (out.cov⁻¹ *ᵥ (z - out.mean)) ∧ H * post.cov * Hᵀ = R - R * out.cov⁻¹ * R := by
  intro post out
  have hS : out.cov.PosDef := Ukf.innovation_posDef hP hR H
  have uS : IsUnit out.cov.det := isUnit_iff_ne_zero.2 hS.det_pos.ne'
  obtain ⟨S, hS'⟩ : ∃ S, S = out.cov := ⟨_, rfl⟩
  have eS : H * P * Hᵀ = S - R := by rw [hS']; simp [out, kalmanOutput]
  have eG : H * kalmanGain H R ⟨μ, P⟩ = 1 - R * S⁻¹ := by
    show H * (P * Hᵀ * (H * P * Hᵀ + R)⁻¹) = _
    rw [← Matrix.mul_assoc, ← Matrix.mul_assoc, eS, sub_add_cancel, Matrix.sub_mul, hS', mul_nonsing_inv _ uS]
  constructor
  · show z - (H *ᵥ (μ + kalmanGain H R ⟨μ, P⟩ *ᵥ (z - (H *ᵥ μ + d))) + d) = R *ᵥ (out.cov⁻¹ *ᵥ (z - (H *ᵥ μ + d)))
    rw [mulVec_add, mulVec_mulVec, eG, ← hS', sub_mulVec, one_mulVec, ← mulVec_mulVec]
    abel
  · show H * ((1 - kalmanGain H R ⟨μ, P⟩ * H) * P) * Hᵀ = _
    have : H * ((1 - kalmanGain H R ⟨μ, P⟩ * H) * P) * Hᵀ = H * P * Hᵀ - H * kalmanGain H R ⟨μ, P⟩ * (H * P * Hᵀ) := by
      simp only [Matrix.sub_mul, Matrix.mul_sub, Matrix.one_mul, Matrix.mul_assoc]
    rw [this, eG, eS, Matrix.sub_mul, Matrix.one_mul, Matrix.mul_sub, ← hS']
    rw [← hS'] at uS
    rw [Matrix.mul_assoc R S⁻¹ S, nonsing_inv_mul _ uS, Matrix.mul_one]
    abel

/-- How far the corrected state, the prediction in its own units, and the prediction in units of the sensor noise are off the measurement. -/
theorem residual_order (hP : P.PosDef) (hR : R.PosDef) (H : Matrix (Fin o) (Fin n) ℝ) (d z : Fin o → ℝ) (μ : Fin n → ℝ) :
    let post := kalmanCorrect H d R ⟨μ, P⟩ z
    let out := kalmanOutput H d R ⟨μ, P⟩
    misfit (z - (H *ᵥ post.mean + d)) R ≤ misfit (z - out.mean) out.cov ∧ misfit (z - out.mean) out.cov ≤ misfit (z - out.mean) R ∧
      (R - H * post.cov * Hᵀ).PosSemidef := by
  intro post out
  have hpost : post.cov.PosDef := Ukf.correct_posDef hP hR
  have hS : out.cov.PosDef := Ukf.innovation_posDef hP hR H
  have h1 := misfit_correct hP hR H d z μ post.mean
  have h2 := misfit_correct hP hR H d z μ μ
  have z1 := misfit_nonneg hP (post.mean - μ)
  have z2 := misfit_nonneg hpost (μ - post.mean)
  change misfit (post.mean - μ) P + misfit (z - (H *ᵥ post.mean + d)) R = misfit (z - out.mean) out.cov + misfit (post.mean - post.mean) post.cov at h1
  change misfit (μ - μ) P + misfit (z - out.mean) R = misfit (z - out.mean) out.cov + misfit (μ - post.mean) post.cov at h2
  rw [sub_self, show misfit (0 : Fin n → ℝ) post.cov = 0 by simp [misfit]] at h1
  rw [sub_self, show misfit (0 : Fin n → ℝ) P = 0 by simp [misfit], zero_add] at h2
  refine ⟨?_, ?_, ?_⟩
  · linarith
  · linarith
  · rw [(residual_correct hP hR H d z μ).2, sub_sub_cancel]
    have := hS.inv.posSemidef.mul_mul_conjTranspose_same R
    rwa [conjTranspose_eq_transpose_of_trivial, (posDef_isSymm hR).eq] at this

end

/-- C125 for every affine model: the output of the new estimate misses the measurement by the part of what the prediction missed it by that the sensor
noise has in the covariance.  In units of the sensor noise it is at most as much as the prediction missed it by in units of its own covariance, which is at most
as much as it missed it by in units of the sensor noise; and the covariance of the output of the new estimate is at most the sensor noise. -/
theorem C125_affine {σ : Type} {f : Ukf σ} {n o : Nat} {μ : Fin n → ℝ} {P Q : Matrix (Fin n) (Fin n) ℝ} {R : Matrix (Fin o) (Fin o) ℝ}
    (A : AffineModel f.model n o) (h : f.Holds n o μ P Q R) (hP : P.PosDef) (hQ : Q.PosDef) (hR : R.PosDef) (ho : 1 ≤ o) (svd : Mat → Vec × Mat)
    (new meas : Dist) (z : Fin o → ℝ) (hz : meas.mean = ⟨o, z⟩) :
    ∃ f' post out, f.step svd new meas = .ok (f', (Belief.gaussian post, Belief.gaussian out)) ∧
      let H := A.H f'.mem new.mean
      let residual := z - (H *ᵥ post.mean + A.d f'.mem new.mean)
      residual = R *ᵥ (out.cov⁻¹ *ᵥ (z - out.mean)) ∧ misfit residual R ≤ misfit (z - out.mean) out.cov ∧
        misfit (z - out.mean) out.cov ≤ misfit (z - out.mean) R ∧ (R - H * post.cov * Hᵀ).PosSemidef := by
  obtain ⟨h1, -⟩ := Ukf.C50_step A h hP hQ hR ho svd new meas z hz
  have hp := Ukf.predict_posDef (F := A.F f.mem f.controls.mean new.mean) (c := A.c f.mem f.controls.mean new.mean) (b := ⟨μ, P⟩) hP hQ
  exact ⟨_, _, _, h1, (residual_correct hp hR _ _ z _).1, residual_order hp hR _ _ z _⟩

/-- What C125 says about the voltage measured in one step: `r` are the new estimate and the prediction of the voltage. -/
structure Spec.Explains (p : Par) (series : Bool) {N : Nat} (R : Matrix (Fin 1) (Fin 1) ℝ) (new : In) (z : Fin 1 → ℝ) (r : Belief N × Belief 1) : Prop where
  /-- The voltage of the estimated state divides the distance of the predicted to the measured one in the ratio of the variances. -/
  between : z 0 - cellVolt p series new r.1.mean 0 = R 0 0 / r.2.cov 0 0 * (z 0 - r.2.mean 0)
  /-- The predicted voltage is at least as uncertain as the sensor. -/
  sensor : 0 < R 0 0 ∧ R 0 0 ≤ r.2.cov 0 0
  /-- The voltage of the estimated state is at most as uncertain as the sensor. -/
  certain : (slopes (cellVolt (N := N) p series new) * r.1.cov * (slopes (cellVolt (N := N) p series new))ᵀ : Matrix (Fin 1) (Fin 1) ℝ) 0 0 ≤ R 0 0

theorem inv_one_apply (M : Matrix (Fin 1) (Fin 1) ℝ) : M⁻¹ 0 0 = (M 0 0)⁻¹ := by
  rw [inv_subsingleton, diagonal_apply_eq, Ring.inverse_eq_inv']

theorem kalmanHistory_explains {beh : Behavior} {p : Par} {series : Bool} (hp : Straight p) {N : Nat}
    (hN : N = 1 + (if series then 1 else 0) + p.rcs.length + 1) {Q : Matrix (Fin N) (Fin N) ℝ} {R : Matrix (Fin 1) (Fin 1) ℝ}
    (hQ : Q.PosDef) (hR : R.PosDef) (zs : List (In × (Fin 1 → ℝ))) : ∀ (prev : In) (b : Belief N), b.cov.PosDef →
    List.Forall₂ (fun z r => Explains p series R z.1 z.2 r) zs (kalmanHistory beh p series Q R prev b zs) := by
  induction zs with
  | nil => intro prev b _; exact .nil
  | cons z zs ih =>
    intro prev b hb
    obtain ⟨new, z⟩ := z
    have hpred := Ukf.predict_posDef (F := slopes (cellStep beh p series prev new)) (c := cellStep beh p series prev new 0) hb hQ
    have hpost := Ukf.correct_posDef (H := slopes (cellVolt p series new)) (d := cellVolt p series new (0 : Fin N → ℝ)) (z := z) hpred hR
    refine .cons ?_ (ih new _ hpost)
    obtain ⟨e1, -⟩ := residual_correct hpred hR (slopes (cellVolt p series new)) (cellVolt p series new (0 : Fin N → ℝ)) z _
    obtain ⟨-, -, e4⟩ := residual_order hpred hR (slopes (cellVolt p series new)) (cellVolt p series new (0 : Fin N → ℝ)) z _
    have hS := Ukf.innovation_posDef hpred hR (slopes (cellVolt p series new) : Matrix (Fin 1) (Fin N) ℝ)
    have hsub := hpred.posSemidef.mul_mul_conjTranspose_same (slopes (cellVolt p series new) : Matrix (Fin 1) (Fin N) ℝ)
    rw [← (C112_cell_affine (beh := beh) hp hN prev new _).2] at e1
    refine ⟨?_, ⟨hR.diag_pos, ?_⟩, ?_⟩
    · have := congrFun e1 0
      rw [Pi.sub_apply] at this
      refine this.trans ?_
      simp only [mulVec, dotProduct, Fin.sum_univ_one, Fin.isValue, inv_one_apply, Pi.sub_apply]
      show _ * (_ * (_ - _)) = _ / _ * (_ - _)
      rw [div_eq_mul_inv, mul_assoc]
      rfl
    · have := hsub.diag_nonneg (i := 0)
      rw [conjTranspose_eq_transpose_of_trivial] at this
      exact le_add_of_nonneg_left this
    · have := e4.diag_nonneg (i := 0)
      rw [Matrix.sub_apply] at this
      exact sub_nonneg.1 this

/-- C125 for the filter of the transient states of a circuit with straight curves, after every step of a history. -/
theorem C125_circuit {beh : Behavior} {x : Fixed} {measured series : Bool} {a : ASOH} {w : CellWrapper}
    (hw : TracksCircuit w beh x measured series a.rcs.length) (he : Estimable [] measured series a)
    (hp : Straight (parAt a 0)) {Q : Matrix (Fin w.nTransients) (Fin w.nTransients) ℝ} {R : Matrix (Fin 1) (Fin 1) ℝ}
    (hQ : Q.PosDef) (hR : R.PosDef) (svd : Mat → Vec × Mat) {f : Ukf (HV ℝ)} (hf : f.model = w.plain.toWrapper)
    (hm : HoldsCircuit x f.mem a) {μ : Fin w.nTransients → ℝ} {P : Matrix (Fin w.nTransients) (Fin w.nTransients) ℝ}
    (h : f.Holds w.nTransients 1 μ P Q R) (hP : P.PosDef) {u : Fin (2 + (if measured then 1 else 0)) → ℝ} (hu : f.controls.mean = ⟨_, u⟩)
    (hist : List (Dist × Dist)) (zs : List ((Fin (2 + (if measured then 1 else 0)) → ℝ) × (Fin 1 → ℝ)))
    (hmeans : HasMeans hist (zs.map fun z => (⟨_, z.1⟩, z.2)))
    (hmoves : beh = .linear →
      ((In.ofVec measured (List.ofFn u)).time :: zs.map fun z => (In.ofVec measured (List.ofFn z.1)).time).IsChain (· ≠ ·)) :
    ∃ f' out, f.run svd hist = .ok (f', out.map fun r : Belief w.nTransients × Belief 1 => (r.1.gaussian, r.2.gaussian)) ∧
      List.Forall₂ (fun z r => Explains (parAt a 0) series R (In.ofVec measured (List.ofFn z.1)) z.2 r) zs out := by
  have hN : w.nTransients = 1 + (if series then 1 else 0) + (parAt a 0).rcs.length + 1 := by
    rw [show (parAt a 0).rcs.length = a.rcs.length by simp [parAt]]; exact tracks_width hw
  obtain ⟨f', h'⟩ := C112_history hw hf hm he hp h hP hQ hR svd hu hist zs hmeans hmoves
  have hc := kalmanHistory_explains (beh := beh) (series := series) hp hN hQ hR (zs.map fun z => (In.ofVec measured (List.ofFn z.1), z.2))
    (In.ofVec measured (List.ofFn u)) ⟨μ, P⟩ hP
  exact ⟨f', _, h', List.forall₂_map_left_iff.1 hc⟩

/-! ## Examples -/

-- The filter of the concrete circuit, whatever was measured: after every step the voltage of the estimated state is at most as far from the measured voltage as
-- the predicted one was, on the same side.
example (beh : Behavior) (svd : Mat → Vec × Mat) (hist : List (ℝ × ℝ × ℝ × ℝ)) (ht : (0 :: hist.map (·.1)).IsChain (· ≠ ·)) :
    ∃ f' out, (Demo.tracker beh).run svd (hist.map fun m => (.delta ⟨⟨3, ![m.1, m.2.1, m.2.2.1]⟩⟩, .delta ⟨⟨1, ![m.2.2.2]⟩⟩)) =
        .ok (f', out.map fun r : Belief 3 × Belief 1 => (r.1.gaussian, r.2.gaussian)) ∧
      List.Forall₂ (fun m r =>
        let before := m.2.2.2 - r.2.mean 0
        let after := m.2.2.2 - cellVolt (parAt Demo.arrays 0) false ⟨m.1, m.2.1, some m.2.2.1⟩ r.1.mean 0
        |after| ≤ |before| ∧ 0 ≤ after * before) hist out := by
  have hm : HasMeans (hist.map fun m => (Dist.delta ⟨⟨3, ![m.1, m.2.1, m.2.2.1]⟩⟩, Dist.delta ⟨⟨1, ![m.2.2.2]⟩⟩))
      ((hist.map fun m => ((![m.1, m.2.1, m.2.2.1] : Fin 3 → ℝ), (![m.2.2.2] : Fin 1 → ℝ))).map fun z => (⟨3, z.1⟩, z.2)) := by
    clear ht
    induction hist with
    | nil => exact .nil
    | cons m hist ih => exact .cons ⟨rfl, rfl⟩ ih
  obtain ⟨f', out, h1, h2⟩ := C125_circuit (Demo.tracking_circuit beh .identity [] []) (estimable_nil (Demo.estimating_estimable beh .identity))
    Demo.arrays_straight .one .one svd (f := Demo.tracker beh) rfl (Demo.hv_holds [] []) (Demo.tracker_holds beh) .one (u := ![0, 1, 30]) rfl _
    (hist.map fun m => (![m.1, m.2.1, m.2.2.1], ![m.2.2.2])) hm (fun _ => by rw [List.map_map]; exact ht)
  refine ⟨f', out, h1, (List.forall₂_map_left_iff.1 h2).imp fun m r h => ?_⟩
  obtain ⟨k1, ⟨k2, k3⟩, -⟩ := h
  have e : In.ofVec true (List.ofFn ![m.1, m.2.1, m.2.2.1]) = ⟨m.1, m.2.1, some m.2.2.1⟩ := by simp [In.ofVec, List.ofFn_succ]
  have k4 : 0 < r.2.cov 0 0 := k2.trans_le k3
  have hρ : 0 ≤ (1 : Matrix (Fin 1) (Fin 1) ℝ) 0 0 / r.2.cov 0 0 ∧ (1 : Matrix (Fin 1) (Fin 1) ℝ) 0 0 / r.2.cov 0 0 ≤ 1 :=
    ⟨div_nonneg k2.le k4.le, (div_le_one k4).2 k3⟩
  generalize (1 : Matrix (Fin 1) (Fin 1) ℝ) 0 0 / r.2.cov 0 0 = ρ at k1 hρ
  simp only [e] at k1
  change m.2.2.2 - _ = ρ * (m.2.2.2 - _) at k1
  intro before after
  have : after = ρ * before := k1
  rw [this, abs_mul, abs_of_nonneg hρ.1]
  exact ⟨mul_le_of_le_one_left (abs_nonneg _) hρ.2, by nlinarith [mul_nonneg hρ.1 (mul_self_nonneg before)]⟩

-- The filter of a position and a speed, for every measurement of the position.
example (svd : Mat → Vec × Mat) (a : ℝ) : ∃ (f' : Ukf Unit) (post : Belief 2) (out : Belief 1),
    Ukf.demo.step svd (.delta ⟨⟨1, ![3]⟩⟩) (.delta ⟨⟨1, ![a]⟩⟩) = .ok (f', (post.gaussian, out.gaussian)) ∧
      misfit (![a] - ![post.mean 0]) 1 ≤ misfit (![a] - out.mean) out.cov := by
  obtain ⟨f', post, out, h1, -, h2, -⟩ := C125_affine (f := Ukf.demo) Ukf.demoAffine Ukf.demo_holds .one .one .one le_rfl svd (.delta ⟨⟨1, ![3]⟩⟩)
    (.delta ⟨⟨1, ![a]⟩⟩) ![a] rfl
  refine ⟨f', post, out, h1, ?_⟩
  have e : Ukf.demoAffine.H f'.mem (Dist.delta ⟨⟨1, ![3]⟩⟩).mean *ᵥ post.mean + Ukf.demoAffine.d f'.mem (Dist.delta ⟨⟨1, ![3]⟩⟩).mean = ![post.mean 0] := by
    ext i; fin_cases i; simp [Ukf.demoAffine, Matrix.mulVec, dotProduct, Fin.sum_univ_two]
  rw [← e]
  exact h2

end Verif
