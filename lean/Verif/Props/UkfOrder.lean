import Verif.Props.Ukf
import Mathlib.Analysis.Matrix.Order
/-!
# What moves the filter's uncertainty (C100, C101)
-/

namespace Verif
open Matrix

namespace Ukf
variable {σ : Type} {f g : Ukf σ} {n o : Nat} {μ μ' : Fin n → ℝ} {P Q P' Q' : Matrix (Fin n) (Fin n) ℝ}
  {R R' : Matrix (Fin o) (Fin o) ℝ}

/-! ## C100 -/

theorem bind_some {α β : Type} {x : Except Err α} {k : α → Except Err β} {c : β} (h : (x >>= k) = .ok c) :
    ∃ a, x = .ok a ∧ k a = .ok c := by
  cases x with
  | error e => cases h
  | ok a => exact ⟨a, rfl, h⟩

theorem make_ok {v : Vec} {A : Mat} {g : Gaussian} (h : Gaussian.make v A = .ok g) : g.mean = v ∧ g.cov = A := by
  unfold Gaussian.make at h
  split at h
  · cases h; exact ⟨rfl, rfl⟩
  · cases h

theorem correction_parts {svd : Mat → Vec × Mat} {x y : Gaussian} {covXY : Mat} {meas : Dist} {g : Gaussian}
    (h : correctionUpdate svd x y covXY meas = .ok g) :
    ∃ l i m lv c0 c1 c2, gainMatrix covXY y.cov = .ok l ∧ Vec.bop (· - ·) meas.mean y.mean = .ok i ∧ l.mulVec i = .ok lv ∧
      Vec.bop (· + ·) x.mean lv = .ok m ∧ y.cov.mul l.transpose = .ok c0 ∧ l.mul c0 = .ok c1 ∧
      Mat.bop (· - ·) x.cov c1 = .ok c2 ∧ ensurePsd svd c2 = .ok g.cov ∧ g.mean = m := by
  unfold correctionUpdate at h
  obtain ⟨l, h1, h⟩ := bind_some h
  obtain ⟨i, h2, h⟩ := bind_some h
  obtain ⟨lv, h3, h⟩ := bind_some h
  obtain ⟨m, h4, h⟩ := bind_some h
  obtain ⟨c0, h5, h⟩ := bind_some h
  obtain ⟨c1, h6, h⟩ := bind_some h
  obtain ⟨c2, h7, h⟩ := bind_some h
  obtain ⟨c3, h8, h⟩ := bind_some h
  obtain ⟨h9, h10⟩ := make_ok h
  exact ⟨l, i, m, lv, c0, c1, c2, h1, h2, h3, h4, h5, h6, h7, by rw [h8, h10], h9⟩

theorem step_parts {svd : Mat → Vec × Mat} {new meas : Dist} {r : Ukf σ × (Gaussian × Gaussian)} (h : f.step svd new meas = .ok r) :
    ∃ sigma p hidden, f.buildSigma svd = .ok sigma ∧ f.estimationUpdate sigma new = .ok p ∧
      correctionUpdate svd p.x p.y p.covXY meas = .ok hidden ∧
      r = ({ f with hidden := hidden, mem := p.mem, controls := new }, (hidden, p.y)) := by
  unfold step at h
  obtain ⟨sigma, h1, h⟩ := bind_some h
  obtain ⟨p, h2, h⟩ := bind_some h
  obtain ⟨hidden, h3, h⟩ := bind_some h
  cases h
  exact ⟨sigma, p, hidden, h1, h2, h3, rfl⟩

/-- C100: whatever the filter and its model, two measurements taken in the same situation give the same covariance, the same predicted
output and the same memory of the model. -/
theorem C100_covariance_ignores_measurement {svd : Mat → Vec × Mat} {new meas meas' : Dist} {r r' : Ukf σ × (Gaussian × Gaussian)}
    (h : f.step svd new meas = .ok r) (h' : f.step svd new meas' = .ok r') :
    r'.2.1.cov = r.2.1.cov ∧ r'.2.2 = r.2.2 ∧ r'.1.mem = r.1.mem := by
  obtain ⟨sigma, p, hd, h1, h2, h3, rfl⟩ := step_parts h
  obtain ⟨sigma', p', hd', k1, k2, k3, rfl⟩ := step_parts h'
  rw [h1] at k1; cases k1
  rw [h2] at k2; cases k2
  refine ⟨?_, rfl, rfl⟩
  obtain ⟨l, i, m, lv, c0, c1, c2, a1, -, -, -, a5, a6, a7, a8, -⟩ := correction_parts h3
  obtain ⟨l', i', m', lv', c0', c1', c2', b1, -, -, -, b5, b6, b7, b8, -⟩ := correction_parts k3
  rw [a1] at b1; cases b1
  rw [a5] at b5; cases b5
  rw [a6] at b6; cases b6
  rw [a7] at b7; cases b7
  rw [a8] at b8
  simpa using b8.symm

/-- C100: the mean moves from the predicted one by the gain times the surprise (measured minus predicted output). -/
theorem C100_mean_moves_by_gain {svd : Mat → Vec × Mat} {new meas : Dist} {r : Ukf σ × (Gaussian × Gaussian)} {sigma : Mat}
    {p : Prediction σ} {x : Fin n → ℝ} {y z : Fin o → ℝ} {K : Matrix (Fin n) (Fin o) ℝ} (h : f.step svd new meas = .ok r)
    (h1 : f.buildSigma svd = .ok sigma) (h2 : f.estimationUpdate sigma new = .ok p) (hx : p.x.mean = ⟨n, x⟩) (hy : p.y.mean = ⟨o, y⟩)
    (hK : gainMatrix p.covXY p.y.cov = .ok ⟨n, o, K⟩) (hz : meas.mean = ⟨o, z⟩) : r.2.1.mean = ⟨n, x + K *ᵥ (z - y)⟩ := by
  obtain ⟨sigma', p', hd', k1, k2, k3, rfl⟩ := step_parts h
  rw [h1] at k1; cases k1
  rw [h2] at k2; cases k2
  obtain ⟨l, i, m, lv, c0, c1, c2, a1, a2, a3, a4, -, -, -, -, a9⟩ := correction_parts k3
  rw [hK] at a1; cases a1
  rw [hz, hy, Vec.bop_of] at a2; cases a2
  rw [Mat.mulVec_of] at a3; cases a3
  rw [hx, Vec.bop_of] at a4; cases a4
  rw [a9]
  rfl

/-- C100: a measurement that equals the predicted output leaves the predicted mean as it is. -/
theorem C100_no_surprise {svd : Mat → Vec × Mat} {new meas : Dist} {r : Ukf σ × (Gaussian × Gaussian)} {sigma : Mat} {p : Prediction σ}
    {x : Fin n → ℝ} {y : Fin o → ℝ} {K : Matrix (Fin n) (Fin o) ℝ} (h : f.step svd new meas = .ok r)
    (h1 : f.buildSigma svd = .ok sigma) (h2 : f.estimationUpdate sigma new = .ok p) (hx : p.x.mean = ⟨n, x⟩) (hy : p.y.mean = ⟨o, y⟩)
    (hK : gainMatrix p.covXY p.y.cov = .ok ⟨n, o, K⟩) (hz : meas.mean = p.y.mean) : r.2.1.mean = p.x.mean := by
  rw [C100_mean_moves_by_gain h h1 h2 hx hy hK (hz.trans hy), hx, sub_self, Matrix.mulVec_zero, add_zero]

/-! ## C101 -/

/-- The corrected covariance of any linear correction with gain `K`. -/
def joseph (H : Matrix (Fin o) (Fin n) ℝ) (R : Matrix (Fin o) (Fin o) ℝ) (P : Matrix (Fin n) (Fin n) ℝ) (K : Matrix (Fin n) (Fin o) ℝ) :
    Matrix (Fin n) (Fin n) ℝ := (1 - K * H) * P * (1 - K * H)ᵀ + K * R * Kᵀ

/-- The Kalman gain is the best one. -/
theorem joseph_eq (H : Matrix (Fin o) (Fin n) ℝ) (hP : P.IsSymm) (hS : (H * P * Hᵀ + R).IsSymm) (hd : (H * P * Hᵀ + R).det ≠ 0)
    (K G : Matrix (Fin n) (Fin o) ℝ) (hG : G = P * Hᵀ * (H * P * Hᵀ + R)⁻¹) :
    joseph H R P K = (1 - G * H) * P + (K - G) * (H * P * Hᵀ + R) * (K - G)ᵀ := by
  have hu : IsUnit (H * P * Hᵀ + R).det := isUnit_iff_ne_zero.2 hd
  have e1 : G * (H * P * Hᵀ + R) = P * Hᵀ := by
    rw [hG, Matrix.mul_assoc, Matrix.nonsing_inv_mul _ hu, Matrix.mul_one]
  have e2 : (H * P * Hᵀ + R) * Gᵀ = H * P := by
    have := congrArg Matrix.transpose e1
    rwa [Matrix.transpose_mul, hS.eq, Matrix.transpose_mul, Matrix.transpose_transpose, hP.eq] at this
  have e3 : (K - G) * (H * P * Hᵀ + R) * (K - G)ᵀ = K * (H * P * Hᵀ + R) * Kᵀ - P * Hᵀ * Kᵀ - K * (H * P) + G * H * P := by
    rw [Matrix.transpose_sub, Matrix.mul_sub, Matrix.sub_mul, Matrix.sub_mul, e1, Matrix.sub_mul, Matrix.mul_assoc K _ Gᵀ, e2]
    have : P * Hᵀ * Gᵀ = G * H * P := by
      rw [← e1, Matrix.mul_assoc, e2, Matrix.mul_assoc]
    rw [this]
    abel
  rw [e3]
  simp only [joseph, Matrix.transpose_sub, Matrix.transpose_one, Matrix.transpose_mul, Matrix.sub_mul, Matrix.mul_sub, Matrix.one_mul,
    Matrix.mul_one, Matrix.mul_add, Matrix.add_mul, Matrix.mul_assoc]
  abel

theorem psd_conj {m k : Nat} {A : Matrix (Fin m) (Fin m) ℝ} (h : A.PosSemidef) (F : Matrix (Fin k) (Fin m) ℝ) : (F * A * Fᵀ).PosSemidef := by
  have := h.mul_mul_conjTranspose_same F
  rwa [Matrix.conjTranspose_eq_transpose_of_trivial] at this

theorem innovation_posDef (hP : P.PosDef) (hR : R.PosDef) (H : Matrix (Fin o) (Fin n) ℝ) : (H * P * Hᵀ + R).PosDef :=
  Matrix.PosDef.posSemidef_add (psd_conj hP.posSemidef H) hR

/-- Correction keeps the order of covariances. -/
theorem correct_mono {H : Matrix (Fin o) (Fin n) ℝ} {d : Fin o → ℝ} {b b' : Belief n} {z z' : Fin o → ℝ} (hP : b.cov.PosDef)
    (hP' : b'.cov.PosDef) (hR : R.PosDef) (hR' : R'.PosDef) (hle : (b'.cov - b.cov).PosSemidef) (hRle : (R' - R).PosSemidef) :
    ((kalmanCorrect H d R' b' z').cov - (kalmanCorrect H d R b z).cov).PosSemidef := by
  have hS := innovation_posDef hP hR H
  have hS' := innovation_posDef hP' hR' H
  obtain ⟨K, hK⟩ : ∃ K, K = kalmanGain H R' b' := ⟨_, rfl⟩
  have e := joseph_eq H (posDef_isSymm hP) (posDef_isSymm hS) hS.det_pos.ne' K (kalmanGain H R b) rfl
  have e' := joseph_eq H (posDef_isSymm hP') (posDef_isSymm hS') hS'.det_pos.ne' K (kalmanGain H R' b') rfl
  have hz : K - kalmanGain H R' b' = 0 := by rw [hK, sub_self]
  simp only [hz, Matrix.zero_mul, add_zero] at e'
  have hd : (kalmanCorrect H d R' b' z').cov - (kalmanCorrect H d R b z).cov =
      (1 - K * H) * (b'.cov - b.cov) * (1 - K * H)ᵀ + K * (R' - R) * Kᵀ +
        (K - kalmanGain H R b) * (H * b.cov * Hᵀ + R) * (K - kalmanGain H R b)ᵀ := by
    have c' : (kalmanCorrect H d R' b' z').cov = joseph H R' b'.cov K := e'.symm
    have c : (kalmanCorrect H d R b z).cov =
        joseph H R b.cov K - (K - kalmanGain H R b) * (H * b.cov * Hᵀ + R) * (K - kalmanGain H R b)ᵀ := by
      rw [e]; simp only [kalmanCorrect]; abel
    rw [c', c]
    simp only [joseph, Matrix.mul_sub, Matrix.sub_mul]
    abel
  rw [hd]
  exact ((psd_conj hle _).add (psd_conj hRle _)).add (psd_conj hS.posSemidef _)

theorem predict_mono {F : Matrix (Fin n) (Fin n) ℝ} {c : Fin n → ℝ} {b b' : Belief n} (hle : (b'.cov - b.cov).PosSemidef)
    (hQle : (Q' - Q).PosSemidef) : ((kalmanPredict F c Q' b').cov - (kalmanPredict F c Q b).cov).PosSemidef := by
  have : (kalmanPredict F c Q' b').cov - (kalmanPredict F c Q b).cov = F * (b'.cov - b.cov) * Fᵀ + (Q' - Q) := by
    simp only [kalmanPredict, Matrix.mul_sub, Matrix.sub_mul]
    abel
  rw [this]
  exact (psd_conj hle F).add hQle

theorem predict_posDef {F : Matrix (Fin n) (Fin n) ℝ} {c : Fin n → ℝ} {b : Belief n} (hP : b.cov.PosDef) (hQ : Q.PosDef) :
    (kalmanPredict F c Q b).cov.PosDef := Matrix.PosDef.posSemidef_add (psd_conj hP.posSemidef F) hQ

theorem correct_posDef {H : Matrix (Fin o) (Fin n) ℝ} {d : Fin o → ℝ} {b : Belief n} {z : Fin o → ℝ} (hP : b.cov.PosDef) (hR : R.PosDef) :
    (kalmanCorrect H d R b z).cov.PosDef := by
  have hJ := affine_joint (F := (0 : Matrix (Fin n) (Fin n) ℝ)) (P := 1) H .one hP hR
  simp only [Matrix.zero_mul, zero_add] at hJ
  have := schur_posDef hJ
  have e : b.cov - b.cov * Hᵀ * (H * b.cov * Hᵀ + R)⁻¹ * (b.cov * Hᵀ)ᵀ = (kalmanCorrect H d R b z).cov := by
    simp only [kalmanCorrect, kalmanGain, Matrix.transpose_mul, Matrix.transpose_transpose, (posDef_isSymm hP).eq, Matrix.sub_mul,
      Matrix.one_mul, Matrix.mul_assoc]
  rwa [e] at this

theorem kalmanRun_mono {w : Wrapper σ} (A : AffineModel w n o) (hQ : Q.PosDef) (hQ' : Q'.PosDef) (hR : R.PosDef) (hR' : R'.PosDef)
    (hQle : (Q' - Q).PosSemidef) (hRle : (R' - R).PosSemidef) :
    ∀ (zs zs' : List (Vec × (Fin o → ℝ))), List.Forall₂ (fun a b => a.1 = b.1) zs zs' → ∀ (s : σ) (u : Vec) (b b' : Belief n),
    b.cov.PosDef → b'.cov.PosDef → (b'.cov - b.cov).PosSemidef →
    List.Forall₂ (fun x x' : Belief n × Belief o => (x'.1.cov - x.1.cov).PosSemidef ∧ (x'.2.cov - x.2.cov).PosSemidef)
      (kalmanRun A Q R s u b zs) (kalmanRun A Q' R' s u b' zs') := by
  intro zs zs' hzs
  induction hzs with
  | nil => intro s u b b' _ _ _; exact .nil
  | @cons x x' zs zs' hx _ ih =>
    intro s u b b' hP hP' hle
    obtain ⟨u1, z⟩ := x
    obtain ⟨u1', z'⟩ := x'
    obtain rfl : u1 = u1' := hx
    have hp := predict_posDef (F := A.F s u u1) (c := A.c s u u1) hP hQ
    have hp' := predict_posDef (F := A.F s u u1) (c := A.c s u u1) hP' hQ'
    have hm := predict_mono (F := A.F s u u1) (c := A.c s u u1) hle hQle
    refine .cons ⟨correct_mono hp hp' hR hR' hm hRle, ?_⟩ ?_
    · have : ∀ (X X' : Belief n) (H : Matrix (Fin o) (Fin n) ℝ) (d : Fin o → ℝ), (X'.cov - X.cov).PosSemidef →
          ((kalmanOutput H d R' X').cov - (kalmanOutput H d R X).cov).PosSemidef := by
        intro X X' H d hX
        have e : (kalmanOutput H d R' X').cov - (kalmanOutput H d R X).cov = H * (X'.cov - X.cov) * Hᵀ + (R' - R) := by
          simp only [kalmanOutput, Matrix.mul_sub, Matrix.sub_mul]
          abel
        rw [e]
        exact (psd_conj hX H).add hRle
      exact this _ _ _ _ hm
    · exact ih _ _ _ _ (correct_posDef hp hR) (correct_posDef hp' hR') (correct_mono hp hp' hR hR' hm hRle)

theorem kalmanRun_length {w : Wrapper σ} (A : AffineModel w n o) : ∀ (zs : List (Vec × (Fin o → ℝ))) (s : σ) (u : Vec) (b : Belief n),
    (kalmanRun A Q R s u b zs).length = zs.length := by
  intro zs
  induction zs with
  | nil => intro s u b; rfl
  | cons x zs ih => intro s u b; simp only [kalmanRun, List.length_cons, ih]

open scoped MatrixOrder in
theorem psd_antisymm {k : Nat} {X Y : Matrix (Fin k) (Fin k) ℝ} (a : (Y - X).PosSemidef) (b : (X - Y).PosSemidef) : X = Y :=
  le_antisymm (Matrix.le_iff.2 a) (Matrix.le_iff.2 b)

theorem exists_means : ∀ (hist : List (Dist × Dist)), (∀ x ∈ hist, x.2.mean.n = o) → ∃ zs, HasMeans (o := o) hist zs := by
  intro hist
  induction hist with
  | nil => intro _; exact ⟨[], .nil⟩
  | cons x hist ih =>
    intro h
    obtain ⟨zs, hzs⟩ := ih fun y hy => h y (by simp [hy])
    have hx := h x (by simp)
    obtain ⟨z, hz⟩ : ∃ z : Fin o → ℝ, x.2.mean = ⟨o, z⟩ := by
      generalize x.2.mean = v at hx
      obtain ⟨k, z⟩ := v
      obtain rfl : k = o := hx
      exact ⟨z, rfl⟩
    exact ⟨(x.1.mean, z) :: zs, .cons ⟨rfl, hz⟩ hzs⟩

theorem same_inputs {hist hist' : List (Dist × Dist)} (hsame : List.Forall₂ (fun a b => a.1.mean = b.1.mean) hist hist') :
    ∀ {zs zs' : List (Vec × (Fin o → ℝ))}, HasMeans hist zs → HasMeans hist' zs' → List.Forall₂ (fun a b => a.1 = b.1) zs zs' := by
  induction hsame with
  | nil => intro zs zs' h h'; cases h; cases h'; exact .nil
  | cons h _ ih =>
    intro zs zs' k k'
    cases k with
    | cons a l => cases k' with
      | cons a' l' => exact .cons (a.1.symm.trans (h.trans a'.1)) (ih l l')

/-- C101: two filters of the same affine model that see the same inputs, the second with a prior, process noise and sensor noise at
least as large as those of the first (in the order of covariances; tuning, prior means and measured values may differ).  Over any
history every covariance of the second, of the estimates and of the predicted outputs, is at least as large as that of the first. -/
theorem C101_more_noise_never_helps (A : AffineModel f.model n o) (hm : g.model = f.model) (hmem : g.mem = f.mem)
    (hu : g.controls.mean = f.controls.mean) (hf : f.Holds n o μ P Q R) (hg : g.Holds n o μ' P' Q' R') (hP : P.PosDef) (hQ : Q.PosDef)
    (hR : R.PosDef) (hP' : P'.PosDef) (hQ' : Q'.PosDef) (hR' : R'.PosDef) (hPle : (P' - P).PosSemidef) (hQle : (Q' - Q).PosSemidef)
    (hRle : (R' - R).PosSemidef) (ho : 1 ≤ o) (svd : Mat → Vec × Mat) (hist hist' : List (Dist × Dist))
    (hsame : List.Forall₂ (fun a b => a.1.mean = b.1.mean) hist hist') (hz : ∀ x ∈ hist, x.2.mean.n = o)
    (hz' : ∀ x ∈ hist', x.2.mean.n = o) :
    ∃ f' g' outs outs', f.run svd hist = .ok (f', outs) ∧ g.run svd hist' = .ok (g', outs') ∧ outs.length = hist.length ∧
      List.Forall₂ (fun x x' => ∃ (X X' : Matrix (Fin n) (Fin n) ℝ) (Y Y' : Matrix (Fin o) (Fin o) ℝ),
        x.1.cov = ⟨n, n, X⟩ ∧ x'.1.cov = ⟨n, n, X'⟩ ∧ x.2.cov = ⟨o, o, Y⟩ ∧ x'.2.cov = ⟨o, o, Y'⟩ ∧
        (X' - X).PosSemidef ∧ (Y' - Y).PosSemidef) outs outs' := by
  obtain ⟨zs, hzs⟩ := exists_means hist hz
  obtain ⟨zs', hzs'⟩ := exists_means hist' hz'
  obtain ⟨f', h1⟩ := history_affine A hQ hR ho svd hist zs f μ P rfl hf hP hzs
  obtain ⟨g', h2⟩ := history_affine A hQ' hR' ho svd hist' zs' g μ' P' hm hg hP' hzs'
  have hmono := kalmanRun_mono A hQ hQ' hR hR' hQle hRle zs zs' (same_inputs hsame hzs hzs') f.mem f.controls.mean ⟨μ, P⟩ ⟨μ', P'⟩ hP hP' hPle
  rw [hmem, hu] at h2
  refine ⟨f', g', _, _, h1, h2, ?_, ?_⟩
  · rw [List.length_map, kalmanRun_length, ← (hzs : List.Forall₂ _ hist zs).length_eq]
  · rw [List.forall₂_map_left_iff, List.forall₂_map_right_iff]
    exact hmono.imp fun x x' h => ⟨_, _, _, _, rfl, rfl, rfl, rfl, h.1, h.2⟩

/-- C100 over histories: for affine models no covariance of any later estimate depends on what was measured. -/
theorem C100_history_covariances {svd : Mat → Vec × Mat} (A : AffineModel f.model n o) (hf : f.Holds n o μ P Q R) (hP : P.PosDef)
    (hQ : Q.PosDef) (hR : R.PosDef) (ho : 1 ≤ o) (hist hist' : List (Dist × Dist))
    (hsame : List.Forall₂ (fun a b => a.1.mean = b.1.mean) hist hist') (hz : ∀ x ∈ hist, x.2.mean.n = o)
    (hz' : ∀ x ∈ hist', x.2.mean.n = o) :
    ∃ f' f'' outs outs', f.run svd hist = .ok (f', outs) ∧ f.run svd hist' = .ok (f'', outs') ∧
      List.Forall₂ (fun x x' => x.1.cov = x'.1.cov ∧ x.2.cov = x'.2.cov) outs outs' := by
  have h0 : ∀ {k : Nat} (X : Matrix (Fin k) (Fin k) ℝ), (X - X).PosSemidef := fun X => by rw [sub_self]; exact .zero
  obtain ⟨f', f'', outs, outs', h1, h2, -, h3⟩ := C101_more_noise_never_helps A rfl rfl rfl hf hf hP hQ hR hP hQ hR (h0 P) (h0 Q) (h0 R) ho
    svd hist hist' hsame hz hz'
  obtain ⟨_, _, outs2, outs2', k1, k2, -, k3⟩ := C101_more_noise_never_helps A rfl rfl rfl hf hf hP hQ hR hP hQ hR (h0 P) (h0 Q) (h0 R) ho
    svd hist' hist (by
      have := hsame.flip
      exact this.imp fun _ _ h => h.symm) hz' hz
  rw [h2] at k1; cases k1
  rw [h1] at k2; cases k2
  refine ⟨f', f'', outs, outs', h1, h2, ?_⟩
  replace k3 := k3.flip
  clear hsame h1 h2
  induction h3 with
  | nil => exact .nil
  | cons a l ih =>
    cases k3 with
    | cons b l' =>
      refine .cons ?_ (ih l')
      obtain ⟨X, X', Y, Y', e1, e2, e3, e4, e5, e6⟩ := a
      obtain ⟨X2, X2', Y2, Y2', d1, d2, d3, d4, d5, d6⟩ := b
      rw [e2] at d1; cases d1
      rw [e1] at d2; cases d2
      rw [e4] at d3; cases d3
      rw [e3] at d4; cases d4
      rw [e1, e2, e3, e4, psd_antisymm e5 d5, psd_antisymm e6 d6]
      exact ⟨rfl, rfl⟩

/-! ## Examples -/

/-- The example filter with a sensor of twice the variance and another tuning. -/
noncomputable def demoCoarse : Ukf Unit := { demo with covV := ⟨1, 1, 1 + 1⟩, alpha := 1 }

theorem demoCoarse_holds : demoCoarse.Holds 2 1 ![1, 2] 1 1 (1 + 1) :=
  ⟨rfl, rfl, by norm_num, rfl, rfl, rfl, rfl, by norm_num [demoCoarse], by norm_num [demoCoarse], by norm_num [demoCoarse, demo],
    by norm_num [demoCoarse, demo]⟩

-- Two different measurements can be given to the example.
example (svd : Mat → Vec × Mat) (a b : ℝ) : ∃ r r', demo.step svd (.delta ⟨⟨1, ![3]⟩⟩) (.delta ⟨⟨1, ![a]⟩⟩) = .ok r ∧
    demo.step svd (.delta ⟨⟨1, ![3]⟩⟩) (.delta ⟨⟨1, ![b]⟩⟩) = .ok r' ∧ r'.2.1.cov = r.2.1.cov := by
  have h1 := (C50_step (f := demo) demoAffine demo_holds .one .one .one le_rfl svd (.delta ⟨⟨1, ![3]⟩⟩) (.delta ⟨⟨1, ![a]⟩⟩) ![a] rfl).1
  have h2 := (C50_step (f := demo) demoAffine demo_holds .one .one .one le_rfl svd (.delta ⟨⟨1, ![3]⟩⟩) (.delta ⟨⟨1, ![b]⟩⟩) ![b] rfl).1
  exact ⟨_, _, h1, h2, (C100_covariance_ignores_measurement h1 h2).1⟩

-- Its prediction, gain and measurement meet the hypotheses of `C100_mean_moves_by_gain`.
example (svd : Mat → Vec × Mat) (a : ℝ) : ∃ r sigma p x y K, demo.step svd (.delta ⟨⟨1, ![3]⟩⟩) (.delta ⟨⟨1, ![a]⟩⟩) = .ok r ∧
    demo.buildSigma svd = .ok sigma ∧ demo.estimationUpdate sigma (.delta ⟨⟨1, ![3]⟩⟩) = .ok p ∧ p.x.mean = ⟨2, x⟩ ∧ p.y.mean = ⟨1, y⟩ ∧
    gainMatrix p.covXY p.y.cov = .ok ⟨2, 1, K⟩ := by
  have h1 := (C50_step (f := demo) demoAffine demo_holds .one .one .one le_rfl svd (.delta ⟨⟨1, ![3]⟩⟩) (.delta ⟨⟨1, ![a]⟩⟩) ![a] rfl).1
  obtain ⟨sigma, p, k1, k2, k3, k4, k5⟩ := C50_prediction_and_gain (f := demo) demoAffine demo_holds .one .one .one le_rfl svd
    (.delta ⟨⟨1, ![3]⟩⟩)
  exact ⟨_, sigma, p, _, _, _, h1, k1, k2, by rw [k3]; rfl, by rw [k4]; rfl, k5⟩

-- The example and the one with the coarse sensor, given different measurements.
example (svd : Mat → Vec × Mat) (a b : ℝ) : ∃ f' g' outs outs',
    demo.run svd [(.delta ⟨⟨1, ![3]⟩⟩, .delta ⟨⟨1, ![a]⟩⟩)] = .ok (f', outs) ∧
    demoCoarse.run svd [(.delta ⟨⟨1, ![3]⟩⟩, .delta ⟨⟨1, ![b]⟩⟩)] = .ok (g', outs') ∧ outs.length = 1 := by
  obtain ⟨f', g', outs, outs', h1, h2, h3, -⟩ := C101_more_noise_never_helps (f := demo) (g := demoCoarse) demoAffine rfl rfl rfl demo_holds
    demoCoarse_holds .one .one .one .one .one (Matrix.PosDef.one.add .one) (by rw [sub_self]; exact .zero) (by rw [sub_self]; exact .zero)
    (by rw [add_sub_cancel_right]; exact Matrix.PosDef.one.posSemidef) le_rfl svd
    [(.delta ⟨⟨1, ![3]⟩⟩, .delta ⟨⟨1, ![a]⟩⟩)] [(.delta ⟨⟨1, ![3]⟩⟩, .delta ⟨⟨1, ![b]⟩⟩)] (.cons rfl .nil)
    (by intro x hx; simp only [List.mem_cons, List.not_mem_nil, or_false] at hx; rw [hx]; rfl)
    (by intro x hx; simp only [List.mem_cons, List.not_mem_nil, or_false] at hx; rw [hx]; rfl)
  exact ⟨f', g', outs, outs', h1, h2, h3⟩

end Ukf
end Verif
