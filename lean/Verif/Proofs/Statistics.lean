import Verif.Spec.Statistics
import Verif.Props.UkfSigma
/-!
# One step of the Kalman filter of a system with random noise
-/

namespace Verif
open Matrix MeasureTheory Spec

variable {Ω : Type} [MeasurableSpace Ω] {ℙ : Measure Ω} {n m o k : Nat}

/-- Square integrable. -/
def Sq (ℙ : Measure Ω) (a : Ω → Fin n → ℝ) : Prop := ∀ i, MemLp (fun ω => a ω i) 2 ℙ

/-- Mean products of the numbers of two random vectors. -/
noncomputable def cross (ℙ : Measure Ω) (a : Ω → Fin n → ℝ) (b : Ω → Fin m → ℝ) : Matrix (Fin n) (Fin m) ℝ :=
  Matrix.of fun i j => ∫ ω, a ω i * b ω j ∂ℙ

theorem unc_iff {a : Ω → Fin n → ℝ} {b : Ω → Fin m → ℝ} : Uncorrelated ℙ a b ↔ cross ℙ a b = 0 :=
  ⟨fun h => by ext i j; exact h i j, fun h i j => congrFun (congrFun h i) j⟩

theorem cross_transpose (a : Ω → Fin n → ℝ) (b : Ω → Fin m → ℝ) : (cross ℙ a b)ᵀ = cross ℙ b a := by
  ext i j
  simp only [cross, transpose_apply, of_apply, mul_comm]

theorem Sq.add {a b : Ω → Fin n → ℝ} (ha : Sq ℙ a) (hb : Sq ℙ b) : Sq ℙ (fun ω => a ω + b ω) := fun i => (ha i).add (hb i)

theorem Sq.sub {a b : Ω → Fin n → ℝ} (ha : Sq ℙ a) (hb : Sq ℙ b) : Sq ℙ (fun ω => a ω - b ω) := fun i => (ha i).sub (hb i)

theorem Sq.mulVec {a : Ω → Fin n → ℝ} (ha : Sq ℙ a) (M : Matrix (Fin m) (Fin n) ℝ) : Sq ℙ (fun ω => M *ᵥ a ω) := fun i =>
  memLp_finset_sum Finset.univ fun j _ => (ha j).const_mul (M i j)

theorem Sq.const [IsProbabilityMeasure ℙ] (c : Fin n → ℝ) : Sq ℙ (fun _ => c) := fun i => memLp_const (c i)

theorem Sq.mul {a : Ω → Fin n → ℝ} {b : Ω → Fin m → ℝ} (ha : Sq ℙ a) (hb : Sq ℙ b) (i : Fin n) (j : Fin m) :
    Integrable (fun ω => a ω i * b ω j) ℙ := (ha i).integrable_mul (hb j)

theorem cross_add {a a' : Ω → Fin n → ℝ} {b : Ω → Fin m → ℝ} (ha : Sq ℙ a) (ha' : Sq ℙ a') (hb : Sq ℙ b) :
    cross ℙ (fun ω => a ω + a' ω) b = cross ℙ a b + cross ℙ a' b := by
  ext i j
  simp only [cross, of_apply, Matrix.add_apply, Pi.add_apply, add_mul]
  exact integral_add (ha.mul hb i j) (ha'.mul hb i j)

theorem cross_sub {a a' : Ω → Fin n → ℝ} {b : Ω → Fin m → ℝ} (ha : Sq ℙ a) (ha' : Sq ℙ a') (hb : Sq ℙ b) :
    cross ℙ (fun ω => a ω - a' ω) b = cross ℙ a b - cross ℙ a' b := by
  ext i j
  simp only [cross, of_apply, Matrix.sub_apply, Pi.sub_apply, sub_mul]
  exact integral_sub (ha.mul hb i j) (ha'.mul hb i j)

theorem cross_mulVec {a : Ω → Fin n → ℝ} {b : Ω → Fin m → ℝ} (M : Matrix (Fin k) (Fin n) ℝ) (ha : Sq ℙ a) (hb : Sq ℙ b) :
    cross ℙ (fun ω => M *ᵥ a ω) b = M * cross ℙ a b := by
  ext i j
  simp only [cross, of_apply, Matrix.mul_apply, Matrix.mulVec, dotProduct, Finset.sum_mul, mul_assoc]
  rw [integral_finset_sum _ fun l _ => (ha.mul hb l j).const_mul (M i l)]
  exact Finset.sum_congr rfl fun l _ => integral_const_mul _ _

theorem cross_sub' {a : Ω → Fin n → ℝ} {b b' : Ω → Fin m → ℝ} (ha : Sq ℙ a) (hb : Sq ℙ b) (hb' : Sq ℙ b') :
    cross ℙ a (fun ω => b ω - b' ω) = cross ℙ a b - cross ℙ a b' := by
  rw [← cross_transpose, cross_sub hb hb' ha, transpose_sub, cross_transpose, cross_transpose]

theorem cross_add' {a : Ω → Fin n → ℝ} {b b' : Ω → Fin m → ℝ} (ha : Sq ℙ a) (hb : Sq ℙ b) (hb' : Sq ℙ b') :
    cross ℙ a (fun ω => b ω + b' ω) = cross ℙ a b + cross ℙ a b' := by
  rw [← cross_transpose, cross_add hb hb' ha, transpose_add, cross_transpose, cross_transpose]

theorem cross_mulVec' {a : Ω → Fin n → ℝ} {b : Ω → Fin m → ℝ} (M : Matrix (Fin k) (Fin m) ℝ) (ha : Sq ℙ a) (hb : Sq ℙ b) :
    cross ℙ a (fun ω => M *ᵥ b ω) = cross ℙ a b * Mᵀ := by
  rw [← cross_transpose, cross_mulVec M hb ha, transpose_mul, cross_transpose]

/-- The constant 1. -/
def unit : Ω → Fin 1 → ℝ := fun _ _ => 1

theorem cross_unit {a : Ω → Fin n → ℝ} : cross ℙ a unit = 0 ↔ ∀ i, ∫ ω, a ω i ∂ℙ = 0 := by
  constructor
  · intro h i
    simpa [cross, unit] using congrFun (congrFun h i) 0
  · intro h
    ext i j
    simpa [cross, unit] using h i

theorem spread_iff {a : Ω → Fin n → ℝ} {C : Matrix (Fin n) (Fin n) ℝ} :
    Spread ℙ a C ↔ Sq ℙ a ∧ cross ℙ a unit = 0 ∧ cross ℙ a a = C :=
  ⟨fun h => ⟨h.square, cross_unit.2 h.mean, by ext i j; exact h.cov i j⟩,
    fun h => ⟨h.1, cross_unit.1 h.2.1, fun i j => congrFun (congrFun h.2.2 i) j⟩⟩

section
variable [IsProbabilityMeasure ℙ]

/-! ## Linear functions of measurements -/

theorem Spec.MadeFrom.const (ys : List (Ω → Fin o → ℝ)) (c : Fin n → ℝ) : MadeFrom ys fun _ : Ω => c := by
  induction ys with
  | nil => exact ⟨c, fun _ => rfl⟩
  | cons y ys ih => exact ⟨0, by simpa using ih⟩

theorem Spec.MadeFrom.add {ys : List (Ω → Fin o → ℝ)} {g h : Ω → Fin n → ℝ} (hg : MadeFrom ys g) (hh : MadeFrom ys h) :
    MadeFrom ys fun ω => g ω + h ω := by
  induction ys generalizing g h with
  | nil =>
    obtain ⟨c, hc⟩ := hg
    obtain ⟨d, hd⟩ := hh
    exact ⟨c + d, fun ω => by show g ω + h ω = _; rw [hc, hd]⟩
  | cons y ys ih =>
    obtain ⟨G, hG⟩ := hg
    obtain ⟨K, hK⟩ := hh
    refine ⟨G + K, ?_⟩
    have := ih hG hK
    refine cast (congrArg _ ?_) this
    funext ω i
    simp only [add_mulVec, Pi.add_apply, Pi.sub_apply]
    ring

theorem Spec.MadeFrom.mulVec {ys : List (Ω → Fin o → ℝ)} {g : Ω → Fin n → ℝ} (hg : MadeFrom ys g) (M : Matrix (Fin m) (Fin n) ℝ) :
    MadeFrom ys fun ω => M *ᵥ g ω := by
  induction ys generalizing g with
  | nil =>
    obtain ⟨c, hc⟩ := hg
    exact ⟨M *ᵥ c, fun ω => by show M *ᵥ g ω = _; rw [hc]⟩
  | cons y ys ih =>
    obtain ⟨G, hG⟩ := hg
    refine ⟨M * G, ?_⟩
    refine cast (congrArg _ ?_) (ih hG)
    funext ω
    rw [mulVec_sub, mulVec_mulVec]

theorem Spec.MadeFrom.sub {ys : List (Ω → Fin o → ℝ)} {g h : Ω → Fin n → ℝ} (hg : MadeFrom ys g) (hh : MadeFrom ys h) :
    MadeFrom ys fun ω => g ω - h ω := by
  have := hg.add (hh.mulVec (-1))
  refine cast (congrArg _ ?_) this
  funext ω
  rw [neg_mulVec, one_mulVec, sub_eq_add_neg]

theorem Spec.MadeFrom.append {ys : List (Ω → Fin o → ℝ)} {g : Ω → Fin n → ℝ} (hg : MadeFrom ys g) (zs : List (Ω → Fin o → ℝ)) :
    MadeFrom (ys ++ zs) g := by
  induction ys generalizing g with
  | nil =>
    obtain ⟨c, hc⟩ := hg
    rw [show g = fun _ => c from funext hc]
    exact .const _ c
  | cons y ys ih =>
    obtain ⟨G, hG⟩ := hg
    exact ⟨G, ih hG⟩

theorem Spec.MadeFrom.last (ys : List (Ω → Fin o → ℝ)) (y : Ω → Fin o → ℝ) : MadeFrom (ys ++ [y]) y := by
  induction ys with
  | nil => exact ⟨1, 0, fun ω => by show y ω - 1 *ᵥ y ω = 0; rw [one_mulVec, sub_self]⟩
  | cons x ys ih => exact ⟨0, by simpa using ih⟩

theorem Spec.MadeFrom.sq {ys : List (Ω → Fin o → ℝ)} {g : Ω → Fin n → ℝ} (hg : MadeFrom ys g) (hy : ∀ y ∈ ys, Sq ℙ y) : Sq ℙ g := by
  induction ys generalizing g with
  | nil =>
    obtain ⟨c, hc⟩ := hg
    rw [show g = fun _ => c from funext hc]
    exact .const c
  | cons y ys ih =>
    obtain ⟨G, hG⟩ := hg
    have := (ih hG fun y h => hy y (List.mem_cons_of_mem _ h)).add ((hy y (List.mem_cons_self ..)).mulVec G)
    simpa using this

/-- What is uncorrelated with all measurements is uncorrelated with linear functions of them. -/
theorem Spec.MadeFrom.cross {ys : List (Ω → Fin o → ℝ)} {g : Ω → Fin n → ℝ} (hg : MadeFrom ys g) (hy : ∀ y ∈ ys, Sq ℙ y) {e : Ω → Fin m → ℝ}
    (he : Sq ℙ e) (h0 : cross ℙ e unit = 0) (h : ∀ y ∈ ys, cross ℙ e y = 0) : cross ℙ e g = 0 := by
  induction ys generalizing g with
  | nil =>
    obtain ⟨c, hc⟩ := hg
    ext i j
    simp only [Verif.cross, of_apply, hc, Matrix.zero_apply]
    rw [integral_mul_const, cross_unit.1 h0 i, zero_mul]
  | cons y ys ih =>
    obtain ⟨G, hG⟩ := hg
    have hy' : ∀ y ∈ ys, Sq ℙ y := fun y h => hy y (List.mem_cons_of_mem _ h)
    have hs := hy y (List.mem_cons_self ..)
    have := cross_add' he (hG.sq hy') (hs.mulVec G)
    rw [ih hG hy' fun y hm => h y (List.mem_cons_of_mem _ hm), cross_mulVec' G he hs, h y (List.mem_cons_self ..), Matrix.zero_mul, add_zero] at this
    simpa using this

/-- An estimate whose error is uncorrelated with the measurements is the best one. -/
theorem best_of {ys : List (Ω → Fin o → ℝ)} {x : Ω → Fin n → ℝ} {b : Reported Ω n} (hd : b.cov.PosDef)
    (he : Spread ℙ (fun ω => b.mean ω - x ω) b.cov)
    (hl : MadeFrom ys b.mean) (hy : ∀ y ∈ ys, Sq ℙ y) (h : ∀ y ∈ ys, Uncorrelated ℙ (fun ω => b.mean ω - x ω) y) : Best ℙ ys x b := by
  refine ⟨hd, he, hl, fun g hg v => ?_⟩
  obtain ⟨k1, k2, -⟩ := spread_iff.1 he
  have hd := hg.sub hl
  have hc := hd.cross hy k1 k2 fun y hm => unc_iff.1 (h y hm)
  let V : Matrix (Fin 1) (Fin n) ℝ := Matrix.of fun _ => v
  have hV : ∀ (a : Fin n → ℝ), v ⬝ᵥ a = (V *ᵥ a) 0 := fun a => rfl
  have s1 : Sq ℙ fun ω => V *ᵥ (b.mean ω - x ω) := k1.mulVec V
  have s2 : Sq ℙ fun ω => V *ᵥ (g ω - b.mean ω) := (hd.sq hy).mulVec V
  have e0 : Verif.cross ℙ (fun ω => V *ᵥ (b.mean ω - x ω)) (fun ω => V *ᵥ (g ω - b.mean ω)) = 0 := by
    rw [cross_mulVec V k1 s2, cross_mulVec' V k1 (hd.sq hy), hc]
    simp
  have e1 : ∫ ω, (V *ᵥ (b.mean ω - x ω)) 0 * (V *ᵥ (g ω - b.mean ω)) 0 ∂ℙ = 0 := congrFun (congrFun e0 0) 0
  have i1 := s1.mul s1 0 0
  have i2 := s2.mul s2 0 0
  have i12 := s1.mul s2 0 0
  have e2 : ∀ ω, (v ⬝ᵥ (g ω - x ω)) ^ 2 = (V *ᵥ (b.mean ω - x ω)) 0 * (V *ᵥ (b.mean ω - x ω)) 0 +
      (2 * ((V *ᵥ (b.mean ω - x ω)) 0 * (V *ᵥ (g ω - b.mean ω)) 0) + (V *ᵥ (g ω - b.mean ω)) 0 * (V *ᵥ (g ω - b.mean ω)) 0) := fun ω => by
    have : g ω - x ω = (b.mean ω - x ω) + (g ω - b.mean ω) := by abel
    rw [this, hV, mulVec_add, Pi.add_apply]
    ring
  simp only [e2]
  rw [integral_add i1 (show Integrable (fun ω => 2 * ((V *ᵥ (b.mean ω - x ω)) 0 * (V *ᵥ (g ω - b.mean ω)) 0) +
      (V *ᵥ (g ω - b.mean ω)) 0 * (V *ᵥ (g ω - b.mean ω)) 0) ℙ from (i12.const_mul 2).add i2),
    integral_add (i12.const_mul 2) i2, integral_const_mul, e1]
  have : 0 ≤ ∫ ω, (V *ᵥ (g ω - b.mean ω)) 0 * (V *ᵥ (g ω - b.mean ω)) 0 ∂ℙ := integral_nonneg fun ω => mul_self_nonneg _
  simp only [hV, sq]
  linarith

/-! ## One step -/

variable {ι : Type} {P Q : Matrix (Fin n) (Fin n) ℝ} {R : Matrix (Fin o) (Fin o) ℝ}

/-- Before a step: `past` has been measured, the state is `x`, the estimate is `μ` with covariance `P`, the noise of the steps to come is `ds`. -/
structure Before (ℙ : Measure Ω) (past : List (Ω → Fin o → ℝ)) (x μ : Ω → Fin n → ℝ) (P Q : Matrix (Fin n) (Fin n) ℝ) (R : Matrix (Fin o) (Fin o) ℝ)
    (ds : List (ι × (Ω → Fin n → ℝ) × (Ω → Fin o → ℝ))) : Prop where
  white : White ℙ (fun ω => μ ω - x ω) P Q R ds
  linear : MadeFrom past μ
  square : ∀ y ∈ past, Sq ℙ y
  unc : ∀ y ∈ past, Uncorrelated ℙ (fun ω => μ ω - x ω) y
  coming : ∀ d ∈ ds, ∀ y ∈ past, Uncorrelated ℙ d.2.1 y ∧ Uncorrelated ℙ d.2.2 y

theorem Before.step {past : List (Ω → Fin o → ℝ)} {x μ : Ω → Fin n → ℝ} {d : ι × (Ω → Fin n → ℝ) × (Ω → Fin o → ℝ)}
    {ds : List (ι × (Ω → Fin n → ℝ) × (Ω → Fin o → ℝ))} (h : Before ℙ past x μ P Q R (d :: ds)) (hP : P.PosDef) (hQ : Q.PosDef) (hR : R.PosDef)
    (F : Matrix (Fin n) (Fin n) ℝ) (c : Fin n → ℝ) (H : Matrix (Fin o) (Fin n) ℝ) (c' : Fin o → ℝ) {x' : Ω → Fin n → ℝ} {z : Ω → Fin o → ℝ}
    (hx : x' = fun ω => F *ᵥ x ω + c + d.2.1 ω) (hz : z = fun ω => H *ᵥ x' ω + c' + d.2.2 ω) {b : Reported Ω n} {y : Reported Ω o}
    (hb : ∀ ω, b.at ω = kalmanCorrect H c' R (kalmanPredict F c Q ⟨μ ω, P⟩) (z ω))
    (hy : ∀ ω, y.at ω = kalmanOutput H c' R (kalmanPredict F c Q ⟨μ ω, P⟩)) :
    Before ℙ (past ++ [z]) x' b.mean b.cov Q R ds ∧ Best ℙ (past ++ [z]) x' b ∧ Best ℙ past z y ∧
      ∀ p ∈ past, Uncorrelated ℙ (fun ω => y.mean ω - z ω) p := by
  obtain ⟨ω₀⟩ : Nonempty Ω := nonempty_of_isProbabilityMeasure ℙ
  obtain ⟨G, hG⟩ : ∃ G, G = kalmanGain H R (kalmanPredict F c Q ⟨μ ω₀, P⟩) := ⟨_, rfl⟩
  obtain ⟨P1, hP1⟩ : ∃ P1, P1 = F * P * Fᵀ + Q := ⟨_, rfl⟩
  obtain ⟨S, hS⟩ : ∃ S, S = H * P1 * Hᵀ + R := ⟨_, rfl⟩
  have hG' : G = P1 * Hᵀ * S⁻¹ := by rw [hG, hS, hP1, kalmanGain, kalmanPredict]
  have hp1 : P1.PosDef := by rw [hP1]; exact Ukf.predict_posDef (F := F) (c := c) (b := ⟨μ ω₀, P⟩) hP hQ
  have hSp : S.PosDef := by rw [hS]; exact Ukf.innovation_posDef hp1 hR H
  have hGS : G * S = P1 * Hᵀ := by
    rw [hG', Matrix.mul_assoc, nonsing_inv_mul _ (isUnit_iff_ne_zero.2 hSp.det_pos.ne'), Matrix.mul_one]
  -- the reported estimates
  let pm : Ω → Fin n → ℝ := fun ω => F *ᵥ μ ω + c
  have hbm : b.mean = fun ω => pm ω + G *ᵥ (z ω - (H *ᵥ pm ω + c')) := funext fun ω => by rw [hG]; exact congrArg Belief.mean (hb ω)
  have hbc : b.cov = (1 - G * H) * P1 := by rw [hG, hP1]; exact congrArg Belief.cov (hb ω₀)
  have hym : y.mean = fun ω => H *ᵥ pm ω + c' := funext fun ω => congrArg Belief.mean (hy ω)
  have hyc : y.cov = S := by rw [hS, hP1]; exact congrArg Belief.cov (hy ω₀)
  -- errors
  let e : Ω → Fin n → ℝ := fun ω => μ ω - x ω
  let w := d.2.1
  let v := d.2.2
  let em : Ω → Fin n → ℝ := fun ω => F *ᵥ e ω - w ω
  let ν : Ω → Fin o → ℝ := fun ω => H *ᵥ em ω - v ω
  let e' : Ω → Fin n → ℝ := fun ω => em ω - G *ᵥ ν ω
  have hem : ∀ ω, pm ω - x' ω = em ω := fun ω => by
    funext i
    simp only [pm, hx, em, e, w, mulVec_sub, Pi.add_apply, Pi.sub_apply]
    ring
  have hν : (fun ω => y.mean ω - z ω) = ν := funext fun ω => by
    funext i
    simp only [hym, hz, ν, ← hem, mulVec_sub, v, Pi.add_apply, Pi.sub_apply]
    ring
  have he' : (fun ω => b.mean ω - x' ω) = e' := funext fun ω => by
    have : z ω - (H *ᵥ pm ω + c') = -ν ω := by rw [← hν, hym, neg_sub]
    funext i
    simp only [hbm, this, e', ← hem, mulVec_neg, Pi.add_apply, Pi.sub_apply, Pi.neg_apply]
    ring
  have hd : d ∈ d :: ds := List.mem_cons_self ..
  obtain ⟨se, ue, ce⟩ : Sq ℙ e ∧ cross ℙ e unit = 0 ∧ cross ℙ e e = P := spread_iff.1 h.white.first
  obtain ⟨sw, uw, cw⟩ : Sq ℙ w ∧ cross ℙ w unit = 0 ∧ cross ℙ w w = Q := spread_iff.1 (h.white.state d hd)
  obtain ⟨sv, uv, cv⟩ : Sq ℙ v ∧ cross ℙ v unit = 0 ∧ cross ℙ v v = R := spread_iff.1 (h.white.sensor d hd)
  obtain ⟨cew, cev, cwv⟩ : cross ℙ e w = 0 ∧ cross ℙ e v = 0 ∧ cross ℙ w v = 0 := by
    simpa only [unc_iff] using h.white.apart d hd
  have sem : Sq ℙ em := (se.mulVec F).sub sw
  have sν : Sq ℙ ν := (sem.mulVec H).sub sv
  have se' : Sq ℙ e' := sem.sub (sν.mulVec G)
  have xem : ∀ {m} {t : Ω → Fin m → ℝ}, Sq ℙ t → cross ℙ em t = F * cross ℙ e t - cross ℙ w t := fun ht => by
    rw [cross_sub (se.mulVec F) sw ht, cross_mulVec F se ht]
  have xν : ∀ {m} {t : Ω → Fin m → ℝ}, Sq ℙ t → cross ℙ ν t = H * cross ℙ em t - cross ℙ v t := fun ht => by
    rw [cross_sub (sem.mulVec H) sv ht, cross_mulVec H sem ht]
  have xe' : ∀ {m} {t : Ω → Fin m → ℝ}, Sq ℙ t → cross ℙ e' t = cross ℙ em t - G * cross ℙ ν t := fun ht => by
    rw [cross_sub sem (sν.mulVec G) ht, cross_mulVec G sν ht]
  -- what all three are uncorrelated with
  have none : ∀ {m} {t : Ω → Fin m → ℝ}, Sq ℙ t → cross ℙ e t = 0 → cross ℙ w t = 0 → cross ℙ v t = 0 →
      cross ℙ ν t = 0 ∧ cross ℙ e' t = 0 := fun {m t} ht h1 h2 h3 => by
    have k1 : cross ℙ em t = 0 := by rw [xem ht, h1, h2]; simp
    have k2 : cross ℙ ν t = 0 := by rw [xν ht, k1, h3]; simp
    exact ⟨k2, by rw [xe' ht, k1, k2]; simp⟩
  have cwe : cross ℙ w e = 0 := by rw [← cross_transpose, cew, transpose_zero]
  have cve : cross ℙ v e = 0 := by rw [← cross_transpose, cev, transpose_zero]
  have cvw : cross ℙ v w = 0 := by rw [← cross_transpose, cwv, transpose_zero]
  have m1 : cross ℙ em e = F * P := by rw [xem se, ce, cwe, sub_zero]
  have m2 : cross ℙ em w = -Q := by rw [xem sw, cew, cw]; simp
  have m3 : cross ℙ em v = 0 := by rw [xem sv, cev, cwv]; simp
  have m4 : cross ℙ em em = P1 := by
    rw [show cross ℙ em em = cross ℙ em (fun ω => F *ᵥ e ω - w ω) from rfl, cross_sub' sem (se.mulVec F) sw, cross_mulVec' F sem se, m1, m2, hP1,
      sub_neg_eq_add]
  have m5 : cross ℙ ν em = H * P1 := by rw [xν sem, m4, ← cross_transpose em v, m3]; simp
  have m6 : cross ℙ ν v = -R := by rw [xν sv, m3, cv]; simp
  have m7 : cross ℙ ν ν = S := by
    rw [show cross ℙ ν ν = cross ℙ ν (fun ω => H *ᵥ em ω - v ω) from rfl, cross_sub' sν (sem.mulVec H) sv, cross_mulVec' H sν sem, m5, m6, hS,
      sub_neg_eq_add]
  have m8 : cross ℙ em ν = P1 * Hᵀ := by
    rw [← cross_transpose, m5, transpose_mul, (posDef_isSymm hp1).eq]
  have m9 : cross ℙ e' ν = 0 := by rw [xe' sν, m8, m7, hGS, sub_self]
  have m10 : cross ℙ e' e' = (1 - G * H) * P1 := by
    rw [show cross ℙ e' e' = cross ℙ e' (fun ω => em ω - G *ᵥ ν ω) from rfl, cross_sub' se' sem (sν.mulVec G), cross_mulVec' G se' sν, m9, xe' sem, m4, m5]
    simp only [Matrix.zero_mul, sub_zero, Matrix.sub_mul, Matrix.one_mul, Matrix.mul_assoc]
  have su : Sq ℙ (unit : Ω → Fin 1 → ℝ) := Sq.const fun _ => 1
  obtain ⟨uν, ue'⟩ := none su ue uw uv
  -- linear functions of the past
  have lpm : MadeFrom past pm := (h.linear.mulVec F).add (.const _ c)
  have ly : MadeFrom past y.mean := by rw [hym]; exact (lpm.mulVec H).add (.const _ c')
  have sy : Sq ℙ y.mean := ly.sq h.square
  have hzy : z = fun ω => y.mean ω - ν ω := funext fun ω => by rw [← hν, sub_sub_cancel]
  have sz : Sq ℙ z := by rw [hzy]; exact sy.sub sν
  have lb : MadeFrom (past ++ [z]) b.mean := by
    rw [hbm]
    refine (lpm.append _).add (((Spec.MadeFrom.last past z).sub ?_).mulVec G)
    exact ((lpm.mulVec H).add (.const _ c')).append _
  have pν : ∀ p ∈ past, cross ℙ ν p = 0 ∧ cross ℙ e' p = 0 := fun p hp =>
    none (h.square p hp) (unc_iff.1 (h.unc p hp)) (unc_iff.1 (h.coming d hd p hp).1) (unc_iff.1 (h.coming d hd p hp).2)
  have pz : cross ℙ e' z = 0 := by
    rw [hzy, cross_sub' se' sy sν, m9, sub_zero]
    exact ly.cross h.square se' ue' fun p hp => (pν p hp).2
  have spast : ∀ p ∈ past ++ [z], Sq ℙ p := fun p hp => by
    rcases List.mem_append.1 hp with hp | hp
    · exact h.square p hp
    · rw [List.mem_singleton.1 hp]; exact sz
  have upast : ∀ p ∈ past ++ [z], Uncorrelated ℙ (fun ω => b.mean ω - x' ω) p := fun p hp => by
    rw [he', unc_iff]
    rcases List.mem_append.1 hp with hp | hp
    · exact (pν p hp).2
    · rw [List.mem_singleton.1 hp]; exact pz
  have spr : Spread ℙ (fun ω => b.mean ω - x' ω) b.cov := by
    rw [he', hbc]
    exact spread_iff.2 ⟨se', ue', m10⟩
  have tds := List.pairwise_cons.1 h.white.times
  have cds : ∀ d' ∈ ds, (cross ℙ ν d'.2.1 = 0 ∧ cross ℙ e' d'.2.1 = 0) ∧ cross ℙ ν d'.2.2 = 0 ∧ cross ℙ e' d'.2.2 = 0 := fun d' hd' => by
    have hm := List.mem_cons_of_mem d hd'
    obtain ⟨t1, t2, t3, t4⟩ := tds.1 d' hd'
    obtain ⟨a1, a2, -⟩ := h.white.apart d' hm
    exact ⟨none (h.white.state d' hm).square (unc_iff.1 a1) (unc_iff.1 t1) (unc_iff.1 t3),
      none (h.white.sensor d' hm).square (unc_iff.1 a2) (unc_iff.1 t2) (unc_iff.1 t4)⟩
  refine ⟨⟨⟨spr, fun d' hd' => h.white.state d' (List.mem_cons_of_mem _ hd'), fun d' hd' => h.white.sensor d' (List.mem_cons_of_mem _ hd'),
      fun d' hd' => ⟨?_, ?_, (h.white.apart d' (List.mem_cons_of_mem _ hd')).2.2⟩, tds.2⟩, lb, spast, upast, fun d' hd' p hp => ?_⟩,
    best_of (hb ω₀ ▸ Ukf.correct_posDef (d := c') (z := z ω₀) (Ukf.predict_posDef (F := F) (c := c) (b := ⟨μ ω₀, P⟩) hP hQ) hR :) spr lb spast upast, best_of (hyc ▸ hSp) ?_ ly h.square fun p hp => ?_, fun p hp => ?_⟩
  · rw [he', unc_iff]; exact (cds d' hd').1.2
  · rw [he', unc_iff]; exact (cds d' hd').2.2
  · have hm := List.mem_cons_of_mem d hd'
    rcases List.mem_append.1 hp with hp | hp
    · exact h.coming d' hm p hp
    · rw [List.mem_singleton.1 hp, unc_iff, unc_iff]
      have key : ∀ {m} {t : Ω → Fin m → ℝ} {C}, Spread ℙ t C → cross ℙ ν t = 0 → (∀ p ∈ past, Uncorrelated ℙ t p) → cross ℙ t z = 0 := fun ht h1 h2 => by
        obtain ⟨s1, s2, -⟩ := spread_iff.1 ht
        rw [hzy, cross_sub' s1 sy sν, ← cross_transpose ν, h1, transpose_zero, sub_zero]
        exact ly.cross h.square s1 s2 fun p hp => unc_iff.1 (h2 p hp)
      exact ⟨key (h.white.state d' hm) (cds d' hd').1.1 fun p hp => (h.coming d' hm p hp).1,
        key (h.white.sensor d' hm) (cds d' hd').2.1 fun p hp => (h.coming d' hm p hp).2⟩
  · rw [hν, hyc]
    exact spread_iff.2 ⟨sν, uν, m7⟩
  · rw [hν, unc_iff]; exact (pν p hp).1
  · rw [hν, unc_iff]; exact (pν p hp).1

end

end Verif
