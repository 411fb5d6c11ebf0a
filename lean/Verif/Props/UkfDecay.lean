import Verif.Props.UkfSigma
/-!
# C120: the filter forgets where it started
-/

namespace Verif
open Ecm Cell Matrix Spec

/-! ## Specification -/

/-- How an affine model moves its states in every step of a history of inputs, and how it measures them after that. -/
def Spec.flows {σ : Type} {w : Wrapper σ} {n o : Nat} (A : AffineModel w n o) :
    σ → Vec → List Vec → List (Matrix (Fin n) (Fin n) ℝ × Matrix (Fin o) (Fin n) ℝ)
  | _, _, [] => []
  | s, u, u' :: rest => (A.F s u u', A.H (A.next s u u') u') :: flows A (A.next s u u') u' rest

/-- How a cell moves its states in every step of a history of inputs, and how its voltage depends on them after that. -/
noncomputable def Spec.cellFlows (beh : Behavior) (p : Par) (series : Bool) {N : Nat} :
    In → List In → List (Matrix (Fin N) (Fin N) ℝ × Matrix (Fin 1) (Fin N) ℝ)
  | _, [] => []
  | prev, new :: rest => (slopes (cellStep beh p series prev new), slopes (cellVolt p series new)) :: cellFlows beh p series new rest

/-- In every step, of the predicted variance in any direction at most a fraction of `ρ` was carried over from the belief before it, the rest is process
noise: `P` is the covariance before the first step, `Ps` those after the steps. -/
def Spec.Carried {n o : Nat} (Q : Matrix (Fin n) (Fin n) ℝ) : Matrix (Fin n) (Fin n) ℝ → List (Matrix (Fin n) (Fin n) ℝ × Matrix (Fin o) (Fin n) ℝ) →
    List (Matrix (Fin n) (Fin n) ℝ) → List ℝ → Prop
  | _, [], [], [] => True
  | P, (F, _) :: steps, P' :: Ps, ρ :: ρs => 0 ≤ ρ ∧ (ρ • (F * P * Fᵀ + Q) - F * P * Fᵀ).PosSemidef ∧ Carried Q P' steps Ps ρs
  | _, _, _, _ => False

/-- Two filters that report the same covariances, and whose estimates and predicted outputs differ after `i + 1` steps, in units of these covariances, by
at most `E` times the product of the fractions carried over. -/
def Spec.Merging {n o : Nat} (Q P : Matrix (Fin n) (Fin n) ℝ) (E : ℝ) (steps : List (Matrix (Fin n) (Fin n) ℝ × Matrix (Fin o) (Fin n) ℝ))
    (out out' : List (Belief n × Belief o)) : Prop :=
  out.length = steps.length ∧ (out.map fun b => (b.1.cov, b.2.cov)) = (out'.map fun b => (b.1.cov, b.2.cov)) ∧
  ∀ ρs, Carried Q P steps (out.map (·.1.cov)) ρs → ∀ i b b', out[i]? = some b → out'[i]? = some b' →
    b.1.cov.PosDef ∧ b.2.cov.PosDef ∧ misfit (b.1.mean - b'.1.mean) b.1.cov ≤ (ρs.take (i + 1)).prod * E ∧
      misfit (b.2.mean - b'.2.mean) b.2.cov ≤ (ρs.take (i + 1)).prod * E

/-- Two filters that report the same covariances, and whose estimates and predicted outputs differ after `i + 1` steps, in units of these covariances, by
at most `ρ ^ (i + 1)` times `E`. -/
def Spec.Fading {n o : Nat} (ρ E : ℝ) (out out' : List (Belief n × Belief o)) : Prop :=
  (out.map fun b => (b.1.cov, b.2.cov)) = (out'.map fun b => (b.1.cov, b.2.cov)) ∧ ∀ i b b', out[i]? = some b → out'[i]? = some b' →
    b.1.cov.PosDef ∧ b.2.cov.PosDef ∧ misfit (b.1.mean - b'.1.mean) b.1.cov ≤ ρ ^ (i + 1) * E ∧ misfit (b.2.mean - b'.2.mean) b.2.cov ≤ ρ ^ (i + 1) * E

/-- Estimates corrected with some gain `K`, not necessarily the filter's, would not get less certain than `B`, and at that certainty what is carried over
to the next step is at most `β` times the process noise. -/
def Spec.Observed {n o : Nat} (Q B : Matrix (Fin n) (Fin n) ℝ) (R : Matrix (Fin o) (Fin o) ℝ) (β : ℝ)
    (s : Matrix (Fin n) (Fin n) ℝ × Matrix (Fin o) (Fin n) ℝ) : Prop :=
  (β • Q - s.1 * B * s.1ᵀ).PosSemidef ∧
    ∃ K : Matrix (Fin n) (Fin o) ℝ, (B - ((1 - K * s.2) * (s.1 * B * s.1ᵀ + Q) * (1 - K * s.2)ᵀ + K * R * Kᵀ)).PosSemidef

/-! ## Proofs -/

section
variable {n o : Nat} {s ρ β : ℝ} {e : Fin n → ℝ} {P Q B : Matrix (Fin n) (Fin n) ℝ} {R : Matrix (Fin o) (Fin o) ℝ}

theorem Within.linear {m : Nat} (hs : 0 ≤ s) (hP : P.PosSemidef) (h : Within s e P) (M : Matrix (Fin m) (Fin n) ℝ) {X : Matrix (Fin m) (Fin m) ℝ}
    (hX : X.PosSemidef) : Within s (M *ᵥ e) (M * P * Mᵀ + X) := by
  have := within_add (t := 0) hs le_rfl (q := 0) hP hX h (fun w => by simp) M (1 : Matrix (Fin m) (Fin m) ℝ)
  simpa using this

/-- One step of two Kalman filters that only differ in their means. -/
theorem merge_step (hP : P.PosDef) (hQ : Q.PosDef) (hR : R.PosDef) {F : Matrix (Fin n) (Fin n) ℝ} (c : Fin n → ℝ) (H : Matrix (Fin o) (Fin n) ℝ)
    (d : Fin o → ℝ) (μ μ' : Fin n → ℝ) (z : Fin o → ℝ) (hρ : 0 ≤ ρ) (hc : (ρ • (F * P * Fᵀ + Q) - F * P * Fᵀ).PosSemidef) :
    let pred := kalmanPredict F c Q ⟨μ, P⟩
    let post := kalmanCorrect H d R pred z
    let out := kalmanOutput H d R pred
    let pred' := kalmanPredict F c Q ⟨μ', P⟩
    let post' := kalmanCorrect H d R pred' z
    let out' := kalmanOutput H d R pred'
    misfit (post.mean - post'.mean) post.cov ≤ ρ * misfit (μ - μ') P ∧ misfit (out.mean - out'.mean) out.cov ≤ ρ * misfit (μ - μ') P := by
  intro pred post out pred' post' out'
  have hp : pred.cov.PosDef := Ukf.predict_posDef hP hQ
  have hpost : post.cov.PosDef := Ukf.correct_posDef hp hR
  have hout : out.cov.PosDef := Ukf.innovation_posDef hp hR H
  obtain ⟨s0, hs⟩ := (misfit_le_iff hP).1 (le_refl (misfit (μ - μ') P))
  have t0 : 0 ≤ ρ * misfit (μ - μ') P := mul_nonneg hρ s0
  have h1 : Within (ρ * misfit (μ - μ') P) (F *ᵥ (μ - μ')) pred.cov := by
    intro w
    have k1 := Within.linear s0 hP.posSemidef hs F .zero w
    have k2 := quad_nonneg hc w
    rw [add_zero] at k1
    rw [sub_mulVec, smul_mulVec, dotProduct_sub, dotProduct_smul, smul_eq_mul] at k2
    change _ ≤ ρ * misfit (μ - μ') P * (w ⬝ᵥ (F * P * Fᵀ + Q) *ᵥ w)
    nlinarith
  have hd : pred.mean - pred'.mean = F *ᵥ (μ - μ') := by
    simp only [pred, pred', kalmanPredict, mulVec_sub]; abel
  refine ⟨(misfit_le_iff hpost).2 ⟨t0, ?_⟩, (misfit_le_iff hout).2 ⟨t0, ?_⟩⟩
  · obtain ⟨G, hG⟩ : ∃ G, G = kalmanGain H R pred := ⟨_, rfl⟩
    have hG' : G = kalmanGain H R pred' := hG
    have ej := Ukf.joseph_eq H (posDef_isSymm hp) (posDef_isSymm hout) hout.det_pos.ne' G G hG
    rw [sub_self, Matrix.zero_mul, Matrix.zero_mul, add_zero] at ej
    have := Within.linear t0 hp.posSemidef h1 (1 - G * H) (Ukf.psd_conj hR.posSemidef G)
    convert this using 1
    · rw [← hd]
      simp only [post, post', kalmanCorrect, ← hG, ← hG', sub_mulVec, one_mulVec, mulVec_sub, mulVec_add, ← mulVec_mulVec]; abel
    · simp only [post, kalmanCorrect, ← hG]; exact ej.symm
  · have := Within.linear t0 hp.posSemidef h1 H hR.posSemidef
    rw [← hd] at this
    have e : out.mean - out'.mean = H *ᵥ (pred.mean - pred'.mean) := by simp only [out, out', kalmanOutput, mulVec_sub]; abel
    rw [e]
    exact this

theorem Spec.Merging.nil {E : ℝ} : Merging (n := n) (o := o) Q P E [] [] [] := ⟨rfl, rfl, fun ρs _ i b b' h => by simp at h⟩

theorem Spec.Merging.cons {E : ℝ} {F : Matrix (Fin n) (Fin n) ℝ} {H : Matrix (Fin o) (Fin n) ℝ} {steps : List (Matrix (Fin n) (Fin n) ℝ × Matrix (Fin o) (Fin n) ℝ)}
    {b b' : Belief n × Belief o} {out out' : List (Belief n × Belief o)} (h1 : b.1.cov.PosDef) (h2 : b.2.cov.PosDef) (e1 : b'.1.cov = b.1.cov)
    (e2 : b'.2.cov = b.2.cov) (hs : ∀ ρ, 0 ≤ ρ → (ρ • (F * P * Fᵀ + Q) - F * P * Fᵀ).PosSemidef →
      misfit (b.1.mean - b'.1.mean) b.1.cov ≤ ρ * E ∧ misfit (b.2.mean - b'.2.mean) b.2.cov ≤ ρ * E)
    (h : Merging Q b.1.cov (misfit (b.1.mean - b'.1.mean) b.1.cov) steps out out') :
    Merging Q P E ((F, H) :: steps) (b :: out) (b' :: out') := by
  obtain ⟨l, c, hb⟩ := h
  refine ⟨by simp [l], by simp only [List.map_cons, c, e1, e2], ?_⟩
  intro ρs hc i
  cases ρs with
  | nil => exact hc.elim
  | cons ρ ρs =>
    obtain ⟨c1, c2, c3⟩ := hc
    obtain ⟨k1, k2⟩ := hs ρ c1 c2
    cases i with
    | zero =>
      intro x x' hx hx'
      simp only [List.getElem?_cons_zero, Option.some.injEq] at hx hx'
      subst hx hx'
      simpa using ⟨h1, h2, k1, k2⟩
    | succ i =>
      intro x x' hx hx'
      rw [List.getElem?_cons_succ] at hx hx'
      obtain ⟨j1, j2, j3, j4⟩ := hb ρs c3 i x x' hx hx'
      have hn : 0 ≤ (ρs.take (i + 1)).prod := List.prod_nonneg fun r hr => carried_nonneg c3 r (List.mem_of_mem_take hr)
      have := mul_le_mul_of_nonneg_left k1 hn
      simp only [List.take_succ_cons, List.prod_cons]
      exact ⟨j1, j2, by linarith, by linarith⟩
where
  carried_nonneg {n o : Nat} {Q : Matrix (Fin n) (Fin n) ℝ} : ∀ {P : Matrix (Fin n) (Fin n) ℝ} {steps : List (Matrix (Fin n) (Fin n) ℝ × Matrix (Fin o) (Fin n) ℝ)}
      {Ps : List (Matrix (Fin n) (Fin n) ℝ)} {ρs : List ℝ}, Carried Q P steps Ps ρs → ∀ r ∈ ρs, 0 ≤ r
    | _, [], [], [], _ => by simp
    | _, (_, _) :: _, _ :: _, _ :: _, h => by
      intro r hr
      rcases List.mem_cons.1 hr with rfl | hr
      · exact h.1
      · exact carried_nonneg h.2.2 r hr

theorem kalmanRun_merging {σ : Type} {w : Wrapper σ} (A : AffineModel w n o) (hQ : Q.PosDef) (hR : R.PosDef) (zs : List (Vec × (Fin o → ℝ))) :
    ∀ (s : σ) (u : Vec) (μ μ' : Fin n → ℝ) (P : Matrix (Fin n) (Fin n) ℝ), P.PosDef →
    Merging Q P (misfit (μ - μ') P) (flows A s u (zs.map (·.1))) (kalmanRun A Q R s u ⟨μ, P⟩ zs) (kalmanRun A Q R s u ⟨μ', P⟩ zs) := by
  induction zs with
  | nil => intros; exact .nil
  | cons z zs ih =>
    intro s u μ μ' P hP
    obtain ⟨u', z⟩ := z
    have hp := Ukf.predict_posDef (F := A.F s u u') (c := A.c s u u') (b := ⟨μ, P⟩) hP hQ
    have h1 := Ukf.correct_posDef (H := A.H (A.next s u u') u') (d := A.d (A.next s u u') u') (z := z) hp hR
    exact .cons h1 (Ukf.innovation_posDef hp hR _) rfl rfl (fun ρ hρ hc => merge_step hP hQ hR _ _ _ μ μ' z hρ hc) (ih _ _ _ _ _ h1)

theorem kalmanHistory_merging {beh : Behavior} {p : Par} {series : Bool} {R : Matrix (Fin 1) (Fin 1) ℝ} (hQ : Q.PosDef) (hR : R.PosDef)
    (zs : List (In × (Fin 1 → ℝ))) : ∀ (prev : In) (μ μ' : Fin n → ℝ) (P : Matrix (Fin n) (Fin n) ℝ), P.PosDef →
    Merging Q P (misfit (μ - μ') P) (cellFlows beh p series prev (zs.map (·.1))) (kalmanHistory beh p series Q R prev ⟨μ, P⟩ zs)
      (kalmanHistory beh p series Q R prev ⟨μ', P⟩ zs) := by
  induction zs with
  | nil => intros; exact .nil
  | cons z zs ih =>
    intro prev μ μ' P hP
    obtain ⟨new, z⟩ := z
    have hp := Ukf.predict_posDef (F := slopes (cellStep beh p series prev new)) (c := cellStep beh p series prev new 0) (b := ⟨μ, P⟩) hP hQ
    have h1 := Ukf.correct_posDef (H := slopes (cellVolt p series new)) (d := cellVolt (N := n) p series new 0) (z := z) hp hR
    exact .cons h1 (Ukf.innovation_posDef hp hR _) rfl rfl (fun ρ hρ hc => merge_step hP hQ hR _ _ _ μ μ' z hρ hc) (ih _ _ _ _ h1)

/-- What is carried over is at most `β` times the process noise. -/
theorem carried_of_le (hβ : 0 ≤ β) {M : Matrix (Fin n) (Fin n) ℝ} (h : (β • Q - M).PosSemidef) : ((β / (1 + β)) • (M + Q) - M).PosSemidef := by
  have e : (β / (1 + β)) • (M + Q) - M = (1 / (1 + β)) • (β • Q - M) := by
    ext i j
    simp only [Matrix.sub_apply, Matrix.smul_apply, Matrix.add_apply, smul_eq_mul]
    field_simp
    ring
  rw [e]
  exact h.smul (by positivity)

theorem observed_step (hP : P.PosDef) (hQ : Q.PosDef) (hR : R.PosDef) {F : Matrix (Fin n) (Fin n) ℝ} {c : Fin n → ℝ} {H : Matrix (Fin o) (Fin n) ℝ}
    {d : Fin o → ℝ} {μ : Fin n → ℝ} {z : Fin o → ℝ} (hB : (B - P).PosSemidef) (ho : Observed Q B R β (F, H)) :
    (β • Q - F * P * Fᵀ).PosSemidef ∧ (B - (kalmanCorrect H d R (kalmanPredict F c Q ⟨μ, P⟩) z).cov).PosSemidef := by
  obtain ⟨h1, K, hK⟩ := ho
  have hp := Ukf.predict_posDef (F := F) (c := c) (b := ⟨μ, P⟩) hP hQ
  have hS := Ukf.innovation_posDef hp hR H
  have hF := Ukf.psd_conj hB F
  constructor
  · convert h1.add hF using 1
    simp only [Matrix.mul_sub, Matrix.sub_mul]; abel
  · have ej := Ukf.joseph_eq H (posDef_isSymm hp) (posDef_isSymm hS) hS.det_pos.ne' K _ rfl
    have hsum := (hK.add (Ukf.psd_conj hF (1 - K * H))).add (Ukf.psd_conj hS.posSemidef (K - kalmanGain H R (kalmanPredict F c Q ⟨μ, P⟩)))
    convert hsum using 1
    have ec : (kalmanCorrect H d R (kalmanPredict F c Q ⟨μ, P⟩) z).cov = Ukf.joseph H R (F * P * Fᵀ + Q) K -
        (K - kalmanGain H R (kalmanPredict F c Q ⟨μ, P⟩)) * (H * (kalmanPredict F c Q ⟨μ, P⟩).cov * Hᵀ + R) *
          (K - kalmanGain H R (kalmanPredict F c Q ⟨μ, P⟩))ᵀ := by
      rw [eq_sub_iff_add_eq]; exact ej.symm
    rw [ec]
    simp only [Ukf.joseph, Matrix.mul_sub, Matrix.sub_mul, Matrix.mul_add, Matrix.add_mul]
    abel

theorem kalmanRun_carried {σ : Type} {w : Wrapper σ} (A : AffineModel w n o) (hQ : Q.PosDef) (hR : R.PosDef) (hβ : 0 ≤ β) (zs : List (Vec × (Fin o → ℝ))) :
    ∀ (s : σ) (u : Vec) (μ : Fin n → ℝ) (P : Matrix (Fin n) (Fin n) ℝ), P.PosDef → (B - P).PosSemidef →
    (∀ x ∈ flows A s u (zs.map (·.1)), Observed Q B R β x) →
    Carried Q P (flows A s u (zs.map (·.1))) ((kalmanRun A Q R s u ⟨μ, P⟩ zs).map (·.1.cov)) (List.replicate zs.length (β / (1 + β))) := by
  induction zs with
  | nil => intros; exact True.intro
  | cons z zs ih =>
    intro s u μ P hP hB ho
    obtain ⟨u', z⟩ := z
    have hp := Ukf.predict_posDef (F := A.F s u u') (c := A.c s u u') (b := ⟨μ, P⟩) hP hQ
    have h1 := Ukf.correct_posDef (H := A.H (A.next s u u') u') (d := A.d (A.next s u u') u') (z := z) hp hR
    obtain ⟨k1, k2⟩ := observed_step (c := A.c s u u') (d := A.d (A.next s u u') u') (μ := μ) (z := z) hP hQ hR hB (ho _ (.head _))
    exact ⟨by positivity, carried_of_le hβ k1, ih _ _ _ _ h1 k2 fun x hx => ho x (.tail _ hx)⟩

theorem kalmanHistory_carried {beh : Behavior} {p : Par} {series : Bool} {R : Matrix (Fin 1) (Fin 1) ℝ} (hQ : Q.PosDef) (hR : R.PosDef) (hβ : 0 ≤ β)
    (zs : List (In × (Fin 1 → ℝ))) : ∀ (prev : In) (μ : Fin n → ℝ) (P : Matrix (Fin n) (Fin n) ℝ), P.PosDef → (B - P).PosSemidef →
    (∀ x ∈ cellFlows beh p series prev (zs.map (·.1)), Observed Q B R β x) →
    Carried Q P (cellFlows beh p series prev (zs.map (·.1))) ((kalmanHistory beh p series Q R prev ⟨μ, P⟩ zs).map (·.1.cov))
      (List.replicate zs.length (β / (1 + β))) := by
  induction zs with
  | nil => intros; exact True.intro
  | cons z zs ih =>
    intro prev μ P hP hB ho
    obtain ⟨new, z⟩ := z
    have hp := Ukf.predict_posDef (F := slopes (cellStep beh p series prev new)) (c := cellStep beh p series prev new 0) (b := ⟨μ, P⟩) hP hQ
    have h1 := Ukf.correct_posDef (H := slopes (cellVolt p series new)) (d := cellVolt (N := n) p series new 0) (z := z) hp hR
    obtain ⟨k1, k2⟩ := observed_step (c := cellStep beh p series prev new 0) (d := cellVolt (N := n) p series new 0) (μ := μ) (z := z) hP hQ hR hB
      (ho _ (.head _))
    exact ⟨by positivity, carried_of_le hβ k1, ih _ _ _ h1 k2 fun x hx => ho x (.tail _ hx)⟩

theorem Spec.Merging.fading {E : ℝ} {steps : List (Matrix (Fin n) (Fin n) ℝ × Matrix (Fin o) (Fin n) ℝ)} {out out' : List (Belief n × Belief o)}
    (h : Merging Q P E steps out out') (hc : Carried Q P steps (out.map (·.1.cov)) (List.replicate out.length ρ)) : Fading ρ E out out' := by
  obtain ⟨-, h2, h3⟩ := h
  refine ⟨h2, fun i b b' hb hb' => ?_⟩
  have hi : i < out.length := (List.getElem?_eq_some_iff.1 hb).1
  have := h3 _ hc i b b' hb hb'
  rwa [List.take_replicate, List.prod_replicate, Nat.min_eq_left hi] at this

theorem cellFlows_length {beh : Behavior} {p : Par} {series : Bool} (inputs : List In) : ∀ prev : In,
    (cellFlows (N := n) beh p series prev inputs).length = inputs.length := by
  induction inputs with
  | nil => intro; rfl
  | cons new inputs ih => intro prev; exact congrArg Nat.succ (ih _)

theorem means_map {hist : List (Dist × Dist)} {zs : List (Vec × (Fin o → ℝ))} (h : HasMeans hist zs) : hist.map (·.1.mean) = zs.map (·.1) := by
  induction h with
  | nil => rfl
  | cons a _ ih => exact congrArg₂ List.cons a.1 ih

end

/-! ## C120 -/

/-- C120 for every affine model: two filters that differ in their first estimates only and get the same history. -/
theorem C120_affine {σ : Type} {f g : Ukf σ} {n o : Nat} {μ μ' : Fin n → ℝ} {P Q : Matrix (Fin n) (Fin n) ℝ} {R : Matrix (Fin o) (Fin o) ℝ}
    (A : AffineModel f.model n o) (hm : g.model = f.model) (hmem : g.mem = f.mem) (hu : g.controls.mean = f.controls.mean)
    (hf : f.Holds n o μ P Q R) (hg : g.Holds n o μ' P Q R) (hP : P.PosDef) (hQ : Q.PosDef) (hR : R.PosDef) (ho : 1 ≤ o) (svd : Mat → Vec × Mat)
    (hist : List (Dist × Dist)) (hz : ∀ x ∈ hist, x.2.mean.n = o) :
    ∃ f' g' out out', f.run svd hist = .ok (f', out.map fun r => (r.1.gaussian, r.2.gaussian)) ∧
      g.run svd hist = .ok (g', out'.map fun r => (r.1.gaussian, r.2.gaussian)) ∧
      Merging Q P (misfit (μ - μ') P) (flows A f.mem f.controls.mean (hist.map (·.1.mean))) out out' := by
  obtain ⟨zs, hzs⟩ := Ukf.exists_means hist hz
  obtain ⟨f', h1⟩ := Ukf.history_affine A hQ hR ho svd hist zs f μ P rfl hf hP hzs
  obtain ⟨g', h2⟩ := Ukf.history_affine A hQ hR ho svd hist zs g μ' P hm hg hP hzs
  rw [hmem, hu] at h2
  have := kalmanRun_merging A hQ hR zs f.mem f.controls.mean μ μ' P hP
  rw [← means_map hzs] at this
  exact ⟨f', g', _, _, h1, h2, this⟩

/-- C120 for the filter of the transient states of a circuit with straight curves. -/
theorem C120_circuit {beh : Behavior} {x : Fixed} {measured series : Bool} {a : ASOH} {w : CellWrapper}
    (hw : TracksCircuit w beh x measured series a.rcs.length) (he : Estimable [] measured series a)
    (hp : Straight (parAt a 0)) {Q : Matrix (Fin w.nTransients) (Fin w.nTransients) ℝ} {R : Matrix (Fin 1) (Fin 1) ℝ}
    (hQ : Q.PosDef) (hR : R.PosDef) (svd : Mat → Vec × Mat) {f g : Ukf (HV ℝ)} (hf : f.model = w.plain.toWrapper) (hg : g.model = w.plain.toWrapper)
    (hmf : HoldsCircuit x f.mem a) (hmg : HoldsCircuit x g.mem a) {μ μ' : Fin w.nTransients → ℝ} {P : Matrix (Fin w.nTransients) (Fin w.nTransients) ℝ}
    (h : f.Holds w.nTransients 1 μ P Q R) (h' : g.Holds w.nTransients 1 μ' P Q R) (hP : P.PosDef)
    {u : Fin (2 + (if measured then 1 else 0)) → ℝ} (huf : f.controls.mean = ⟨_, u⟩) (hug : g.controls.mean = ⟨_, u⟩)
    (hist : List (Dist × Dist)) (zs : List ((Fin (2 + (if measured then 1 else 0)) → ℝ) × (Fin 1 → ℝ)))
    (hmeans : HasMeans hist (zs.map fun z => (⟨_, z.1⟩, z.2)))
    (hmoves : beh = .linear →
      ((In.ofVec measured (List.ofFn u)).time :: zs.map fun z => (In.ofVec measured (List.ofFn z.1)).time).IsChain (· ≠ ·)) :
    ∃ f' g' out out', f.run svd hist = .ok (f', out.map fun r => (r.1.gaussian, r.2.gaussian)) ∧
      g.run svd hist = .ok (g', out'.map fun r => (r.1.gaussian, r.2.gaussian)) ∧
      Merging Q P (misfit (μ - μ') P) (cellFlows beh (parAt a 0) series (In.ofVec measured (List.ofFn u))
        (zs.map fun z => In.ofVec measured (List.ofFn z.1))) out out' := by
  obtain ⟨f', h1⟩ := C112_history hw hf hmf he hp h hP hQ hR svd huf hist zs hmeans hmoves
  obtain ⟨g', h2⟩ := C112_history hw hg hmg he hp h' hP hQ hR svd hug hist zs hmeans hmoves
  have := kalmanHistory_merging (beh := beh) (p := parAt a 0) (series := series) hQ hR (zs.map fun z => (In.ofVec measured (List.ofFn z.1), z.2))
    (In.ofVec measured (List.ofFn u)) μ μ' P hP
  rw [List.map_map] at this
  exact ⟨f', g', _, _, h1, h2, this⟩

/-- C120, whatever the process noise: the two never move apart. -/
theorem C120_never_apart {n o : Nat} {Q P : Matrix (Fin n) (Fin n) ℝ} {E : ℝ} {steps : List (Matrix (Fin n) (Fin n) ℝ × Matrix (Fin o) (Fin n) ℝ)}
    {out out' : List (Belief n × Belief o)} (hQ : Q.PosDef) (h : Merging Q P E steps out out') : Fading 1 E out out' := by
  refine h.fading ?_
  have hl := h.1
  clear h
  induction out generalizing steps P with
  | nil => cases steps with
    | nil => exact True.intro
    | cons s steps => simp at hl
  | cons b out ih => cases steps with
    | nil => simp at hl
    | cons s steps =>
      refine ⟨zero_le_one, ?_, ih (by simpa using hl)⟩
      rw [one_smul, add_sub_cancel_left]
      exact hQ.posSemidef

/-- C120 for every affine model and as long as its states can be observed: the difference dies out geometrically. -/
theorem C120_affine_geometric {σ : Type} {f g : Ukf σ} {n o : Nat} {μ μ' : Fin n → ℝ} {P Q B : Matrix (Fin n) (Fin n) ℝ} {R : Matrix (Fin o) (Fin o) ℝ}
    (A : AffineModel f.model n o) (hm : g.model = f.model) (hmem : g.mem = f.mem) (hu : g.controls.mean = f.controls.mean)
    (hf : f.Holds n o μ P Q R) (hg : g.Holds n o μ' P Q R) (hP : P.PosDef) (hQ : Q.PosDef) (hR : R.PosDef) (ho : 1 ≤ o) (svd : Mat → Vec × Mat)
    (hist : List (Dist × Dist)) (hz : ∀ x ∈ hist, x.2.mean.n = o) {β : ℝ} (hβ : 0 ≤ β) (hB : (B - P).PosSemidef)
    (hobs : ∀ x ∈ flows A f.mem f.controls.mean (hist.map (·.1.mean)), Observed Q B R β x) :
    ∃ f' g', ∃ out out' : List (Belief n × Belief o), f.run svd hist = .ok (f', out.map fun r => (r.1.gaussian, r.2.gaussian)) ∧
      g.run svd hist = .ok (g', out'.map fun r => (r.1.gaussian, r.2.gaussian)) ∧ out.length = hist.length ∧
      Fading (β / (1 + β)) (misfit (μ - μ') P) out out' := by
  obtain ⟨zs, hzs⟩ := Ukf.exists_means hist hz
  obtain ⟨f', h1⟩ := Ukf.history_affine A hQ hR ho svd hist zs f μ P rfl hf hP hzs
  obtain ⟨g', h2⟩ := Ukf.history_affine A hQ hR ho svd hist zs g μ' P hm hg hP hzs
  rw [hmem, hu] at h2
  have e : hist.map (·.1.mean) = zs.map (·.1) := means_map hzs
  rw [e] at hobs
  have hc := kalmanRun_carried A hQ hR hβ zs f.mem f.controls.mean μ P hP hB hobs
  have hmg := kalmanRun_merging A hQ hR zs f.mem f.controls.mean μ μ' P hP
  rw [← Ukf.kalmanRun_length (Q := Q) (R := R) A zs f.mem f.controls.mean ⟨μ, P⟩] at hc
  exact ⟨f', g', _, _, h1, h2, by rw [Ukf.kalmanRun_length, ← (hzs : List.Forall₂ _ hist zs).length_eq], hmg.fading hc⟩

/-- C120 for the circuit with straight curves, as long as its states can be observed. -/
theorem C120_circuit_geometric {beh : Behavior} {x : Fixed} {measured series : Bool} {a : ASOH} {w : CellWrapper}
    (hw : TracksCircuit w beh x measured series a.rcs.length) (he : Estimable [] measured series a)
    (hp : Straight (parAt a 0)) {Q B : Matrix (Fin w.nTransients) (Fin w.nTransients) ℝ} {R : Matrix (Fin 1) (Fin 1) ℝ}
    (hQ : Q.PosDef) (hR : R.PosDef) (svd : Mat → Vec × Mat) {f g : Ukf (HV ℝ)} (hf : f.model = w.plain.toWrapper) (hg : g.model = w.plain.toWrapper)
    (hmf : HoldsCircuit x f.mem a) (hmg : HoldsCircuit x g.mem a) {μ μ' : Fin w.nTransients → ℝ} {P : Matrix (Fin w.nTransients) (Fin w.nTransients) ℝ}
    (h : f.Holds w.nTransients 1 μ P Q R) (h' : g.Holds w.nTransients 1 μ' P Q R) (hP : P.PosDef)
    {u : Fin (2 + (if measured then 1 else 0)) → ℝ} (huf : f.controls.mean = ⟨_, u⟩) (hug : g.controls.mean = ⟨_, u⟩)
    (hist : List (Dist × Dist)) (zs : List ((Fin (2 + (if measured then 1 else 0)) → ℝ) × (Fin 1 → ℝ)))
    (hmeans : HasMeans hist (zs.map fun z => (⟨_, z.1⟩, z.2)))
    (hmoves : beh = .linear →
      ((In.ofVec measured (List.ofFn u)).time :: zs.map fun z => (In.ofVec measured (List.ofFn z.1)).time).IsChain (· ≠ ·))
    {β : ℝ} (hβ : 0 ≤ β) (hB : (B - P).PosSemidef)
    (hobs : ∀ s ∈ cellFlows beh (parAt a 0) series (In.ofVec measured (List.ofFn u)) (zs.map fun z => In.ofVec measured (List.ofFn z.1)),
      Observed Q B R β s) :
    ∃ f' g', ∃ out out' : List (Belief w.nTransients × Belief 1), f.run svd hist = .ok (f', out.map fun r => (r.1.gaussian, r.2.gaussian)) ∧
      g.run svd hist = .ok (g', out'.map fun r => (r.1.gaussian, r.2.gaussian)) ∧ out.length = hist.length ∧
      Fading (β / (1 + β)) (misfit (μ - μ') P) out out' := by
  obtain ⟨f', h1⟩ := C112_history hw hf hmf he hp h hP hQ hR svd huf hist zs hmeans hmoves
  obtain ⟨g', h2⟩ := C112_history hw hg hmg he hp h' hP hQ hR svd hug hist zs hmeans hmoves
  have hm := kalmanHistory_merging (beh := beh) (p := parAt a 0) (series := series) hQ hR (zs.map fun z => (In.ofVec measured (List.ofFn z.1), z.2))
    (In.ofVec measured (List.ofFn u)) μ μ' P hP
  have hc := kalmanHistory_carried (beh := beh) (p := parAt a 0) (series := series) (B := B) hQ hR hβ
    (zs.map fun z => (In.ofVec measured (List.ofFn z.1), z.2)) (In.ofVec measured (List.ofFn u)) μ P hP hB (by rw [List.map_map]; exact hobs)
  have hl := hm.1
  rw [cellFlows_length, List.length_map] at hl
  rw [← hl] at hc
  have hz := (hmeans : List.Forall₂ _ hist _).length_eq
  rw [List.length_map] at hz hl
  exact ⟨f', g', _, _, h1, h2, hl.trans hz.symm, hm.fading hc⟩

/-! ## Examples -/

theorem Ukf.demo_observed : Observed (1 : Matrix (Fin 2) (Fin 2) ℝ) !![3, 0; 0, 3] (1 : Matrix (Fin 1) (Fin 1) ℝ) 8 (!![1, 1; 0, 1], !![1, 0]) := by
  have key : ∀ a b c : ℝ, 0 < a → 0 ≤ a * c - b ^ 2 → (!![a, b; b, c] : Matrix (Fin 2) (Fin 2) ℝ).PosSemidef := by
    intro a b c ha h
    refine .of_dotProduct_mulVec_nonneg ?_ fun x => ?_
    · ext i j; fin_cases i <;> fin_cases j <;> simp
    · have e : star x ⬝ᵥ !![a, b; b, c] *ᵥ x = a * x 0 ^ 2 + 2 * b * (x 0 * x 1) + c * x 1 ^ 2 := by
        simp [dotProduct, mulVec, Fin.sum_univ_two]; ring
      rw [e]
      have h2 : a * (a * x 0 ^ 2 + 2 * b * (x 0 * x 1) + c * x 1 ^ 2) = (a * x 0 + b * x 1) ^ 2 + (a * c - b ^ 2) * x 1 ^ 2 := by ring
      have : 0 ≤ a * (a * x 0 ^ 2 + 2 * b * (x 0 * x 1) + c * x 1 ^ 2) := by rw [h2]; positivity
      exact nonneg_of_mul_nonneg_right this ha
  constructor
  · convert key 2 (-3) 5 (by norm_num) (by norm_num) using 1
    ext i j
    fin_cases i <;> fin_cases j <;> simp [Matrix.mul_apply, Matrix.vecMul, dotProduct, Fin.sum_univ_two] <;> norm_num
  · refine ⟨!![7/8; 3/8], ?_⟩
    convert key (17/8) (-3/8) (1/8) (by norm_num) (by norm_num) using 1
    ext i j
    fin_cases i <;> fin_cases j <;> simp [Matrix.mul_apply, Matrix.vecMul, dotProduct, Fin.sum_univ_two] <;> norm_num

/-- The linear filter of two numbers, from another first estimate. -/
noncomputable def Ukf.demoFrom (μ : Fin 2 → ℝ) : Ukf Unit := { Ukf.demo with hidden := ⟨⟨2, μ⟩, ⟨2, 2, 1⟩⟩ }

theorem Ukf.demoFrom_holds (μ : Fin 2 → ℝ) : (Ukf.demoFrom μ).Holds 2 1 μ 1 1 1 where
  nHidden := rfl
  nOut := rfl
  n_pos := by norm_num
  hidden := rfl
  covW := rfl
  covV := rfl
  augLen := rfl
  alpha_pos := Ukf.demo_holds.alpha_pos
  alpha_le := Ukf.demo_holds.alpha_le
  beta_nonneg := Ukf.demo_holds.beta_nonneg
  spread := Ukf.demo_holds.spread

theorem Ukf.demo_flows (us : List Vec) : ∀ u, ∀ x ∈ flows Ukf.demoAffine () u us, x = (!![1, 1; 0, 1], !![1, 0]) := by
  induction us with
  | nil => intro u x hx; cases hx
  | cons u' us ih =>
    intro u x hx
    rcases List.mem_cons.1 hx with rfl | hx
    · rfl
    · exact ih _ x hx

-- Two linear filters start at (1, 2) and at (5, -7), whose distance squared is 97.  With every step of any common history a ninth of that is lost, in units
-- of the covariances.
example (svd : Mat → Vec × Mat) (hist : List (Dist × Dist)) (hz : ∀ x ∈ hist, x.2.mean.n = 1) :
    ∃ f' g', ∃ out out' : List (Belief 2 × Belief 1), Ukf.demo.run svd hist = .ok (f', out.map fun r => (r.1.gaussian, r.2.gaussian)) ∧
      (Ukf.demoFrom ![5, -7]).run svd hist = .ok (g', out'.map fun r => (r.1.gaussian, r.2.gaussian)) ∧
      out.length = hist.length ∧ Fading (8 / 9) 97 out out' := by
  have hB : (!![3, 0; 0, 3] - 1 : Matrix (Fin 2) (Fin 2) ℝ).PosSemidef := by
    have e : (!![3, 0; 0, 3] - 1 : Matrix (Fin 2) (Fin 2) ℝ) = (2 : ℝ) • 1 := by
      ext i j; fin_cases i <;> fin_cases j <;> norm_num
    rw [e]
    exact Matrix.PosSemidef.one.smul (by norm_num)
  have h := C120_affine_geometric (f := Ukf.demo) (g := Ukf.demoFrom ![5, -7]) Ukf.demoAffine rfl rfl rfl Ukf.demo_holds (Ukf.demoFrom_holds _)
    .one .one .one le_rfl svd hist hz (β := 8) (by norm_num) hB fun x hx => by rw [Ukf.demo_flows _ _ x hx]; exact Ukf.demo_observed
  have e : misfit ((![1, 2] : Fin 2 → ℝ) - ![5, -7]) 1 = 97 := by
    rw [misfit, inv_one, one_mulVec]; norm_num
  rw [e, show (8 : ℝ) / (1 + 8) = 8 / 9 by norm_num] at h
  exact h

theorem Demo.observed {a b r : ℝ} (ha : a ^ 2 ≤ 1 / 4) (hb : b ^ 2 ≤ 1 / 4) (hr : r ^ 2 ≤ 1 / 100) :
    Observed (1 : Matrix (Fin 3) (Fin 3) ℝ) !![100, 0, 0; 0, 2, 0; 0, 0, 2] (1 : Matrix (Fin 1) (Fin 1) ℝ) 100 (!![1, 0, 0; 0, a, 0; 0, 0, b], !![1, r, 1]) := by
  have psd : ∀ d e f g h : ℝ, (∀ x y z : ℝ, 0 ≤ d * x ^ 2 + 2 * e * (x * y) + 2 * f * (x * z) + g * y ^ 2 + h * z ^ 2) →
      (!![d, e, f; e, g, 0; f, 0, h] : Matrix (Fin 3) (Fin 3) ℝ).PosSemidef := by
    intro d e f g h hq
    refine .of_dotProduct_mulVec_nonneg ?_ fun x => ?_
    · ext i j; fin_cases i <;> fin_cases j <;> simp
    · refine (hq (x 0) (x 1) (x 2)).trans_eq ?_
      simp [dotProduct, mulVec, Fin.sum_univ_three]; ring
  have a0 := sq_nonneg a
  have b0 := sq_nonneg b
  have r0 := sq_nonneg r
  constructor
  · convert psd 0 0 0 (100 - 2 * a ^ 2) (100 - 2 * b ^ 2) ?_ using 1
    · ext i j
      fin_cases i <;> fin_cases j <;> simp [Matrix.mul_apply, Matrix.vecMul, dotProduct, Fin.sum_univ_three] <;> ring
    · intro x y z
      nlinarith [sq_nonneg y, sq_nonneg z]
  · refine ⟨!![1 / 2; 0; 0], ?_⟩
    convert psd (100 - (101 / 4 + r ^ 2 * (2 * a ^ 2 + 1) / 4 + (2 * b ^ 2 + 1) / 4 + 1 / 4)) (r * (2 * a ^ 2 + 1) / 2) ((2 * b ^ 2 + 1) / 2)
      (1 - 2 * a ^ 2) (1 - 2 * b ^ 2) ?_ using 1
    · ext i j
      fin_cases i <;> fin_cases j <;> simp [Matrix.mul_apply, Matrix.vecMul, dotProduct, Fin.sum_univ_three] <;> ring
    · intro x y z
      have h1 : 0 ≤ (r * (2 * a ^ 2 + 1) * x + y) ^ 2 := sq_nonneg _
      have h2 : 0 ≤ ((2 * b ^ 2 + 1) * x + z) ^ 2 := sq_nonneg _
      have p1 : (2 * a ^ 2 + 1) ^ 2 ≤ 9 / 4 := by nlinarith
      have p2 : (2 * b ^ 2 + 1) ^ 2 ≤ 9 / 4 := by nlinarith
      have p3 : r ^ 2 * (2 * a ^ 2 + 1) ^ 2 ≤ 1 / 100 * (9 / 4) := by gcongr
      have p4 : r ^ 2 * (2 * a ^ 2 + 1) ≤ 1 / 100 * 2 := mul_le_mul hr (by linarith) (by positivity) (by norm_num)
      have q1 := mul_le_mul_of_nonneg_right p2 (sq_nonneg x)
      have q3 := mul_le_mul_of_nonneg_right p3 (sq_nonneg x)
      have q4 := mul_le_mul_of_nonneg_right p4 (sq_nonneg x)
      have q5 := mul_le_mul_of_nonneg_right ha (sq_nonneg y)
      have q6 := mul_le_mul_of_nonneg_right hb (sq_nonneg z)
      have q7 := mul_le_mul_of_nonneg_right hb (sq_nonneg x)
      nlinarith [sq_nonneg x, sq_nonneg y, sq_nonneg z]

/-- The concrete circuit at 1 A and 30 °C, over a million seconds. -/
theorem Demo.flow (beh : Behavior) (t : ℝ) : ∃ a b r : ℝ, a ^ 2 ≤ 1 / 4 ∧ b ^ 2 ≤ 1 / 4 ∧ r ^ 2 ≤ 1 / 100 ∧
    slopes (N := 3) (cellStep beh (parAt Demo.arrays 0) false ⟨t, 1, some 30⟩ ⟨t + 10 ^ 6, 1, some 30⟩) = !![1, 0, 0; 0, a, 0; 0, 0, b] ∧
    slopes (N := 3) (cellVolt (parAt Demo.arrays 0) false ⟨t + 10 ^ 6, 1, some 30⟩) = !![1, r, 1] := by
  have hs : Cell.slope beh ⟨t, 1, some 30⟩ ⟨t + 10 ^ 6, 1, some 30⟩ = 0 := by cases beh <;> simp [Cell.slope]
  have hd : dt ⟨t, 1, some 30⟩ ⟨t + 10 ^ 6, 1, some 30⟩ = 10 ^ 6 := by simp [dt]
  have hc : ∀ v s : ℝ, curveAt ⟨(Arr2.ofRow [v]).toNd, none, .linear⟩ 0 s = v := fun v s => rfl
  have ha : ∀ v : ℝ, at2 (Arr2.ofRow [v]).toNd 0 = v := fun v => rfl
  have ho : ∀ s : ℝ, curveAt ⟨(Arr2.ofRow [3, 4]).toNd, none, .linear⟩ 0 s = 3 + s := by
    intro s
    simp [curveAt, Interp.width, Interp.row, Interp.rows, Interp.pinsUsed, linspace01, Arr2.toNd, Arr2.ofRow, List.range_succ, Style.curve]
    have e : (2 - 1 : ℝ)⁻¹ = 1 := by norm_num
    have hm : ([(0, 3), (1, 4)] : List (ℝ × ℝ)).mergeSort (fun p r => decide (p.1 ≤ r.1)) = [(0, 3), (1, 4)] :=
      List.mergeSort_of_pairwise (by simp)
    rw [e]
    simp only [linInterp, List.zip_cons_cons, List.zip_nil_right, hm]
    have hi : ∀ k : Nat, min (max k 1) ([((0 : ℝ), (3 : ℝ)), (1, 4)].length - 1) = 1 := fun k => by simp
    rw [hi]
    simp
    ring
  have half : Real.exp (-2) ≤ 1 / 4 := by
    rw [show (-2 : ℝ) = -1 + -1 by norm_num, Real.exp_add, Real.exp_neg]
    have : (2 : ℝ) ≤ Real.exp 1 := by have := Real.add_one_le_exp 1; linarith
    have := inv_anti₀ (by norm_num) this
    have h0 : 0 ≤ (Real.exp 1)⁻¹ := by positivity
    nlinarith
  refine ⟨Real.exp (-10 ^ 6 / (0.01 * Real.exp (-0.0025 * (30 - 25)) * 2500)), Real.exp (-(0.99 * 0.9 / (3600 * 10) * 10 ^ 6 * 1)),
    0.01 * Real.exp (-0.0025 * (30 - 25)), ?_, ?_, ?_, ?_, ?_⟩
  · rw [← Real.exp_nat_mul]
    refine (Real.exp_le_exp.2 ?_ : _ ≤ Real.exp (-2)).trans half
    have h1 : 0 < Real.exp (-0.0025 * (30 - 25)) := Real.exp_pos _
    have h2 : Real.exp (-0.0025 * (30 - 25)) ≤ 1 := Real.exp_le_one_iff.2 (by norm_num)
    rw [mul_div_assoc', div_le_iff₀ (by positivity)]
    push_cast
    nlinarith
  · rw [← Real.exp_nat_mul]
    exact (Real.exp_le_exp.2 (by norm_num) : _ ≤ Real.exp (-2)).trans half
  · have h2 : Real.exp (-0.0025 * (30 - 25)) ≤ 1 := Real.exp_le_one_iff.2 (by norm_num)
    have h1 : 0 < Real.exp (-0.0025 * (30 - 25)) := Real.exp_pos _
    nlinarith
  · ext i j
    fin_cases i <;> fin_cases j <;>
      simp [slopes, cellStep, step, St.ofVec, St.toVec, hs, hd, rcNext, hystNext, hystAfter, parAt, Demo.arrays, charge, eff, hc, ha, kappa, resAt, hystTarget]
  · ext i j
    fin_cases i; fin_cases j <;> simp [slopes, cellVolt, volt, St.ofVec, parAt, Demo.arrays, ocvAt, resAt, hc, ha, ho]

theorem Demo.flows_observed (beh : Behavior) (inputs : List In) : ∀ t : ℝ,
    ((⟨t, 1, some 30⟩ : In) :: inputs).IsChain (fun a b => b = ⟨a.time + 10 ^ 6, 1, some 30⟩) →
    ∀ x ∈ cellFlows (N := 3) beh (parAt Demo.arrays 0) false ⟨t, 1, some 30⟩ inputs,
      Observed (1 : Matrix (Fin 3) (Fin 3) ℝ) !![100, 0, 0; 0, 2, 0; 0, 0, 2] (1 : Matrix (Fin 1) (Fin 1) ℝ) 100 x := by
  induction inputs with
  | nil => intro t _ x hx; cases hx
  | cons new inputs ih =>
    intro t hc x hx
    obtain ⟨rfl, hc⟩ := List.isChain_cons_cons.1 hc
    rcases List.mem_cons.1 hx with rfl | hx
    · obtain ⟨a, b, r, h1, h2, h3, h4, h5⟩ := Demo.flow beh t
      rw [h4, h5]
      exact Demo.observed h1 h2 h3
    · exact ih _ hc x hx

/-- The filter of the transient states of the concrete circuit, from another first estimate. -/
noncomputable def Demo.trackerFrom (beh : Behavior) (μ : Fin 3 → ℝ) : Ukf (HV ℝ) := { Demo.tracker beh with hidden := ⟨⟨3, μ⟩, ⟨3, 3, 1⟩⟩ }

theorem Demo.trackerFrom_holds (beh : Behavior) (μ : Fin 3 → ℝ) : (Demo.trackerFrom beh μ).Holds 3 1 μ 1 1 1 where
  nHidden := rfl
  nOut := rfl
  n_pos := by norm_num
  hidden := rfl
  covW := rfl
  covV := rfl
  augLen := rfl
  alpha_pos := (Demo.tracker_holds beh).alpha_pos
  alpha_le := (Demo.tracker_holds beh).alpha_le
  beta_nonneg := (Demo.tracker_holds beh).beta_nonneg
  spread := (Demo.tracker_holds beh).spread

-- Two filters of the concrete circuit start at SOC 0.5 and 0.4.  While the cell is charged at 1 A and 30 °C and its voltage, whatever it is, measured every
-- million seconds, they converge.
example (beh : Behavior) (svd : Mat → Vec × Mat) (zs : List ((Fin 3 → ℝ) × (Fin 1 → ℝ)))
    (hz : ((![0, 1, 30] : Fin 3 → ℝ) :: zs.map Prod.fst).IsChain (fun a b => b = ![a 0 + 10 ^ 6, 1, 30])) :
    let hist := zs.map fun z => (Dist.delta ⟨⟨3, z.1⟩⟩, Dist.delta ⟨⟨1, z.2⟩⟩)
    ∃ f' g', ∃ out out' : List (Belief 3 × Belief 1), (Demo.tracker beh).run svd hist = .ok (f', out.map fun r => (r.1.gaussian, r.2.gaussian)) ∧
      (Demo.trackerFrom beh ![0.4, 0, 0]).run svd hist = .ok (g', out'.map fun r => (r.1.gaussian, r.2.gaussian)) ∧
      out.length = hist.length ∧ Fading (100 / 101) (1 / 100) out out' := by
  intro hist
  have ei : ∀ u : Fin 3 → ℝ, In.ofVec true (List.ofFn u) = ⟨u 0, u 1, some (u 2)⟩ := fun u => by simp [In.ofVec, List.ofFn_succ]
  have hB : (!![100, 0, 0; 0, 2, 0; 0, 0, 2] - 1 : Matrix (Fin 3) (Fin 3) ℝ).PosSemidef := by
    have e : (!![100, 0, 0; 0, 2, 0; 0, 0, 2] - 1 : Matrix (Fin 3) (Fin 3) ℝ) = Matrix.diagonal ![99, 1, 1] := by
      ext i j; fin_cases i <;> fin_cases j <;> norm_num
    rw [e]
    exact .diagonal fun i => by fin_cases i <;> norm_num
  have hm : HasMeans hist (zs.map fun z => (⟨3, z.1⟩, z.2)) := by
    rw [HasMeans, List.forall₂_map_left_iff, List.forall₂_map_right_iff]
    exact List.forall₂_same.2 fun z _ => ⟨rfl, rfl⟩
  have h := C120_circuit_geometric (beh := beh) (Demo.tracking_circuit beh .identity [] []) (estimable_nil (Demo.estimating_estimable beh .identity))
    Demo.arrays_straight .one .one svd (f := Demo.tracker beh) (g := Demo.trackerFrom beh ![0.4, 0, 0]) rfl rfl (Demo.hv_holds [] []) (Demo.hv_holds [] [])
    (Demo.tracker_holds beh) (Demo.trackerFrom_holds beh _) .one (u := ![0, 1, 30]) rfl rfl hist zs hm
    (fun _ => by
      have := (List.isChain_map (f := fun u : Fin 3 → ℝ => u 0) (R := (· ≠ ·)) (l := (![0, 1, 30] : Fin 3 → ℝ) :: zs.map Prod.fst)).2
        (hz.imp fun a b e => by rw [e]; simp)
      simp only [ei]
      rw [List.map_cons, List.map_map] at this
      exact this) (β := 100) (by norm_num) hB (by
      simp only [ei]
      refine Demo.flows_observed beh _ 0 ?_
      have := (List.isChain_map (f := fun u : Fin 3 → ℝ => (⟨u 0, u 1, some (u 2)⟩ : In)) (R := fun a b => b = ⟨a.time + 10 ^ 6, 1, some 30⟩)
        (l := (![0, 1, 30] : Fin 3 → ℝ) :: zs.map Prod.fst)).2 (hz.imp fun a b e => by rw [e]; simp)
      rw [List.map_cons, List.map_map] at this
      exact this)
  have e : misfit ((![0.5, 0, 0] : Fin 3 → ℝ) - ![0.4, 0, 0]) 1 = 1 / 100 := by
    rw [misfit, inv_one, one_mulVec]; norm_num
  rw [show (100 : ℝ) / (1 + 100) = 100 / 101 by norm_num] at h
  rw [← e]
  exact h

-- Over any history at all they do not move apart.
example (beh : Behavior) (svd : Mat → Vec × Mat) (zs : List ((Fin 3 → ℝ) × (Fin 1 → ℝ))) (hz : (0 :: zs.map (·.1 0)).IsChain (· ≠ ·)) (μ : Fin 3 → ℝ) :
    let hist := zs.map fun z => (Dist.delta ⟨⟨3, z.1⟩⟩, Dist.delta ⟨⟨1, z.2⟩⟩)
    ∃ f' g', ∃ out out' : List (Belief 3 × Belief 1), (Demo.tracker beh).run svd hist = .ok (f', out.map fun r => (r.1.gaussian, r.2.gaussian)) ∧
      (Demo.trackerFrom beh μ).run svd hist = .ok (g', out'.map fun r => (r.1.gaussian, r.2.gaussian)) ∧
      Fading 1 (misfit (![0.5, 0, 0] - μ) 1) out out' := by
  intro hist
  have ei : ∀ u : Fin 3 → ℝ, In.ofVec true (List.ofFn u) = ⟨u 0, u 1, some (u 2)⟩ := fun u => by simp [In.ofVec, List.ofFn_succ]
  have hm : HasMeans hist (zs.map fun z => (⟨3, z.1⟩, z.2)) := by
    rw [HasMeans, List.forall₂_map_left_iff, List.forall₂_map_right_iff]
    exact List.forall₂_same.2 fun z _ => ⟨rfl, rfl⟩
  obtain ⟨f', g', out, out', h1, h2, h3⟩ := C120_circuit (beh := beh) (Demo.tracking_circuit beh .identity [] [])
    (estimable_nil (Demo.estimating_estimable beh .identity)) Demo.arrays_straight .one .one svd (f := Demo.tracker beh) (g := Demo.trackerFrom beh μ)
    rfl rfl (Demo.hv_holds [] []) (Demo.hv_holds [] []) (Demo.tracker_holds beh) (Demo.trackerFrom_holds beh _) .one (u := ![0, 1, 30]) rfl rfl hist zs hm
    (fun _ => by simp only [ei]; exact hz)
  exact ⟨f', g', out, out', h1, h2, C120_never_apart .one h3⟩

end Verif
