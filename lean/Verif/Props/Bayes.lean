import Verif.Proofs.Bayes
/-!
# C145: with normal noise the estimates are the conditional distributions
-/

namespace Verif
open Ecm Cell Matrix Spec MeasureTheory

variable {n o : Nat}

theorem bayes_const_mul {σ : Type} {w : Wrapper σ} (A : AffineModel w n o) {Q : Matrix (Fin n) (Fin n) ℝ} {R : Matrix (Fin o) (Fin o) ℝ} (k : ℝ)
    (zs : List (Vec × (Fin o → ℝ))) : ∀ (s : σ) (u : Vec) (π : (Fin n → ℝ) → ℝ),
    bayes A Q R s u (fun x => k * π x) zs = fun x => k * bayes A Q R s u π zs x := by
  induction zs with
  | nil => intros; rfl
  | cons z zs ih =>
    intro s u π
    simp only [bayes, learn_const_mul, ih]

theorem cellBayes_const_mul {beh : Behavior} {p : Par} {series : Bool} {N : Nat} {Q : Matrix (Fin N) (Fin N) ℝ} {R : Matrix (Fin 1) (Fin 1) ℝ} (k : ℝ)
    (zs : List (In × (Fin 1 → ℝ))) : ∀ (prev : In) (π : (Fin N → ℝ) → ℝ),
    cellBayes beh p series Q R prev (fun x => k * π x) zs = fun x => k * cellBayes beh p series Q R prev π zs x := by
  induction zs with
  | nil => intros; rfl
  | cons z zs ih =>
    intro prev π
    simp only [cellBayes, learn_const_mul, ih]

theorem jointBayes_const_mul {w : JointWrapper} {x : Fixed} {beh : Behavior} {series : Bool} {l : Nat} {N : Nat} {Q : Matrix (Fin N) (Fin N) ℝ}
    {R : Matrix (Fin 1) (Fin 1) ℝ} (k : ℝ) (zs : List (In × (Fin 1 → ℝ))) : ∀ (prev : In) (π : (Fin N → ℝ) → ℝ),
    jointBayes w x beh series l Q R prev (fun x => k * π x) zs = fun y => k * jointBayes w x beh series l Q R prev π zs y := by
  induction zs with
  | nil => intros; rfl
  | cons z zs ih =>
    intro prev π
    simp only [jointBayes, learn_const_mul, ih]

theorem kalmanRun_bayes {σ : Type} {w : Wrapper σ} (A : AffineModel w n o) {Q : Matrix (Fin n) (Fin n) ℝ} {R : Matrix (Fin o) (Fin o) ℝ}
    (hQ : Q.PosDef) (hR : R.PosDef) (zs : List (Vec × (Fin o → ℝ))) : ∀ (s : σ) (u : Vec) (b : Belief n), b.cov.PosDef →
    0 < likelihood (zs.map Prod.snd) (kalmanRun A Q R s u b zs) ∧
    bayes A Q R s u (normal b) zs = fun x => likelihood (zs.map Prod.snd) (kalmanRun A Q R s u b zs) *
      normal (((kalmanRun A Q R s u b zs).map Prod.fst).getLastD b) x := by
  induction zs with
  | nil =>
    intro s u b _
    simp [likelihood, bayes, kalmanRun]
  | cons z zs ih =>
    intro s u b hb
    obtain ⟨u', z⟩ := z
    have hp : (kalmanPredict (A.F s u u') (A.c s u u') Q b).cov.PosDef := Ukf.predict_posDef hb hQ
    obtain ⟨h1, h2⟩ := ih (A.next s u u') u' _ (Ukf.correct_posDef (H := A.H (A.next s u u') u') (d := A.d (A.next s u u') u') (z := z) hp hR)
    have hS : (kalmanOutput (A.H (A.next s u u') u') (A.d (A.next s u u') u') R (kalmanPredict (A.F s u u') (A.c s u u') Q b)).cov.PosDef :=
      Ukf.innovation_posDef hp hR _
    simp only [bayes, kalmanRun, likelihood, List.map_cons, List.zipWith_cons_cons, List.prod_cons, List.getLastD_cons] at h1 h2 ⊢
    refine ⟨mul_pos (normal_pos hS z) h1, ?_⟩
    rw [learn_normal hb hQ hR (fun _ => rfl) (fun _ => rfl) z, bayes_const_mul, h2]
    funext x
    rw [mul_assoc]

theorem kalmanHistory_bayes {beh : Behavior} {p : Par} {series : Bool} (hp : Straight p) {N : Nat}
    (hN : N = 1 + (if series then 1 else 0) + p.rcs.length + 1) {Q : Matrix (Fin N) (Fin N) ℝ} {R : Matrix (Fin 1) (Fin 1) ℝ}
    (hQ : Q.PosDef) (hR : R.PosDef) (zs : List (In × (Fin 1 → ℝ))) : ∀ (prev : In) (b : Belief N), b.cov.PosDef →
    0 < likelihood (zs.map Prod.snd) (kalmanHistory beh p series Q R prev b zs) ∧
    cellBayes beh p series Q R prev (normal b) zs = fun x => likelihood (zs.map Prod.snd) (kalmanHistory beh p series Q R prev b zs) *
      normal (((kalmanHistory beh p series Q R prev b zs).map Prod.fst).getLastD b) x := by
  induction zs with
  | nil =>
    intro prev b _
    simp [likelihood, cellBayes, kalmanHistory]
  | cons z zs ih =>
    intro prev b hb
    obtain ⟨new, z⟩ := z
    have hp' : (kalmanPredict (slopes (cellStep beh p series prev new)) (cellStep beh p series prev new 0) Q b).cov.PosDef := Ukf.predict_posDef hb hQ
    obtain ⟨h1, h2⟩ := ih new _ (Ukf.correct_posDef (H := slopes (cellVolt p series new)) (d := cellVolt p series new (0 : Fin N → ℝ)) (z := z) hp' hR)
    have hS : (kalmanOutput (slopes (cellVolt p series new)) (cellVolt p series new (0 : Fin N → ℝ)) R
        (kalmanPredict (slopes (cellStep beh p series prev new)) (cellStep beh p series prev new 0) Q b)).cov.PosDef := Ukf.innovation_posDef hp' hR _
    simp only [cellBayes, kalmanHistory, kalmanStep, likelihood, List.map_cons, List.zipWith_cons_cons, List.prod_cons, List.getLastD_cons] at h1 h2 ⊢
    refine ⟨mul_pos (normal_pos hS z) h1, ?_⟩
    rw [learn_normal hb hQ hR (fun y => (C112_cell_affine (beh := beh) hp hN prev new y).1) (fun y => (C112_cell_affine (beh := beh) hp hN prev new y).2) z,
      cellBayes_const_mul, h2]
    funext x
    rw [mul_assoc]

theorem jointHistory_bayes {w : JointWrapper} {x : Fixed} {beh : Behavior} {measured series : Bool} {a : ASOH}
    (hc : EstimatesCircuit w beh x measured series a) (hs : JointlyStraight w.names a)
    {Q : Matrix (Fin (w.nTransients + w.nAsoh)) (Fin (w.nTransients + w.nAsoh)) ℝ} {R : Matrix (Fin 1) (Fin 1) ℝ}
    (hQ : Q.PosDef) (hR : R.PosDef) (zs : List (In × (Fin 1 → ℝ))) : ∀ (prev : In) (b : Belief (w.nTransients + w.nAsoh)), b.cov.PosDef →
    0 < likelihood (zs.map Prod.snd) (jointHistory w x beh series a.rcs.length Q R prev b zs) ∧
    jointBayes w x beh series a.rcs.length Q R prev (normal b) zs =
      fun y => likelihood (zs.map Prod.snd) (jointHistory w x beh series a.rcs.length Q R prev b zs) *
        normal (((jointHistory w x beh series a.rcs.length Q R prev b zs).map Prod.fst).getLastD b) y := by
  induction zs with
  | nil =>
    intro prev b _
    simp [likelihood, jointBayes, jointHistory]
  | cons z zs ih =>
    intro prev b hb
    obtain ⟨new, z⟩ := z
    let st : (Fin (w.nTransients + w.nAsoh) → ℝ) → Fin (w.nTransients + w.nAsoh) → ℝ := jointStep w x beh series a.rcs.length prev new
    let vo : (Fin (w.nTransients + w.nAsoh) → ℝ) → Fin 1 → ℝ := jointVolt w x series a.rcs.length new
    have hp' : (kalmanPredict (slopes st) (st 0) Q b).cov.PosDef := Ukf.predict_posDef hb hQ
    obtain ⟨h1, h2⟩ := ih new _ (Ukf.correct_posDef (H := slopes vo) (d := vo 0) (z := z) hp' hR)
    have hS : (kalmanOutput (slopes vo) (vo 0) R (kalmanPredict (slopes st) (st 0) Q b)).cov.PosDef := Ukf.innovation_posDef hp' hR _
    simp only [jointBayes, jointHistory, jointKalman, likelihood, List.map_cons, List.zipWith_cons_cons, List.prod_cons, List.getLastD_cons] at h1 h2 ⊢
    refine ⟨mul_pos (normal_pos hS z) h1, ?_⟩
    rw [learn_normal hb hQ hR (fun y => (C133_affine hc hs prev new y).2.2.1) (fun y => (C133_affine hc hs prev new y).2.2.2) z,
      jointBayes_const_mul, h2]
    funext y
    rw [mul_assoc]

theorem posterior_of {joint : (Fin n → ℝ) → ℝ} {L : ℝ} {b : Belief n} (hb : b.cov.PosDef) (hL : 0 < L) (h : joint = fun x => L * normal b x) :
    Posterior joint L b := by
  have hi : ∫ x, joint x = L := by rw [h, integral_const_mul, integral_normal hb, mul_one]
  refine ⟨hL, hi, fun x => ?_⟩
  rw [hi, h]
  exact mul_div_cancel_left₀ _ hL.ne'

/-! ## C145 -/

/-- C145 for every affine model.  If the first state and the noises are normal with the covariances that the filter is given, then the predictions that it
returns for a history are such that the product of their densities at the measurements is the density of the measurements, and the last estimate is the
conditional distribution of the state given these. -/
theorem C145_affine {σ : Type} {f : Ukf σ} {μ : Fin n → ℝ} {P Q : Matrix (Fin n) (Fin n) ℝ} {R : Matrix (Fin o) (Fin o) ℝ}
    (A : AffineModel f.model n o) (h : f.Holds n o μ P Q R) (hP : P.PosDef) (hQ : Q.PosDef) (hR : R.PosDef) (ho : 1 ≤ o) (svd : Mat → Vec × Mat)
    (hist : List (Dist × Dist)) (zs : List (Vec × (Fin o → ℝ))) (hm : HasMeans hist zs) :
    ∃ f' out, f.run svd hist = .ok (f', out.map fun r => (r.1.gaussian, r.2.gaussian)) ∧ out.length = zs.length ∧
      Posterior (bayes A Q R f.mem f.controls.mean (normal ⟨μ, P⟩) zs) (likelihood (zs.map Prod.snd) out) ((out.map Prod.fst).getLastD ⟨μ, P⟩) := by
  obtain ⟨f', h'⟩ := Ukf.C50_history A h hP hQ hR ho svd hist zs hm
  obtain ⟨k1, k2⟩ := kalmanRun_bayes A hQ hR zs f.mem f.controls.mean ⟨μ, P⟩ hP
  exact ⟨f', _, h', Ukf.kalmanRun_length A .., posterior_of (kalmanRun_last A hQ hR zs _ _ _ hP) k1 k2⟩

/-- C145 for the filter of the transient states of a circuit with straight curves. -/
theorem C145_circuit {beh : Behavior} {x : Fixed} {measured series : Bool} {a : ASOH} {w : CellWrapper}
    (hw : TracksCircuit w beh x measured series a.rcs.length) (he : Estimable [] measured series a)
    (hp : Straight (parAt a 0)) {Q : Matrix (Fin w.nTransients) (Fin w.nTransients) ℝ} {R : Matrix (Fin 1) (Fin 1) ℝ}
    (hQ : Q.PosDef) (hR : R.PosDef) (svd : Mat → Vec × Mat) {f : Ukf (HV ℝ)} (hf : f.model = w.plain.toWrapper)
    (hm : HoldsCircuit x f.mem a) {μ : Fin w.nTransients → ℝ} {P : Matrix (Fin w.nTransients) (Fin w.nTransients) ℝ}
    (h : f.Holds w.nTransients 1 μ P Q R) (hP : P.PosDef) {u : Fin (2 + (if measured then 1 else 0)) → ℝ} (hu : f.controls.mean = ⟨_, u⟩)
    (hist : List (Dist × Dist)) (zs : List ((Fin (2 + (if measured then 1 else 0)) → ℝ) × (Fin 1 → ℝ)))
    (hmeans : HasMeans hist (zs.map fun z => (⟨_, z.1⟩, z.2)))
    (hmoves : beh = .linear →
      ((In.ofVec measured (List.ofFn u)).time :: zs.map fun z => (In.ofVec measured (List.ofFn z.1)).time).IsChain (· ≠ ·)) :
    ∃ f' out, f.run svd hist = .ok (f', out.map fun r => (r.1.gaussian, r.2.gaussian)) ∧ out.length = zs.length ∧
      Posterior (cellBayes beh (parAt a 0) series Q R (In.ofVec measured (List.ofFn u)) (normal ⟨μ, P⟩)
        (zs.map fun z => (In.ofVec measured (List.ofFn z.1), z.2))) (likelihood (zs.map Prod.snd) out) ((out.map Prod.fst).getLastD ⟨μ, P⟩) := by
  have hN : w.nTransients = 1 + (if series then 1 else 0) + (parAt a 0).rcs.length + 1 := by
    rw [show (parAt a 0).rcs.length = a.rcs.length by simp [parAt]]; exact tracks_width hw
  obtain ⟨f', h'⟩ := C112_history hw hf hm he hp h hP hQ hR svd hu hist zs hmeans hmoves
  obtain ⟨c1, c2⟩ := kalmanHistory_bayes (beh := beh) (series := series) hp hN hQ hR (zs.map fun z => (In.ofVec measured (List.ofFn z.1), z.2))
    (In.ofVec measured (List.ofFn u)) ⟨μ, P⟩ hP
  obtain ⟨k1, k2⟩ := kalmanHistory_last (beh := beh) (p := parAt a 0) (series := series) hQ hR (zs.map fun z => (In.ofVec measured (List.ofFn z.1), z.2))
    (In.ofVec measured (List.ofFn u)) ⟨μ, P⟩ hP
  rw [List.length_map] at k2
  rw [List.map_map] at c1 c2
  exact ⟨f', _, h', k2, posterior_of k1 c1 c2⟩

/-- C145 for joint estimators as `initialize_ukf_from_wrapper` builds them. -/
theorem C145_estimator {w : JointWrapper} {x : Fixed} {beh : Behavior} {measured series : Bool} {a : ASOH}
    (hc : EstimatesCircuit w beh x measured series a) (he : Estimable w.names measured series a) (hs : JointlyStraight w.names a)
    (hid : w.plain = w) (ht : w.transients.Single) (hi : w.inputs.Single) (ho : w.nOut = 1)
    {P Q : Matrix (Fin (w.nTransients + w.nAsoh)) (Fin (w.nTransients + w.nAsoh)) ℝ} {R : Matrix (Fin 1) (Fin 1) ℝ}
    (hP : P.PosDef) (hQ : Q.PosDef) (hR : R.PosDef) (tune : Tuning) (ha : 1 / 1000 ≤ tune.alpha ∧ tune.alpha ≤ 1) (hb : 0 ≤ tune.beta)
    (hk : ∀ k, tune.kappa = some k → -((2 * (w.nTransients + w.nAsoh) + 1 : Nat) : ℝ) < k) :
    ∃ (E : Joint) (u : Fin (2 + (if measured then 1 else 0)) → ℝ) (μ : Fin (w.nTransients + w.nAsoh) → ℝ) (U T A : Arr2 ℝ),
      Joint.fromWrapper w (.inl ⟨_, _, P⟩) none (some ⟨_, _, Q⟩) none none (some ⟨1, 1, R⟩) tune = .ok E ∧
      (w.inputs.toNumpy = .ok U ∧ U.flat = ⟨_, u⟩) ∧
      (w.transients.toNumpy = .ok T ∧ w.asoh.getParameters (some w.names) = .ok A ∧ T.flat.append A.flat = ⟨_, μ⟩) ∧
      ∀ (svd : Mat → Vec × Mat) (hist : List (Container ℝ × Container ℝ)) (zs : List ((Fin (2 + (if measured then 1 else 0)) → ℝ) × (Fin 1 → ℝ))),
        List.Forall₂ (fun m h => (∃ v, m.1.toNumpy = .ok v ∧ v.flat = ⟨_, h.1⟩) ∧ ∃ y, m.2.toNumpy = .ok y ∧ y.flat = ⟨1, h.2⟩) hist zs →
        (beh = .linear → ((In.ofVec measured (List.ofFn u)).time :: zs.map fun z => (In.ofVec measured (List.ofFn z.1)).time).IsChain (· ≠ ·)) →
        ∃ fin, ∃ out : List (Belief (w.nTransients + w.nAsoh) × Belief 1),
          E.run svd hist = .ok (fin, out.map fun r => (r.1.gaussian, r.2.gaussian)) ∧ out.length = hist.length ∧
          Posterior (jointBayes w x beh series a.rcs.length Q R (In.ofVec measured (List.ofFn u)) (normal ⟨μ, P⟩)
            (zs.map fun z => (In.ofVec measured (List.ofFn z.1), z.2))) (likelihood (zs.map Prod.snd) out) ((out.map Prod.fst).getLastD ⟨μ, P⟩) := by
  obtain ⟨E, u, μ, U, T, A, hE, hU, hT, hrun⟩ := C133_runs hc he hs hid ht hi ho hP hQ hR tune ha hb hk
  refine ⟨E, u, μ, U, T, A, hE, hU, hT, fun svd hist zs hh hmoves => ?_⟩
  obtain ⟨fin, hfin⟩ := hrun svd hist zs hh hmoves
  obtain ⟨c1, c2⟩ := jointHistory_bayes hc hs hQ hR (zs.map fun z => (In.ofVec measured (List.ofFn z.1), z.2)) (In.ofVec measured (List.ofFn u)) ⟨μ, P⟩ hP
  obtain ⟨k1, k2⟩ := jointHistory_last (w := w) (x := x) (beh := beh) (series := series) (a := a) hQ hR
    (zs.map fun z => (In.ofVec measured (List.ofFn z.1), z.2)) (In.ofVec measured (List.ofFn u)) ⟨μ, P⟩ hP
  rw [List.length_map] at k2
  rw [List.map_map] at c1 c2
  exact ⟨fin, _, hfin, k2.trans hh.length_eq.symm, posterior_of k1 c1 c2⟩

/-- C145 for joint estimators in any units, with constant behaviour. -/
theorem C145_any_units {w : JointWrapper} {x : Fixed} {measured series : Bool} {a : ASOH}
    (hc : EstimatesCircuit w .constant x measured series a) (he : Estimable w.names measured series a)
    (hs : JointlyStraight w.names a) (ht : w.transients.Single) (hi : w.inputs.Single) (ho : w.nOut = 1)
    {n : Nat} (hn : w.nTransients + w.nAsoh = n) {d b : Fin n → ℝ} {e c : Fin 1 → ℝ} (hd : ∀ i, d i ≠ 0) (he' : ∀ i, e i ≠ 0)
    (hh : w.hiddenConv.Rescales n d b) (hout : w.outputConv.Rescales 1 e c)
    (hctl : ∀ v : Vec, v.n = 2 + (if measured then 1 else 0) → ∃ v', w.controlConv.invSamples1 v = .ok v' ∧ w.controlConv.samples1 v' = .ok v)
    {P Q : Matrix (Fin n) (Fin n) ℝ} {R : Matrix (Fin 1) (Fin 1) ℝ}
    (hP : P.PosDef) (hQ : Q.PosDef) (hR : R.PosDef) {tune : Tuning} (htune : Tuned tune (2 * n + 1)) :
    ∃ (E : Joint) (u : Fin (2 + (if measured then 1 else 0)) → ℝ) (μ : Fin n → ℝ) (U T A : Arr2 ℝ),
      Joint.fromWrapper w (.inl ⟨n, n, P⟩) none (some ⟨n, n, Q⟩) none none (some ⟨1, 1, R⟩) tune = .ok E ∧
      (w.inputs.toNumpy = .ok U ∧ U.flat = ⟨_, u⟩) ∧
      (w.transients.toNumpy = .ok T ∧ w.asoh.getParameters (some w.names) = .ok A ∧ T.flat.append A.flat = ⟨n, μ⟩) ∧
      ∀ (svd : Mat → Vec × Mat) (hist : List (Container ℝ × Container ℝ)) (zs : List ((Fin (2 + (if measured then 1 else 0)) → ℝ) × (Fin 1 → ℝ))),
        List.Forall₂ (fun m h => (∃ v, m.1.toNumpy = .ok v ∧ v.flat = ⟨_, h.1⟩) ∧ ∃ y, m.2.toNumpy = .ok y ∧ y.flat = ⟨1, h.2⟩) hist zs →
        ∃ fin, ∃ out : List (Belief n × Belief 1),
          E.run svd hist = .ok (fin, out.map fun r => (r.1.gaussian, r.2.gaussian)) ∧ out.length = hist.length ∧
          Posterior (jointBayes w x .constant series a.rcs.length Q R (In.ofVec measured (List.ofFn u)) (normal ⟨μ, P⟩)
            (zs.map fun z => (In.ofVec measured (List.ofFn z.1), z.2))) (likelihood (zs.map Prod.snd) out) ((out.map Prod.fst).getLastD ⟨μ, P⟩) := by
  obtain ⟨E, u, μ, U, T, A, hE, hU, hT, hrun⟩ := C133_any_units hc he hs ht hi ho hn hd he' hh hout hctl hP hQ hR htune
  refine ⟨E, u, μ, U, T, A, hE, hU, hT, fun svd hist zs hm => ?_⟩
  obtain ⟨fin, hfin⟩ := hrun svd hist zs hm
  subst hn
  obtain ⟨c1, c2⟩ := jointHistory_bayes hc hs hQ hR (zs.map fun z => (In.ofVec measured (List.ofFn z.1), z.2)) (In.ofVec measured (List.ofFn u)) ⟨μ, P⟩ hP
  obtain ⟨k1, k2⟩ := jointHistory_last (w := w) (x := x) (beh := .constant) (series := series) (a := a) hQ hR
    (zs.map fun z => (In.ofVec measured (List.ofFn z.1), z.2)) (In.ofVec measured (List.ofFn u)) ⟨μ, P⟩ hP
  rw [List.length_map] at k2
  rw [List.map_map] at c1 c2
  exact ⟨fin, _, hfin, k2.trans hm.length_eq.symm, posterior_of k1 c1 c2⟩

theorem quadratic_injective {M N : Matrix (Fin n) (Fin n) ℝ} (hM : M.IsSymm) (hN : N.IsSymm) (h : ∀ e, e ⬝ᵥ M *ᵥ e = e ⬝ᵥ N *ᵥ e) : M = N := by
  have key : ∀ {M : Matrix (Fin n) (Fin n) ℝ}, M.IsSymm → ∀ i j, 2 * M i j =
      (Pi.single i 1 + Pi.single j 1) ⬝ᵥ M *ᵥ (Pi.single i 1 + Pi.single j 1) - Pi.single i 1 ⬝ᵥ M *ᵥ Pi.single i 1 - Pi.single j 1 ⬝ᵥ M *ᵥ Pi.single j 1 := by
    intro M hM i j
    have := hM.apply i j
    simp only [mulVec_add, add_dotProduct, dotProduct_add, mulVec_single_one, single_one_dotProduct, col_apply]
    linarith
  ext i j
  have h1 := key hM i j
  have h2 := key hN i j
  rw [h, h, h] at h1
  linarith

theorem normal_le {b : Belief n} (hb : b.cov.PosDef) (x : Fin n → ℝ) : normal b x ≤ normal b b.mean := by
  refine div_le_div_of_nonneg_right (Real.exp_le_exp.2 ?_) (Real.sqrt_nonneg _)
  have := misfit_nonneg hb (x - b.mean)
  rw [sub_self, show misfit 0 b.cov = 0 by simp [misfit]]
  linarith

theorem normal_ge {b : Belief n} (hb : b.cov.PosDef) {x : Fin n → ℝ} (h : normal b b.mean ≤ normal b x) : x = b.mean := by
  have h0 : 0 < √((2 * Real.pi) ^ n * b.cov.det) := Real.sqrt_pos.2 (mul_pos (pow_pos (by positivity) _) hb.det_pos)
  have := Real.exp_le_exp.1 ((div_le_div_iff_of_pos_right h0).1 h)
  rw [sub_self, show misfit 0 b.cov = 0 by simp [misfit]] at this
  exact sub_eq_zero.1 (misfit_eq_zero hb (by linarith))

/-- C145, what this says about the beliefs: densities of normal distributions determine these, so no other estimate and covariance are those of the
conditional distribution. -/
theorem C145_unique {joint : (Fin n → ℝ) → ℝ} {L L' : ℝ} {b b' : Belief n} (hb : b.cov.PosDef) (hb' : b'.cov.PosDef)
    (h : Posterior joint L b) (h' : Posterior joint L' b') : L = L' ∧ b = b' := by
  refine ⟨h.2.1.symm.trans h'.2.1, ?_⟩
  have he : ∀ x, normal b x = normal b' x := fun x => (h.2.2 x).symm.trans (h'.2.2 x)
  have hm : b'.mean = b.mean := normal_ge hb (by rw [he, he]; exact normal_le hb' _)
  obtain ⟨m, P⟩ := b
  obtain ⟨m', P'⟩ := b'
  obtain rfl : m' = m := hm
  have h0 : √((2 * Real.pi) ^ n * P.det) = √((2 * Real.pi) ^ n * P'.det) := by
    have := he m'
    simp only [normal, sub_self, show misfit 0 P = 0 by simp [misfit], show misfit 0 P' = 0 by simp [misfit]] at this
    simpa using this
  have hp : 0 < √((2 * Real.pi) ^ n * P'.det) := Real.sqrt_pos.2 (mul_pos (pow_pos (by positivity) _) hb'.det_pos)
  have hq : ∀ e, misfit e P = misfit e P' := fun e => by
    have := he (m' + e)
    simp only [normal, add_sub_cancel_left, h0] at this
    have := Real.exp_injective ((div_left_inj' hp.ne').1 this)
    linarith
  have hs : ∀ {P : Matrix (Fin n) (Fin n) ℝ}, P.PosDef → (P⁻¹).IsSymm := fun {P} hP => by
    rw [Matrix.IsSymm, transpose_nonsing_inv, (posDef_isSymm hP).eq]
  have hi : P⁻¹ = P'⁻¹ := quadratic_injective (hs hb) (hs hb') hq
  have : P = P' := by
    rw [← nonsing_inv_nonsing_inv P (isUnit_iff_ne_zero.2 hb.det_pos.ne'), hi, nonsing_inv_nonsing_inv P' (isUnit_iff_ne_zero.2 hb'.det_pos.ne')]
  rw [this]

/-! ## Examples -/

-- One number of known variance: the standard normal density is that of the textbook.
example (m x : ℝ) : normal ⟨![m], 1⟩ ![x] = Real.exp (-(x - m) ^ 2 / 2) / √(2 * Real.pi) := by
  simp [normal, misfit, pow_two]

-- A position and a speed: the filter of two numbers starts at (1, 2) and gets one measurement `a` of the position, all with unit noise.  Of all the ways through
-- `x` to `x'` and `a`, weighed by their densities, those to `x'` have the share of the density of the estimate.
example (svd : Mat → Vec × Mat) (a : ℝ) : ∃ (f' : Ukf Unit) (e : Belief 2) (y : Belief 1),
    Ukf.demo.run svd [(.delta ⟨⟨1, ![3]⟩⟩, .delta ⟨⟨1, ![a]⟩⟩)] = .ok (f', [(e.gaussian, y.gaussian)]) ∧
    let ways (x' : Fin 2 → ℝ) := normal ⟨![x' 0], 1⟩ ![a] * ∫ x : Fin 2 → ℝ, normal ⟨![x 0 + x 1, x 1], 1⟩ x' * normal ⟨![1, 2], 1⟩ x
    ∫ x', ways x' = normal y ![a] ∧ ∀ x', ways x' / ∫ x', ways x' = normal e x' := by
  obtain ⟨f', out, h1, h2, h3⟩ := C145_affine (f := Ukf.demo) Ukf.demoAffine Ukf.demo_holds .one .one .one le_rfl svd
    [(.delta ⟨⟨1, ![3]⟩⟩, .delta ⟨⟨1, ![a]⟩⟩)] [(⟨1, ![3]⟩, ![a])] (.cons ⟨rfl, rfl⟩ .nil)
  match out, h2 with
  | [(e, y)], _ =>
    have ew : bayes Ukf.demoAffine 1 1 Ukf.demo.mem Ukf.demo.controls.mean (normal ⟨![1, 2], 1⟩) [(⟨1, ![3]⟩, ![a])] =
        fun x' => normal ⟨![x' 0], 1⟩ ![a] * ∫ x : Fin 2 → ℝ, normal ⟨![x 0 + x 1, x 1], 1⟩ x' * normal ⟨![1, 2], 1⟩ x := by
      have e1 : ∀ x : Fin 2 → ℝ, Ukf.demoAffine.F Ukf.demo.mem Ukf.demo.controls.mean ⟨1, ![3]⟩ *ᵥ x + Ukf.demoAffine.c Ukf.demo.mem Ukf.demo.controls.mean ⟨1, ![3]⟩ =
          ![x 0 + x 1, x 1] := fun x => by
        funext i; fin_cases i <;> simp [Ukf.demoAffine, mulVec, dotProduct, Fin.sum_univ_two]
      have e2 : ∀ s u (x : Fin 2 → ℝ), Ukf.demoAffine.H s u *ᵥ x + Ukf.demoAffine.d s u = ![x 0] := fun s u x => by
        funext i; fin_cases i; simp [Ukf.demoAffine, mulVec, dotProduct, Fin.sum_univ_two]
      funext x'
      simp only [bayes, learn, e1, e2]
    obtain ⟨-, k2, k3⟩ := (congrArg (fun j => Posterior j (likelihood ([((⟨1, ![3]⟩ : Vec), ![a])].map Prod.snd) [(e, y)]) e) ew).mp h3
    exact ⟨f', e, y, h1, k2.trans (by simp [likelihood]), k3⟩

-- The filter of the concrete circuit, for any currents, temperatures and voltages at different times.
example (beh : Behavior) (svd : Mat → Vec × Mat) (hist : List (ℝ × ℝ × ℝ × ℝ)) (ht : (0 :: hist.map (·.1)).IsChain (· ≠ ·)) :
    ∃ f' out, (Demo.tracker beh).run svd (hist.map fun m => (.delta ⟨⟨3, ![m.1, m.2.1, m.2.2.1]⟩⟩, .delta ⟨⟨1, ![m.2.2.2]⟩⟩)) =
        .ok (f', out.map fun r : Belief 3 × Belief 1 => (r.1.gaussian, r.2.gaussian)) ∧
      Posterior (cellBayes beh (parAt Demo.arrays 0) false 1 1 ⟨0, 1, some 30⟩ (normal (n := 3) ⟨![0.5, 0, 0], 1⟩)
        (hist.map fun m => (⟨m.1, m.2.1, some m.2.2.1⟩, ![m.2.2.2]))) (likelihood (hist.map fun m => ![m.2.2.2]) out)
          ((out.map Prod.fst).getLastD ⟨![0.5, 0, 0], 1⟩) := by
  have hm : HasMeans (hist.map fun m => (Dist.delta ⟨⟨3, ![m.1, m.2.1, m.2.2.1]⟩⟩, Dist.delta ⟨⟨1, ![m.2.2.2]⟩⟩))
      ((hist.map fun m => ((![m.1, m.2.1, m.2.2.1] : Fin 3 → ℝ), (![m.2.2.2] : Fin 1 → ℝ))).map fun z => (⟨3, z.1⟩, z.2)) := by
    clear ht
    induction hist with
    | nil => exact .nil
    | cons m hist ih => exact .cons ⟨rfl, rfl⟩ ih
  obtain ⟨f', out, h1, -, h2⟩ := C145_circuit (Demo.tracking_circuit beh .identity [] []) (estimable_nil (Demo.estimating_estimable beh .identity))
    Demo.arrays_straight .one .one svd (f := Demo.tracker beh) rfl (Demo.hv_holds [] []) (Demo.tracker_holds beh) .one (u := ![0, 1, 30]) rfl _
    (hist.map fun m => (![m.1, m.2.1, m.2.2.1], ![m.2.2.2])) hm (fun _ => by rw [List.map_map]; exact ht)
  simp only [List.map_map] at h2
  exact ⟨f', out, h1, h2⟩

-- The estimator of R0 of the concrete circuit.
example (beh : Behavior) {P Q : Matrix (Fin 4) (Fin 4) ℝ} (hP : P.PosDef) (hQ : Q.PosDef)
    (svd : Mat → Vec × Mat) (hist : List (ℝ × ℝ × ℝ × ℝ)) (hmoves : beh = .linear → (0 :: hist.map (·.1)).IsChain (· ≠ ·)) :
    ∃ E fin, ∃ out : List (Belief 4 × Belief 1),
    Joint.fromWrapper (Demo.estimatingR0 beh .identity) (.inl ⟨4, 4, P⟩) none (some ⟨4, 4, Q⟩) none none (some ⟨1, 1, 1⟩) ⟨1 / 2, none, 2⟩ = .ok E ∧
    E.run svd (hist.map fun m => (⟨[(kTime, some (.ofRow [m.1])), (kCurrent, some (.ofRow [m.2.1])), (kTemp, some (.ofRow [m.2.2.1]))]⟩,
      ⟨[(kVoltage, some (.ofRow [m.2.2.2]))]⟩)) = .ok (fin, out.map fun r => (r.1.gaussian, r.2.gaussian)) ∧
    Posterior (jointBayes (Demo.estimatingR0 beh .identity) Demo.fixed beh false 1 Q 1 ⟨0, 1, some 30⟩ (normal (n := 4) ⟨![0.5, 0, 0, 0.05], P⟩)
        (hist.map fun m => (⟨m.1, m.2.1, some m.2.2.1⟩, ![m.2.2.2]))) (likelihood (hist.map fun m => ![m.2.2.2]) out)
          ((out.map Prod.fst).getLastD ⟨![0.5, 0, 0, 0.05], P⟩) := by
  obtain ⟨E, u, y, U, T, A, hE, ⟨hU, hu⟩, ⟨hT, hA, hy⟩, hrun⟩ := C145_estimator (Demo.estimatingR0_circuit beh .identity) (Demo.estimatingR0_estimable _ _)
    (Demo.estimatingR0_straight _ _) rfl Demo.hvState_single Demo.hvInput_single rfl hP hQ .one ⟨1 / 2, none, 2⟩ ⟨by norm_num, by norm_num⟩ (by norm_num) nofun
  cases (Except.ok.inj hU)
  cases (Except.ok.inj hT)
  cases (Except.ok.inj hA)
  obtain rfl : ![0, 1, 30] = u := Vec.mk.inj hu |>.2 |> eq_of_heq |> fun h => by rw [← h]; funext k; fin_cases k <;> rfl
  obtain rfl : ![0.5, 0, 0, 0.05] = y := Vec.mk.inj hy |>.2 |> eq_of_heq |> fun h => by rw [← h]; funext k; fin_cases k <;> rfl
  obtain ⟨fin, out, h1, -, h2⟩ := hrun svd (hist.map fun m =>
    (⟨[(kTime, some (.ofRow [m.1])), (kCurrent, some (.ofRow [m.2.1])), (kTemp, some (.ofRow [m.2.2.1]))]⟩,
      ⟨[(kVoltage, some (.ofRow [m.2.2.2]))]⟩)) (hist.map fun m => (![m.1, m.2.1, m.2.2.1], ![m.2.2.2])) (by
    clear hrun hmoves
    induction hist with
    | nil => exact .nil
    | cons y hist ih =>
      exact .cons ⟨⟨.ofRow [y.1, y.2.1, y.2.2.1], rfl, congrArg (Vec.mk 3) (funext fun k => by fin_cases k <;> rfl)⟩, .ofRow [y.2.2.2], rfl,
        congrArg (Vec.mk 1) (funext fun k => by fin_cases k; rfl)⟩ ih) (fun hb => by rw [List.map_map]; exact hmoves hb)
  rw [List.map_map, List.map_map] at h2
  exact ⟨E, fin, out, hE, h1, h2⟩

end Verif
