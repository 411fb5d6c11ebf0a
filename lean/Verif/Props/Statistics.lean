import Verif.Proofs.Statistics
import Verif.Props.JointTruth
/-!
# C144: reported covariances are those of the errors, and no linear estimate is better
-/

namespace Verif
open Ecm Cell Matrix Spec MeasureTheory

variable {Ω : Type} [MeasurableSpace Ω] {ℙ : Measure Ω} {n o : Nat}

theorem Spec.Consistent.nil {past : List (Ω → Fin o → ℝ)} : Consistent (n := n) ℙ past [] [] := ⟨rfl, fun k t b h => by simp at h⟩

theorem Spec.Consistent.cons {past : List (Ω → Fin o → ℝ)} {t : (Ω → Fin n → ℝ) × (Ω → Fin o → ℝ)} {b : Reported Ω n × Reported Ω o}
    {truth : List ((Ω → Fin n → ℝ) × (Ω → Fin o → ℝ))} {out : List (Reported Ω n × Reported Ω o)} (h1 : Best ℙ (past ++ [t.2]) t.1 b.1)
    (h2 : Best ℙ past t.2 b.2) (h3 : ∀ p ∈ past, Uncorrelated ℙ (fun ω => b.2.mean ω - t.2 ω) p) (h : Consistent ℙ (past ++ [t.2]) truth out) :
    Consistent ℙ past (t :: truth) (b :: out) := by
  refine ⟨by simp [h.1], fun k t' b' ht hb => ?_⟩
  cases k with
  | zero =>
    cases ht
    cases hb
    simpa using ⟨h1, h2, h3⟩
  | succ k =>
    have := h.2 k t' b' ht hb
    simpa only [List.take_succ_cons, List.map_cons, List.append_assoc, List.singleton_append] using this

section
variable [IsProbabilityMeasure ℙ]

theorem Before.report {ι : Type} {P Q : Matrix (Fin n) (Fin n) ℝ} {R : Matrix (Fin o) (Fin o) ℝ} {past : List (Ω → Fin o → ℝ)} {x μ : Ω → Fin n → ℝ}
    {d : ι × (Ω → Fin n → ℝ) × (Ω → Fin o → ℝ)} {ds : List (ι × (Ω → Fin n → ℝ) × (Ω → Fin o → ℝ))} (h : Before ℙ past x μ P Q R (d :: ds))
    (hP : P.PosDef) (hQ : Q.PosDef) (hR : R.PosDef) (F : Matrix (Fin n) (Fin n) ℝ) (c : Fin n → ℝ) (H : Matrix (Fin o) (Fin n) ℝ) (c' : Fin o → ℝ)
    {x' : Ω → Fin n → ℝ} {z : Ω → Fin o → ℝ} (hx : x' = fun ω => F *ᵥ x ω + c + d.2.1 ω) (hz : z = fun ω => H *ᵥ x' ω + c' + d.2.2 ω) :
    ∃ (b : Reported Ω n) (y : Reported Ω o), (∀ ω, b.at ω = kalmanCorrect H c' R (kalmanPredict F c Q ⟨μ ω, P⟩) (z ω)) ∧
      (∀ ω, y.at ω = kalmanOutput H c' R (kalmanPredict F c Q ⟨μ ω, P⟩)) ∧ b.cov.PosDef ∧ Before ℙ (past ++ [z]) x' b.mean b.cov Q R ds ∧
      ∀ truth out, Consistent ℙ (past ++ [z]) truth out → Consistent ℙ past ((x', z) :: truth) ((b, y) :: out) := by
  let b : Reported Ω n := ⟨fun ω => (kalmanCorrect H c' R (kalmanPredict F c Q ⟨μ ω, P⟩) (z ω)).mean,
    (kalmanCorrect H c' R (kalmanPredict F c Q ⟨0, P⟩) 0).cov⟩
  let y : Reported Ω o := ⟨fun ω => (kalmanOutput H c' R (kalmanPredict F c Q ⟨μ ω, P⟩)).mean, (kalmanOutput H c' R (kalmanPredict F c Q ⟨0, P⟩)).cov⟩
  have hb : ∀ ω, b.at ω = kalmanCorrect H c' R (kalmanPredict F c Q ⟨μ ω, P⟩) (z ω) := fun ω => rfl
  have hy : ∀ ω, y.at ω = kalmanOutput H c' R (kalmanPredict F c Q ⟨μ ω, P⟩) := fun ω => rfl
  obtain ⟨h1, h2, h3, h4⟩ := h.step hP hQ hR F c H c' (x' := x') (z := z) hx hz hb hy
  exact ⟨b, y, hb, hy, Ukf.correct_posDef (d := c') (z := 0) (Ukf.predict_posDef (b := ⟨0, P⟩) hP hQ) hR, h1,
    fun truth out k => Spec.Consistent.cons (t := (x', z)) (b := (b, y)) h2 h3 h4 k⟩

theorem kalmanRun_consistent {σ : Type} {w : Wrapper σ} (A : AffineModel w n o) {Q : Matrix (Fin n) (Fin n) ℝ} {R : Matrix (Fin o) (Fin o) ℝ}
    (hQ : Q.PosDef) (hR : R.PosDef) (ds : List (Vec × (Ω → Fin n → ℝ) × (Ω → Fin o → ℝ))) :
    ∀ (s : σ) (u : Vec) (past : List (Ω → Fin o → ℝ)) (x μ : Ω → Fin n → ℝ) (P : Matrix (Fin n) (Fin n) ℝ), P.PosDef → Before ℙ past x μ P Q R ds →
    ∃ truth out, truth.length = ds.length ∧ (∀ ω, disturbedRun A s u (x ω) (noiseAt ds ω) = truth.map fun t => (t.1 ω, t.2 ω)) ∧
      (∀ ω, kalmanRun A Q R s u ⟨μ ω, P⟩ ((ds.map (·.1)).zip ((disturbedRun A s u (x ω) (noiseAt ds ω)).map (·.2))) =
        out.map fun b => (b.1.at ω, b.2.at ω)) ∧ Consistent ℙ past truth out := by
  induction ds with
  | nil => intros; exact ⟨[], [], rfl, fun _ => rfl, fun _ => rfl, .nil⟩
  | cons d ds ih =>
    intro s u past x μ P hP hB
    obtain ⟨u', q, r⟩ := d
    obtain ⟨x', hx⟩ : ∃ x' : Ω → Fin n → ℝ, x' = fun ω => A.F s u u' *ᵥ x ω + A.c s u u' + q ω := ⟨_, rfl⟩
    obtain ⟨z, hz⟩ : ∃ z : Ω → Fin o → ℝ, z = fun ω => A.H (A.next s u u') u' *ᵥ x' ω + A.d (A.next s u u') u' + r ω := ⟨_, rfl⟩
    obtain ⟨b, y, hb, hy, hp, h1, h2⟩ := hB.report hP hQ hR _ _ _ _ hx hz
    obtain ⟨truth, out, k1, k2, k3, k4⟩ := ih (A.next s u u') u' _ x' b.mean b.cov hp h1
    have e : ∀ ω, disturbedRun A s u (x ω) (noiseAt ((u', q, r) :: ds) ω) = (x' ω, z ω) :: disturbedRun A (A.next s u u') u' (x' ω) (noiseAt ds ω) :=
      fun ω => by rw [hz, hx]; rfl
    refine ⟨(x', z) :: truth, (b, y) :: out, by simp [k1], fun ω => ?_, fun ω => ?_, h2 _ _ k4⟩
    · rw [e, k2 ω]
      rfl
    · rw [e]
      simp only [List.map_cons, List.zip_cons_cons, kalmanRun]
      rw [← hb ω, ← hy ω, show b.at ω = ⟨b.mean ω, b.cov⟩ from rfl, k3 ω]

theorem kalmanHistory_consistent {beh : Behavior} {p : Par} {series : Bool} (hp : Straight p) {N : Nat}
    (hN : N = 1 + (if series then 1 else 0) + p.rcs.length + 1) {Q : Matrix (Fin N) (Fin N) ℝ} {R : Matrix (Fin 1) (Fin 1) ℝ}
    (hQ : Q.PosDef) (hR : R.PosDef) (ds : List (In × (Ω → Fin N → ℝ) × (Ω → Fin 1 → ℝ))) :
    ∀ (prev : In) (past : List (Ω → Fin 1 → ℝ)) (x μ : Ω → Fin N → ℝ) (P : Matrix (Fin N) (Fin N) ℝ), P.PosDef → Before ℙ past x μ P Q R ds →
    ∃ truth out, truth.length = ds.length ∧ (∀ ω, disturbedCell beh p series prev (x ω) (noiseAt ds ω) = truth.map fun t => (t.1 ω, t.2 ω)) ∧
      (∀ ω, kalmanHistory beh p series Q R prev ⟨μ ω, P⟩ ((ds.map (·.1)).zip ((disturbedCell beh p series prev (x ω) (noiseAt ds ω)).map (·.2))) =
        out.map fun b => (b.1.at ω, b.2.at ω)) ∧ Consistent ℙ past truth out := by
  induction ds with
  | nil => intros; exact ⟨[], [], rfl, fun _ => rfl, fun _ => rfl, .nil⟩
  | cons d ds ih =>
    intro prev past x μ P hP hB
    obtain ⟨new, q, r⟩ := d
    obtain ⟨x', hx⟩ : ∃ x' : Ω → Fin N → ℝ, x' = fun ω => cellStep beh p series prev new (x ω) + q ω := ⟨_, rfl⟩
    obtain ⟨z, hz⟩ : ∃ z : Ω → Fin 1 → ℝ, z = fun ω => cellVolt p series new (x' ω) + r ω := ⟨_, rfl⟩
    obtain ⟨b, y, hb, hy, hpd, h1, h2⟩ := hB.report hP hQ hR (slopes (cellStep beh p series prev new)) (cellStep beh p series prev new 0)
      (slopes (cellVolt p series new)) (cellVolt p series new 0) (x' := x') (z := z)
      (hx.trans (funext fun ω => congrArg (· + q ω) (C112_cell_affine (beh := beh) hp hN prev new (x ω)).1))
      (hz.trans (funext fun ω => congrArg (· + r ω) (C112_cell_affine (beh := beh) hp hN prev new (x' ω)).2))
    obtain ⟨truth, out, k1, k2, k3, k4⟩ := ih new _ x' b.mean b.cov hpd h1
    have e : ∀ ω, disturbedCell beh p series prev (x ω) (noiseAt ((new, q, r) :: ds) ω) =
        (x' ω, z ω) :: disturbedCell beh p series new (x' ω) (noiseAt ds ω) := fun ω => by rw [hz, hx]; rfl
    refine ⟨(x', z) :: truth, (b, y) :: out, by simp [k1], fun ω => ?_, fun ω => ?_, h2 _ _ k4⟩
    · rw [e, k2 ω]
      rfl
    · rw [e]
      simp only [List.map_cons, List.zip_cons_cons, kalmanHistory, kalmanStep]
      rw [← hb ω, ← hy ω, show b.at ω = ⟨b.mean ω, b.cov⟩ from rfl, k3 ω]

theorem jointHistory_consistent {w : JointWrapper} {x : Fixed} {beh : Behavior} {measured series : Bool} {a : ASOH}
    (hc : EstimatesCircuit w beh x measured series a) (hs : JointlyStraight w.names a)
    {Q : Matrix (Fin (w.nTransients + w.nAsoh)) (Fin (w.nTransients + w.nAsoh)) ℝ} {R : Matrix (Fin 1) (Fin 1) ℝ}
    (hQ : Q.PosDef) (hR : R.PosDef) (ds : List (In × (Ω → Fin (w.nTransients + w.nAsoh) → ℝ) × (Ω → Fin 1 → ℝ))) :
    ∀ (prev : In) (past : List (Ω → Fin 1 → ℝ)) (s μ : Ω → Fin (w.nTransients + w.nAsoh) → ℝ)
      (P : Matrix (Fin (w.nTransients + w.nAsoh)) (Fin (w.nTransients + w.nAsoh)) ℝ), P.PosDef → Before ℙ past s μ P Q R ds →
    ∃ truth out, truth.length = ds.length ∧
      (∀ ω, disturbedJoint w x beh series a.rcs.length prev (s ω) (noiseAt ds ω) = truth.map fun t => (t.1 ω, t.2 ω)) ∧
      (∀ ω, jointHistory w x beh series a.rcs.length Q R prev ⟨μ ω, P⟩
        ((ds.map (·.1)).zip ((disturbedJoint w x beh series a.rcs.length prev (s ω) (noiseAt ds ω)).map (·.2))) =
        out.map fun b => (b.1.at ω, b.2.at ω)) ∧ Consistent ℙ past truth out := by
  induction ds with
  | nil => intros; exact ⟨[], [], rfl, fun _ => rfl, fun _ => rfl, .nil⟩
  | cons d ds ih =>
    intro prev past s μ P hP hB
    obtain ⟨new, q, r⟩ := d
    obtain ⟨x', hx⟩ : ∃ x' : Ω → Fin (w.nTransients + w.nAsoh) → ℝ, x' = fun ω => jointStep w x beh series a.rcs.length prev new (s ω) + q ω := ⟨_, rfl⟩
    obtain ⟨z, hz⟩ : ∃ z : Ω → Fin 1 → ℝ, z = fun ω => jointVolt w x series a.rcs.length new (x' ω) + r ω := ⟨_, rfl⟩
    obtain ⟨b, y, hb, hy, hpd, h1, h2⟩ := hB.report hP hQ hR (slopes (jointStep w x beh series a.rcs.length prev new))
      (jointStep w x beh series a.rcs.length prev new 0) (slopes (jointVolt w x series a.rcs.length new))
      (jointVolt w x series a.rcs.length new (0 : Fin (w.nTransients + w.nAsoh) → ℝ)) (x' := x') (z := z)
      (hx.trans (funext fun ω => congrArg (· + q ω) (C133_affine hc hs prev new (s ω)).2.2.1))
      (hz.trans (funext fun ω => congrArg (· + r ω) (C133_affine hc hs prev new (x' ω)).2.2.2))
    obtain ⟨truth, out, k1, k2, k3, k4⟩ := ih new _ x' b.mean b.cov hpd h1
    have e : ∀ ω, disturbedJoint w x beh series a.rcs.length prev (s ω) (noiseAt ((new, q, r) :: ds) ω) =
        (x' ω, z ω) :: disturbedJoint w x beh series a.rcs.length new (x' ω) (noiseAt ds ω) := fun ω => by rw [hz, hx]; rfl
    refine ⟨(x', z) :: truth, (b, y) :: out, by simp [k1], fun ω => ?_, fun ω => ?_, h2 _ _ k4⟩
    · rw [e, k2 ω]
      rfl
    · rw [e]
      simp only [List.map_cons, List.zip_cons_cons, jointHistory, jointKalman]
      rw [← hb ω, ← hy ω, show b.at ω = ⟨b.mean ω, b.cov⟩ from rfl, k3 ω]

theorem before_first {ι : Type} {P Q : Matrix (Fin n) (Fin n) ℝ} {R : Matrix (Fin o) (Fin o) ℝ} {ds : List (ι × (Ω → Fin n → ℝ) × (Ω → Fin o → ℝ))}
    {μ : Fin n → ℝ} {x : Ω → Fin n → ℝ} (h : White ℙ (fun ω => μ - x ω) P Q R ds) : Before ℙ [] x (fun _ => μ) P Q R ds :=
  ⟨h, ⟨μ, fun _ => rfl⟩, by simp, by simp, by simp⟩

/-- C144 for every affine model, on any probability space: the first state, the noise of the states and that of the measurements are as the
covariances given to the filter say. -/
theorem C144_affine {σ : Type} {f : Ukf σ} {μ : Fin n → ℝ} {P Q : Matrix (Fin n) (Fin n) ℝ} {R : Matrix (Fin o) (Fin o) ℝ}
    (A : AffineModel f.model n o) (h : f.Holds n o μ P Q R) (hP : P.PosDef) (hQ : Q.PosDef) (hR : R.PosDef) (ho : 1 ≤ o) (svd : Mat → Vec × Mat)
    (x : Ω → Fin n → ℝ) (ds : List (Vec × (Ω → Fin n → ℝ) × (Ω → Fin o → ℝ))) (hw : White ℙ (fun ω => μ - x ω) P Q R ds)
    (hist : Ω → List (Dist × Dist)) (hm : ∀ ω, HasMeans (hist ω)
      ((ds.map (·.1)).zip ((disturbedRun A f.mem f.controls.mean (x ω) (noiseAt ds ω)).map (·.2)))) :
    ∃ truth out, truth.length = ds.length ∧
      (∀ ω, disturbedRun A f.mem f.controls.mean (x ω) (noiseAt ds ω) = truth.map fun t => (t.1 ω, t.2 ω)) ∧
      (∀ ω, ∃ f', f.run svd (hist ω) = .ok (f', out.map fun b => ((b.1.at ω).gaussian, (b.2.at ω).gaussian))) ∧ Consistent ℙ [] truth out := by
  obtain ⟨truth, out, k1, k2, k3, k4⟩ := kalmanRun_consistent A hQ hR ds f.mem f.controls.mean [] x (fun _ => μ) P hP (before_first hw)
  refine ⟨truth, out, k1, k2, fun ω => ?_, k4⟩
  obtain ⟨f', h'⟩ := Ukf.C50_history A h hP hQ hR ho svd (hist ω) _ (hm ω)
  refine ⟨f', h'.trans ?_⟩
  rw [k3 ω, List.map_map]
  rfl

omit [IsProbabilityMeasure ℙ] in
theorem Spec.White.map {ι κ : Type} {e : Ω → Fin n → ℝ} {P Q : Matrix (Fin n) (Fin n) ℝ} {R : Matrix (Fin o) (Fin o) ℝ} (g : ι → κ)
    {ds : List (ι × (Ω → Fin n → ℝ) × (Ω → Fin o → ℝ))} (h : White ℙ e P Q R ds) : White ℙ e P Q R (ds.map fun d => (g d.1, d.2)) := by
  have key : ∀ d ∈ ds.map fun d => (g d.1, d.2), ∃ d' ∈ ds, d.2 = d'.2 := fun d hd => by
    obtain ⟨d', h1, rfl⟩ := List.mem_map.1 hd
    exact ⟨d', h1, rfl⟩
  refine ⟨h.first, fun d hd => ?_, fun d hd => ?_, fun d hd => ?_, List.pairwise_map.2 h.times⟩
  · obtain ⟨d', h1, h2⟩ := key d hd
    rw [h2]; exact h.state d' h1
  · obtain ⟨d', h1, h2⟩ := key d hd
    rw [h2]; exact h.sensor d' h1
  · obtain ⟨d', h1, h2⟩ := key d hd
    rw [h2]; exact h.apart d' h1

omit [IsProbabilityMeasure ℙ] [MeasurableSpace Ω] in
theorem zip_inputs {k : Nat} (g : (Fin k → ℝ) → In) {ds : List ((Fin k → ℝ) × (Ω → Fin n → ℝ) × (Ω → Fin o → ℝ))}
    (truth : List ((Fin n → ℝ) × (Fin 1 → ℝ))) :
    (((ds.map (·.1)).zip (truth.map Prod.snd)).map fun z => (g z.1, z.2)) = ((ds.map fun d => (g d.1, d.2)).map (·.1)).zip (truth.map (·.2)) := by
  have e' : (ds.map fun d => (g d.1, d.2)).map (·.1) = (ds.map Prod.fst).map g := by simp
  rw [e']
  generalize ds.map Prod.fst = l
  rw [List.zip_map_left]
  rfl

omit [IsProbabilityMeasure ℙ] [MeasurableSpace Ω] in
theorem noiseAt_map {ι κ : Type} (g : ι → κ) (ds : List (ι × (Ω → Fin n → ℝ) × (Ω → Fin o → ℝ))) (ω : Ω) :
    (noiseAt ds ω).map (fun d => (g d.1, d.2)) = noiseAt (ds.map fun d => (g d.1, d.2)) ω := by
  simp [noiseAt]

/-- C144 for the filter of the transient states of a circuit with straight curves. -/
theorem C144_circuit {beh : Behavior} {x : Fixed} {measured series : Bool} {a : ASOH} {w : CellWrapper}
    (hw : TracksCircuit w beh x measured series a.rcs.length) (he : Estimable [] measured series a)
    (hp : Straight (parAt a 0)) {Q : Matrix (Fin w.nTransients) (Fin w.nTransients) ℝ} {R : Matrix (Fin 1) (Fin 1) ℝ}
    (hQ : Q.PosDef) (hR : R.PosDef) (svd : Mat → Vec × Mat) {f : Ukf (HV ℝ)} (hf : f.model = w.plain.toWrapper)
    (hm : HoldsCircuit x f.mem a) {μ : Fin w.nTransients → ℝ} {P : Matrix (Fin w.nTransients) (Fin w.nTransients) ℝ}
    (h : f.Holds w.nTransients 1 μ P Q R) (hP : P.PosDef) {u : Fin (2 + (if measured then 1 else 0)) → ℝ} (hu : f.controls.mean = ⟨_, u⟩)
    (ds : List ((Fin (2 + (if measured then 1 else 0)) → ℝ) × (Ω → Fin w.nTransients → ℝ) × (Ω → Fin 1 → ℝ)))
    (hmoves : beh = .linear → ((u :: ds.map (·.1)).map fun u => (In.ofVec measured (List.ofFn u)).time).IsChain (· ≠ ·))
    (y : Ω → Fin w.nTransients → ℝ) (hwhite : White ℙ (fun ω => μ - y ω) P Q R ds) (hist : Ω → List (Dist × Dist)) :
    let truthAt ω := disturbedCell beh (parAt a 0) series (In.ofVec measured (List.ofFn u)) (y ω)
      ((noiseAt ds ω).map fun d => (In.ofVec measured (List.ofFn d.1), d.2))
    (∀ ω, Measures (hist ω) (ds.map (·.1)) (truthAt ω)) →
    ∃ truth out, truth.length = ds.length ∧ (∀ ω, truthAt ω = truth.map fun t => (t.1 ω, t.2 ω)) ∧
      (∀ ω, ∃ f', f.run svd (hist ω) = .ok (f', out.map fun b => ((b.1.at ω).gaussian, (b.2.at ω).gaussian))) ∧ Consistent ℙ [] truth out := by
  intro truthAt hhist
  have hN : w.nTransients = 1 + (if series then 1 else 0) + (parAt a 0).rcs.length + 1 := by
    rw [show (parAt a 0).rcs.length = a.rcs.length by simp [parAt]]; exact tracks_width hw
  obtain ⟨truth, out, k1, k2, k3, k4⟩ := kalmanHistory_consistent (beh := beh) (series := series) hp hN hQ hR
    (ds.map fun d => (In.ofVec measured (List.ofFn d.1), d.2)) (In.ofVec measured (List.ofFn u)) [] y (fun _ => μ) P hP
    (before_first (hwhite.map fun u => In.ofVec measured (List.ofFn u)))
  simp only [← noiseAt_map (fun u : Fin (2 + (if measured then 1 else 0)) → ℝ => In.ofVec measured (List.ofFn u))] at k2 k3
  rw [List.length_map] at k1
  refine ⟨truth, out, k1, k2, fun ω => ?_, k4⟩
  have hl : (truthAt ω).length = ds.length := by rw [show truthAt ω = _ from k2 ω, List.length_map, k1]
  obtain ⟨f', h'⟩ := C112_history hw hf hm he hp h hP hQ hR svd hu (hist ω) ((ds.map Prod.fst).zip ((truthAt ω).map Prod.snd)) (hhist ω) fun hb => by
    have e : (((ds.map Prod.fst).zip ((truthAt ω).map Prod.snd)).map fun z => (In.ofVec measured (List.ofFn z.1)).time) =
        (ds.map Prod.fst).map fun u => (In.ofVec measured (List.ofFn u)).time := by
      conv_rhs => rw [← List.map_fst_zip (l₁ := ds.map Prod.fst) (l₂ := (truthAt ω).map Prod.snd) (by simp [hl]), List.map_map]
      rfl
    rw [e]
    exact hmoves hb
  refine ⟨f', h'.trans ?_⟩
  rw [zip_inputs (fun u : Fin (2 + (if measured then 1 else 0)) → ℝ => In.ofVec measured (List.ofFn u)), k3 ω, List.map_map]
  rfl

/-- C144 for the filter of a joint estimator of a circuit's states, resistances and voltages: the true parameters may be random and drift. -/
theorem C144_joint {w : JointWrapper} {x : Fixed} {beh : Behavior} {measured series : Bool} {a : ASOH}
    (hc : EstimatesCircuit w beh x measured series a) (he : Estimable w.names measured series a) (hs : JointlyStraight w.names a)
    {P Q : Matrix (Fin (w.nTransients + w.nAsoh)) (Fin (w.nTransients + w.nAsoh)) ℝ} {R : Matrix (Fin 1) (Fin 1) ℝ}
    (hP : P.PosDef) (hQ : Q.PosDef) (hR : R.PosDef) (svd : Mat → Vec × Mat) {f : Ukf Unit} (hf : f.model = w.plain.toWrapper)
    {μ : Fin (w.nTransients + w.nAsoh) → ℝ} (h : f.Holds (w.nTransients + w.nAsoh) 1 μ P Q R)
    {u : Fin (2 + (if measured then 1 else 0)) → ℝ} (hu : f.controls.mean = ⟨_, u⟩)
    (ds : List ((Fin (2 + (if measured then 1 else 0)) → ℝ) × (Ω → Fin (w.nTransients + w.nAsoh) → ℝ) × (Ω → Fin 1 → ℝ)))
    (hmoves : beh = .linear → ((u :: ds.map (·.1)).map fun u => (In.ofVec measured (List.ofFn u)).time).IsChain (· ≠ ·))
    (y : Ω → Fin (w.nTransients + w.nAsoh) → ℝ) (hwhite : White ℙ (fun ω => μ - y ω) P Q R ds) (hist : Ω → List (Dist × Dist)) :
    let truthAt ω := disturbedJoint w x beh series a.rcs.length (In.ofVec measured (List.ofFn u)) (y ω)
      ((noiseAt ds ω).map fun d => (In.ofVec measured (List.ofFn d.1), d.2))
    (∀ ω, Measures (hist ω) (ds.map (·.1)) (truthAt ω)) →
    ∃ truth out, truth.length = ds.length ∧ (∀ ω, truthAt ω = truth.map fun t => (t.1 ω, t.2 ω)) ∧
      (∀ ω, ∃ f', f.run svd (hist ω) = .ok (f', out.map fun b => ((b.1.at ω).gaussian, (b.2.at ω).gaussian))) ∧ Consistent ℙ [] truth out := by
  intro truthAt hhist
  obtain ⟨truth, out, k1, k2, k3, k4⟩ := jointHistory_consistent hc hs hQ hR
    (ds.map fun d => (In.ofVec measured (List.ofFn d.1), d.2)) (In.ofVec measured (List.ofFn u)) [] y (fun _ => μ) P hP
    (before_first (hwhite.map fun u => In.ofVec measured (List.ofFn u)))
  simp only [← noiseAt_map (fun u : Fin (2 + (if measured then 1 else 0)) → ℝ => In.ofVec measured (List.ofFn u))] at k2 k3
  rw [List.length_map] at k1
  refine ⟨truth, out, k1, k2, fun ω => ?_, k4⟩
  have hl : (truthAt ω).length = ds.length := by rw [show truthAt ω = _ from k2 ω, List.length_map, k1]
  obtain ⟨f', h'⟩ := C133_history hc he hs hQ hR svd (hist ω) ((ds.map Prod.fst).zip ((truthAt ω).map Prod.snd)) f u ⟨μ, P⟩ hf h hP hu (hhist ω) fun hb => by
    have e : (((ds.map Prod.fst).zip ((truthAt ω).map Prod.snd)).map fun z => (In.ofVec measured (List.ofFn z.1)).time) =
        (ds.map Prod.fst).map fun u => (In.ofVec measured (List.ofFn u)).time := by
      conv_rhs => rw [← List.map_fst_zip (l₁ := ds.map Prod.fst) (l₂ := (truthAt ω).map Prod.snd) (by simp [hl]), List.map_map]
      rfl
    rw [e]
    exact hmoves hb
  refine ⟨f', h'.trans ?_⟩
  rw [zip_inputs (fun u : Fin (2 + (if measured then 1 else 0)) → ℝ => In.ofVec measured (List.ofFn u)), k3 ω, List.map_map]
  rfl

/-- What runs of the filter are, for an estimator that computes the estimates of the filter from containers. -/
theorem consistent_runs {w : JointWrapper} {x : Fixed} {beh : Behavior} {measured series : Bool} {a : ASOH} {N : Nat} (hN : w.nTransients + w.nAsoh = N)
    (hc : EstimatesCircuit w beh x measured series a) (hs : JointlyStraight w.names a)
    {P Q : Matrix (Fin N) (Fin N) ℝ} {R : Matrix (Fin 1) (Fin 1) ℝ} (hP : P.PosDef) (hQ : Q.PosDef) (hR : R.PosDef) {E : Joint} {svd : Mat → Vec × Mat}
    {u : Fin (2 + (if measured then 1 else 0)) → ℝ} {μ : Fin N → ℝ}
    (hrun : ∀ (hist : List (Container ℝ × Container ℝ)) (zs : List ((Fin (2 + (if measured then 1 else 0)) → ℝ) × (Fin 1 → ℝ))),
        List.Forall₂ (fun m h => (∃ v, m.1.toNumpy = .ok v ∧ v.flat = ⟨_, h.1⟩) ∧ ∃ y, m.2.toNumpy = .ok y ∧ y.flat = ⟨1, h.2⟩) hist zs →
        (beh = .linear → ((In.ofVec measured (List.ofFn u)).time :: zs.map fun z => (In.ofVec measured (List.ofFn z.1)).time).IsChain (· ≠ ·)) →
        ∃ fin, E.run svd hist = .ok (fin, (jointHistory w x beh series a.rcs.length Q R (In.ofVec measured (List.ofFn u)) ⟨μ, P⟩
          (zs.map fun h => (In.ofVec measured (List.ofFn h.1), h.2))).map fun r => (r.1.gaussian, r.2.gaussian)))
    (ds : List ((Fin (2 + (if measured then 1 else 0)) → ℝ) × (Ω → Fin N → ℝ) × (Ω → Fin 1 → ℝ)))
    (hmoves : beh = .linear → ((u :: ds.map (·.1)).map fun u => (In.ofVec measured (List.ofFn u)).time).IsChain (· ≠ ·))
    (y : Ω → Fin N → ℝ) (hwhite : White ℙ (fun ω => μ - y ω) P Q R ds) (hist : Ω → List (Container ℝ × Container ℝ)) :
    let truthAt ω := disturbedJoint w x beh series a.rcs.length (In.ofVec measured (List.ofFn u)) (y ω)
      ((noiseAt ds ω).map fun d => (In.ofVec measured (List.ofFn d.1), d.2))
    (∀ ω, List.Forall₂ (fun m h => (∃ v, m.1.toNumpy = .ok v ∧ v.flat = ⟨_, h.1⟩) ∧ ∃ y, m.2.toNumpy = .ok y ∧ y.flat = ⟨1, h.2⟩) (hist ω)
      ((ds.map (·.1)).zip ((truthAt ω).map (·.2)))) →
    ∃ truth out, truth.length = ds.length ∧ (∀ ω, truthAt ω = truth.map fun t => (t.1 ω, t.2 ω)) ∧
      (∀ ω, ∃ fin, E.run svd (hist ω) = .ok (fin, out.map fun b => ((b.1.at ω).gaussian, (b.2.at ω).gaussian))) ∧ Consistent ℙ [] truth out := by
  subst hN
  intro truthAt hhist
  obtain ⟨truth, out, k1, k2, k3, k4⟩ := jointHistory_consistent hc hs hQ hR
    (ds.map fun d => (In.ofVec measured (List.ofFn d.1), d.2)) (In.ofVec measured (List.ofFn u)) [] y (fun _ => μ) P hP
    (before_first (hwhite.map fun u => In.ofVec measured (List.ofFn u)))
  simp only [← noiseAt_map (fun u : Fin (2 + (if measured then 1 else 0)) → ℝ => In.ofVec measured (List.ofFn u))] at k2 k3
  rw [List.length_map] at k1
  refine ⟨truth, out, k1, k2, fun ω => ?_, k4⟩
  have hl : (truthAt ω).length = ds.length := by rw [show truthAt ω = _ from k2 ω, List.length_map, k1]
  obtain ⟨fin, h'⟩ := hrun (hist ω) _ (hhist ω) fun hb => by
    have e : (((ds.map Prod.fst).zip ((truthAt ω).map Prod.snd)).map fun z => (In.ofVec measured (List.ofFn z.1)).time) =
        (ds.map Prod.fst).map fun u => (In.ofVec measured (List.ofFn u)).time := by
      conv_rhs => rw [← List.map_fst_zip (l₁ := ds.map Prod.fst) (l₂ := (truthAt ω).map Prod.snd) (by simp [hl]), List.map_map]
      rfl
    rw [e]
    exact hmoves hb
  refine ⟨fin, h'.trans ?_⟩
  rw [zip_inputs (fun u : Fin (2 + (if measured then 1 else 0)) → ℝ => In.ofVec measured (List.ofFn u)), k3 ω, List.map_map]
  rfl

/-- C144, joint estimators: what `from_wrapper` builds with matrices `P`, `Q` and `R` reports the covariances of its errors for every cell that starts and
goes on as these say, and estimates it at least as well as any linear function of the measurements does. -/
theorem C144_estimator {w : JointWrapper} {x : Fixed} {beh : Behavior} {measured series : Bool} {a : ASOH}
    (hc : EstimatesCircuit w beh x measured series a) (he : Estimable w.names measured series a) (hs : JointlyStraight w.names a)
    (hid : w.plain = w) (ht : w.transients.Single) (hi : w.inputs.Single) (ho : w.nOut = 1)
    {P Q : Matrix (Fin (w.nTransients + w.nAsoh)) (Fin (w.nTransients + w.nAsoh)) ℝ} {R : Matrix (Fin 1) (Fin 1) ℝ}
    (hP : P.PosDef) (hQ : Q.PosDef) (hR : R.PosDef) (tune : Tuning) (ha : 1 / 1000 ≤ tune.alpha ∧ tune.alpha ≤ 1) (hb : 0 ≤ tune.beta)
    (hk : ∀ k, tune.kappa = some k → -((2 * (w.nTransients + w.nAsoh) + 1 : Nat) : ℝ) < k) :
    ∃ (E : Joint) (u : Fin (2 + (if measured then 1 else 0)) → ℝ) (μ : Fin (w.nTransients + w.nAsoh) → ℝ) (U T A : Arr2 ℝ),
      Joint.fromWrapper w (.inl ⟨_, _, P⟩) none (some ⟨_, _, Q⟩) none none (some ⟨1, 1, R⟩) tune = .ok E ∧
      (w.inputs.toNumpy = .ok U ∧ U.flat = ⟨_, u⟩) ∧
      (w.transients.toNumpy = .ok T ∧ w.asoh.getParameters (some w.names) = .ok A ∧ T.flat.append A.flat = ⟨_, μ⟩) ∧
      ∀ (svd : Mat → Vec × Mat) (Ω : Type) [MeasurableSpace Ω] (ℙ : Measure Ω) [IsProbabilityMeasure ℙ]
        (ds : List ((Fin (2 + (if measured then 1 else 0)) → ℝ) × (Ω → Fin (w.nTransients + w.nAsoh) → ℝ) × (Ω → Fin 1 → ℝ))),
        (beh = .linear → ((u :: ds.map (·.1)).map fun u => (In.ofVec measured (List.ofFn u)).time).IsChain (· ≠ ·)) →
        ∀ (y : Ω → Fin (w.nTransients + w.nAsoh) → ℝ), White ℙ (fun ω => μ - y ω) P Q R ds → ∀ (hist : Ω → List (Container ℝ × Container ℝ)),
        let truthAt ω := disturbedJoint w x beh series a.rcs.length (In.ofVec measured (List.ofFn u)) (y ω)
          ((noiseAt ds ω).map fun d => (In.ofVec measured (List.ofFn d.1), d.2))
        (∀ ω, List.Forall₂ (fun m h => (∃ v, m.1.toNumpy = .ok v ∧ v.flat = ⟨_, h.1⟩) ∧ ∃ y, m.2.toNumpy = .ok y ∧ y.flat = ⟨1, h.2⟩) (hist ω)
          ((ds.map (·.1)).zip ((truthAt ω).map (·.2)))) →
        ∃ truth out, truth.length = ds.length ∧ (∀ ω, truthAt ω = truth.map fun t => (t.1 ω, t.2 ω)) ∧
          (∀ ω, ∃ fin, E.run svd (hist ω) = .ok (fin, out.map fun b => ((b.1.at ω).gaussian, (b.2.at ω).gaussian))) ∧ Consistent ℙ [] truth out := by
  obtain ⟨E, u, μ, U, T, A, hE, hU, hT, hrun⟩ := C133_runs hc he hs hid ht hi ho hP hQ hR tune ha hb hk
  exact ⟨E, u, μ, U, T, A, hE, hU, hT, fun svd Ω _ ℙ _ ds hmoves y hw hist hh =>
    consistent_runs rfl hc hs hP hQ hR (hrun svd) ds hmoves y hw hist hh⟩

/-- C144, joint estimators in any units: converters that rescale and shift what the filter sees change none of this, when the inputs are held constant. -/
theorem C144_any_units {w : JointWrapper} {x : Fixed} {measured series : Bool} {a : ASOH}
    (hc : EstimatesCircuit w .constant x measured series a) (he : Estimable w.names measured series a)
    (hs : JointlyStraight w.names a) (ht : w.transients.Single) (hi : w.inputs.Single) (ho : w.nOut = 1)
    {n : Nat} (hn : w.nTransients + w.nAsoh = n) {d b : Fin n → ℝ} {e c : Fin 1 → ℝ} (hd : ∀ i, d i ≠ 0) (he' : ∀ i, e i ≠ 0)
    (hh : w.hiddenConv.Rescales n d b) (hout : w.outputConv.Rescales 1 e c)
    (hctl : ∀ v : Vec, v.n = 2 + (if measured then 1 else 0) → ∃ v', w.controlConv.invSamples1 v = .ok v' ∧ w.controlConv.samples1 v' = .ok v)
    {P Q : Matrix (Fin n) (Fin n) ℝ} {R : Matrix (Fin 1) (Fin 1) ℝ}
    (hP : P.PosDef) (hQ : Q.PosDef) (hR : R.PosDef) {tune : Tuning} (htune : Tuned tune (2 * n + 1)) :
    ∃ (E : Joint) (u : Fin (2 + (if measured then 1 else 0)) → ℝ) (μ : Fin n → ℝ) (U T A : Arr2 ℝ),
      Joint.fromWrapper w (.inl ⟨n, n, P⟩) none (some ⟨n, n, Q⟩) none none (some ⟨1, 1, R⟩) tune = .ok E ∧
      (w.inputs.toNumpy = .ok U ∧ U.flat = ⟨_, u⟩) ∧
      (w.transients.toNumpy = .ok T ∧ w.asoh.getParameters (some w.names) = .ok A ∧ T.flat.append A.flat = ⟨n, μ⟩) ∧
      ∀ (svd : Mat → Vec × Mat) (Ω : Type) [MeasurableSpace Ω] (ℙ : Measure Ω) [IsProbabilityMeasure ℙ]
        (ds : List ((Fin (2 + (if measured then 1 else 0)) → ℝ) × (Ω → Fin n → ℝ) × (Ω → Fin 1 → ℝ)))
        (y : Ω → Fin n → ℝ), White ℙ (fun ω => μ - y ω) P Q R ds → ∀ (hist : Ω → List (Container ℝ × Container ℝ)),
        let truthAt ω := disturbedJoint w x .constant series a.rcs.length (In.ofVec measured (List.ofFn u)) (y ω)
          ((noiseAt ds ω).map fun d => (In.ofVec measured (List.ofFn d.1), d.2))
        (∀ ω, List.Forall₂ (fun m h => (∃ v, m.1.toNumpy = .ok v ∧ v.flat = ⟨_, h.1⟩) ∧ ∃ y, m.2.toNumpy = .ok y ∧ y.flat = ⟨1, h.2⟩) (hist ω)
          ((ds.map (·.1)).zip ((truthAt ω).map (·.2)))) →
        ∃ truth out, truth.length = ds.length ∧ (∀ ω, truthAt ω = truth.map fun t => (t.1 ω, t.2 ω)) ∧
          (∀ ω, ∃ fin, E.run svd (hist ω) = .ok (fin, out.map fun b => ((b.1.at ω).gaussian, (b.2.at ω).gaussian))) ∧ Consistent ℙ [] truth out := by
  obtain ⟨E, u, μ, U, T, A, hE, hU, hT, hrun⟩ := C133_any_units hc he hs ht hi ho hn hd he' hh hout hctl hP hQ hR htune
  exact ⟨E, u, μ, U, T, A, hE, hU, hT, fun svd Ω _ ℙ _ ds y hw hist hh =>
    consistent_runs hn hc hs hP hQ hR (fun hist zs h _ => hrun svd hist zs h) ds nofun y hw hist hh⟩

/-- C144: the mean of the squared error in units of the reported covariance is the number of the estimated numbers. -/
theorem C144_misfit {ys : List (Ω → Fin o → ℝ)} {x : Ω → Fin n → ℝ} {b : Reported Ω n} (h : Best ℙ ys x b) :
    ∫ ω, misfit (b.mean ω - x ω) b.cov ∂ℙ = n := by
  have hb := h.definite
  have hi : ∀ i j, Integrable (fun ω => (b.cov⁻¹ i j) * ((b.mean ω i - x ω i) * (b.mean ω j - x ω j))) ℙ := fun i j =>
    (Sq.mul h.error.square h.error.square i j).const_mul _
  have e : ∀ ω, misfit (b.mean ω - x ω) b.cov = ∑ i, ∑ j, (b.cov⁻¹ i j) * ((b.mean ω i - x ω i) * (b.mean ω j - x ω j)) := fun ω => by
    simp only [misfit, dotProduct, Matrix.mulVec, Finset.mul_sum, Pi.sub_apply]
    exact Finset.sum_congr rfl fun i _ => Finset.sum_congr rfl fun j _ => by ring
  simp only [e]
  rw [integral_finset_sum _ fun i _ => integrable_finset_sum _ fun j _ => hi i j]
  have : ∀ i, ∫ ω, ∑ j, (b.cov⁻¹ i j) * ((b.mean ω i - x ω i) * (b.mean ω j - x ω j)) ∂ℙ = 1 := fun i => by
    rw [integral_finset_sum _ fun j _ => hi i j]
    simp only [integral_const_mul]
    have k : ∀ j, ∫ ω, (b.mean ω i - x ω i) * (b.mean ω j - x ω j) ∂ℙ = b.cov j i := fun j => by
      rw [(posDef_isSymm hb).apply i j]; exact h.error.cov i j
    simp only [k]
    have := congrFun (congrFun (nonsing_inv_mul _ (isUnit_iff_ne_zero.2 hb.det_pos.ne')) i) i
    rwa [Matrix.mul_apply, Matrix.one_apply_eq] at this
  simp [this]

theorem Spec.Consistent.square {truth : List ((Ω → Fin n → ℝ) × (Ω → Fin o → ℝ))} {out : List (Reported Ω n × Reported Ω o)} (h : Consistent ℙ [] truth out) :
    ∀ k, ∀ y ∈ (truth.take k).map (·.2), Sq ℙ y := by
  intro k
  induction k with
  | zero => simp
  | succ k ih =>
    by_cases hk : k < truth.length
    · rw [List.take_succ_eq_append_getElem hk, List.map_append]
      intro y hy
      rcases List.mem_append.1 hy with hy | hy
      · exact ih y hy
      · obtain rfl := List.mem_singleton.1 hy
        have hk' : k < out.length := by rw [h.1]; exact hk
        obtain ⟨-, h2, -⟩ := h.2 k _ _ (List.getElem?_eq_getElem hk) (List.getElem?_eq_getElem hk')
        have := (h2.linear.sq ih).sub (spread_iff.1 h2.error).1
        simpa using this
    · rw [List.take_of_length_le (by omega)]
      rwa [List.take_of_length_le (by omega)] at ih

/-- C144: the errors of the predictions of different steps are uncorrelated. -/
theorem C144_predictions {truth : List ((Ω → Fin n → ℝ) × (Ω → Fin o → ℝ))} {out : List (Reported Ω n × Reported Ω o)} (h : Consistent ℙ [] truth out)
    {j k : Nat} (hjk : j < k) {t t' b b'} (h1 : truth[j]? = some t) (h2 : truth[k]? = some t')
    (h3 : out[j]? = some b) (h4 : out[k]? = some b') :
    Uncorrelated ℙ (fun ω => b'.2.mean ω - t'.2 ω) (fun ω => b.2.mean ω - t.2 ω) := by
  obtain ⟨-, k2, -⟩ := h.2 j t b h1 h3
  obtain ⟨-, m2, m3⟩ := h.2 k t' b' h2 h4
  simp only [List.nil_append] at k2 m2 m3
  have hsub : (truth.take k).map (·.2) = (truth.take j).map (·.2) ++ t.2 :: ((truth.take k).drop (j + 1)).map (·.2) := by
    have hlen : j < (truth.take k).length := by
      have := (List.getElem?_eq_some_iff.1 h1).1
      have := (List.getElem?_eq_some_iff.1 h2).1
      rw [List.length_take]
      omega
    have e := List.take_append_drop j (truth.take k)
    rw [List.take_take, Nat.min_eq_left hjk.le, List.drop_eq_getElem_cons hlen] at e
    have e2 : (truth.take k)[j] = t := by
      have := (List.getElem?_eq_some_iff.1 h1).2
      simpa using this
    rw [e2] at e
    conv_lhs => rw [← e]
    simp
  obtain ⟨s1, s2, -⟩ := spread_iff.1 m2.error
  have hl : MadeFrom ((truth.take k).map (·.2)) b.2.mean := by rw [hsub]; exact k2.linear.append _
  have hl' : MadeFrom ((truth.take k).map (·.2)) t.2 := by
    rw [hsub, List.append_cons]
    exact (Spec.MadeFrom.last _ t.2).append _
  rw [unc_iff]
  exact (hl.sub hl').cross (h.square k) s1 s2 fun y hy => unc_iff.1 (m3 y hy)

end

end Verif
