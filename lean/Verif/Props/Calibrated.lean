import Verif.Props.Statistics
import Verif.Proofs.Calibrated
/-!
# C146: with normal noise the deviations are normal with the reported covariances, whatever has been measured
-/

namespace Verif
open Ecm Cell Matrix Spec MeasureTheory
open ProbabilityTheory (gaussianReal IndepFun gaussianReal_map_const_mul)

variable {Ω : Type} [MeasurableSpace Ω] {ℙ : Measure Ω} {n o : Nat} {S : Set (Ω → ℝ)}

/-- The states and measurements of a system with linear equations are sums of multiples of its random numbers, and a constant: here one step. -/
theorem aff_step {F : Matrix (Fin n) (Fin n) ℝ} {c : Fin n → ℝ} {H : Matrix (Fin o) (Fin n) ℝ} {c' : Fin o → ℝ} {x q : Ω → Fin n → ℝ} {r : Ω → Fin o → ℝ}
    (hx : Aff S x) (hq : Aff S q) (hr : Aff S r) {t : (Ω → Fin n → ℝ) × (Ω → Fin o → ℝ)} (h1 : ∀ ω, t.1 ω = F *ᵥ x ω + c + q ω)
    (h2 : ∀ ω, t.2 ω = H *ᵥ t.1 ω + c' + r ω) : Aff S t.1 ∧ Aff S t.2 := by
  have k1 : Aff S t.1 := by
    rw [show t.1 = _ from funext h1]
    exact ((hx.mulVec F).add (.const c)).add hq
  exact ⟨k1, by rw [show t.2 = _ from funext h2]; exact ((k1.mulVec H).add (.const c')).add hr⟩

section
variable [Nonempty Ω]

theorem run_aff {σ : Type} {w : Wrapper σ} (A : AffineModel w n o) (ds : List (Vec × (Ω → Fin n → ℝ) × (Ω → Fin o → ℝ))) :
    ∀ (s : σ) (u : Vec) (x : Ω → Fin n → ℝ) (truth : List ((Ω → Fin n → ℝ) × (Ω → Fin o → ℝ))),
      (∀ ω, disturbedRun A s u (x ω) (noiseAt ds ω) = truth.map fun t => (t.1 ω, t.2 ω)) → Aff S x → (∀ d ∈ ds, Aff S d.2.1 ∧ Aff S d.2.2) →
      ∀ t ∈ truth, Aff S t.1 ∧ Aff S t.2 := by
  obtain ⟨ω₀⟩ := ‹Nonempty Ω›
  induction ds with
  | nil =>
    intro s u x truth h
    obtain rfl : truth = [] := List.map_eq_nil_iff.1 (h ω₀).symm
    simp
  | cons d ds ih =>
    intro s u x truth h hx hd
    obtain ⟨u', q, r⟩ := d
    match truth, h with
    | [], h => exact nomatch h ω₀
    | t :: truth, h =>
      have h1 := fun ω => (List.cons.inj (h ω)).1
      have hq := hd _ (List.mem_cons_self ..)
      have e1 : ∀ ω, t.1 ω = A.F s u u' *ᵥ x ω + A.c s u u' + q ω := fun ω => (Prod.ext_iff.1 (h1 ω)).1.symm
      have e2 : ∀ ω, t.2 ω = A.H (A.next s u u') u' *ᵥ t.1 ω + A.d (A.next s u u') u' + r ω := fun ω => by rw [e1]; exact (Prod.ext_iff.1 (h1 ω)).2.symm
      have k := aff_step hx hq.1 hq.2 (t := t) e1 e2
      intro t' ht'
      rcases List.mem_cons.1 ht' with rfl | ht'
      · exact k
      · refine ih (A.next s u u') u' t.1 truth (fun ω => ?_) k.1 (fun d hm => hd d (List.mem_cons_of_mem _ hm)) t' ht'
        rw [e1]
        exact (List.cons.inj (h ω)).2

theorem cell_aff {beh : Behavior} {p : Par} {series : Bool} (hp : Straight p) {N : Nat}
    (hN : N = 1 + (if series then 1 else 0) + p.rcs.length + 1) (ds : List (In × (Ω → Fin N → ℝ) × (Ω → Fin 1 → ℝ))) :
    ∀ (prev : In) (x : Ω → Fin N → ℝ) (truth : List ((Ω → Fin N → ℝ) × (Ω → Fin 1 → ℝ))),
      (∀ ω, disturbedCell beh p series prev (x ω) (noiseAt ds ω) = truth.map fun t => (t.1 ω, t.2 ω)) → Aff S x → (∀ d ∈ ds, Aff S d.2.1 ∧ Aff S d.2.2) →
      ∀ t ∈ truth, Aff S t.1 ∧ Aff S t.2 := by
  obtain ⟨ω₀⟩ := ‹Nonempty Ω›
  induction ds with
  | nil =>
    intro prev x truth h
    obtain rfl : truth = [] := List.map_eq_nil_iff.1 (h ω₀).symm
    simp
  | cons d ds ih =>
    intro prev x truth h hx hd
    obtain ⟨new, q, r⟩ := d
    match truth, h with
    | [], h => exact nomatch h ω₀
    | t :: truth, h =>
      have h1 := fun ω => (List.cons.inj (h ω)).1
      have e1 : ∀ ω, t.1 ω = cellStep beh p series prev new (x ω) + q ω := fun ω => (Prod.ext_iff.1 (h1 ω)).1.symm
      have e2 : ∀ ω, t.2 ω = cellVolt p series new (t.1 ω) + r ω := fun ω => by rw [e1]; exact (Prod.ext_iff.1 (h1 ω)).2.symm
      have hq := hd _ (List.mem_cons_self ..)
      have k := aff_step hx hq.1 hq.2 (t := t)
        (fun ω => (e1 ω).trans (congrArg (· + q ω) (C112_cell_affine (beh := beh) hp hN prev new (x ω)).1))
        (fun ω => (e2 ω).trans (congrArg (· + r ω) (C112_cell_affine (beh := beh) hp hN prev new (t.1 ω)).2))
      intro t' ht'
      rcases List.mem_cons.1 ht' with rfl | ht'
      · exact k
      · refine ih new t.1 truth (fun ω => ?_) k.1 (fun d hm => hd d (List.mem_cons_of_mem _ hm)) t' ht'
        rw [e1]
        exact (List.cons.inj (h ω)).2

theorem joint_aff {w : JointWrapper} {x : Fixed} {beh : Behavior} {measured series : Bool} {a : ASOH} {N : Nat} (hN : w.nTransients + w.nAsoh = N)
    (hc : EstimatesCircuit w beh x measured series a) (hs : JointlyStraight w.names a) (ds : List (In × (Ω → Fin N → ℝ) × (Ω → Fin 1 → ℝ))) :
    ∀ (prev : In) (y : Ω → Fin N → ℝ) (truth : List ((Ω → Fin N → ℝ) × (Ω → Fin 1 → ℝ))),
      (∀ ω, disturbedJoint w x beh series a.rcs.length prev (y ω) (noiseAt ds ω) = truth.map fun t => (t.1 ω, t.2 ω)) → Aff S y →
      (∀ d ∈ ds, Aff S d.2.1 ∧ Aff S d.2.2) → ∀ t ∈ truth, Aff S t.1 ∧ Aff S t.2 := by
  obtain ⟨ω₀⟩ := ‹Nonempty Ω›
  subst hN
  induction ds with
  | nil =>
    intro prev y truth h
    obtain rfl : truth = [] := List.map_eq_nil_iff.1 (h ω₀).symm
    simp
  | cons d ds ih =>
    intro prev y truth h hx hd
    obtain ⟨new, q, r⟩ := d
    match truth, h with
    | [], h => exact nomatch h ω₀
    | t :: truth, h =>
      have h1 := fun ω => (List.cons.inj (h ω)).1
      have e1 : ∀ ω, t.1 ω = jointStep w x beh series a.rcs.length prev new (y ω) + q ω := fun ω => (Prod.ext_iff.1 (h1 ω)).1.symm
      have e2 : ∀ ω, t.2 ω = jointVolt w x series a.rcs.length new (t.1 ω) + r ω := fun ω => by rw [e1]; exact (Prod.ext_iff.1 (h1 ω)).2.symm
      have hq := hd _ (List.mem_cons_self ..)
      have k := aff_step hx hq.1 hq.2 (t := t)
        (fun ω => (e1 ω).trans (congrArg (· + q ω) (C133_affine hc hs prev new (y ω)).2.2.1))
        (fun ω => (e2 ω).trans (congrArg (· + r ω) (C133_affine hc hs prev new (t.1 ω)).2.2.2))
      intro t' ht'
      rcases List.mem_cons.1 ht' with rfl | ht'
      · exact k
      · refine ih new t.1 truth (fun ω => ?_) k.1 (fun d hm => hd d (List.mem_cons_of_mem _ hm)) t' ht'
        rw [e1]
        exact (List.cons.inj (h ω)).2

end

theorem sources_first {ι : Type} {μ : Fin n → ℝ} {y : Ω → Fin n → ℝ} {ds : List (ι × (Ω → Fin n → ℝ) × (Ω → Fin o → ℝ))} :
    Aff (sources (fun ω => μ - y ω) ds) y := by
  have : Aff (sources (fun ω => μ - y ω) ds) fun ω => μ - (μ - y ω) := (Aff.const μ).sub fun i => aff_of (.inl ⟨i, rfl⟩)
  simpa using this

theorem sources_noise {ι : Type} {e : Ω → Fin n → ℝ} {ds : List (ι × (Ω → Fin n → ℝ) × (Ω → Fin o → ℝ))} :
    ∀ d ∈ ds, Aff (sources e ds) d.2.1 ∧ Aff (sources e ds) d.2.2 := fun d hd =>
  ⟨fun i => aff_of (.inr ⟨d, hd, .inl ⟨i, rfl⟩⟩), fun i => aff_of (.inr ⟨d, hd, .inr ⟨i, rfl⟩⟩)⟩

section
variable [IsProbabilityMeasure ℙ]

/-- C146 for every affine model. -/
theorem C146_affine {σ : Type} {f : Ukf σ} {μ : Fin n → ℝ} {P Q : Matrix (Fin n) (Fin n) ℝ} {R : Matrix (Fin o) (Fin o) ℝ}
    (A : AffineModel f.model n o) (h : f.Holds n o μ P Q R) (hP : P.PosDef) (hQ : Q.PosDef) (hR : R.PosDef) (ho : 1 ≤ o) (svd : Mat → Vec × Mat)
    (x : Ω → Fin n → ℝ) (ds : List (Vec × (Ω → Fin n → ℝ) × (Ω → Fin o → ℝ))) (hw : White ℙ (fun ω => μ - x ω) P Q R ds)
    (hn : JointlyNormal ℙ (sources (fun ω => μ - x ω) ds))
    (hist : Ω → List (Dist × Dist)) (hm : ∀ ω, HasMeans (hist ω)
      ((ds.map (·.1)).zip ((disturbedRun A f.mem f.controls.mean (x ω) (noiseAt ds ω)).map (·.2)))) :
    ∃ truth out, truth.length = ds.length ∧
      (∀ ω, disturbedRun A f.mem f.controls.mean (x ω) (noiseAt ds ω) = truth.map fun t => (t.1 ω, t.2 ω)) ∧
      (∀ ω, ∃ f', f.run svd (hist ω) = .ok (f', out.map fun b => ((b.1.at ω).gaussian, (b.2.at ω).gaussian))) ∧ Calibrated ℙ truth out := by
  have := nonempty_of_isProbabilityMeasure ℙ
  obtain ⟨truth, out, k1, k2, k3, k4⟩ := C144_affine A h hP hQ hR ho svd x ds hw hist hm
  exact ⟨truth, out, k1, k2, k3, calibrated hn k4 (run_aff A ds _ _ x truth k2 sources_first sources_noise)⟩

/-- C146 for the filter of the transient states of a circuit with straight curves. -/
theorem C146_circuit {beh : Behavior} {x : Fixed} {measured series : Bool} {a : ASOH} {w : CellWrapper}
    (hw : TracksCircuit w beh x measured series a.rcs.length) (he : Estimable [] measured series a)
    (hp : Straight (parAt a 0)) {Q : Matrix (Fin w.nTransients) (Fin w.nTransients) ℝ} {R : Matrix (Fin 1) (Fin 1) ℝ}
    (hQ : Q.PosDef) (hR : R.PosDef) (svd : Mat → Vec × Mat) {f : Ukf (HV ℝ)} (hf : f.model = w.plain.toWrapper)
    (hm : HoldsCircuit x f.mem a) {μ : Fin w.nTransients → ℝ} {P : Matrix (Fin w.nTransients) (Fin w.nTransients) ℝ}
    (h : f.Holds w.nTransients 1 μ P Q R) (hP : P.PosDef) {u : Fin (2 + (if measured then 1 else 0)) → ℝ} (hu : f.controls.mean = ⟨_, u⟩)
    (ds : List ((Fin (2 + (if measured then 1 else 0)) → ℝ) × (Ω → Fin w.nTransients → ℝ) × (Ω → Fin 1 → ℝ)))
    (hmoves : beh = .linear → ((u :: ds.map (·.1)).map fun u => (In.ofVec measured (List.ofFn u)).time).IsChain (· ≠ ·))
    (y : Ω → Fin w.nTransients → ℝ) (hwhite : White ℙ (fun ω => μ - y ω) P Q R ds)
    (hn : JointlyNormal ℙ (sources (fun ω => μ - y ω) ds)) (hist : Ω → List (Dist × Dist)) :
    let truthAt ω := disturbedCell beh (parAt a 0) series (In.ofVec measured (List.ofFn u)) (y ω)
      ((noiseAt ds ω).map fun d => (In.ofVec measured (List.ofFn d.1), d.2))
    (∀ ω, Measures (hist ω) (ds.map (·.1)) (truthAt ω)) →
    ∃ truth out, truth.length = ds.length ∧ (∀ ω, truthAt ω = truth.map fun t => (t.1 ω, t.2 ω)) ∧
      (∀ ω, ∃ f', f.run svd (hist ω) = .ok (f', out.map fun b => ((b.1.at ω).gaussian, (b.2.at ω).gaussian))) ∧ Calibrated ℙ truth out := by
  intro truthAt hhist
  have := nonempty_of_isProbabilityMeasure ℙ
  obtain ⟨truth, out, k1, k2, k3, k4⟩ := C144_circuit hw he hp hQ hR svd hf hm h hP hu ds hmoves y hwhite hist hhist
  have hN : w.nTransients = 1 + (if series then 1 else 0) + (parAt a 0).rcs.length + 1 := by
    rw [show (parAt a 0).rcs.length = a.rcs.length by simp [parAt]]; exact tracks_width hw
  refine ⟨truth, out, k1, k2, k3, calibrated hn k4 (cell_aff (beh := beh) (series := series) hp hN
    (ds.map fun d => (In.ofVec measured (List.ofFn d.1), d.2)) (In.ofVec measured (List.ofFn u)) y truth (fun ω => ?_) sources_first fun d hd => ?_)⟩
  · rw [← noiseAt_map (fun u : Fin (2 + (if measured then 1 else 0)) → ℝ => In.ofVec measured (List.ofFn u))]
    exact k2 ω
  · obtain ⟨d', hd', rfl⟩ := List.mem_map.1 hd
    exact sources_noise d' hd'

/-- C146 for the filter of a joint estimator of a circuit's states, resistances and voltages. -/
theorem C146_joint {w : JointWrapper} {x : Fixed} {beh : Behavior} {measured series : Bool} {a : ASOH}
    (hc : EstimatesCircuit w beh x measured series a) (he : Estimable w.names measured series a) (hs : JointlyStraight w.names a)
    {P Q : Matrix (Fin (w.nTransients + w.nAsoh)) (Fin (w.nTransients + w.nAsoh)) ℝ} {R : Matrix (Fin 1) (Fin 1) ℝ}
    (hP : P.PosDef) (hQ : Q.PosDef) (hR : R.PosDef) (svd : Mat → Vec × Mat) {f : Ukf Unit} (hf : f.model = w.plain.toWrapper)
    {μ : Fin (w.nTransients + w.nAsoh) → ℝ} (h : f.Holds (w.nTransients + w.nAsoh) 1 μ P Q R)
    {u : Fin (2 + (if measured then 1 else 0)) → ℝ} (hu : f.controls.mean = ⟨_, u⟩)
    (ds : List ((Fin (2 + (if measured then 1 else 0)) → ℝ) × (Ω → Fin (w.nTransients + w.nAsoh) → ℝ) × (Ω → Fin 1 → ℝ)))
    (hmoves : beh = .linear → ((u :: ds.map (·.1)).map fun u => (In.ofVec measured (List.ofFn u)).time).IsChain (· ≠ ·))
    (y : Ω → Fin (w.nTransients + w.nAsoh) → ℝ) (hwhite : White ℙ (fun ω => μ - y ω) P Q R ds)
    (hn : JointlyNormal ℙ (sources (fun ω => μ - y ω) ds)) (hist : Ω → List (Dist × Dist)) :
    let truthAt ω := disturbedJoint w x beh series a.rcs.length (In.ofVec measured (List.ofFn u)) (y ω)
      ((noiseAt ds ω).map fun d => (In.ofVec measured (List.ofFn d.1), d.2))
    (∀ ω, Measures (hist ω) (ds.map (·.1)) (truthAt ω)) →
    ∃ truth out, truth.length = ds.length ∧ (∀ ω, truthAt ω = truth.map fun t => (t.1 ω, t.2 ω)) ∧
      (∀ ω, ∃ f', f.run svd (hist ω) = .ok (f', out.map fun b => ((b.1.at ω).gaussian, (b.2.at ω).gaussian))) ∧ Calibrated ℙ truth out := by
  intro truthAt hhist
  have := nonempty_of_isProbabilityMeasure ℙ
  obtain ⟨truth, out, k1, k2, k3, k4⟩ := C144_joint hc he hs hP hQ hR svd hf h hu ds hmoves y hwhite hist hhist
  refine ⟨truth, out, k1, k2, k3, calibrated hn k4 (joint_aff rfl hc hs
    (ds.map fun d => (In.ofVec measured (List.ofFn d.1), d.2)) (In.ofVec measured (List.ofFn u)) y truth (fun ω => ?_) sources_first fun d hd => ?_)⟩
  · rw [← noiseAt_map (fun u : Fin (2 + (if measured then 1 else 0)) → ℝ => In.ofVec measured (List.ofFn u))]
    exact k2 ω
  · obtain ⟨d', hd', rfl⟩ := List.mem_map.1 hd
    exact sources_noise d' hd'

/-- C146, joint estimators: of what `from_wrapper` builds with matrices `P`, `Q` and `R`. -/
theorem C146_estimator {w : JointWrapper} {x : Fixed} {beh : Behavior} {measured series : Bool} {a : ASOH}
    (hc : EstimatesCircuit w beh x measured series a) (he : Estimable w.names measured series a) (hs : JointlyStraight w.names a)
    (hid : w.plain = w) (ht : w.transients.Single) (hi : w.inputs.Single) (ho : w.nOut = 1)
    {P Q : Matrix (Fin (w.nTransients + w.nAsoh)) (Fin (w.nTransients + w.nAsoh)) ℝ} {R : Matrix (Fin 1) (Fin 1) ℝ}
    (hP : P.PosDef) (hQ : Q.PosDef) (hR : R.PosDef) (tune : Tuning) (ha : 1 / 1000 ≤ tune.alpha ∧ tune.alpha ≤ 1) (hb : 0 ≤ tune.beta)
    (hk : ∀ k, tune.kappa = some k → -((2 * (w.nTransients + w.nAsoh) + 1 : Nat) : ℝ) < k) :
    ∃ (E : Joint) (u : Fin (2 + (if measured then 1 else 0)) → ℝ) (μ : Fin (w.nTransients + w.nAsoh) → ℝ) (U T A : Arr2 ℝ),
      Joint.fromWrapper w (.inl ⟨_, _, P⟩) none (some ⟨_, _, Q⟩) none none (some ⟨1, 1, R⟩) tune = .ok E ∧
      (w.inputs.toNumpy = .ok U ∧ U.flat = ⟨_, u⟩) ∧
      (w.transients.toNumpy = .ok T ∧ w.asoh.getParameters (some w.names) = .ok A ∧ T.flat.append A.flat = ⟨_, μ⟩) ∧
      ∀ (svd : Mat → Vec × Mat) (Ω : Type) [MeasurableSpace Ω] (ℙ : Measure Ω) [IsProbabilityMeasure ℙ]
        (ds : List ((Fin (2 + (if measured then 1 else 0)) → ℝ) × (Ω → Fin (w.nTransients + w.nAsoh) → ℝ) × (Ω → Fin 1 → ℝ))),
        (beh = .linear → ((u :: ds.map (·.1)).map fun u => (In.ofVec measured (List.ofFn u)).time).IsChain (· ≠ ·)) →
        ∀ (y : Ω → Fin (w.nTransients + w.nAsoh) → ℝ), White ℙ (fun ω => μ - y ω) P Q R ds → JointlyNormal ℙ (sources (fun ω => μ - y ω) ds) →
        ∀ (hist : Ω → List (Container ℝ × Container ℝ)),
        let truthAt ω := disturbedJoint w x beh series a.rcs.length (In.ofVec measured (List.ofFn u)) (y ω)
          ((noiseAt ds ω).map fun d => (In.ofVec measured (List.ofFn d.1), d.2))
        (∀ ω, List.Forall₂ (fun m h => (∃ v, m.1.toNumpy = .ok v ∧ v.flat = ⟨_, h.1⟩) ∧ ∃ y, m.2.toNumpy = .ok y ∧ y.flat = ⟨1, h.2⟩) (hist ω)
          ((ds.map (·.1)).zip ((truthAt ω).map (·.2)))) →
        ∃ truth out, truth.length = ds.length ∧ (∀ ω, truthAt ω = truth.map fun t => (t.1 ω, t.2 ω)) ∧
          (∀ ω, ∃ fin, E.run svd (hist ω) = .ok (fin, out.map fun b => ((b.1.at ω).gaussian, (b.2.at ω).gaussian))) ∧ Calibrated ℙ truth out := by
  obtain ⟨E, u, μ, U, T, A, hE, hU, hT, hrun⟩ := C144_estimator hc he hs hid ht hi ho hP hQ hR tune ha hb hk
  refine ⟨E, u, μ, U, T, A, hE, hU, hT, fun svd Ω _ ℙ _ ds hmoves y hw hn hist hh => ?_⟩
  have := nonempty_of_isProbabilityMeasure ℙ
  obtain ⟨truth, out, k1, k2, k3, k4⟩ := hrun svd Ω ℙ ds hmoves y hw hist hh
  refine ⟨truth, out, k1, k2, k3, calibrated hn k4 (joint_aff rfl hc hs
    (ds.map fun d => (In.ofVec measured (List.ofFn d.1), d.2)) (In.ofVec measured (List.ofFn u)) y truth (fun ω => ?_) sources_first fun d hd => ?_)⟩
  · rw [← noiseAt_map (fun u : Fin (2 + (if measured then 1 else 0)) → ℝ => In.ofVec measured (List.ofFn u))]
    exact k2 ω
  · obtain ⟨d', hd', rfl⟩ := List.mem_map.1 hd
    exact sources_noise d' hd'

/-- C146, joint estimators in any units. -/
theorem C146_any_units {w : JointWrapper} {x : Fixed} {measured series : Bool} {a : ASOH}
    (hc : EstimatesCircuit w .constant x measured series a) (he : Estimable w.names measured series a)
    (hs : JointlyStraight w.names a) (ht : w.transients.Single) (hi : w.inputs.Single) (ho : w.nOut = 1)
    {n : Nat} (hn : w.nTransients + w.nAsoh = n) {d b : Fin n → ℝ} {e c : Fin 1 → ℝ} (hd : ∀ i, d i ≠ 0) (he' : ∀ i, e i ≠ 0)
    (hh : w.hiddenConv.Rescales n d b) (hout : w.outputConv.Rescales 1 e c)
    (hctl : ∀ v : Vec, v.n = 2 + (if measured then 1 else 0) → ∃ v', w.controlConv.invSamples1 v = .ok v' ∧ w.controlConv.samples1 v' = .ok v)
    {P Q : Matrix (Fin n) (Fin n) ℝ} {R : Matrix (Fin 1) (Fin 1) ℝ}
    (hP : P.PosDef) (hQ : Q.PosDef) (hR : R.PosDef) {tune : Tuning} (htune : Tuned tune (2 * n + 1)) :
    ∃ (E : Joint) (u : Fin (2 + (if measured then 1 else 0)) → ℝ) (μ : Fin n → ℝ) (U T A : Arr2 ℝ),
      Joint.fromWrapper w (.inl ⟨n, n, P⟩) none (some ⟨n, n, Q⟩) none none (some ⟨1, 1, R⟩) tune = .ok E ∧
      (w.inputs.toNumpy = .ok U ∧ U.flat = ⟨_, u⟩) ∧
      (w.transients.toNumpy = .ok T ∧ w.asoh.getParameters (some w.names) = .ok A ∧ T.flat.append A.flat = ⟨n, μ⟩) ∧
      ∀ (svd : Mat → Vec × Mat) (Ω : Type) [MeasurableSpace Ω] (ℙ : Measure Ω) [IsProbabilityMeasure ℙ]
        (ds : List ((Fin (2 + (if measured then 1 else 0)) → ℝ) × (Ω → Fin n → ℝ) × (Ω → Fin 1 → ℝ)))
        (y : Ω → Fin n → ℝ), White ℙ (fun ω => μ - y ω) P Q R ds → JointlyNormal ℙ (sources (fun ω => μ - y ω) ds) →
        ∀ (hist : Ω → List (Container ℝ × Container ℝ)),
        let truthAt ω := disturbedJoint w x .constant series a.rcs.length (In.ofVec measured (List.ofFn u)) (y ω)
          ((noiseAt ds ω).map fun d => (In.ofVec measured (List.ofFn d.1), d.2))
        (∀ ω, List.Forall₂ (fun m h => (∃ v, m.1.toNumpy = .ok v ∧ v.flat = ⟨_, h.1⟩) ∧ ∃ y, m.2.toNumpy = .ok y ∧ y.flat = ⟨1, h.2⟩) (hist ω)
          ((ds.map (·.1)).zip ((truthAt ω).map (·.2)))) →
        ∃ truth out, truth.length = ds.length ∧ (∀ ω, truthAt ω = truth.map fun t => (t.1 ω, t.2 ω)) ∧
          (∀ ω, ∃ fin, E.run svd (hist ω) = .ok (fin, out.map fun b => ((b.1.at ω).gaussian, (b.2.at ω).gaussian))) ∧ Calibrated ℙ truth out := by
  obtain ⟨E, u, μ, U, T, A, hE, hU, hT, hrun⟩ := C144_any_units hc he hs ht hi ho hn hd he' hh hout hctl hP hQ hR htune
  refine ⟨E, u, μ, U, T, A, hE, hU, hT, fun svd Ω _ ℙ _ ds y hw hnormal hist hh => ?_⟩
  have := nonempty_of_isProbabilityMeasure ℙ
  obtain ⟨truth, out, k1, k2, k3, k4⟩ := hrun svd Ω ℙ ds y hw hist hh
  refine ⟨truth, out, k1, k2, k3, calibrated hnormal k4 (joint_aff hn hc hs
    (ds.map fun d => (In.ofVec measured (List.ofFn d.1), d.2)) (In.ofVec measured (List.ofFn u)) y truth (fun ω => ?_) sources_first fun d hd => ?_)⟩
  · rw [← noiseAt_map (fun u : Fin (2 + (if measured then 1 else 0)) → ℝ => In.ofVec measured (List.ofFn u))]
    exact k2 ω
  · obtain ⟨d', hd', rfl⟩ := List.mem_map.1 hd
    exact sources_noise d' hd'

/-- C146, what this says about the reported standard deviations: whatever has been measured before – in any set `B` of measurements of more than no
probability – the truth is within `c` standard deviations of the estimate, in any direction, as often as a normal number of mean 0 and variance 1 is between
`-c` and `c`. -/
theorem C146_within {ys : List (Ω → Fin o → ℝ)} {x : Ω → Fin n → ℝ} {b : Reported Ω n} (h : NormalAround ℙ ys x b)
    {v : Fin n → ℝ} (hv : v ≠ 0) (c : ℝ) {B : Set (Fin ys.length → Fin o → ℝ)} (hB : MeasurableSet B) :
    ℙ {ω | |v ⬝ᵥ (x ω - b.mean ω)| ≤ c * √(v ⬝ᵥ b.cov *ᵥ v) ∧ (fun j => ys[j] ω) ∈ B} =
      gaussianReal 0 1 (Set.Icc (-c) c) * ℙ {ω | (fun j => ys[j] ω) ∈ B} := by
  have hv : 0 < v ⬝ᵥ b.cov *ᵥ v := by simpa using h.definite.dotProduct_mulVec_pos hv
  have hs : 0 < √(v ⬝ᵥ b.cov *ᵥ v) := Real.sqrt_pos.2 hv
  have hm : Measurable fun d : Fin n → ℝ => v ⬝ᵥ d := by unfold dotProduct; fun_prop
  have key := h.indep.measure_inter_preimage_eq_mul {d : Fin n → ℝ | |v ⬝ᵥ d| ≤ c * √(v ⬝ᵥ b.cov *ᵥ v)} B
    (measurableSet_le hm.abs measurable_const) hB
  refine key.trans (congrArg (· * _) ?_)
  have e1 : (fun ω => x ω - b.mean ω) ⁻¹' {d : Fin n → ℝ | |v ⬝ᵥ d| ≤ c * √(v ⬝ᵥ b.cov *ᵥ v)} =
      (fun ω => v ⬝ᵥ (x ω - b.mean ω)) ⁻¹' Set.Icc (-(c * √(v ⬝ᵥ b.cov *ᵥ v))) (c * √(v ⬝ᵥ b.cov *ᵥ v)) := by
    ext ω
    simp [abs_le]
  have e2 : gaussianReal 0 (v ⬝ᵥ b.cov *ᵥ v).toNNReal = (gaussianReal 0 1).map (√(v ⬝ᵥ b.cov *ᵥ v) * ·) := by
    rw [gaussianReal_map_const_mul, mul_zero, mul_one]
    congr 1
    ext
    simp [Real.sq_sqrt hv.le, hv.le]
  rw [e1, ← Measure.map_apply_of_aemeasurable (measurable_of (h.law v)) measurableSet_Icc, h.law v, e2,
    Measure.map_apply (by fun_prop) measurableSet_Icc]
  congr 1
  ext t
  simp only [Set.mem_preimage, Set.mem_Icc, mul_comm c, ← mul_neg, mul_le_mul_iff_right₀ hs]

end

end Verif
