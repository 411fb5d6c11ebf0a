import Verif.Props.EcmKalman
/-!
# C114: what the filter of the transient states makes of noise-free voltages
-/

namespace Verif
open Ecm Cell Matrix Spec

variable {beh : Behavior} {x : Fixed} {measured series : Bool} {a : ASOH}

theorem kalmanStep_error {p : Par} (hp : Straight p) {N : Nat} (hN : N = 1 + (if series then 1 else 0) + p.rcs.length + 1)
    (Q : Matrix (Fin N) (Fin N) ℝ) (R : Matrix (Fin 1) (Fin 1) ℝ) (prev new : In) (P : Matrix (Fin N) (Fin N) ℝ) :
    ∃ (M : Matrix (Fin N) (Fin N) ℝ) (L : Matrix (Fin 1) (Fin N) ℝ) (P' : Matrix (Fin N) (Fin N) ℝ) (C : Matrix (Fin 1) (Fin 1) ℝ),
      ∀ μ y : Fin N → ℝ, let y' := cellStep beh p series prev new y
        let r := kalmanStep beh p series Q R prev new ⟨μ, P⟩ (cellVolt p series new y')
        r.1.mean - y' = M *ᵥ (μ - y) ∧ r.2.mean - cellVolt p series new y' = L *ᵥ (μ - y) ∧ r.1.cov = P' ∧ r.2.cov = C := by
  let F : Matrix (Fin N) (Fin N) ℝ := slopes (cellStep beh p series prev new)
  let H : Matrix (Fin 1) (Fin N) ℝ := slopes (cellVolt p series new)
  let G := kalmanGain H R ⟨0, F * P * Fᵀ + Q⟩
  refine ⟨(1 - G * H) * F, H * F, (1 - G * H) * (F * P * Fᵀ + Q), H * (F * P * Fᵀ + Q) * Hᵀ + R, fun μ y => ⟨?_, ?_, rfl, rfl⟩⟩
  · have h1 := (C112_cell_affine (beh := beh) hp hN prev new y).1
    have h2 := (C112_cell_affine (beh := beh) hp hN prev new (cellStep beh p series prev new y)).2
    show F *ᵥ μ + cellStep beh p series prev new 0 + G *ᵥ (cellVolt p series new (cellStep beh p series prev new y) -
      (H *ᵥ (F *ᵥ μ + cellStep beh p series prev new 0) + cellVolt p series new 0)) - cellStep beh p series prev new y = _
    rw [h2, h1]
    simp only [Matrix.sub_mul, Matrix.one_mul, sub_mulVec, mulVec_sub, mulVec_add, ← mulVec_mulVec, F, H]
    abel
  · have h1 := (C112_cell_affine (beh := beh) hp hN prev new y).1
    have h2 := (C112_cell_affine (beh := beh) hp hN prev new (cellStep beh p series prev new y)).2
    show H *ᵥ (F *ᵥ μ + cellStep beh p series prev new 0) + cellVolt p series new 0 - cellVolt p series new (cellStep beh p series prev new y) = _
    rw [h2, h1]
    simp only [mulVec_sub, mulVec_add, ← mulVec_mulVec, F, H]
    abel

/-- What a history of beliefs is off the truth by, and how sure it is of itself. -/
def Spec.errors {N : Nat} (l : List (Belief N × Belief 1)) (truth : List ((Fin N → ℝ) × (Fin 1 → ℝ))) :=
  List.zipWith (fun r t => (r.1.mean - t.1, r.2.mean - t.2, r.1.cov, r.2.cov)) l truth

/-- A history of controls and measurements with these means of the controls, and the voltages of these states and voltages as means of the measurements. -/
def Spec.Measures {N k : Nat} (hist : List (Dist × Dist)) (us : List (Fin k → ℝ)) (truth : List ((Fin N → ℝ) × (Fin 1 → ℝ))) : Prop :=
  HasMeans hist ((us.zip (truth.map (·.2))).map fun z => (⟨k, z.1⟩, z.2))

theorem measures_zip {N k : Nat} (us : List (Fin k → ℝ)) (truth : List ((Fin N → ℝ) × (Fin 1 → ℝ))) :
    Measures (List.zipWith (fun u t => (.delta ⟨⟨k, u⟩⟩, .delta ⟨⟨1, t.2⟩⟩)) us truth) us truth := by
  induction us generalizing truth with
  | nil => exact .nil
  | cons u us ih =>
    cases truth with
    | nil => exact .nil
    | cons t truth => exact .cons ⟨rfl, rfl⟩ (ih truth)

theorem kalman_errors {p : Par} (hp : Straight p) {N : Nat} (hN : N = 1 + (if series then 1 else 0) + p.rcs.length + 1)
    (Q : Matrix (Fin N) (Fin N) ℝ) (R : Matrix (Fin 1) (Fin 1) ℝ) (inputs : List In) :
    ∀ (prev : In) (μ₁ y₁ μ₂ y₂ : Fin N → ℝ) (P : Matrix (Fin N) (Fin N) ℝ), μ₁ - y₁ = μ₂ - y₂ →
    errors (kalmanHistory beh p series Q R prev ⟨μ₁, P⟩ (inputs.zip ((cellRun beh p series prev y₁ inputs).map (·.2))))
      (cellRun beh p series prev y₁ inputs) =
    errors (kalmanHistory beh p series Q R prev ⟨μ₂, P⟩ (inputs.zip ((cellRun beh p series prev y₂ inputs).map (·.2))))
      (cellRun beh p series prev y₂ inputs) := by
  induction inputs with
  | nil => intros; rfl
  | cons new inputs ih =>
    intro prev μ₁ y₁ μ₂ y₂ P he
    obtain ⟨M, L, P', C, h⟩ := kalmanStep_error (beh := beh) hp hN Q R prev new P
    obtain ⟨h1, h2, h3, h4⟩ := h μ₁ y₁
    obtain ⟨k1, k2, k3, k4⟩ := h μ₂ y₂
    rw [he] at h1 h2
    refine congrArg₂ List.cons ?_ ?_
    · exact Prod.ext (h1.trans k1.symm) (Prod.ext (h2.trans k2.symm) (Prod.ext (h3.trans k3.symm) (h4.trans k4.symm)))
    · have := ih new _ _ _ _ P' (h1.trans k1.symm)
      rw [← h3] at this
      conv at this => rhs; rw [h3, ← k3]
      exact this

theorem kalman_truth {p : Par} (hp : Straight p) {N : Nat} (hN : N = 1 + (if series then 1 else 0) + p.rcs.length + 1)
    (Q : Matrix (Fin N) (Fin N) ℝ) (R : Matrix (Fin 1) (Fin 1) ℝ) (inputs : List In) : ∀ (prev : In) (y : Fin N → ℝ) (P : Matrix (Fin N) (Fin N) ℝ),
    (kalmanHistory beh p series Q R prev ⟨y, P⟩ (inputs.zip ((cellRun beh p series prev y inputs).map (·.2)))).map (fun r => (r.1.mean, r.2.mean)) =
      cellRun beh p series prev y inputs := by
  induction inputs with
  | nil => intro prev y P; rfl
  | cons new inputs ih =>
    intro prev y P
    obtain ⟨M, L, P', C, h⟩ := kalmanStep_error (beh := beh) hp hN Q R prev new P
    obtain ⟨h1, h2, h3, -⟩ := h y y
    rw [sub_self, mulVec_zero, sub_eq_zero] at h1 h2
    refine congrArg₂ List.cons (Prod.ext h1 h2) ?_
    have hb : (kalmanStep beh p series Q R prev new ⟨y, P⟩ (cellVolt p series new (cellStep beh p series prev new y))).1 =
        ⟨cellStep beh p series prev new y, P'⟩ := by
      rw [← h3]
      exact congrArg (Belief.mk · _) h1
    refine Eq.trans ?_ (ih new (cellStep beh p series prev new y) P')
    rw [← hb]
    rfl

theorem cellRun_length (p : Par) {N : Nat} (inputs : List In) : ∀ (prev : In) (y : Fin N → ℝ),
    (cellRun beh p series prev y inputs).length = inputs.length := by
  induction inputs with
  | nil => intros; rfl
  | cons new inputs ih => intro prev y; exact congrArg Nat.succ (ih _ _)

theorem noise_free {w : CellWrapper} (hw : TracksCircuit w beh x measured series a.rcs.length) (he : Estimable [] measured series a)
    (hp : Straight (parAt a 0)) {Q : Matrix (Fin w.nTransients) (Fin w.nTransients) ℝ} {R : Matrix (Fin 1) (Fin 1) ℝ}
    (hQ : Q.PosDef) (hR : R.PosDef) (svd : Mat → Vec × Mat) {f : Ukf (HV ℝ)} (hf : f.model = w.plain.toWrapper)
    (hm : HoldsCircuit x f.mem a) {μ : Fin w.nTransients → ℝ} {P : Matrix (Fin w.nTransients) (Fin w.nTransients) ℝ}
    (h : f.Holds w.nTransients 1 μ P Q R) (hP : P.PosDef) {u : Fin (2 + (if measured then 1 else 0)) → ℝ} (hu : f.controls.mean = ⟨_, u⟩)
    {us : List (Fin (2 + (if measured then 1 else 0)) → ℝ)}
    (hmoves : beh = .linear → ((u :: us).map fun u => (In.ofVec measured (List.ofFn u)).time).IsChain (· ≠ ·))
    (y : Fin w.nTransients → ℝ) (hist : List (Dist × Dist))
    (hhist : Measures hist us (cellRun beh (parAt a 0) series (In.ofVec measured (List.ofFn u)) y
      (us.map fun u => In.ofVec measured (List.ofFn u)))) :
    ∃ f', f.run svd hist = .ok (f', (kalmanHistory beh (parAt a 0) series Q R (In.ofVec measured (List.ofFn u)) ⟨μ, P⟩
      ((us.map fun u => In.ofVec measured (List.ofFn u)).zip ((cellRun beh (parAt a 0) series (In.ofVec measured (List.ofFn u)) y
        (us.map fun u => In.ofVec measured (List.ofFn u))).map (·.2)))).map fun r => (r.1.gaussian, r.2.gaussian)) := by
  have hl := cellRun_length (beh := beh) (series := series) (parAt a 0) (us.map fun u => In.ofVec measured (List.ofFn u))
    (In.ofVec measured (List.ofFn u)) y
  generalize cellRun beh (parAt a 0) series (In.ofVec measured (List.ofFn u)) y (us.map fun u => In.ofVec measured (List.ofFn u)) = c at *
  rw [List.length_map] at hl
  obtain ⟨f', h'⟩ := C112_history hw hf hm he hp h hP hQ hR svd hu hist (us.zip (c.map Prod.snd)) hhist fun hb => by
    have e : ((us.zip (c.map Prod.snd)).map fun z => (In.ofVec measured (List.ofFn z.1)).time) = us.map fun u => (In.ofVec measured (List.ofFn u)).time := by
      conv_rhs => rw [← List.map_fst_zip (l₁ := us) (l₂ := c.map Prod.snd) (by simp [hl]), List.map_map]
      rfl
    rw [e]
    exact hmoves hb
  refine ⟨f', h'.trans ?_⟩
  rw [List.zip_map_left]
  rfl

/-! ## C114 -/

/-- C114, a filter that starts at the true state of the cell: it runs over every history of inputs, and its estimates and predicted voltages are exactly the
states and voltages of the cell, whatever the covariances. -/
theorem C114_stays_at_truth {w : CellWrapper} (hw : TracksCircuit w beh x measured series a.rcs.length) (he : Estimable [] measured series a)
    (hp : Straight (parAt a 0)) {Q : Matrix (Fin w.nTransients) (Fin w.nTransients) ℝ} {R : Matrix (Fin 1) (Fin 1) ℝ}
    (hQ : Q.PosDef) (hR : R.PosDef) (svd : Mat → Vec × Mat) {f : Ukf (HV ℝ)} (hf : f.model = w.plain.toWrapper)
    (hm : HoldsCircuit x f.mem a) {y : Fin w.nTransients → ℝ} {P : Matrix (Fin w.nTransients) (Fin w.nTransients) ℝ}
    (h : f.Holds w.nTransients 1 y P Q R) (hP : P.PosDef) {u : Fin (2 + (if measured then 1 else 0)) → ℝ} (hu : f.controls.mean = ⟨_, u⟩)
    {us : List (Fin (2 + (if measured then 1 else 0)) → ℝ)}
    (hmoves : beh = .linear → ((u :: us).map fun u => (In.ofVec measured (List.ofFn u)).time).IsChain (· ≠ ·)) (hist : List (Dist × Dist)) :
    let truth := cellRun beh (parAt a 0) series (In.ofVec measured (List.ofFn u)) y (us.map fun u => In.ofVec measured (List.ofFn u))
    Measures hist us truth →
    ∃ f' out, f.run svd hist = .ok (f', out) ∧ out.map (fun r => (r.1.mean, r.2.mean)) = truth.map fun t => (⟨_, t.1⟩, ⟨_, t.2⟩) := by
  intro truth hhist
  have hN : w.nTransients = 1 + (if series then 1 else 0) + (parAt a 0).rcs.length + 1 := by
    rw [show (parAt a 0).rcs.length = a.rcs.length by simp [parAt]]; exact tracks_width hw
  obtain ⟨f', h'⟩ := noise_free hw he hp hQ hR svd hf hm h hP hu hmoves y hist hhist
  refine ⟨f', _, h', ?_⟩
  have ht := kalman_truth (beh := beh) hp hN Q R (us.map fun u => In.ofVec measured (List.ofFn u)) (In.ofVec measured (List.ofFn u)) y P
  refine Eq.trans ?_ (congrArg (List.map fun t => ((⟨_, t.1⟩ : Vec), (⟨_, t.2⟩ : Vec))) ht)
  rw [List.map_map, List.map_map]
  rfl

/-- C114, errors: two filters with the same covariances over the same inputs, each measuring the noise-free voltages of its own cell.  If they are off
the true states by the same vector in the beginning, they are always: all later errors (of states and voltages) and covariances coincide, wherever the
cells started. -/
theorem C114_errors_without_truth {w : CellWrapper} (hw : TracksCircuit w beh x measured series a.rcs.length) (he : Estimable [] measured series a)
    (hp : Straight (parAt a 0)) {P Q : Matrix (Fin w.nTransients) (Fin w.nTransients) ℝ} {R : Matrix (Fin 1) (Fin 1) ℝ}
    (hP : P.PosDef) (hQ : Q.PosDef) (hR : R.PosDef) (svd : Mat → Vec × Mat) {f g : Ukf (HV ℝ)} (hf : f.model = w.plain.toWrapper)
    (hg : g.model = w.plain.toWrapper) (hfm : HoldsCircuit x f.mem a) (hgm : HoldsCircuit x g.mem a) {μ ν y z : Fin w.nTransients → ℝ}
    (hfh : f.Holds w.nTransients 1 μ P Q R) (hgh : g.Holds w.nTransients 1 ν P Q R) (hsame : μ - y = ν - z)
    {u : Fin (2 + (if measured then 1 else 0)) → ℝ} (hfu : f.controls.mean = ⟨_, u⟩) (hgu : g.controls.mean = ⟨_, u⟩)
    {us : List (Fin (2 + (if measured then 1 else 0)) → ℝ)}
    (hmoves : beh = .linear → ((u :: us).map fun u => (In.ofVec measured (List.ofFn u)).time).IsChain (· ≠ ·)) (hist hist' : List (Dist × Dist)) :
    let truth := fun y => cellRun beh (parAt a 0) series (In.ofVec measured (List.ofFn u)) y (us.map fun u => In.ofVec measured (List.ofFn u))
    Measures hist us (truth y) → Measures hist' us (truth z) →
    ∃ f' g' out out', f.run svd hist = .ok (f', out.map fun r => (r.1.gaussian, r.2.gaussian)) ∧
      g.run svd hist' = .ok (g', out'.map fun r => (r.1.gaussian, r.2.gaussian)) ∧ errors out (truth y) = errors out' (truth z) := by
  intro truth h1 h2
  have hN : w.nTransients = 1 + (if series then 1 else 0) + (parAt a 0).rcs.length + 1 := by
    rw [show (parAt a 0).rcs.length = a.rcs.length by simp [parAt]]; exact tracks_width hw
  obtain ⟨f', hf'⟩ := noise_free hw he hp hQ hR svd hf hfm hfh hP hfu hmoves y hist h1
  obtain ⟨g', hg'⟩ := noise_free hw he hp hQ hR svd hg hgm hgh hP hgu hmoves z hist' h2
  exact ⟨f', g', _, _, hf', hg', kalman_errors hp hN Q R _ _ _ _ _ _ P hsame⟩

/-! ## Examples -/

-- The filter of the concrete circuit starts at SOC 1/2 without overpotential and hysteresis; over every history of times, currents and temperatures in which
-- the time always changes it estimates exactly the states of the cell that starts there.
example (beh : Behavior) (svd : Mat → Vec × Mat) (us : List (Fin 3 → ℝ)) (ht : (0 :: us.map (· 0)).IsChain (· ≠ ·)) :
    let truth := cellRun (N := 3) beh (parAt Demo.arrays 0) false ⟨0, 1, some 30⟩ ![0.5, 0, 0] (us.map fun u => ⟨u 0, u 1, some (u 2)⟩)
    ∃ f' out, (Demo.tracker beh).run svd (List.zipWith (fun u t => (.delta ⟨⟨3, u⟩⟩, .delta ⟨⟨1, t.2⟩⟩)) us truth) = .ok (f', out) ∧
      out.map (fun r => (r.1.mean, r.2.mean)) = truth.map fun t => (⟨3, t.1⟩, ⟨1, t.2⟩) := by
  have ei : ∀ u : Fin 3 → ℝ, In.ofVec true (List.ofFn u) = ⟨u 0, u 1, some (u 2)⟩ := fun u => by simp [In.ofVec, List.ofFn_succ]
  have h := C114_stays_at_truth (Demo.tracking_circuit beh .identity [] []) (estimable_nil (Demo.estimating_estimable beh .identity)) Demo.arrays_straight
    .one .one svd (f := Demo.tracker beh) rfl (Demo.hv_holds [] []) (Demo.tracker_holds beh) .one (u := ![0, 1, 30]) rfl (us := us)
    (fun _ => by simp only [ei, List.map_cons]; exact ht)
  simp only [ei] at h
  exact h _ (measures_zip us _)

-- It also starts a tenth above the SOC of a cell at 0.4, and a filter starting at 0.8 a tenth above that of a cell at 0.7: their errors stay the same.
example (beh : Behavior) (svd : Mat → Vec × Mat) (us : List (Fin 3 → ℝ)) (ht : (0 :: us.map (· 0)).IsChain (· ≠ ·)) :
    let truth := fun y => cellRun (N := 3) beh (parAt Demo.arrays 0) false ⟨0, 1, some 30⟩ y (us.map fun u => ⟨u 0, u 1, some (u 2)⟩)
    let hist := fun y => List.zipWith (fun u t => (Dist.delta ⟨⟨3, u⟩⟩, Dist.delta ⟨⟨1, t.2⟩⟩)) us (truth y)
    ∃ f' g' out out', (Demo.tracker beh).run svd (hist ![0.4, 0, 0]) = .ok (f', out.map fun r => (r.1.gaussian, r.2.gaussian)) ∧
      { Demo.tracker beh with hidden := ⟨⟨3, ![0.8, 0, 0]⟩, ⟨3, 3, 1⟩⟩ }.run svd (hist ![0.7, 0, 0]) =
        .ok (g', out'.map fun r => (r.1.gaussian, r.2.gaussian)) ∧
      errors out (truth ![0.4, 0, 0]) = errors out' (truth ![0.7, 0, 0]) := by
  have ei : ∀ u : Fin 3 → ℝ, In.ofVec true (List.ofFn u) = ⟨u 0, u 1, some (u 2)⟩ := fun u => by simp [In.ofVec, List.ofFn_succ]
  have e : (![0.5, 0, 0] : Fin 3 → ℝ) - ![0.4, 0, 0] = ![0.8, 0, 0] - ![0.7, 0, 0] := by norm_num
  have h := C114_errors_without_truth (Demo.tracking_circuit beh .identity [] []) (estimable_nil (Demo.estimating_estimable beh .identity))
    Demo.arrays_straight .one .one .one svd (f := Demo.tracker beh) (g := { Demo.tracker beh with hidden := ⟨⟨3, ![0.8, 0, 0]⟩, ⟨3, 3, 1⟩⟩ }) rfl rfl
    (Demo.hv_holds [] []) (Demo.hv_holds [] []) (Demo.tracker_holds beh) (ν := ![0.8, 0, 0])
    ((Demo.tracker_holds beh).after ![0.8, 0, 0] 1 _ _) (y := ![0.4, 0, 0]) (z := ![0.7, 0, 0])
    e (u := ![0, 1, 30]) rfl rfl (us := us)
    (fun _ => by simp only [ei, List.map_cons]; exact ht)
  simp only [ei] at h
  exact h _ _ (measures_zip us _) (measures_zip us _)

end Verif
