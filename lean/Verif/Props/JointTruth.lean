import Verif.Props.JointKalman
import Verif.Props.EcmSimulate
import Verif.Props.UkfDecay
import Verif.Props.UkfLeast
/-!
# Joint estimation of a cell that was simulated (C134), and as least squares (C135)
-/

namespace Verif
open Ecm Cell Spec Matrix

/-! ## Specification -/

/-- What the numbers of a cell – its transient state and the values of its estimated parameters – do if they follow the circuit equations up to
disturbances: of every step its new inputs, the disturbance of the numbers (parameters may drift) and that of the voltage are given. -/
noncomputable def Spec.disturbedJoint (w : JointWrapper) (x : Fixed) (beh : Behavior) (series : Bool) (k : Nat) {N : Nat} :
    In → (Fin N → ℝ) → List (In × (Fin N → ℝ) × (Fin 1 → ℝ)) → List ((Fin N → ℝ) × (Fin 1 → ℝ))
  | _, _, [] => []
  | prev, y, (new, q, r) :: rest =>
    let y' := jointStep w x beh series k prev new y + q
    (y', jointVolt w x series k new y' + r) :: disturbedJoint w x beh series k new y' rest

/-- The squares of all deviations from the circuit equations, in units of the noises, of a cell whose numbers – transient state and values of the
estimated parameters – go from `y` through `ys` while its inputs and measured voltages are `zs`. -/
noncomputable def Spec.jointDeviations (w : JointWrapper) (x : Fixed) (beh : Behavior) (series : Bool) (k : Nat) {N : Nat} (Q : Matrix (Fin N) (Fin N) ℝ)
    (R : Matrix (Fin 1) (Fin 1) ℝ) : In → List (In × (Fin 1 → ℝ)) → (Fin N → ℝ) → List (Fin N → ℝ) → ℝ
  | prev, (new, z) :: zs, y, y' :: ys =>
    misfit (y' - jointStep w x beh series k prev new y) Q + misfit (z - jointVolt w x series k new y') R +
      jointDeviations w x beh series k Q R new zs y' ys
  | _, _, _, _ => 0

/-- What an estimator returned for one step of a simulator: `r` are the simulated transient state and measurement, `v` the simulated values of the
estimated parameters, `b` the estimate and the prediction.  In units of the covariances reported with them, the estimate is off the simulated state and
parameters, and the prediction off the measurement, by at most `E`. -/
def Spec.OffBy {n k : Nat} (E : ℝ) (v : Fin k → ℝ) (r : Container ℝ × Container ℝ) (b : Belief (n + k) × Belief 1) : Prop :=
  ∃ (t : Fin n → ℝ) (z : Fin 1 → ℝ), r.1.toNumpy = .ok (.ofRow (List.ofFn t)) ∧ r.2.toNumpy = .ok (.ofRow (List.ofFn z)) ∧
    b.1.cov.PosDef ∧ b.2.cov.PosDef ∧ misfit (b.1.mean - Fin.append t v) b.1.cov ≤ E ∧ misfit (b.2.mean - z) b.2.cov ≤ E

variable {w : JointWrapper} {beh : Behavior} {x : Fixed} {measured series : Bool} {a : ASOH}

/-! ## Proofs: the Kalman filter for the joint numbers -/

section
variable (hc : EstimatesCircuit w beh x measured series a) (hs : JointlyStraight w.names a)
  {Q : Matrix (Fin (w.nTransients + w.nAsoh)) (Fin (w.nTransients + w.nAsoh)) ℝ} {R : Matrix (Fin 1) (Fin 1) ℝ} (hQ : Q.PosDef) (hR : R.PosDef)
include hc hs hQ hR

theorem jointHistory_bounded (ds : List (In × (Fin (w.nTransients + w.nAsoh) → ℝ) × (Fin 1 → ℝ))) :
    ∀ (prev : In) (μ y : Fin (w.nTransients + w.nAsoh) → ℝ) (P : Matrix (Fin (w.nTransients + w.nAsoh)) (Fin (w.nTransients + w.nAsoh)) ℝ),
    P.PosDef → Bounded Q R (misfit (μ - y) P) ds (disturbedJoint w x beh series a.rcs.length prev y ds)
      (jointHistory w x beh series a.rcs.length Q R prev ⟨μ, P⟩
        ((ds.map (·.1)).zip ((disturbedJoint w x beh series a.rcs.length prev y ds).map (·.2)))) := by
  induction ds with
  | nil => intros; exact .nil
  | cons d ds ih =>
    intro prev μ y P hP
    obtain ⟨new, q, r⟩ := d
    obtain ⟨h1, h2, h3, h4⟩ := misfit_step hP hQ hR (slopes (jointStep w x beh series a.rcs.length prev new))
      (jointStep w x beh series a.rcs.length prev new 0) (slopes (jointVolt w x series a.rcs.length new)) (jointVolt w x series a.rcs.length new
        (0 : Fin (w.nTransients + w.nAsoh) → ℝ)) μ y q r
    have e1 := (C133_affine hc hs prev new y).2.2.1
    have e2 := (C133_affine hc hs prev new (jointStep w x beh series a.rcs.length prev new y + q)).2.2.2
    rw [← e1, ← e2] at h1 h3 h4
    exact .cons h1 h2 h3 h4 h3 (ih new _ _ _ h1)

theorem jointHistory_cheapest (zs : List (In × (Fin 1 → ℝ))) : ∀ (prev : In) (b : Belief (w.nTransients + w.nAsoh)), b.cov.PosDef →
    Cheapest (fun y ys => misfit (y - b.mean) b.cov + jointDeviations w x beh series a.rcs.length Q R prev zs y ys) zs.length
      (((jointHistory w x beh series a.rcs.length Q R prev b zs).map Prod.fst).getLastD b)
      (surprise (zs.map Prod.snd) (jointHistory w x beh series a.rcs.length Q R prev b zs)) := by
  induction zs with
  | nil => intro prev b _; exact Cheapest.nil fun x => by simp [jointDeviations]
  | cons z zs ih =>
    intro prev b hb
    obtain ⟨new, z⟩ := z
    have h := ih new _ (Ukf.correct_posDef (H := slopes (jointVolt w x series a.rcs.length new))
      (d := jointVolt w x series a.rcs.length new (0 : Fin (w.nTransients + w.nAsoh) → ℝ)) (z := z)
      (Ukf.predict_posDef (F := slopes (jointStep w x beh series a.rcs.length prev new)) (c := jointStep w x beh series a.rcs.length prev new 0) hb hQ) hR)
    have := Cheapest.step hb hQ hR (fun y => (C133_affine hc hs prev new y).2.2.1) (fun y => (C133_affine hc hs prev new y).2.2.2)
      (cost := jointDeviations w x beh series a.rcs.length Q R prev ((new, z) :: zs)) (fun x x' xs => rfl) h
    simpa only [jointHistory, jointKalman, List.map_cons, List.getLastD_cons, surprise, List.zipWith_cons_cons, List.sum_cons, List.length_cons] using this

omit hc hs in
theorem jointHistory_last (zs : List (In × (Fin 1 → ℝ))) : ∀ (prev : In) (b : Belief (w.nTransients + w.nAsoh)), b.cov.PosDef →
    (((jointHistory w x beh series a.rcs.length Q R prev b zs).map Prod.fst).getLastD b).cov.PosDef ∧
      (jointHistory w x beh series a.rcs.length Q R prev b zs).length = zs.length := by
  induction zs with
  | nil => intro prev b h; exact ⟨h, rfl⟩
  | cons z zs ih =>
    intro prev b hb
    obtain ⟨h1, h2⟩ := ih z.1 _ (Ukf.correct_posDef (H := slopes (jointVolt w x series a.rcs.length z.1))
      (d := jointVolt w x series a.rcs.length z.1 (0 : Fin (w.nTransients + w.nAsoh) → ℝ)) (z := z.2)
      (Ukf.predict_posDef (F := slopes (jointStep w x beh series a.rcs.length prev z.1)) (c := jointStep w x beh series a.rcs.length prev z.1 0) hb hQ) hR)
    simp only [jointHistory, jointKalman, List.map_cons, List.getLastD_cons, List.length_cons]
    exact ⟨h1, congrArg Nat.succ h2⟩

end

/-! ## Proofs: the numbers of a simulated cell -/

theorem ofVec_append {n : Nat} {l r : List ℝ} (hl : l.length = 1 + (if series then 1 else 0) + n + 1) : St.ofVec series n (l ++ r) = St.ofVec series n l := by
  have hd : ∀ i < l.length, (l ++ r).getD i 0 = l.getD i 0 := fun i hi => by
    rw [List.getD_eq_getElem?_getD, List.getD_eq_getElem?_getD, List.getElem?_append_left hi]
  unfold St.ofVec
  simp only []
  rw [hd 0 (by omega), hd 1 (by omega), hd (1 + (if series then 1 else 0) + n) (by omega), List.drop_append_of_le_length (by omega),
    List.take_append_of_le_length (by rw [List.length_drop]; omega)]

theorem joint_append (hc : EstimatesCircuit w beh x measured series a) (hs : JointlyStraight w.names a) {v : Fin w.nAsoh → ℝ} {p : Par}
    (hp : CellWith w x (List.ofFn v) p) (hr : p.rcs.length = a.rcs.length) (prev new : In) (t : Fin w.nTransients → ℝ) :
    jointStep w x beh series a.rcs.length prev new (Fin.append t v) = Fin.append (cellStep beh p series prev new t) v ∧
      jointVolt w x series a.rcs.length new (Fin.append t v) = cellVolt p series new t := by
  have ed : (List.ofFn (Fin.append t v)).drop w.nTransients = List.ofFn v := by
    rw [List.ofFn_fin_append, List.drop_left' (List.length_ofFn)]
  have es : St.ofVec series a.rcs.length (List.ofFn (Fin.append t v)) = St.ofVec series p.rcs.length (List.ofFn t) := by
    rw [List.ofFn_fin_append, ofVec_append (by rw [List.length_ofFn]; exact circuit_width hc), hr]
  obtain ⟨-, h, -⟩ := C133_affine hc hs prev new (Fin.append t v)
  rw [ed] at h
  obtain ⟨h1, h2⟩ := h p hp
  constructor
  · refine List.ofFn_injective ?_
    rw [h1, es, List.ofFn_fin_append, cellStep_list (by rw [hr]; exact circuit_width hc)]
  · funext i
    obtain rfl : i = 0 := Subsingleton.elim _ _
    rw [h2, es]
    rfl

theorem jointRun_append (hc : EstimatesCircuit w beh x measured series a) (hs : JointlyStraight w.names a) {v : Fin w.nAsoh → ℝ} {p : Par}
    (hp : CellWith w x (List.ofFn v) p) (hr : p.rcs.length = a.rcs.length) (inputs : List In) : ∀ (prev : In) (t : Fin w.nTransients → ℝ),
    disturbedJoint w x beh series a.rcs.length prev (Fin.append t v) (inputs.map fun i => (i, 0, 0)) =
      (cellRun beh p series prev t inputs).map fun r => (Fin.append r.1 v, r.2) := by
  induction inputs with
  | nil => intros; rfl
  | cons new inputs ih =>
    intro prev t
    obtain ⟨h1, -⟩ := joint_append hc hs hp hr prev new t
    obtain ⟨-, h2⟩ := joint_append hc hs hp hr prev new (cellStep beh p series prev new t)
    simp only [List.map_cons, disturbedJoint, cellRun, add_zero, h1, h2, ih]

theorem copy_circuit (hc : EstimatesCircuit w beh x measured series a) (he : Estimable w.names measured series a) (v : Fin w.nAsoh → ℝ) :
    ∃ m b, w.asoh.makeCopy (.d1 (List.ofFn v)) (some w.names) = .ok m ∧ HoldsCircuit x m b ∧ b.rcs.length = a.rcs.length ∧ Estimable [] measured series b :=
  estimable_copy (w := ⟨w.toBaseWrapper, w.names, w.nTransients, w.nAsoh, w.deg⟩) (beh := beh)
    ⟨hc.cell, ⟨hc.ready.asoh_wf, hc.ready.asoh_single, hc.read, hc.single⟩, hc.inputs, hc.ready.names_updatable, hc.ready.names_distinct, hc.ready.nAsoh_eq,
      hc.estimates, hc.deg⟩ he v

theorem forall2_zip {α β γ δ : Type} {R : α → γ → Prop} {S : β → δ → Prop} {T : α × β → γ × δ → Prop} {l : List α} {k : List β} {m : List γ} {n : List δ}
    (h1 : List.Forall₂ R l m) (h2 : List.Forall₂ S k n) (h : ∀ a c b d, R a c → S b d → T (a, b) (c, d)) : List.Forall₂ T (l.zip k) (m.zip n) := by
  induction h1 generalizing k n with
  | nil => exact .nil
  | cons hr _ ih => cases h2 with
    | nil => exact .nil
    | cons hs h2 => exact .cons (h _ _ _ _ hr hs) (ih h2)

theorem forall2_of_get {α β : Type} {R : α → β → Prop} {l : List α} {k : List β} (hl : k.length = l.length)
    (h : ∀ (i : Nat) a b, l[i]? = some a → k[i]? = some b → R a b) : List.Forall₂ R l k := by
  induction l generalizing k with
  | nil => cases k with
    | nil => exact .nil
    | cons => simp at hl
  | cons a l ih => cases k with
    | nil => simp at hl
    | cons b k => exact .cons (h 0 a b rfl rfl) (ih (by simpa using hl) fun i a b ha hb => h (i + 1) a b ha hb)

theorem forall2_get {α β : Type} {R : α → β → Prop} {l : List α} {k : List β} (h : List.Forall₂ R l k) {i : Nat} {a : α} {b : β} (ha : l[i]? = some a)
    (hb : k[i]? = some b) : R a b := by
  induction h generalizing i with
  | nil => simp at ha
  | cons hr _ ih => cases i with
    | zero =>
      cases ha
      cases hb
      exact hr
    | succ i => exact ih ha hb

/-! ## C134 -/

/-- C134, the filter of a joint estimator and a cell that follows the circuit equations up to disturbances; its parameters may drift. -/
theorem C134_bounded (hc : EstimatesCircuit w beh x measured series a) (he : Estimable w.names measured series a) (hs : JointlyStraight w.names a)
    {P Q : Matrix (Fin (w.nTransients + w.nAsoh)) (Fin (w.nTransients + w.nAsoh)) ℝ} {R : Matrix (Fin 1) (Fin 1) ℝ}
    (hP : P.PosDef) (hQ : Q.PosDef) (hR : R.PosDef) (svd : Mat → Vec × Mat) {f : Ukf Unit} (hf : f.model = w.plain.toWrapper)
    {μ : Fin (w.nTransients + w.nAsoh) → ℝ} (h : f.Holds (w.nTransients + w.nAsoh) 1 μ P Q R)
    {u : Fin (2 + (if measured then 1 else 0)) → ℝ} (hu : f.controls.mean = ⟨_, u⟩)
    (ds : List ((Fin (2 + (if measured then 1 else 0)) → ℝ) × (Fin (w.nTransients + w.nAsoh) → ℝ) × (Fin 1 → ℝ)))
    (hmoves : beh = .linear → ((u :: ds.map (·.1)).map fun u => (In.ofVec measured (List.ofFn u)).time).IsChain (· ≠ ·))
    (y : Fin (w.nTransients + w.nAsoh) → ℝ) (hist : List (Dist × Dist)) :
    let truth := disturbedJoint w x beh series a.rcs.length (In.ofVec measured (List.ofFn u)) y (ds.map fun d => (In.ofVec measured (List.ofFn d.1), d.2))
    Measures hist (ds.map (·.1)) truth →
    ∃ f' out, f.run svd hist = .ok (f', out.map fun r => (r.1.gaussian, r.2.gaussian)) ∧ Bounded Q R (misfit (μ - y) P) ds truth out := by
  intro truth hhist
  have hb := jointHistory_bounded hc hs hQ hR (ds.map fun d => (In.ofVec measured (List.ofFn d.1), d.2)) (In.ofVec measured (List.ofFn u)) μ y P hP
  have hl : truth.length = ds.length := by have := hb.2.1; rwa [List.length_map] at this
  obtain ⟨f', h'⟩ := C133_history hc he hs hQ hR svd hist ((ds.map Prod.fst).zip (truth.map Prod.snd)) f u ⟨μ, P⟩ hf h hP hu hhist fun hb => by
    have e : (((ds.map Prod.fst).zip (truth.map Prod.snd)).map fun z => (In.ofVec measured (List.ofFn z.1)).time) =
        (ds.map Prod.fst).map fun u => (In.ofVec measured (List.ofFn u)).time := by
      conv_rhs => rw [← List.map_fst_zip (l₁ := ds.map Prod.fst) (l₂ := truth.map Prod.snd) (by simp [hl]), List.map_map]
      rfl
    rw [e]
    exact hmoves hb
  refine ⟨f', _, h', ?_⟩
  have e : (((ds.map Prod.fst).zip (truth.map Prod.snd)).map fun z => (In.ofVec measured (List.ofFn z.1), z.2)) =
      ((ds.map fun d => (In.ofVec measured (List.ofFn d.1), d.2)).map (·.1)).zip (truth.map (·.2)) := by
    have e' : (ds.map fun d => (In.ofVec measured (List.ofFn d.1), d.2)).map (·.1) = (ds.map Prod.fst).map fun u => In.ofVec measured (List.ofFn u) := by
      simp
    rw [e']
    generalize ds.map Prod.fst = l
    rw [List.zip_map_left]
    rfl
  rw [e]
  exact hb.of_map (fun u => In.ofVec measured (List.ofFn u))

/-- C134, simulating and estimating: a simulator of the cell with the values `v` of the estimated parameters starts at the transient state `st`; the
estimator starts from the values of its templates.  The simulator runs over all inputs of the right form (with changing times under linear behaviour),
the estimator runs over its inputs and measurements, and as many standard deviations as all numbers together were off in the beginning are
a bound for how much they are off later. -/
theorem C134_simulated (hc : EstimatesCircuit w beh x measured series a) (he : Estimable w.names measured series a) (hs : JointlyStraight w.names a)
    (hid : w.plain = w) (ht : w.transients.Single) (ho : w.nOut = 1) {u : Fin (2 + (if measured then 1 else 0)) → ℝ} (hi : HoldsInput w.inputs measured u)
    {P Q : Matrix (Fin (w.nTransients + w.nAsoh)) (Fin (w.nTransients + w.nAsoh)) ℝ} {R : Matrix (Fin 1) (Fin 1) ℝ}
    (hP : P.PosDef) (hQ : Q.PosDef) (hR : R.PosDef) (tune : Tuning) (ha : 1 / 1000 ≤ tune.alpha ∧ tune.alpha ≤ 1) (hb : 0 ≤ tune.beta)
    (hk : ∀ k, tune.kappa = some k → -((2 * (w.nTransients + w.nAsoh) + 1 : Nat) : ℝ) < k)
    (v : Fin w.nAsoh → ℝ) {st : Fin w.nTransients → ℝ} {tr c : Container ℝ} (htr : HoldsTransients tr series a.rcs.length st)
    (hcu : HoldsInput c measured u) :
    ∃ (E : Joint) (μ : Fin (w.nTransients + w.nAsoh) → ℝ) (T A : Arr2 ℝ) (m : HV ℝ) (s : CircuitSimulator),
      Joint.fromWrapper w (.inl ⟨_, _, P⟩) none (some ⟨_, _, Q⟩) none none (some ⟨1, 1, R⟩) tune = .ok E ∧
      (w.transients.toNumpy = .ok T ∧ w.asoh.getParameters (some w.names) = .ok A ∧ T.flat.append A.flat = ⟨_, μ⟩) ∧
      w.asoh.makeCopy (.d1 (List.ofFn v)) (some w.names) = .ok m ∧
      Simulator.init (Ecm.cell beh x) (NoDegradation _ _ _ _) m tr c true = .ok s ∧
      ∀ (svd : Mat → Vec × Mat) (cs : List (Container ℝ)) (us : List (Fin (2 + (if measured then 1 else 0)) → ℝ)),
        List.Forall₂ (HoldsInput · measured ·) cs us →
        (beh = .linear → ((u :: us).map fun u => (In.ofVec measured (List.ofFn u)).time).IsChain (· ≠ ·)) →
        ∃ s' xs ys fin, ∃ out : List (Belief (w.nTransients + w.nAsoh) × Belief 1),
          s.evolve cs = (s', .ok ys) ∧ (∃ now, s'.history = some now ∧ now.transients = tr :: xs) ∧ xs.length = cs.length ∧ ys.length = cs.length ∧
          E.run svd (cs.zip ys) = .ok (fin, out.map fun r => (r.1.gaussian, r.2.gaussian)) ∧
          List.Forall₂ (OffBy (misfit (μ - Fin.append st v) P) v) (xs.zip ys) out := by
  obtain ⟨E, u', μ, U, T, A, hE, ⟨hU, hu'⟩, hT, hrun⟩ := C133_runs hc he hs hid ht hi.single ho hP hQ hR tune ha hb hk
  cases hU.symm.trans hi.value
  obtain rfl : u' = u := by
    have := hu'.symm.trans (flat_ofRow u)
    exact eq_of_heq (Vec.mk.inj this).2
  obtain ⟨m, b, hm, hb1, hb2, hb3⟩ := copy_circuit hc he v
  have hp : CellWith w x (List.ofFn v) (parAt b 0) := ⟨m, b, hm, hb1.read, rfl⟩
  have hpr : (parAt b 0).rcs.length = a.rcs.length := by simp [parAt, hb2]
  rw [← hb2] at htr
  obtain ⟨Y, hY⟩ := (⟨_, circuit_shows (beh := beh) hb1 hb3 htr hcu⟩ : ∃ Y, _ = Except.ok Y)
  refine ⟨E, μ, T, A, m, ⟨Ecm.cell beh x, NoDegradation _ _ _ _, m, tr, c, Y, some ⟨[c], [tr], [m], [Y]⟩⟩, hE, hT, hm, by simp only [Simulator.init, hY]; rfl,
    fun svd cs us hcs hmoves => ?_⟩
  obtain ⟨s', xs, ys, h1, h2, h3, h4, -, h5⟩ := C115_single (beh := beh)
    (s := ⟨Ecm.cell beh x, NoDegradation _ _ _ _, m, tr, c, Y, some ⟨[c], [tr], [m], [Y]⟩⟩) ⟨rfl, rfl, hb1, hcu, htr⟩ hb3 hcs hmoves
  have hlu : us.length = cs.length := hcs.length_eq.symm
  have hbd := jointHistory_bounded hc hs hQ hR ((us.map fun u => In.ofVec measured (List.ofFn u)).map fun i => (i, 0, 0))
    (In.ofVec measured (List.ofFn u')) μ (Fin.append st v) P hP
  rw [jointRun_append hc hs hp hpr] at hbd
  have hlt := cellRun_length (beh := beh) (series := series) (parAt b 0) (us.map fun u => In.ofVec measured (List.ofFn u)) (In.ofVec measured (List.ofFn u')) st
  generalize cellRun beh (parAt b 0) series (In.ofVec measured (List.ofFn u')) st (us.map fun u => In.ofVec measured (List.ofFn u)) = truth at *
  have hlz : us.length = (truth.map Prod.snd).length := by rw [List.length_map, hlt, List.length_map]
  have hin : (us.zip (truth.map Prod.snd)).map (fun h => (In.ofVec measured (List.ofFn h.1), h.2)) =
      (((us.map fun u => In.ofVec measured (List.ofFn u)).map fun i => (i, (0 : Fin (w.nTransients + w.nAsoh) → ℝ), (0 : Fin 1 → ℝ))).map (·.1)).zip
        ((truth.map fun r => (Fin.append r.1 v, r.2)).map (·.2)) := by
    rw [List.map_map, List.map_map, List.map_map]
    show _ = (us.map fun u => In.ofVec measured (List.ofFn u)).zip (truth.map Prod.snd)
    rw [List.zip_map_left]
    rfl
  obtain ⟨fin, hfin⟩ := hrun svd (cs.zip ys) (us.zip (truth.map Prod.snd))
    (forall2_zip (S := fun y z => y = voltageOf (z 0)) hcs (List.forall₂_map_right_iff.2 (forall2_snd (by rw [h3, h4]) (h2.imp fun _ _ h => ⟨trivial, h.2⟩)))
      (fun c u y z h1 h2 => ⟨⟨_, h1.value, flat_ofRow _⟩, _, by rw [h2]; exact voltageOf_toNumpy z, flat_ofRow _⟩))
    (fun hb => by
      have e : ((us.zip (truth.map Prod.snd)).map fun z => (In.ofVec measured (List.ofFn z.1)).time) = us.map fun u => (In.ofVec measured (List.ofFn u)).time := by
        conv_rhs => rw [← List.map_fst_zip (l₁ := us) (l₂ := truth.map Prod.snd) hlz.le, List.map_map]
        rfl
      rw [e]
      exact hmoves hb)
  refine ⟨s', xs, ys, fin, _, h1, ⟨_, by rw [h5]; rfl, rfl⟩, h3, h4, hfin, ?_⟩
  rw [hin]
  obtain ⟨l1, l2, hbd⟩ := hbd
  refine forall2_of_get ?_ fun i r b hr hb => ?_
  · rw [l1, List.length_zip, h3, h4, List.length_map, List.length_map, hlu, min_self]
  · have hi : i < truth.length := by
      have := (List.getElem?_eq_some_iff.1 hb).1
      rw [l1, List.length_map, List.length_map] at this
      rw [hlt, List.length_map]
      exact this
    have hti := List.getElem?_eq_getElem hi
    obtain ⟨k1, k2⟩ := forall2_get h2 hr hti
    obtain ⟨g1, g2, g3, g4⟩ := hbd i b (Fin.append truth[i].1 v, truth[i].2) hb (by rw [List.getElem?_map, hti]; rfl)
    have hsum : ∀ l : List In, (((l.map fun i => (i, (0 : Fin (w.nTransients + w.nAsoh) → ℝ), (0 : Fin 1 → ℝ))).take (i + 1)).map fun d =>
        misfit d.2.1 Q + misfit d.2.2 R).sum = 0 := fun l => by
      rw [← List.map_take, List.map_map]
      refine List.sum_eq_zero fun y hy => ?_
      obtain ⟨_, -, rfl⟩ := List.mem_map.1 hy
      simp [misfit]
    rw [hsum, add_zero] at g3 g4
    exact ⟨_, _, k1.value, by rw [k2]; exact voltageOf_toNumpy _, g1, g2, g3, g4⟩

/-- C134, each parameter: its estimate is off the simulated value by at most `√E` of the standard deviations reported for it. -/
theorem C134_each {n k : Nat} {E : ℝ} {v : Fin k → ℝ} {r : Container ℝ × Container ℝ} {b : Belief (n + k) × Belief 1} (h : OffBy E v r b) (i : Fin k) :
    |b.1.mean (Fin.natAdd n i) - v i| ≤ √E * √(b.1.cov (Fin.natAdd n i) (Fin.natAdd n i)) := by
  obtain ⟨t, z, -, -, h3, -, h5, -⟩ := h
  have := C116_each (e := b.1.mean - Fin.append t v) h3 (Fin.natAdd n i)
  rw [Pi.sub_apply, Fin.append_right] at this
  exact this.trans (mul_le_mul_of_nonneg_right (Real.sqrt_le_sqrt h5) (Real.sqrt_nonneg _))

theorem misfit_eq_zero {n : Nat} {e : Fin n → ℝ} {P : Matrix (Fin n) (Fin n) ℝ} (hP : P.PosDef) (h : misfit e P ≤ 0) : e = 0 := by
  by_contra hne
  have := hP.inv.dotProduct_mulVec_pos hne
  simp only [star_trivial] at this
  exact absurd h (not_le.2 this)

/-- C134, an estimator that starts at the truth: the estimates are the simulated states and parameters, and the predictions the measurements. -/
theorem C134_exact {n k : Nat} {v : Fin k → ℝ} {r : Container ℝ × Container ℝ} {b : Belief (n + k) × Belief 1} (h : OffBy 0 v r b) :
    ∃ t : Fin n → ℝ, r.1.toNumpy = .ok (.ofRow (List.ofFn t)) ∧ b.1.mean = Fin.append t v ∧ r.2.toNumpy = .ok (.ofRow (List.ofFn b.2.mean)) := by
  obtain ⟨t, z, h1, h2, h3, h4, h5, h6⟩ := h
  refine ⟨t, h1, sub_eq_zero.1 (misfit_eq_zero h3 h5), ?_⟩
  rw [sub_eq_zero.1 (misfit_eq_zero h4 h6)]
  exact h2

/-! ## C135 -/

/-- C135: the estimator that `initialize_ukf_from_wrapper` builds from positive definite covariances and an admissible tuning runs through every history
of inputs and voltages.  Of all ways of the numbers of the cell – transient states, and parameters that may drift – that end at given numbers, the cheapest
(least squares of the deviations from the first values, from the circuit equations and from the measured voltages, in units of the covariances) costs as
much as all voltages missed their predictions, and the misfit of these numbers to the last estimate. -/
theorem C135_least_squares (hc : EstimatesCircuit w beh x measured series a) (he : Estimable w.names measured series a) (hs : JointlyStraight w.names a)
    (hid : w.plain = w) (ht : w.transients.Single) (hi : w.inputs.Single) (ho : w.nOut = 1)
    {P Q : Matrix (Fin (w.nTransients + w.nAsoh)) (Fin (w.nTransients + w.nAsoh)) ℝ} {R : Matrix (Fin 1) (Fin 1) ℝ}
    (hP : P.PosDef) (hQ : Q.PosDef) (hR : R.PosDef) (tune : Tuning) (ha : 1 / 1000 ≤ tune.alpha ∧ tune.alpha ≤ 1) (hb : 0 ≤ tune.beta)
    (hk : ∀ k, tune.kappa = some k → -((2 * (w.nTransients + w.nAsoh) + 1 : Nat) : ℝ) < k) :
    ∃ (E : Joint) (u : Fin (2 + (if measured then 1 else 0)) → ℝ) (μ : Fin (w.nTransients + w.nAsoh) → ℝ) (U T A : Arr2 ℝ),
      Joint.fromWrapper w (.inl ⟨_, _, P⟩) none (some ⟨_, _, Q⟩) none none (some ⟨1, 1, R⟩) tune = .ok E ∧
      (w.inputs.toNumpy = .ok U ∧ U.flat = ⟨_, u⟩) ∧
      (w.transients.toNumpy = .ok T ∧ w.asoh.getParameters (some w.names) = .ok A ∧ T.flat.append A.flat = ⟨_, μ⟩) ∧
      ∀ (svd : Mat → Vec × Mat) (hist : List (Container ℝ × Container ℝ)) (zs : List ((Fin (2 + (if measured then 1 else 0)) → ℝ) × (Fin 1 → ℝ))),
        List.Forall₂ (fun m h => (∃ v, m.1.toNumpy = .ok v ∧ v.flat = ⟨_, h.1⟩) ∧ ∃ y, m.2.toNumpy = .ok y ∧ y.flat = ⟨1, h.2⟩) hist zs →
        (beh = .linear → ((In.ofVec measured (List.ofFn u)).time :: zs.map fun z => (In.ofVec measured (List.ofFn z.1)).time).IsChain (· ≠ ·)) →
        ∃ fin, ∃ out : List (Belief (w.nTransients + w.nAsoh) × Belief 1),
          E.run svd hist = .ok (fin, out.map fun r => (r.1.gaussian, r.2.gaussian)) ∧ out.length = hist.length ∧
          let last := (out.map Prod.fst).getLastD ⟨μ, P⟩
          let cost := fun y ys => misfit (y - μ) P + jointDeviations w x beh series a.rcs.length Q R (In.ofVec measured (List.ofFn u))
            (zs.map fun z => (In.ofVec measured (List.ofFn z.1), z.2)) y ys
          Cheapest cost zs.length last (surprise (zs.map Prod.snd) out) ∧
          IsLeast {c | ∃ y ys, ys.length = zs.length ∧ c = cost y ys} (surprise (zs.map Prod.snd) out) ∧
          ∀ y ys, ys.length = zs.length → cost y ys = surprise (zs.map Prod.snd) out → ys.getLastD y = last.mean := by
  obtain ⟨E, u, μ, U, T, A, hE, hU, hT, hrun⟩ := C133_runs hc he hs hid ht hi ho hP hQ hR tune ha hb hk
  refine ⟨E, u, μ, U, T, A, hE, hU, hT, fun svd hist zs hh hmoves => ?_⟩
  obtain ⟨fin, hfin⟩ := hrun svd hist zs hh hmoves
  have hch := jointHistory_cheapest hc hs hQ hR (zs.map fun z => (In.ofVec measured (List.ofFn z.1), z.2)) (In.ofVec measured (List.ofFn u)) ⟨μ, P⟩ hP
  obtain ⟨k1, k2⟩ := jointHistory_last (w := w) (x := x) (beh := beh) (series := series) (a := a) hQ hR
    (zs.map fun z => (In.ofVec measured (List.ofFn z.1), z.2)) (In.ofVec measured (List.ofFn u)) ⟨μ, P⟩ hP
  rw [List.length_map] at k2
  rw [List.length_map, List.map_map] at hch
  exact ⟨fin, _, hfin, k2.trans hh.length_eq.symm, hch, C124_estimate_is_best hch k1⟩

/-! ## The concrete circuit -/

/-- The state of the concrete circuit at SOC 0.4. -/
noncomputable def Demo.lowState : Container ℝ := ⟨[(kSoc, some (.ofRow [0.4])), (kQ0, none), (kIrc, some (.ofRow [0])), (kHyst, some (.ofRow [0]))]⟩

theorem Demo.low_holds : HoldsTransients Demo.lowState false Demo.arrays.rcs.length (![0.4, 0, 0] : Fin 3 → ℝ) := ⟨rfl, by
  intro q hq
  have hq : q ∈ [(kSoc, Arr2.ofRow [(0.4 : ℝ)]), (kIrc, .ofRow [0]), (kHyst, .ofRow [0])] := hq
  simp only [List.mem_cons, List.not_mem_nil, or_false] at hq
  rcases hq with rfl | rfl | rfl <;> rfl, by
  rw [show List.ofFn ![(0.4 : ℝ), 0, 0] = [0.4, 0, 0] by simp [List.ofFn_succ]]; rfl⟩

-- The estimator of R0 of the concrete circuit starts at SOC 1/2 and 50 mΩ; the simulated cell starts at SOC 0.4 and has the resistance 0.15 Ω, so they are off by
-- two hundredths of the (unit) variances.  Whatever the times, currents and temperatures: every estimated resistance is off 0.15 Ω by at most 0.15 of the
-- standard deviations reported with it.
example (beh : Behavior) (svd : Mat → Vec × Mat) (us : List (Fin 3 → ℝ)) (ht : (0 :: us.map (· 0)).IsChain (· ≠ ·)) :
    ∃ E m s s' ys fin, ∃ out : List (Belief 4 × Belief 1),
      Joint.fromWrapper (Demo.estimatingR0 beh .identity) (.inl ⟨4, 4, 1⟩) none (some ⟨4, 4, 1⟩) none none (some ⟨1, 1, 1⟩) ⟨1 / 2, none, 2⟩ = .ok E ∧
      Demo.hvCircuit.makeCopy (.d1 [0.15]) (some [Demo.nR0]) = .ok m ∧
      Simulator.init (Ecm.cell beh Demo.fixed) (NoDegradation _ _ _ _) m Demo.lowState Demo.hvInput true = .ok s ∧
      s.evolve (Demo.inputs us) = (s', .ok ys) ∧ E.run svd ((Demo.inputs us).zip ys) = .ok (fin, out.map fun r => (r.1.gaussian, r.2.gaussian)) ∧
      out.length = us.length ∧ ∀ b ∈ out, |b.1.mean 3 - 0.15| ≤ 0.15 * √(b.1.cov 3 3) := by
  have ei : ∀ u : Fin 3 → ℝ, In.ofVec true (List.ofFn u) = ⟨u 0, u 1, some (u 2)⟩ := fun u => by simp [In.ofVec, List.ofFn_succ]
  obtain ⟨E, μ, T, A, m, s, hE, ⟨hT, hA, hy⟩, hm, hs, hrun⟩ := C134_simulated (Demo.estimatingR0_circuit beh .identity) (Demo.estimatingR0_estimable _ _)
    (Demo.estimatingR0_straight _ _) rfl Demo.hvState_single rfl Demo.input_holds (P := 1) (Q := 1) (R := 1) .one .one .one ⟨1 / 2, none, 2⟩
    ⟨by norm_num, by norm_num⟩ (by norm_num) nofun ![0.15] (st := ![0.4, 0, 0])
    (tr := Demo.lowState) (c := Demo.hvInput)
    Demo.low_holds Demo.input_holds
  cases (Except.ok.inj hT)
  cases (Except.ok.inj hA)
  obtain rfl : ![0.5, 0, 0, 0.05] = μ := Vec.mk.inj hy |>.2 |> eq_of_heq |> fun h => by rw [← h]; funext k; fin_cases k <;> rfl
  obtain ⟨s', xs, ys, fin, out, h1, -, h3, h3', h4, h5⟩ := hrun svd (Demo.inputs us) us (Demo.inputs_hold us) (fun _ => by
    simp only [ei, List.map_cons]; exact ht)
  have hlen : (Demo.inputs us).length = us.length := by simp [Demo.inputs]
  have hv : List.ofFn (![0.15] : Fin 1 → ℝ) = [0.15] := by simp [List.ofFn_succ]
  have e : misfit ((![0.5, 0, 0, 0.05] : Fin 4 → ℝ) - Fin.append (![0.4, 0, 0] : Fin 3 → ℝ) (![0.15] : Fin 1 → ℝ)) 1 = 0.02 := by
    have ea : Fin.append (![0.4, 0, 0] : Fin 3 → ℝ) (![0.15] : Fin 1 → ℝ) = ![0.4, 0, 0, 0.15] := by funext i; fin_cases i <;> rfl
    rw [ea, misfit, inv_one, one_mulVec]
    norm_num
  refine ⟨E, m, s, s', ys, fin, out, hE, (congrArg (fun l => Demo.hvCircuit.makeCopy (.d1 l) (some [Demo.nR0])) hv).symm.trans hm, hs, h1, h4, ?_, fun b hb => ?_⟩
  · exact h5.length_eq.symm.trans (by rw [List.length_zip, h3, h3', hlen, min_self])
  · obtain ⟨i, hi⟩ := List.mem_iff_getElem?.1 hb
    have hi' : i < (xs.zip ys).length := by rw [h5.length_eq]; exact (List.getElem?_eq_some_iff.1 hi).1
    have := C134_each (forall2_get h5 (List.getElem?_eq_getElem hi') hi) (0 : Fin 1)
    have h : |b.1.mean 3 - 0.15| ≤ √0.02 * √(b.1.cov 3 3) := by
      rw [← e]
      exact this
    exact h.trans (mul_le_mul_of_nonneg_right (Real.sqrt_le_iff.2 ⟨by norm_num, by norm_num⟩) (Real.sqrt_nonneg _))

-- The estimator of R0 of the concrete circuit with the true values: whatever was simulated is estimated exactly.
example {r : Container ℝ × Container ℝ} {b : Belief (3 + 1) × Belief 1} (h : OffBy 0 ![0.05] r b) : b.1.mean 3 = 0.05 := by
  obtain ⟨t, -, h2, -⟩ := C134_exact h
  rw [h2]
  exact Fin.append_right t ![0.05] 0

-- Least squares of the concrete circuit: no way of SOC, RC current, hysteresis and R0 fits the data better than the estimates predicted them.
example (beh : Behavior) {P Q : Matrix (Fin 4) (Fin 4) ℝ} (hP : P.PosDef) (hQ : Q.PosDef)
    (svd : Mat → Vec × Mat) (hist : List (ℝ × ℝ × ℝ × ℝ)) (hmoves : beh = .linear → (0 :: hist.map (·.1)).IsChain (· ≠ ·)) :
    ∃ E fin, ∃ out : List (Belief 4 × Belief 1),
    Joint.fromWrapper (Demo.estimatingR0 beh .identity) (.inl ⟨4, 4, P⟩) none (some ⟨4, 4, Q⟩) none none (some ⟨1, 1, 1⟩) ⟨1 / 2, none, 2⟩ = .ok E ∧
    E.run svd (hist.map fun m => (⟨[(kTime, some (.ofRow [m.1])), (kCurrent, some (.ofRow [m.2.1])), (kTemp, some (.ofRow [m.2.2.1]))]⟩,
      ⟨[(kVoltage, some (.ofRow [m.2.2.2]))]⟩)) = .ok (fin, out.map fun r => (r.1.gaussian, r.2.gaussian)) ∧
    ∀ y ys, ys.length = hist.length → surprise (hist.map fun m => ![m.2.2.2]) out ≤ misfit (y - ![0.5, 0, 0, 0.05]) P +
      jointDeviations (Demo.estimatingR0 beh .identity) Demo.fixed beh false 1 Q 1 ⟨0, 1, some 30⟩
        (hist.map fun m => (⟨m.1, m.2.1, some m.2.2.1⟩, ![m.2.2.2])) y ys := by
  obtain ⟨E, u, y, U, T, A, hE, ⟨hU, hu⟩, ⟨hT, hA, hy⟩, hrun⟩ := C135_least_squares (Demo.estimatingR0_circuit beh .identity) (Demo.estimatingR0_estimable _ _)
    (Demo.estimatingR0_straight _ _) rfl Demo.hvState_single Demo.hvInput_single rfl hP hQ .one ⟨1 / 2, none, 2⟩ ⟨by norm_num, by norm_num⟩ (by norm_num) nofun
  cases (Except.ok.inj hU)
  cases (Except.ok.inj hT)
  cases (Except.ok.inj hA)
  obtain rfl : ![0, 1, 30] = u := Vec.mk.inj hu |>.2 |> eq_of_heq |> fun h => by rw [← h]; funext k; fin_cases k <;> rfl
  obtain rfl : ![0.5, 0, 0, 0.05] = y := Vec.mk.inj hy |>.2 |> eq_of_heq |> fun h => by rw [← h]; funext k; fin_cases k <;> rfl
  obtain ⟨fin, out, h1, -, -, h2, -⟩ := hrun svd (hist.map fun m =>
    (⟨[(kTime, some (.ofRow [m.1])), (kCurrent, some (.ofRow [m.2.1])), (kTemp, some (.ofRow [m.2.2.1]))]⟩,
      ⟨[(kVoltage, some (.ofRow [m.2.2.2]))]⟩)) (hist.map fun m => (![m.1, m.2.1, m.2.2.1], ![m.2.2.2])) (by
    clear hrun hmoves
    induction hist with
    | nil => exact .nil
    | cons y hist ih =>
      exact .cons ⟨⟨.ofRow [y.1, y.2.1, y.2.2.1], rfl, congrArg (Vec.mk 3) (funext fun k => by fin_cases k <;> rfl)⟩, .ofRow [y.2.2.2], rfl,
        congrArg (Vec.mk 1) (funext fun k => by fin_cases k; rfl)⟩ ih) (fun hb => by rw [List.map_map]; exact hmoves hb)
  refine ⟨E, fin, out, hE, h1, fun y ys hy => ?_⟩
  rw [List.map_map, List.map_map] at h2
  exact h2.2 ⟨y, ys, by rw [List.length_map]; exact hy, rfl⟩

end Verif
