import Verif.Spec.JointKalman
import Verif.Props.Regression
import Verif.Props.EcmPipeline
/-!
# Joint estimation of resistances and voltages is the Kalman filter (C133)
-/

namespace Verif
open Ecm Cell Spec Matrix

variable {w : JointWrapper} {beh : Behavior} {x : Fixed} {measured series : Bool} {a : ASOH}

/-! ## Proofs: the cell with its parameters -/

theorem joint_values (hc : EstimatesCircuit w beh x measured series a) (y : Fin (w.nTransients + w.nAsoh) → ℝ) :
    ∃ m b, w.asoh.makeCopy (.d1 ((List.ofFn y).drop w.nTransients)) (some w.names) = .ok m ∧ readASOH x m = .ok b ∧
      ASOHRel (valueRel w.asoh w.names ((List.ofFn y).drop w.nTransients)) a b := by
  have htot : ((List.ofFn y).drop w.nTransients).length = totalSize w.asoh w.names := by
    obtain ⟨A0, hA0, hA0n⟩ := hc.ready.nAsoh_eq
    rw [width_eq hc.ready.asoh_wf hc.ready.asoh_single (fun n hn => updatable_subset (hc.ready.names_updatable n hn)) hA0, hA0n, List.length_drop,
      List.length_ofFn]
    omega
  obtain ⟨m, h1, h2⟩ := copy_values hc.ready.asoh_wf hc.ready.asoh_single hc.ready.names_distinct hc.ready.names_updatable htot
  obtain ⟨b, h3, h4⟩ := readASOH_alike h2 hc.read
  exact ⟨m, b, h1, h3, h4⟩

section
variable {m : HV ℝ} {ns : List Name} {N d : Nat}

/-- The value of a curve at an SOC, both among the numbers of the cell. -/
theorem curve_joint {k : List Name} {h : Interp} {c : (Fin N → ℝ) → Interp}
    (hr : ∀ y, CurveRel (Ecm.below (valueRel m ns ((List.ofFn y).drop d)) k) h (c y)) (hc : Curve 1 h)
    (hs : (OnLine h ∧ ¬ Named ns (k ++ [kBase])) ∨ h.width = 1) {s : (Fin N → ℝ) → ℝ} (hsoc : AffineFn s) :
    AffineFn fun y => curveAt (c y) 0 (s y) := by
  by_cases hp : pathName (k ++ [kBase]) ∈ ns
  · have h1 : h.width = 1 := hs.elim (fun h => absurd hp h.2) id
    refine (AffineFn.entry (d + (firstOf m ns (pathName (k ++ [kBase])) + 0))).congr fun y => ?_
    obtain ⟨⟨y1, y2, e1, e2, g1, -, -, -, g5⟩, -⟩ := hr y
    have hw : y1.ncol = 1 := by
      rw [← h1]
      simp only [Interp.width, e1, Arr2.toNd, List.getD_cons_succ, List.getD_cons_zero]
    have wd : (c y).width = 1 := by
      simp only [Interp.width, e2, Arr2.toNd, g1, List.getD_cons_succ, List.getD_cons_zero, hw]
    simp only [curveAt, wd, if_true, ite_self]
    rw [e2]
    refine (g5 hp 0 (by rw [hw]; decide)).trans ?_
    simp [List.getD_eq_getElem?_getD, List.getElem?_drop]
  · have hl : OnLine h := hs.elim (fun h => h.1) .inl
    obtain ⟨e, he⟩ := hl.curve hc
    refine ((AffineFn.const (curveAt h 0 0)).add (hsoc.mul e)).congr fun y => ?_
    rw [curve_same (hr y) hp]
    exact he _

theorem joint_step_affine {P : (Fin N → ℝ) → Par} {p : Par} (hp : Straight p) (hqt : ∀ y, (P y).qt = p.qt) (hce : ∀ y, (P y).ce = p.ce)
    (hrcs : ∀ y, (P y).rcs = p.rcs) (hga : ∀ y, (P y).gamma = p.gamma)
    (hM : AffineFn fun y => (P y).hystMax ((List.ofFn y).getD 0 0)) (hN : 1 + (if series then 1 else 0) + p.rcs.length + 1 ≤ N) (prev new : In) (i : Fin N) :
    AffineFn fun y : Fin N → ℝ => ((step beh prev new (St.ofVec series p.rcs.length (List.ofFn y)) (P y)).toVec ++
      (List.ofFn y).drop (1 + (if series then 1 else 0) + p.rcs.length + 1)).getD i 0 := by
  have heff : ∀ y, eff prev (P y) = eff prev p := fun y => by simp only [eff, hce]
  have hκ : ∀ y, kappa prev (P y) = kappa prev p := fun y => by simp only [kappa, heff, hga, hqt]
  let pre (s : St) : List ℝ := s.soc :: (s.q0.toList ++ s.irc)
  have hvec : ∀ s : St, s.toVec = pre s ++ [s.hyst] := fun s => by simp [pre, St.toVec]
  have hpre : ∀ y, pre (step beh prev new (St.ofVec series p.rcs.length (List.ofFn y)) (P y)) =
      pre (step beh prev new (St.ofVec series p.rcs.length (List.ofFn y)) p) := fun y => by
    simp only [pre, step, heff, hqt, hrcs]
  have hlen : ∀ y : Fin N → ℝ, (pre (step beh prev new (St.ofVec series p.rcs.length (List.ofFn y)) p)).length =
      1 + (if series then 1 else 0) + p.rcs.length := by
    intro y
    simp only [pre, step, St.ofVec, List.length_cons, List.length_append, List.length_zipWith, List.length_take, List.length_drop, List.length_ofFn]
    cases series <;> simp only [if_true, Bool.false_eq_true, if_false, Option.map_some, Option.map_none, Option.toList_some, Option.toList_none,
      List.length_cons, List.length_nil] at hN ⊢ <;> omega
  rcases Nat.lt_trichotomy i.val (1 + (if series then 1 else 0) + p.rcs.length) with hi | hi | hi
  · refine (cellStep_affine (beh := beh) (series := series) hp hN prev new i).congr fun y => ?_
    rw [hvec, hpre, List.append_assoc, List.getD_append _ _ _ _ (by rw [hlen]; exact hi)]
    show _ = (St.toVec _).getD _ _
    rw [hvec, List.getD_append _ _ _ _ (by rw [hlen]; exact hi)]
  · refine (hystNext_target (beh := beh) (new := new) (S := fun y => St.ofVec series p.rcs.length (List.ofFn y)) hM (.entry _) hκ).congr fun y => ?_
    rw [hvec, hpre, List.append_assoc, List.getD_append_right _ _ _ _ (by rw [hlen, hi]), hlen, hi, Nat.sub_self]
    rfl
  · refine (AffineFn.entry i.val).congr fun y => ?_
    rw [hvec, hpre, List.getD_append_right _ _ _ _ (by rw [List.length_append, hlen]; exact hi), List.length_append, hlen]
    simp only [List.getD_eq_getElem?_getD, List.getElem?_drop, List.length_singleton]
    rw [Nat.add_sub_cancel' hi]

theorem joint_volt_affine {P : (Fin N → ℝ) → Par} {p : Par} (hp : Straight p) (hc0 : ∀ y, (P y).c0 = p.c0) (hrcs : ∀ y, (P y).rcs = p.rcs) {new : In}
    (hz : p.ocv = fun _ _ => 0) (hz' : p.r0 = fun _ _ => 0)
    (hocv : AffineFn fun y => (P y).ocv ((List.ofFn y).getD 0 0) new.temp) (hr0 : AffineFn fun y => (P y).r0 ((List.ofFn y).getD 0 0) new.temp) :
    AffineFn fun y : Fin N → ℝ => volt new (St.ofVec series p.rcs.length (List.ofFn y)) (P y) := by
  refine ((hocv.add (hr0.mul new.current)).add (cellVolt_affine (series := series) hp new 0)).congr fun y => ?_
  simp only [cellVolt, volt, hc0, hrcs, hz, hz']
  show (P y).ocv ((List.ofFn y).getD 0 0) new.temp + _ * (P y).r0 ((List.ofFn y).getD 0 0) new.temp + _ + _ + _ = _
  ring

end

theorem joint_affine (hc : EstimatesCircuit w beh x measured series a) (hs : JointlyStraight w.names a) (prev new : In) :
    (∀ i, AffineFn fun y : Fin (w.nTransients + w.nAsoh) → ℝ => jointStep w x beh series a.rcs.length prev new y i) ∧
    ∀ i, AffineFn fun y : Fin (w.nTransients + w.nAsoh) → ℝ => jointVolt w x series a.rcs.length new y i := by
  choose m b h1 h2 h3 using joint_values hc
  choose o1 o2 o3 o4 o5 o6 o7 using fun y => par_others (h3 y) hs.only
  have hex : ∀ y : Fin (w.nTransients + w.nAsoh) → ℝ, ∃ p, CellWith w x ((List.ofFn y).drop w.nTransients) p := fun y => ⟨_, m y, b y, h1 y, h2 y, rfl⟩
  have hch : ∀ y, (hex y).choose = parAt (b y) 0 := fun y => CellWith.unique (hex y).choose_spec ⟨m y, b y, h1 y, h2 y, rfl⟩
  let p : Par := { parAt a 0 with ocv := fun _ _ => 0, r0 := fun _ _ => 0, hystMax := fun _ => 0 }
  have hlen : p.rcs.length = a.rcs.length := by simp [p, parAt]
  have flat : ∀ {h : Interp}, h.width = 1 → ∀ s, curveAt h 0 s = curveAt h 0 0 := fun hw s => by simp [curveAt, hw]
  have hp : Straight p := by
    refine ⟨fun t => ⟨0, fun s => by simp [p]⟩, fun t => ⟨0, fun s => by simp [p]⟩, ⟨0, fun s => by simp [p]⟩, fun c hc' s => ?_, fun rc hrc s => ?_,
      ⟨hs.divisors.qt, hs.divisors.rcs, hs.divisors.c0⟩⟩
    · obtain ⟨c', hc'', rfl⟩ := Option.mem_map.1 hc'
      exact flat (hs.c0 c' hc'') s
    · obtain ⟨rc', hrc', rfl⟩ := List.mem_map.1 hrc
      refine ⟨fun t => ?_, flat (hs.rcs rc' hrc').2 s⟩
      cases t with
      | none => exact flat (hs.rcs rc' hrc').1 s
      | some t => simp only [resAt]; rw [flat (hs.rcs rc' hrc').1 s]
  have hT : w.nTransients = 1 + (if series then 1 else 0) + p.rcs.length + 1 := by rw [hlen]; exact circuit_width hc
  have hsoc : AffineFn fun y : Fin (w.nTransients + w.nAsoh) → ℝ => (List.ofFn y).getD 0 0 := .entry 0
  constructor
  · intro i
    refine (joint_step_affine (beh := beh) (series := series) (P := fun y => parAt (b y) 0) hp o1 o2 o4 o5
      (curve_joint (fun y => (h3 y).hyst) hc.single.hyst hs.hyst hsoc) (by omega) prev new i).congr fun y => ?_
    simp only [jointStep, dif_pos (hex y), hch]
    rw [← hT, hlen]
  · intro i
    have hr := curve_joint (fun y => (h3 y).ref) hc.single.ref hs.ref hsoc
    have hn := curve_joint (fun y => (h3 y).ent) hc.single.ent hs.ent hsoc
    have h0 := curve_joint (fun y => (h3 y).r0.1) hc.single.r0.1 hs.r0 hsoc
    refine (joint_volt_affine (series := series) (P := fun y => parAt (b y) 0) (new := new) hp o3 o4 rfl rfl ?_ ?_).congr fun y => ?_
    · cases hT : new.temp with
      | none => exact hr
      | some t =>
        refine (hr.add (hn.mul (t - at2 a.ocv.refTemp 0))).congr fun z => ?_
        show curveAt (b z).ocv.ref 0 _ + (t - at2 (b z).ocv.refTemp 0) * curveAt (b z).ocv.ent 0 _ = _
        rw [o6]
    · cases hT : new.temp with
      | none => exact h0
      | some t =>
        refine (h0.mul (Real.exp (-at2 a.r0.tdf 0 * (t - a.r0.refTemp)))).congr fun z => ?_
        show curveAt (b z).r0.interp 0 _ * Real.exp (-at2 (b z).r0.tdf 0 * (t - (b z).r0.refTemp)) = _
        rw [o7, (h3 z).r0.2.1, mul_comm]
    · simp only [jointVolt, dif_pos (hex y), hch]
      rw [hlen]

/-- Every list of numbers stands for exactly one cell. -/
theorem joint_cell (hc : EstimatesCircuit w beh x measured series a) (prev new : In) (y : Fin (w.nTransients + w.nAsoh) → ℝ) :
    (∃ p, CellWith w x ((List.ofFn y).drop w.nTransients) p) ∧
    ∀ p, CellWith w x ((List.ofFn y).drop w.nTransients) p →
      List.ofFn (jointStep w x beh series a.rcs.length prev new y) =
        (step beh prev new (St.ofVec series a.rcs.length (List.ofFn y)) p).toVec ++ (List.ofFn y).drop w.nTransients ∧
      jointVolt w x series a.rcs.length new y 0 = volt new (St.ofVec series a.rcs.length (List.ofFn y)) p := by
  obtain ⟨m, b, h1, h2, h3⟩ := joint_values hc y
  have hex : ∃ p, CellWith w x ((List.ofFn y).drop w.nTransients) p := ⟨_, m, b, h1, h2, rfl⟩
  refine ⟨hex, fun p hp => ?_⟩
  have hch : hex.choose = p := CellWith.unique hex.choose_spec hp
  refine ⟨?_, by simp only [jointVolt, dif_pos hex, hch]⟩
  have hl : (step beh prev new (St.ofVec series a.rcs.length (List.ofFn y)) p).toVec.length = w.nTransients := by
    have hpr : p.rcs.length = a.rcs.length := by
      obtain ⟨m', b', k1, k2, rfl⟩ := hp
      cases h1.symm.trans k1
      cases h2.symm.trans k2
      simp [parAt, h3.rcs.1]
    have := circuit_width hc
    simp only [St.toVec, step, St.ofVec, List.length_cons, List.length_append, List.length_zipWith, List.length_take, List.length_drop, List.length_ofFn,
      hpr, List.length_nil]
    cases series <;> simp only [if_true, Bool.false_eq_true, if_false, Option.map_some, Option.map_none, Option.toList_some, Option.toList_none,
      List.length_cons, List.length_nil] at this ⊢ <;> omega
  refine List.ext_getElem ?_ fun i i1 i2 => ?_
  · rw [List.length_ofFn, List.length_append, hl, List.length_drop, List.length_ofFn]
    omega
  · rw [List.getElem_ofFn]
    simp only [jointStep, dif_pos hex, hch]
    rw [List.getD_eq_getElem?_getD, List.getElem?_eq_getElem i2, Option.getD_some]

/-! ## C133 -/

/-- C133, the cell with its parameters: every list of numbers stands for exactly one cell, whose state one step later (with the same parameters) and
whose voltage are those of `jointStep` and `jointVolt`, and these are affine functions of the numbers. -/
theorem C133_affine (hc : EstimatesCircuit w beh x measured series a) (hs : JointlyStraight w.names a) (prev new : In)
    (y : Fin (w.nTransients + w.nAsoh) → ℝ) :
    (∃ p, CellWith w x ((List.ofFn y).drop w.nTransients) p) ∧
    (∀ p, CellWith w x ((List.ofFn y).drop w.nTransients) p →
      List.ofFn (jointStep w x beh series a.rcs.length prev new y) =
        (step beh prev new (St.ofVec series a.rcs.length (List.ofFn y)) p).toVec ++ (List.ofFn y).drop w.nTransients ∧
      jointVolt w x series a.rcs.length new y 0 = volt new (St.ofVec series a.rcs.length (List.ofFn y)) p) ∧
    jointStep w x beh series a.rcs.length prev new y =
      slopes (jointStep w x beh series a.rcs.length prev new) *ᵥ y + jointStep w x beh series a.rcs.length prev new 0 ∧
    jointVolt w x series a.rcs.length new y = slopes (jointVolt w x series a.rcs.length new) *ᵥ y +
      jointVolt w x series a.rcs.length new (0 : Fin (w.nTransients + w.nAsoh) → ℝ) := by
  obtain ⟨g1, g2⟩ := joint_affine hc hs prev new
  obtain ⟨h1, h2⟩ := joint_cell hc prev new y
  exact ⟨h1, h2, slopes_affine g1 y, slopes_affine g2 y⟩

/-- C133, one step of the filter in the coordinates of the model: exactly one step of the Kalman filter. -/
theorem C133_step (hc : EstimatesCircuit w beh x measured series a) (he : Estimable w.names measured series a) (hs : JointlyStraight w.names a)
    {f : Ukf Unit} (hf : f.model = w.plain.toWrapper)
    {μ : Fin (w.nTransients + w.nAsoh) → ℝ} {P Q : Matrix (Fin (w.nTransients + w.nAsoh)) (Fin (w.nTransients + w.nAsoh)) ℝ} {R : Matrix (Fin 1) (Fin 1) ℝ}
    (h : f.Holds (w.nTransients + w.nAsoh) 1 μ P Q R) (hP : P.PosDef) (hQ : Q.PosDef) (hR : R.PosDef) (svd : Mat → Vec × Mat)
    (new meas : Dist) {u u' : Fin (2 + (if measured then 1 else 0)) → ℝ} (hu : f.controls.mean = ⟨_, u⟩) (hu' : new.mean = ⟨_, u'⟩)
    {z : Fin 1 → ℝ} (hz : meas.mean = ⟨1, z⟩)
    (hmoves : beh = .linear → (In.ofVec measured (List.ofFn u')).time ≠ (In.ofVec measured (List.ofFn u)).time) :
    let r := jointKalman w x beh series a.rcs.length Q R (In.ofVec measured (List.ofFn u)) (In.ofVec measured (List.ofFn u')) ⟨μ, P⟩ z
    f.step svd new meas = .ok ({ f with hidden := r.1.gaussian, controls := new }, (r.1.gaussian, r.2.gaussian)) ∧ r.1.cov.PosDef := by
  refine h.step_affine _ _ _ _ hP hQ hR le_rfl svd new meas z hz f.mem (fun K hK X => ?_) (fun K hK X => ?_)
  · obtain ⟨k1, k2, -⟩ := circuit_update hc hK X (v := ⟨_, u⟩) (v' := ⟨_, u'⟩) rfl rfl
    obtain ⟨H, hH⟩ := k2 hmoves he
    obtain ⟨Z, rfl, hZ⟩ := k1 H hH
    rw [hf, hu, hu']
    show (do return (← w.plain.update ⟨K, _, X⟩ ⟨_, u⟩ ⟨_, u'⟩, ()) : Except Err (Mat × Unit)) = _
    rw [hH, ok_bind]
    refine congrArg (fun Z => Except.ok (Mat.mk K (w.nTransients + w.nAsoh) Z, ())) (funext fun i => ?_)
    obtain ⟨p, hp, e⟩ := hZ i
    obtain ⟨-, g1, g2, -⟩ := C133_affine hc hs (In.ofVec measured (List.ofFn u)) (In.ofVec measured (List.ofFn u')) (X i)
    rw [← g2]
    exact List.ofFn_injective (e.trans (g1 p hp).1.symm)
  · obtain ⟨k1, k2⟩ := circuit_predict hc hK X (v := ⟨_, u'⟩) rfl
    obtain ⟨H, hH⟩ := k2 he
    obtain ⟨Z, rfl, hZ⟩ := k1 H hH
    rw [hf, hu']
    show w.plain.predict ⟨K, _, X⟩ ⟨_, u'⟩ = _
    rw [hH]
    refine congrArg (fun Z => Except.ok (Mat.mk K 1 Z)) (funext fun i => ?_)
    obtain ⟨p, hp, e⟩ := hZ i
    obtain ⟨-, g1, -, g3⟩ := C133_affine hc hs (In.ofVec measured (List.ofFn u)) (In.ofVec measured (List.ofFn u')) (X i)
    rw [← g3]
    funext j
    obtain rfl : j = 0 := Subsingleton.elim _ _
    exact e.trans (g1 p hp).2.symm

/-- C133, histories: whatever the history, the filter runs and estimates exactly what the Kalman filter does.  Under linear behaviour no two
consecutive inputs may have the same time. -/
theorem C133_history (hc : EstimatesCircuit w beh x measured series a) (he : Estimable w.names measured series a) (hs : JointlyStraight w.names a)
    {Q : Matrix (Fin (w.nTransients + w.nAsoh)) (Fin (w.nTransients + w.nAsoh)) ℝ} {R : Matrix (Fin 1) (Fin 1) ℝ}
    (hQ : Q.PosDef) (hR : R.PosDef) (svd : Mat → Vec × Mat) (hist : List (Dist × Dist)) :
    ∀ (zs : List ((Fin (2 + (if measured then 1 else 0)) → ℝ) × (Fin 1 → ℝ))) (f : Ukf Unit) (u : Fin (2 + (if measured then 1 else 0)) → ℝ)
      (b : Belief (w.nTransients + w.nAsoh)),
      f.model = w.plain.toWrapper → f.Holds (w.nTransients + w.nAsoh) 1 b.mean b.cov Q R → b.cov.PosDef → f.controls.mean = ⟨_, u⟩ →
      HasMeans hist (zs.map fun z => (⟨_, z.1⟩, z.2)) →
      (beh = .linear → ((In.ofVec measured (List.ofFn u)).time :: zs.map fun z => (In.ofVec measured (List.ofFn z.1)).time).IsChain (· ≠ ·)) →
      ∃ f', f.run svd hist = .ok (f', (jointHistory w x beh series a.rcs.length Q R (In.ofVec measured (List.ofFn u)) b
        (zs.map fun z => (In.ofVec measured (List.ofFn z.1), z.2))).map fun r => (r.1.gaussian, r.2.gaussian)) := by
  induction hist with
  | nil =>
    intro zs f u b hf h hP hu hmeans hmoves
    cases zs with
    | nil => exact ⟨f, rfl⟩
    | cons z zs => cases hmeans
  | cons d hist ih =>
    intro zs f u b hf h hP hu hmeans hmoves
    cases zs with
    | nil => cases hmeans
    | cons z zs =>
      obtain ⟨new, meas⟩ := d
      obtain ⟨u', z⟩ := z
      cases hmeans with
      | cons hd hrest =>
      obtain ⟨hstep, hpd⟩ := C133_step hc he hs hf h hP hQ hR svd new meas hu hd.1 hd.2 fun hb => (List.isChain_cons_cons.1 (hmoves hb)).1.symm
      let r := jointKalman w x beh series a.rcs.length Q R (In.ofVec measured (List.ofFn u)) (In.ofVec measured (List.ofFn u')) b z
      obtain ⟨f', hf'⟩ := ih zs { f with hidden := r.1.gaussian, controls := new } u' r.1 hf (h.after _ _ _ new) hpd hd.1 hrest
        fun hb => (List.isChain_cons_cons.1 (hmoves hb)).2
      refine ⟨f', ?_⟩
      rw [Ukf.run, hstep, ok_bind]
      simp only []
      rw [hf', ok_bind]
      rfl

/-- C133, from construction, in the coordinates of the model: the estimator that `initialize_ukf_from_wrapper` builds, with any positive definite
covariances and any admissible tuning, starts from the values of the templates and runs through every history; what it returns are the beliefs of the
Kalman filter. -/
theorem C133_runs (hc : EstimatesCircuit w beh x measured series a) (he : Estimable w.names measured series a) (hs : JointlyStraight w.names a)
    (hid : w.plain = w) (ht : w.transients.Single) (hi : w.inputs.Single) (ho : w.nOut = 1)
    {P Q : Matrix (Fin (w.nTransients + w.nAsoh)) (Fin (w.nTransients + w.nAsoh)) ℝ} {R : Matrix (Fin 1) (Fin 1) ℝ}
    (hP : P.PosDef) (hQ : Q.PosDef) (hR : R.PosDef) (tune : Tuning) (ha : 1 / 1000 ≤ tune.alpha ∧ tune.alpha ≤ 1) (hb : 0 ≤ tune.beta)
    (hk : ∀ k, tune.kappa = some k → -((2 * (w.nTransients + w.nAsoh) + 1 : Nat) : ℝ) < k) :
    ∃ (E : Joint) (u : Fin (2 + (if measured then 1 else 0)) → ℝ) (y : Fin (w.nTransients + w.nAsoh) → ℝ) (U T A : Arr2 ℝ),
      Joint.fromWrapper w (.inl ⟨_, _, P⟩) none (some ⟨_, _, Q⟩) none none (some ⟨1, 1, R⟩) tune = .ok E ∧
      (w.inputs.toNumpy = .ok U ∧ U.flat = ⟨_, u⟩) ∧
      (w.transients.toNumpy = .ok T ∧ w.asoh.getParameters (some w.names) = .ok A ∧ T.flat.append A.flat = ⟨_, y⟩) ∧
      ∀ (svd : Mat → Vec × Mat) (hist : List (Container ℝ × Container ℝ)) (zs : List ((Fin (2 + (if measured then 1 else 0)) → ℝ) × (Fin 1 → ℝ))),
        List.Forall₂ (fun m h => (∃ v, m.1.toNumpy = .ok v ∧ v.flat = ⟨_, h.1⟩) ∧ ∃ y, m.2.toNumpy = .ok y ∧ y.flat = ⟨1, h.2⟩) hist zs →
        (beh = .linear → ((In.ofVec measured (List.ofFn u)).time :: zs.map fun z => (In.ofVec measured (List.ofFn z.1)).time).IsChain (· ≠ ·)) →
        ∃ fin, E.run svd hist = .ok (fin, (jointHistory w x beh series a.rcs.length Q R (In.ofVec measured (List.ofFn u)) ⟨y, P⟩
          (zs.map fun h => (In.ofVec measured (List.ofFn h.1), h.2))).map fun r => (r.1.gaussian, r.2.gaussian)) := by
  have hcc : w.controlConv = .identity := by rw [← hid]; rfl
  have hoc : w.outputConv = .identity := by rw [← hid]; rfl
  have hhc : w.hiddenConv = .identity := by rw [← hid]; rfl
  have hn : 1 ≤ w.nTransients + w.nAsoh := by have := circuit_width hc; omega
  obtain ⟨V, hV, hVn, -⟩ := circuit_inputs hc hi
  obtain ⟨u, hu⟩ := Vec.eta_of hVn
  obtain ⟨T, A, y, hT, hA, hy, -⟩ := createInputs_own w hc.ready ht
  obtain ⟨E, hE⟩ := joint_built_of w hc.ready ht ho hn (fun _ => one_ne_zero) (fun _ => one_ne_zero) (by rw [hhc]; exact identity_rescales _)
    (by rw [hoc]; exact identity_rescales _) (fun v _ => ⟨v, by rw [hcc]; rfl, by rw [hcc]; rfl⟩) hP hQ hR tune ha hb hk ⟨V, hV, hVn⟩
    (circuit_online hc he ht hi)
  refine ⟨E, u, y, V, T, A, hE, ⟨hV, hu⟩, ⟨hT, hA, hy⟩, fun svd hist zs hh hmoves => ?_⟩
  obtain ⟨u0, T0, A0, g0, g, u', q, r, f, a1, a2, a3, a4, a5, a6, a7, a8, a9, hw, hf⟩ := Joint.fromWrapper_ok hE
  cases hT.symm.trans a2
  cases hA.symm.trans a3
  rw [hy, Gaussian.make_of hn] at a4
  cases a4
  rw [hhc] at a5 a7
  rw [hoc] at a8
  rw [hcc] at a6
  rw [Gaussian.unconvert_ok hn rfl rfl] at a5
  cases a5
  cases a7
  cases a8
  have e0 : convertVals w.inputs none = .ok (.delta ⟨V.flat⟩) := by simp only [convertVals, hV, ok_bind, pure_eq_ok]
  cases e0.symm.trans a1
  have e1 : u' = .delta ⟨V.flat⟩ := (Except.ok.inj a6).symm
  subst e1
  obtain ⟨p1, -, -, p4, -⟩ := Ukf.C53_constructed _ _ _ _ _ _ _ _ _ a9
  let fh : List (Dist × Dist) := zs.map fun h => (.delta ⟨⟨_, h.1⟩⟩, .delta ⟨⟨1, h.2⟩⟩)
  have hmeans : HasMeans fh (zs.map fun z => (⟨_, z.1⟩, z.2)) := by
    clear hh hmoves
    induction zs with
    | nil => exact .nil
    | cons z zs ih => exact .cons ⟨rfl, rfl⟩ ih
  obtain ⟨fin, hrun⟩ := C133_history hc he hs hQ hR svd fh zs f u ⟨y, P⟩ (by rw [p1, hid]) (Ukf.holds_of_make _ _ _ _ _ _ hn a9) hP
    (by rw [p4]; exact hu) hmeans hmoves
  refine ⟨_, Joint.run_of svd w (fh := fh) ?_ E fin _ _ hw (by rw [hf]; exact hrun) ?_⟩
  · clear hmoves hmeans hrun
    induction hh with
    | nil => exact .nil
    | cons h _ ih =>
      obtain ⟨⟨v, v1, v2⟩, y', y1, y2⟩ := h
      refine .cons ⟨.delta ⟨v.flat⟩, .delta ⟨y'.flat⟩, by simp only [convertVals, v1, ok_bind, pure_eq_ok],
        by simp only [convertVals, y1, ok_bind, pure_eq_ok], ?_, ?_⟩ ih
      · rw [hcc, v2]; rfl
      · rw [hoc, y2]; rfl
  · rw [hhc, hoc]
    refine List.forall₂_same.2 fun o ho => ?_
    obtain ⟨r, -, rfl⟩ := List.mem_map.1 ho
    exact ⟨Gaussian.convert_ok hn rfl rfl, Gaussian.convert_ok le_rfl rfl rfl⟩

theorem jointHistory_plain (k : Nat) {N : Nat} (Q : Matrix (Fin N) (Fin N) ℝ) (R : Matrix (Fin 1) (Fin 1) ℝ) (l : List (In × (Fin 1 → ℝ))) :
    ∀ prev b, jointHistory w.plain x beh series k Q R prev b l = jointHistory w x beh series k Q R prev b l := by
  induction l with
  | nil => exact fun _ _ => rfl
  | cons h l ih => exact fun prev b => congrArg (_ :: ·) (ih h.1 (jointKalman w x beh series k Q R prev h.1 b h.2).1)

/-- C133, in any units: under constant currents and with a tuning that makes no weight negative, an estimator that works in other units of the hidden
states and outputs (as with `normalize_asoh`) returns the same beliefs. -/
theorem C133_any_units (hc : EstimatesCircuit w .constant x measured series a) (he : Estimable w.names measured series a)
    (hs : JointlyStraight w.names a) (ht : w.transients.Single) (hi : w.inputs.Single) (ho : w.nOut = 1)
    {n : Nat} (hn : w.nTransients + w.nAsoh = n) {d b : Fin n → ℝ} {e c : Fin 1 → ℝ} (hd : ∀ i, d i ≠ 0) (he' : ∀ i, e i ≠ 0)
    (hh : w.hiddenConv.Rescales n d b) (hout : w.outputConv.Rescales 1 e c)
    (hctl : ∀ v : Vec, v.n = 2 + (if measured then 1 else 0) → ∃ v', w.controlConv.invSamples1 v = .ok v' ∧ w.controlConv.samples1 v' = .ok v)
    {P Q : Matrix (Fin n) (Fin n) ℝ} {R : Matrix (Fin 1) (Fin 1) ℝ}
    (hP : P.PosDef) (hQ : Q.PosDef) (hR : R.PosDef) {tune : Tuning} (htune : Tuned tune (2 * n + 1)) :
    ∃ (E : Joint) (u : Fin (2 + (if measured then 1 else 0)) → ℝ) (y : Fin n → ℝ) (U T A : Arr2 ℝ),
      Joint.fromWrapper w (.inl ⟨n, n, P⟩) none (some ⟨n, n, Q⟩) none none (some ⟨1, 1, R⟩) tune = .ok E ∧
      (w.inputs.toNumpy = .ok U ∧ U.flat = ⟨_, u⟩) ∧
      (w.transients.toNumpy = .ok T ∧ w.asoh.getParameters (some w.names) = .ok A ∧ T.flat.append A.flat = ⟨n, y⟩) ∧
      ∀ (svd : Mat → Vec × Mat) (hist : List (Container ℝ × Container ℝ)) (zs : List ((Fin (2 + (if measured then 1 else 0)) → ℝ) × (Fin 1 → ℝ))),
        List.Forall₂ (fun m h => (∃ v, m.1.toNumpy = .ok v ∧ v.flat = ⟨_, h.1⟩) ∧ ∃ y, m.2.toNumpy = .ok y ∧ y.flat = ⟨1, h.2⟩) hist zs →
        ∃ fin, E.run svd hist = .ok (fin, (jointHistory w x .constant series a.rcs.length Q R (In.ofVec measured (List.ofFn u)) ⟨y, P⟩
          (zs.map fun h => (In.ofVec measured (List.ofFn h.1), h.2))).map fun r => (r.1.gaussian, r.2.gaussian)) := by
  subst hn
  have hc' : EstimatesCircuit w.plain .constant x measured series a :=
    ⟨plain_ready hc.ready, hc.cell, hc.read, hc.single, hc.transients, hc.inputs, hc.estimates, hc.deg⟩
  have hn1 : 1 ≤ w.nTransients + w.nAsoh := by have := circuit_width hc; omega
  obtain ⟨E₀, u, y, U, T, A, k1, k2, k3, k4⟩ := C133_runs hc' he hs rfl ht hi ho hP hQ hR tune htune.alpha htune.beta htune.kappa
  have hUn : ∃ v, w.inputs.toNumpy = .ok v ∧ v.flat.n = 2 + (if measured then 1 else 0) := ⟨U, k2.1, by rw [k2.2]⟩
  obtain ⟨E, hE⟩ := joint_built_of w hc.ready ht ho hn1 hd he' hh hout hctl hP hQ hR tune htune.alpha htune.beta htune.kappa hUn
    (circuit_online hc he ht hi)
  refine ⟨E, u, y, U, T, A, hE, k2, k3, fun svd hist zs hist' => ?_⟩
  obtain ⟨fin₀, hr⟩ := k4 svd hist zs hist' nofun
  have hwt : ∀ i, 0 ≤ E₀.filter.covWeights.get i := by
    obtain ⟨_, _, _, _, _, _, _, _, f, -, -, -, -, -, -, -, -, a9, -, hf⟩ := Joint.fromWrapper_ok k1
    obtain ⟨-, -, -, -, q5, q6, q7, q8, q9, -⟩ := Ukf.C53_constructed _ _ _ _ _ _ _ _ _ a9
    rw [hf]
    have hL : f.augLen = 2 * (w.nTransients + w.nAsoh) + 1 := by
      rw [q7]
      show 2 * (w.nTransients + w.nAsoh) + w.nOut = _
      rw [ho]
    refine weights_nonneg htune hL q5 q6 ?_
    cases hk : tune.kappa with
    | none =>
      have := q9 hk
      rw [hL] at this
      rw [Option.getD_none]
      linarith
    | some k => rw [q8 k hk, Option.getD_some]
  obtain ⟨fin, fin₀', outs, r1, r2, -⟩ := C56_joint_estimates_in_any_units w hd he' hh hout hctl (circuit_rowWise hc he) le_rfl hP hQ hR tune hE k1 hwt
    hUn svd hist (fun m hm => by
      clear hr k4
      induction hist' with
      | nil => cases hm
      | cons h _ ih =>
        rcases List.mem_cons.1 hm with rfl | hm
        · obtain ⟨⟨v, v1, v2⟩, y', y1, y2⟩ := h
          exact ⟨⟨v, v1, by rw [v2]⟩, y', y1, by rw [y2]⟩
        · exact ih hm)
  cases hr.symm.trans r2
  exact ⟨fin, r1.trans (congrArg (fun l => Except.ok (fin, List.map _ l)) (jointHistory_plain _ Q R _ _ _))⟩

/-! ## The concrete circuit -/

/-- Joint estimation of R0 of the concrete circuit. -/
noncomputable def Demo.estimatingR0 (beh : Behavior) (op : Operator) : JointWrapper :=
  ⟨⟨Ecm.cell beh Demo.fixed, Demo.hvCircuit, Demo.hvState, Demo.hvInput, op, .identity, .identity, 1⟩, [Demo.nR0], 3, 1, NoDegradation _ _ _ _⟩

theorem Demo.estimatingR0_circuit (beh : Behavior) (op : Operator) : EstimatesCircuit (Demo.estimatingR0 beh op) beh Demo.fixed true false Demo.arrays :=
  ⟨⟨Demo.hv_wf _ _, Demo.hv_single _ _, by show ∀ n ∈ [Demo.nR0], n ∈ [Demo.nOcv, Demo.nR0, Demo.nTdf]; decide, by show [Demo.nR0].Nodup; decide,
    Demo.hvState_wf, by show held Demo.hvState ≠ []; exact nofun, ⟨_, rfl, rfl⟩, ⟨_, rfl, rfl⟩⟩, rfl, Demo.hv_read _ _, Demo.arrays_pars, rfl, rfl, nofun, rfl⟩

theorem Demo.estimatingR0_estimable (beh : Behavior) (op : Operator) : Estimable (Demo.estimatingR0 beh op).names true false Demo.arrays :=
  let h := Demo.estimating_estimable beh op
  { ocv := h.ocv, ent := h.ent, r0 := h.r0, c0 := h.c0, rcs := h.rcs, hyst := h.hyst
    gamma_with := fun _ => .inl rfl
    refTemp_with := fun h => absurd (show pathName [kOcv, kOcvRef, kRefTemp] ∈ [Demo.nR0] from h) (by decide)
    r0_with := fun _ => .inl rfl
    rcs_with := fun j rc h _ => by
      rw [List.mem_singleton.1 (List.mem_of_getElem? h)]
      exact .inl rfl
    r0_tdf := fun _ h => absurd (show Demo.nTdf ∈ [Demo.nR0] from h) (by decide)
    rcs_tdf := fun _ j hj h => by
      obtain rfl : j = 0 := Nat.lt_one_iff.1 hj
      exact absurd (show pathName [kRcs, Py.natStr 0, kR, kTdf] ∈ [Demo.nR0] from h) (by decide)
    ent_with := fun _ h => absurd (show pathName [kOcv, kOcvEnt, kBase] ∈ [Demo.nR0] from h) (by decide)
    rcs_r := fun j hj k hk h => by
      obtain rfl : j = 0 := Nat.lt_one_iff.1 hj
      obtain rfl : k = 0 := Nat.lt_one_iff.1 hk
      exact h
    rcs_tau := fun j hj k hk h => by
      obtain rfl : j = 0 := Nat.lt_one_iff.1 hj
      obtain rfl : k = 0 := Nat.lt_one_iff.1 hk
      exact h }

theorem Demo.estimatingR0_straight (beh : Behavior) (op : Operator) : JointlyStraight (Demo.estimatingR0 beh op).names Demo.arrays where
  only := by show ∀ n ∈ [Demo.nR0], n ∈ _; decide
  ref := .inl ⟨two_onLine 3 4, fun h => absurd (show Demo.nOcv ∈ [Demo.nR0] from h) (by decide)⟩
  ent := .inr rfl
  r0 := .inr rfl
  hyst := .inr rfl
  c0 := nofun
  rcs rc hrc := by rw [List.mem_singleton.1 hrc]; exact ⟨rfl, rfl⟩
  divisors := Demo.arrays_divisors

-- Its joint estimator, even with a tuning that makes the first weight negative, returns the beliefs of the Kalman filter for SOC, RC current, hysteresis
-- and R0, over every history of times (that change, under linear behaviour), currents, temperatures and voltages.
example (beh : Behavior) {P Q : Matrix (Fin 4) (Fin 4) ℝ} (hP : P.PosDef) (hQ : Q.PosDef)
    (svd : Mat → Vec × Mat) (hist : List (ℝ × ℝ × ℝ × ℝ)) (hmoves : beh = .linear → (0 :: hist.map (·.1)).IsChain (· ≠ ·)) : ∃ E fin,
    Joint.fromWrapper (Demo.estimatingR0 beh .identity) (.inl ⟨4, 4, P⟩) none (some ⟨4, 4, Q⟩) none none (some ⟨1, 1, 1⟩) ⟨1 / 2, none, 2⟩ = .ok E ∧
    E.run svd (hist.map fun m => (⟨[(kTime, some (.ofRow [m.1])), (kCurrent, some (.ofRow [m.2.1])), (kTemp, some (.ofRow [m.2.2.1]))]⟩,
      ⟨[(kVoltage, some (.ofRow [m.2.2.2]))]⟩)) =
      .ok (fin, (jointHistory (Demo.estimatingR0 beh .identity) Demo.fixed beh false 1 Q 1 ⟨0, 1, some 30⟩ ⟨![0.5, 0, 0, 0.05], P⟩
        (hist.map fun m => (⟨m.1, m.2.1, some m.2.2.1⟩, ![m.2.2.2]))).map fun r => (r.1.gaussian, r.2.gaussian)) := by
  obtain ⟨E, u, y, U, T, A, hE, ⟨hU, hu⟩, ⟨hT, hA, hy⟩, hrun⟩ :=
    C133_runs (Demo.estimatingR0_circuit beh .identity) (Demo.estimatingR0_estimable _ _) (Demo.estimatingR0_straight _ _) rfl Demo.hvState_single
      Demo.hvInput_single rfl hP hQ .one ⟨1 / 2, none, 2⟩ ⟨by norm_num, by norm_num⟩ (by norm_num) nofun
  cases (Except.ok.inj hU)
  cases (Except.ok.inj hT)
  cases (Except.ok.inj hA)
  obtain rfl : ![0, 1, 30] = u := Vec.mk.inj hu |>.2 |> eq_of_heq |> fun h => by rw [← h]; funext k; fin_cases k <;> rfl
  obtain rfl : ![0.5, 0, 0, 0.05] = y := Vec.mk.inj hy |>.2 |> eq_of_heq |> fun h => by rw [← h]; funext k; fin_cases k <;> rfl
  obtain ⟨fin, h1⟩ := hrun svd (hist.map fun m =>
    (⟨[(kTime, some (.ofRow [m.1])), (kCurrent, some (.ofRow [m.2.1])), (kTemp, some (.ofRow [m.2.2.1]))]⟩,
      ⟨[(kVoltage, some (.ofRow [m.2.2.2]))]⟩)) (hist.map fun m => (![m.1, m.2.1, m.2.2.1], ![m.2.2.2])) (by
    clear hrun hmoves
    induction hist with
    | nil => exact .nil
    | cons y hist ih =>
      exact .cons ⟨⟨.ofRow [y.1, y.2.1, y.2.2.1], rfl, congrArg (Vec.mk 3) (funext fun k => by fin_cases k <;> rfl)⟩, .ofRow [y.2.2.2], rfl,
        congrArg (Vec.mk 1) (funext fun k => by fin_cases k; rfl)⟩ ih) (fun hb => by rw [List.map_map]; exact hmoves hb)
  refine ⟨E, fin, hE, ?_⟩
  rw [List.map_map] at h1
  exact h1

end Verif
