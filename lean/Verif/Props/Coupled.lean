import Verif.Spec.Coupled
import Verif.Props.Regression
/-!
# With straight curves, dual estimation is a pair of Kalman filters (C132)
-/

namespace Verif
open Ecm Cell Spec Matrix

variable {beh : Behavior} {x : Fixed} {measured series : Bool} {a : ASOH}

/-! ## Which circuits stay straight -/

/-- Two values over two different pinpoints lie on a line. -/
theorem line_two {p q : ℝ} (h : p ≠ q) (v w : ℝ) : ∃ α β, ∀ r ∈ [(p, v), (q, w)], r.2 = α + β * r.1 := by
  have h' : q - p ≠ 0 := sub_ne_zero.2 (Ne.symm h)
  refine ⟨v - (w - v) / (q - p) * p, (w - v) / (q - p), fun r hr => ?_⟩
  rcases List.mem_cons.1 hr with rfl | hr
  · simp only; ring
  · rw [List.mem_singleton.1 hr]
    field_simp
    ring

theorem stays_onLine {m : HV ℝ} {ns : List Name} {z : List ℝ} {k : List Name} {h h' : Interp} (hr : CurveRel (Ecm.below (valueRel m ns z) k) h h')
    (hs : StaysOnLine (Named ns (k ++ [kBase])) h) : OnLine h' := by
  rcases hs with ⟨h1, h2⟩ | h1
  · rw [curve_same hr h2]
    exact h1
  · obtain ⟨⟨y, y', e1, e2, n1, -, -, -, -⟩, h5, h6⟩ := hr
    have hw : h'.width = h.width := by
      show h'.base.shape.getD 1 0 = h.base.shape.getD 1 0
      rw [e1, e2]
      exact n1
    have hp : h'.pinsUsed = h.pinsUsed := by simp only [Interp.pinsUsed, h5, hw]
    rcases h1 with h1 | ⟨h1, h2, h3, h4⟩
    · exact .inl (hw.trans h1)
    · refine .inr ⟨h6.trans h1, by omega, by rw [hp, hw, h2, h3], by rw [hp]; exact h4, ?_⟩
      rw [hp]
      match h.pinsUsed, h3, h4 with
      | [p, q], _, h4 =>
        have hne : p ≠ q := by simpa using h4
        have hrow : h'.row 0 = [h'.base.get [0, 0], h'.base.get [0, 1]] := by
          show (List.range h'.width).map _ = _
          rw [hw, h2]
          rfl
        rw [hrow]
        exact line_two hne _ _

theorem width_same {m : HV ℝ} {ns : List Name} {z : List ℝ} {k : List Name} {h h' : Interp} (hr : CurveRel (Ecm.below (valueRel m ns z) k) h h') :
    h'.width = h.width := by
  obtain ⟨⟨y, y', e1, e2, n1, -⟩, -, -⟩ := hr
  show h'.base.shape.getD 1 0 = h.base.shape.getD 1 0
  rw [e1, e2]
  exact n1

/-- C132, which circuits it is about: if every curve is on a straight line and not estimated, or has one value, or two values interpolated linearly
(and the series capacitor and the RC elements have one value each), the curves are straight whatever values are estimated. -/
theorem C132_stays_straight {w : DegradationWrapper} (hc : TracksHealth w beh x measured a) (he : Estimable w.names measured series a)
    (hl : LinearIn w.names a) (hs : StaysStraight w.names a) (z : Fin w.nAsoh → ℝ) (p : Par) (hp : CircuitWith w.asoh w.names x (List.ofFn z) p) : Straight p := by
  obtain ⟨m, b, h1, h2, h3⟩ := health_values hc z
  obtain ⟨m', b', k1, k2, -, -⟩ := estimable_copy hc he z
  cases h1.symm.trans k1
  cases h2.symm.trans k2.read
  obtain ⟨m'', b'', g1, g2, rfl⟩ := hp
  cases h1.symm.trans g1
  cases h2.symm.trans g2
  refine C112_straight k2.single (stays_onLine h3.ref hs.ref) (stays_onLine h3.ent hs.ent) (stays_onLine h3.r0.1 hs.r0) (stays_onLine h3.hyst hs.hyst)
    (fun c hc => ?_) (fun rc hrc => ?_) ?_
  · rcases h3.c0 with ⟨-, e2⟩ | ⟨c1, c2, e1, e2, e3⟩
    · rw [e2] at hc; cases hc
    · rw [e2] at hc
      cases hc
      rw [width_same e3]
      exact hs.c0 _ e1
  · obtain ⟨j, hj, rfl⟩ := List.mem_iff_getElem.1 hrc
    have hj' : j < a.rcs.length := by rw [← h3.rcs.1]; exact hj
    have e := h3.rcs.2 j _ _ (List.getElem?_eq_getElem hj') (List.getElem?_eq_getElem hj)
    have := hs.rcs _ (List.getElem_mem hj')
    exact ⟨(width_same (k := [kRcs, Py.natStr j, kR]) e.1.1).trans this.1, (width_same (k := [kRcs, Py.natStr j, kC]) e.2).trans this.2⟩
  · obtain ⟨o1, -, o3, o4, -⟩ := par_others h3 hl.only
    exact ⟨by rw [o1]; exact hl.divisors.qt, by rw [o4]; exact hl.divisors.rcs, by rw [o3]; exact hl.divisors.c0⟩

/-! ## Steps and histories -/

/-- A dual estimator of a circuit in the coordinates of the model, between two steps: its beliefs are `b` and `c`, the last input is `u`. -/
structure Dual.Believes (E : Dual) (cw : CellWrapper) (aw : DegradationWrapper) (series : Bool) (k : Nat) (b : Belief cw.nTransients)
    (c : Belief aw.nAsoh) (QT : Matrix (Fin cw.nTransients) (Fin cw.nTransients) ℝ) (QA : Matrix (Fin aw.nAsoh) (Fin aw.nAsoh) ℝ)
    (R : Matrix (Fin 1) (Fin 1) ℝ) (u : Vec) : Prop where
  cellW : E.cellW = cw
  asohW : E.asohW = aw
  modelT : E.trans.model = cw.toWrapper
  modelA : E.asoh.model = aw.toWrapper
  asoh : E.base.asoh = aw.asoh
  transients : Spec.SameLayout E.base.transients (circuitState series k)
  filterT : E.trans.Holds cw.nTransients 1 b.mean b.cov QT R
  filterA : E.asoh.Holds aw.nAsoh 1 c.mean c.cov QA R
  posT : b.cov.PosDef
  posA : c.cov.PosDef
  controlsT : E.trans.controls.mean = u
  controlsA : E.asoh.controls.mean = u

/-- C132, one step: both filters make a step of their Kalman filter, each with the estimate of the other before the step. -/
theorem C132_step {cw : CellWrapper} {aw : DegradationWrapper} (hT : TracksCircuit cw beh x measured series a.rcs.length)
    (hA : TracksHealth aw beh x measured a) (hall : aw.names = aw.asoh.updatableNames) (he : DualEstimable aw.names measured series a)
    (hl : LinearIn aw.names a) (hs : StaysStraight aw.names a) (hidT : cw.plain = cw) (hidA : aw.plain = aw)
    {b : Belief cw.nTransients} {c : Belief aw.nAsoh} {QT : Matrix (Fin cw.nTransients) (Fin cw.nTransients) ℝ}
    {QA : Matrix (Fin aw.nAsoh) (Fin aw.nAsoh) ℝ} {R : Matrix (Fin 1) (Fin 1) ℝ} (hQT : QT.PosDef) (hQA : QA.PosDef) (hR : R.PosDef)
    {u u' : Fin (2 + (if measured then 1 else 0)) → ℝ} {E : Dual} (hE : E.Believes cw aw series a.rcs.length b c QT QA R ⟨_, u⟩) (svd : Mat → Vec × Mat)
    {inputs meas : Container ℝ} {z : Fin 1 → ℝ} {V Y : Arr2 ℝ}
    (hV : inputs.toNumpy = .ok V) (hu' : V.flat = ⟨_, u'⟩) (hY : meas.toNumpy = .ok Y) (hz : Y.flat = ⟨1, z⟩)
    (hr : Reaches aw.names (In.ofVec measured (List.ofFn u)) series a.rcs.length)
    (hmoves : beh = .linear → (In.ofVec measured (List.ofFn u')).time ≠ (In.ofVec measured (List.ofFn u)).time) :
    ∃ p, CircuitWith aw.asoh aw.names x (List.ofFn c.mean) p ∧
      let r := kalmanStep beh p series QT R (In.ofVec measured (List.ofFn u)) (In.ofVec measured (List.ofFn u')) b z
      let c' := (regressStep (voltWith aw.asoh aw.names x beh (In.ofVec measured (List.ofFn u)) (In.ofVec measured (List.ofFn u'))
        (St.ofVec series a.rcs.length (List.ofFn b.mean))) QA R c z).1
      ∃ E' est, E.step svd inputs meas = .ok (E', est, r.2.gaussian) ∧ Beside r.1 c' est ∧
        E'.Believes cw aw series a.rcs.length r.1 c' QT QA R ⟨_, u'⟩ := by
  obtain ⟨base, cw', aw', ft, fa⟩ := E
  obtain ⟨rfl, rfl, hmT, hmA, hba, hbt, hft, hfa, hPT, hPA, huT, huA⟩ := hE
  simp only at hT hA hall he hl hs hidT hidA b c QT QA hQT hQA hr hmT hmA hba hbt hft hfa hPT hPA huT huA
  obtain ⟨m, d, h1, h2, h3, h4⟩ := estimable_copy hA he.1 c.mean
  have hp : CircuitWith aw'.asoh aw'.names x (List.ofFn c.mean) (parAt d 0) := ⟨m, d, h1, h2.read, rfl⟩
  have hst := C132_stays_straight hA he.1 hl hs c.mean _ hp
  refine ⟨_, hp, ?_⟩
  intro r c'
  have i1 : cw'.hiddenConv = .identity := by rw [← hidT]; rfl
  have i2 : cw'.controlConv = .identity := by rw [← hidT]; rfl
  have i3 : cw'.outputConv = .identity := by rw [← hidT]; rfl
  have j1 : aw'.hiddenConv = .identity := by rw [← hidA]; rfl
  have j2 : aw'.controlConv = .identity := by rw [← hidA]; rfl
  have j3 : aw'.outputConv = .identity := by rw [← hidA]; rfl
  have hcopy : base.asoh.makeCopy (Vec.vals ⟨_, c.mean⟩) none = .ok m := by
    rw [hba, makeCopy_none, ← hall]
    exact h1
  obtain ⟨kT, pT⟩ := C112_step (f := { ft with mem := m }) (a := d) (by rw [h3]; exact hT) (by rw [hidT]; exact hmT) h2 h4 hst
    ⟨hft.nHidden, hft.nOut, hft.n_pos, hft.hidden, hft.covW, hft.covV, hft.augLen, hft.alpha_pos, hft.alpha_le, hft.beta_nonneg, hft.spread⟩ hPT hQT hR svd
    (.delta ⟨V.flat⟩) (.delta ⟨Y.flat⟩) huT hu' hz hmoves
  obtain ⟨kA, pA⟩ := C131_step (f := { fa with mem := (base.transients.makeCopy (.d1 (List.ofFn b.mean)), fa.mem.2) }) hA hl he
    (by rw [hidA]; exact hmA) (holds_copy hbt (by rw [List.length_ofFn]; exact tracks_width hT))
    ⟨hfa.nHidden, hfa.nOut, hfa.n_pos, hfa.hidden, hfa.covW, hfa.covV, hfa.augLen, hfa.alpha_pos, hfa.alpha_le, hfa.beta_nonneg, hfa.spread⟩ hPA hQA hR svd
    (.delta ⟨V.flat⟩) (.delta ⟨Y.flat⟩) huA hu' hz hr hmoves
  have cT : ∀ (g : Belief cw'.nTransients), Gaussian.convert g.gaussian cw'.hiddenConv = .ok g.gaussian := fun g => by
    rw [i1]; exact Gaussian.convert_ok hft.n_pos rfl rfl
  have cA : ∀ (g : Belief aw'.nAsoh), Gaussian.convert g.gaussian aw'.hiddenConv = .ok g.gaussian := fun g => by
    rw [j1]; exact Gaussian.convert_ok hfa.n_pos rfl rfl
  have oT : ∀ (g : Belief 1), Gaussian.convert g.gaussian cw'.outputConv = .ok g.gaussian := fun g => by
    rw [i3]; exact Gaussian.convert_ok le_rfl rfl rfl
  have oA : ∀ (g : Belief 1), Gaussian.convert g.gaussian aw'.outputConv = .ok g.gaussian := fun g => by
    rw [j3]; exact Gaussian.convert_ok le_rfl rfl rfl
  have hest : Dual.getEstimatedState ⟨base, cw', aw', ft, fa⟩ = .ok (base.transients.makeCopy (.d1 (List.ofFn b.mean)), m) := by
    have e1 : ft.hidden = b.gaussian := hft.hidden
    have e2 : fa.hidden = c.gaussian := hfa.hidden
    have e3 : base.asoh.makeCopy (Vec.vals c.gaussian.mean) none = .ok m := hcopy
    simp only [Dual.getEstimatedState, Dual.converted, e1, e2, cT, cA, ok_bind, pure_eq_ok, e3]
    rfl
  have hcu : convertVals inputs none = .ok (.delta ⟨V.flat⟩) := by simp only [convertVals, hV, ok_bind, pure_eq_ok]
  have hcy : convertVals meas none = .ok (.delta ⟨Y.flat⟩) := by simp only [convertVals, hY, ok_bind, pure_eq_ok]
  have c1 : (Dist.delta ⟨V.flat⟩).convert cw'.controlConv true = .ok (.delta ⟨V.flat⟩) := by rw [i2]; rfl
  have c2 : (Dist.delta ⟨V.flat⟩).convert aw'.controlConv true = .ok (.delta ⟨V.flat⟩) := by rw [j2]; rfl
  have c3 : (Dist.delta ⟨Y.flat⟩).convert cw'.outputConv true = .ok (.delta ⟨Y.flat⟩) := by rw [i3]; rfl
  have c4 : (Dist.delta ⟨Y.flat⟩).convert aw'.outputConv true = .ok (.delta ⟨Y.flat⟩) := by rw [j3]; rfl
  obtain ⟨v, C, k1, k2⟩ := Gaussian.combine_posDef hft.n_pos r.1.mean c'.mean pT pA
  have k1' : Gaussian.combineWith r.1.gaussian [.dist c'.gaussian] = .ok ⟨⟨_, v⟩, ⟨_, _, C⟩⟩ := k1
  let ft' : Ukf (HV ℝ) := { ft with mem := m, hidden := r.1.gaussian, controls := .delta ⟨V.flat⟩ }
  let M := (base.transients.makeCopy (.d1 (List.ofFn b.mean)), aw'.inputs.makeCopy (.d1 (List.ofFn u)))
  let fa' : Ukf (Container ℝ × Container ℝ) := { fa with mem := M, hidden := Belief.gaussian c', controls := .delta ⟨V.flat⟩ }
  have hstep : Dual.step svd ⟨base, cw', aw', ft, fa⟩ inputs meas = .ok (⟨base, cw', aw', ft', fa'⟩, ⟨⟨_, v⟩, ⟨_, _, C⟩⟩, r.2.gaussian) := by
    simp only [Dual.step, hcu, hcy, hest, c1, c2, c3, c4, kT, kA, ok_bind, pure_eq_ok]
    rw [cT r.1, ok_bind, cA c', ok_bind, oT r.2, ok_bind, oA, ok_bind, k1', ok_bind]
  refine ⟨_, _, hstep, ?_, ?_⟩
  · obtain ⟨gt, ga, x1, x2, x3, x4, x5, x6, x7, x8⟩ := C58_returned_estimate_partial svd _ _ inputs meas _ _ hstep
    cases x1.symm.trans (cT r.1)
    cases x2.symm.trans (cA c')
    refine ⟨x3, x4, x5, fun i j => ?_, fun i j => ?_, fun i j => (x8 i j i.2 j.2).1, fun i j => (x8 j i j.2 i.2).2⟩
    · rw [x6 i j i.2 j.2]
      simp [Mat.at', Belief.gaussian]
    · refine (x7 i j i.2 j.2).trans ?_
      simp [Mat.at', Belief.gaussian]
  · exact ⟨rfl, rfl, hmT, hmA, hba, hbt,
      ⟨hft.nHidden, hft.nOut, hft.n_pos, rfl, hft.covW, hft.covV, hft.augLen, hft.alpha_pos, hft.alpha_le, hft.beta_nonneg, hft.spread⟩,
      ⟨hfa.nHidden, hfa.nOut, hfa.n_pos, rfl, hfa.covW, hfa.covV, hfa.augLen, hfa.alpha_pos, hfa.alpha_le, hfa.beta_nonneg, hfa.spread⟩,
      pT, pA, hu', hu'⟩

/-- C132, histories: over every history of inputs and measured voltages (under linear behaviour with times that change) the estimator runs, and what
it returns are the beliefs of the two Kalman filters. -/
theorem C132_history {cw : CellWrapper} {aw : DegradationWrapper} (hT : TracksCircuit cw beh x measured series a.rcs.length)
    (hA : TracksHealth aw beh x measured a) (hall : aw.names = aw.asoh.updatableNames) (he : DualEstimable aw.names measured series a)
    (hl : LinearIn aw.names a) (hs : StaysStraight aw.names a) (hr : ∀ prev, Reaches aw.names prev series a.rcs.length)
    (hidT : cw.plain = cw) (hidA : aw.plain = aw)
    {QT : Matrix (Fin cw.nTransients) (Fin cw.nTransients) ℝ}
    {QA : Matrix (Fin aw.nAsoh) (Fin aw.nAsoh) ℝ} {R : Matrix (Fin 1) (Fin 1) ℝ} (hQT : QT.PosDef) (hQA : QA.PosDef) (hR : R.PosDef)
    (svd : Mat → Vec × Mat) (hist : List (Container ℝ × Container ℝ)) :
    ∀ (zs : List ((Fin (2 + (if measured then 1 else 0)) → ℝ) × (Fin 1 → ℝ))) (E : Dual) (u : Fin (2 + (if measured then 1 else 0)) → ℝ)
      (b : Belief cw.nTransients) (c : Belief aw.nAsoh), E.Believes cw aw series a.rcs.length b c QT QA R ⟨_, u⟩ →
    List.Forall₂ (fun m h => (∃ v, m.1.toNumpy = .ok v ∧ v.flat = ⟨_, h.1⟩) ∧ ∃ y, m.2.toNumpy = .ok y ∧ y.flat = ⟨1, h.2⟩) hist zs →
    (beh = .linear → ((In.ofVec measured (List.ofFn u)).time :: zs.map fun z => (In.ofVec measured (List.ofFn z.1)).time).IsChain (· ≠ ·)) →
    ∃ fin outs, E.run svd hist = .ok (fin, outs) ∧
      Coupled aw.asoh aw.names x beh series a.rcs.length QT QA R (In.ofVec measured (List.ofFn u)) b c
        (zs.map fun h => (In.ofVec measured (List.ofFn h.1), h.2)) outs := by
  induction hist with
  | nil =>
    intro zs E u b c _ hh _
    cases hh
    exact ⟨E, [], rfl, trivial⟩
  | cons m hist ih =>
    intro zs E u b c hE hh hmoves
    cases hh with
    | cons hm hrest =>
    rename_i h zs
    obtain ⟨⟨v, v1, v2⟩, y, y1, y2⟩ := hm
    obtain ⟨p, hp, E', est, s1, s2, s3⟩ := C132_step hT hA hall he hl hs hidT hidA hQT hQA hR hE svd v1 v2 y1 y2 (hr _)
      (fun hb => ((List.isChain_cons_cons.1 (hmoves hb)).1).symm)
    obtain ⟨fin, outs, r1, r2⟩ := ih zs E' h.1 _ _ s3 hrest fun hb => (List.isChain_cons_cons.1 (hmoves hb)).2
    refine ⟨fin, (est, _) :: outs, ?_, p, hp, s2, rfl, r2⟩
    obtain ⟨m1, m2⟩ := m
    simp only [Dual.run, s1, ok_bind, r1, pure_eq_ok]

/-- C132, from construction: the dual estimator that `initialize_ukf_from_wrappers` builds in the coordinates of the model of such a circuit, with any
positive definite covariances and any admissible tuning, starts from the given values and runs through every history; what it returns are the beliefs
of the two Kalman filters. -/
theorem C132_runs {cw : CellWrapper} {aw : DegradationWrapper} (hT : TracksCircuit cw beh x measured series a.rcs.length)
    (hA : TracksHealth aw beh x measured a) (hall : aw.names = aw.asoh.updatableNames) (he : DualEstimable aw.names measured series a)
    (hl : LinearIn aw.names a) (hs : StaysStraight aw.names a) (hr : ∀ prev, Reaches aw.names prev series a.rcs.length)
    (hidT : cw.plain = cw) (hidA : aw.plain = aw)
    (hin : aw.inputs = cw.inputs) (ht : cw.transients.Single) (hi : cw.inputs.Single) (hoT : cw.nOut = 1) (hoA : aw.nOut = 1) (hnA : 1 ≤ aw.nAsoh)
    {PT QT : Matrix (Fin cw.nTransients) (Fin cw.nTransients) ℝ} {PA QA : Matrix (Fin aw.nAsoh) (Fin aw.nAsoh) ℝ}
    {R : Matrix (Fin 1) (Fin 1) ℝ} (hPT : PT.PosDef) (hQT : QT.PosDef) (hPA : PA.PosDef) (hQA : QA.PosDef) (hR : R.PosDef)
    (tT tA : Tuning) (haT : 1 / 1000 ≤ tT.alpha ∧ tT.alpha ≤ 1) (haA : 1 / 1000 ≤ tA.alpha ∧ tA.alpha ≤ 1) (hbT : 0 ≤ tT.beta)
    (hbA : 0 ≤ tA.beta) (hkT : ∀ k, tT.kappa = some k → -((2 * cw.nTransients + 1 : Nat) : ℝ) < k)
    (hkA : ∀ k, tA.kappa = some k → -((2 * aw.nAsoh + 1 : Nat) : ℝ) < k) :
    ∃ (E : Dual) (u : Fin (2 + (if measured then 1 else 0)) → ℝ) (t : Fin cw.nTransients → ℝ) (μ : Fin aw.nAsoh → ℝ) (U T A : Arr2 ℝ),
      Dual.fromWrappers cw aw ⟨_, _, PT⟩ ⟨_, _, PA⟩ none (some ⟨_, _, QT⟩) (some ⟨_, _, QA⟩) (some ⟨1, 1, R⟩) tT tA = .ok E ∧
      (cw.inputs.toNumpy = .ok U ∧ U.flat = ⟨_, u⟩) ∧ (cw.transients.toNumpy = .ok T ∧ T.flat = ⟨_, t⟩) ∧
      (aw.asoh.getParameters (some aw.names) = .ok A ∧ A.flat = ⟨_, μ⟩) ∧
      ∀ (svd : Mat → Vec × Mat) (hist : List (Container ℝ × Container ℝ)) (zs : List ((Fin (2 + (if measured then 1 else 0)) → ℝ) × (Fin 1 → ℝ))),
        List.Forall₂ (fun m h => (∃ v, m.1.toNumpy = .ok v ∧ v.flat = ⟨_, h.1⟩) ∧ ∃ y, m.2.toNumpy = .ok y ∧ y.flat = ⟨1, h.2⟩) hist zs →
        (beh = .linear → ((In.ofVec measured (List.ofFn u)).time :: zs.map fun z => (In.ofVec measured (List.ofFn z.1)).time).IsChain (· ≠ ·)) →
        ∃ fin outs, E.run svd hist = .ok (fin, outs) ∧
          Coupled aw.asoh aw.names x beh series a.rcs.length QT QA R (In.ofVec measured (List.ofFn u)) ⟨t, PT⟩ ⟨μ, PA⟩
            (zs.map fun h => (In.ofVec measured (List.ofFn h.1), h.2)) outs := by
  have i1 : cw.hiddenConv = .identity := by rw [← hidT]; rfl
  have i2 : cw.controlConv = .identity := by rw [← hidT]; rfl
  have i3 : cw.outputConv = .identity := by rw [← hidT]; rfl
  have j1 : aw.hiddenConv = .identity := by rw [← hidA]; rfl
  have j2 : aw.controlConv = .identity := by rw [← hidA]; rfl
  have j3 : aw.outputConv = .identity := by rw [← hidA]; rfl
  obtain ⟨base, ft, fa, vT, vA, V, hE, -, -, -, -, -, hba, hbt, -⟩ :=
    dual_built hT hA he.1 hin ht hi hoT hoA hnA (fun _ => one_ne_zero) (fun _ => one_ne_zero) (fun _ => one_ne_zero) (fun _ => one_ne_zero)
      (by rw [i1]; exact identity_rescales _) (by rw [j1]; exact identity_rescales _)
      (by rw [i3]; exact identity_rescales 1) (by rw [j3]; exact identity_rescales 1) (fun v _ => by rw [i2]; exact ⟨v, rfl, rfl⟩)
      (fun v _ => by rw [j2]; exact ⟨v, rfl, rfl⟩) hPT hQT hPA hQA hR tT tA haT haA hbT hbA hkT hkA
  obtain ⟨du, T, A, t, g, gT, uT, qT, rT, gA, uA, qA, rA, p1, p2, p3, p4, p5, p6, p7, p8, p9, p10, p11, p12, p13, p14, p15, -, -, -⟩ :=
    Dual.fromWrappers_parts hE
  obtain ⟨nT1, tv, k1, rfl⟩ := Gaussian.make_inv p4
  obtain ⟨-, μ, k2, rfl⟩ := Gaussian.make_inv p5
  obtain ⟨U, hU, hUn, -⟩ := input_back hT.inputs hi
  obtain ⟨u, hu⟩ := Vec.eta_of hUn
  have hdu : du = .delta ⟨U.flat⟩ := by
    simp only [convertVals, hU, ok_bind, pure_eq_ok, Except.ok.injEq] at p1
    exact p1.symm
  subst hdu
  rw [i1] at p6 p8
  rw [i2] at p7
  rw [i3] at p9
  rw [j1] at p10 p12
  rw [j2] at p11
  rw [j3] at p13
  cases p6.symm.trans (Gaussian.unconvert_ok nT1 rfl rfl)
  cases p10.symm.trans (Gaussian.unconvert_ok hnA rfl rfl)
  cases (Except.ok.inj p7 : _ = uT)
  cases (Except.ok.inj p8 : _ = qT)
  cases (Except.ok.inj p9 : _ = rT)
  cases (Except.ok.inj p11 : _ = uA)
  cases (Except.ok.inj p12 : _ = qA)
  cases (Except.ok.inj p13 : _ = rA)
  obtain ⟨a1, -, -, a4, -⟩ := Ukf.C53_constructed _ _ _ _ _ _ _ _ _ p14
  obtain ⟨b1, -, -, b4, -⟩ := Ukf.C53_constructed _ _ _ _ _ _ _ _ _ p15
  refine ⟨_, u, tv, μ, U, T, A, hE, ⟨hU, hu⟩, ⟨p2, k1⟩, ⟨p3, k2⟩, fun svd hist zs hh hmoves => ?_⟩
  exact C132_history hT hA hall he hl hs hr hidT hidA hQT hQA hR svd hist zs _ u ⟨tv, PT⟩ ⟨μ, PA⟩
    ⟨rfl, rfl, a1, b1, hba, by rw [hbt]; exact hT.transients, Ukf.holds_of_make _ _ _ _ _ _ nT1 p14, Ukf.holds_of_make _ _ _ _ _ _ hnA p15, hPT, hPA,
      by rw [a4]; exact hu, by rw [b4]; exact hu⟩ hh hmoves

/-! ## The concrete circuit -/

theorem Demo.health_straight (beh : Behavior) (op : Operator) : StaysStraight (Demo.trackingHealth beh op).names Demo.arrays where
  ref := .inr (.inr ⟨rfl, rfl, by
    show (Interp.pinsUsed ⟨(Arr2.ofRow [3, 4]).toNd, none, .linear⟩).length = 2
    simp [Interp.width, Interp.pinsUsed, linspace01, Arr2.toNd, Arr2.ofRow], by
    show (Interp.pinsUsed ⟨(Arr2.ofRow [3, 4]).toNd, none, .linear⟩).Nodup
    have hp : Interp.pinsUsed ⟨(Arr2.ofRow [3, 4]).toNd, none, .linear⟩ = [0, 1] := by
      simp [Interp.width, Interp.pinsUsed, linspace01, Arr2.toNd, Arr2.ofRow, List.range_succ]
      norm_num
    rw [hp]
    simp⟩)
  ent := .inr (.inl rfl)
  r0 := .inr (.inl rfl)
  hyst := .inr (.inl rfl)
  c0 := nofun
  rcs rc hrc := by rw [List.mem_singleton.1 hrc]; exact ⟨rfl, rfl⟩

-- Its dual estimator, even with a tuning that makes the first weights negative, is a pair of Kalman filters, over every history of times (that change,
-- under linear behaviour), currents, temperatures and voltages.
example (beh : Behavior) {PT QT PA QA : Matrix (Fin 3) (Fin 3) ℝ} (hPT : PT.PosDef) (hQT : QT.PosDef) (hPA : PA.PosDef) (hQA : QA.PosDef)
    (svd : Mat → Vec × Mat) (hist : List (ℝ × ℝ × ℝ × ℝ)) (hmoves : beh = .linear → (0 :: hist.map (·.1)).IsChain (· ≠ ·)) : ∃ E fin outs,
    Dual.fromWrappers (Demo.tracking beh .identity [kOcv, kR0] [kBase]) (Demo.trackingHealth beh .identity) ⟨3, 3, PT⟩ ⟨3, 3, PA⟩ none (some ⟨3, 3, QT⟩)
      (some ⟨3, 3, QA⟩) (some ⟨1, 1, 1⟩) ⟨1 / 2, none, 2⟩ ⟨1 / 2, none, 2⟩ = .ok E ∧
    E.run svd (hist.map fun m => (⟨[(kTime, some (.ofRow [m.1])), (kCurrent, some (.ofRow [m.2.1])), (kTemp, some (.ofRow [m.2.2.1]))]⟩,
      ⟨[(kVoltage, some (.ofRow [m.2.2.2]))]⟩)) = .ok (fin, outs) ∧
    Coupled (Demo.trackingHealth beh .identity).asoh (Demo.trackingHealth beh .identity).names Demo.fixed beh false 1 QT QA 1 ⟨0, 1, some 30⟩
      ⟨![0.5, 0, 0], PT⟩ ⟨![3, 4, 0.05], PA⟩ (hist.map fun m => (⟨m.1, m.2.1, some m.2.2.1⟩, ![m.2.2.2])) outs := by
  obtain ⟨E, u, t, μ, U, T, A, hE, ⟨hU, hu⟩, ⟨hT, ht⟩, ⟨hA, hμ⟩, hrun⟩ :=
    C132_runs (Demo.tracking_circuit beh .identity [kOcv, kR0] [kBase]) (Demo.trackingHealth_circuit beh .identity)
      (by show _ = [Demo.nOcv, Demo.nR0]; rfl) (Demo.trackingHealth_estimable _ _) (Demo.health_linear _ _) (Demo.health_straight _ _)
      (Demo.trackingHealth_reaches _ _) rfl rfl rfl Demo.hvState_single Demo.hvInput_single rfl rfl (by show 1 ≤ 3; norm_num) hPT hQT hPA hQA .one
      ⟨1 / 2, none, 2⟩ ⟨1 / 2, none, 2⟩ ⟨by norm_num, by norm_num⟩ ⟨by norm_num, by norm_num⟩ (by norm_num) (by norm_num) nofun nofun
  cases (Except.ok.inj hU)
  cases (Except.ok.inj hT)
  cases (Except.ok.inj hA)
  obtain rfl : ![0, 1, 30] = u := Vec.mk.inj hu |>.2 |> eq_of_heq |> fun h => by rw [← h]; funext k; fin_cases k <;> rfl
  obtain rfl : ![0.5, 0, 0] = t := Vec.mk.inj ht |>.2 |> eq_of_heq |> fun h => by rw [← h]; funext k; fin_cases k <;> rfl
  obtain rfl : ![3, 4, 0.05] = μ := Vec.mk.inj hμ |>.2 |> eq_of_heq |> fun h => by rw [← h]; funext k; fin_cases k <;> rfl
  obtain ⟨fin, outs, h1, h2⟩ := hrun svd (hist.map fun m =>
    (⟨[(kTime, some (.ofRow [m.1])), (kCurrent, some (.ofRow [m.2.1])), (kTemp, some (.ofRow [m.2.2.1]))]⟩,
      ⟨[(kVoltage, some (.ofRow [m.2.2.2]))]⟩)) (hist.map fun m => (![m.1, m.2.1, m.2.2.1], ![m.2.2.2])) (by
    clear hrun hmoves
    induction hist with
    | nil => exact .nil
    | cons y hist ih =>
      exact .cons ⟨⟨.ofRow [y.1, y.2.1, y.2.2.1], rfl, congrArg (Vec.mk 3) (funext fun k => by fin_cases k <;> rfl)⟩, .ofRow [y.2.2.2], rfl,
        congrArg (Vec.mk 1) (funext fun k => by fin_cases k; rfl)⟩ ih) (fun hb => by rw [List.map_map]; exact hmoves hb)
  refine ⟨E, fin, outs, hE, h1, ?_⟩
  rw [List.map_map] at h2
  exact h2

end Verif
