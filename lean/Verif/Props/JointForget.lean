import Verif.Props.JointTruth
import Verif.Props.UkfDecay
import Verif.Props.HealthCompose
/-!
# C137: the joint estimator forgets the values in its templates
-/

namespace Verif
open Ecm Cell Matrix Spec

/-! ## Specification -/

/-- The same wrapper with other templates of the state of health and of the transient state. -/
def JointWrapper.withTemplates (w : JointWrapper) (m : HV ℝ) (t : Container ℝ) : JointWrapper := { w with asoh := m, transients := t }

/-- These templates differ from those of the wrapper in nothing but the values of the estimated parameters and of the transient state. -/
structure Spec.OtherValues (w : JointWrapper) (m : HV ℝ) (t : Container ℝ) : Prop where
  asoh : ∃ v : List ℝ, w.asoh.makeCopy (.d1 v) (some w.names) = .ok m
  transients : SameLayout t w.transients
  single : t.Single

/-- How the joint numbers of a cell move in every step of a history of inputs, and how its voltage depends on them after that. -/
noncomputable def Spec.jointFlows (w : JointWrapper) (x : Fixed) (beh : Behavior) (series : Bool) (k : Nat) {N : Nat} :
    In → List In → List (Matrix (Fin N) (Fin N) ℝ × Matrix (Fin 1) (Fin N) ℝ)
  | _, [] => []
  | prev, new :: rest =>
    (slopes (jointStep w x beh series k prev new), slopes (jointVolt w x series k new)) :: jointFlows w x beh series k new rest

/-! ## Proofs -/

section
variable {w : JointWrapper} {m : HV ℝ} {t : Container ℝ}

theorem makeCopy_updates {m m' : HV ℝ} {v : Vals ℝ} {ns : List Name} (h : m.makeCopy v (some ns) = .ok m') :
    m.updateParameters v (some ns) = (m', .ok ()) := by
  unfold HV.makeCopy at h
  split at h
  · cases h
  · rename_i e
    rw [e]; cases h; rfl

/-- A later update overrides the values of the template. -/
theorem makeCopy_override {m m' : HV ℝ} (hw : m.WF) {ns : List Name} (hup : ∀ n ∈ ns, n ∈ m.updatableNames) (hnd : ns.Nodup) {v : List ℝ}
    (h : m.makeCopy (.d1 v) (some ns) = .ok m') (v' : Vals ℝ) : m'.makeCopy v' (some ns) = m.makeCopy v' (some ns) := by
  obtain ⟨h1, h2⟩ := C136_last_counts m hw ns (fun n hn => updatable_subset (hup n hn)) hnd (.d1 v) rfl (makeCopy_updates h) v'
  rcases e : m.updateParameters v' (some ns) with ⟨k, r⟩
  rcases e' : m'.updateParameters v' (some ns) with ⟨k', r'⟩
  unfold HV.makeCopy
  rw [e, e']
  rw [e, e'] at h2
  obtain rfl : r' = r := h2
  cases r' with
  | error => rfl
  | ok u =>
    have := (h1 k).2 e
    rw [e'] at this
    cases this
    rfl

theorem other_createInputs (hw : w.Ready) (h : OtherValues w m t) : (w.withTemplates m t).createInputs = w.createInputs := by
  obtain ⟨v, hv⟩ := h.asoh
  funext X
  unfold JointWrapper.createInputs
  refine congrArg _ (funext fun j => ?_)
  show (do
    let asoh ← m.makeCopy (.d2 (j.toArr2.cols w.nTransients j.toArr2.ncol)) (some w.names)
    return (asoh, t.makeCopy (.d2 (j.toArr2.cols 0 w.nTransients))) : Except Err (HV ℝ × Container ℝ)) = _
  rw [makeCopy_override hw.asoh_wf hw.names_updatable hw.names_distinct hv, makeCopy_layout h.transients]

/-- C137, for every cell: what the filter sees of the wrapper does not depend on the values in the templates. -/
theorem C137_model (hw : w.Ready) (h : OtherValues w m t) : (w.withTemplates m t).toWrapper = w.toWrapper := by
  have e := other_createInputs hw h
  have e1 : (w.withTemplates m t).update = w.update := by
    funext X u u'
    unfold JointWrapper.update
    rw [e]
    rfl
  have e2 : (w.withTemplates m t).predict = w.predict := by
    funext X u
    unfold JointWrapper.predict
    rw [e]
    rfl
  unfold JointWrapper.toWrapper
  rw [e1, e2]
  rfl

theorem other_ready (hw : w.Ready) (h : OtherValues w m t) : (w.withTemplates m t).Ready := by
  obtain ⟨v, hv⟩ := h.asoh
  have hall : ∀ n ∈ w.names, n ∈ w.asoh.allNames := fun n hn => updatable_subset (hw.names_updatable n hn)
  obtain ⟨A, hA, hAn⟩ := hw.nAsoh_eq
  have hwid := width_eq hw.asoh_wf hw.asoh_single hall hA
  have hlen : totalSize w.asoh w.names = (Arr2.ofRow v).ncol :=
    ((update_ok_iff hw.asoh_wf hall hw.names_distinct).1 (makeCopy_updates hv)).1.2
  have hv' : w.asoh.makeCopy (.d2 (Arr2.ofRow v)) (some w.names) = .ok m := by rw [← makeCopy_d1]; exact hv
  obtain ⟨m', g1, g2, g3, g4, g5, -, g7, g8⟩ := makeCopy_writes hw.asoh_wf hw.asoh_single hw.names_distinct hw.names_updatable hlen (le_refl 1)
  cases hv'.symm.trans g1
  have hnd : (t.fields.map (·.1)).Nodup := by
    have := congrArg (List.map Prod.fst) h.transients
    simp only [List.map_map, Function.comp_def] at this
    rw [this]
    exact hw.transients_wf.1
  have htw : t.WF := ⟨hnd, fun k f hf => by
    have : k ∈ t.fields.map (·.1) := List.mem_map.2 ⟨_, hf, rfl⟩
    have e := congrArg (List.map Prod.fst) h.transients
    simp only [List.map_map, Function.comp_def] at e
    rw [e] at this
    obtain ⟨⟨k', f'⟩, hq, rfl⟩ := List.mem_map.1 this
    exact hw.transients_wf.2 _ _ hq⟩
  have hheld : Spec.held t ≠ [] := by
    have := held_layout h.transients
    intro e
    rw [e] at this
    exact hw.transients_held (List.map_eq_nil_iff.1 this.symm)
  obtain ⟨T, hT, hTn⟩ := hw.nTransients_eq
  obtain ⟨T', hT', -⟩ := toNumpy_nrow hheld (fun q hq => (h.single q hq).ge) h.single.batchSize
  refine ⟨g2, ?_, ?_, hw.names_distinct, htw, hheld, ⟨T', hT', ?_⟩, ⟨Arr2.ofRow v, (g8 (.inr rfl)).2, ?_⟩⟩
  · intro p z hz
    by_cases hp : pathName p ∈ w.names
    · have := slices_nrow _ (g5 _ hp)
      rw [valueAt_isParam g2 hz] at this
      exact this
    · exact hw.asoh_single p z ((g7 p z hp).1 hz)
  · intro n hn
    show n ∈ m.updatableNames
    rw [g4]
    exact hw.names_updatable n hn
  · rw [toNumpy_len hnd hT', len_layout hnd h.transients, ← toNumpy_len hw.transients_wf.1 hT]
    exact hTn
  · rw [← hlen, hwid]
    exact hAn

theorem other_parameters (hw : w.Ready) {v : List ℝ} (hv : w.asoh.makeCopy (.d1 v) (some w.names) = .ok m) :
    m.getParameters (some w.names) = .ok (.ofRow v) := by
  have hlen : totalSize w.asoh w.names = (Arr2.ofRow v).ncol :=
    ((update_ok_iff hw.asoh_wf (fun n hn => updatable_subset (hw.names_updatable n hn)) hw.names_distinct).1 (makeCopy_updates hv)).1.2
  have hv' : w.asoh.makeCopy (.d2 (Arr2.ofRow v)) (some w.names) = .ok m := by rw [← makeCopy_d1]; exact hv
  obtain ⟨m', g1, -, -, -, -, -, -, g8⟩ := makeCopy_writes hw.asoh_wf hw.asoh_single hw.names_distinct hw.names_updatable hlen (le_refl 1)
  cases hv'.symm.trans g1
  exact (g8 (.inr rfl)).2

theorem joint_step_same {E E' : Joint} (h : E'.filter = E.filter) (hc : E'.wrapper.controlConv = E.wrapper.controlConv)
    (ho : E'.wrapper.outputConv = E.wrapper.outputConv) (hh : E'.wrapper.hiddenConv = E.wrapper.hiddenConv) (svd : Mat → Vec × Mat)
    (hist : List (Container ℝ × Container ℝ)) : (E'.run svd hist).map Prod.snd = (E.run svd hist).map Prod.snd := by
  induction hist generalizing E E' with
  | nil => rfl
  | cons d hist ih =>
    obtain ⟨u, y⟩ := d
    have key : (∃ e, E'.step svd u y = .error e ∧ E.step svd u y = .error e) ∨
        ∃ f r, E'.step svd u y = .ok ({ E' with filter := f }, r) ∧ E.step svd u y = .ok ({ E with filter := f }, r) := by
      unfold Joint.step
      rw [h, hc, ho, hh]
      rcases convertVals u none with e | u1
      · exact .inl ⟨e, rfl, rfl⟩
      rcases convertVals y none with e | y1
      · exact .inl ⟨e, rfl, rfl⟩
      simp only [ok_bind]
      rcases u1.convert E.wrapper.controlConv true with e | u2
      · exact .inl ⟨e, rfl, rfl⟩
      simp only [ok_bind]
      rcases y1.convert E.wrapper.outputConv true with e | y2
      · exact .inl ⟨e, rfl, rfl⟩
      simp only [ok_bind]
      rcases E.filter.step svd u2 y2 with e | r
      · exact .inl ⟨e, rfl, rfl⟩
      simp only [ok_bind]
      rcases r.2.1.convert E.wrapper.hiddenConv with e | r1
      · exact .inl ⟨e, rfl, rfl⟩
      simp only [ok_bind]
      rcases r.2.2.convert E.wrapper.outputConv with e | r2
      · exact .inl ⟨e, rfl, rfl⟩
      exact .inr ⟨_, _, rfl, rfl⟩
    rcases key with ⟨e, h1, h2⟩ | ⟨f, r, h1, h2⟩
    · rw [Joint.run, Joint.run, h1, h2]
    · have := ih (E := { E with filter := f }) (E' := { E' with filter := f }) rfl hc ho hh
      rw [Joint.run, Joint.run, h1, h2, ok_bind, ok_bind]
      generalize Joint.run svd { E' with filter := f } hist = x at this
      generalize Joint.run svd { E with filter := f } hist = x' at this
      rcases x with e | s <;> rcases x' with e' | s' <;> simp only [Except.map, Except.error.injEq, Except.ok.injEq, reduceCtorEq] at this
      · rw [this]
      · show Except.ok (r :: s.2) = Except.ok (r :: s'.2)
        rw [this]

theorem makeNoise_ok {σ : Type} {model : Wrapper σ} {mem : σ} {g : Gaussian} {u : Dist} {W V : Option Mat} {α β k : ℝ} {f : Ukf σ}
    (h : Ukf.makeNoise model mem g u W V α β k = .ok f) : f = ⟨model, mem, g, u, 2 * model.nHidden + model.nOut, α, β, k,
      W.getD ((Mat.eye model.nHidden).map (1 / 10 ^ 8 * ·)), V.getD ((Mat.eye model.nOut).map (1 / 10 ^ 8 * ·))⟩ := by
  unfold Ukf.makeNoise at h
  dsimp only at h
  repeat rw [ite_eq_iff] at h
  rcases h with ⟨-, h⟩ | ⟨-, h⟩
  · cases h
  rcases h with ⟨-, h⟩ | ⟨-, h⟩
  · cases h
  rcases h with ⟨-, h⟩ | ⟨-, h⟩
  · cases h
  rcases h with ⟨-, h⟩ | ⟨-, h⟩
  · cases h
  exact (Except.ok.inj h).symm

theorem make_hidden {σ : Type} {model : Wrapper σ} {mem : σ} {g g' : Gaussian} {u : Dist} {W V : Option Mat} {α β : ℝ} {κ : Option ℝ} {f f' : Ukf σ}
    (h : Ukf.make model mem g u W V α κ β = .ok f) (h' : Ukf.make model mem g' u W V α κ β = .ok f') : f' = { f with hidden := f'.hidden } := by
  have key : ∀ {g : Gaussian} {f : Ukf σ}, Ukf.make model mem g u W V α κ β = .ok f →
      ∃ k, k = κ.getD (3 - (2 * model.nHidden + model.nOut : Nat)) ∧ Ukf.makeNoise model mem g u W V α β k = .ok f := by
    intro g f h
    unfold Ukf.make at h
    rw [ite_eq_iff] at h
    rcases h with ⟨-, h⟩ | ⟨-, h⟩
    · cases h
    rw [ite_eq_iff] at h
    rcases h with ⟨-, h⟩ | ⟨-, h⟩
    · cases h
    rw [ite_eq_iff] at h
    rcases h with ⟨-, h⟩ | ⟨-, h⟩
    · cases h
    rw [ite_eq_iff] at h
    rcases h with ⟨-, h⟩ | ⟨-, h⟩
    · cases h
    cases κ with
    | none => exact ⟨_, rfl, h⟩
    | some k =>
      dsimp only at h
      rw [ite_eq_iff] at h
      rcases h with ⟨-, h⟩ | ⟨-, h⟩
      · cases h
      exact ⟨_, rfl, h⟩
  obtain ⟨k, hk, h⟩ := key h
  obtain ⟨k', hk', h'⟩ := key h'
  rw [makeNoise_ok h, makeNoise_ok h', hk, hk']

/-- C137, for every cell: two estimators built from templates with different values differ in their first estimate only: set to the estimate of the one,
the other reports what that one reports. -/
theorem C137_first_estimate_only (hw : w.Ready) (h : OtherValues w m t) {cov : Mat ⊕ (Mat × Mat)} {inputsCov noise noiseT noiseA sensor : Option Mat}
    {tune : Tuning} {E E' : Joint} (hE : Joint.fromWrapper w cov inputsCov noise noiseT noiseA sensor tune = .ok E)
    (hE' : Joint.fromWrapper (w.withTemplates m t) cov inputsCov noise noiseT noiseA sensor tune = .ok E') :
    E'.filter = { E.filter with hidden := E'.filter.hidden } ∧
    ∀ svd hist, (Joint.run svd { E' with filter := { E'.filter with hidden := E.filter.hidden } } hist).map Prod.snd = (E.run svd hist).map Prod.snd := by
  simp only [Joint.fromWrapper, bind_eq_ok_iff, pure_eq_ok, Joint.make, Except.ok.injEq] at hE hE'
  obtain ⟨u, h1, T, h2, A, h3, g0, h4, g, h5, u', h6, q, h7, r, h8, f, h9, o, h10, rfl⟩ := hE
  obtain ⟨v, k1, T', k2, A', k3, g0', k4, g', k5, v', k6, q', k7, r', k8, f', k9, o', k10, rfl⟩ := hE'
  have e1 := h1.symm.trans k1
  cases e1
  have e2 := h6.symm.trans k6
  cases e2
  have e3 := h7.symm.trans k7
  cases e3
  have e4 := h8.symm.trans k8
  cases e4
  rw [C137_model hw h] at k9
  have ef : f' = { f with hidden := f'.hidden } := make_hidden h9 k9
  refine ⟨ef, fun svd hist => joint_step_same (E := ⟨o, w, f⟩) (E' := ⟨o', w.withTemplates m t, { f' with hidden := f.hidden }⟩) ?_ rfl rfl rfl svd hist⟩
  show { f' with hidden := f.hidden } = f
  rw [ef]

end

/-! ## Proofs: circuits -/

section
variable {w : JointWrapper} {m : HV ℝ} {t : Container ℝ} {beh : Behavior} {x : Fixed} {measured series : Bool} {a : ASOH}

theorem other_online (hc : EstimatesCircuit w beh x measured series a) (he : Estimable w.names measured series a) (hid : w.plain = w)
    (hi : w.inputs.Single) (h : OtherValues w m t) : ∃ o, Online.make w.cell m t w.inputs w.names = .ok o := by
  have hr := other_ready hc.ready h
  obtain ⟨T, A, y, -, -, -, h1⟩ := createInputs_own (w.withTemplates m t) hr h.single
  obtain ⟨V, hV, hVn, h2⟩ := circuit_inputs hc hi
  obtain ⟨H, hH⟩ := (circuit_predict hc le_rfl (fun _ : Fin 1 => y) hVn).2 he
  have hp : (w.withTemplates m t).plain = w.withTemplates m t := by
    show JointWrapper.withTemplates w.plain m t = _
    rw [hid]
  rw [hp, other_createInputs hc.ready h] at h1
  rw [hid] at hH h2
  unfold JointWrapper.predict at hH
  rw [h2, ok_bind] at hH
  have h1' : w.createInputs ⟨1, w.nTransients + w.nAsoh, fun _ => y⟩ = .ok (m, t) := h1
  rw [h1', ok_bind] at hH
  obtain ⟨Y, hY, -⟩ := bind_ok.1 hH
  have hY1 : w.cell.output w.inputs t m = .ok Y := hY
  have hYn : ∃ yn, Y.allNames = .ok yn := by
    rw [hc.cell] at hY1
    simp only [Ecm.cell, bind_eq_ok_iff, pure_eq_ok, Except.ok.injEq] at hY1
    obtain ⟨_, _, _, _, _, _, v, _, rfl⟩ := hY1
    exact ⟨_, rfl⟩
  obtain ⟨yn, hyn⟩ := hYn
  have hb : m.batchSize = .ok 1 :=
    ((C12_batch_size m fun p a hp => by rw [hr.asoh_single p a hp]).1 1).2 ⟨fun p a hp => .inl (hr.asoh_single p a hp), .inl rfl⟩
  unfold Online.make
  rw [hY1, ok_bind, hyn, ok_bind, h.single.batchSize, ok_bind, if_neg (by simp), hb, ok_bind, if_neg (by simp)]
  exact ⟨_, rfl⟩

/-- The estimator built from other templates runs the Kalman filter of the same cell, from the values of these templates. -/
theorem other_runs (hc : EstimatesCircuit w beh x measured series a) (he : Estimable w.names measured series a) (hs : JointlyStraight w.names a)
    (hid : w.plain = w) (hi : w.inputs.Single) (ho : w.nOut = 1) (ht : OtherValues w m t)
    {P Q : Matrix (Fin (w.nTransients + w.nAsoh)) (Fin (w.nTransients + w.nAsoh)) ℝ} {R : Matrix (Fin 1) (Fin 1) ℝ}
    (hP : P.PosDef) (hQ : Q.PosDef) (hR : R.PosDef) (tune : Tuning) (ha : 1 / 1000 ≤ tune.alpha ∧ tune.alpha ≤ 1) (hb : 0 ≤ tune.beta)
    (hk : ∀ k, tune.kappa = some k → -((2 * (w.nTransients + w.nAsoh) + 1 : Nat) : ℝ) < k) :
    ∃ (E : Joint) (u : Fin (2 + (if measured then 1 else 0)) → ℝ) (y : Fin (w.nTransients + w.nAsoh) → ℝ) (U T A : Arr2 ℝ),
      Joint.fromWrapper (w.withTemplates m t) (.inl ⟨_, _, P⟩) none (some ⟨_, _, Q⟩) none none (some ⟨1, 1, R⟩) tune = .ok E ∧
      (w.inputs.toNumpy = .ok U ∧ U.flat = ⟨_, u⟩) ∧
      (t.toNumpy = .ok T ∧ m.getParameters (some w.names) = .ok A ∧ T.flat.append A.flat = ⟨_, y⟩) ∧
      ∀ (svd : Mat → Vec × Mat) (hist : List (Container ℝ × Container ℝ)) (zs : List ((Fin (2 + (if measured then 1 else 0)) → ℝ) × (Fin 1 → ℝ))),
        List.Forall₂ (fun m h => (∃ v, m.1.toNumpy = .ok v ∧ v.flat = ⟨_, h.1⟩) ∧ ∃ y, m.2.toNumpy = .ok y ∧ y.flat = ⟨1, h.2⟩) hist zs →
        (beh = .linear → ((In.ofVec measured (List.ofFn u)).time :: zs.map fun z => (In.ofVec measured (List.ofFn z.1)).time).IsChain (· ≠ ·)) →
        ∃ fin, E.run svd hist = .ok (fin, (jointHistory w x beh series a.rcs.length Q R (In.ofVec measured (List.ofFn u)) ⟨y, P⟩
          (zs.map fun h => (In.ofVec measured (List.ofFn h.1), h.2))).map fun r => (r.1.gaussian, r.2.gaussian)) := by
  have hcc : w.controlConv = .identity := by rw [← hid]; rfl
  have hoc : w.outputConv = .identity := by rw [← hid]; rfl
  have hhc : w.hiddenConv = .identity := by rw [← hid]; rfl
  have hn : 1 ≤ w.nTransients + w.nAsoh := by have := circuit_width hc; omega
  have hr := other_ready hc.ready ht
  obtain ⟨V, hV, hVn, -⟩ := circuit_inputs hc hi
  obtain ⟨u, hu⟩ := Vec.eta_of hVn
  obtain ⟨T, A, y, hT, hA, hy⟩ : ∃ T A, ∃ y : Fin (w.nTransients + w.nAsoh) → ℝ, t.toNumpy = .ok T ∧ m.getParameters (some w.names) = .ok A ∧
      T.flat.append A.flat = ⟨_, y⟩ := by
    obtain ⟨T, A, y, hT, hA, hy, -⟩ := createInputs_own (w.withTemplates m t) hr ht.single
    exact ⟨T, A, y, hT, hA, hy⟩
  have hon := other_online hc he hid hi ht
  obtain ⟨E, hE⟩ := joint_built_of (w.withTemplates m t) hr ht.single ho hn (fun _ => one_ne_zero) (fun _ => one_ne_zero)
    (by show w.hiddenConv.Rescales _ _ _; rw [hhc]; exact identity_rescales _)
    (by show w.outputConv.Rescales _ _ _; rw [hoc]; exact identity_rescales _)
    (fun v _ => ⟨v, by show w.controlConv.invSamples1 v = _; rw [hcc]; rfl, by show w.controlConv.samples1 v = _; rw [hcc]; rfl⟩)
    hP hQ hR tune ha hb hk ⟨V, hV, hVn⟩ hon
  refine ⟨E, u, y, V, T, A, hE, ⟨hV, hu⟩, ⟨hT, hA, hy⟩, fun svd hist zs hh hmoves => ?_⟩
  obtain ⟨u0, T0, A0, g0, g, u', q, r, f, a1, a2, a3, a4, a5, a6, a7, a8, a9, hw, hf⟩ := Joint.fromWrapper_ok hE
  cases hT.symm.trans a2
  cases hA.symm.trans a3
  rw [hy] at a4
  replace a4 : Gaussian.make ⟨w.nTransients + w.nAsoh, y⟩ ⟨_, _, P⟩ = .ok g0 := a4
  rw [Gaussian.make_of hn] at a4
  cases a4
  replace a5 : Gaussian.convert _ w.hiddenConv true = .ok g := a5
  replace a6 : u0.convert w.controlConv true = .ok u' := a6
  replace a7 : w.hiddenConv.invCovariance _ _ = .ok q := a7
  replace a8 : w.outputConv.invCovariance _ _ = .ok r := a8
  rw [hhc] at a5 a7
  rw [hoc] at a8
  rw [hcc] at a6
  rw [Gaussian.unconvert_ok hn rfl rfl] at a5
  cases a5
  cases a7
  cases a8
  have e0 : convertVals w.inputs none = .ok (.delta ⟨V.flat⟩) := by simp only [convertVals, hV, ok_bind, pure_eq_ok]
  cases e0.symm.trans a1
  have e1 : u' = .delta ⟨V.flat⟩ := (Except.ok.inj a6).symm
  subst e1
  rw [C137_model hc.ready ht] at a9
  obtain ⟨p1, -, -, p4, -⟩ := Ukf.C53_constructed _ _ _ _ _ _ _ _ _ a9
  let fh : List (Dist × Dist) := zs.map fun h => (.delta ⟨⟨_, h.1⟩⟩, .delta ⟨⟨1, h.2⟩⟩)
  have hmeans : HasMeans fh (zs.map fun z => (⟨_, z.1⟩, z.2)) := by
    clear hh hmoves
    induction zs with
    | nil => exact .nil
    | cons z zs ih => exact .cons ⟨rfl, rfl⟩ ih
  obtain ⟨fin, hrun⟩ := C133_history hc he hs hQ hR svd fh zs f u ⟨y, P⟩ (by rw [p1, hid]) (Ukf.holds_of_make _ _ _ _ _ _ hn a9) hP
    (by rw [p4]; exact hu) hmeans hmoves
  refine ⟨_, Joint.run_of svd (w.withTemplates m t) (fh := fh) ?_ E fin _ _ hw (by rw [hf]; exact hrun) ?_⟩
  · clear hmoves hmeans hrun
    induction hh with
    | nil => exact .nil
    | cons h _ ih =>
      obtain ⟨⟨v, v1, v2⟩, y', y1, y2⟩ := h
      refine .cons ⟨.delta ⟨v.flat⟩, .delta ⟨y'.flat⟩, by simp only [convertVals, v1, ok_bind, pure_eq_ok],
        by simp only [convertVals, y1, ok_bind, pure_eq_ok], ?_, ?_⟩ ih
      · show Dist.convert _ w.controlConv true = _
        rw [hcc, v2]; rfl
      · show Dist.convert _ w.outputConv true = _
        rw [hoc, y2]; rfl
  · show List.Forall₂ (fun (o c : Gaussian × Gaussian) => o.1.convert w.hiddenConv = .ok c.1 ∧ o.2.convert w.outputConv = .ok c.2) _ _
    rw [hhc, hoc]
    refine List.forall₂_same.2 fun o ho => ?_
    obtain ⟨r, -, rfl⟩ := List.mem_map.1 ho
    exact ⟨Gaussian.convert_ok hn rfl rfl, Gaussian.convert_ok le_rfl rfl rfl⟩

theorem jointHistory_merging {n k : Nat} {Q : Matrix (Fin n) (Fin n) ℝ} {R : Matrix (Fin 1) (Fin 1) ℝ} (hQ : Q.PosDef) (hR : R.PosDef)
    (zs : List (In × (Fin 1 → ℝ))) : ∀ (prev : In) (μ μ' : Fin n → ℝ) (P : Matrix (Fin n) (Fin n) ℝ), P.PosDef →
    Merging Q P (misfit (μ - μ') P) (jointFlows w x beh series k prev (zs.map (·.1))) (jointHistory w x beh series k Q R prev ⟨μ, P⟩ zs)
      (jointHistory w x beh series k Q R prev ⟨μ', P⟩ zs) := by
  induction zs with
  | nil => intros; exact .nil
  | cons z zs ih =>
    intro prev μ μ' P hP
    obtain ⟨new, z⟩ := z
    have hp := Ukf.predict_posDef (F := slopes (jointStep w x beh series k prev new)) (c := jointStep w x beh series k prev new 0) (b := ⟨μ, P⟩) hP hQ
    have h1 := Ukf.correct_posDef (H := slopes (jointVolt w x series k new)) (d := jointVolt (N := n) w x series k new 0) (z := z) hp hR
    exact .cons h1 (Ukf.innovation_posDef hp hR _) rfl rfl (fun ρ hρ hc => merge_step hP hQ hR _ _ _ μ μ' z hρ hc) (ih _ _ _ _ h1)

/-- A covariance is at most a multiple of any positive definite one. -/
theorem psd_le_smul {n : Nat} {Q M : Matrix (Fin n) (Fin n) ℝ} (hQ : Q.PosDef) (hM : M.PosSemidef) : ∃ β : ℝ, 0 ≤ β ∧ (β • Q - M).PosSemidef := by
  let c : Fin n → ℝ := fun i => misfit (Pi.single i 1) Q
  have hs : ∀ i, 0 ≤ c i := fun i => misfit_nonneg hQ _
  refine ⟨∑ i, ∑ j, |M i j| * ((c i + c j) / 2), Finset.sum_nonneg fun i _ => Finset.sum_nonneg fun j _ => mul_nonneg (abs_nonneg _)
    (div_nonneg (add_nonneg (hs i) (hs j)) zero_le_two), .of_dotProduct_mulVec_nonneg ((hQ.1.smul (IsSelfAdjoint.all _)).sub hM.1) fun v => ?_⟩
  have hv : ∀ i, v i ^ 2 ≤ c i * (v ⬝ᵥ Q *ᵥ v) := fun i => by
    have := ((misfit_le_iff hQ).1 (le_refl (misfit (Pi.single i 1) Q))).2 v
    rwa [dotProduct_single, mul_one] at this
  rw [star_trivial, sub_mulVec, dotProduct_sub, smul_mulVec, dotProduct_smul, smul_eq_mul, sub_nonneg]
  calc v ⬝ᵥ M *ᵥ v = ∑ i, ∑ j, v i * (M i j * v j) := by simp only [dotProduct, mulVec, Finset.mul_sum]
    _ ≤ ∑ i, ∑ j, |M i j| * ((c i + c j) / 2) * (v ⬝ᵥ Q *ᵥ v) := by
      refine Finset.sum_le_sum fun i _ => Finset.sum_le_sum fun j _ => ?_
      have h1 : |v i * v j| ≤ (c i + c j) / 2 * (v ⬝ᵥ Q *ᵥ v) := by
        have := hv i
        have := hv j
        rw [abs_le]
        constructor <;> nlinarith [sq_nonneg (v i + v j), sq_nonneg (v i - v j)]
      calc v i * (M i j * v j) ≤ |v i * (M i j * v j)| := le_abs_self _
        _ = |M i j| * |v i * v j| := by rw [← abs_mul]; congr 1; ring
        _ ≤ |M i j| * ((c i + c j) / 2 * (v ⬝ᵥ Q *ᵥ v)) := mul_le_mul_of_nonneg_left h1 (abs_nonneg _)
        _ = _ := by ring
    _ = _ := by simp only [Finset.sum_mul]

theorem exists_carried {n o : Nat} {Q : Matrix (Fin n) (Fin n) ℝ} (hQ : Q.PosDef) : ∀ {P : Matrix (Fin n) (Fin n) ℝ}
    (steps : List (Matrix (Fin n) (Fin n) ℝ × Matrix (Fin o) (Fin n) ℝ)) (Ps : List (Matrix (Fin n) (Fin n) ℝ)), P.PosSemidef →
    (∀ P' ∈ Ps, P'.PosSemidef) → Ps.length = steps.length → ∃ ρs, Carried Q P steps Ps ρs ∧ ∀ ρ ∈ ρs, 0 ≤ ρ ∧ ρ < 1
  | _, [], [], _, _, _ => ⟨[], True.intro, by simp⟩
  | P, (F, H) :: steps, P' :: Ps, hP, hPs, hl => by
    obtain ⟨β, hβ, h⟩ := psd_le_smul hQ (Ukf.psd_conj hP F)
    obtain ⟨ρs, k1, k2⟩ := exists_carried hQ steps Ps (hPs P' (.head _)) (fun X hX => hPs X (.tail _ hX)) (by simpa using hl)
    have h0 : 0 ≤ β / (1 + β) := by positivity
    refine ⟨β / (1 + β) :: ρs, ⟨h0, carried_of_le hβ h, k1⟩, fun ρ hρ => ?_⟩
    rcases List.mem_cons.1 hρ with rfl | hρ
    · exact ⟨h0, (div_lt_one (by linarith)).2 (by linarith)⟩
    · exact k2 ρ hρ

/-! ## C137 -/

/-- C137 for circuits: two estimators built from templates with different values of the estimated parameters and the transient state, that get the same
history.  They report the same covariances, and their estimates and predicted voltages approach each other as fast as the estimator forgets. -/
theorem C137_circuit (hc : EstimatesCircuit w beh x measured series a) (he : Estimable w.names measured series a) (hs : JointlyStraight w.names a)
    (hid : w.plain = w) (ht : w.transients.Single) (hi : w.inputs.Single) (ho : w.nOut = 1) (h : OtherValues w m t)
    {P Q : Matrix (Fin (w.nTransients + w.nAsoh)) (Fin (w.nTransients + w.nAsoh)) ℝ} {R : Matrix (Fin 1) (Fin 1) ℝ}
    (hP : P.PosDef) (hQ : Q.PosDef) (hR : R.PosDef) (tune : Tuning) (ha : 1 / 1000 ≤ tune.alpha ∧ tune.alpha ≤ 1) (hb : 0 ≤ tune.beta)
    (hk : ∀ k, tune.kappa = some k → -((2 * (w.nTransients + w.nAsoh) + 1 : Nat) : ℝ) < k) :
    ∃ (E E' : Joint) (u : Fin (2 + (if measured then 1 else 0)) → ℝ) (y y' : Fin (w.nTransients + w.nAsoh) → ℝ) (U T T' A A' : Arr2 ℝ),
      Joint.fromWrapper w (.inl ⟨_, _, P⟩) none (some ⟨_, _, Q⟩) none none (some ⟨1, 1, R⟩) tune = .ok E ∧
      Joint.fromWrapper (w.withTemplates m t) (.inl ⟨_, _, P⟩) none (some ⟨_, _, Q⟩) none none (some ⟨1, 1, R⟩) tune = .ok E' ∧
      (w.inputs.toNumpy = .ok U ∧ U.flat = ⟨_, u⟩) ∧
      (w.transients.toNumpy = .ok T ∧ w.asoh.getParameters (some w.names) = .ok A ∧ T.flat.append A.flat = ⟨_, y⟩) ∧
      (t.toNumpy = .ok T' ∧ m.getParameters (some w.names) = .ok A' ∧ T'.flat.append A'.flat = ⟨_, y'⟩) ∧
      ∀ (svd : Mat → Vec × Mat) (hist : List (Container ℝ × Container ℝ)) (zs : List ((Fin (2 + (if measured then 1 else 0)) → ℝ) × (Fin 1 → ℝ))),
        List.Forall₂ (fun m h => (∃ v, m.1.toNumpy = .ok v ∧ v.flat = ⟨_, h.1⟩) ∧ ∃ y, m.2.toNumpy = .ok y ∧ y.flat = ⟨1, h.2⟩) hist zs →
        (beh = .linear → ((In.ofVec measured (List.ofFn u)).time :: zs.map fun z => (In.ofVec measured (List.ofFn z.1)).time).IsChain (· ≠ ·)) →
        ∃ fin fin', ∃ out out' : List (Belief (w.nTransients + w.nAsoh) × Belief 1),
          E.run svd hist = .ok (fin, out.map fun r => (r.1.gaussian, r.2.gaussian)) ∧
          E'.run svd hist = .ok (fin', out'.map fun r => (r.1.gaussian, r.2.gaussian)) ∧ out.length = hist.length ∧
          Merging Q P (misfit (y - y') P) (jointFlows w x beh series a.rcs.length (In.ofVec measured (List.ofFn u))
            (zs.map fun z => In.ofVec measured (List.ofFn z.1))) out out' ∧
          Fading 1 (misfit (y - y') P) out out' := by
  obtain ⟨E, u, y, U, T, A, h1, h2, h3, h4⟩ := C133_runs hc he hs hid ht hi ho hP hQ hR tune ha hb hk
  obtain ⟨E', u', y', U', T', A', k1, k2, k3, k4⟩ := other_runs hc he hs hid hi ho h hP hQ hR tune ha hb hk
  cases h2.1.symm.trans k2.1
  cases h2.2.symm.trans k2.2
  refine ⟨E, E', u, y, y', U, T, T', A, A', h1, k1, h2, h3, k3, fun svd hist zs hh hmoves => ?_⟩
  obtain ⟨fin, h5⟩ := h4 svd hist zs hh hmoves
  obtain ⟨fin', k5⟩ := k4 svd hist zs hh hmoves
  have hm := jointHistory_merging (w := w) (x := x) (beh := beh) (series := series) (k := a.rcs.length) hQ hR
    (zs.map fun z => (In.ofVec measured (List.ofFn z.1), z.2)) (In.ofVec measured (List.ofFn u)) y y' P hP
  have hl := (jointHistory_last (w := w) (x := x) (beh := beh) (series := series) (a := a) hQ hR
    (zs.map fun z => (In.ofVec measured (List.ofFn z.1), z.2)) (In.ofVec measured (List.ofFn u)) ⟨y, P⟩ hP).2
  rw [List.length_map] at hl
  have hm' := hm
  rw [List.map_map] at hm'
  refine ⟨fin, fin', _, _, h5, k5, hl.trans hh.length_eq.symm, hm', C120_never_apart hQ hm⟩

/-- C137, the two come closer with every step: their differences, in units of the reported covariances, are at most the difference at the start times a
product of factors less than one, a factor for every step. -/
theorem C137_closer {n o : Nat} {Q P : Matrix (Fin n) (Fin n) ℝ} {E : ℝ} {steps : List (Matrix (Fin n) (Fin n) ℝ × Matrix (Fin o) (Fin n) ℝ)}
    {out out' : List (Belief n × Belief o)} (hQ : Q.PosDef) (hP : P.PosDef) (h : Merging Q P E steps out out') :
    ∃ ρs : List ℝ, ρs.length = out.length ∧ (∀ ρ ∈ ρs, 0 ≤ ρ ∧ ρ < 1) ∧ ∀ i b b', out[i]? = some b → out'[i]? = some b' →
      misfit (b.1.mean - b'.1.mean) b.1.cov ≤ (ρs.take (i + 1)).prod * E ∧ misfit (b.2.mean - b'.2.mean) b.2.cov ≤ (ρs.take (i + 1)).prod * E := by
  have hf := C120_never_apart hQ h
  have hl : (out.map (·.1.cov)).length = steps.length := by rw [List.length_map, h.1]
  have hlen : out.length = out'.length := by simpa using congrArg List.length h.2.1
  obtain ⟨ρs, h1, h2⟩ := exists_carried hQ steps (out.map (·.1.cov)) hP.posSemidef (fun P' hP' => by
    obtain ⟨b, hb, rfl⟩ := List.mem_map.1 hP'
    obtain ⟨i, hi, rfl⟩ := List.mem_iff_getElem.1 hb
    exact (hf.2 i _ _ (List.getElem?_eq_getElem hi) (List.getElem?_eq_getElem (by omega))).1.posSemidef) hl
  refine ⟨ρs, (carried_length h1).trans h.1.symm, h2, fun i b b' hb hb' => (h.2.2 ρs h1 i b b' hb hb').2.2⟩
where
  carried_length {n o : Nat} {Q : Matrix (Fin n) (Fin n) ℝ} : ∀ {P : Matrix (Fin n) (Fin n) ℝ} {steps : List (Matrix (Fin n) (Fin n) ℝ × Matrix (Fin o) (Fin n) ℝ)}
      {Ps : List (Matrix (Fin n) (Fin n) ℝ)} {ρs : List ℝ}, Carried Q P steps Ps ρs → ρs.length = steps.length
    | _, [], [], [], _ => rfl
    | _, (_, _) :: _, _ :: _, _ :: _, h => congrArg Nat.succ (carried_length h.2.2)

end

/-! ## Examples -/

theorem fading_cov {n o : Nat} {ρ E : ℝ} {out out' : List (Belief n × Belief o)} (h : Fading ρ E out out') {i : Nat} {b b' : Belief n × Belief o}
    (hb : out[i]? = some b) (hb' : out'[i]? = some b') : b.1.cov = b'.1.cov := by
  have := congrArg (·[i]?) h.1
  simp only [List.getElem?_map, hb, hb', Option.map_some, Option.some.injEq, Prod.mk.injEq] at this
  exact this.1

-- Templates of the concrete circuit with R0 of 150 mΩ instead of 50 mΩ, at SOC 0.4 instead of 1/2: the filter sees the same model.
example (beh : Behavior) (op : Operator) {m : HV ℝ} (hm : Demo.hvCircuit.makeCopy (.d1 [0.15]) (some [Demo.nR0]) = .ok m) :
    ((Demo.estimatingR0 beh op).withTemplates m Demo.lowState).toWrapper = (Demo.estimatingR0 beh op).toWrapper :=
  C137_model (Demo.estimatingR0_circuit beh op).ready ⟨⟨_, hm⟩, rfl, Demo.low_holds.single⟩

-- Their estimates of R0 after any history differ by at most 0.15 of the standard deviations that both report.
example (beh : Behavior) (svd : Mat → Vec × Mat) (hist : List (ℝ × ℝ × ℝ × ℝ)) (hmoves : beh = .linear → (0 :: hist.map (·.1)).IsChain (· ≠ ·)) :
    ∃ m E E' fin fin', ∃ out out' : List (Belief 4 × Belief 1), Demo.hvCircuit.makeCopy (.d1 [0.15]) (some [Demo.nR0]) = .ok m ∧
    Joint.fromWrapper (Demo.estimatingR0 beh .identity) (.inl ⟨4, 4, 1⟩) none (some ⟨4, 4, 1⟩) none none (some ⟨1, 1, 1⟩) ⟨1 / 2, none, 2⟩ = .ok E ∧
    Joint.fromWrapper ((Demo.estimatingR0 beh .identity).withTemplates m Demo.lowState) (.inl ⟨4, 4, 1⟩) none (some ⟨4, 4, 1⟩) none none
      (some ⟨1, 1, 1⟩) ⟨1 / 2, none, 2⟩ = .ok E' ∧
    E.run svd (hist.map fun m => (⟨[(kTime, some (.ofRow [m.1])), (kCurrent, some (.ofRow [m.2.1])), (kTemp, some (.ofRow [m.2.2.1]))]⟩,
      ⟨[(kVoltage, some (.ofRow [m.2.2.2]))]⟩)) = .ok (fin, out.map fun r => (r.1.gaussian, r.2.gaussian)) ∧
    E'.run svd (hist.map fun m => (⟨[(kTime, some (.ofRow [m.1])), (kCurrent, some (.ofRow [m.2.1])), (kTemp, some (.ofRow [m.2.2.1]))]⟩,
      ⟨[(kVoltage, some (.ofRow [m.2.2.2]))]⟩)) = .ok (fin', out'.map fun r => (r.1.gaussian, r.2.gaussian)) ∧ out.length = hist.length ∧
    ∀ (i : Nat) (b b' : Belief 4 × Belief 1), out[i]? = some b → out'[i]? = some b' → b.1.cov = b'.1.cov ∧ |b.1.mean 3 - b'.1.mean 3| ≤ 0.15 * √(b.1.cov 3 3) := by
  have hcirc := Demo.estimatingR0_circuit beh .identity
  obtain ⟨m, -, hm, -⟩ := copy_circuit hcirc (Demo.estimatingR0_estimable _ _) ![0.15]
  have hv : List.ofFn (![0.15] : Fin 1 → ℝ) = [0.15] := by simp [List.ofFn_succ]
  replace hm := (congrArg (fun l => Demo.hvCircuit.makeCopy (.d1 l) (some [Demo.nR0])) hv).symm.trans hm
  have hother : OtherValues (Demo.estimatingR0 beh .identity) m Demo.lowState := ⟨⟨_, hm⟩, rfl, Demo.low_holds.single⟩
  obtain ⟨E, E', u, y, y', U, T, T', A, A', hE, hE', ⟨hU, hu⟩, ⟨hT, hA, hy⟩, ⟨hT', hA', hy'⟩, hrun⟩ := C137_circuit hcirc
    (Demo.estimatingR0_estimable _ _) (Demo.estimatingR0_straight _ _) rfl Demo.hvState_single Demo.hvInput_single rfl hother
    (P := 1) (Q := 1) (R := 1) .one .one .one ⟨1 / 2, none, 2⟩ ⟨by norm_num, by norm_num⟩ (by norm_num) nofun
  cases (Except.ok.inj hU)
  cases (Except.ok.inj hT)
  cases (Except.ok.inj hA)
  cases (Except.ok.inj hT')
  obtain rfl : ![0, 1, 30] = u := Vec.mk.inj hu |>.2 |> eq_of_heq |> fun h => by rw [← h]; funext k; fin_cases k <;> rfl
  obtain rfl : ![0.5, 0, 0, 0.05] = y := Vec.mk.inj hy |>.2 |> eq_of_heq |> fun h => by rw [← h]; funext k; fin_cases k <;> rfl
  have hA1 : A' = .ofRow [0.15] := Except.ok.inj (hA'.symm.trans (other_parameters hcirc.ready hm))
  subst hA1
  obtain rfl : ![0.4, 0, 0, 0.15] = y' := Vec.mk.inj hy' |>.2 |> eq_of_heq |> fun h => by rw [← h]; funext k; fin_cases k <;> rfl
  obtain ⟨fin, fin', out, out', h1, h2, h3, -, h5⟩ := hrun svd (hist.map fun m =>
    (⟨[(kTime, some (.ofRow [m.1])), (kCurrent, some (.ofRow [m.2.1])), (kTemp, some (.ofRow [m.2.2.1]))]⟩,
      ⟨[(kVoltage, some (.ofRow [m.2.2.2]))]⟩)) (hist.map fun m => (![m.1, m.2.1, m.2.2.1], ![m.2.2.2])) (by
    clear hrun hmoves
    induction hist with
    | nil => exact .nil
    | cons y hist ih =>
      exact .cons ⟨⟨.ofRow [y.1, y.2.1, y.2.2.1], rfl, congrArg (Vec.mk 3) (funext fun k => by fin_cases k <;> rfl)⟩, .ofRow [y.2.2.2], rfl,
        congrArg (Vec.mk 1) (funext fun k => by fin_cases k; rfl)⟩ ih) (fun hb => by rw [List.map_map]; exact hmoves hb)
  refine ⟨m, E, E', fin, fin', out, out', hm, hE, hE', h1, h2, h3.trans (List.length_map _), fun i b b' hb hb' => ?_⟩
  have e : misfit ((![0.5, 0, 0, 0.05] : Fin 4 → ℝ) - ![0.4, 0, 0, 0.15]) 1 = 0.02 := by
    rw [misfit, inv_one, one_mulVec]
    norm_num
  obtain ⟨k1, -, k3, -⟩ := h5.2 i b b' hb hb'
  have k3' : misfit (b.1.mean - b'.1.mean) b.1.cov ≤ 0.02 := by
    rw [one_pow, one_mul] at k3
    exact k3.trans e.le
  exact ⟨fading_cov h5 hb hb', (C116_each (e := b.1.mean - b'.1.mean) k1 (3 : Fin 4)).trans
    (mul_le_mul_of_nonneg_right (Real.sqrt_le_iff.2 ⟨by norm_num, k3'.trans (by norm_num)⟩) (Real.sqrt_nonneg _))⟩

-- The estimator built from the other templates, set to the first estimate of the one built from the first templates, reports what that one reports.
example (beh : Behavior) {m : HV ℝ} (hm : Demo.hvCircuit.makeCopy (.d1 [0.15]) (some [Demo.nR0]) = .ok m) (svd : Mat → Vec × Mat)
    (hist : List (Container ℝ × Container ℝ)) : ∃ E E' : Joint,
    Joint.fromWrapper (Demo.estimatingR0 beh .identity) (.inl ⟨4, 4, 1⟩) none (some ⟨4, 4, 1⟩) none none (some ⟨1, 1, 1⟩) ⟨1 / 2, none, 2⟩ = .ok E ∧
    Joint.fromWrapper ((Demo.estimatingR0 beh .identity).withTemplates m Demo.lowState) (.inl ⟨4, 4, 1⟩) none (some ⟨4, 4, 1⟩) none none
      (some ⟨1, 1, 1⟩) ⟨1 / 2, none, 2⟩ = .ok E' ∧
    (Joint.run svd { E' with filter := { E'.filter with hidden := E.filter.hidden } } hist).map Prod.snd = (E.run svd hist).map Prod.snd := by
  have hcirc := Demo.estimatingR0_circuit beh .identity
  have hother : OtherValues (Demo.estimatingR0 beh .identity) m Demo.lowState := ⟨⟨_, hm⟩, rfl, Demo.low_holds.single⟩
  obtain ⟨E, E', -, -, -, -, -, -, -, -, hE, hE', -⟩ := C137_circuit hcirc
    (Demo.estimatingR0_estimable _ _) (Demo.estimatingR0_straight _ _) rfl Demo.hvState_single Demo.hvInput_single rfl hother
    (P := 1) (Q := 1) (R := 1) .one .one .one ⟨1 / 2, none, 2⟩ ⟨by norm_num, by norm_num⟩ (by norm_num) nofun
  exact ⟨E, E', hE, hE', (C137_first_estimate_only hcirc.ready hother hE hE').2 svd hist⟩

-- Two Kalman filters for the numbers of the concrete circuit that start at different numbers come closer with every step.
example (beh : Behavior) (μ μ' : Fin 4 → ℝ) (zs : List (In × (Fin 1 → ℝ))) :
    let out := jointHistory (Demo.estimatingR0 beh .identity) Demo.fixed beh false 1 1 1 ⟨0, 1, some 30⟩ ⟨μ, 1⟩ zs
    let out' := jointHistory (Demo.estimatingR0 beh .identity) Demo.fixed beh false 1 1 1 ⟨0, 1, some 30⟩ ⟨μ', 1⟩ zs
    ∃ ρs : List ℝ, ρs.length = out.length ∧ (∀ ρ ∈ ρs, 0 ≤ ρ ∧ ρ < 1) ∧ ∀ i b b', out[i]? = some b → out'[i]? = some b' →
      misfit (b.1.mean - b'.1.mean) b.1.cov ≤ (ρs.take (i + 1)).prod * misfit (μ - μ') 1 ∧
        misfit (b.2.mean - b'.2.mean) b.2.cov ≤ (ρs.take (i + 1)).prod * misfit (μ - μ') 1 :=
  C137_closer .one .one (jointHistory_merging .one .one zs _ μ μ' 1 .one)

end Verif
