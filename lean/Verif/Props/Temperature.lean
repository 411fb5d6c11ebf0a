import Verif.Props.EcmPipeline
/-!
# The temperatures of a dataset (C108)
-/

namespace Verif
open Ecm Cell Spec

/-! ## Specification -/

/-- Two rows of data that agree in everything but the temperature. -/
def Spec.SameButTemperature (r r' : Row) : Prop := ∀ n : Name, n ≠ "temperature".toList → lookupKey n r = lookupKey n r'

/-! ## Proofs -/

/-- Two computations that fail alike or return the same value with related states. -/
def Agree {σ β : Type} (R : σ → σ → Prop) (x y : Except Err (σ × β)) : Prop :=
  (∃ err, x = .error err ∧ y = .error err) ∨ ∃ s s' b, x = .ok (s, b) ∧ y = .ok (s', b) ∧ R s s'

/-- The time, current and voltage of a row are read as they are; its temperature is always a number. -/
theorem rowToInputs_form (r : Row) : ∃ T, rowToInputs r = (do
    let t ← r.get "test_time".toList
    let i ← r.get "current".toList
    let v ← r.get "voltage".toList
    return (⟨t, i, .fin T⟩, ⟨v⟩)) := by
  unfold rowToInputs
  cases hl : lookupKey "temperature".toList r with
  | none => exact ⟨25, rfl⟩
  | some T =>
    have hg : r.get "temperature".toList = .ok T := by unfold Row.get; rw [hl]
    cases T with
    | fin x => exact ⟨x, by simp only [hg]; rfl⟩
    | _ => exact ⟨25, rfl⟩

theorem rowToInputs_agree {r r' : Row} (h : SameButTemperature r r') :
    (∃ err, rowToInputs r = .error err ∧ rowToInputs r' = .error err) ∨
    ∃ t i v T T', rowToInputs r = .ok (⟨t, i, .fin T⟩, ⟨v⟩) ∧ rowToInputs r' = .ok (⟨t, i, .fin T'⟩, ⟨v⟩) := by
  have e1 : r.get "test_time".toList = r'.get "test_time".toList := by unfold Row.get; rw [h _ (by decide)]
  have e2 : r.get "current".toList = r'.get "current".toList := by unfold Row.get; rw [h _ (by decide)]
  have e3 : r.get "voltage".toList = r'.get "voltage".toList := by unfold Row.get; rw [h _ (by decide)]
  obtain ⟨T, hT⟩ := rowToInputs_form r
  obtain ⟨T', hT'⟩ := rowToInputs_form r'
  rw [hT, hT', ← e1, ← e2, ← e3]
  cases r.get "test_time".toList with
  | error err => exact .inl ⟨err, rfl, rfl⟩
  | ok t =>
  cases r.get "current".toList with
  | error err => exact .inl ⟨err, rfl, rfl⟩
  | ok i =>
  cases r.get "voltage".toList with
  | error err => exact .inl ⟨err, rfl, rfl⟩
  | ok v => exact .inr ⟨t, i, v, T, T', rfl, rfl⟩

/-- An estimator whose steps do not look at the temperature. -/
structure Blind {σ : Type} (ops : EstimatorOps σ) (R : σ → σ → Prop) : Prop where
  info : ∀ e e', R e e' → ops.info e = ops.info e'
  step : ∀ e e', R e e' → ∀ t i T T' y, Agree R (ops.step e ⟨t, i, .fin T⟩ y) (ops.step e' ⟨t, i, .fin T'⟩ y)

theorem Blind.runLoop {σ : Type} {ops : EstimatorOps σ} {R : σ → σ → Prop} (hb : Blind ops R) (dims : Option (Nat × Nat)) {rows rows' : List Row}
    (h : List.Forall₂ SameButTemperature rows rows') : ∀ (e e' : σ) (w : Option Writer), R e e' →
    Agree R (runLoop ops dims e w rows) (runLoop ops dims e' w rows') := by
  induction h with
  | nil => exact fun e e' w hR => .inr ⟨e, e', _, rfl, rfl, hR⟩
  | @cons r r' rows rows' hr _ ih =>
    intro e e' w hR
    have e1 : r.get "test_time".toList = r'.get "test_time".toList := by unfold Row.get; rw [hr _ (by decide)]
    have e2 : r.get "cycle_number".toList = r'.get "cycle_number".toList := by unfold Row.get; rw [hr _ (by decide)]
    have hs : ∀ s o, storeRow r s o w = storeRow r' s o w := by
      intro s o
      cases w with
      | none => rfl
      | some w => simp only [storeRow, e1, e2]
    unfold Verif.runLoop
    rcases rowToInputs_agree hr with ⟨err, h1, h2⟩ | ⟨t, i, v, T, T', h1, h2⟩
    · rw [h1, h2]
      exact .inl ⟨err, rfl, rfl⟩
    rw [h1, h2, ok_bind, ok_bind]
    rcases hb.step e e' hR t i T T' ⟨v⟩ with ⟨err, h3, h4⟩ | ⟨s, s', b, h3, h4, hR'⟩
    · simp only [h3, h4]
      exact .inl ⟨err, rfl, rfl⟩
    simp only [h3, h4, ok_bind, ← hs]
    cases lineFor dims b.1 b.2 with
    | error err => exact .inl ⟨err, rfl, rfl⟩
    | ok line =>
    simp only [ok_bind]
    cases storeRow r b.1 b.2 w with
    | error err => exact .inl ⟨err, rfl, rfl⟩
    | ok w' =>
    simp only [ok_bind]
    rcases ih s s' w' hR' with ⟨err, h5, h6⟩ | ⟨q, q', c, h5, h6, hR''⟩
    · rw [h5, h6]
      exact .inl ⟨err, rfl, rfl⟩
    · rw [h5, h6]
      exact .inr ⟨q, q', _, rfl, rfl, hR''⟩

theorem Blind.runOnline {σ : Type} {ops : EstimatorOps σ} {R : σ → σ → Prop} (hb : Blind ops R) (chunkOf : List Nat → Nat) {data data' : Data}
    {rows rows' : List Row} (h1 : data.rows = .ok rows) (h2 : data'.rows = .ok rows') (h : List.Forall₂ SameButTemperature rows rows')
    (hc : data.numCycles = data'.numCycles) {e : σ} (he : R e e) (out : Bool) (w : Option Writer) :
    (runOnline chunkOf ops data e out w).map (fun r => (r.1, r.2.2.2)) = (runOnline chunkOf ops data' e out w).map fun r => (r.1, r.2.2.2) := by
  unfold Verif.runOnline
  rw [h1, h2, ok_bind, ok_bind]
  cases h with
  | nil => rfl
  | @cons r r' rows rows' hr hrest =>
    have hl := hrest.length_eq
    simp only [hc, hl]
    rcases rowToInputs_agree hr with ⟨err, h3, h4⟩ | ⟨t, i, v, T, T', h3, h4⟩
    · rw [h3, h4]
      rfl
    rw [h3, h4, ok_bind, ok_bind]
    cases dimsOf (ops.info e) out with
    | error err => rfl
    | ok dims =>
    simp only [ok_bind]
    cases openWriter chunkOf (ops.info e) (rows'.length + 1) data'.numCycles w with
    | error err => rfl
    | ok w' =>
    simp only [ok_bind]
    rcases hb.runLoop dims hrest e e w' he with ⟨err, h5, h6⟩ | ⟨s, s', q, h5, h6, hR⟩
    · rw [h5, h6]
      rfl
    rw [h5, h6, ok_bind, ok_bind, hb.info s s' hR]
    cases makeTable (ops.info s') (rows'.length + 1) q.2 dims <;> rfl

/-- The controls enter a step of a filter only through the model. -/
theorem Ukf.step_controls {σ : Type} {f : Ukf σ} (svd : Mat → Vec × Mat) (c : Dist) {new new' : Dist} (meas : Dist)
    (hu : ∀ X, f.model.update f.mem X c.mean new'.mean = f.model.update f.mem X f.controls.mean new.mean)
    (hp : ∀ s X, f.model.predict s X new'.mean = f.model.predict s X new.mean) :
    Ukf.step svd { f with controls := c } new' meas = (f.step svd new meas).map fun r => ({ r.1 with controls := new' }, r.2) := by
  have e1 : Ukf.buildSigma svd { f with controls := c } = f.buildSigma svd := rfl
  have e2 : ∀ X, Ukf.estimationUpdate { f with controls := c } X new' = f.estimationUpdate X new := by
    intro X
    unfold Ukf.estimationUpdate
    simp only [hu, hp]
    rfl
  unfold Ukf.step
  rw [e1]
  simp only [e2]
  cases f.buildSigma svd with
  | error err => rfl
  | ok X =>
  simp only [ok_bind]
  cases f.estimationUpdate X new with
  | error err => rfl
  | ok p =>
  simp only [ok_bind]
  cases Ukf.correctionUpdate svd p.x p.y p.covXY meas <;> rfl

/-- The controls of a reading. -/
def readingVec (t i T : ℝ) : Vec := (Arr2.ofRow [t, i, T]).flat

theorem readingVec_list (t i T : ℝ) : List.ofFn (readingVec t i T).get = [t, i, T] := rfl

theorem container_readingVec (t i T : ℝ) : convertVals ⟨[("time".toList, some (.ofRow [t])), ("current".toList, some (.ofRow [i])),
    ("temperature".toList, some (.ofRow [T]))]⟩ none = .ok (.delta ⟨readingVec t i T⟩) := rfl

/-- Whether or not the readings are numbers does not depend on the temperature. -/
theorem container_agree (t i : Num) (T T' : ℝ) :
    (∃ err, CellInput.container ⟨t, i, .fin T⟩ = .error err ∧ CellInput.container ⟨t, i, .fin T'⟩ = .error err) ∨
    ∃ c c' x y, CellInput.container ⟨t, i, .fin T⟩ = .ok c ∧ CellInput.container ⟨t, i, .fin T'⟩ = .ok c' ∧
      convertVals c none = .ok (.delta ⟨readingVec x y T⟩) ∧ convertVals c' none = .ok (.delta ⟨readingVec x y T'⟩) := by
  cases t with
  | fin x =>
    cases i with
    | fin y => exact .inr ⟨_, _, x, y, rfl, rfl, container_readingVec x y T, container_readingVec x y T'⟩
    | _ => exact .inl ⟨_, rfl, rfl⟩
  | _ => exact .inl ⟨_, rfl, rfl⟩

/-- The inputs made from a template without a temperature. -/
theorem toInputs_blind {b : BaseWrapper} (hi : SameLayout b.inputs (circuitInput false)) (hc : b.controlConv = .identity) (t i T T' : ℝ) :
    b.toInputs (readingVec t i T') = b.toInputs (readingVec t i T) := by
  unfold BaseWrapper.toInputs
  rw [hc]
  refine congrArg Except.ok ?_
  have e : ∀ T, b.inputs.makeCopy (readingVec t i T).vals = ⟨Container.fillFrom (.ofRow [t, i]) 0 b.inputs.fields⟩ := by
    intro T
    rw [input_first hi]
    show Container.mk (Container.fillFrom (.ofRow (List.ofFn ((readingVec t i T).first _).get)) 0 b.inputs.fields) = _
    rw [Vec.first_toList, readingVec_list]
    rfl
  exact (e T').trans (e T).symm

/-! ### Joint estimators -/

/-- Two joint estimators with the same filter but for the controls, which are the same inputs. -/
def Joint.Same (e e' : Joint) : Prop := ∃ c, e' = { e with filter := { e.filter with controls := c } } ∧
  e.wrapper.toInputs c.mean = e.wrapper.toInputs e.filter.controls.mean ∧ e.filter.model = e.wrapper.toWrapper ∧
  e.wrapper.controlConv = .identity ∧ SameLayout e.wrapper.inputs (circuitInput false)

theorem Joint.blind (svd : Mat → Vec × Mat) : Blind (Joint.ops svd) Joint.Same := by
  constructor
  · rintro e _ ⟨c, rfl, -⟩
    rfl
  · rintro e _ ⟨c, rfl, hcc, hm, hid, hl⟩ t i T T' y
    simp only [Joint.ops]
    rcases container_agree t i T T' with ⟨err, h1, h2⟩ | ⟨q, q', x, z, h1, h2, h3, h4⟩
    · rw [h1, h2]
      exact .inl ⟨err, rfl, rfl⟩
    rw [h1, h2, ok_bind, ok_bind]
    cases y.container with
    | error err => exact .inl ⟨err, rfl, rfl⟩
    | ok y =>
    rw [ok_bind, ok_bind]
    unfold Joint.step
    simp only [h3, h4, ok_bind]
    cases convertVals y none with
    | error err => exact .inl ⟨err, rfl, rfl⟩
    | ok y =>
    have hcv : ∀ d : Delta, Dist.convert (.delta d) e.wrapper.controlConv true = .ok (.delta d) := by
      intro d
      rw [hid]
      rfl
    simp only [hcv, ok_bind]
    cases y.convert e.wrapper.outputConv true with
    | error err => exact .inl ⟨err, rfl, rfl⟩
    | ok y =>
    have hT := toInputs_blind hl hid x z T T'
    have hs := Ukf.step_controls (f := e.filter) svd c (new := .delta ⟨readingVec x z T⟩) (new' := .delta ⟨readingVec x z T'⟩) y (by
        intro X
        rw [hm]
        show (do return (← e.wrapper.update X c.mean (readingVec x z T'), ()) : Except Err (Mat × Unit)) =
          (do return (← e.wrapper.update X e.filter.controls.mean (readingVec x z T), ()))
        unfold JointWrapper.update
        rw [hcc, hT]) (by
        intro s X
        rw [hm]
        show e.wrapper.predict X (readingVec x z T') = e.wrapper.predict X (readingVec x z T)
        unfold JointWrapper.predict
        rw [hT])
    simp only [ok_bind, hs]
    cases h5 : e.filter.step svd (.delta ⟨readingVec x z T⟩) y with
    | error err => exact .inl ⟨err, rfl, rfl⟩
    | ok r =>
    obtain ⟨f, g1, g2⟩ := r
    have hfm : f.model = e.filter.model ∧ f.controls = .delta ⟨readingVec x z T⟩ := by
      simp only [Ukf.step, bind_eq_ok_iff, pure_eq_ok, Except.ok.injEq, Prod.mk.injEq] at h5
      obtain ⟨_, _, _, _, _, _, rfl, _⟩ := h5
      exact ⟨rfl, rfl⟩
    simp only [Except.map, ok_bind]
    cases g1.convert e.wrapper.hiddenConv with
    | error err => exact .inl ⟨err, rfl, rfl⟩
    | ok est =>
    cases g2.convert e.wrapper.outputConv with
    | error err => exact .inl ⟨err, rfl, rfl⟩
    | ok out =>
      refine .inr ⟨_, _, _, rfl, rfl, .delta ⟨readingVec x z T'⟩, rfl, ?_, hfm.1.trans hm, hid, hl⟩
      show e.wrapper.toInputs (readingVec x z T') = e.wrapper.toInputs f.controls.mean
      rw [hfm.2]
      exact hT

/-! ### Dual estimators -/

/-- Two dual estimators with the same filters but for the controls, which are the same inputs. -/
def Dual.Same (e e' : Dual) : Prop := ∃ c d, e' = { e with trans := { e.trans with controls := c }, asoh := { e.asoh with controls := d } } ∧
  e.cellW.toInputs c.mean = e.cellW.toInputs e.trans.controls.mean ∧ e.asohW.toInputs d.mean = e.asohW.toInputs e.asoh.controls.mean ∧
  e.trans.model = e.cellW.toWrapper ∧ e.asoh.model = e.asohW.toWrapper ∧ e.cellW.controlConv = .identity ∧ e.asohW.controlConv = .identity ∧
  SameLayout e.cellW.inputs (circuitInput false) ∧ SameLayout e.asohW.inputs (circuitInput false)

theorem Ukf.step_keeps {σ : Type} {f : Ukf σ} {svd : Mat → Vec × Mat} {u y : Dist} {f' : Ukf σ} {g1 g2 : Gaussian}
    (h : f.step svd u y = .ok (f', g1, g2)) : f'.model = f.model ∧ f'.controls = u := by
  simp only [Ukf.step, bind_eq_ok_iff, pure_eq_ok, Except.ok.injEq, Prod.mk.injEq] at h
  obtain ⟨_, _, _, _, _, _, rfl, _⟩ := h
  exact ⟨rfl, rfl⟩

theorem Dual.blind (svd : Mat → Vec × Mat) : Blind (Dual.ops svd) Dual.Same := by
  constructor
  · rintro e _ ⟨c, d, rfl, -⟩
    rfl
  · rintro e _ ⟨c, d, rfl, hct, hca, hmt, hma, hit, hia, hlt, hla⟩ t i T T' y
    simp only [Dual.ops]
    rcases container_agree t i T T' with ⟨err, h1, h2⟩ | ⟨q, q', x, z, h1, h2, h3, h4⟩
    · rw [h1, h2]
      exact .inl ⟨err, rfl, rfl⟩
    rw [h1, h2, ok_bind, ok_bind]
    cases y.container with
    | error err => exact .inl ⟨err, rfl, rfl⟩
    | ok y =>
    rw [ok_bind, ok_bind]
    unfold Dual.step
    have hge : Dual.getEstimatedState { e with trans := { e.trans with controls := c }, asoh := { e.asoh with controls := d } } =
      e.getEstimatedState := rfl
    simp only [h3, h4, ok_bind, hge]
    cases convertVals y none with
    | error err => exact .inl ⟨err, rfl, rfl⟩
    | ok y =>
    cases e.getEstimatedState with
    | error err => exact .inl ⟨err, rfl, rfl⟩
    | ok post =>
    have hcv : ∀ d : Delta, Dist.convert (.delta d) e.cellW.controlConv true = .ok (.delta d) := by
      intro d
      rw [hit]
      rfl
    have hcv' : ∀ d : Delta, Dist.convert (.delta d) e.asohW.controlConv true = .ok (.delta d) := by
      intro d
      rw [hia]
      rfl
    simp only [hcv, hcv', ok_bind]
    cases y.convert e.cellW.outputConv true with
    | error err => exact .inl ⟨err, rfl, rfl⟩
    | ok y1 =>
    have hT := toInputs_blind hlt hit x z T T'
    have hT' := toInputs_blind hla hia x z T T'
    have hs := Ukf.step_controls (f := { e.trans with mem := post.2 }) svd c (new := .delta ⟨readingVec x z T⟩)
      (new' := .delta ⟨readingVec x z T'⟩) y1 (by
        intro X
        show e.trans.model.update _ _ _ _ = e.trans.model.update _ _ _ _
        rw [hmt]
        show (do return (← e.cellW.update post.2 X c.mean (readingVec x z T'), post.2) : Except Err (Mat × HV ℝ)) =
          (do return (← e.cellW.update post.2 X e.trans.controls.mean (readingVec x z T), post.2))
        unfold CellWrapper.update
        rw [hct, hT]) (by
        intro s X
        show e.trans.model.predict _ _ _ = e.trans.model.predict _ _ _
        rw [hmt]
        show e.cellW.predict s X (readingVec x z T') = e.cellW.predict s X (readingVec x z T)
        unfold CellWrapper.predict
        rw [hT])
    simp only [ok_bind, hs]
    cases h5 : Ukf.step svd { e.trans with mem := post.2 } (.delta ⟨readingVec x z T⟩) y1 with
    | error err => exact .inl ⟨err, rfl, rfl⟩
    | ok r =>
    obtain ⟨ft, g1, g2⟩ := r
    obtain ⟨k1, k2⟩ := Ukf.step_keeps h5
    simp only [Except.map, ok_bind]
    cases y.convert e.asohW.outputConv true with
    | error err => exact .inl ⟨err, rfl, rfl⟩
    | ok y2 =>
    have hs' := Ukf.step_controls (f := { e.asoh with mem := (post.1, e.asoh.mem.2) }) svd d (new := .delta ⟨readingVec x z T⟩)
      (new' := .delta ⟨readingVec x z T'⟩) y2 (by
        intro X
        show e.asoh.model.update _ _ _ _ = e.asoh.model.update _ _ _ _
        rw [hma]
        show (do
            let r ← e.asohW.update post.1 X d.mean (readingVec x z T')
            return (r.1, (post.1, r.2)) : Except Err (Mat × Container ℝ × Container ℝ)) =
          (do
            let r ← e.asohW.update post.1 X e.asoh.controls.mean (readingVec x z T)
            return (r.1, (post.1, r.2)))
        unfold DegradationWrapper.update
        rw [hca, hT']) (by
        intro s X
        show e.asoh.model.predict _ _ _ = e.asoh.model.predict _ _ _
        rw [hma]
        show e.asohW.predict s.1 s.2 X (readingVec x z T') = e.asohW.predict s.1 s.2 X (readingVec x z T)
        unfold DegradationWrapper.predict
        rw [hT'])
    simp only [ok_bind, hs']
    cases h6 : Ukf.step svd { e.asoh with mem := (post.1, e.asoh.mem.2) } (.delta ⟨readingVec x z T⟩) y2 with
    | error err => exact .inl ⟨err, rfl, rfl⟩
    | ok r =>
    obtain ⟨fa, g3, g4⟩ := r
    obtain ⟨k3, k4⟩ := Ukf.step_keeps h6
    simp only [Except.map, ok_bind]
    cases g1.convert e.cellW.hiddenConv with
    | error err => exact .inl ⟨err, rfl, rfl⟩
    | ok gt =>
    cases g3.convert e.asohW.hiddenConv with
    | error err => exact .inl ⟨err, rfl, rfl⟩
    | ok ga =>
    cases g2.convert e.cellW.outputConv with
    | error err => exact .inl ⟨err, rfl, rfl⟩
    | ok go =>
    cases g4.convert e.asohW.outputConv with
    | error err => exact .inl ⟨err, rfl, rfl⟩
    | ok go' =>
    simp only [ok_bind]
    cases gt.combineWith [.dist ga] with
    | error err => exact .inl ⟨err, rfl, rfl⟩
    | ok est =>
      refine .inr ⟨_, _, _, rfl, rfl, .delta ⟨readingVec x z T'⟩, .delta ⟨readingVec x z T'⟩, rfl, ?_, ?_, k1.trans hmt, k3.trans hma, hit, hia, hlt, hla⟩
      · show e.cellW.toInputs (readingVec x z T') = e.cellW.toInputs ft.controls.mean
        rw [k2]
        exact hT
      · show e.asohW.toInputs (readingVec x z T') = e.asohW.toInputs fa.controls.mean
        rw [k4]
        exact hT'

/-! ### New estimators -/

theorem BaseWrapper.make_rest {cell : Cell} {asoh : HV ℝ} {transients inputs : Container ℝ} {conv c o : Operator} {bw : BaseWrapper}
    (hb : BaseWrapper.make cell asoh transients inputs conv c o = .ok bw) : bw.inputs = inputs ∧ bw.controlConv = c := by
  simp only [BaseWrapper.make, bind_eq_ok_iff] at hb
  obtain ⟨_, _, hb⟩ := hb
  split at hb
  · cases hb
  · simp only [bind_eq_ok_iff] at hb
    obtain ⟨_, _, hb⟩ := hb
    split at hb
    · cases hb
    · simp only [bind_eq_ok_iff, pure_eq_ok, Except.ok.injEq] at hb
      obtain ⟨_, _, _, _, rfl⟩ := hb
      exact ⟨rfl, rfl⟩

theorem Joint.initialize_parts {pinv : Mat → Mat} {cell : Cell} {asoh : HV ℝ} {tr inp : Container ℝ} {cov : Mat ⊕ (Mat × Mat)}
    {ic noise noiseT noiseA sensor : Option Mat} {normalize : Bool} {tune : Tuning} {E : Joint}
    (hE : Joint.initializeUkf pinv cell asoh tr inp cov ic noise noiseT noiseA sensor normalize tune = .ok E) :
    E.filter.model = E.wrapper.toWrapper ∧ E.wrapper.controlConv = .identity ∧ E.wrapper.inputs = inp := by
  simp only [Joint.initializeUkf, bind_eq_ok_iff, JointWrapper.make, pure_eq_ok, Except.ok.injEq] at hE
  obtain ⟨conv, _, w, ⟨b, hb, V, _, P, _, rfl⟩, hE⟩ := hE
  obtain ⟨u, T, A, g0, g, u', q, r, f, _, _, _, _, _, _, _, _, h9, h10, h11, _⟩ := Joint.fromWrapper_inv hE
  obtain ⟨k1, k2⟩ := BaseWrapper.make_rest hb
  obtain ⟨k3, _⟩ := Ukf.C53_constructed _ _ _ _ _ _ _ _ _ h9
  rw [h10, h11]
  exact ⟨k3, k2, k1⟩

theorem Dual.initialize_parts {pinv : Mat → Mat} {cell : Cell} {asoh : HV ℝ} {tr inp : Container ℝ} {covT covA : Mat}
    {ic noiseT noiseA sensor : Option Mat} {normalize : Bool} {tT tA : Tuning} {E : Dual}
    (hE : Dual.initializeUkf pinv cell asoh tr inp covT covA ic noiseT noiseA sensor normalize tT tA = .ok E) :
    (E.trans.model = E.cellW.toWrapper ∧ E.cellW.controlConv = .identity ∧ E.cellW.inputs = inp) ∧
    E.asoh.model = E.asohW.toWrapper ∧ E.asohW.controlConv = .identity ∧ E.asohW.inputs = inp := by
  simp only [Dual.initializeUkf, bind_eq_ok_iff, CellWrapper.make, DegradationWrapper.make, pure_eq_ok, Except.ok.injEq] at hE
  obtain ⟨conv, _, cw, ⟨b, hb, V, _, rfl⟩, aw, ⟨b', hb', _, _, P, _, rfl⟩, hE⟩ := hE
  obtain ⟨T, A, t, a, gt, ga, _, _, _, _, _, _, _, _, h1, h2, h3, h4, _⟩ := Dual.fromWrappers_ok hE
  obtain ⟨k1, k2⟩ := BaseWrapper.make_rest hb
  obtain ⟨k3, k4⟩ := BaseWrapper.make_rest hb'
  rw [h1, h2, h3, h4]
  exact ⟨⟨rfl, k2, k1⟩, rfl, k4, k3⟩

/-! ## C108 -/

/-- C108 fails: if the initial inputs have no temperature – the default of `ECMInput` – the temperatures of a dataset take no part in the
estimates of a joint estimator.  For every cell model, two datasets that differ in temperatures only give the same table and the same stored
estimates, or the same exception. -/
theorem C108_joint_temperature_ignored {pinv : Mat → Mat} {cell : Cell} {asoh : HV ℝ} {tr inp : Container ℝ}
    (hinp : SameLayout inp (circuitInput false)) {cov : Mat ⊕ (Mat × Mat)} {inputsCov noise noiseT noiseA sensor : Option Mat} {normalize : Bool}
    {tune : Tuning} {E : Joint}
    (hE : Joint.initializeUkf pinv cell asoh tr inp cov inputsCov noise noiseT noiseA sensor normalize tune = .ok E)
    (svd : Mat → Vec × Mat) (chunkOf : List Nat → Nat) (data data' : Data) (rows rows' : List Row) (hrows : data.rows = .ok rows)
    (hrows' : data'.rows = .ok rows') (hsame : List.Forall₂ SameButTemperature rows rows') (hcycles : data.numCycles = data'.numCycles)
    (out : Bool) (w : Option Writer) :
    (runOnline chunkOf (Joint.ops svd) data E out w).map (fun r => (r.1, r.2.2.2)) =
      (runOnline chunkOf (Joint.ops svd) data' E out w).map fun r => (r.1, r.2.2.2) := by
  obtain ⟨h1, h2, h3⟩ := Joint.initialize_parts hE
  exact (Joint.blind svd).runOnline chunkOf hrows hrows' hsame hcycles (e := E) ⟨E.filter.controls, rfl, rfl, h1, h2, h3 ▸ hinp⟩ out w

/-- C108 fails for dual estimators as well. -/
theorem C108_dual_temperature_ignored {pinv : Mat → Mat} {cell : Cell} {asoh : HV ℝ} {tr inp : Container ℝ}
    (hinp : SameLayout inp (circuitInput false)) {covT covA : Mat} {inputsCov noiseT noiseA sensor : Option Mat} {normalize : Bool}
    {tT tA : Tuning} {E : Dual}
    (hE : Dual.initializeUkf pinv cell asoh tr inp covT covA inputsCov noiseT noiseA sensor normalize tT tA = .ok E)
    (svd : Mat → Vec × Mat) (chunkOf : List Nat → Nat) (data data' : Data) (rows rows' : List Row) (hrows : data.rows = .ok rows)
    (hrows' : data'.rows = .ok rows') (hsame : List.Forall₂ SameButTemperature rows rows') (hcycles : data.numCycles = data'.numCycles)
    (out : Bool) (w : Option Writer) :
    (runOnline chunkOf (Dual.ops svd) data E out w).map (fun r => (r.1, r.2.2.2)) =
      (runOnline chunkOf (Dual.ops svd) data' E out w).map fun r => (r.1, r.2.2.2) := by
  obtain ⟨⟨h1, h2, h3⟩, h4, h5, h6⟩ := Dual.initialize_parts hE
  exact (Dual.blind svd).runOnline chunkOf hrows hrows' hsame hcycles (e := E)
    ⟨E.trans.controls, E.asoh.controls, rfl, rfl, rfl, h1, h4, h2, h5, h3 ▸ hinp, h6 ▸ hinp⟩ out w

/-- The inputs of a reading as the model gets them from a template with a temperature. -/
theorem makeCopy_sees {inp : Container ℝ} (hinp : SameLayout inp (circuitInput true)) (t i T : ℝ) :
    inp.makeCopy (readingVec t i T).vals = ⟨[("time".toList, some (.ofRow [t])), ("current".toList, some (.ofRow [i])),
      ("temperature".toList, some (.ofRow [T]))]⟩ := by
  obtain ⟨fs⟩ := inp
  have h : fs.map (fun p => (p.1, p.2.map Arr2.ncol)) = [(kTime, some 1), (kCurrent, some 1), (kTemp, some 1)] := hinp
  rcases fs with _ | ⟨⟨k1, _ | a⟩, _ | ⟨⟨k2, _ | b⟩, _ | ⟨⟨k3, _ | c⟩, _ | ⟨_, _⟩⟩⟩⟩ <;>
    simp only [List.map_cons, List.map_nil, Option.map_some, Option.map_none, List.cons.injEq, Prod.mk.injEq, Option.some.injEq, and_true, reduceCtorEq,
      and_false, false_and] at h
  obtain ⟨⟨rfl, ha⟩, ⟨rfl, hb⟩, rfl, hc⟩ := h
  show Container.mk (Container.fillFrom (.ofRow [t, i, T]) 0 _) = _
  simp only [Container.fillFrom, ha, hb, hc]
  rfl

/-- C108 for joint estimators whose initial inputs have a temperature.  Missing: estimators without (`C108_joint_temperature_ignored`).  The
inputs that the wrapper hands to the cell model for a row of data are the time, current and temperature of that row. -/
theorem C108_joint_temperature_used_partial {pinv : Mat → Mat} {cell : Cell} {asoh : HV ℝ} {tr inp : Container ℝ}
    (hinp : SameLayout inp (circuitInput true)) {cov : Mat ⊕ (Mat × Mat)} {inputsCov noise noiseT noiseA sensor : Option Mat} {normalize : Bool}
    {tune : Tuning} {E : Joint}
    (hE : Joint.initializeUkf pinv cell asoh tr inp cov inputsCov noise noiseT noiseA sensor normalize tune = .ok E)
    (row : Row) (t i v T : ℝ) (ht : lookupKey "test_time".toList row = some (.fin t)) (hi : lookupKey "current".toList row = some (.fin i))
    (hv : lookupKey "voltage".toList row = some (.fin v)) (hT : lookupKey "temperature".toList row = some (.fin T)) :
    ∃ u y c q, rowToInputs row = .ok (u, y) ∧ u.container = .ok c ∧ convertVals c none = .ok q ∧ E.wrapper.toInputs q.mean =
      .ok ⟨[("time".toList, some (.ofRow [t])), ("current".toList, some (.ofRow [i])), ("temperature".toList, some (.ofRow [T]))]⟩ := by
  obtain ⟨-, h2, h3⟩ := Joint.initialize_parts hE
  refine ⟨⟨.fin t, .fin i, .fin T⟩, ⟨.fin v⟩, _, _, (C62_row_to_inputs _ _ _ _ _ _).2 ⟨ht, hi, hv, .inl ⟨T, hT, rfl⟩⟩, rfl, container_readingVec t i T, ?_⟩
  unfold BaseWrapper.toInputs
  rw [h2, h3]
  exact congrArg Except.ok (makeCopy_sees hinp t i T)

/-- C108 for dual estimators whose initial inputs have a temperature.  Missing: estimators without (`C108_dual_temperature_ignored`). -/
theorem C108_dual_temperature_used_partial {pinv : Mat → Mat} {cell : Cell} {asoh : HV ℝ} {tr inp : Container ℝ}
    (hinp : SameLayout inp (circuitInput true)) {covT covA : Mat} {inputsCov noiseT noiseA sensor : Option Mat} {normalize : Bool}
    {tT tA : Tuning} {E : Dual}
    (hE : Dual.initializeUkf pinv cell asoh tr inp covT covA inputsCov noiseT noiseA sensor normalize tT tA = .ok E)
    (row : Row) (t i v T : ℝ) (ht : lookupKey "test_time".toList row = some (.fin t)) (hi : lookupKey "current".toList row = some (.fin i))
    (hv : lookupKey "voltage".toList row = some (.fin v)) (hT : lookupKey "temperature".toList row = some (.fin T)) :
    ∃ u y c q, rowToInputs row = .ok (u, y) ∧ u.container = .ok c ∧ convertVals c none = .ok q ∧
      (∀ b, b = E.cellW.toBaseWrapper ∨ b = E.asohW.toBaseWrapper → b.toInputs q.mean =
        .ok ⟨[("time".toList, some (.ofRow [t])), ("current".toList, some (.ofRow [i])), ("temperature".toList, some (.ofRow [T]))]⟩) := by
  obtain ⟨⟨-, h2, h3⟩, -, h5, h6⟩ := Dual.initialize_parts hE
  refine ⟨⟨.fin t, .fin i, .fin T⟩, ⟨.fin v⟩, _, _, (C62_row_to_inputs _ _ _ _ _ _).2 ⟨ht, hi, hv, .inl ⟨T, hT, rfl⟩⟩, rfl, container_readingVec t i T, ?_⟩
  rintro b (rfl | rfl)
  · unfold BaseWrapper.toInputs
    rw [h2, h3]
    exact congrArg Except.ok (makeCopy_sees hinp t i T)
  · unfold BaseWrapper.toInputs
    rw [h5, h6]
    exact congrArg Except.ok (makeCopy_sees hinp t i T)

theorem Cell.Demo.beside (xs : List (ℝ × ℝ × ℝ × ℕ)) (s : ℝ) : List.Forall₂ SameButTemperature
    (xs.map fun x => Verif.Demo.readingCols.zip (Verif.Demo.reading x))
    (xs.map fun x => Verif.Demo.readingCols.zip (Verif.Demo.reading x) ++ [("temperature".toList, .fin s)]) := by
  rw [List.forall₂_map_left_iff, List.forall₂_map_right_iff, List.forall₂_same]
  intro x _ n hx
  generalize hl : Verif.Demo.readingCols.zip (Verif.Demo.reading x) = l
  clear hl
  induction l with
  | nil => exact (if_neg (Ne.symm hx)).symm
  | cons p l ih =>
    rw [List.cons_append, lookupKey, lookupKey, ih]

-- The concrete circuit without a temperature in its initial inputs: whatever temperatures are put beside the readings of a file, the joint estimator
-- runs and gives the same table.  With a temperature, it gets those of the readings.
example (svd : Mat → Vec × Mat) (chunkOf : List Nat → Nat) (xs : List (ℝ × ℝ × ℝ × ℕ)) (hne : xs ≠ []) (temp temp' : ℝ) :
    ∃ pinv E table, Joint.initializeUkf pinv (Ecm.cell .constant Demo.fixed) (Demo.hvUpdating [kOcv, kR0] [kBase]) Demo.hvState Demo.coldInput
        (.inl ⟨6, 6, 1⟩) none none none none none true ⟨1, some 0, 2⟩ = .ok E ∧
      ∀ s ∈ [temp, temp'], (runOnline chunkOf (Joint.ops svd)
        (.file (xs.map fun x => Verif.Demo.readingCols.zip (Verif.Demo.reading x) ++ [("temperature".toList, .fin s)])) E true none).map
          (fun r => (r.1, r.2.2.2)) = .ok (some table, none) := by
  obtain ⟨pinv, hp⟩ := exists_pinv
  have hn := Demo.none_fits
  obtain ⟨E, table, E', u, k1, k2, -⟩ := C107_joint_from_data Demo.cold_task Demo.cold_estimable.1 rfl rfl (.whole (Demo.one_posDef 6)) (hn _) (hn _)
    (hn _) (hn _) hp true (tuned_default (by omega)) svd chunkOf (Verif.Demo.datafile xs)
    (xs.map fun x => Verif.Demo.readingCols.zip (Verif.Demo.reading x)) rfl (by simpa using hne) (by
      intro r hr
      obtain ⟨y, -, rfl⟩ := List.mem_map.1 hr
      exact Verif.Demo.reading_finite y)
  refine ⟨pinv, E, table, k1, fun s _ => ?_⟩
  have h := C108_joint_temperature_ignored (inp := Demo.coldInput) rfl k1 svd chunkOf (Verif.Demo.datafile xs)
    (.file (xs.map fun x => Verif.Demo.readingCols.zip (Verif.Demo.reading x) ++ [("temperature".toList, .fin s)]))
    (xs.map fun x => Verif.Demo.readingCols.zip (Verif.Demo.reading x))
    (xs.map fun x => Verif.Demo.readingCols.zip (Verif.Demo.reading x) ++ [("temperature".toList, .fin s)]) rfl rfl (Demo.beside xs s) rfl true none
  exact h.symm.trans (by rw [k2]; rfl)

example (t i v T : ℝ) : ∃ pinv E, Joint.initializeUkf pinv (Ecm.cell .constant Demo.fixed) (Demo.hvUpdating [kOcv, kR0] [kBase]) Demo.hvState
      Demo.hvInput (.inl ⟨6, 6, 1⟩) none none none none none true ⟨1, some 0, 2⟩ = .ok E ∧
    ∃ u y c q, rowToInputs [("test_time".toList, .fin t), ("current".toList, .fin i), ("voltage".toList, .fin v), ("temperature".toList, .fin T)] =
      .ok (u, y) ∧ u.container = .ok c ∧ convertVals c none = .ok q ∧ E.wrapper.toInputs q.mean =
      .ok ⟨[("time".toList, some (.ofRow [t])), ("current".toList, some (.ofRow [i])), ("temperature".toList, some (.ofRow [T]))]⟩ := by
  obtain ⟨pinv, hp⟩ := exists_pinv
  have hn := Demo.none_fits
  obtain ⟨E, _, _, k1, -⟩ := joint_task Demo.warm_task Demo.warm_estimable.1 rfl rfl (.whole (Demo.one_posDef 6)) (hn _) (hn _)
    (hn _) (hn _) hp true (tuned_default (by omega))
  exact ⟨pinv, E, k1, C108_joint_temperature_used_partial (inp := Demo.hvInput) rfl k1 _ t i v T rfl rfl rfl rfl⟩

-- The same for dual estimators.
example (svd : Mat → Vec × Mat) (chunkOf : List Nat → Nat) (xs : List (ℝ × ℝ × ℝ × ℕ)) (hne : xs ≠ []) (temp temp' : ℝ) :
    ∃ pinv E table, Dual.initializeUkf pinv (Ecm.cell .constant Demo.fixed) (Demo.hvUpdating [kOcv, kR0] [kBase]) Demo.hvState Demo.coldInput
        ⟨3, 3, 1⟩ ⟨3, 3, 1⟩ none none none none true ⟨1, some 0, 2⟩ ⟨1, some 0, 2⟩ = .ok E ∧
      ∀ s ∈ [temp, temp'], (runOnline chunkOf (Dual.ops svd)
        (.file (xs.map fun x => Verif.Demo.readingCols.zip (Verif.Demo.reading x) ++ [("temperature".toList, .fin s)])) E true none).map
          (fun r => (r.1, r.2.2.2)) = .ok (some table, none) := by
  obtain ⟨pinv, hp⟩ := exists_pinv
  have hn := Demo.none_fits
  obtain ⟨E, table, E', u, k1, k2, -⟩ := C107_dual_from_data_partial Demo.cold_task Demo.cold_estimable
    (Demo.trackingHealth_reaches .constant .identity) rfl rfl (by show 1 ≤ 3; decide) (Demo.one_posDef 3) (Demo.one_posDef 3) (hn _) (hn _) (hn _) hp
    true (tuned_default (by omega)) (tuned_default (by omega)) svd chunkOf (Verif.Demo.datafile xs)
    (xs.map fun x => Verif.Demo.readingCols.zip (Verif.Demo.reading x)) rfl (by simpa using hne) (by
      intro r hr
      obtain ⟨y, -, rfl⟩ := List.mem_map.1 hr
      exact Verif.Demo.reading_finite y)
  refine ⟨pinv, E, table, k1, fun s _ => ?_⟩
  have h := C108_dual_temperature_ignored (inp := Demo.coldInput) rfl k1 svd chunkOf (Verif.Demo.datafile xs)
    (.file (xs.map fun x => Verif.Demo.readingCols.zip (Verif.Demo.reading x) ++ [("temperature".toList, .fin s)]))
    (xs.map fun x => Verif.Demo.readingCols.zip (Verif.Demo.reading x))
    (xs.map fun x => Verif.Demo.readingCols.zip (Verif.Demo.reading x) ++ [("temperature".toList, .fin s)]) rfl rfl (Demo.beside xs s) rfl true none
  exact h.symm.trans (by rw [k2]; rfl)

example (t i v T : ℝ) : ∃ pinv E, Dual.initializeUkf pinv (Ecm.cell .constant Demo.fixed) (Demo.hvUpdating [kOcv, kR0] [kBase]) Demo.hvState
      Demo.hvInput ⟨3, 3, 1⟩ ⟨3, 3, 1⟩ none none none none true ⟨1, some 0, 2⟩ ⟨1, some 0, 2⟩ = .ok E ∧
    ∃ u y c q, rowToInputs [("test_time".toList, .fin t), ("current".toList, .fin i), ("voltage".toList, .fin v), ("temperature".toList, .fin T)] =
      .ok (u, y) ∧ u.container = .ok c ∧ convertVals c none = .ok q ∧
      (∀ b, b = E.cellW.toBaseWrapper ∨ b = E.asohW.toBaseWrapper → b.toInputs q.mean =
        .ok ⟨[("time".toList, some (.ofRow [t])), ("current".toList, some (.ofRow [i])), ("temperature".toList, some (.ofRow [T]))]⟩) := by
  obtain ⟨pinv, hp⟩ := exists_pinv
  have hn := Demo.none_fits
  obtain ⟨E, _, _, _, _, _, k1, -⟩ := dual_task Demo.warm_task Demo.warm_estimable (Demo.trackingHealth_reaches .constant .identity) rfl rfl
    (by show 1 ≤ 3; decide) (Demo.one_posDef 3) (Demo.one_posDef 3) (hn _) (hn _) (hn _) hp true (tuned_default (by omega)) (tuned_default (by omega))
  exact ⟨pinv, E, k1, C108_dual_temperature_used_partial (inp := Demo.hvInput) rfl k1 _ t i v T rfl rfl rfl rfl⟩

end Verif
