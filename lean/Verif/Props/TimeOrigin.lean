import Verif.Spec.TimeOrigin
import Verif.Props.EcmPipeline
import Verif.Props.EcmInvariance
/-!
# C126: estimates do not depend on the origin of time
-/

namespace Verif
open Spec

/-! ## Proofs: two computations in step -/

/-- Both computations raise the same error, or both return and the results are related. -/
def InStep {α β : Type} (R : α → β → Prop) : Except Err α → Except Err β → Prop
  | .error e, .error e' => e = e'
  | .ok a, .ok b => R a b
  | _, _ => False

namespace InStep
variable {α β γ δ : Type} {R : α → β → Prop} {S : γ → δ → Prop}

theorem bind {x : Except Err α} {y : Except Err β} {f : α → Except Err γ} {g : β → Except Err δ} (h : InStep R x y)
    (k : ∀ a b, R a b → InStep S (f a) (g b)) : InStep S (x >>= f) (y >>= g) := by
  rcases x with e | a <;> rcases y with e' | b
  · exact h
  · exact h.elim
  · exact h.elim
  · exact k a b h

theorem ok_bind (a : α) (f : α → Except Err γ) : ((Except.ok a : Except Err α) >>= f) = f a := rfl

theorem same (x : Except Err α) : InStep (· = ·) x x := by
  rcases x with e | a <;> exact rfl

theorem of_eq {x y : Except Err α} (h : x = y) : InStep (· = ·) x y := h ▸ same x

/-- The same computation followed by different ones. -/
theorem first (x : Except Err α) {f : α → Except Err γ} {g : α → Except Err δ} (k : ∀ a, InStep S (f a) (g a)) :
    InStep S (x >>= f) (x >>= g) :=
  bind (same x) (by rintro a _ rfl; exact k a)

theorem ret {a : α} {b : β} (h : R a b) : InStep R (Pure.pure a : Except Err α) (Pure.pure b : Except Err β) := h

theorem mono {R' : α → β → Prop} {x : Except Err α} {y : Except Err β} (h : InStep R x y) (k : ∀ a b, R a b → R' a b) : InStep R' x y := by
  rcases x with e | a <;> rcases y with e' | b
  · exact h
  · exact h
  · exact h
  · exact k a b h

theorem eq {x y : Except Err α} (h : InStep (· = ·) x y) : x = y := by
  rcases x with e | a <;> rcases y with e' | b
  · exact congrArg _ h
  · exact h.elim
  · exact h.elim
  · exact congrArg _ h

end InStep

/-! ## Proofs: filters -/

/-- Two filters that differ in their controls, and in what their models remember. -/
structure Ukf.Alike {σ τ : Type} (RV : Vec → Vec → Prop) (RM : σ → τ → Prop) (f : Ukf σ) (g : Ukf τ) : Prop where
  hidden : g.hidden = f.hidden
  controls : RV f.controls.mean g.controls.mean
  mem : RM f.mem g.mem
  nHidden : g.model.nHidden = f.model.nHidden
  nOut : g.model.nOut = f.model.nOut
  augLen : g.augLen = f.augLen
  alpha : g.alpha = f.alpha
  beta : g.beta = f.beta
  kappa : g.kappa = f.kappa
  covW : g.covW = f.covW
  covV : g.covV = f.covV
  update : ∀ s t X u v u' v', RM s t → RV u v → RV u' v' →
    InStep (fun a b => b.1 = a.1 ∧ RM a.2 b.2) (f.model.update s X u u') (g.model.update t X v v')
  predict : ∀ s t X u v, RM s t → RV u v → g.model.predict t X v = f.model.predict s X u

theorem Ukf.Alike.step {σ τ : Type} {RV : Vec → Vec → Prop} {RM : σ → τ → Prop} {f : Ukf σ} {g : Ukf τ} (h : f.Alike RV RM g)
    (svd : Mat → Vec × Mat) {u v : Dist} (huv : RV u.mean v.mean) (y : Dist) :
    InStep (fun a b => Ukf.Alike RV RM a.1 b.1 ∧ b.2 = a.2) (f.step svd u y) (g.step svd v y) := by
  have hγ : g.gamma = f.gamma := by unfold Ukf.gamma; rw [h.alpha, h.augLen, h.kappa]
  have hlam : g.lambda = f.lambda := by unfold Ukf.lambda; rw [h.alpha, h.augLen, h.kappa]
  have hm : g.meanWeights = f.meanWeights := by unfold Ukf.meanWeights; rw [hlam, h.alpha, h.augLen, h.kappa]
  have hc : g.covWeights = f.covWeights := by unfold Ukf.covWeights; rw [hm, h.alpha, h.beta]
  have hs : g.buildSigma svd = f.buildSigma svd := by
    unfold Ukf.buildSigma; rw [h.hidden, h.nHidden, h.nOut, h.covW, h.covV, h.augLen, hγ]
  unfold Ukf.step
  rw [hs]
  refine .first _ fun S => ?_
  have he : InStep (fun a b => b.x = a.x ∧ b.y = a.y ∧ b.covXY = a.covXY ∧ RM a.mem b.mem) (f.estimationUpdate S u) (g.estimationUpdate S v) := by
    unfold Ukf.estimationUpdate
    simp only [h.nHidden, hm, hc]
    refine .bind (h.update _ _ _ _ _ _ _ h.mem h.controls huv) ?_
    rintro ⟨X, s⟩ ⟨_, t⟩ ⟨rfl, hst⟩
    refine .first _ fun xu => .first _ fun xi => .first _ fun xm => ?_
    rw [h.predict s t xu _ _ hst huv]
    refine .first _ fun yr => .first _ fun yp => .first _ fun yi => .first _ fun yh => .first _ fun dx => .first _ fun dy => .first _ fun cxy => ?_
    exact .ret ⟨rfl, rfl, rfl, hst⟩
  refine .bind he ?_
  rintro ⟨x, y1, cxy, s⟩ ⟨_, _, _, t⟩ ⟨rfl, rfl, rfl, hst⟩
  refine .first _ fun hid => .ret ⟨?_, rfl⟩
  exact { h with hidden := rfl, controls := huv, mem := hst }

theorem Ukf.Alike.make {σ τ : Type} {RV : Vec → Vec → Prop} {RM : σ → τ → Prop} {m : Wrapper σ} {m' : Wrapper τ} {s : σ} {t : τ} {u v : Dist}
    (nHidden : m'.nHidden = m.nHidden) (nOut : m'.nOut = m.nOut)
    (update : ∀ s t X u v u' v', RM s t → RV u v → RV u' v' → InStep (fun a b => b.1 = a.1 ∧ RM a.2 b.2) (m.update s X u u') (m'.update t X v v'))
    (predict : ∀ s t X u v, RM s t → RV u v → m'.predict t X v = m.predict s X u) (hst : RM s t) (huv : RV u.mean v.mean)
    (hid : Gaussian) (cw cv : Option Mat) (α : ℝ) (κ : Option ℝ) (β : ℝ) :
    InStep (Ukf.Alike RV RM) (Ukf.make m s hid u cw cv α κ β) (Ukf.make m' t hid v cw cv α κ β) := by
  have noise : ∀ κ, InStep (Ukf.Alike RV RM) (Ukf.makeNoise m s hid u cw cv α β κ) (Ukf.makeNoise m' t hid v cw cv α β κ) := by
    intro κ
    unfold Ukf.makeNoise
    simp only [nHidden, nOut]
    split_ifs
    · exact rfl
    · exact rfl
    · exact rfl
    · exact rfl
    · exact ⟨rfl, huv, hst, nHidden, nOut, rfl, rfl, rfl, rfl, rfl, rfl, update, predict⟩
  have rest : InStep (Ukf.Alike RV RM)
      (match κ with
        | none => Ukf.makeNoise m s hid u cw cv α β (3 - (2 * m.nHidden + m.nOut : Nat))
        | some k => if ¬ 0 < (2 * m.nHidden + m.nOut : Nat) + k then .error .assertionError else Ukf.makeNoise m s hid u cw cv α β k)
      (match κ with
        | none => Ukf.makeNoise m' t hid v cw cv α β (3 - (2 * m.nHidden + m.nOut : Nat))
        | some k => if ¬ 0 < (2 * m.nHidden + m.nOut : Nat) + k then .error .assertionError else Ukf.makeNoise m' t hid v cw cv α β k) := by
    cases κ with
    | none => exact noise _
    | some κ =>
      simp only
      split_ifs
      · exact noise _
      · exact rfl
  unfold Ukf.make
  simp only [nHidden, nOut]
  split_ifs
  all_goals first | exact rfl | exact rest

/-! ## Proofs: controls -/

/-- Controls by two clocks. -/
def Ahead (c : ℝ) (u v : Vec) : Prop := ∃ a l, List.ofFn u.get = a :: l ∧ List.ofFn v.get = (a + c) :: l

/-- Inputs by two clocks. -/
def InputsAhead (c : ℝ) (u v : Container ℝ) : Prop := ∃ t rest, u = clockAt t rest ∧ v = clockAt (t + c) rest

theorem fillFrom_tail (a b : ℝ) (l : List ℝ) (fs : List (Name × Option (Arr2 ℝ))) (pos : Nat) :
    Container.fillFrom (Arr2.ofRow (a :: l)) (pos + 1) fs = Container.fillFrom (Arr2.ofRow (b :: l)) (pos + 1) fs := by
  induction fs generalizing pos with
  | nil => rfl
  | cons p fs ih =>
    obtain ⟨k, _ | v⟩ := p
    · simp only [Container.fillFrom, ih]
    · simp only [Container.fillFrom]
      rw [show pos + 1 + v.ncol = (pos + v.ncol) + 1 from by omega, ih]
      congr 1

theorem clockAt_makeCopy (t a : ℝ) (rest : List (Name × Option (Arr2 ℝ))) (l : List ℝ) :
    (clockAt t rest).makeCopy (.d1 (a :: l)) = clockAt a (Container.fillFrom (Arr2.ofRow (0 :: l)) 1 rest) := by
  unfold Container.makeCopy Container.fromNumpy clockAt
  simp only [Vals.to2d, Container.fillFrom, Container.mk.injEq, List.cons.injEq, Prod.mk.injEq, Option.some.injEq, true_and]
  refine ⟨?_, fillFrom_tail a 0 l rest 0⟩
  apply Arr2.ext'
  · simp [Arr2.cols, Arr2.scalar, Arr2.ofRow]
  · simp [Arr2.cols, Arr2.scalar, Arr2.ofRow]

/-- The rows of inputs with single rows. -/
theorem clockAt_toNumpy (t c : ℝ) {rest : List (Name × Option (Arr2 ℝ))} (h : ∀ k v, (k, some v) ∈ rest → v.nrow = 1) :
    InStep (fun A B : Arr2 ℝ => ∃ l, A = .ofRow (t :: l) ∧ B = .ofRow ((t + c) :: l)) (clockAt t rest).toNumpy (clockAt (t + c) rest).toNumpy := by
  have single : ∀ t, (clockAt t rest).Single := by
    intro t q hq
    unfold Spec.held at hq
    obtain ⟨⟨k, w⟩, hp, hpq⟩ := List.mem_filterMap.1 hq
    rcases List.mem_cons.1 hp with hp | hp
    · cases hp
      simp only [Option.map_some, Option.some.injEq] at hpq
      subst hpq
      rfl
    · cases w with
      | none => cases hpq
      | some v =>
        simp only [Option.map_some, Option.some.injEq] at hpq
        subst hpq
        exact h k v hp
  have key : ∀ t, (clockAt t rest).toNumpy = Arr2.hcat (.scalar t :: ((Container.mk rest).present.map (·.2))) := by
    intro t
    unfold Container.toNumpy
    rw [(single t).batchSize]
    simp [Container.present, clockAt, bind, Except.bind]
  rw [key, key]
  cases hp : ((Container.mk rest).present.map (·.2)) with
  | nil => exact ⟨[], rfl, rfl⟩
  | cons b bs =>
    simp only [Arr2.hcat]
    refine .first _ fun B => ?_
    unfold Arr2.hcat2
    by_cases hn : B.nrow = 1
    · rw [if_pos (by rw [hn]; rfl), if_pos (by rw [hn]; rfl)]
      obtain ⟨r, hr⟩ := List.length_eq_one_iff.1 hn
      have hl : r.length = B.ncol := B.wf r (by rw [hr]; simp)
      refine ⟨r, ?_, ?_⟩ <;>
      · apply Arr2.ext'
        · simp [Arr2.scalar, Arr2.ofRow, hl, Nat.add_comm]
        · simp [Arr2.scalar, Arr2.ofRow, hr]
    · have hn' : ∀ t : ℝ, (Arr2.scalar t).nrow ≠ B.nrow := fun t h => hn h.symm
      rw [if_neg (hn' _), if_neg (hn' _)]
      exact rfl

theorem ofFn_flat_ofRow (l : List ℝ) : List.ofFn (Arr2.ofRow l).flat.get = l := by
  unfold Arr2.flat Arr2.ofRow
  simp only
  apply List.ext_getElem
  · simp
  · intro i h1 h2
    simp

/-! ## Proofs: wrappers -/

/-- The same wrapper, with inputs by another clock. -/
structure BaseWrapper.Alike (c : ℝ) (b b' : BaseWrapper) : Prop where
  same : ∃ t rest, (∀ k v, (k, some v) ∈ rest → Arr2.nrow v = 1) ∧ b.inputs = clockAt t rest ∧ b' = { b with inputs := clockAt (t + c) rest }
  free : TimeFree b.cell
  conv : b.controlConv = .identity

section
variable {c : ℝ}

theorem BaseWrapper.Alike.toInputs {b b' : BaseWrapper} (h : b.Alike c b') {u v : Vec} (huv : Ahead c u v) :
    ∃ t rest, b.toInputs u = .ok (clockAt t rest) ∧ b'.toInputs v = .ok (clockAt (t + c) rest) := by
  obtain ⟨⟨t, rest, -, h1, rfl⟩, -, h2⟩ := h
  obtain ⟨a, l, e1, e2⟩ := huv
  refine ⟨a, Container.fillFrom (Arr2.ofRow (0 :: l)) 1 rest, ?_, ?_⟩
  · unfold BaseWrapper.toInputs
    rw [h1, h2]
    show Except.ok _ = _
    rw [Vec.vals, e1, clockAt_makeCopy]
  · unfold BaseWrapper.toInputs
    simp only [h2]
    show Except.ok _ = _
    rw [Vec.vals, e2, clockAt_makeCopy]

theorem BaseWrapper.Alike.make {cell : Cell} (hf : TimeFree cell) (asoh : HV ℝ) (tr : Container ℝ) (t : ℝ)
    {rest : List (Name × Option (Arr2 ℝ))} (hr : ∀ k v, (k, some v) ∈ rest → v.nrow = 1) (hc oc : Operator) :
    InStep (fun b b' => BaseWrapper.Alike c b b' ∧ b.inputs = clockAt t rest)
      (BaseWrapper.make cell asoh tr (clockAt t rest) hc .identity oc) (BaseWrapper.make cell asoh tr (clockAt (t + c) rest) hc .identity oc) := by
  unfold BaseWrapper.make
  refine .first _ fun ba => ?_
  split_ifs
  · exact rfl
  refine .first _ fun bt => ?_
  split_ifs
  · exact rfl
  rw [hf.output]
  exact .first _ fun y => .first _ fun v => .ret ⟨⟨⟨t, rest, hr, rfl, rfl⟩, hf, rfl⟩, rfl⟩

/-- The same wrapper of transient states by another clock. -/
structure CellWrapper.Alike (c : ℝ) (w w' : CellWrapper) : Prop where
  base : w.toBaseWrapper.Alike c w'.toBaseWrapper
  n : w'.nTransients = w.nTransients

theorem CellWrapper.Alike.update {w w' : CellWrapper} (h : w.Alike c w') (asoh : HV ℝ) (X : Mat) {u v u' v' : Vec} (h1 : Ahead c u v) (h2 : Ahead c u' v') :
    w'.update asoh X v v' = w.update asoh X u u' := by
  obtain ⟨t, r, e1, e2⟩ := h.base.toInputs h1
  obtain ⟨t', r', e3, e4⟩ := h.base.toInputs h2
  unfold CellWrapper.update
  rw [e1, e2, e3, e4]
  obtain ⟨⟨t0, r0, -, k1, k2⟩, hf, -⟩ := h.base
  rw [k2]
  simp only [InStep.ok_bind, hf.update]

theorem CellWrapper.Alike.predict {w w' : CellWrapper} (h : w.Alike c w') (asoh : HV ℝ) (X : Mat) {u v : Vec} (h1 : Ahead c u v) :
    w'.predict asoh X v = w.predict asoh X u := by
  obtain ⟨t, r, e1, e2⟩ := h.base.toInputs h1
  unfold CellWrapper.predict
  rw [e1, e2]
  obtain ⟨⟨t0, r0, -, k1, k2⟩, hf, -⟩ := h.base
  rw [k2]
  simp only [InStep.ok_bind, hf.output, BaseWrapper.fromOutputs]

/-- The same wrapper of both by another clock, without degradation. -/
structure JointWrapper.Alike (c : ℝ) (w w' : JointWrapper) : Prop where
  base : w.toBaseWrapper.Alike c w'.toBaseWrapper
  names : w'.names = w.names
  nTransients : w'.nTransients = w.nTransients
  nAsoh : w'.nAsoh = w.nAsoh
  deg : w.deg = NoDegradation _ _ _ _
  deg' : w'.deg = NoDegradation _ _ _ _

theorem JointWrapper.Alike.createInputs {w w' : JointWrapper} (h : w.Alike c w') (X : Mat) : w'.createInputs X = w.createInputs X := by
  unfold JointWrapper.createInputs
  obtain ⟨⟨t0, r0, -, k1, k2⟩, hf, -⟩ := h.base
  rw [k2, h.names, h.nTransients]

theorem JointWrapper.Alike.update {w w' : JointWrapper} (h : w.Alike c w') (X : Mat) {u v u' v' : Vec} (h1 : Ahead c u v) (h2 : Ahead c u' v') :
    w'.update X v v' = w.update X u u' := by
  obtain ⟨t, r, e1, e2⟩ := h.base.toInputs h1
  obtain ⟨t', r', e3, e4⟩ := h.base.toInputs h2
  unfold JointWrapper.update
  rw [e1, e2, e3, e4, h.createInputs, h.names, h.nTransients, h.deg, h.deg']
  obtain ⟨⟨t0, r0, -, k1, k2⟩, hf, -⟩ := h.base
  rw [k2]
  simp only [InStep.ok_bind, hf.update, hf.output, NoDegradation]

theorem JointWrapper.Alike.predict {w w' : JointWrapper} (h : w.Alike c w') (X : Mat) {u v : Vec} (h1 : Ahead c u v) : w'.predict X v = w.predict X u := by
  obtain ⟨t, r, e1, e2⟩ := h.base.toInputs h1
  unfold JointWrapper.predict
  rw [e1, e2, h.createInputs]
  obtain ⟨⟨t0, r0, -, k1, k2⟩, hf, -⟩ := h.base
  rw [k2]
  simp only [InStep.ok_bind, hf.output, BaseWrapper.fromOutputs]

/-- The same wrapper of the state of health by another clock, without degradation. -/
structure DegradationWrapper.Alike (c : ℝ) (w w' : DegradationWrapper) : Prop where
  base : w.toBaseWrapper.Alike c w'.toBaseWrapper
  names : w'.names = w.names
  nTransients : w'.nTransients = w.nTransients
  nAsoh : w'.nAsoh = w.nAsoh
  deg : w.deg = NoDegradation _ _ _ _
  deg' : w'.deg = NoDegradation _ _ _ _

theorem DegradationWrapper.Alike.toAsoh {w w' : DegradationWrapper} (h : w.Alike c w') (X : Mat) : w'.toAsoh X = w.toAsoh X := by
  unfold DegradationWrapper.toAsoh
  obtain ⟨⟨t0, r0, -, k1, k2⟩, hf, -⟩ := h.base
  rw [k2, h.names]

theorem DegradationWrapper.Alike.update {w w' : DegradationWrapper} (h : w.Alike c w') (tr : Container ℝ) (X : Mat) {u v u' v' : Vec} (h1 : Ahead c u v)
    (h2 : Ahead c u' v') : InStep (fun a b => b.1 = a.1 ∧ InputsAhead c a.2 b.2) (w.update tr X u u') (w'.update tr X v v') := by
  obtain ⟨t, r, e1, e2⟩ := h.base.toInputs h1
  obtain ⟨t', r', e3, e4⟩ := h.base.toInputs h2
  unfold DegradationWrapper.update
  rw [e1, e2, e3, e4, h.toAsoh, h.names, h.deg, h.deg']
  obtain ⟨⟨t0, r0, -, k1, k2⟩, hf, -⟩ := h.base
  rw [k2]
  simp only [InStep.ok_bind, hf.output, NoDegradation]
  exact .first _ fun a => .first _ fun y => .first _ fun p => .first _ fun m => .ret ⟨rfl, t, r, rfl, rfl⟩

theorem DegradationWrapper.Alike.predict {w w' : DegradationWrapper} (h : w.Alike c w') (tr : Container ℝ) (X : Mat) {u v : Vec} {p p' : Container ℝ}
    (h1 : Ahead c u v) (hp : InputsAhead c p p') : w'.predict tr p' X v = w.predict tr p X u := by
  obtain ⟨t, r, e1, e2⟩ := h.base.toInputs h1
  obtain ⟨t1, r1, rfl, rfl⟩ := hp
  unfold DegradationWrapper.predict
  rw [e1, e2, h.toAsoh]
  obtain ⟨⟨t0, r0, -, k1, k2⟩, hf, -⟩ := h.base
  rw [k2]
  simp only [InStep.ok_bind, hf.update, hf.output, BaseWrapper.fromOutputs]

/-! ## Proofs: estimators -/

/-- Distributions of controls by two clocks. -/
def DistAhead (c : ℝ) : Dist → Dist → Prop
  | .gaussian g, .gaussian g' => Ahead c g.mean g'.mean ∧ g'.cov = g.cov
  | .delta d, .delta d' => Ahead c d.mean d'.mean
  | _, _ => False

theorem DistAhead.mean {d d' : Dist} (h : DistAhead c d d') : Ahead c d.mean d'.mean := by
  cases d <;> cases d'
  · exact h.1
  · exact h.elim
  · exact h.elim
  · exact h

theorem Ahead.n {u v : Vec} (h : Ahead c u v) : v.n = u.n := by
  obtain ⟨a, l, e1, e2⟩ := h
  have h1 := congrArg List.length e1
  have h2 := congrArg List.length e2
  simp only [List.length_ofFn, List.length_cons] at h1 h2
  rw [h1, h2]

theorem make_ahead {u v : Vec} (h : Ahead c u v) (C : Mat) :
    InStep (fun g g' => Ahead c g.mean g'.mean ∧ g'.cov = g.cov) (Gaussian.make u C) (Gaussian.make v C) := by
  unfold Gaussian.make
  rw [h.n]
  split_ifs
  · exact ⟨h, rfl⟩
  · exact rfl

theorem convertVals_ahead (t : ℝ) {rest : List (Name × Option (Arr2 ℝ))} (h : ∀ k v, (k, some v) ∈ rest → v.nrow = 1) (C : Option Mat) :
    InStep (DistAhead c) (convertVals (clockAt t rest) C) (convertVals (clockAt (t + c) rest) C) := by
  unfold convertVals
  refine .bind (clockAt_toNumpy t c h) ?_
  rintro A B ⟨l, rfl, rfl⟩
  have ha : Ahead c (Arr2.ofRow (t :: l)).flat (Arr2.ofRow ((t + c) :: l)).flat := ⟨t, l, ofFn_flat_ofRow _, ofFn_flat_ofRow _⟩
  cases C with
  | none => exact .ret ha
  | some C => exact .bind (make_ahead ha C) fun g g' hg => .ret hg

theorem convert_ahead {d d' : Dist} (h : DistAhead c d d') : InStep (DistAhead c) (d.convert .identity true) (d'.convert .identity true) := by
  cases d with
  | gaussian g =>
    cases d' with
    | gaussian g' =>
      have : InStep (fun g g' => Ahead c g.mean g'.mean ∧ g'.cov = g.cov) (g.convert .identity true) (g'.convert .identity true) := by
        unfold Gaussian.convert
        simp only [if_true, Operator.identity, InStep.ok_bind, h.2]
        exact make_ahead h.1 g.cov
      unfold Dist.convert
      simp only
      revert this
      rcases g.convert .identity true with e | a <;> rcases g'.convert .identity true with e' | b
      · exact id
      · exact id
      · exact id
      · exact id
    | delta d' => exact h.elim
  | delta d =>
    cases d' with
    | gaussian g' => exact h.elim
    | delta d' => exact h

/-- What is common to the estimators, by another clock. -/
def Online.Alike (o o' : Online) : Prop := ∃ i, o' = { o with inputs := i }

theorem Online.Alike.make {cell : Cell} (hf : TimeFree cell) (asoh : HV ℝ) (tr : Container ℝ) (t : ℝ)
    (rest : List (Name × Option (Arr2 ℝ))) (names : List Name) :
    InStep Online.Alike (Online.make cell asoh tr (clockAt t rest) names) (Online.make cell asoh tr (clockAt (t + c) rest) names) := by
  unfold Online.make
  rw [hf.output]
  refine .first _ fun y => .first _ fun yn => .first _ fun bt => ?_
  split_ifs
  · exact rfl
  · refine .first _ fun ba => ?_
    split_ifs
    · exact rfl
    · exact .ret ⟨_, rfl⟩

theorem Online.Alike.stateNames {o o' : Online} (h : Online.Alike o o') : o'.stateNames = o.stateNames := by
  obtain ⟨i, rfl⟩ := h
  rfl

/-- Joint estimators by two clocks. -/
structure Joint.Alike (c : ℝ) (E E' : Joint) : Prop where
  base : Online.Alike E.base E'.base
  wrapper : E.wrapper.Alike c E'.wrapper
  filter : Ukf.Alike (Ahead c) (· = ·) E.filter E'.filter

theorem Joint.Alike.fromWrapper {w w' : JointWrapper} (h : w.Alike c w') (cov : Mat ⊕ (Mat × Mat))
    (inputsCov noise noiseT noiseA sensor : Option Mat) (tune : Tuning) :
    InStep (Joint.Alike c) (Joint.fromWrapper w cov inputsCov noise noiseT noiseA sensor tune)
      (Joint.fromWrapper w' cov inputsCov noise noiseT noiseA sensor tune) := by
  obtain ⟨⟨t0, r0, hr, k1, k2⟩, hf, k3⟩ := h.base
  have e1 : w'.cell = w.cell := congrArg (·.cell) k2
  have e2 : w'.asoh = w.asoh := congrArg (·.asoh) k2
  have e3 : w'.transients = w.transients := congrArg (·.transients) k2
  have e4 : w'.inputs = clockAt (t0 + c) r0 := congrArg (·.inputs) k2
  have e5 : w'.hiddenConv = w.hiddenConv := congrArg (·.hiddenConv) k2
  have e6 : w'.controlConv = w.controlConv := congrArg (·.controlConv) k2
  have e7 : w'.outputConv = w.outputConv := congrArg (·.outputConv) k2
  have e8 : w'.nOut = w.nOut := congrArg (·.nOut) k2
  unfold Joint.fromWrapper
  simp only [e2, e3, e4, e5, e6, e7, h.names, k1, k3]
  refine .bind (convertVals_ahead t0 hr inputsCov) fun u u' hu => .first _ fun tr => .first _ fun a => .first _ fun g => .first _ fun g => ?_
  refine .bind (convert_ahead hu) fun u u' hu => .first _ fun q => .first _ fun r => ?_
  refine .bind (R := Ukf.Alike (Ahead c) (· = ·)) (Ukf.Alike.make (RM := (· = ·)) ?_ e8 ?_ ?_ rfl hu.mean g q r _ _ _) fun f f' hff => ?_
  · show w'.nTransients + w'.nAsoh = w.nTransients + w.nAsoh
    rw [h.nTransients, h.nAsoh]
  · rintro s _ X u v u' v' - h1 h2
    show InStep _ (w.update X u u' >>= _) (w'.update X v v' >>= _)
    rw [h.update X h1 h2]
    exact .first _ fun m => .ret ⟨rfl, rfl⟩
  · rintro s _ X u v - h1
    exact h.predict X h1
  · unfold Joint.make
    rw [e1, e2, e3, e4, k1, h.names]
    refine .bind (Online.Alike.make hf _ _ _ _ _) fun o o' ho => .ret ⟨ho, h, hff⟩

theorem Joint.Alike.initialize {cell : Cell} (hf : TimeFree cell) (pinv : Mat → Mat) (asoh : HV ℝ) (tr : Container ℝ) (t : ℝ)
    {rest : List (Name × Option (Arr2 ℝ))} (hr : ∀ k v, (k, some v) ∈ rest → v.nrow = 1) (cov : Mat ⊕ (Mat × Mat))
    (inputsCov noise noiseT noiseA sensor : Option Mat) (normalize : Bool) (tune : Tuning) :
    InStep (Joint.Alike c)
      (Joint.initializeUkf pinv cell asoh tr (clockAt t rest) cov inputsCov noise noiseT noiseA sensor normalize tune)
      (Joint.initializeUkf pinv cell asoh tr (clockAt (t + c) rest) cov inputsCov noise noiseT noiseA sensor normalize tune) := by
  unfold Joint.initializeUkf
  refine .first _ fun conv => .bind (R := JointWrapper.Alike c) ?_ fun w w' hw => Joint.Alike.fromWrapper hw _ _ _ _ _ _ _
  unfold JointWrapper.make
  refine .bind (BaseWrapper.Alike.make hf asoh tr t hr conv .identity) fun b b' hb => .first _ fun v => .first _ fun p => .ret ?_
  exact ⟨hb.1, rfl, rfl, rfl, rfl, rfl⟩

theorem Joint.Alike.step {E E' : Joint} (h : E.Alike c E') (svd : Mat → Vec × Mat) (t : ℝ) {rest : List (Name × Option (Arr2 ℝ))}
    (hr : ∀ k v, (k, some v) ∈ rest → v.nrow = 1) (y : Container ℝ) :
    InStep (fun a b => Joint.Alike c a.1 b.1 ∧ b.2 = a.2) (E.step svd (clockAt t rest) y) (E'.step svd (clockAt (t + c) rest) y) := by
  obtain ⟨⟨t0, r0, -, k1, k2⟩, hf, k3⟩ := h.wrapper.base
  have e5 : E'.wrapper.hiddenConv = E.wrapper.hiddenConv := congrArg (·.hiddenConv) k2
  have e6 : E'.wrapper.controlConv = E.wrapper.controlConv := congrArg (·.controlConv) k2
  have e7 : E'.wrapper.outputConv = E.wrapper.outputConv := congrArg (·.outputConv) k2
  unfold Joint.step
  simp only [e5, e6, e7, k3]
  refine .bind (convertVals_ahead t hr none) fun u u' hu => .first _ fun y => .bind (convert_ahead hu) fun u u' hu => .first _ fun y => ?_
  refine .bind (h.filter.step svd hu.mean y) ?_
  rintro ⟨f, r⟩ ⟨f', _⟩ ⟨hff, rfl⟩
  exact .first _ fun est => .first _ fun out => .ret ⟨⟨h.base, h.wrapper, hff⟩, rfl⟩

/-- Dual estimators by two clocks. -/
structure Dual.Alike (c : ℝ) (E E' : Dual) : Prop where
  base : Online.Alike E.base E'.base
  cellW : E.cellW.Alike c E'.cellW
  asohW : E.asohW.Alike c E'.asohW
  trans : Ukf.Alike (Ahead c) (· = ·) E.trans E'.trans
  asoh : Ukf.Alike (Ahead c) (fun m m' => m'.1 = m.1 ∧ InputsAhead c m.2 m'.2) E.asoh E'.asoh

theorem clockAt_inj {t t' : ℝ} {rest rest' : List (Name × Option (Arr2 ℝ))} (h : clockAt t rest = clockAt t' rest') : t = t' ∧ rest = rest' := by
  unfold clockAt at h
  simp only [Container.mk.injEq, List.cons.injEq, Prod.mk.injEq, Option.some.injEq, true_and] at h
  exact ⟨by simpa [Arr2.scalar, Arr2.ofRow] using congrArg (·.rows) h.1, h.2⟩

theorem Dual.Alike.fromWrappers {cw cw' : CellWrapper} {aw aw' : DegradationWrapper} (hc : cw.Alike c cw') (ha : aw.Alike c aw')
    (hin : cw.inputs = aw.inputs) (covT covA : Mat) (inputsCov noiseT noiseA sensor : Option Mat) (tT tA : Tuning) :
    InStep (Dual.Alike c) (Dual.fromWrappers cw aw covT covA inputsCov noiseT noiseA sensor tT tA)
      (Dual.fromWrappers cw' aw' covT covA inputsCov noiseT noiseA sensor tT tA) := by
  obtain ⟨⟨t0, r0, hr, k1, k2⟩, hf, k3⟩ := hc.base
  obtain ⟨⟨t1, r1, hr1, l1, l2⟩, hf1, l3⟩ := ha.base
  rw [k1, l1] at hin
  obtain ⟨rfl, rfl⟩ := clockAt_inj hin
  have e1 : cw'.cell = cw.cell := congrArg (·.cell) k2
  have e2 : cw'.asoh = cw.asoh := congrArg (·.asoh) k2
  have e3 : cw'.transients = cw.transients := congrArg (·.transients) k2
  have e4 : cw'.inputs = clockAt (t0 + c) r0 := congrArg (·.inputs) k2
  have e5 : cw'.hiddenConv = cw.hiddenConv := congrArg (·.hiddenConv) k2
  have e6 : cw'.controlConv = cw.controlConv := congrArg (·.controlConv) k2
  have e7 : cw'.outputConv = cw.outputConv := congrArg (·.outputConv) k2
  have e8 : cw'.nOut = cw.nOut := congrArg (·.nOut) k2
  have f2 : aw'.asoh = aw.asoh := congrArg (·.asoh) l2
  have f3 : aw'.transients = aw.transients := congrArg (·.transients) l2
  have f4 : aw'.inputs = clockAt (t0 + c) r0 := congrArg (·.inputs) l2
  have f5 : aw'.hiddenConv = aw.hiddenConv := congrArg (·.hiddenConv) l2
  have f6 : aw'.controlConv = aw.controlConv := congrArg (·.controlConv) l2
  have f7 : aw'.outputConv = aw.outputConv := congrArg (·.outputConv) l2
  have f8 : aw'.nOut = aw.nOut := congrArg (·.nOut) l2
  unfold Dual.fromWrappers
  simp only [e2, e3, e4, e5, e6, e7, f2, f3, f4, f5, f6, f7, ha.names, k1, k3, l1, l3]
  have hn := clockAt_toNumpy t0 c hr
  rcases h1 : (clockAt t0 r0).toNumpy with e | A <;> rcases h2 : (clockAt (t0 + c) r0).toNumpy with e' | A'
  · rw [h1, h2] at hn
    exact hn
  · rw [h1, h2] at hn
    exact hn.elim
  · rw [h1, h2] at hn
    exact hn.elim
  simp only [InStep.ok_bind, Dual.allClose_self, Bool.not_true, Bool.false_eq_true, if_false]
  refine .bind (convertVals_ahead t0 hr inputsCov) fun u u' hu => .first _ fun tr => .first _ fun t => .first _ fun a => .first _ fun a => ?_
  refine .first _ fun gt => .bind (convert_ahead hu) fun u1 u1' hu1 => .first _ fun qT => .first _ fun s => ?_
  refine .bind (R := Ukf.Alike (Ahead c) (· = ·)) (Ukf.Alike.make (RM := (· = ·)) hc.n e8 ?_ ?_ rfl hu1.mean gt qT s _ _ _) fun f f' hff => ?_
  · rintro s _ X u v u' v' rfl h1 h2
    show InStep _ (cw.update s X u u' >>= _) (cw'.update s X v v' >>= _)
    rw [hc.update s X h1 h2]
    exact .first _ fun m => .ret ⟨rfl, rfl⟩
  · rintro s _ X u v rfl h1
    exact hc.predict s X h1
  refine .first _ fun ga => .bind (convert_ahead hu) fun u2 u2' hu2 => .first _ fun qA => .first _ fun s => ?_
  refine .bind (R := Ukf.Alike (Ahead c) (fun m m' => m'.1 = m.1 ∧ InputsAhead c m.2 m'.2))
    (Ukf.Alike.make ha.nAsoh f8 ?_ ?_ ⟨rfl, t0, r0, rfl, rfl⟩ hu2.mean ga qA s _ _ _) fun g g' hgg => ?_
  · rintro ⟨m, p⟩ ⟨m', p'⟩ X u v u' v' ⟨h0, hp⟩ h1 h2
    obtain rfl : m' = m := h0
    show InStep _ (aw.update m' X u u' >>= _) (aw'.update m' X v v' >>= _)
    exact .bind (ha.update m' X h1 h2) fun a b hab => .ret ⟨hab.1, rfl, hab.2⟩
  · rintro ⟨m, p⟩ ⟨m', p'⟩ X u v ⟨h0, hp⟩ h1
    obtain rfl : m' = m := h0
    exact ha.predict m' X h1 hp
  unfold Dual.make
  rw [e1, f2, e3, e4, k1, ha.names]
  exact .bind (Online.Alike.make hf _ _ _ _ _) fun o o' ho => .ret ⟨ho, hc, ha, hff, hgg⟩

theorem Dual.Alike.initialize {cell : Cell} (hf : TimeFree cell) (pinv : Mat → Mat) (asoh : HV ℝ) (tr : Container ℝ) (t : ℝ)
    {rest : List (Name × Option (Arr2 ℝ))} (hr : ∀ k v, (k, some v) ∈ rest → v.nrow = 1) (covT covA : Mat)
    (inputsCov noiseT noiseA sensor : Option Mat) (normalize : Bool) (tT tA : Tuning) :
    InStep (Dual.Alike c)
      (Dual.initializeUkf pinv cell asoh tr (clockAt t rest) covT covA inputsCov noiseT noiseA sensor normalize tT tA)
      (Dual.initializeUkf pinv cell asoh tr (clockAt (t + c) rest) covT covA inputsCov noiseT noiseA sensor normalize tT tA) := by
  unfold Dual.initializeUkf
  refine .first _ fun conv => ?_
  refine .bind (R := fun w w' => CellWrapper.Alike c w w' ∧ w.inputs = clockAt t rest) ?_ fun w w' hw => ?_
  · unfold CellWrapper.make
    refine .bind (BaseWrapper.Alike.make hf asoh tr t hr .identity .identity) fun b b' hb => .first _ fun v => .ret ?_
    exact ⟨⟨hb.1, rfl⟩, hb.2⟩
  refine .bind (R := fun w w' => DegradationWrapper.Alike c w w' ∧ w.inputs = clockAt t rest) ?_ fun a a' ha => ?_
  · unfold DegradationWrapper.make
    refine .bind (BaseWrapper.Alike.make hf asoh tr t hr conv .identity) fun b b' hb => .first _ fun v => .first _ fun p => .ret ?_
    exact ⟨⟨hb.1, rfl, rfl, rfl, rfl, rfl⟩, hb.2⟩
  exact Dual.Alike.fromWrappers hw.1 ha.1 (by rw [hw.2, ha.2]) _ _ _ _ _ _ _ _

theorem Dual.Alike.converted {E E' : Dual} (h : E.Alike c E') : E'.converted = E.converted := by
  obtain ⟨⟨t0, r0, -, k1, k2⟩, hf, k3⟩ := h.cellW.base
  obtain ⟨⟨t1, r1, -, l1, l2⟩, hf1, l3⟩ := h.asohW.base
  have e5 : E'.cellW.hiddenConv = E.cellW.hiddenConv := congrArg (·.hiddenConv) k2
  have f5 : E'.asohW.hiddenConv = E.asohW.hiddenConv := congrArg (·.hiddenConv) l2
  unfold Dual.converted
  rw [h.trans.hidden, h.asoh.hidden, e5, f5]

theorem Dual.Alike.step {E E' : Dual} (h : E.Alike c E') (svd : Mat → Vec × Mat) (t : ℝ) {rest : List (Name × Option (Arr2 ℝ))}
    (hr : ∀ k v, (k, some v) ∈ rest → v.nrow = 1) (y : Container ℝ) :
    InStep (fun a b => Dual.Alike c a.1 b.1 ∧ b.2 = a.2) (E.step svd (clockAt t rest) y) (E'.step svd (clockAt (t + c) rest) y) := by
  have hest : E'.getEstimatedState = E.getEstimatedState := by
    obtain ⟨i, hi⟩ := h.base
    unfold Dual.getEstimatedState
    rw [h.converted, hi]
  obtain ⟨⟨t0, r0, -, k1, k2⟩, hf, k3⟩ := h.cellW.base
  obtain ⟨⟨t1, r1, -, l1, l2⟩, hf1, l3⟩ := h.asohW.base
  have e5 : E'.cellW.hiddenConv = E.cellW.hiddenConv := congrArg (·.hiddenConv) k2
  have e6 : E'.cellW.controlConv = E.cellW.controlConv := congrArg (·.controlConv) k2
  have e7 : E'.cellW.outputConv = E.cellW.outputConv := congrArg (·.outputConv) k2
  have f5 : E'.asohW.hiddenConv = E.asohW.hiddenConv := congrArg (·.hiddenConv) l2
  have f6 : E'.asohW.controlConv = E.asohW.controlConv := congrArg (·.controlConv) l2
  have f7 : E'.asohW.outputConv = E.asohW.outputConv := congrArg (·.outputConv) l2
  unfold Dual.step
  simp only [e5, e6, e7, f5, f6, f7, k3, l3, hest]
  refine .bind (convertVals_ahead t hr none) fun u u' hu => .first _ fun y => .first _ fun post => ?_
  refine .bind (convert_ahead hu) fun u1 u1' hu1 => .first _ fun y1 => ?_
  have hT : Ukf.Alike (Ahead c) (· = ·) { E.trans with mem := post.2 } { E'.trans with mem := post.2 } := { h.trans with mem := rfl }
  have hA : Ukf.Alike (Ahead c) (fun m m' => m'.1 = m.1 ∧ InputsAhead c m.2 m'.2) { E.asoh with mem := (post.1, E.asoh.mem.2) }
      { E'.asoh with mem := (post.1, E'.asoh.mem.2) } := { h.asoh with mem := ⟨rfl, h.asoh.mem.2⟩ }
  refine .bind (hT.step svd hu1.mean y1) ?_
  rintro ⟨f, r⟩ ⟨f', _⟩ ⟨hff, rfl⟩
  refine .bind (convert_ahead hu) fun u2 u2' hu2 => .first _ fun y2 => ?_
  refine .bind (hA.step svd hu2.mean y2) ?_
  rintro ⟨g, r'⟩ ⟨g', _⟩ ⟨hgg, rfl⟩
  exact .first _ fun t => .first _ fun a => .first _ fun out => .first _ fun _ => .first _ fun est => .ret ⟨⟨h.base, h.cellW, h.asohW, hff, hgg⟩, rfl⟩

/-! ## Proofs: the loop -/

/-- The input, the time being read from a clock that is ahead. -/
noncomputable def CellInput.later (c : ℝ) (u : CellInput) : CellInput := { u with time := ahead c u.time }

/-- Two kinds of estimators that behave alike by two clocks. -/
structure EstimatorOps.Alike {σ τ : Type} (c : ℝ) (R : σ → τ → Prop) (o : EstimatorOps σ) (o' : EstimatorOps τ) : Prop where
  info : ∀ e e', R e e' → o'.info e' = o.info e
  step : ∀ e e' u y, R e e' → InStep (fun a b => R a.1 b.1 ∧ b.2 = a.2) (o.step e u y) (o'.step e' (u.later c) y)

theorem lookup_later (r : Row) (k : Name) :
    lookupKey k (laterRow c r) = (lookupKey k r).map (if k = "test_time".toList then ahead c else id) := by
  unfold laterRow
  generalize "test_time".toList = K
  induction r with
  | nil => rfl
  | cons p r ih =>
    obtain ⟨k', x⟩ := p
    by_cases hk' : k' = K
    · simp only [List.map_cons, hk', if_true, lookupKey]
      by_cases hk : K = k
      · subst hk
        simp
      · rw [if_neg hk, if_neg hk, ih]
    · simp only [List.map_cons, if_neg hk', lookupKey]
      by_cases hk : k' = k
      · subst hk
        simp [hk']
      · rw [if_neg hk, if_neg hk, ih]

theorem rowToInputs_later (r : Row) : rowToInputs (laterRow c r) = (rowToInputs r).map fun p => (p.1.later c, p.2) := by
  have h1 : lookupKey "temperature".toList (laterRow c r) = lookupKey "temperature".toList r := by rw [lookup_later, if_neg (by decide)]; simp
  have h2 : lookupKey "current".toList (laterRow c r) = lookupKey "current".toList r := by rw [lookup_later, if_neg (by decide)]; simp
  have h3 : lookupKey "voltage".toList (laterRow c r) = lookupKey "voltage".toList r := by rw [lookup_later, if_neg (by decide)]; simp
  have h4 : lookupKey "test_time".toList (laterRow c r) = (lookupKey "test_time".toList r).map (ahead c) := by rw [lookup_later, if_pos rfl]
  unfold rowToInputs Row.get
  rw [h1, h2, h3, h4]
  rcases lookupKey "temperature".toList r with _ | T <;> rcases lookupKey "test_time".toList r with _ | t <;>
    rcases lookupKey "current".toList r with _ | i <;> rcases lookupKey "voltage".toList r with _ | v
  all_goals first
    | rfl
    | (rcases T with _ | _ | _ | _ <;> rfl)

theorem runLoop_later {σ τ : Type} {R : σ → τ → Prop} {o : EstimatorOps σ} {o' : EstimatorOps τ} (h : o.Alike c R o') (dims : Option (Nat × Nat))
    (rows : List Row) (e : σ) (e' : τ) (he : R e e') :
    InStep (fun a b => R a.1 b.1 ∧ b.2 = a.2) (runLoop o dims e none rows) (runLoop o' dims e' none (rows.map (laterRow c))) := by
  induction rows generalizing e e' with
  | nil => exact ⟨he, rfl⟩
  | cons row rows ih =>
    simp only [List.map_cons, runLoop]
    have hrow : InStep (fun a b => b = (a.1.later c, a.2)) (rowToInputs row) (rowToInputs (laterRow c row)) := by
      rw [rowToInputs_later]
      rcases rowToInputs row with e | p
      · exact rfl
      · exact rfl
    refine .bind hrow ?_
    rintro ⟨u, y⟩ _ rfl
    refine .bind (h.step e e' u y he) ?_
    rintro ⟨e1, s, p⟩ ⟨e1', _⟩ ⟨he1, rfl⟩
    refine .first _ fun line => ?_
    refine .bind (R := fun a b => a = none ∧ b = none) ⟨rfl, rfl⟩ ?_
    rintro _ _ ⟨rfl, rfl⟩
    refine .bind (ih e1 e1' he1) ?_
    rintro ⟨e2, w, ls⟩ ⟨e2', _⟩ ⟨he2, rfl⟩
    exact .ret ⟨he2, rfl⟩

theorem runOnline_later {σ τ : Type} {R : σ → τ → Prop} {o : EstimatorOps σ} {o' : EstimatorOps τ} (h : o.Alike c R o') (chunkOf : List Nat → Nat)
    {data data' : Data} {rows : List Row} (hd : data.rows = .ok rows) (hd' : data'.rows = .ok (rows.map (laterRow c))) (outputStates : Bool)
    (e : σ) (e' : τ) (he : R e e') :
    InStep (fun a b => b.1 = a.1 ∧ R a.2.1 b.2.1) (runOnline chunkOf o data e outputStates none) (runOnline chunkOf o' data' e' outputStates none) := by
  unfold runOnline
  rw [hd, hd', h.info e e' he]
  cases rows with
  | nil => exact rfl
  | cons row rows =>
    simp only [List.map_cons, InStep.ok_bind, List.length_map, openWriter]
    have hrow : InStep (fun a b => b = (a.1.later c, a.2)) (rowToInputs row) (rowToInputs (laterRow c row)) := by
      rw [rowToInputs_later]
      rcases rowToInputs row with e | p
      · exact rfl
      · exact rfl
    refine .bind hrow ?_
    rintro ⟨u, y⟩ _ rfl
    refine .first _ fun dims => .bind (runLoop_later h dims rows e e' he) ?_
    rintro ⟨e2, w, ls⟩ ⟨e2', _⟩ ⟨he2, rfl⟩
    simp only [h.info e2 e2' he2]
    exact .first _ fun table => .ret ⟨rfl, he2⟩

theorem container_later {β γ : Type} {S : β → γ → Prop} (u : CellInput) (f : Container ℝ → Except Err β) (g : Container ℝ → Except Err γ)
    (h : ∀ t rest, (∀ k v, (k, some v) ∈ rest → Arr2.nrow v = 1) → InStep S (f (clockAt t rest)) (g (clockAt (t + c) rest))) :
    InStep S (u.container >>= f) ((u.later c).container >>= g) := by
  obtain ⟨t, i, T⟩ := u
  unfold CellInput.container CellInput.later
  cases t with
  | fin t =>
    cases i with
    | fin i =>
      cases T with
      | fin T =>
        refine h t [("current".toList, some (Arr2.ofRow [i])), ("temperature".toList, some (Arr2.ofRow [T]))] ?_
        intro k v hv
        simp only [List.mem_cons, Prod.mk.injEq, Option.some.injEq, List.not_mem_nil, or_false] at hv
        rcases hv with ⟨-, rfl⟩ | ⟨-, rfl⟩ <;> rfl
      | _ => exact rfl
    | _ => exact rfl
  | _ => exact rfl

theorem joint_alike (svd : Mat → Vec × Mat) : (Joint.ops svd).Alike c (Joint.Alike c) (Joint.ops svd) where
  info e e' h := by
    obtain ⟨i, hi⟩ := h.base
    simp only [Joint.ops, Joint.state, h.base.stateNames, h.filter.hidden]
    rw [hi]
  step e e' u y h := container_later u _ _ fun t rest hr => .first _ fun y => h.step svd t hr y

theorem dual_alike (svd : Mat → Vec × Mat) : (Dual.ops svd).Alike c (Dual.Alike c) (Dual.ops svd) where
  info e e' h := by
    obtain ⟨i, hi⟩ := h.base
    simp only [Dual.ops, Dual.state, h.base.stateNames, h.converted]
    rw [hi]
  step e e' u y h := container_later u _ _ fun t rest hr => .first _ fun y => h.step svd t hr y

end

/-! ## Proofs: the circuit -/

theorem readInput_clockAt (t : ℝ) (rest : List (Name × Option (Arr2 ℝ))) :
    Ecm.readInput (clockAt t rest) = do
      let i ← Ecm.arrField ⟨rest⟩ Ecm.kCurrent
      let T ← Ecm.optField ⟨rest⟩ Ecm.kTemp
      return ⟨(Arr2.scalar t).toNd, i, T⟩ := by
  have h : ∀ k, Ecm.kTime ≠ k → Ecm.optField (clockAt t rest) k = Ecm.optField ⟨rest⟩ k := by
    intro k hk
    unfold Ecm.optField clockAt
    rw [show "time".toList = Ecm.kTime from rfl]
    simp only [assoc, if_neg hk]
  unfold Ecm.readInput Ecm.arrField
  rw [h Ecm.kCurrent (by decide), h Ecm.kTemp (by decide)]
  rfl

theorem sub_scalar (t t' c : ℝ) : Ecm.sub (Arr2.scalar (t' + c)).toNd (Arr2.scalar (t + c)).toNd = Ecm.sub (Arr2.scalar t').toNd (Arr2.scalar t).toNd := by
  have h0 : ∀ l : List Nat, (Nd.bidx [1, 1] l).getD 0 0 = 0 ∧ (Nd.bidx [1, 1] l).getD 1 0 = 0 := by
    intro l
    unfold Nd.bidx
    rcases l.reverse with _ | ⟨i, _ | ⟨j, r⟩⟩ <;> simp
  have hg : ∀ (t : ℝ) (l : List Nat), (Arr2.scalar t).toNd.get (Nd.bidx [1, 1] l) = t := by
    intro t l
    unfold Arr2.toNd
    simp only [(h0 l).1, (h0 l).2]
    rfl
  have hs : ∀ t : ℝ, (Arr2.scalar t).toNd.shape = [1, 1] := fun _ => rfl
  unfold Ecm.sub Nd.map2
  simp only [hs, hg, add_sub_add_right_eq_sub]

theorem update_times (beh : Ecm.Behavior) {p n p' n' : Ecm.Input} (h : Ecm.sub n'.time p'.time = Ecm.sub n.time p.time)
    (h1 : p'.current = p.current) (h2 : p'.temp = p.temp) (h3 : n'.current = n.current) (st : Ecm.State) (a : Ecm.ASOH) :
    Ecm.update beh p' n' st a = Ecm.update beh p n st a := by
  unfold Ecm.update
  have hs : Ecm.currentSlope beh p' n' = Ecm.currentSlope beh p n := by
    funext dt
    unfold Ecm.currentSlope
    rw [h1, h3]
  rw [h, h1, h2, h3, hs]

/-! ## C126 -/

/-- C126: the equivalent circuit only uses differences of times, whatever its curves. -/
theorem C126_circuit (beh : Ecm.Behavior) (x : Ecm.Fixed) : TimeFree (Ecm.cell beh x) := by
  constructor
  · intro t t' c rest rest' tr asoh
    unfold Ecm.cell
    simp only [readInput_clockAt, bind_assoc, pure_bind]
    apply InStep.eq
    refine .first _ fun i => .first _ fun T => .first _ fun i' => .first _ fun T' => .first _ fun st => .first _ fun a => ?_
    rw [update_times beh (p := ⟨(Arr2.scalar t).toNd, i, T⟩) (n := ⟨(Arr2.scalar t').toNd, i', T'⟩) (p' := ⟨(Arr2.scalar (t + c)).toNd, i, T⟩)
      (n' := ⟨(Arr2.scalar (t' + c)).toNd, i', T'⟩) (sub_scalar t t' c) rfl rfl rfl]
    exact .same _
  · intro t c rest tr asoh
    unfold Ecm.cell
    simp only [readInput_clockAt, bind_assoc, pure_bind]
    apply InStep.eq
    refine .first _ fun i => .first _ fun T => .first _ fun st => .first _ fun a => ?_
    rw [Ecm.C97_voltage_shift ⟨(Arr2.scalar t).toNd, i, T⟩ (Arr2.scalar (t + c)).toNd]
    exact .same _

/-- C126: a joint estimator of any such cell model, made from and run on data by a clock that is ahead, gives the same table and the same
final estimate, or the same error. -/
theorem C126_joint {cell : Cell} (hf : TimeFree cell) (pinv : Mat → Mat) (asoh : HV ℝ) (tr : Container ℝ) (t c : ℝ)
    {rest : List (Name × Option (Arr2 ℝ))} (hr : ∀ k v, (k, some v) ∈ rest → v.nrow = 1) (cov : Mat ⊕ (Mat × Mat))
    (inputsCov noise noiseT noiseA sensor : Option Mat) (normalize : Bool) (tune : Tuning) (svd : Mat → Vec × Mat) (chunkOf : List Nat → Nat)
    {data data' : Data} {rows : List Row} (hd : data.rows = .ok rows) (hd' : data'.rows = .ok (rows.map (laterRow c))) (outputStates : Bool) :
    jointPipeline (Joint.initializeUkf pinv cell asoh tr (clockAt (t + c) rest) cov inputsCov noise noiseT noiseA sensor normalize tune)
        svd chunkOf data' outputStates =
      jointPipeline (Joint.initializeUkf pinv cell asoh tr (clockAt t rest) cov inputsCov noise noiseT noiseA sensor normalize tune)
        svd chunkOf data outputStates := by
  symm
  apply InStep.eq
  refine .bind (Joint.Alike.initialize (c := c) hf pinv asoh tr t hr cov inputsCov noise noiseT noiseA sensor normalize tune) fun E E' hE => ?_
  refine .bind (runOnline_later (joint_alike svd) chunkOf hd hd' outputStates E E' hE) ?_
  rintro a b ⟨h1, h2⟩
  refine .ret ?_
  rw [h1]
  simp only [Joint.state, h2.filter.hidden]

/-- C126: and so does a dual estimator. -/
theorem C126_dual {cell : Cell} (hf : TimeFree cell) (pinv : Mat → Mat) (asoh : HV ℝ) (tr : Container ℝ) (t c : ℝ)
    {rest : List (Name × Option (Arr2 ℝ))} (hr : ∀ k v, (k, some v) ∈ rest → v.nrow = 1) (covT covA : Mat)
    (inputsCov noiseT noiseA sensor : Option Mat) (normalize : Bool) (tT tA : Tuning) (svd : Mat → Vec × Mat) (chunkOf : List Nat → Nat)
    {data data' : Data} {rows : List Row} (hd : data.rows = .ok rows) (hd' : data'.rows = .ok (rows.map (laterRow c))) (outputStates : Bool) :
    dualPipeline (Dual.initializeUkf pinv cell asoh tr (clockAt (t + c) rest) covT covA inputsCov noiseT noiseA sensor normalize tT tA)
        svd chunkOf data' outputStates =
      dualPipeline (Dual.initializeUkf pinv cell asoh tr (clockAt t rest) covT covA inputsCov noiseT noiseA sensor normalize tT tA)
        svd chunkOf data outputStates := by
  symm
  apply InStep.eq
  refine .bind (Dual.Alike.initialize (c := c) hf pinv asoh tr t hr covT covA inputsCov noiseT noiseA sensor normalize tT tA) fun E E' hE => ?_
  refine .bind (runOnline_later (dual_alike svd) chunkOf hd hd' outputStates E E' hE) ?_
  rintro a b ⟨h1, h2⟩
  refine .ret ?_
  rw [h1, h2.trans.hidden, h2.asoh.hidden]

theorem laterRow_cons (c : ℝ) {k : Name} (x : Num) (r : Row) (h : k ≠ "test_time".toList) : laterRow c ((k, x) :: r) = (k, x) :: laterRow c r := by
  unfold laterRow
  rw [List.map_cons, if_neg h]

theorem laterRow_time (c : ℝ) (x : Num) (r : Row) : laterRow c (("test_time".toList, x) :: r) = ("test_time".toList, ahead c x) :: laterRow c r := by
  unfold laterRow
  generalize "test_time".toList = K
  rw [List.map_cons, if_pos rfl]

theorem Demo.hourLater (xs : List (ℝ × ℝ × ℝ × ℕ)) : (Verif.Demo.dataset (xs.map fun x => (x.1 + 3600, x.2))).rows =
    .ok ((xs.map fun x => Verif.Demo.readingCols.zip (Verif.Demo.reading x)).map (laterRow 3600)) := by
  rw [Demo.dataset_rows, List.map_map, List.map_map]
  refine congrArg Except.ok (List.map_congr_left fun x _ => ?_)
  rw [Function.comp_apply, Function.comp_apply]
  unfold Verif.Demo.readingCols Verif.Demo.reading
  simp only [List.zip_cons_cons, List.zip_nil_right]
  rw [laterRow_time, laterRow_cons _ _ _ (by decide),
    laterRow_cons _ _ _ (by decide), laterRow_cons _ _ _ (by decide)]
  rfl

open Ecm in
-- The open-circuit voltage and R0 of the concrete circuit, estimated from any dataset in memory, and from the same dataset an hour later: both runs end with
-- a table, the same one.
example (svd : Mat → Vec × Mat) (chunkOf : List Nat → Nat) (normalize : Bool) (xs : List (ℝ × ℝ × ℝ × ℕ)) (hne : xs ≠ []) :
    ∃ pinv table est, jointPipeline (Joint.initializeUkf pinv (Ecm.cell .constant Cell.Demo.fixed) (Cell.Demo.hvUpdating [kOcv, kR0] [kBase])
        Cell.Demo.hvState Cell.Demo.coldInput (.inl ⟨6, 6, 1⟩) none none none none none normalize ⟨1, some 0, 2⟩) svd chunkOf (Verif.Demo.dataset xs) true =
        .ok (some table, est) ∧ table.rows.length = xs.length ∧
      jointPipeline (Joint.initializeUkf pinv (Ecm.cell .constant Cell.Demo.fixed) (Cell.Demo.hvUpdating [kOcv, kR0] [kBase]) Cell.Demo.hvState
        ⟨[(kTime, some (.scalar 3600)), (kCurrent, some (.scalar 1)), (kTemp, none)]⟩ (.inl ⟨6, 6, 1⟩) none none none none none normalize
        ⟨1, some 0, 2⟩) svd chunkOf (Verif.Demo.dataset (xs.map fun x => (x.1 + 3600, x.2))) true = .ok (some table, est) := by
  obtain ⟨pinv, hp⟩ := exists_pinv
  have hrows := Verif.Demo.dataset_rows xs
  have hne' : xs.map (fun x => Verif.Demo.readingCols.zip (Verif.Demo.reading x)) ≠ [] := by simpa using hne
  have hf : ∀ r ∈ xs.map (fun x => Verif.Demo.readingCols.zip (Verif.Demo.reading x)), Row.Finite r := by
    intro r hr
    obtain ⟨y, -, rfl⟩ := List.mem_map.1 hr
    exact Verif.Demo.reading_finite y
  have hn := Cell.Demo.none_fits
  obtain ⟨E, table, E', u, k1, k2, k3⟩ := C107_joint_from_data Cell.Demo.cold_task Cell.Demo.cold_estimable.1 rfl rfl (.whole (Cell.Demo.one_posDef 6)) (hn _)
    (hn _) (hn _) (hn _) hp normalize (tuned_default (by omega)) svd chunkOf _ _ hrows hne' hf
  have h1 : jointPipeline (Joint.initializeUkf pinv (Ecm.cell .constant Cell.Demo.fixed) (Cell.Demo.hvUpdating [kOcv, kR0] [kBase])
        Cell.Demo.hvState Cell.Demo.coldInput (.inl ⟨6, 6, 1⟩) none none none none none normalize ⟨1, some 0, 2⟩) svd chunkOf (Verif.Demo.dataset xs) true =
        .ok (some table, E'.state) := by
    unfold jointPipeline
    rw [k1, InStep.ok_bind, k2]
    rfl
  refine ⟨pinv, table, E'.state, h1, by rw [k3, List.length_map], ?_⟩
  rw [← h1]
  have h := C126_joint (C126_circuit .constant Cell.Demo.fixed) pinv (Cell.Demo.hvUpdating [kOcv, kR0] [kBase]) Cell.Demo.hvState 0 3600
    (rest := [(kCurrent, some (.scalar 1)), (kTemp, none)]) (by
      intro k v hv
      simp only [List.mem_cons, Prod.mk.injEq, Option.some.injEq, List.not_mem_nil, or_false, reduceCtorEq, and_false] at hv
      rw [hv.2]
      rfl) (.inl ⟨6, 6, 1⟩) none none none none none normalize ⟨1, some 0, 2⟩ svd chunkOf hrows (Demo.hourLater xs) true
  rw [zero_add] at h
  exact h

open Ecm in
-- The same for a dual estimator.
example (svd : Mat → Vec × Mat) (chunkOf : List Nat → Nat) (normalize : Bool) (xs : List (ℝ × ℝ × ℝ × ℕ)) (hne : xs ≠ []) :
    ∃ pinv table est, dualPipeline (Dual.initializeUkf pinv (Ecm.cell .constant Cell.Demo.fixed) (Cell.Demo.hvUpdating [kOcv, kR0] [kBase])
        Cell.Demo.hvState Cell.Demo.coldInput ⟨3, 3, 1⟩ ⟨3, 3, 1⟩ none none none none normalize ⟨1, some 0, 2⟩ ⟨1, some 0, 2⟩) svd chunkOf (Verif.Demo.dataset xs) true =
        .ok (some table, est) ∧ table.rows.length = xs.length ∧
      dualPipeline (Dual.initializeUkf pinv (Ecm.cell .constant Cell.Demo.fixed) (Cell.Demo.hvUpdating [kOcv, kR0] [kBase]) Cell.Demo.hvState
        ⟨[(kTime, some (.scalar 3600)), (kCurrent, some (.scalar 1)), (kTemp, none)]⟩ ⟨3, 3, 1⟩ ⟨3, 3, 1⟩ none none none none normalize
        ⟨1, some 0, 2⟩ ⟨1, some 0, 2⟩) svd chunkOf (Verif.Demo.dataset (xs.map fun x => (x.1 + 3600, x.2))) true = .ok (some table, est) := by
  obtain ⟨pinv, hp⟩ := exists_pinv
  have hrows := Verif.Demo.dataset_rows xs
  have hne' : xs.map (fun x => Verif.Demo.readingCols.zip (Verif.Demo.reading x)) ≠ [] := by simpa using hne
  have hf : ∀ r ∈ xs.map (fun x => Verif.Demo.readingCols.zip (Verif.Demo.reading x)), Row.Finite r := by
    intro r hr
    obtain ⟨y, -, rfl⟩ := List.mem_map.1 hr
    exact Verif.Demo.reading_finite y
  have hn := Cell.Demo.none_fits
  obtain ⟨E, table, E', u, k1, k2, k3⟩ := C107_dual_from_data_partial Cell.Demo.cold_task Cell.Demo.cold_estimable
    (Cell.Demo.trackingHealth_reaches .constant .identity) rfl rfl (by show 1 ≤ 3; decide) (Cell.Demo.one_posDef 3) (Cell.Demo.one_posDef 3) (hn _) (hn _)
    (hn _) hp normalize (tuned_default (by omega)) (tuned_default (by omega)) svd chunkOf _ _ hrows hne' hf
  have h1 : dualPipeline (Dual.initializeUkf pinv (Ecm.cell .constant Cell.Demo.fixed) (Cell.Demo.hvUpdating [kOcv, kR0] [kBase])
        Cell.Demo.hvState Cell.Demo.coldInput ⟨3, 3, 1⟩ ⟨3, 3, 1⟩ none none none none normalize ⟨1, some 0, 2⟩ ⟨1, some 0, 2⟩) svd chunkOf (Verif.Demo.dataset xs) true =
        .ok (some table, E'.trans.hidden, E'.asoh.hidden) := by
    unfold dualPipeline
    rw [k1, InStep.ok_bind, k2]
    rfl
  refine ⟨pinv, table, _, h1, by rw [k3, List.length_map], ?_⟩
  rw [← h1]
  have h := C126_dual (C126_circuit .constant Cell.Demo.fixed) pinv (Cell.Demo.hvUpdating [kOcv, kR0] [kBase]) Cell.Demo.hvState 0 3600
    (rest := [(kCurrent, some (.scalar 1)), (kTemp, none)]) (by
      intro k v hv
      simp only [List.mem_cons, Prod.mk.injEq, Option.some.injEq, List.not_mem_nil, or_false, reduceCtorEq, and_false] at hv
      rw [hv.2]
      rfl) ⟨3, 3, 1⟩ ⟨3, 3, 1⟩ none none none none normalize ⟨1, some 0, 2⟩ ⟨1, some 0, 2⟩ svd chunkOf hrows (Demo.hourLater xs) true
  rw [zero_add] at h
  exact h

end Verif
