import Verif.Props.Interface
import Verif.Props.JointRuns
import Verif.Props.Hdf5Life
/-!
# Runs that succeed (C79, C80) and runs that show what a run does not do (C63, C64)
-/

namespace Verif
open Writer

variable {σ : Type}

/-- A row with finite time, current and voltage. -/
def Row.Finite (row : Row) : Prop :=
  ∃ t i v : ℝ, lookupKey "test_time".toList row = some (.fin t) ∧ lookupKey "current".toList row = some (.fin i) ∧
    lookupKey "voltage".toList row = some (.fin v)

/-- An estimator that satisfies `I` has the given names, accepts all finite inputs and measurements, returns estimates and predictions with
as many values as there are names, and satisfies `I` afterwards. -/
def EstimatorOps.Works (ops : EstimatorOps σ) (I : σ → Prop) (names outNames : List Name) : Prop :=
  ∀ e, I e → (ops.info e).stateNames = .ok names ∧ (ops.info e).outputNames = outNames ∧ (ops.info e).nOutputs = outNames.length ∧
    ∀ t i T v : ℝ, ∃ e' s o, ops.step e ⟨.fin t, .fin i, .fin T⟩ ⟨.fin v⟩ = .ok (e', s, o) ∧ I e' ∧ s.Proper ∧ s.mean.n = names.length ∧
      o.Proper ∧ o.mean.n = outNames.length

theorem Row.Finite.inputs {row : Row} (h : row.Finite) : ∃ t i T v : ℝ, rowToInputs row = .ok (⟨.fin t, .fin i, .fin T⟩, ⟨.fin v⟩) := by
  obtain ⟨t, i, v, h1, h2, h3⟩ := h
  by_cases hT : ∃ T : ℝ, lookupKey "temperature".toList row = some (.fin T)
  · obtain ⟨T, hT⟩ := hT
    exact ⟨t, i, T, v, (C62_row_to_inputs _ _ _ _ _ _).2 ⟨h1, h2, h3, .inl ⟨T, hT, rfl⟩⟩⟩
  · exact ⟨t, i, 25, v, (C62_row_to_inputs _ _ _ _ _ _).2 ⟨h1, h2, h3, .inr ⟨fun x hx => hT ⟨x, hx⟩, rfl⟩⟩⟩

theorem EstimatorOps.Works.observes {ops : EstimatorOps σ} {I : σ → Prop} {names outNames : List Name} (hw : ops.Works I names outNames)
    {rows : List Row} (hf : ∀ r ∈ rows, r.Finite) : ∀ {e : σ}, I e → ∃ outs e', Observes ops e rows outs e' ∧ I e' ∧
      ∀ so ∈ outs, so.1.Proper ∧ so.1.mean.n = names.length ∧ so.2.Proper ∧ so.2.mean.n = outNames.length := by
  induction rows with
  | nil => exact fun {e} he => ⟨[], e, .nil e, he, nofun⟩
  | cons row rest ih =>
    intro e he
    obtain ⟨t, i, T, v, hrow⟩ := (hf row List.mem_cons_self).inputs
    obtain ⟨-, -, -, hstep⟩ := hw e he
    obtain ⟨e1, s, o, h1, h2, h3⟩ := hstep t i T v
    obtain ⟨outs, e', h4, h5, h6⟩ := ih (fun r hr => hf r (List.mem_cons_of_mem _ hr)) h2
    refine ⟨(s, o) :: outs, e', .cons hrow h1 h4, h5, fun so hso => ?_⟩
    rcases List.mem_cons.1 hso with rfl | hso
    · exact h3
    · exact h6 so hso

/-- Whatever is observed, the sizes are right. -/
theorem EstimatorOps.Works.sized {ops : EstimatorOps σ} {I : σ → Prop} {names outNames : List Name} (hw : ops.Works I names outNames)
    (hfin : ∀ u y e r, ops.step e u y = .ok r → ∃ t i T v : ℝ, u = ⟨.fin t, .fin i, .fin T⟩ ∧ y = ⟨.fin v⟩) {e : σ} (he : I e) :
    ops.Sized e names.length outNames.length := by
  intro rows outs e' ho
  induction ho with
  | nil => nofun
  | cons hrow hstep _ ih =>
    obtain ⟨t, i, T, v, rfl, rfl⟩ := hfin _ _ _ _ hstep
    obtain ⟨e1, s, o, h1, h2, h3⟩ := (hw _ he).2.2.2 t i T v
    cases h1.symm.trans hstep
    intro so hso
    rcases List.mem_cons.1 hso with rfl | hso
    · exact h3
    · exact ih h2 so hso

/-- What a loop does, from what is observed and what the writer does. -/
theorem runLoop_of {ops : EstimatorOps σ} {nS nO : Nat} {rows : List Row} {e e' : σ} {outs : List (Gaussian × Gaussian)}
    (ho : Observes ops e rows outs e') (hd : ∀ so ∈ outs, so.1.Proper ∧ so.1.mean.n = nS ∧ so.2.Proper ∧ so.2.mean.n = nO) :
    (∃ lines, runLoop ops (some (nS, nO)) e none rows = .ok (e', none, lines) ∧ lines.length = rows.length) ∧
    ∀ (w w' : Writer) (ss : List Step), stepsOf rows outs ss → w.appendAll ss = (w', none) →
      ∃ lines, runLoop ops (some (nS, nO)) e (some w) rows = .ok (e', some w', lines) ∧ lines.length = rows.length := by
  induction ho with
  | nil e =>
    refine ⟨⟨[], rfl, rfl⟩, fun w w' ss hss happ => ?_⟩
    cases hss
    obtain ⟨rfl, -⟩ := Prod.mk.inj happ
    exact ⟨[], rfl, rfl⟩
  | @cons e e1 e2 row u y s o rest outs hrow hstep _ ih =>
    obtain ⟨ih1, ih2⟩ := ih fun so hso => hd so (List.mem_cons_of_mem _ hso)
    obtain ⟨d1, d2, d3, d4⟩ := hd _ List.mem_cons_self
    have hline := tableRow_ok d1 d2 d3 d4
    dsimp only at hline
    refine ⟨?_, fun w w' ss hss happ => ?_⟩
    · obtain ⟨lines, h1, h2⟩ := ih1
      refine ⟨lineOf s o :: lines, ?_, by simp [h2]⟩
      simp only [runLoop, hrow, hstep, lineFor, hline, storeRow, h1, ok_bind, pure_eq_ok]
    · cases hss with
      | @cons _ st _ ss hs hss =>
        obtain ⟨k1, k2, k3⟩ := hs
        dsimp only at k1 k2 k3
        obtain ⟨rfl, rfl⟩ := Prod.mk.inj k3
        unfold appendAll at happ
        split at happ
        · exact absurd (Prod.mk.inj happ).2 (by simp)
        · next w1 h1 =>
          obtain ⟨lines, h2, h3⟩ := ih2 w1 w' ss hss happ
          refine ⟨lineOf st.state st.output :: lines, ?_, by simp [h3]⟩
          simp only [runLoop, hrow, hstep, lineFor, hline, storeRow, k1, k2, h1, h2, ok_bind, pure_eq_ok]

theorem makeTable_of {info : EstimatorInfo} {n : Nat} {lines : List (List ℝ)} {names outNames : List Name}
    (h1 : info.stateNames = .ok names) (h2 : info.outputNames = outNames) (hl : lines.length ≤ n) :
    ∃ table, makeTable info n lines (some (names.length, outNames.length)) = .ok (some table) ∧ table.rows.length = n := by
  have hc : ¬ (tableColumns names outNames).length ≠ names.length + names.length + outNames.length + outNames.length := by
    simp [tableColumns]
    omega
  refine ⟨⟨tableColumns names outNames, lines ++ List.replicate (n - lines.length)
    (List.replicate (names.length + names.length + outNames.length + outNames.length) 0)⟩, ?_, ?_⟩
  · unfold makeTable
    dsimp only
    rw [h1, ok_bind, h2, if_neg hc]
    rfl
  · simp
    omega

/-- The estimator has the given names, and outputs of one value each. -/
def EstimatorOps.Named (ops : EstimatorOps σ) (e : σ) (names outNames : List Name) : Prop :=
  (ops.info e).stateNames = .ok names ∧ (ops.info e).outputNames = outNames ∧ (ops.info e).nOutputs = outNames.length

/-- A run in which the rows after the first are observed. -/
theorem run_observed (chunkOf : List Nat → Nat) {ops : EstimatorOps σ} {names outNames : List Name} {e e' : σ} {first : Row} {rest : List Row}
    {outs : List (Gaussian × Gaussian)} {data : Data} (hrows : data.rows = .ok (first :: rest)) (hf : first.Finite)
    (ho : Observes ops e rest outs e') (hd : ∀ so ∈ outs, so.1.Proper ∧ so.1.mean.n = names.length ∧ so.2.Proper ∧ so.2.mean.n = outNames.length)
    (he : ops.Named e names outNames) (he' : ops.Named e' names outNames) :
    ∃ table u, runOnline chunkOf ops data e true none = .ok (some table, e', u, none) ∧ table.rows.length = (first :: rest).length := by
  obtain ⟨t, i, T, v, h1⟩ := hf.inputs
  obtain ⟨⟨lines, h5, h6⟩, -⟩ := runLoop_of ho hd
  obtain ⟨n1, -, n3⟩ := he
  obtain ⟨m1, m2, -⟩ := he'
  obtain ⟨table, h7, h8⟩ := makeTable_of (n := rest.length + 1) m1 m2 (by omega : lines.length ≤ _)
  refine ⟨table, ⟨.fin t, .fin i, .fin T⟩, ?_, h8⟩
  simp only [runOnline, hrows, h1, dimsOf, n1, n3, openWriter, h5, h7, ok_bind, pure_eq_ok]
  rfl

theorem EstimatorOps.Works.named {ops : EstimatorOps σ} {I : σ → Prop} {names outNames : List Name} (hw : ops.Works I names outNames) {e : σ}
    (he : I e) : ops.Named e names outNames :=
  let ⟨h1, h2, h3, _⟩ := hw e he
  ⟨h1, h2, h3⟩

/-- C79.  A run over any non-empty dataset of finite rows with an estimator that works succeeds, leaves an estimator that works, and returns
a table with one row per row of the dataset. -/
theorem C79_run_succeeds (chunkOf : List Nat → Nat) (ops : EstimatorOps σ) (I : σ → Prop) (names outNames : List Name)
    (hw : ops.Works I names outNames) (e : σ) (he : I e) (data : Data) (rows : List Row) (hrows : data.rows = .ok rows) (hne : rows ≠ [])
    (hf : ∀ r ∈ rows, r.Finite) :
    ∃ table e' u, runOnline chunkOf ops data e true none = .ok (some table, e', u, none) ∧ I e' ∧ table.rows.length = rows.length := by
  cases rows with
  | nil => exact absurd rfl hne
  | cons first rest =>
    obtain ⟨outs, e', h2, h3, h4⟩ := hw.observes (fun r hr => hf r (List.mem_cons_of_mem _ hr)) he
    obtain ⟨table, u, h5, h6⟩ := run_observed chunkOf hrows (hf first List.mem_cons_self) h2 h4 (hw.named he) (hw.named h3)
    exact ⟨table, e', u, h5, h3, h6⟩

/-- C79.  Without anything to run over, whatever the estimator and the outputs asked for, the run raises before the estimator takes any
step: ValueError for a dataset without time series, StopIteration for one without rows, KeyError for one whose first row has no time, no
current or no voltage. -/
theorem C79_nothing_to_run_over (chunkOf : List Nat → Nat) (ops : EstimatorOps σ) (e : σ) (outputStates : Bool) (writer : Option Writer) :
    runOnline chunkOf ops (.memory none) e outputStates writer = .error .valueError ∧
    (∀ cols, runOnline chunkOf ops (.memory (some (cols, []))) e outputStates writer = .error .stopIteration) ∧
    runOnline chunkOf ops (.file []) e outputStates writer = .error .stopIteration ∧
    ∀ (first : Row) (rest : List Row),
      (lookupKey "test_time".toList first = none ∨ lookupKey "current".toList first = none ∨ lookupKey "voltage".toList first = none) →
      runOnline chunkOf ops (.file (first :: rest)) e outputStates writer = .error .keyError ∧
      ∀ cols vals more, first = cols.zip vals →
        runOnline chunkOf ops (.memory (some (cols, vals :: more))) e outputStates writer = .error .keyError := by
  refine ⟨rfl, fun _ => rfl, rfl, fun first rest h => ?_⟩
  have hr : rowToInputs first = .error .keyError := (C62_missing_columns first _ _).2 ⟨rfl, h⟩
  refine ⟨?_, ?_⟩
  · simp only [runOnline, Data.rows, bind, Except.bind, hr]
  · rintro cols vals more rfl
    simp only [runOnline, Data.rows, bind, Except.bind, List.map_cons, hr]

/-- A first row without a voltage. -/
example (chunkOf : List Nat → Nat) (ops : EstimatorOps σ) (e : σ) :
    runOnline chunkOf ops (.file [[("test_time".toList, .fin 0), ("current".toList, .fin 1)]]) e true none = .error .keyError :=
  ((C79_nothing_to_run_over chunkOf ops e true none).2.2.2 _ [] (.inr (.inr rfl))).1

theorem container3 (t i T : ℝ) : ∃ c v, CellInput.container ⟨.fin t, .fin i, .fin T⟩ = .ok c ∧ c.toNumpy = .ok v ∧ v.flat.n = 3 :=
  ⟨_, _, rfl, rfl, rfl⟩

theorem container1 (x : ℝ) : ∃ c v, CellMeasurement.container ⟨.fin x⟩ = .ok c ∧ c.toNumpy = .ok v ∧ v.flat.n = 1 :=
  ⟨_, _, rfl, rfl, rfl⟩

/-- Healthy joint estimators work, if there are as many names as values. -/
theorem Joint.works (svd : Mat → Vec × Mat) (base : Online) {n : Nat} {U : Vec → Prop} {names : List Name} (hn : base.stateNames = .ok names)
    (hlen : names.length = n) (ho : base.nOutputs = 1) (hon : base.outputNames.length = 1) :
    (Joint.ops svd).Works (fun e => e.Healthy n 1 3 U ∧ e.base = base) names base.outputNames := by
  rintro e ⟨he, rfl⟩
  refine ⟨hn, rfl, ho.trans hon.symm, fun t i T v => ?_⟩
  obtain ⟨c, cv, c1, c2, c3⟩ := container3 t i T
  obtain ⟨y, yv, y1, y2, y3⟩ := container1 v
  obtain ⟨e', s, o, h1, h2, h3, -, ⟨m, C, rfl, -⟩, ⟨m', C', rfl, -⟩⟩ := he.step le_rfl svd c y ⟨cv, c2, c3⟩ ⟨yv, y2, y3⟩
  obtain ⟨_, _, _, _, hH, -⟩ := he.filter
  refine ⟨e', ⟨⟨n, m⟩, ⟨n, n, C⟩⟩, ⟨⟨1, m'⟩, ⟨1, 1, C'⟩⟩, ?_, ⟨h2, h3⟩, ⟨hH.n_pos, rfl, rfl⟩, hlen.symm, ⟨le_rfl, rfl, rfl⟩, hon.symm⟩
  simp only [Joint.ops, c1, y1, ok_bind, h1]

/-- Healthy dual estimators work, if there are as many names as values. -/
theorem Dual.works (svd : Mat → Vec × Mat) (base : Online) {nT nA : Nat} {UT UA : Vec → Prop} {IT IA} {names : List Name}
    (hn : base.stateNames = .ok names) (hlen : names.length = nT + nA) (ho : base.nOutputs = 1) (hon : base.outputNames.length = 1) :
    (Dual.ops svd).Works (fun e => e.Healthy nT nA 1 3 UT UA IT IA ∧ e.base = base) names base.outputNames := by
  rintro e ⟨he, rfl⟩
  refine ⟨hn, rfl, ho.trans hon.symm, fun t i T v => ?_⟩
  obtain ⟨c, cv, c1, c2, c3⟩ := container3 t i T
  obtain ⟨y, yv, y1, y2, y3⟩ := container1 v
  obtain ⟨e', s, o, h1, h2, ⟨m, C, rfl, -⟩, ⟨m', C', rfl, -⟩⟩ := he.step le_rfl svd c y ⟨cv, c2, c3⟩ ⟨yv, y2, y3⟩
  obtain ⟨_, _, _, _, hH, -⟩ := he.filterT
  have h3 : e'.base = e.base := by
    obtain ⟨_, _, _, _, _, _, _, _, _, _, _, _, _, -, -, -, -, -, -, -, -, -, -, -, -, -, -, rfl⟩ := Dual.step_ok h1
    rfl
  have hpos := hH.n_pos
  refine ⟨e', ⟨⟨nT + nA, m⟩, ⟨nT + nA, nT + nA, C⟩⟩, ⟨⟨1, m'⟩, ⟨1, 1, C'⟩⟩, ?_, ⟨h2, h3⟩, ⟨show 1 ≤ nT + nA by omega, rfl, rfl⟩, hlen.symm,
    ⟨le_rfl, rfl, rfl⟩, hon.symm⟩
  simp only [Dual.ops, c1, y1, ok_bind, h1]

/-- C79 for joint estimators of one output. -/
theorem C79_joint_run_succeeds (chunkOf : List Nat → Nat) (svd : Mat → Vec × Mat) (e : Joint) {n : Nat} {U : Vec → Prop} (he : e.Healthy n 1 3 U)
    (names : List Name) (hn : e.base.stateNames = .ok names) (hlen : names.length = n) (ho : e.base.nOutputs = 1)
    (hon : e.base.outputNames.length = 1) (data : Data) (rows : List Row) (hrows : data.rows = .ok rows) (hne : rows ≠ [])
    (hf : ∀ r ∈ rows, r.Finite) :
    ∃ table e' u, runOnline chunkOf (Joint.ops svd) data e true none = .ok (some table, e', u, none) ∧ table.rows.length = rows.length := by
  obtain ⟨table, e', u, h1, -, h2⟩ := C79_run_succeeds chunkOf (Joint.ops svd) _ names _ (Joint.works svd e.base (U := U) hn hlen ho hon) e
    ⟨he, rfl⟩ data rows hrows hne hf
  exact ⟨table, e', u, h1, h2⟩

/-- C79 for dual estimators of one output. -/
theorem C79_dual_run_succeeds (chunkOf : List Nat → Nat) (svd : Mat → Vec × Mat) (e : Dual) {nT nA : Nat} {UT UA : Vec → Prop} {IT IA}
    (he : e.Healthy nT nA 1 3 UT UA IT IA) (names : List Name) (hn : e.base.stateNames = .ok names) (hlen : names.length = nT + nA)
    (ho : e.base.nOutputs = 1) (hon : e.base.outputNames.length = 1) (data : Data) (rows : List Row) (hrows : data.rows = .ok rows)
    (hne : rows ≠ []) (hf : ∀ r ∈ rows, r.Finite) :
    ∃ table e' u, runOnline chunkOf (Dual.ops svd) data e true none = .ok (some table, e', u, none) ∧ table.rows.length = rows.length := by
  obtain ⟨table, e', u, h1, -, h2⟩ := C79_run_succeeds chunkOf (Dual.ops svd) _ names _ (Dual.works svd e.base (UT := UT) (UA := UA) (IT := IT) (IA := IA)
    hn hlen ho hon) e ⟨he, rfl⟩ data rows hrows hne hf
  exact ⟨table, e', u, h1, h2⟩

/-! ## Storing -/

/-- C80 fails for dual estimators: their `state` cannot be had (C58), so that with a writer every run raises. -/
theorem C80_dual_never_stored (chunkOf : List Nat → Nat) (svd : Mat → Vec × Mat) (e : Dual) (data : Data) (out : Bool) (w : Writer) :
    ∃ err, runOnline chunkOf (Dual.ops svd) data e out (some w) = .error err := by
  cases h : runOnline chunkOf (Dual.ops svd) data e out (some w) with
  | error err => exact ⟨err, rfl⟩
  | ok r =>
    exfalso
    obtain ⟨t, e', u, w'⟩ := r
    obtain ⟨first, rest, y, dims, w1, w2, lines, -, -, -, h4, -⟩ := runOnline_ok h
    unfold openWriter at h4
    dsimp only at h4
    split at h4
    · next w3 h3 =>
      obtain ⟨state, hp⟩ := prepare_ok (hasGroup_enter w) h3
      obtain ⟨err, he⟩ := (C58_state_always_raises e).1
      exact absurd (hp.hstate.symm.trans (show ((Dual.ops svd).info e).state = .error err from he)) (by simp)
    · cases h4

/-- Preparing a file without estimates succeeds if the sizes are known or not needed and the estimator has names and a state. -/
theorem prepare_succeeds (chunkOf : List Nat → Nat) (w : Writer) (hfresh : lookupKey w.storageKey w.root = none) (info : EstimatorInfo)
    (names : List Name) (hn : info.stateNames = .ok names) (g : Gaussian) (hg : info.state = .ok g) (steps cycles : Option Nat)
    (hs : w.resizable = true ∨ (steps.isSome ∧ cycles.isSome)) : ∃ w', w.enter.prepare chunkOf info steps cycles = (w', none) := by
  have hgrp : w.enter.group = .empty := by
    unfold group enter
    dsimp only
    rw [hfresh]
    have : ∀ l : List (Name × Estimates), lookupKey w.storageKey l = none → lookupKey w.storageKey (l ++ [(w.storageKey, .empty)]) = some .empty := by
      intro l
      induction l with
      | nil => intro _; simp [lookupKey]
      | cons p l ih =>
        intro h
        unfold lookupKey at h
        split_ifs at h with hp
        simp only [List.cons_append]
        unfold lookupKey
        rw [if_neg hp]
        exact ih h
    rw [if_neg (by simp), this _ hfresh]
    rfl
  have hat : ∀ (e : Estimates) (what : OutputType) (wh : Where) (ex : Option Nat) (o : Gaussian), e.get wh = none →
      ∃ e', prepareAt chunkOf w.enter.resizable g o e what wh ex = (e', none) ∧ ∀ wh', wh' ≠ wh → e'.get wh' = e.get wh' := by
    intro e what wh ex o he
    unfold prepareAt
    by_cases hw : what = .none
    · rw [if_pos hw]
      exact ⟨e, rfl, fun _ _ => rfl⟩
    · rw [if_neg hw, entries_ok hw ⟨.fin 0, .fin 0, g, o⟩]
      dsimp only
      rw [he, if_neg (by simp)]
      exact ⟨_, rfl, fun wh' h => get_set_ne _ _ h⟩
  unfold prepare
  rw [if_neg (by simp [enter]), if_neg (by
    rcases hs with hs | ⟨h1, h2⟩
    · simp [enter, hs]
    · cases steps <;> cases cycles <;> simp_all), hn, hg, hgrp]
  dsimp only
  obtain ⟨e1, h1, h1'⟩ := hat { Estimates.empty with settings := some (w.enter.perTimestep, w.enter.perCycle), stateNames := some names, outputNames := some info.outputNames, distType := some "MultivariateGaussian".toList } w.enter.perTimestep .timestep steps ⟨.zeros info.nOutputs, .zeros info.nOutputs info.nOutputs⟩ rfl
  obtain ⟨e2, h2, -⟩ := hat e1 w.enter.perCycle .cycle cycles ⟨.zeros info.nOutputs, .zeros info.nOutputs info.nOutputs⟩ (by rw [h1' _ (by decide)]; rfl)
  rw [h1]
  dsimp only
  rw [h2]
  exact ⟨_, rfl⟩

theorem stepsOf_exists {rows : List Row} (hf : ∀ r ∈ rows, r.Finite)
    (hc : ∀ r ∈ rows, ∃ c : ℕ, lookupKey "cycle_number".toList r = some (.fin (c : ℝ))) :
    ∀ {outs : List (Gaussian × Gaussian)}, outs.length = rows.length → ∃ ss, stepsOf rows outs ss ∧
      List.Forall₂ (fun row s => lookupKey "cycle_number".toList row = some s.cycle) rows ss ∧
      ∀ s ∈ ss, s.time ≠ .nan ∧ (∃ c : ℕ, s.cycle = .fin (c : ℝ)) ∧ (s.state, s.output) ∈ outs := by
  induction rows with
  | nil => exact fun _ => ⟨[], .nil, .nil, nofun⟩
  | cons row rest ih =>
    intro outs hl
    cases outs with
    | nil => cases hl
    | cons so outs =>
      obtain ⟨ss, h1, h2, h3⟩ := ih (fun r hr => hf r (List.mem_cons_of_mem _ hr)) (fun r hr => hc r (List.mem_cons_of_mem _ hr))
        (outs := outs) (by simpa using hl)
      obtain ⟨t, i, v, ht, -, -⟩ := hf row List.mem_cons_self
      obtain ⟨c, hcy⟩ := hc row List.mem_cons_self
      refine ⟨⟨.fin t, .fin c, so.1, so.2⟩ :: ss, .cons ⟨Row.get_ok.2 ht, Row.get_ok.2 hcy, rfl⟩ h1, .cons hcy h2, fun s hs => ?_⟩
      rcases List.mem_cons.1 hs with rfl | hs
      · exact ⟨nofun, ⟨c, rfl⟩, List.mem_cons_self⟩
      · obtain ⟨a, b, d⟩ := h3 s hs
        exact ⟨a, b, List.mem_cons_of_mem _ d⟩

/-- A run that is stored in a fresh file, if the rows after the first are observed, the estimator has a state, and the cycle numbers fit. -/
theorem run_stored_observed (chunkOf : List Nat → Nat) (hchunk : ∀ l, 1 ≤ chunkOf l) {ops : EstimatorOps σ} {names outNames : List Name}
    {e e' : σ} {first : Row} {rest : List Row} {outs : List (Gaussian × Gaussian)} {data : Data} (hrows : data.rows = .ok (first :: rest))
    (hf : ∀ r ∈ first :: rest, r.Finite) (h2 : Observes ops e rest outs e')
    (h4 : ∀ so ∈ outs, so.1.Proper ∧ so.1.mean.n = names.length ∧ so.2.Proper ∧ so.2.mean.n = outNames.length)
    (he : ops.Named e names outNames) (he' : ops.Named e' names outNames) (g : Gaussian) (hg : (ops.info e).state = .ok g) (hgp : g.Proper)
    (hgn : g.mean.n = names.length)
    (hc : ∀ r ∈ first :: rest, ∃ c : ℕ, lookupKey "cycle_number".toList r = some (.fin (c : ℝ)))
    (w : Writer) (hfresh : lookupKey w.storageKey w.root = none) (hsize : w.resizable = true ∨ data.numCycles.isSome)
    (hfit : ∀ ss, List.Forall₂ (fun row s => lookupKey "cycle_number".toList row = some s.cycle) rest ss → CyclesFit data.numCycles ss) :
    ∃ table u w', runOnline chunkOf ops data e true (some w) = .ok (some table, e', u, some w') ∧ table.rows.length = (first :: rest).length := by
  obtain ⟨t, i, T, v, h1⟩ := (hf first List.mem_cons_self).inputs
  have hf' : ∀ r ∈ rest, r.Finite := fun r hr => hf r (List.mem_cons_of_mem _ hr)
  have hlen : ∀ {e e' : σ} {rows : List Row} {outs}, Observes ops e rows outs e' → outs.length = rows.length := by
    intro e e' rows outs h
    induction h with
    | nil => rfl
    | cons _ _ _ ih => simp [ih]
  have hl := hlen h2
  obtain ⟨ss, s1, s2, s3⟩ := stepsOf_exists hf' (fun r hr => hc r (List.mem_cons_of_mem _ hr)) hl
  obtain ⟨n1, -, n3⟩ := he
  obtain ⟨w1, hp⟩ := prepare_succeeds chunkOf w hfresh (ops.info e) names n1 g hg (some (rest.length + 1)) data.numCycles
    (hsize.imp_right fun h => ⟨rfl, h⟩)
  have hsl : ss.length = rest.length := s2.length_eq.symm
  obtain ⟨w2, happ⟩ := C68_appends_succeed_partial chunkOf hchunk w w1 (ops.info e) g hg hgp _ _ hp ss
    (fun s hs => by
      obtain ⟨a, b, c, d⟩ := h4 _ (s3 s hs).2.2
      exact ⟨a, c, b.trans hgn.symm, d.trans n3.symm⟩)
    (fun s hs => (s3 s hs).1) (fun s hs => (s3 s hs).2.1) (fun _ N hN => by cases hN; omega) (fun _ => hfit ss s2)
  obtain ⟨-, h5⟩ := runLoop_of h2 h4
  obtain ⟨lines, h5, h6⟩ := h5 w1 w2 ss s1 happ
  obtain ⟨m1, m2, -⟩ := he'
  obtain ⟨table, h7, h8⟩ := makeTable_of (n := rest.length + 1) m1 m2 (by omega : lines.length ≤ _)
  refine ⟨table, ⟨.fin t, .fin i, .fin T⟩, w2.exit, ?_, h8⟩
  have hopen : openWriter chunkOf (ops.info e) (rest.length + 1) data.numCycles (some w) = .ok (some w1) := by
    unfold openWriter
    dsimp only
    rw [hp]
  simp only [runOnline, hrows, h1, dimsOf, n1, n3, hopen, h5, h7, ok_bind, pure_eq_ok]
  rfl

/-- A run that is stored in a fresh file, if the estimator works and has a state, and the cycle numbers fit. -/
theorem run_stored (chunkOf : List Nat → Nat) (hchunk : ∀ l, 1 ≤ chunkOf l) (ops : EstimatorOps σ) (I : σ → Prop) (names outNames : List Name)
    (hw : ops.Works I names outNames) (e : σ) (he : I e) (g : Gaussian) (hg : (ops.info e).state = .ok g) (hgp : g.Proper)
    (hgn : g.mean.n = names.length) (data : Data) (rows : List Row) (hrows : data.rows = .ok rows) (hne : rows ≠ [])
    (hf : ∀ r ∈ rows, r.Finite) (hc : ∀ r ∈ rows, ∃ c : ℕ, lookupKey "cycle_number".toList r = some (.fin (c : ℝ)))
    (w : Writer) (hfresh : lookupKey w.storageKey w.root = none) (hsize : w.resizable = true ∨ data.numCycles.isSome)
    (hfit : ∀ ss, List.Forall₂ (fun row s => lookupKey "cycle_number".toList row = some s.cycle) rows.tail ss → CyclesFit data.numCycles ss) :
    ∃ table e' u w', runOnline chunkOf ops data e true (some w) = .ok (some table, e', u, some w') ∧ table.rows.length = rows.length := by
  cases rows with
  | nil => exact absurd rfl hne
  | cons first rest =>
    obtain ⟨outs, e', h2, h3, h4⟩ := hw.observes (fun r hr => hf r (List.mem_cons_of_mem _ hr)) he
    obtain ⟨table, u, w', h5, h6⟩ := run_stored_observed chunkOf hchunk hrows hf h2 h4 (hw.named he) (hw.named h3) g hg hgp hgn hc w hfresh hsize hfit
    exact ⟨table, e', u, w', h5, h6⟩

theorem le_foldl_max (l : List Nat) : ∀ a, a ≤ l.foldl max a ∧ ∀ x ∈ l, x ≤ l.foldl max a := by
  induction l with
  | nil => exact fun a => ⟨le_rfl, nofun⟩
  | cons y l ih =>
    intro a
    obtain ⟨h1, h2⟩ := ih (max a y)
    refine ⟨(le_max_left a y).trans h1, fun x hx => ?_⟩
    rcases List.mem_cons.1 hx with rfl | hx
    · exact (le_max_right a x).trans h1
    · exact h2 x hx

theorem forall₂_split {α β : Type} {r : α → β → Prop} {l : List α} {pre : List β} {x : β} {post : List β}
    (h : List.Forall₂ r l (pre ++ x :: post)) : ∃ p y q, l = p ++ y :: q ∧ List.Forall₂ r p pre ∧ r y x := by
  induction pre generalizing l with
  | nil =>
    cases h with
    | cons h1 h2 => exact ⟨[], _, _, rfl, .nil, h1⟩
  | cons z pre ih =>
    cases h with
    | cons h1 h2 =>
      obtain ⟨p, y, q, rfl, h3, h4⟩ := ih h2
      exact ⟨_ :: p, y, q, rfl, .cons h1 h3, h4⟩

/-- In memory the number of cycles is found from the data. -/
theorem memory_fits {cols : List Name} {raw : List (List Num)} (ss : List Step)
    (hss : List.Forall₂ (fun (row : Row) (s : Step) => lookupKey "cycle_number".toList row = some s.cycle) (raw.map fun r => cols.zip r).tail ss) :
    CyclesFit (Data.numCycles (.memory (some (cols, raw)))) ss := by
  intro s hs c hsc
  obtain ⟨pre, post, rfl⟩ := List.append_of_mem hs
  obtain ⟨p, row, q, hpq, -, h3⟩ := forall₂_split hss
  have hrow : row ∈ raw.map (fun r => cols.zip r) := List.mem_of_mem_tail (by rw [hpq]; simp)
  obtain ⟨x, hx, rfl⟩ := List.mem_map.1 hrow
  refine lt_of_lt_of_le (Nat.lt_succ_self c) ((le_foldl_max _ 0).2 _ (List.mem_map.2 ⟨x, hx, ?_⟩))
  rw [h3, hsc]
  simp

/-- In a file the cycle numbers fit if they do not run ahead. -/
theorem file_fits {first : Row} {rest : List Row}
    (hgr : ∀ pre row post, rest = pre ++ row :: post → ∀ c : ℕ, lookupKey "cycle_number".toList row = some (.fin (c : ℝ)) →
      c < 128 ∨ ∃ row' ∈ pre, ∃ c' : ℕ, lookupKey "cycle_number".toList row' = some (.fin (c' : ℝ)) ∧ c ≤ c' + 1) (ss : List Step)
    (hss : List.Forall₂ (fun (row : Row) (s : Step) => lookupKey "cycle_number".toList row = some s.cycle) rest ss) :
    CyclesFit (Data.numCycles (.file (first :: rest))) ss := by
  rintro pre s post rfl c hsc
  obtain ⟨p, row, q, hpq, h2, h3⟩ := forall₂_split hss
  rw [hsc] at h3
  refine (hgr p row q hpq c h3).imp_right ?_
  rintro ⟨row', hr, c', h4, h5⟩
  obtain ⟨x, y, rfl⟩ := List.append_of_mem hr
  obtain ⟨p', s', q', rfl, -, h7⟩ := forall₂_split h2.flip
  have h7 : lookupKey "cycle_number".toList row' = some s'.cycle := h7
  rw [h4] at h7
  exact ⟨s', by simp, c', (Option.some.inj h7).symm, h5⟩

/-- C80 for joint estimators and datasets in memory: a run over rows with finite values and cycle numbers 0, 1, 2, … in any order is stored
in any file that holds no estimates under the writer's key.  Missing: dual estimators (`C80_dual_never_stored`). -/
theorem C80_joint_stored_partial (chunkOf : List Nat → Nat) (hchunk : ∀ l, 1 ≤ chunkOf l) (svd : Mat → Vec × Mat) (e : Joint) {n : Nat}
    {U : Vec → Prop} (he : e.Healthy n 1 3 U) (names : List Name) (hn : e.base.stateNames = .ok names) (hlen : names.length = n)
    (ho : e.base.nOutputs = 1) (hon : e.base.outputNames.length = 1) (cols : List Name) (raw : List (List Num)) (hne : raw ≠ [])
    (hf : ∀ r ∈ raw, Row.Finite (cols.zip r))
    (hc : ∀ r ∈ raw, ∃ c : ℕ, lookupKey "cycle_number".toList (cols.zip r) = some (.fin (c : ℝ)))
    (w : Writer) (hfresh : lookupKey w.storageKey w.root = none) :
    ∃ table e' u w', runOnline chunkOf (Joint.ops svd) (.memory (some (cols, raw))) e true (some w) = .ok (some table, e', u, some w') ∧
      table.rows.length = raw.length := by
  obtain ⟨μ, P, _, _, hH, -⟩ := he.filter
  have hst : ((Joint.ops svd).info e).state = .ok e.filter.hidden := rfl
  rw [hH.hidden] at hst
  have hmem : ∀ r, r ∈ raw.map (fun r => cols.zip r) ↔ ∃ x ∈ raw, cols.zip x = r := fun r => by simp
  obtain ⟨table, e', u, w', h1, h2⟩ := run_stored chunkOf hchunk (Joint.ops svd) _ names _ (Joint.works svd e.base (U := U) hn hlen ho hon) e
    ⟨he, rfl⟩ _ hst ⟨hH.n_pos, rfl, rfl⟩ hlen.symm (.memory (some (cols, raw))) _ rfl (by simpa using hne)
    (fun r hr => by obtain ⟨x, hx, rfl⟩ := (hmem r).1 hr; exact hf x hx)
    (fun r hr => by obtain ⟨x, hx, rfl⟩ := (hmem r).1 hr; exact hc x hx) w hfresh (.inr rfl) memory_fits
  exact ⟨table, e', u, w', h1, by simpa using h2⟩

/-- C80 for joint estimators and datasets in files, whose cycle numbers never run ahead (the number of cycles is not known beforehand), with
a resizable writer. -/
theorem C80_joint_stored_from_file_partial (chunkOf : List Nat → Nat) (hchunk : ∀ l, 1 ≤ chunkOf l) (svd : Mat → Vec × Mat) (e : Joint)
    {n : Nat} {U : Vec → Prop} (he : e.Healthy n 1 3 U) (names : List Name) (hn : e.base.stateNames = .ok names) (hlen : names.length = n)
    (ho : e.base.nOutputs = 1) (hon : e.base.outputNames.length = 1) (first : Row) (rest : List Row)
    (hf : ∀ r ∈ first :: rest, r.Finite) (hc : ∀ r ∈ first :: rest, ∃ c : ℕ, lookupKey "cycle_number".toList r = some (.fin (c : ℝ)))
    (hgr : ∀ pre row post, rest = pre ++ row :: post → ∀ c : ℕ, lookupKey "cycle_number".toList row = some (.fin (c : ℝ)) →
      c < 128 ∨ ∃ row' ∈ pre, ∃ c' : ℕ, lookupKey "cycle_number".toList row' = some (.fin (c' : ℝ)) ∧ c ≤ c' + 1)
    (w : Writer) (hfresh : lookupKey w.storageKey w.root = none) (hres : w.resizable = true) :
    ∃ table e' u w', runOnline chunkOf (Joint.ops svd) (.file (first :: rest)) e true (some w) = .ok (some table, e', u, some w') ∧
      table.rows.length = (first :: rest).length := by
  obtain ⟨μ, P, _, _, hH, -⟩ := he.filter
  have hst : ((Joint.ops svd).info e).state = .ok e.filter.hidden := rfl
  rw [hH.hidden] at hst
  exact run_stored chunkOf hchunk (Joint.ops svd) _ names _ (Joint.works svd e.base (U := U) hn hlen ho hon) e
    ⟨he, rfl⟩ _ hst ⟨hH.n_pos, rfl, rfl⟩ hlen.symm (.file (first :: rest)) _ rfl (by simp) hf hc w hfresh (.inl hres) (file_fits hgr)

/-- C80 also fails for datasets in files with a writer that cannot resize: the number of cycles is not known. -/
theorem C80_file_needs_resizable (chunkOf : List Nat → Nat) (ops : EstimatorOps σ) (e : σ) (rows : List Row) (out : Bool) (w : Writer)
    (hres : w.resizable = false) : ∃ err, runOnline chunkOf ops (.file rows) e out (some w) = .error err := by
  cases h : runOnline chunkOf ops (.file rows) e out (some w) with
  | error err => exact ⟨err, rfl⟩
  | ok r =>
    exfalso
    obtain ⟨t, e', u, w'⟩ := r
    obtain ⟨first, rest, y, dims, w1, w2, lines, -, -, -, h4, -⟩ := runOnline_ok h
    unfold openWriter at h4
    dsimp only at h4
    rw [C69_sizes_needed chunkOf w.enter hres _ _ (Data.file rows).numCycles (.inr rfl)] at h4
    cases h4

/-! ## The estimates of healthy estimators have the sizes their names tell -/

theorem container_finite {u : CellInput} {y : CellMeasurement} {c c' : Container ℝ} (h : u.container = .ok c) (h' : y.container = .ok c') :
    ∃ t i T v : ℝ, u = ⟨.fin t, .fin i, .fin T⟩ ∧ y = ⟨.fin v⟩ := by
  have harr : ∀ {x : Num} {a : Arr2 ℝ}, x.arr2 = .ok a → ∃ r : ℝ, x = .fin r := by
    intro x a hx
    cases x with
    | fin r => exact ⟨r, rfl⟩
    | _ => cases hx
  obtain ⟨t, i, T⟩ := u
  obtain ⟨v⟩ := y
  simp only [CellInput.container, CellMeasurement.container, bind_eq_ok_iff] at h h'
  obtain ⟨_, h1, _, h2, _, h3, -⟩ := h
  obtain ⟨_, h4, -⟩ := h'
  obtain ⟨_, rfl⟩ := harr h1
  obtain ⟨_, rfl⟩ := harr h2
  obtain ⟨_, rfl⟩ := harr h3
  obtain ⟨_, rfl⟩ := harr h4
  exact ⟨_, _, _, _, rfl, rfl⟩

theorem Joint.sized (svd : Mat → Vec × Mat) (e : Joint) {n : Nat} {U : Vec → Prop} (he : e.Healthy n 1 3 U) {names : List Name}
    (hn : e.base.stateNames = .ok names) (hlen : names.length = n) (ho : e.base.nOutputs = 1) (hon : e.base.outputNames.length = 1) :
    (Joint.ops svd).Sized e names.length ((Joint.ops svd).info e).nOutputs := by
  have := (Joint.works svd e.base (U := U) hn hlen ho hon).sized (fun u y E r h => by
    simp only [Joint.ops, bind_eq_ok_iff] at h
    obtain ⟨_, h1, _, h2, -⟩ := h
    exact container_finite h1 h2) ⟨he, rfl⟩
  rwa [hon, ← ho] at this

theorem Dual.sized (svd : Mat → Vec × Mat) (e : Dual) {nT nA : Nat} {UT UA : Vec → Prop} {IT IA} (he : e.Healthy nT nA 1 3 UT UA IT IA)
    {names : List Name} (hn : e.base.stateNames = .ok names) (hlen : names.length = nT + nA) (ho : e.base.nOutputs = 1)
    (hon : e.base.outputNames.length = 1) : (Dual.ops svd).Sized e names.length ((Dual.ops svd).info e).nOutputs := by
  have := (Dual.works svd e.base (UT := UT) (UA := UA) (IT := IT) (IA := IA) hn hlen ho hon).sized (fun u y E r h => by
    simp only [Dual.ops, bind_eq_ok_iff] at h
    obtain ⟨_, h1, _, h2, -⟩ := h
    exact container_finite h1 h2) ⟨he, rfl⟩
  rwa [hon, ← ho] at this

/-! ## Concrete runs -/

theorem Joint.fromWrapper_base {w : JointWrapper} {cov : Mat ⊕ (Mat × Mat)} {uc q t a r : Option Mat} {tune : Tuning} {E : Joint}
    (h : Joint.fromWrapper w cov uc q t a r tune = .ok E) :
    Online.make w.cell w.asoh w.transients w.inputs w.names = .ok E.base := by
  simp only [Joint.fromWrapper, bind_eq_ok_iff] at h
  obtain ⟨_, -, _, -, _, -, _, -, _, -, _, -, _, -, _, -, _, -, h⟩ := h
  simp only [Joint.make, bind_eq_ok_iff, pure_eq_ok, Except.ok.injEq] at h
  obtain ⟨o, h1, rfl⟩ := h
  exact h1

namespace Demo

/-- A row: time, current, voltage and number of the cycle. -/
def reading (x : ℝ × ℝ × ℝ × ℕ) : List Num := [.fin x.1, .fin x.2.1, .fin x.2.2.1, .fin x.2.2.2]

def readingCols : List Name := ["test_time".toList, "current".toList, "voltage".toList, "cycle_number".toList]

theorem reading_finite (x : ℝ × ℝ × ℝ × ℕ) : Row.Finite (readingCols.zip (reading x)) := ⟨x.1, x.2.1, x.2.2.1, rfl, rfl, rfl⟩

theorem reading_cycle (x : ℝ × ℝ × ℝ × ℕ) : lookupKey "cycle_number".toList (readingCols.zip (reading x)) = some (.fin (x.2.2.2 : ℝ)) := rfl

/-- A dataset in memory. -/
def dataset (xs : List (ℝ × ℝ × ℝ × ℕ)) : Data := .memory (some (readingCols, xs.map reading))

/-- A dataset in a file. -/
def datafile (xs : List (ℝ × ℝ × ℝ × ℕ)) : Data := .file (xs.map fun x => readingCols.zip (reading x))

theorem dataset_rows (xs : List (ℝ × ℝ × ℝ × ℕ)) : (dataset xs).rows = .ok (xs.map fun x => readingCols.zip (reading x)) := by
  simp [dataset, Data.rows]

theorem joint_names {o : Online} (h : Online.make (joint .identity).cell (joint .identity).asoh (joint .identity).transients
    (joint .identity).inputs (joint .identity).names = .ok o) :
    o.stateNames = .ok [['x'], ['q']] ∧ o.nOutputs = 1 ∧ o.outputNames.length = 1 := by
  have := Except.ok.inj h
  rw [← this]
  exact ⟨rfl, rfl, rfl⟩

theorem sum_names {o : Online} (h : Online.make sumCellW.cell sumAsohW.asoh sumCellW.transients sumCellW.inputs sumAsohW.names = .ok o) :
    o.stateNames = .ok [['x'], ['q']] ∧ o.nOutputs = 1 ∧ o.outputNames.length = 1 := by
  have := Except.ok.inj h
  rw [← this]
  exact ⟨rfl, rfl, rfl⟩

end Demo

/-- Any dataset in memory, any writer on a file without estimates, and the joint estimator of the concrete cell: C79 and C80. -/
example (chunkOf : List Nat → Nat) (hchunk : ∀ l, 1 ≤ chunkOf l) (svd : Mat → Vec × Mat) (xs : List (ℝ × ℝ × ℝ × ℕ)) (hne : xs ≠ []) (w : Writer)
    (hw : lookupKey w.storageKey w.root = none) :
    ∃ E, Joint.fromWrapper (Demo.joint .identity) (.inl ⟨2, 2, 1⟩) none (some ⟨2, 2, 1⟩) none none (some ⟨1, 1, 1⟩) ⟨1, none, 2⟩ = .ok E ∧
      (∃ table E' u, runOnline chunkOf (Joint.ops svd) (Demo.dataset xs) E true none = .ok (some table, E', u, none) ∧
        table.rows.length = xs.length) ∧
      ∃ table E' u w', runOnline chunkOf (Joint.ops svd) (Demo.dataset xs) E true (some w) = .ok (some table, E', u, some w') ∧
        table.rows.length = xs.length := by
  obtain ⟨E, h1, -, h2⟩ := Demo.joint_healthy (fun _ => one_ne_zero) (identity_rescales 2)
  obtain ⟨n1, n2, n3⟩ := Demo.joint_names (Joint.fromWrapper_base h1)
  have hf : ∀ r ∈ xs.map Demo.reading, Row.Finite (Demo.readingCols.zip r) := by
    intro r hr
    obtain ⟨x, -, rfl⟩ := List.mem_map.1 hr
    exact Demo.reading_finite x
  have hc : ∀ r ∈ xs.map Demo.reading, ∃ c : ℕ, lookupKey "cycle_number".toList (Demo.readingCols.zip r) = some (.fin (c : ℝ)) := by
    intro r hr
    obtain ⟨x, -, rfl⟩ := List.mem_map.1 hr
    exact ⟨_, Demo.reading_cycle x⟩
  obtain ⟨table, E', u, a1, a2⟩ := C79_joint_run_succeeds chunkOf svd E (h2 3) _ n1 rfl n2 n3 (Demo.dataset xs) _ (Demo.dataset_rows xs)
    (by simpa using hne) (by
      intro r hr
      obtain ⟨x, -, rfl⟩ := List.mem_map.1 hr
      exact Demo.reading_finite x)
  obtain ⟨table', E'', u', w', b1, b2⟩ := C80_joint_stored_partial chunkOf hchunk svd E (h2 3) _ n1 rfl n2 n3 Demo.readingCols (xs.map Demo.reading)
    (by simpa using hne) hf hc w hw
  exact ⟨E, h1, ⟨table, E', u, a1, by simpa using a2⟩, table', E'', u', w', b1, by simpa using b2⟩

/-- The same with a file of two cycles. -/
example (chunkOf : List Nat → Nat) (hchunk : ∀ l, 1 ≤ chunkOf l) (svd : Mat → Vec × Mat) :
    ∃ E table E' u w', Joint.fromWrapper (Demo.joint .identity) (.inl ⟨2, 2, 1⟩) none (some ⟨2, 2, 1⟩) none none (some ⟨1, 1, 1⟩)
        ⟨1, none, 2⟩ = .ok E ∧
      runOnline chunkOf (Joint.ops svd) (Demo.datafile [(0, 1, 3, 0), (10, 1, 4, 0), (20, -1, 4, 1)]) E true (some Demo.writer1) =
        .ok (some table, E', u, some w') ∧ table.rows.length = 3 := by
  obtain ⟨E, h1, -, h2⟩ := Demo.joint_healthy (fun _ => one_ne_zero) (identity_rescales 2)
  obtain ⟨n1, n2, n3⟩ := Demo.joint_names (Joint.fromWrapper_base h1)
  have hf : ∀ r ∈ [(0, 1, 3, 0), (10, 1, 4, 0), (20, -1, 4, 1)].map fun x => Demo.readingCols.zip (Demo.reading x), Row.Finite r := by
    intro r hr
    obtain ⟨x, -, rfl⟩ := List.mem_map.1 hr
    exact Demo.reading_finite x
  have hc : ∀ r ∈ [(0, 1, 3, 0), (10, 1, 4, 0), (20, -1, 4, 1)].map fun x => Demo.readingCols.zip (Demo.reading x),
      ∃ c : ℕ, c < 128 ∧ lookupKey "cycle_number".toList r = some (.fin (c : ℝ)) := by
    intro r hr
    simp only [List.map_cons, List.map_nil, List.mem_cons, List.not_mem_nil, or_false] at hr
    rcases hr with rfl | rfl | rfl
    · exact ⟨0, by decide, Demo.reading_cycle _⟩
    · exact ⟨0, by decide, Demo.reading_cycle _⟩
    · exact ⟨1, by decide, Demo.reading_cycle _⟩
  obtain ⟨table, E', u, w', b1, b2⟩ := C80_joint_stored_from_file_partial chunkOf hchunk svd E (h2 3) _ n1 rfl n2 n3
    (Demo.readingCols.zip (Demo.reading (0, 1, 3, 0))) ([(10, 1, 4, 0), (20, -1, 4, 1)].map fun x => Demo.readingCols.zip (Demo.reading x)) hf
    (fun r hr => by obtain ⟨c, -, h⟩ := hc r hr; exact ⟨c, h⟩)
    (by
      intro pre row post hp c hrow
      left
      obtain ⟨c', h, h'⟩ := hc row (List.mem_cons_of_mem _ (by rw [hp]; simp))
      rw [h'] at hrow
      have : c' = c := by exact_mod_cast Num.fin.inj (Option.some.inj hrow)
      omega) Demo.writer1 rfl rfl
  exact ⟨E, table, E', u, w', h1, b1, b2⟩

/-- The dual estimator of the concrete cell, on any dataset: C79. -/
example (chunkOf : List Nat → Nat) (svd : Mat → Vec × Mat) (xs : List (ℝ × ℝ × ℝ × ℕ)) (hne : xs ≠ []) :
    ∃ E table E' u, Dual.fromWrappers Demo.sumCellW Demo.sumAsohW ⟨1, 1, 1⟩ ⟨1, 1, 1⟩ none (some ⟨1, 1, 1⟩) (some ⟨1, 1, 1⟩) (some ⟨1, 1, 1⟩)
        ⟨1, none, 2⟩ ⟨1, none, 2⟩ = .ok E ∧
      runOnline chunkOf (Dual.ops svd) (Demo.dataset xs) E true none = .ok (some table, E', u, none) ∧ table.rows.length = xs.length := by
  obtain ⟨E, h1, h2⟩ := Demo.sum_healthy
  obtain ⟨_, _, _, _, _, _, -, -, -, -, -, -, -, -, -, -, -, -, -, -, hb⟩ := Dual.fromWrappers_ok h1
  obtain ⟨n1, n2, n3⟩ := Demo.sum_names hb
  obtain ⟨table, E', u, a1, a2⟩ := C79_dual_run_succeeds chunkOf svd E (h2 3) _ n1 rfl n2 n3 (Demo.dataset xs) _ (Demo.dataset_rows xs)
    (by simpa using hne) (by
      intro r hr
      obtain ⟨x, -, rfl⟩ := List.mem_map.1 hr
      exact Demo.reading_finite x)
  exact ⟨E, table, E', u, h1, a1, by simpa using a2⟩

/-! ## What the table does not say -/

namespace Demo

/-- An estimator whose estimate is the time, with variance 4. -/
noncomputable def clock : EstimatorOps Unit where
  step _ u _ :=
    match u.time with
    | .fin t => .ok ((), gauss1 t 4, gauss1 1 9)
    | _ => .error .valueError
  info _ := ⟨.ok [['x']], [['v']], .ok (gauss1 0 4), 1⟩

end Demo

/-- C63 fails: of a dataset with readings at the times 10, 20 and 30, the table of an estimator whose estimate is the time says 20, 30 and 0:
every row holds what belongs to the next one, and the last holds zeros that no estimator returned. -/
theorem C63_rows_shifted (chunkOf : List Nat → Nat) :
    ∃ table u, runOnline chunkOf Demo.clock (Demo.dataset [(10, 1, 3, 0), (20, 1, 3, 0), (30, 1, 3, 0)]) () true none = .ok (some table, (), u, none) ∧
      table.rows.map (·[0]?) = [some 20, some 30, some 0] ∧ table.rows[2]? = some [0, 0, 0, 0] := by
  refine ⟨_, _, rfl, ?_, ?_⟩
  · rfl
  · rfl

/-- C64 fails: the columns named after the standard deviation hold the variance, here 4 instead of 2. -/
theorem C64_variance_in_std_column (chunkOf : List Nat → Nat) :
    ∃ table u, runOnline chunkOf Demo.clock (Demo.dataset [(10, 1, 3, 0), (20, 1, 3, 0), (30, 1, 3, 0)]) () true none = .ok (some table, (), u, none) ∧
      table.columns = [['x'], "x_std".toList, ['v'], "v_std".toList] ∧ table.rows[0]? = some [20, 4, 1, 9] := by
  refine ⟨_, _, rfl, ?_, ?_⟩
  · rfl
  · rfl

/-- What C63 says about the joint estimator of the concrete cell and any dataset. -/
example (chunkOf : List Nat → Nat) (svd : Mat → Vec × Mat) (x : ℝ × ℝ × ℝ × ℕ) (xs : List (ℝ × ℝ × ℝ × ℕ)) :
    ∃ E table E' u outs, Joint.fromWrapper (Demo.joint .identity) (.inl ⟨2, 2, 1⟩) none (some ⟨2, 2, 1⟩) none none (some ⟨1, 1, 1⟩)
        ⟨1, none, 2⟩ = .ok E ∧
      runOnline chunkOf (Joint.ops svd) (Demo.dataset (x :: xs)) E true none = .ok (some table, E', u, none) ∧
      Observes (Joint.ops svd) E (xs.map fun x => Demo.readingCols.zip (Demo.reading x)) outs E' ∧
      ∀ i (hi : i < outs.length), table.rows[i]? = some (lineOf outs[i].1 outs[i].2) := by
  obtain ⟨E, h1, -, h2⟩ := Demo.joint_healthy (fun _ => one_ne_zero) (identity_rescales 2)
  obtain ⟨n1, n2, n3⟩ := Demo.joint_names (Joint.fromWrapper_base h1)
  obtain ⟨table, E', u, a1, -⟩ := C79_joint_run_succeeds chunkOf svd E (h2 3) _ n1 rfl n2 n3 (Demo.dataset (x :: xs)) _ (Demo.dataset_rows _)
    (by simp) (by
      intro r hr
      obtain ⟨x, -, rfl⟩ := List.mem_map.1 hr
      exact Demo.reading_finite x)
  obtain ⟨first, rest, outs, b1, b2, -, -, b5, -⟩ := C63_rows_partial chunkOf (Joint.ops svd) _ E E' none none table u a1 _ n1
    (Joint.sized svd E (h2 3) n1 rfl n2 n3)
  rw [Demo.dataset_rows] at b1
  obtain ⟨rfl, rfl⟩ := List.cons.inj (Except.ok.inj b1)
  exact ⟨E, table, E', u, outs, h1, a1, b2, b5⟩

/-- A run that is stored: the file of C77 holds the mean at the times 20 and 30. -/
example (chunkOf : List Nat → Nat) (hchunk : ∀ l, 1 ≤ chunkOf l) :
    ∃ table u w', runOnline chunkOf Demo.clock (Demo.dataset [(10, 1, 3, 0), (20, 1, 3, 0), (30, 1, 3, 0)]) () true (some Demo.writer1) =
        .ok (some table, (), u, some w') ∧
      w'.group.read .timestep = .ok [(.fin 20, asStored .mean (Demo.gauss1 20 4), asStored .mean (Demo.gauss1 1 9)),
        (.fin 30, asStored .mean (Demo.gauss1 30 4), asStored .mean (Demo.gauss1 1 9))] := by
  have hw : Demo.clock.Works (fun _ => True) [['x']] [['v']] := fun _ _ => ⟨rfl, rfl, rfl, fun t i T v =>
    ⟨(), _, _, rfl, trivial, Demo.gauss1_proper _ _, rfl, Demo.gauss1_proper _ _, rfl⟩⟩
  have hf : ∀ r ∈ [(10, 1, 3, 0), (20, 1, 3, 0), (30, 1, 3, 0)].map fun x => Demo.readingCols.zip (Demo.reading x), Row.Finite r := by
    intro r hr
    obtain ⟨x, -, rfl⟩ := List.mem_map.1 hr
    exact Demo.reading_finite x
  have hc : ∀ r ∈ [(10, 1, 3, 0), (20, 1, 3, 0), (30, 1, 3, 0)].map fun x => Demo.readingCols.zip (Demo.reading x),
      lookupKey "cycle_number".toList r = some (.fin ((0 : ℕ) : ℝ)) := by
    intro r hr
    simp only [List.map_cons, List.map_nil, List.mem_cons, List.not_mem_nil, or_false] at hr
    rcases hr with rfl | rfl | rfl <;> exact Demo.reading_cycle _
  obtain ⟨table, e', u, w', h1, -⟩ := run_stored chunkOf hchunk Demo.clock _ _ _ hw () trivial (Demo.gauss1 0 4) rfl (Demo.gauss1_proper _ _) rfl
    (Demo.dataset [(10, 1, 3, 0), (20, 1, 3, 0), (30, 1, 3, 0)]) _ (Demo.dataset_rows _) (by simp) hf (fun r hr => ⟨0, hc r hr⟩) Demo.writer1 rfl (.inl rfl) (by
      intro ss hss s hs c hsc
      obtain ⟨pre, post, rfl⟩ := List.append_of_mem hs
      obtain ⟨p, row, q, hpq, -, h3⟩ := forall₂_split hss
      rw [hc row (List.mem_of_mem_tail (by rw [hpq]; simp)), hsc] at h3
      have : 0 = c := by exact_mod_cast Num.fin.inj (Option.some.inj h3)
      subst this
      refine lt_of_lt_of_le Nat.one_pos ((le_foldl_max _ 0).2 1 ?_)
      simp [Demo.readingCols, Demo.reading, lookupKey])
  obtain ⟨w1, h2, h3⟩ := C77_file_holds_the_run chunkOf Demo.clock _ () e' true Demo.writer1 _ _ u h1 (by decide) _ _ (Demo.dataset_rows _)
    [.fin 20, .fin 30] (.cons rfl (.cons rfl .nil)) (by simp) [(Demo.gauss1 20 4, Demo.gauss1 1 9), (Demo.gauss1 30 4, Demo.gauss1 1 9)]
    (.cons rfl rfl (.cons rfl rfl (.nil _))) (by
      intro so hso
      simp only [List.mem_cons, List.not_mem_nil, or_false] at hso
      rcases hso with rfl | rfl <;> exact ⟨Demo.gauss1_proper _ _, Demo.gauss1_proper _ _⟩)
  cases h2
  exact ⟨table, u, w', h1, h3⟩

end Verif
