import Verif.Model.Interrupted
import Verif.Spec.Interrupted
import Verif.Props.FileRuns
/-!
# C142: an interrupted run keeps what it has estimated
-/

namespace Verif

variable {σ : Type}

/-! ## Proofs -/

theorem fileLoop_runLoop {ops : EstimatorOps σ} {dims : Option (Nat × Nat)} {rows : List Row} : ∀ {e : σ} {w : Writer},
    runLoop ops dims e (some w) rows = (fileLoop ops dims e w rows).2.map fun q => (q.1, some (fileLoop ops dims e w rows).1, q.2) := by
  induction rows with
  | nil => exact fun {_ _} => rfl
  | cons row rest ih =>
    intro e w
    unfold fileLoop runLoop
    cases rowToInputs row with
    | error err => rfl
    | ok io =>
      simp only [ok_bind]
      cases ops.step e io.1 io.2 with
      | error err => rfl
      | ok r =>
        simp only [ok_bind]
        cases lineFor dims r.2.1 r.2.2 with
        | error err => rfl
        | ok line =>
          simp only [ok_bind, storeRow]
          cases row.get "test_time".toList with
          | error err => rfl
          | ok t =>
            simp only [ok_bind]
            cases row.get "cycle_number".toList with
            | error err => rfl
            | ok c =>
              simp only [ok_bind]
              generalize w.append t c r.2.1 r.2.2 = x
              obtain ⟨w', _ | err⟩ := x
              · simp only [ok_bind, ih]
                generalize fileLoop ops dims r.1 w' rest = y
                obtain ⟨w'', _ | q⟩ := y <;> rfl
              · rfl

theorem fileLoop_append {ops : EstimatorOps σ} {dims : Option (Nat × Nat)} {as bs : List Row} : ∀ {e e₁ : σ} {w w₁ : Writer} {l : List (List ℝ)},
    runLoop ops dims e (some w) as = .ok (e₁, some w₁, l) →
      (fileLoop ops dims e w (as ++ bs)).1 = (fileLoop ops dims e₁ w₁ bs).1 ∧
      (fileLoop ops dims e w (as ++ bs)).2 = (fileLoop ops dims e₁ w₁ bs).2.map fun q => (q.1, l ++ q.2) := by
  induction as with
  | nil =>
    intro e e₁ w w₁ l h
    simp only [runLoop, Except.ok.injEq, Prod.mk.injEq, Option.some.injEq] at h
    obtain ⟨rfl, rfl, rfl⟩ := h
    refine ⟨rfl, ?_⟩
    rw [List.nil_append]
    cases (fileLoop ops dims e w bs).2 <;> rfl
  | cons row rest ih =>
    intro e e₁ w w₁ l h
    simp only [runLoop, bind_eq_ok_iff, pure_eq_ok, Except.ok.injEq, Prod.mk.injEq] at h
    obtain ⟨io, h1, r, h2, line, h3, w', h4, ⟨e', w'', more⟩, h5, rfl, rfl, rfl⟩ := h
    unfold storeRow at h4
    simp only [bind_eq_ok_iff] at h4
    obtain ⟨t, h6, c, h7, h4⟩ := h4
    generalize hx : w.append t c r.2.1 r.2.2 = x at h4
    obtain ⟨w4, _ | err⟩ := x
    · obtain rfl := Except.ok.inj h4
      obtain ⟨k1, k2⟩ := ih h5
      rw [List.cons_append]
      have : fileLoop ops dims e w (row :: (rest ++ bs)) =
          match fileLoop ops dims r.1 w4 (rest ++ bs) with
          | (w'', .error err) => (w'', .error err)
          | (w'', .ok q) => (w'', .ok (q.1, line :: q.2)) := by
        rw [fileLoop]
        simp only [h1, h2, h3, h6, h7, hx]
        rfl
      rw [this, ← k1]
      generalize fileLoop ops dims r.1 w4 (rest ++ bs) = y at k1 k2
      generalize fileLoop ops dims e' w₁ bs = z at k1 k2
      obtain ⟨y1, _ | y2⟩ := y <;> obtain ⟨z1, _ | z2⟩ := z <;> simp_all [Except.map]
    · cases h4

theorem stepsOf_times {rows : List Row} : ∀ {outs : List (Gaussian × Gaussian)} {ss : List Writer.Step}, outs.length = rows.length → stepsOf rows outs ss →
    List.Forall₂ (fun row t => lookupKey "test_time".toList row = some t) rows (ss.map (·.time)) := by
  induction rows with
  | nil =>
    intro outs ss hl h
    cases h
    exact .nil
  | cons row rows ih =>
    intro outs ss hl h
    cases outs with
    | nil => cases hl
    | cons so outs =>
      cases h with
      | cons hs hss => exact .cons (Row.get_ok.1 hs.1) (ih (by simpa using hl) hss)

theorem stepsOf_stored {what : OutputType} {rows : List Row} : ∀ {outs : List (Gaussian × Gaussian)} {ss : List Writer.Step}, outs.length = rows.length →
    stepsOf rows outs ss → ss.map (fun s => (s.time, asStored what s.state, asStored what s.output)) =
      List.zipWith (fun t so => (t, asStored what so.1, asStored what so.2)) (ss.map (·.time)) outs := by
  induction rows with
  | nil =>
    intro outs ss hl h
    cases h
    rfl
  | cons row rows ih =>
    intro outs ss hl h
    cases outs with
    | nil => cases hl
    | cons so outs =>
      cases h with
      | cons hs hss =>
        have h2 := hs.2.2
        dsimp only at h2
        rw [List.map_cons, ih (by simpa using hl) hss, h2]
        rfl

theorem stepsOf_mem {rows : List Row} {outs : List (Gaussian × Gaussian)} {ss : List Writer.Step} (h : stepsOf rows outs ss) {s : Writer.Step} (hs : s ∈ ss) :
    (s.state, s.output) ∈ outs ∧ ∃ r ∈ rows, lookupKey "test_time".toList r = some s.time := by
  obtain ⟨i, hi, rfl⟩ := List.getElem_of_mem hs
  have hi' : i < (rows.zip outs).length := by rw [h.length_eq]; exact hi
  obtain ⟨h1, -, h3⟩ := h.get hi' hi
  simp only [List.get_eq_getElem, List.getElem_zip] at h1 h3
  exact ⟨h3 ▸ List.getElem_mem _, _, List.getElem_mem _, Row.get_ok.1 h1⟩

/-- What the loop leaves in the file, whichever way it ends. -/
theorem fileLoop_timestep {ops : EstimatorOps σ} {dims : Option (Nat × Nat)} {nS nO N : Nat} {p : Writer.Step}
    (hp : p.state.mean.n = nS ∧ p.state.cov.m = nS ∧ p.state.cov.n = nS ∧ p.output.mean.n = nO ∧ p.output.cov.m = nO ∧ p.output.cov.n = nO)
    (hdims : ∀ a b, dims = some (a, b) → a = nS ∧ b = nO) {rows : List Row} :
    ∀ {e : σ} {w v : Writer} {res : Except Err (σ × List (List ℝ))} {hist : List Writer.Step}, w.HasGroup → w.ready = true → w.perTimestep ≠ .none →
      w.position = hist.length → Writer.Holds w.group .timestep w.perTimestep p (fun i => hist[i]?) (some N) hist.length →
      hist.length + rows.length ≤ N → ops.Sized e nS nO → fileLoop ops dims e w rows = (v, res) →
      ∃ before after outs e₁ ss, rows = before ++ after ∧ Observes ops e before outs e₁ ∧ stepsOf before outs ss ∧
        Writer.Logs v.group .timestep w.perTimestep p (fun i => (hist ++ ss)[i]?) ∧ v.group.settings = w.group.settings ∧
        v.group.distType = w.group.distType ∧
        (after = [] ∨ (∃ err, res = .error err) ∧ ((∃ row more, after = row :: more ∧ Spec.Interrupts ops e₁ row) ∨ w.perCycle ≠ .none ∧ before ≠ [])) := by
  induction rows with
  | nil =>
    intro e w v res hist hg hr hw hpos hh hN hs h
    obtain ⟨rfl, rfl⟩ := Prod.mk.inj h
    obtain ⟨g, g1, g2, -⟩ := hh
    exact ⟨[], [], [], e, [], rfl, .nil e, .nil, ⟨g, g1, by simpa using g2⟩, rfl, rfl, .inl rfl⟩
  | cons row rest ih =>
    intro e w v res hist hg hr hw hpos hh hN hs h
    have stop : ∀ err, v = w → res = .error err → Spec.Interrupts ops e row → ∃ before after outs e₁ ss, row :: rest = before ++ after ∧
        Observes ops e before outs e₁ ∧ stepsOf before outs ss ∧ Writer.Logs v.group .timestep w.perTimestep p (fun i => (hist ++ ss)[i]?) ∧
        v.group.settings = w.group.settings ∧ v.group.distType = w.group.distType ∧
        (after = [] ∨ (∃ err, res = .error err) ∧ ((∃ row more, after = row :: more ∧ Spec.Interrupts ops e₁ row) ∨ w.perCycle ≠ .none ∧ before ≠ [])) := by
      rintro err rfl rfl hi
      obtain ⟨g, g1, g2, -⟩ := hh
      exact ⟨[], row :: rest, [], e, [], rfl, .nil e, .nil, ⟨g, g1, by simpa using g2⟩, rfl, rfl, .inr ⟨⟨err, rfl⟩, .inl ⟨row, rest, rfl, hi⟩⟩⟩
    unfold fileLoop at h
    cases hio : rowToInputs row with
    | error err =>
      rw [hio] at h
      exact stop err (Prod.mk.inj h).1.symm (Prod.mk.inj h).2.symm (.inl fun u y hu => by rw [hio] at hu; cases hu)
    | ok io =>
      rw [hio] at h
      dsimp only at h
      cases hst : ops.step e io.1 io.2 with
      | error err =>
        rw [hst] at h
        refine stop err (Prod.mk.inj h).1.symm (Prod.mk.inj h).2.symm (.inl fun u y hu r hr' => ?_)
        rw [hio] at hu
        obtain rfl := Except.ok.inj hu
        rw [hst] at hr'
        cases hr'
      | ok r =>
        rw [hst] at h
        dsimp only at h
        have ho1 : Observes ops e [row] [(r.2.1, r.2.2)] r.1 := .cons hio hst (.nil _)
        obtain ⟨z1, z2, z3, z4⟩ := hs _ _ _ ho1 _ List.mem_cons_self
        dsimp only at z1 z2 z3 z4
        obtain ⟨line, hline⟩ : ∃ line, lineFor dims r.2.1 r.2.2 = .ok line := by
          cases dims with
          | none => exact ⟨[], rfl⟩
          | some ab =>
            obtain ⟨a, b⟩ := ab
            obtain ⟨rfl, rfl⟩ := hdims a b rfl
            exact ⟨_, tableRow_ok z1 z2 z3 z4⟩
        rw [hline] at h
        dsimp only at h
        have ht : ∃ t, row.get "test_time".toList = .ok t := ⟨_, Row.get_ok.2 ((C62_row_to_inputs _ _ _ _ _ _).1 hio).1⟩
        obtain ⟨t, ht⟩ := ht
        rw [ht] at h
        dsimp only at h
        cases hcy : row.get "cycle_number".toList with
        | error err =>
          rw [hcy] at h
          refine stop err (Prod.mk.inj h).1.symm (Prod.mk.inj h).2.symm (.inr fun x hx => ?_)
          rw [Row.get_ok.2 hx] at hcy
          cases hcy
        | ok c =>
          rw [hcy] at h
          dsimp only at h
          by_cases hfin : ∃ x, c = .fin x
          · obtain ⟨ci, hci⟩ : ∃ ci, c.toInt = .ok ci := by
              obtain ⟨x, rfl⟩ := hfin
              exact ⟨_, rfl⟩
            have hd : Writer.SameDims ⟨t, c, r.2.1, r.2.2⟩ p := by
              obtain ⟨p1, p2, p3, p4, p5, p6⟩ := hp
              refine ⟨⟨?_, ?_, ?_⟩, ?_, ?_, ?_⟩ <;> dsimp only <;> simp [z1.2.1, z1.2.2, z2, z3.2.1, z3.2.2, z4, p1, p2, p3, p4, p5, p6]
            obtain ⟨g', a1, a2⟩ := hh.timestep hw hd (i := hist.length) (.inl ⟨N, rfl, by simp at hN; omega⟩)
            rw [Writer.recordAt_list] at a2
            dsimp only at a1
            rw [← hpos] at a1
            have hss : stepsOf [row] [(r.2.1, r.2.2)] [⟨t, c, r.2.1, r.2.2⟩] := .cons ⟨ht, hcy, rfl⟩ .nil
            have happ : w.append t c r.2.1 r.2.2 =
                match Writer.appendAt t r.2.1 r.2.2 (w.group.set .timestep g') ci w.perCycle .cycle with
                | (e, some err) => (w.setGroup e, some err)
                | (e, none) => ({ w.setGroup e with position := w.position + 1 }, none) := by
              unfold Writer.append
              rw [hr, hci]
              simp only [Bool.not_true, Bool.false_eq_true, if_false, a1]
              rfl
            have hother := Writer.appendAt_other (time := t) (state := r.2.1) (output := r.2.2) (e := w.group.set .timestep g') (i := ci)
              (what := w.perCycle) (wh := .cycle) (wh' := .timestep) (by decide)
            have hset := Writer.appendAt_settings (time := t) (state := r.2.1) (output := r.2.2) (e := w.group.set .timestep g') (i := ci)
              (what := w.perCycle) (wh := .cycle)
            have hdist := Writer.appendAt_distType (time := t) (state := r.2.1) (output := r.2.2) (e := w.group.set .timestep g') (i := ci)
              (what := w.perCycle) (wh := .cycle)
            have hnone : w.perCycle = .none → (Writer.appendAt t r.2.1 r.2.2 (w.group.set .timestep g') ci w.perCycle .cycle).2 = none := by
              intro hn
              unfold Writer.appendAt
              rw [if_pos hn]
            rw [Writer.set_settings] at hset
            rw [Writer.set_distType] at hdist
            generalize Writer.appendAt t r.2.1 r.2.2 (w.group.set .timestep g') ci w.perCycle .cycle = x at happ hother hset hdist hnone
            obtain ⟨e2, _ | err⟩ := x
            · dsimp only at happ hother hset hdist
              rw [happ] at h
              dsimp only at h
              generalize hw2 : ({ w.setGroup e2 with position := w.position + 1 } : Writer) = w2 at h
              have b1 : w2.group = e2 := by rw [← hw2]; exact Writer.group_setGroup hg e2
              have b2 : w2.perTimestep = w.perTimestep := by rw [← hw2]; rfl
              have b3 : w2.perCycle = w.perCycle := by rw [← hw2]; rfl
              generalize hy : fileLoop ops dims r.1 w2 rest = y at h
              obtain ⟨v', res'⟩ := y
              have hv : v' = v ∧ ((∃ err, res' = .error err) → ∃ err, res = .error err) := by
                cases res' with
                | error err => exact ⟨(Prod.mk.inj h).1, fun _ => ⟨err, (Prod.mk.inj h).2.symm⟩⟩
                | ok q => exact ⟨(Prod.mk.inj h).1, nofun⟩
              obtain ⟨before, after, outs, e₁, ss, k1, k2, k3, k4, k5, k6, k7⟩ := ih (hist := hist ++ [⟨t, c, r.2.1, r.2.2⟩]) (e := r.1) (w := w2)
                (by rw [← hw2]; exact Writer.hasGroup_setGroup hg e2) (by rw [← hw2]; exact hr) (by rw [b2]; exact hw)
                (by rw [← hw2]; simp [hpos])
                (by
                  rw [b1, b2]
                  obtain ⟨g, g1, g2, g3⟩ := a2
                  exact ⟨g, hother.trans g1, g2, by simpa using g3⟩)
                (by simp at hN ⊢; omega)
                (fun rows outs e' ho so hso => hs _ _ _ (.cons hio hst ho) so (List.mem_cons_of_mem _ hso)) hy
              obtain ⟨rfl, hv⟩ := hv
              refine ⟨row :: before, after, (r.2.1, r.2.2) :: outs, e₁, ⟨t, c, r.2.1, r.2.2⟩ :: ss, by rw [k1]; rfl, .cons hio hst k2,
                .cons ⟨ht, hcy, rfl⟩ k3, ?_, ?_, ?_, ?_⟩
              · rw [b2] at k4
                simpa using k4
              · rw [k5, b1, hset]
              · rw [k6, b1, hdist]
              · rcases k7 with k7 | ⟨k7, k8 | ⟨k8, -⟩⟩
                · exact .inl k7
                · exact .inr ⟨hv k7, .inl k8⟩
                · exact .inr ⟨hv k7, .inr ⟨by rw [← b3]; exact k8, by simp⟩⟩
            · dsimp only at happ hother hset hdist hnone
              rw [happ] at h
              dsimp only at h
              obtain ⟨rfl, rfl⟩ := Prod.mk.inj h
              have b1 := Writer.group_setGroup hg e2
              refine ⟨[row], rest, _, r.1, _, rfl, ho1, hss, ?_, ?_, ?_, .inr ⟨⟨err, rfl⟩, .inr ⟨fun hn => ?_, by simp⟩⟩⟩
              · rw [b1]
                obtain ⟨g, g1, g2, g3⟩ := a2
                exact ⟨g, hother.trans g1, g2⟩
              · rw [b1, hset]
              · rw [b1, hdist]
              · cases hnone hn
          · obtain ⟨err, he⟩ := C67_no_cycle_refused w t c r.2.1 r.2.2 (fun x hx => hfin ⟨x, hx⟩)
            rw [he] at h
            refine stop err (Prod.mk.inj h).1.symm (Prod.mk.inj h).2.symm (.inr fun x hx => ?_)
            rw [Row.get_ok.2 hx] at hcy
            exact hfin ⟨x, (Except.ok.inj hcy).symm⟩


/-! ## C142 -/

/-- C142: the run with a file that may raise is the run with a file: it returns or raises the same, and leaves the same file if it returns. -/
theorem C142_same_run (chunkOf : List Nat → Nat) (ops : EstimatorOps σ) (data : Data) (e : σ) (out : Bool) (w : Writer) :
    runOnline chunkOf ops data e out (some w) =
      (runFile chunkOf ops data e out w).2.map fun r => (r.1, r.2.1, r.2.2, some (runFile chunkOf ops data e out w).1) := by
  unfold runOnline runFile
  cases data.rows with
  | error err => rfl
  | ok rows =>
    cases rows with
    | nil => rfl
    | cons first rest =>
      simp only [ok_bind]
      cases rowToInputs first with
      | error err => rfl
      | ok u =>
        simp only [ok_bind]
        cases dimsOf (ops.info e) out with
        | error err => rfl
        | ok dims =>
          simp only [ok_bind, openWriter]
          generalize w.enter.prepare chunkOf (ops.info e) (some (rest.length + 1)) data.numCycles = x
          obtain ⟨w1, _ | err⟩ := x
          · simp only [ok_bind, fileLoop_runLoop]
            generalize fileLoop ops dims e w1 rest = y
            obtain ⟨w2, _ | q⟩ := y
            · rfl
            · simp only [Except.map, ok_bind]
              cases makeTable (ops.info q.1) (rest.length + 1) q.2 dims <;> rfl
          · rfl

/-- C142: a run into a file without estimates under the writer's key that gets through the rows `before` and is interrupted at `row`.  It raises; and the
closed file holds the estimates for all rows `before`, as if the dataset had ended there. -/
theorem C142_interrupted (chunkOf : List Nat → Nat) (hchunk : ∀ l, 1 ≤ chunkOf l) (ops : EstimatorOps σ) (data : Data) (first row : Row)
    (before after : List Row) (hrows : data.rows = .ok (first :: (before ++ row :: after))) (e e₁ : σ) (outs : List (Gaussian × Gaussian))
    (hfirst : first.Finite) (hf : ∀ r ∈ before, r.Finite)
    (hc : ∀ r ∈ before, ∃ c : ℕ, lookupKey "cycle_number".toList r = some (.fin (c : ℝ))) (ho : Observes ops e before outs e₁)
    (hrow : Spec.Interrupts ops e₁ row) (names : List Name) (hn : (ops.info e).stateNames = .ok names) (g : Gaussian)
    (hg : (ops.info e).state = .ok g) (hgp : g.Proper) (hgn : g.mean.n = names.length) (hs : ops.Sized e names.length (ops.info e).nOutputs)
    (w : Writer) (hfresh : lookupKey w.storageKey w.root = none) (hm : w.perTimestep ≠ .none) (hsize : w.resizable = true ∨ data.numCycles.isSome)
    (hfit : ∀ ss, List.Forall₂ (fun row s => lookupKey "cycle_number".toList row = some s.cycle) before ss → CyclesFit data.numCycles ss) (out : Bool) :
    ∃ v err times, runFile chunkOf ops data e out w = (v, .error err) ∧ v.ready = false ∧
      List.Forall₂ (fun row t => lookupKey "test_time".toList row = some t) before times ∧
      v.group.read .timestep =
        .ok (List.zipWith (fun t so => (t, asStored w.perTimestep so.1, asStored w.perTimestep so.2)) times outs) := by
  obtain ⟨t, i, T, v, h1⟩ := hfirst.inputs
  obtain ⟨ss, s1, s2, s3⟩ := stepsOf_exists hf hc ho.length
  obtain ⟨w1, hp⟩ := prepare_succeeds chunkOf w hfresh (ops.info e) names hn g hg (some ((before ++ row :: after).length + 1)) data.numCycles
    (hsize.imp_right fun h => ⟨rfl, h⟩)
  have hsl : ss.length = before.length := s2.length_eq.symm
  have h4 := hs _ _ _ ho
  obtain ⟨w2, happ⟩ := C68_appends_succeed_partial chunkOf hchunk w w1 (ops.info e) g hg hgp _ _ hp ss
    (fun s hs => by
      obtain ⟨a, b, c, d⟩ := h4 _ (s3 s hs).2.2
      exact ⟨a, c, b.trans hgn.symm, d⟩)
    (fun s hs => (s3 s hs).1) (fun s hs => (s3 s hs).2.1) (fun _ N hN => by cases hN; simp; omega) (fun _ => hfit ss s2)
  -- the loop over the rows before
  have hloop : ∀ dims, dimsOf (ops.info e) out = .ok dims → ∃ lines, runLoop ops dims e (some w1) before = .ok (e₁, some w2, lines) := by
    intro dims hd
    obtain ⟨-, h5⟩ := runLoop_of ho h4
    obtain ⟨lines, h5, -⟩ := h5 w1 w2 ss s1 happ
    cases out with
    | true =>
      simp only [dimsOf, hn, ok_bind, pure_eq_ok, Except.ok.injEq] at hd
      exact ⟨lines, hd ▸ h5⟩
    | false =>
      obtain rfl := Except.ok.inj hd
      exact runLoop_without_table h5
  obtain ⟨dims, hd⟩ : ∃ dims, dimsOf (ops.info e) out = .ok dims := by
    cases out
    · exact ⟨_, rfl⟩
    · exact ⟨some (names.length, (ops.info e).nOutputs), by simp only [dimsOf, hn, ok_bind, pure_eq_ok]⟩
  obtain ⟨lines, hl⟩ := hloop dims hd
  -- the row at which it ends
  have hend : ∃ err, fileLoop ops dims e₁ w2 (row :: after) = (w2, .error err) := by
    unfold fileLoop
    cases hio : rowToInputs row with
    | error err => exact ⟨err, rfl⟩
    | ok io =>
      dsimp only
      cases hst : ops.step e₁ io.1 io.2 with
      | error err => exact ⟨err, rfl⟩
      | ok r =>
        dsimp only
        cases lineFor dims r.2.1 r.2.2 with
        | error err => exact ⟨err, rfl⟩
        | ok line =>
          dsimp only
          cases row.get "test_time".toList with
          | error err => exact ⟨err, rfl⟩
          | ok t =>
            dsimp only
            cases hcy : row.get "cycle_number".toList with
            | error err => exact ⟨err, rfl⟩
            | ok c =>
              dsimp only
              rcases hrow with hrow | hrow
              · exact absurd hst (hrow _ _ hio r)
              · obtain ⟨err, he⟩ := C67_no_cycle_refused w2 t c r.2.1 r.2.2
                  (fun x hx => hrow x ((Row.get_ok.1 hcy).trans (congrArg some hx)))
                rw [he]
                exact ⟨err, rfl⟩
  obtain ⟨err, hend⟩ := hend
  have hfl : fileLoop ops dims e w1 (before ++ row :: after) = (w2, .error err) := by
    obtain ⟨k1, k2⟩ := fileLoop_append (bs := row :: after) hl
    rw [hend] at k1 k2
    exact Prod.ext k1 k2
  refine ⟨w2.exit, err, ss.map (·.time), ?_, rfl, ?_, ?_⟩
  · unfold runFile
    simp only [hrows, h1, hd, hp, hfl]
  · exact stepsOf_times ho.length s1
  · exact (C66_timesteps_read_back chunkOf w w1 w2 _ _ _ hp ss happ (fun s hs => (s3 s hs).1) (fun s hs => by
      obtain ⟨a, _, c, _⟩ := h4 _ (s3 s hs).2.2
      exact ⟨a, c⟩) hm).trans (congrArg Except.ok (stepsOf_stored ho.length s1))

/-- C142: whichever way a run into a new file ends.  The closed file holds the estimates for the first rows, `before`, after the one that is skipped; these
are all rows, or the run has raised: because the next row could not be observed or has no cycle, or, after storing the last estimate, because the cycle of
that row was refused. -/
theorem C142_any_end (chunkOf : List Nat → Nat) (ops : EstimatorOps σ) (data : Data) (first : Row) (rest : List Row)
    (hrows : data.rows = .ok (first :: rest)) (e : σ) (hfirst : first.Finite)
    (hnan : ∀ r ∈ rest, lookupKey "test_time".toList r ≠ some .nan) (names : List Name) (hn : (ops.info e).stateNames = .ok names) (g : Gaussian)
    (hg : (ops.info e).state = .ok g) (hgp : g.Proper) (hgn : g.mean.n = names.length) (hs : ops.Sized e names.length (ops.info e).nOutputs)
    (w : Writer) (hfresh : lookupKey w.storageKey w.root = none) (hm : w.perTimestep ≠ .none) (hsize : w.resizable = true ∨ data.numCycles.isSome)
    (out : Bool) :
    ∃ v res before after outs e₁ times, runFile chunkOf ops data e out w = (v, res) ∧ v.ready = false ∧ rest = before ++ after ∧
      Observes ops e before outs e₁ ∧ List.Forall₂ (fun row t => lookupKey "test_time".toList row = some t) before times ∧
      v.group.read .timestep =
        .ok (List.zipWith (fun t so => (t, asStored w.perTimestep so.1, asStored w.perTimestep so.2)) times outs) ∧
      (after = [] ∨ (∃ err, res = .error err) ∧ ((∃ row more, after = row :: more ∧ Spec.Interrupts ops e₁ row) ∨ w.perCycle ≠ .none ∧ before ≠ [])) := by
  obtain ⟨t, i, T, v, h1⟩ := hfirst.inputs
  obtain ⟨w1, hp⟩ := prepare_succeeds chunkOf w hfresh (ops.info e) names hn g hg (some (rest.length + 1)) data.numCycles
    (hsize.imp_right fun h => ⟨rfl, h⟩)
  obtain ⟨state, hprep⟩ := Writer.prepare_ok (Writer.hasGroup_enter w) hp
  obtain rfl : state = g := Except.ok.inj (hprep.hstate.symm.trans hg)
  obtain ⟨dims, hd, hdims⟩ : ∃ dims, dimsOf (ops.info e) out = .ok dims ∧
      ∀ a b, dims = some (a, b) → a = names.length ∧ b = (ops.info e).nOutputs := by
    cases out
    · exact ⟨_, rfl, nofun⟩
    · refine ⟨some (names.length, (ops.info e).nOutputs), by simp only [dimsOf, hn, ok_bind, pure_eq_ok], fun a b h => ?_⟩
      simp only [Option.some.injEq, Prod.mk.injEq] at h
      exact ⟨h.1.symm, h.2.symm⟩
  generalize hy : fileLoop ops dims e w1 rest = y
  obtain ⟨v', res'⟩ := y
  have hm1 : w1.perTimestep ≠ .none := by rw [hprep.perTimestep]; exact hm
  obtain ⟨before, after, outs, e₁, ss, k1, k2, k3, k4, k5, k6, k7⟩ := fileLoop_timestep (p := Writer.proto state (ops.info e).nOutputs)
    (N := rest.length + 1) ⟨hgn, hgp.2.1.trans hgn, hgp.2.2.trans hgn, rfl, rfl, rfl⟩ hdims (hist := []) hprep.hasGroup hprep.ready hm1
    (by rw [hprep.position]; rfl)
    (by
      rw [hprep.perTimestep]
      refine ⟨_, hprep.timestep hm, Writer.stores_create, fun k d hd => ?_⟩
      obtain ⟨v, -, rfl⟩ := Writer.create_lookup hd
      exact .inl ⟨_, rfl, by simp⟩)
    (by simp) hs hy
  have hread : v'.exit.group.read .timestep =
      .ok (List.zipWith (fun t so => (t, asStored w.perTimestep so.1, asStored w.perTimestep so.2)) (ss.map (·.time)) outs) := by
    rw [← stepsOf_stored k2.length k3]
    have e0 : w1.perTimestep = w.perTimestep := hprep.perTimestep
    rw [e0] at k4
    refine k4.read hm (ts := w.perTimestep) (cy := w.perCycle) (by rw [k5, hprep.settings]; rfl) rfl (by rw [k6, hprep.distType]) (fun i _ => by simp)
      (fun s hs' => ?_) (fun s hs' => ?_)
    · obtain ⟨r, hr, hrt⟩ := (stepsOf_mem k3 hs').2
      rintro ht
      exact hnan r (by rw [k1]; exact List.mem_append_left _ hr) (hrt.trans (congrArg some ht))
    · obtain ⟨a, _, c, _⟩ := hs _ _ _ k2 _ (stepsOf_mem k3 hs').1
      exact ⟨a, c⟩
  have b3 : w1.perCycle = w.perCycle := hprep.perCycle
  rw [b3] at k7
  have hrun : ∃ res, runFile chunkOf ops data e out w = (v'.exit, res) ∧ ((∃ err, res' = .error err) → ∃ err, res = .error err) := by
    unfold runFile
    simp only [hrows, h1, hd, hp, hy]
    cases res' with
    | error err => exact ⟨_, rfl, fun _ => ⟨err, rfl⟩⟩
    | ok q =>
      dsimp only
      cases makeTable (ops.info q.1) (rest.length + 1) q.2 dims with
      | error err => exact ⟨_, rfl, fun _ => ⟨err, rfl⟩⟩
      | ok t => exact ⟨_, rfl, nofun⟩
  obtain ⟨res, r1, r2⟩ := hrun
  exact ⟨v'.exit, res, before, after, outs, e₁, _, r1, rfl, k1, k2, stepsOf_times k2.length k3, hread, k7.imp_right fun h => ⟨r2 h.1, h.2⟩⟩

/-! ## Concrete cases -/

-- The joint estimator of the concrete cell on a file of any number of readings, of which one, after the readings `xs`, has no cycle number.
example (chunkOf : List Nat → Nat) (hchunk : ∀ l, 1 ≤ chunkOf l) (svd : Mat → Vec × Mat) (x : ℝ × ℝ × ℝ × ℕ) (xs : List (ℝ × ℝ × ℝ × ℕ))
    (hx : ∀ x ∈ xs, x.2.2.2 < 128) (t i v : ℝ) (after : List Row) (out : Bool) :
    ∃ E w err l, Joint.fromWrapper (Demo.joint .identity) (.inl ⟨2, 2, 1⟩) none (some ⟨2, 2, 1⟩) none none (some ⟨1, 1, 1⟩) ⟨1, none, 2⟩ = .ok E ∧
      runFile chunkOf (Joint.ops svd) (.file ((x :: xs).map (fun x => Demo.readingCols.zip (Demo.reading x)) ++
        Demo.readingCols.zip [.fin t, .fin i, .fin v, .nan] :: after)) E out Demo.writer1 = (w, .error err) ∧
      w.group.read .timestep = .ok l ∧ l.length = xs.length := by
  obtain ⟨E, h1, -, h2⟩ := Demo.joint_healthy (fun _ => one_ne_zero) (identity_rescales 2)
  obtain ⟨n1, n2, n3⟩ := Demo.joint_names (Joint.fromWrapper_base h1)
  have hf : ∀ r ∈ xs.map fun x => Demo.readingCols.zip (Demo.reading x), Row.Finite r := by
    intro r hr
    obtain ⟨x, -, rfl⟩ := List.mem_map.1 hr
    exact Demo.reading_finite x
  have hc : ∀ r ∈ xs.map fun x => Demo.readingCols.zip (Demo.reading x), ∃ c : ℕ, lookupKey "cycle_number".toList r = some (.fin (c : ℝ)) := by
    intro r hr
    obtain ⟨x, -, rfl⟩ := List.mem_map.1 hr
    exact ⟨_, Demo.reading_cycle x⟩
  obtain ⟨outs, E₁, ho, -, -⟩ := (Joint.works svd E.base (U := fun _ => True) n1 rfl n2 n3).observes hf ⟨h2 3, rfl⟩
  obtain ⟨μ, P, _, _, hH, -⟩ := (h2 3).filter
  have hst : ((Joint.ops svd).info E).state = .ok E.filter.hidden := rfl
  rw [hH.hidden] at hst
  obtain ⟨w, err, times, k1, -, k2, k3⟩ := C142_interrupted chunkOf hchunk (Joint.ops svd)
    (.file ((x :: xs).map (fun x => Demo.readingCols.zip (Demo.reading x)) ++ Demo.readingCols.zip [.fin t, .fin i, .fin v, .nan] :: after))
    (Demo.readingCols.zip (Demo.reading x)) (Demo.readingCols.zip [.fin t, .fin i, .fin v, .nan]) (xs.map fun x => Demo.readingCols.zip (Demo.reading x))
    after rfl E E₁ outs (Demo.reading_finite x) hf hc ho (.inr fun x hx => by cases hx) _ n1 _ hst ⟨hH.n_pos, rfl, rfl⟩ rfl
    (Joint.sized svd E (h2 3) n1 rfl n2 n3) Demo.writer1 rfl (by decide) (.inl rfl) (by
      rintro ss hss pre s post rfl c hsc
      obtain ⟨p, row, q, hpq, -, h3⟩ := forall₂_split hss
      have : row ∈ xs.map fun x => Demo.readingCols.zip (Demo.reading x) := by rw [hpq]; simp
      obtain ⟨y, hy, rfl⟩ := List.mem_map.1 this
      rw [Demo.reading_cycle, hsc] at h3
      have h3 : (y.2.2.2 : ℝ) = c := by simpa using h3
      exact .inl ((Nat.cast_injective h3) ▸ hx y hy)) out
  refine ⟨E, w, err, _, h1, k1, k3, ?_⟩
  rw [List.length_zipWith, ← k2.length_eq, ho.length]
  simp

-- The same estimator on a file of any rows with times: whatever is wrong with them, the file holds estimates for the rows up to some row, and for all of
-- them if the run does not raise.
example (chunkOf : List Nat → Nat) (svd : Mat → Vec × Mat) (x : ℝ × ℝ × ℝ × ℕ) (rest : List Row)
    (hnan : ∀ r ∈ rest, lookupKey "test_time".toList r ≠ some .nan) (out : Bool) :
    ∃ E w res l, Joint.fromWrapper (Demo.joint .identity) (.inl ⟨2, 2, 1⟩) none (some ⟨2, 2, 1⟩) none none (some ⟨1, 1, 1⟩) ⟨1, none, 2⟩ = .ok E ∧
      runFile chunkOf (Joint.ops svd) (.file (Demo.readingCols.zip (Demo.reading x) :: rest)) E out Demo.writer1 = (w, res) ∧
      w.group.read .timestep = .ok l ∧ l.length ≤ rest.length ∧ ((∃ r, res = .ok r) → l.length = rest.length) := by
  obtain ⟨E, h1, -, h2⟩ := Demo.joint_healthy (fun _ => one_ne_zero) (identity_rescales 2)
  obtain ⟨n1, n2, n3⟩ := Demo.joint_names (Joint.fromWrapper_base h1)
  obtain ⟨μ, P, _, _, hH, -⟩ := (h2 3).filter
  have hst : ((Joint.ops svd).info E).state = .ok E.filter.hidden := rfl
  rw [hH.hidden] at hst
  obtain ⟨w, res, before, after, outs, e₁, times, k1, -, k2, k3, k4, k5, k6⟩ := C142_any_end chunkOf (Joint.ops svd)
    (.file (Demo.readingCols.zip (Demo.reading x) :: rest)) _ rest rfl E (Demo.reading_finite x) hnan _ n1 _ hst ⟨hH.n_pos, rfl, rfl⟩ rfl
    (Joint.sized svd E (h2 3) n1 rfl n2 n3) Demo.writer1 rfl (by decide) (.inl rfl) out
  have hl : (List.zipWith (fun t so => (t, asStored Demo.writer1.perTimestep so.1, asStored Demo.writer1.perTimestep so.2)) times outs).length =
      before.length := by
    rw [List.length_zipWith, ← k4.length_eq, k3.length, min_self]
  refine ⟨E, w, res, _, h1, k1, k5, by rw [hl, k2]; simp, ?_⟩
  rintro ⟨r, rfl⟩
  rcases k6 with rfl | ⟨⟨err, he⟩, -⟩
  · rw [hl, k2, List.append_nil]
  · cases he

end Verif
