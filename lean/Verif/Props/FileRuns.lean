import Verif.Props.Continue
import Verif.Props.Hdf5Life
import Verif.Props.InterfaceRuns
/-!
# C141: files and tables are spectators of a run, and files of parts make up the file of the whole
-/

namespace Verif

variable {σ : Type}

/-! ## Proofs -/

theorem runLoop_without_writer {ops : EstimatorOps σ} {dims : Option (Nat × Nat)} {rows : List Row} :
    ∀ {e e' : σ} {w w' : Option Writer} {lines : List (List ℝ)}, runLoop ops dims e w rows = .ok (e', w', lines) →
      runLoop ops dims e none rows = .ok (e', none, lines) := by
  induction rows with
  | nil =>
    intro e e' w w' lines h
    simp only [runLoop, Except.ok.injEq, Prod.mk.injEq] at h ⊢
    exact ⟨h.1, trivial, h.2.2⟩
  | cons row rest ih =>
    intro e e' w w' lines h
    simp only [runLoop, bind_eq_ok_iff, pure_eq_ok, Except.ok.injEq, Prod.mk.injEq] at h
    obtain ⟨io, h1, r, h2, line, h3, w1, -, ⟨e1, w2, more⟩, h4, rfl, rfl, rfl⟩ := h
    exact runLoop_none_ok.2 ⟨io, r, line, more, h1, h2, h3, ih h4, rfl⟩

theorem runLoop_without_table {ops : EstimatorOps σ} {dims : Option (Nat × Nat)} {rows : List Row} :
    ∀ {e e' : σ} {w w' : Option Writer} {lines : List (List ℝ)}, runLoop ops dims e w rows = .ok (e', w', lines) →
      ∃ lines', runLoop ops none e w rows = .ok (e', w', lines') := by
  induction rows with
  | nil =>
    intro e e' w w' lines h
    exact ⟨lines, h⟩
  | cons row rest ih =>
    intro e e' w w' lines h
    simp only [runLoop, bind_eq_ok_iff, pure_eq_ok, Except.ok.injEq, Prod.mk.injEq] at h
    obtain ⟨io, h1, r, h2, line, h3, w1, h4, ⟨e1, w2, more⟩, h5, rfl, rfl, rfl⟩ := h
    obtain ⟨more', h6⟩ := ih h5
    refine ⟨[] :: more', ?_⟩
    simp only [runLoop, bind_eq_ok_iff, pure_eq_ok, Except.ok.injEq, Prod.mk.injEq]
    exact ⟨io, h1, r, h2, [], rfl, w1, h4, _, h6, rfl, rfl, rfl⟩

theorem Observes.append {ops : EstimatorOps σ} {as bs : List Row} : ∀ {e e' : σ} {outs : List (Gaussian × Gaussian)},
    Observes ops e (as ++ bs) outs e' → ∃ o1 o2 e1, Observes ops e as o1 e1 ∧ Observes ops e1 bs o2 e' ∧ outs = o1 ++ o2 := by
  induction as with
  | nil => exact fun h => ⟨[], _, _, .nil _, h, rfl⟩
  | cons a as ih =>
    intro e e' outs h
    cases h with
    | cons h1 h2 h3 =>
      obtain ⟨o1, o2, e1, k1, k2, rfl⟩ := ih h3
      exact ⟨_ :: o1, o2, e1, .cons h1 h2 k1, k2, rfl⟩

theorem Observes.length {ops : EstimatorOps σ} {rows : List Row} {e e' : σ} {outs : List (Gaussian × Gaussian)} (h : Observes ops e rows outs e') :
    outs.length = rows.length := by
  induction h with
  | nil => rfl
  | cons _ _ _ ih => simp [ih]

/-- What a run stores is read back, with its times. -/
theorem runOnline_reads {chunkOf : List Nat → Nat} {ops : EstimatorOps σ} {data : Data} {e e' : σ} {out : Bool} {w : Writer} {w' : Option Writer}
    {t : Option Table} {u : CellInput} (h : runOnline chunkOf ops data e out (some w) = .ok (t, e', u, w')) (hm : w.perTimestep ≠ .none)
    {first : Row} {rest : List Row} (hrows : data.rows = .ok (first :: rest)) (hnan : ∀ r ∈ rest, lookupKey "test_time".toList r ≠ some .nan)
    {nS nO : Nat} (hp : ops.Sized e nS nO) :
    ∃ w1 times outs, w' = some w1 ∧ List.Forall₂ (fun row t => lookupKey "test_time".toList row = some t) rest times ∧ Observes ops e rest outs e' ∧
      w1.group.read .timestep =
        .ok (List.zipWith (fun t so => (t, asStored w.perTimestep so.1, asStored w.perTimestep so.2)) times outs) := by
  obtain ⟨first', rest', y, dims, w1, w2, lines, h1, -, -, h4, h5, -, h7⟩ := runOnline_ok h
  rw [hrows] at h1
  obtain ⟨rfl, rfl⟩ := List.cons.inj (Except.ok.inj h1)
  obtain ⟨outs, ho, -, -, -, hw⟩ := runLoop_ok h5
  have htimes : ∃ times, List.Forall₂ (fun row t => lookupKey "test_time".toList row = some t) rest times := by
    clear h h4 h5 hw hnan h1 hrows hp h7
    induction ho with
    | nil => exact ⟨[], .nil⟩
    | cons hrow _ _ ih =>
      obtain ⟨ts, hts⟩ := ih
      exact ⟨_ :: ts, .cons ((C62_row_to_inputs _ _ _ _ _ _).1 hrow).1 hts⟩
  obtain ⟨times, htimes⟩ := htimes
  obtain ⟨w1, k1, k2⟩ := C77_file_holds_the_run chunkOf ops data e e' out w w' t u h hm first rest hrows times htimes
    (fun t ht ht' => by
      obtain ⟨i, hi, rfl⟩ := List.getElem_of_mem ht
      have hr := htimes.get (i := i) (by rw [htimes.length_eq]; exact hi) hi
      exact hnan _ (List.getElem_mem _) (hr.trans (by simp only [List.get_eq_getElem]; rw [ht'])))
    outs ho (fun so hso => ⟨(hp _ _ _ ho so hso).1, (hp _ _ _ ho so hso).2.2.1⟩)
  exact ⟨w1, times, outs, k1, htimes, ho, k2⟩

/-! ## C141 -/

/-- C141: a run that also writes a file gives the table and the estimator that the run without a file gives. -/
theorem C141_file_is_a_spectator (chunkOf : List Nat → Nat) (ops : EstimatorOps σ) (data : Data) (e e' : σ) (out : Bool) (w w' : Option Writer)
    (t : Option Table) (u : CellInput) (h : runOnline chunkOf ops data e out w = .ok (t, e', u, w')) :
    runOnline chunkOf ops data e out none = .ok (t, e', u, none) := by
  obtain ⟨f, r, y, dims, w1, w2, lines, h1, h2, h3, h4, h5, h6, rfl⟩ := runOnline_ok h
  exact (runOnline_none_ok h1).2 ⟨rfl, ⟨y, h2⟩, dims, lines, h3, runLoop_without_writer h5, h6⟩

/-- C141: a run that also returns a table gives the estimator and the file that the run without a table gives. -/
theorem C141_table_is_a_spectator (chunkOf : List Nat → Nat) (ops : EstimatorOps σ) (data : Data) (e e' : σ) (out : Bool) (w w' : Option Writer)
    (t : Option Table) (u : CellInput) (h : runOnline chunkOf ops data e out w = .ok (t, e', u, w')) :
    runOnline chunkOf ops data e false w = .ok (none, e', u, w') := by
  obtain ⟨f, r, y, dims, w1, w2, lines, h1, h2, h3, h4, h5, h6, rfl⟩ := runOnline_ok h
  obtain ⟨lines', h7⟩ := runLoop_without_table h5
  unfold runOnline
  simp only [h1, h2, dimsOf, h4, h7, makeTable, ok_bind, pure_eq_ok]

/-- C141: the rows `as`, `r`, `bs` of a dataset in two parts, of which the second begins with the last row of the first.  The estimates read from
the file of the run on the whole are those read from the files of the two runs, one after the other, and both ways end with the same estimator;
wherever the files are and whichever other options the writers have. -/
theorem C141_files_of_parts (chunkOf : List Nat → Nat) (ops : EstimatorOps σ) (whole part₁ part₂ : Data) (as bs : List Row) (r : Row)
    (hw : whole.rows = .ok (as ++ r :: bs)) (h₁ : part₁.rows = .ok (as ++ [r])) (h₂ : part₂.rows = .ok (r :: bs))
    (hnan : ∀ row ∈ as ++ r :: bs, lookupKey "test_time".toList row ≠ some .nan) (e e' e₁ e₂ : σ) (nS nO : Nat) (hp : ops.Sized e nS nO)
    (w w₁ w₂ : Writer) (hm : w.perTimestep ≠ .none) (hm₁ : w₁.perTimestep = w.perTimestep) (hm₂ : w₂.perTimestep = w.perTimestep)
    (out out₁ out₂ : Bool) (t t₁ t₂ : Option Table) (u u₁ u₂ : CellInput) (f f₁ f₂ : Option Writer)
    (g : runOnline chunkOf ops whole e out (some w) = .ok (t, e', u, f)) (g₁ : runOnline chunkOf ops part₁ e out₁ (some w₁) = .ok (t₁, e₁, u₁, f₁))
    (g₂ : runOnline chunkOf ops part₂ e₁ out₂ (some w₂) = .ok (t₂, e₂, u₂, f₂)) :
    e₂ = e' ∧ ∃ v v₁ v₂ l₁ l₂, f = some v ∧ f₁ = some v₁ ∧ f₂ = some v₂ ∧ v₁.group.read .timestep = .ok l₁ ∧ v₂.group.read .timestep = .ok l₂ ∧
      v.group.read .timestep = .ok (l₁ ++ l₂) := by
  obtain ⟨first, rest, hw', h₁'⟩ : ∃ first rest, as ++ r :: bs = first :: (rest ++ bs) ∧ as ++ [r] = first :: rest := by
    cases as with
    | nil => exact ⟨r, [], rfl, rfl⟩
    | cons a as => exact ⟨a, as ++ [r], by simp, rfl⟩
  rw [hw'] at hw hnan
  rw [h₁'] at h₁
  obtain ⟨v, times, outs, rfl, a1, a2, a3⟩ := runOnline_reads g hm hw (fun x hx => hnan x (List.mem_cons_of_mem _ hx)) hp
  obtain ⟨v₁, times₁, outs₁, rfl, b1, b2, b3⟩ := runOnline_reads g₁ (by rw [hm₁]; exact hm) h₁
    (fun x hx => hnan x (List.mem_cons_of_mem _ (List.mem_append_left _ hx))) hp
  have hp₁ : ops.Sized e₁ nS nO := by
    intro rows o e'' ho so hso
    have key : ∀ {e e₁ : σ} {rest : List Row} {outs₁}, Observes ops e rest outs₁ e₁ → Observes ops e₁ rows o e'' → Observes ops e (rest ++ rows) (outs₁ ++ o) e'' := by
      intro e e₁ rest outs₁ h h'
      induction h with
      | nil => exact h'
      | cons k1 k2 _ ih => exact .cons k1 k2 (ih h')
    exact hp _ _ _ (key b2 ho) so (List.mem_append_right _ hso)
  obtain ⟨v₂, times₂, outs₂, rfl, c1, c2, c3⟩ := runOnline_reads g₂ (by rw [hm₂]; exact hm) h₂
    (fun x hx => hnan x (List.mem_cons_of_mem _ (List.mem_append_right _ hx))) hp₁
  obtain ⟨o1, o2, e3, d1, d2, rfl⟩ := a2.append
  obtain ⟨rfl, rfl⟩ := d1.unique b2
  obtain ⟨rfl, rfl⟩ := d2.unique c2
  refine ⟨rfl, v, v₁, v₂, _, _, rfl, rfl, rfl, b3, c3, a3.trans (congrArg Except.ok ?_)⟩
  have ht : times = times₁ ++ times₂ := by
    have huniq : ∀ {rows : List Row} {ts ts' : List Num}, List.Forall₂ (fun row t => lookupKey "test_time".toList row = some t) rows ts →
        List.Forall₂ (fun row t => lookupKey "test_time".toList row = some t) rows ts' → ts = ts' := by
      intro rows ts ts' h h'
      induction h generalizing ts' with
      | nil => cases h'; rfl
      | cons k _ ih =>
        cases h' with
        | cons k' h' => rw [Option.some.inj (k.symm.trans k'), ih h']
    exact huniq a1 (List.rel_append b1 c1)
  rw [ht, hm₁, hm₂, List.zipWith_append (by rw [b2.length, ← b1.length_eq])]

/-- C141: a run cannot be continued in its own file.  The writer that it returns is refused by the next run, whatever estimator and data. -/
theorem C141_same_file_refused (chunkOf : List Nat → Nat) (ops : EstimatorOps σ) (part₁ part₂ : Data) (e e₁ e₂ : σ) (out out' : Bool) (w : Writer)
    (t : Option Table) (u : CellInput) (f : Option Writer) (hm : w.perTimestep ≠ .none)
    (h : runOnline chunkOf ops part₁ e out (some w) = .ok (t, e₁, u, f)) :
    ∃ w₁ err, f = some w₁ ∧ runOnline chunkOf ops part₂ e₂ out' (some w₁) = .error err := by
  obtain ⟨_, rest, _, dims, w1, w2, lines, h1, -, -, h4, h5, -, h7⟩ := runOnline_ok h
  obtain ⟨outs, -, -, -, -, hw⟩ := runLoop_ok h5
  unfold openWriter at h4
  dsimp only at h4
  split at h4
  · next w3 h3 =>
    obtain rfl := Except.ok.inj h4
    obtain ⟨w4, ss, rfl, -, happ⟩ := hw w3 rfl
    obtain ⟨state, hprep⟩ := Writer.prepare_ok (Writer.hasGroup_enter w) h3
    have hm3 : w3.perTimestep ≠ .none := by rw [hprep.perTimestep]; exact hm
    obtain ⟨hs, g, hl, -⟩ := Writer.appendAll_timestep ss hprep.hasGroup hprep.ready hm3 (hist := []) (by rw [hprep.position]; rfl)
      (hprep.logs.1 hm) happ
    refine ⟨w4.exit, ?_⟩
    cases hrun : runOnline chunkOf ops part₂ e₂ out' (some w4.exit) with
    | error err => exact ⟨err, h7, rfl⟩
    | ok q =>
      exfalso
      obtain ⟨t', e', u', f'⟩ := q
      obtain ⟨_, rest', _, dims', w1', _, _, -, -, -, k4, -⟩ := runOnline_ok hrun
      unfold openWriter at k4
      dsimp only at k4
      split at k4
      · next w5 k3 =>
        have hgrp : w4.exit.enter.group = w4.group := by
          have hg : (lookupKey w4.storageKey w4.root).isSome := hs.hasGroup
          unfold Writer.group Writer.enter Writer.exit
          simp only [hg, if_true]
        have hst : (∃ ns, (ops.info e₂).stateNames = .ok ns) ∧ ∃ g, (ops.info e₂).state = .ok g := by
          obtain ⟨st, hpr⟩ := Writer.prepare_ok (Writer.hasGroup_enter _) k3
          refine ⟨?_, st, hpr.hstate⟩
          cases hns : (ops.info e₂).stateNames with
          | ok ns => exact ⟨ns, rfl⟩
          | error err =>
            unfold Writer.prepare at k3
            rw [hns] at k3
            split_ifs at k3 <;> cases (Prod.mk.inj k3).2
        have hm4 : w4.perTimestep ≠ .none := by rw [hs.perTimestep]; exact hm3
        have := C69_refused_if_present chunkOf w4.exit.enter (ops.info e₂) (some (rest'.length + 1)) part₂.numCycles hst.1 hst.2
          (.inl ⟨hm4, by rw [hgrp]; exact Option.isSome_iff_exists.2 ⟨g, hl⟩⟩)
        rw [k3] at this
        cases this
      · cases k4
  · cases h4

/-! ## Concrete cases -/

-- The joint estimator of the concrete cell, on any readings, with any writers into new places that store something at every step: three files, of which
-- the file of the whole reads as the other two; the run without a file gives the same; and the second file is refused afterwards.
example (chunkOf : List Nat → Nat) (hchunk : ∀ l, 1 ≤ chunkOf l) (svd : Mat → Vec × Mat) (xs ys : List (ℝ × ℝ × ℝ × ℕ)) (x : ℝ × ℝ × ℝ × ℕ)
    (w w₁ w₂ : Writer) (hw : lookupKey w.storageKey w.root = none) (hw₁ : lookupKey w₁.storageKey w₁.root = none)
    (hw₂ : lookupKey w₂.storageKey w₂.root = none) (hm : w.perTimestep ≠ .none) (hm₁ : w₁.perTimestep = w.perTimestep)
    (hm₂ : w₂.perTimestep = w.perTimestep) :
    ∃ E table E₁ E' u v v₁ v₂ l₁ l₂,
      Joint.fromWrapper (Demo.joint .identity) (.inl ⟨2, 2, 1⟩) none (some ⟨2, 2, 1⟩) none none (some ⟨1, 1, 1⟩) ⟨1, none, 2⟩ = .ok E ∧
      runOnline chunkOf (Joint.ops svd) (Demo.dataset (xs ++ x :: ys)) E true (some w) = .ok (some table, E', u, some v) ∧
      (∃ t₁ u₁, runOnline chunkOf (Joint.ops svd) (Demo.dataset (xs ++ [x])) E true (some w₁) = .ok (t₁, E₁, u₁, some v₁)) ∧
      (∃ t₂ u₂, runOnline chunkOf (Joint.ops svd) (Demo.dataset (x :: ys)) E₁ true (some w₂) = .ok (t₂, E', u₂, some v₂)) ∧
      v₁.group.read .timestep = .ok l₁ ∧ v₂.group.read .timestep = .ok l₂ ∧ v.group.read .timestep = .ok (l₁ ++ l₂) ∧
      runOnline chunkOf (Joint.ops svd) (Demo.dataset (xs ++ x :: ys)) E true none = .ok (some table, E', u, none) ∧
      runOnline chunkOf (Joint.ops svd) (Demo.dataset (xs ++ x :: ys)) E false (some w) = .ok (none, E', u, some v) ∧
      ∃ err, runOnline chunkOf (Joint.ops svd) (Demo.dataset (x :: ys)) E₁ true (some v₁) = .error err := by
  obtain ⟨E, h1, -, h2⟩ := Demo.joint_healthy (fun _ => one_ne_zero) (identity_rescales 2)
  obtain ⟨n1, n2, n3⟩ := Demo.joint_names (Joint.fromWrapper_base h1)
  have hf : ∀ zs : List (ℝ × ℝ × ℝ × ℕ), ∀ r ∈ zs.map Demo.reading, Row.Finite (Demo.readingCols.zip r) := by
    intro zs r hr
    obtain ⟨x, -, rfl⟩ := List.mem_map.1 hr
    exact Demo.reading_finite x
  have hc : ∀ zs : List (ℝ × ℝ × ℝ × ℕ), ∀ r ∈ zs.map Demo.reading, ∃ c : ℕ, lookupKey "cycle_number".toList (Demo.readingCols.zip r) = some (.fin (c : ℝ)) := by
    intro zs r hr
    obtain ⟨x, -, rfl⟩ := List.mem_map.1 hr
    exact ⟨_, Demo.reading_cycle x⟩
  obtain ⟨table, E', u, v, a1, -⟩ := C80_joint_stored_partial chunkOf hchunk svd E (h2 3) _ n1 rfl n2 n3 Demo.readingCols
    ((xs ++ x :: ys).map Demo.reading) (by simp) (hf _) (hc _) w hw
  obtain ⟨t₁, E₁, u₁, v₁, b1, -⟩ := C80_joint_stored_partial chunkOf hchunk svd E (h2 3) _ n1 rfl n2 n3 Demo.readingCols
    ((xs ++ [x]).map Demo.reading) (by simp) (hf _) (hc _) w₁ hw₁
  have ew := Demo.dataset_rows (xs ++ x :: ys)
  have e1 := Demo.dataset_rows (xs ++ [x])
  rw [List.map_append] at ew e1
  -- the estimator after the first part is healthy, and has the same names
  obtain ⟨hh, hb⟩ : E₁.Healthy 2 1 3 (fun _ => True) ∧ E₁.base = E.base := by
    obtain ⟨first, rest, _, _, _, _, _, k1, -, -, -, k5, -, -⟩ := runOnline_ok b1
    obtain ⟨outs, ho, -⟩ := runLoop_ok k5
    obtain ⟨outs', E'', ho', k, -⟩ := (Joint.works svd E.base (U := fun _ => True) n1 rfl n2 n3).observes (rows := rest) (by
      intro r hr
      have : r ∈ first :: rest := List.mem_cons_of_mem _ hr
      rw [← Except.ok.inj k1] at this
      obtain ⟨y, hy, rfl⟩ := List.mem_map.1 this
      exact hf _ y hy) ⟨h2 3, rfl⟩
    obtain ⟨-, rfl⟩ := ho.unique ho'
    exact k
  rw [← hb] at n1 n2 n3
  obtain ⟨t₂, E₂, u₂, v₂, c1, -⟩ := C80_joint_stored_partial chunkOf hchunk svd E₁ hh _ n1 rfl n2 n3 Demo.readingCols
    ((x :: ys).map Demo.reading) (by simp) (hf _) (hc _) w₂ hw₂
  rw [hb] at n1 n2 n3
  obtain ⟨rfl, v', v₁', v₂', l₁, l₂, r1, r2, r3, r4, r5, r6⟩ := C141_files_of_parts chunkOf (Joint.ops svd) _ _ _ _ _ _ ew e1 (Demo.dataset_rows (x :: ys))
    (by
      intro r hr
      obtain ⟨z, rfl⟩ : ∃ z, r = Demo.readingCols.zip (Demo.reading z) := by
        simp only [List.mem_append, List.mem_map, List.mem_cons] at hr
        rcases hr with ⟨z, -, rfl⟩ | rfl | ⟨z, -, rfl⟩ <;> exact ⟨_, rfl⟩
      obtain ⟨t, _, _, ht, -⟩ := Demo.reading_finite z
      rw [ht]
      simp)
    E E' E₁ E₂ _ _ (Joint.sized svd E (h2 3) n1 rfl n2 n3) w w₁ w₂ hm hm₁ hm₂ true true true _ _ _ _ _ _ _ _ _ a1 b1 c1
  obtain rfl := Option.some.inj r1
  obtain rfl := Option.some.inj r2
  obtain rfl := Option.some.inj r3
  obtain ⟨w4, err, r7, r8⟩ := C141_same_file_refused chunkOf (Joint.ops svd) _ (Demo.dataset (x :: ys)) E E₁ E₁ true true w₁ _ _ _ (by rw [hm₁]; exact hm) b1
  obtain rfl := Option.some.inj r7
  exact ⟨E, table, E₁, E₂, u, v, v₁, v₂, l₁, l₂, h1, a1, ⟨_, _, b1⟩, ⟨_, _, c1⟩, r4, r5, r6, C141_file_is_a_spectator _ _ _ _ _ _ _ _ _ _ a1,
    C141_table_is_a_spectator _ _ _ _ _ _ _ _ _ _ a1, err, r8⟩

end Verif
