import Verif.Spec.Run
import Verif.Props.Hdf5
import Verif.Props.DualRuns
/-!
# Rows and runs (C62, C63, C64, C65, C77)
-/

namespace Verif

/-! ## Rows -/

theorem Row.get_ok {r : Row} {n : Name} {x : Num} : r.get n = .ok x ↔ lookupKey n r = some x := by
  unfold Row.get
  cases lookupKey n r <;> simp

/-- C62.  Time, current and voltage are those of the row; the temperature is that of the row if there is one and it is finite, and the
default otherwise. -/
theorem C62_row_to_inputs (row : Row) (default t i temp v : Num) :
    rowToInputs row default = .ok (⟨t, i, temp⟩, ⟨v⟩) ↔
      lookupKey "test_time".toList row = some t ∧ lookupKey "current".toList row = some i ∧ lookupKey "voltage".toList row = some v ∧
        ((∃ x : ℝ, lookupKey "temperature".toList row = some (.fin x) ∧ temp = .fin x) ∨
          ((∀ x : ℝ, lookupKey "temperature".toList row ≠ some (.fin x)) ∧ temp = default)) := by
  unfold rowToInputs Row.get
  cases lookupKey "test_time".toList row with
  | none => cases lookupKey "temperature".toList row <;> simp
  | some t' =>
    cases lookupKey "current".toList row with
    | none => cases lookupKey "temperature".toList row <;> simp
    | some i' =>
      cases lookupKey "voltage".toList row with
      | none =>
        cases lookupKey "temperature".toList row with
        | none => simp
        | some x => cases x <;> simp [Num.isFinite]
      | some v' =>
        cases lookupKey "temperature".toList row with
        | none =>
          simp
          constructor
          · rintro ⟨⟨rfl, rfl, rfl⟩, rfl⟩
            exact ⟨rfl, rfl, rfl, rfl⟩
          · rintro ⟨rfl, rfl, rfl, rfl⟩
            exact ⟨⟨rfl, rfl, rfl⟩, rfl⟩
        | some x =>
          cases x <;> simp [Num.isFinite]
          all_goals
            constructor
            · rintro ⟨⟨rfl, rfl, rfl⟩, rfl⟩
              exact ⟨rfl, rfl, rfl, rfl⟩
            · rintro ⟨rfl, rfl, rfl, rfl⟩
              exact ⟨⟨rfl, rfl, rfl⟩, rfl⟩

/-- C62, the estimators: a joint or dual estimator given what a row was converted into takes its step with the time, the current and the
temperature of the row (the default one if there is none) as inputs, in this order and under these names, and with the voltage of the row
as the measurement. -/
theorem C62_what_estimators_receive (row : Row) (default t i v temp : ℝ) (ht : lookupKey "test_time".toList row = some (.fin t))
    (hi : lookupKey "current".toList row = some (.fin i)) (hv : lookupKey "voltage".toList row = some (.fin v))
    (htemp : lookupKey "temperature".toList row = some (.fin temp) ∨
      (∀ x : ℝ, lookupKey "temperature".toList row ≠ some (.fin x)) ∧ temp = default) :
    ∃ u y, rowToInputs row (.fin default) = .ok (u, y) ∧
      (∀ (svd : Mat → Vec × Mat) (e : Joint), (Joint.ops svd).step e u y =
        e.step svd ⟨[("time".toList, some (.ofRow [t])), ("current".toList, some (.ofRow [i])), ("temperature".toList, some (.ofRow [temp]))]⟩
          ⟨[("terminal_voltage".toList, some (.ofRow [v]))]⟩) ∧
      ∀ (svd : Mat → Vec × Mat) (e : Dual), (Dual.ops svd).step e u y =
        e.step svd ⟨[("time".toList, some (.ofRow [t])), ("current".toList, some (.ofRow [i])), ("temperature".toList, some (.ofRow [temp]))]⟩
          ⟨[("terminal_voltage".toList, some (.ofRow [v]))]⟩ := by
  refine ⟨⟨.fin t, .fin i, .fin temp⟩, ⟨.fin v⟩, (C62_row_to_inputs row (.fin default) _ _ _ _).2 ⟨ht, hi, hv, ?_⟩, fun _ _ => rfl, fun _ _ => rfl⟩
  rcases htemp with h | ⟨h, rfl⟩
  · exact .inl ⟨temp, h, rfl⟩
  · exact .inr ⟨h, rfl⟩

/-- C62.  The conversion fails exactly if the row has no time, no current or no voltage, with a KeyError. -/
theorem C62_missing_columns (row : Row) (default : Num) (err : Err) :
    rowToInputs row default = .error err ↔ err = .keyError ∧
      (lookupKey "test_time".toList row = none ∨ lookupKey "current".toList row = none ∨ lookupKey "voltage".toList row = none) := by
  unfold rowToInputs Row.get
  rcases h : lookupKey "temperature".toList row with _ | x
  · cases lookupKey "test_time".toList row <;> cases lookupKey "current".toList row <;> cases lookupKey "voltage".toList row <;>
      simp [eq_comm]
  · cases x <;> cases lookupKey "test_time".toList row <;> cases lookupKey "current".toList row <;>
      cases lookupKey "voltage".toList row <;> simp [Num.isFinite, eq_comm]

/-- A row with a temperature that is not a number: the default is used. -/
example : rowToInputs [("test_time".toList, .fin 3), ("current".toList, .fin 1), ("temperature".toList, .nan), ("voltage".toList, .fin 4)] =
    .ok (⟨.fin 3, .fin 1, .fin 25⟩, ⟨.fin 4⟩) :=
  (C62_row_to_inputs _ _ _ _ _ _).2 ⟨rfl, rfl, rfl, .inr ⟨fun x h => (by cases h), rfl⟩⟩

/-- A row with a temperature: it is used. -/
example : rowToInputs [("test_time".toList, .fin 3), ("current".toList, .fin 1), ("temperature".toList, .fin 40), ("voltage".toList, .fin 4)] =
    .ok (⟨.fin 3, .fin 1, .fin 40⟩, ⟨.fin 4⟩) :=
  (C62_row_to_inputs _ _ _ _ _ _).2 ⟨rfl, rfl, rfl, .inl ⟨40, rfl, rfl⟩⟩

/-- The estimators receive the default temperature with a row whose temperature is not a number. -/
example (svd : Mat → Vec × Mat) (e : Joint) : ∃ u y,
    rowToInputs [("test_time".toList, .fin 3), ("current".toList, .fin 1), ("temperature".toList, .nan), ("voltage".toList, .fin 4)] = .ok (u, y) ∧
    (Joint.ops svd).step e u y =
      e.step svd ⟨[("time".toList, some (.ofRow [3])), ("current".toList, some (.ofRow [1])), ("temperature".toList, some (.ofRow [25]))]⟩
        ⟨[("terminal_voltage".toList, some (.ofRow [4]))]⟩ :=
  let ⟨u, y, h, h', _⟩ := C62_what_estimators_receive [("test_time".toList, .fin 3), ("current".toList, .fin 1), ("temperature".toList, .nan), ("voltage".toList, .fin 4)]
    25 3 1 4 25 rfl rfl rfl (.inr ⟨fun x h => (by cases h), rfl⟩)
  ⟨u, y, h, h' svd e⟩

/-! ## Runs -/

variable {σ : Type}

theorem assignRow_ok {n : Nat} {v : Vec} (h : v.n = n) : assignRow n v = .ok (List.ofFn v.get) := by
  unfold assignRow
  rw [if_pos h]

theorem ofFn_diagonal {g : Gaussian} (h : g.Proper) :
    List.ofFn g.cov.diagonal.get = (List.range g.mean.n).map (fun j => g.cov.at' j j) := by
  obtain ⟨-, h2, h3⟩ := h
  have hn : g.cov.diagonal.n = g.mean.n := by simp [Mat.diagonal, h2, h3]
  refine List.ext_getElem (by simp [hn]) fun j h1 h2 => ?_
  simp only [List.getElem_ofFn, List.getElem_map, List.getElem_range]
  rfl

theorem tableRow_ok {nS nO : Nat} {s o : Gaussian} (hs : s.Proper) (hn : s.mean.n = nS) (ho : o.Proper) (hm : o.mean.n = nO) :
    tableRow nS nO s o = .ok (lineOf s o) := by
  have e1 : s.cov.diagonal.n = nS := by simp [Mat.diagonal, hs.2.1, hs.2.2, hn]
  have e2 : o.cov.diagonal.n = nO := by simp [Mat.diagonal, ho.2.1, ho.2.2, hm]
  simp only [tableRow, assignRow_ok hn, assignRow_ok e1, assignRow_ok hm, assignRow_ok e2, ok_bind, pure_eq_ok, lineOf,
    ofFn_diagonal hs, ofFn_diagonal ho]

/-- The steps given to the writer. -/
def stepsOf (rows : List Row) (outs : List (Gaussian × Gaussian)) (ss : List Writer.Step) : Prop :=
  List.Forall₂ (fun (p : Row × (Gaussian × Gaussian)) (s : Writer.Step) =>
    p.1.get "test_time".toList = .ok s.time ∧ p.1.get "cycle_number".toList = .ok s.cycle ∧ p.2 = (s.state, s.output)) (rows.zip outs) ss

theorem runLoop_ok {ops : EstimatorOps σ} {dims : Option (Nat × Nat)} {rows : List Row} :
    ∀ {e e' : σ} {w w' : Option Writer} {lines : List (List ℝ)}, runLoop ops dims e w rows = .ok (e', w', lines) →
      ∃ outs, Observes ops e rows outs e' ∧ outs.length = rows.length ∧ lines.length = rows.length ∧
        (∀ nS nO, dims = some (nS, nO) → ops.Sized e nS nO → lines = outs.map fun so => lineOf so.1 so.2) ∧
        (∀ w0, w = some w0 → ∃ w1 ss, w' = some w1 ∧ stepsOf rows outs ss ∧ w0.appendAll ss = (w1, none)) := by
  induction rows with
  | nil =>
    intro e e' w w' lines h
    simp only [runLoop, Except.ok.injEq, Prod.mk.injEq] at h
    obtain ⟨rfl, rfl, rfl⟩ := h
    exact ⟨[], .nil _, rfl, rfl, fun _ _ _ _ => rfl, fun w0 hw => ⟨w0, [], hw, .nil, rfl⟩⟩
  | cons row rest ih =>
    intro e e' w w' lines h
    unfold runLoop at h
    obtain ⟨⟨u, y⟩, hio, h⟩ := bind_ok.1 h
    obtain ⟨⟨e1, s, o⟩, hst, h⟩ := bind_ok.1 h
    obtain ⟨line, hline, h⟩ := bind_ok.1 h
    obtain ⟨w1, hw1, h⟩ := bind_ok.1 h
    obtain ⟨⟨e2, w2, ls⟩, hq, h⟩ := bind_ok.1 h
    simp only [pure_eq_ok, Except.ok.injEq, Prod.mk.injEq] at h
    obtain ⟨rfl, rfl, rfl⟩ := h
    obtain ⟨outs, ho, hl, hl2, hlines, hw⟩ := ih hq
    refine ⟨(s, o) :: outs, .cons hio hst ho, by simp [hl], by simp [hl2], ?_, ?_⟩
    · rintro nS nO rfl hsz
      have hz := hsz _ _ _ (.cons hio hst ho) _ (List.mem_cons_self)
      dsimp only at hz
      unfold lineFor at hline
      dsimp only at hline
      rw [tableRow_ok hz.1 hz.2.1 hz.2.2.1 hz.2.2.2] at hline
      rw [hlines nS nO rfl fun rows outs e' h so hso => hsz _ _ _ (.cons hio hst h) so (List.mem_cons_of_mem _ hso), ← Except.ok.inj hline]
      rfl
    · rintro w0 rfl
      unfold storeRow at hw1
      dsimp only at hw1
      obtain ⟨t, ht, hw1⟩ := bind_ok.1 hw1
      obtain ⟨c, hc, hw1⟩ := bind_ok.1 hw1
      split at hw1
      · next w3 h3 =>
        obtain rfl := Except.ok.inj hw1
        obtain ⟨w4, ss, h4, h5, h6⟩ := hw w3 rfl
        refine ⟨w4, ⟨t, c, s, o⟩ :: ss, h4, .cons ⟨ht, hc, rfl⟩ h5, ?_⟩
        unfold Writer.appendAll
        rw [h3]
        exact h6
      · cases hw1

theorem runOnline_ok {chunkOf : List Nat → Nat} {ops : EstimatorOps σ} {data : Data} {e e' : σ} {out : Bool} {w w' : Option Writer}
    {t : Option Table} {u : CellInput} (h : runOnline chunkOf ops data e out w = .ok (t, e', u, w')) :
    ∃ first rest y dims w1 w2 lines, data.rows = .ok (first :: rest) ∧ rowToInputs first = .ok (u, y) ∧
      dimsOf (ops.info e) out = .ok dims ∧ openWriter chunkOf (ops.info e) (rest.length + 1) data.numCycles w = .ok w1 ∧
      runLoop ops dims e w1 rest = .ok (e', w2, lines) ∧ makeTable (ops.info e') (rest.length + 1) lines dims = .ok t ∧
      w' = w2.map (·.exit) := by
  unfold runOnline at h
  obtain ⟨rows, hrows, h⟩ := bind_ok.1 h
  cases rows with
  | nil => cases h
  | cons first rest =>
    dsimp only at h
    obtain ⟨⟨u0, y⟩, hu, h⟩ := bind_ok.1 h
    obtain ⟨dims, hn, h⟩ := bind_ok.1 h
    obtain ⟨w1, hw1, h⟩ := bind_ok.1 h
    obtain ⟨⟨e2, w2, lines⟩, hq, h⟩ := bind_ok.1 h
    obtain ⟨t0, ht, h⟩ := bind_ok.1 h
    simp only [pure_eq_ok, Except.ok.injEq, Prod.mk.injEq] at h
    obtain ⟨rfl, rfl, rfl, rfl⟩ := h
    exact ⟨first, rest, y, dims, w1, w2, lines, hrows, hu, hn, hw1, hq, ht, rfl⟩

theorem makeTable_ok {info : EstimatorInfo} {n nS nO : Nat} {lines : List (List ℝ)} {t : Option Table}
    (h : makeTable info n lines (some (nS, nO)) = .ok t) :
    ∃ names, info.stateNames = .ok names ∧ t = some ⟨tableColumns names info.outputNames,
      lines ++ List.replicate (n - lines.length) (List.replicate (tableColumns names info.outputNames).length 0)⟩ ∧
      (tableColumns names info.outputNames).length = nS + nS + nO + nO := by
  unfold makeTable at h
  dsimp only at h
  obtain ⟨names, hn, h⟩ := bind_ok.1 h
  by_cases hc : (tableColumns names info.outputNames).length ≠ nS + nS + nO + nO
  · rw [if_pos hc] at h
    cases h
  · rw [if_neg hc] at h
    rw [not_not] at hc
    refine ⟨names, hn, ?_, hc⟩
    rw [← Except.ok.inj h, hc]

/-- What `runOnline` computes if the states are to be returned. -/
theorem runOnline_table {chunkOf : List Nat → Nat} {ops : EstimatorOps σ} {data : Data} {e e' : σ} {w w' : Option Writer}
    {t : Option Table} {u : CellInput} (h : runOnline chunkOf ops data e true w = .ok (t, e', u, w')) {names : List Name}
    (hn : (ops.info e).stateNames = .ok names) (hs : ops.Sized e names.length (ops.info e).nOutputs) :
    ∃ first rest outs names', data.rows = .ok (first :: rest) ∧ (ops.info e').stateNames = .ok names' ∧ Observes ops e rest outs e' ∧
      outs.length = rest.length ∧
      t = some ⟨tableColumns names' (ops.info e').outputNames, (outs.map fun so => lineOf so.1 so.2) ++
        [List.replicate (tableColumns names' (ops.info e').outputNames).length 0]⟩ ∧
      (tableColumns names' (ops.info e').outputNames).length =
        names.length + names.length + (ops.info e).nOutputs + (ops.info e).nOutputs := by
  obtain ⟨first, rest, y, dims, w1, w2, lines, h1, -, h3, -, h5, h6, -⟩ := runOnline_ok h
  unfold dimsOf at h3
  rw [hn] at h3
  obtain rfl := Except.ok.inj h3
  obtain ⟨names', hn', ht, hlen⟩ := makeTable_ok h6
  obtain ⟨outs, ho, hl, hl2, hlines, -⟩ := runLoop_ok h5
  refine ⟨first, rest, outs, names', h1, hn', ho, hl, ?_, hlen⟩
  rw [ht, hl2, ← hlines _ _ rfl hs]
  simp

/-- C63, for runs that return the states, of an estimator whose estimates have the dimensions it announces.  The table has one row per row
of the dataset.  Row `i` holds the estimate after row `i + 1` of the dataset, the last row holds zeros, and row 0 of the dataset is not
observed.  The property asks for the estimate after row `i` in row `i`. -/
theorem C63_rows_partial (chunkOf : List Nat → Nat) (ops : EstimatorOps σ) (data : Data) (e e' : σ) (w w' : Option Writer) (table : Table)
    (u : CellInput) (h : runOnline chunkOf ops data e true w = .ok (some table, e', u, w')) (names : List Name)
    (hn : (ops.info e).stateNames = .ok names) (hs : ops.Sized e names.length (ops.info e).nOutputs) :
    ∃ first rest outs, data.rows = .ok (first :: rest) ∧ Observes ops e rest outs e' ∧ outs.length = rest.length ∧
      table.rows.length = (first :: rest).length ∧
      (∀ i (hi : i < outs.length), table.rows[i]? = some (lineOf outs[i].1 outs[i].2)) ∧
      table.rows[rest.length]? = some (List.replicate table.columns.length 0) := by
  obtain ⟨first, rest, outs, names', h1, -, ho, hl, ht, -⟩ := runOnline_table h hn hs
  obtain rfl := Option.some.inj ht
  refine ⟨first, rest, outs, h1, ho, hl, by simp [hl], fun i hi => ?_, ?_⟩
  · dsimp only
    rw [List.getElem?_append_left (by simpa using hi)]
    simp [hi]
  · dsimp only
    rw [List.getElem?_append_right (by simp; omega)]
    simp [hl]

theorem four_parts {α : Type} {A B C D : List α} {n m : Nat} (hA : A.length = n) (hB : B.length = n) (hC : C.length = m) :
    (∀ j, j < n → (A ++ B ++ C ++ D)[j]? = A[j]? ∧ (A ++ B ++ C ++ D)[n + j]? = B[j]?) ∧
      ∀ j, (j < m → (A ++ B ++ C ++ D)[n + n + j]? = C[j]?) ∧ (A ++ B ++ C ++ D)[n + n + m + j]? = D[j]? := by
  subst hA hC
  refine ⟨fun j hj => ⟨?_, ?_⟩, fun j => ⟨fun hj => ?_, ?_⟩⟩
  · rw [List.append_assoc, List.append_assoc, List.getElem?_append_left hj]
  · rw [List.append_assoc, List.append_assoc, List.getElem?_append_right (by omega), Nat.add_sub_cancel_left,
      List.getElem?_append_left (by omega)]
  · rw [List.getElem?_append_left (by simp; omega), List.getElem?_append_right (by simp; omega)]
    congr 1
    simp
    omega
  · rw [List.getElem?_append_right (by simp; omega)]
    congr 1
    simp
    omega

/-- C64, likewise: the columns come as state, `_std` of the state, outputs, `_std` of the outputs, in the order of the names.  In row `i`
the columns without `_std` hold the means; those with it hold the diagonal of the covariances, i.e. variances.  The property asks for their
square roots. -/
theorem C64_columns_partial (chunkOf : List Nat → Nat) (ops : EstimatorOps σ) (data : Data) (e e' : σ) (w w' : Option Writer) (table : Table)
    (u : CellInput) (h : runOnline chunkOf ops data e true w = .ok (some table, e', u, w')) (names outNames : List Name)
    (hn : (ops.info e).stateNames = .ok names) (hn' : (ops.info e').stateNames = .ok names) (hon : (ops.info e').outputNames = outNames)
    (hs : ops.Sized e names.length (ops.info e).nOutputs) :
    ∃ first rest outs, data.rows = .ok (first :: rest) ∧ Observes ops e rest outs e' ∧
      ∀ i (hi : i < outs.length) (vals : List ℝ), table.rows[i]? = some vals →
        (∀ j (hj : j < names.length),
          table.columns[j]? = some (names[j]) ∧ vals[j]? = some (outs[i].1.mean.at' j) ∧
          table.columns[names.length + j]? = some (names[j] ++ "_std".toList) ∧
          vals[names.length + j]? = some (outs[i].1.cov.at' j j)) ∧
        ∀ j (hj : j < outNames.length),
          table.columns[names.length + names.length + j]? = some (outNames[j]) ∧
          vals[names.length + names.length + j]? = some (outs[i].2.mean.at' j) ∧
          table.columns[names.length + names.length + outNames.length + j]? = some (outNames[j] ++ "_std".toList) ∧
          vals[names.length + names.length + outNames.length + j]? = some (outs[i].2.cov.at' j j) := by
  obtain ⟨first, rest, outs, names', h1, hn'', ho, hl, ht, hlen⟩ := runOnline_table h hn hs
  rw [hn'] at hn''
  obtain rfl := Except.ok.inj hn''
  rw [hon] at ht hlen
  obtain rfl := Option.some.inj ht
  have hol : outNames.length = (ops.info e).nOutputs := by
    simp [tableColumns] at hlen
    omega
  refine ⟨first, rest, outs, h1, ho, fun i hi vals hline => ?_⟩
  dsimp only at hline
  rw [List.getElem?_append_left (by simpa using hi)] at hline
  simp only [List.getElem?_map, List.getElem?_eq_getElem hi, Option.map_some, Option.some.injEq] at hline
  obtain ⟨-, d1, -, d2⟩ := hs _ _ _ ho _ (List.getElem_mem hi)
  subst hline
  obtain ⟨c1, c2⟩ := four_parts (A := names) (B := names.map (· ++ "_std".toList)) (C := outNames)
    (D := outNames.map (· ++ "_std".toList)) rfl (by simp) rfl
  obtain ⟨l1, l2⟩ := four_parts (A := List.ofFn outs[i].1.mean.get) (B := (List.range outs[i].1.mean.n).map (fun j => outs[i].1.cov.at' j j))
    (C := List.ofFn outs[i].2.mean.get) (D := (List.range outs[i].2.mean.n).map (fun j => outs[i].2.cov.at' j j))
    (n := names.length) (m := outNames.length) (by simp [d1]) (by simp [d1]) (by simp [d2, hol])
  have hv : ∀ (v : Vec) (j : Nat), j < v.n → (List.ofFn v.get)[j]? = some (v.at' j) := fun v j hj => by
    simp [hj, Vec.at_lt hj]
  refine ⟨fun j hj => ?_, fun j hj => ?_⟩
  · obtain ⟨c3, c4⟩ := c1 j hj
    obtain ⟨l3, l4⟩ := l1 j hj
    have hj' : j < outs[i].1.mean.n := by rw [d1]; exact hj
    exact ⟨c3.trans (List.getElem?_eq_getElem hj), l3.trans (hv _ j hj'), c4.trans (by simp [hj]), l4.trans (by simp [hj'])⟩
  · obtain ⟨c3, c4⟩ := c2 j
    obtain ⟨l3, l4⟩ := l2 j
    have hj' : j < outs[i].2.mean.n := by rw [d2, ← hol]; exact hj
    exact ⟨(c3 hj).trans (List.getElem?_eq_getElem hj), (l3 hj).trans (hv _ j hj'), c4.trans (by simp [hj]), l4.trans (by simp [hj'])⟩

/-! ## A dataset is not observed from its beginning -/

/-- C65, as far as it goes: the attribute `_u` is set to the inputs of the first row of the dataset. -/
theorem C65_attribute_set_partial (chunkOf : List Nat → Nat) (ops : EstimatorOps σ) (data : Data) (e e' : σ) (out : Bool)
    (w w' : Option Writer) (t : Option Table) (u : CellInput) (h : runOnline chunkOf ops data e out w = .ok (t, e', u, w')) :
    ∃ first rest y, data.rows = .ok (first :: rest) ∧ rowToInputs first = .ok (u, y) := by
  obtain ⟨first, rest, y, dims, w1, w2, lines, h1, h2, -⟩ := runOnline_ok h
  exact ⟨first, rest, y, h1, h2⟩

/-- But no estimator looks at that attribute: the estimator that observes the second row is the one passed in, whatever the first row says.
Two datasets that differ in the first row only give the same table, the same estimator and the same file. -/
theorem C65_first_row_ignored (chunkOf : List Nat → Nat) (ops : EstimatorOps σ) (e : σ) (out : Bool) (w : Option Writer)
    (first first' : Row) (rest : List Row) (u u' : CellInput) (y y' : CellMeasurement) (h : rowToInputs first = .ok (u, y))
    (h' : rowToInputs first' = .ok (u', y')) (t : Option Table) (e' : σ) (w' : Option Writer) :
    runOnline chunkOf ops (.file (first :: rest)) e out w = .ok (t, e', u, w') ↔
      runOnline chunkOf ops (.file (first' :: rest)) e out w = .ok (t, e', u', w') := by
  simp only [runOnline, Data.rows, ok_bind, h, h', Data.numCycles, bind_eq_ok_iff, pure_eq_ok, Except.ok.injEq, Prod.mk.injEq]

/-! ## The file -/

theorem Observes.unique {ops : EstimatorOps σ} {e e1 e2 : σ} {rows : List Row} {o1 o2 : List (Gaussian × Gaussian)}
    (h1 : Observes ops e rows o1 e1) (h2 : Observes ops e rows o2 e2) : o1 = o2 ∧ e1 = e2 := by
  induction h1 generalizing o2 e2 with
  | nil e => cases h2; exact ⟨rfl, rfl⟩
  | cons hrow hstep _ ih =>
    cases h2 with
    | cons hrow' hstep' hrest' =>
      cases hrow.symm.trans hrow'
      cases hstep.symm.trans hstep'
      obtain ⟨rfl, rfl⟩ := ih hrest'
      exact ⟨rfl, rfl⟩

/-- C77.  The file read back: the times of the observed rows (all but the first) with what the steps for these rows returned. -/
theorem C77_file_holds_the_run (chunkOf : List Nat → Nat) (ops : EstimatorOps σ) (data : Data) (e e' : σ) (out : Bool) (w0 : Writer)
    (w' : Option Writer) (t : Option Table) (u : CellInput) (h : runOnline chunkOf ops data e out (some w0) = .ok (t, e', u, w'))
    (hm : w0.perTimestep ≠ .none) (first : Row) (rest : List Row) (hrows : data.rows = .ok (first :: rest)) (times : List Num)
    (htimes : List.Forall₂ (fun row t => lookupKey "test_time".toList row = some t) rest times) (hnan : ∀ t ∈ times, t ≠ .nan)
    (outs : List (Gaussian × Gaussian)) (ho : Observes ops e rest outs e') (hp : ∀ so ∈ outs, so.1.Proper ∧ so.2.Proper) :
    ∃ w1, w' = some w1 ∧ w1.group.read .timestep =
      .ok (List.zipWith (fun t so => (t, asStored w0.perTimestep so.1, asStored w0.perTimestep so.2)) times outs) := by
  obtain ⟨first', rest', y, dims, w1, w2, lines, h1, -, -, h4, h5, -, h7⟩ := runOnline_ok h
  rw [hrows] at h1
  obtain ⟨rfl, rfl⟩ := List.cons.inj (Except.ok.inj h1)
  obtain ⟨outs', ho', hl, -, -, hw⟩ := runLoop_ok h5
  obtain ⟨rfl, -⟩ := ho.unique ho'
  unfold openWriter at h4
  dsimp only at h4
  split at h4
  · next w3 h3 =>
    obtain rfl := Except.ok.inj h4
    obtain ⟨w4, ss, rfl, hss, happ⟩ := hw w3 rfl
    refine ⟨w4.exit, h7, ?_⟩
    have key : ss.map (fun s => (s.time, asStored w0.perTimestep s.state, asStored w0.perTimestep s.output)) =
        List.zipWith (fun t so => (t, asStored w0.perTimestep so.1, asStored w0.perTimestep so.2)) times outs ∧
        (∀ s ∈ ss, s.time ∈ times) ∧ ∀ s ∈ ss, (s.state, s.output) ∈ outs := by
      clear hw h3 h4 happ h5 h7 ho ho' hnan hp h1 hrows h
      induction htimes generalizing outs ss with
      | nil =>
        cases hss
        exact ⟨rfl, nofun, nofun⟩
      | @cons row t rows times hrt _ ih =>
        cases outs with
        | nil => cases hl
        | cons so outs =>
          cases hss with
          | @cons _ s _ ss hs hss =>
            obtain ⟨k1, -, k2⟩ := hs
            dsimp only at k1 k2
            have k1 := Row.get_ok.1 k1
            rw [hrt] at k1
            obtain rfl := Option.some.inj k1
            subst k2
            obtain ⟨i1, i2, i3⟩ := ih outs (by simpa using hl) ss hss
            refine ⟨by rw [List.map_cons, i1]; rfl, fun x hx => ?_, fun x hx => ?_⟩
            · rcases List.mem_cons.1 hx with rfl | hx
              · exact List.mem_cons_self
              · exact List.mem_cons_of_mem _ (i2 x hx)
            · rcases List.mem_cons.1 hx with rfl | hx
              · exact List.mem_cons_self
              · exact List.mem_cons_of_mem _ (i3 x hx)
    rw [← key.1]
    exact C66_timesteps_read_back chunkOf w0 w3 w4 _ _ _ h3 ss happ (fun s hs => hnan _ (key.2.1 s hs))
      (fun s hs => hp _ (key.2.2 s hs)) hm
  · cases h4

end Verif
