import Verif.Props.Continue
/-!
# C129: only the columns that are used matter
-/

namespace Verif

variable {σ : Type}

/-! ## Specification -/

/-- Two rows that hold the same time, current, voltage and number of the cycle, and the same temperature if it is a finite number.  All else may differ: the
order of the columns, further columns, and how a missing temperature is represented. -/
def Spec.SameReading (r r' : Row) : Prop :=
  (∀ k ∈ ["test_time", "current", "voltage", "cycle_number"].map (·.toList), lookupKey k r' = lookupKey k r) ∧
    ∀ x : ℝ, lookupKey "temperature".toList r' = some (.fin x) ↔ lookupKey "temperature".toList r = some (.fin x)

/-- Two datasets, both in memory or both in a file, with the same readings. -/
def Spec.SameReadings : Data → Data → Prop
  | .memory none, .memory none => True
  | .memory (some (cols, rows)), .memory (some (cols', rows')) => List.Forall₂ (fun r r' => SameReading (cols.zip r) (cols'.zip r')) rows rows'
  | .file rows, .file rows' => List.Forall₂ SameReading rows rows'
  | _, _ => False

/-! ## Proofs -/

theorem rowToInputs_same {r r' : Row} (h : Spec.SameReading r r') : rowToInputs r' = rowToInputs r := by
  obtain ⟨h1, h2⟩ := h
  have ht := h1 "test_time".toList (by simp)
  have hi := h1 "current".toList (by simp)
  have hv := h1 "voltage".toList (by simp)
  have hT : (∃ x, lookupKey "temperature".toList r' = some (.fin x) ∧ lookupKey "temperature".toList r = some (.fin x)) ∨
      (∀ x, lookupKey "temperature".toList r' ≠ some (.fin x)) ∧ ∀ x, lookupKey "temperature".toList r ≠ some (.fin x) := by
    by_cases h : ∃ x, lookupKey "temperature".toList r = some (.fin x)
    · obtain ⟨x, hx⟩ := h
      exact .inl ⟨x, (h2 x).2 hx, hx⟩
    · exact .inr ⟨fun x hx => h ⟨x, (h2 x).1 hx⟩, fun x hx => h ⟨x, hx⟩⟩
  unfold rowToInputs Row.get
  rw [ht, hi, hv]
  rcases hT with ⟨x, e, e'⟩ | ⟨n, n'⟩
  · rw [e, e']
  · generalize lookupKey "temperature".toList r = o at n' ⊢
    generalize lookupKey "temperature".toList r' = o' at n ⊢
    have k : ∀ {o : Option Num}, (∀ x, o ≠ some (.fin x)) → o = none ∨ ∃ t, o = some t ∧ t.isFinite = false := by
      intro o h
      rcases o with _ | t
      · exact .inl rfl
      · cases t with
        | fin x => exact absurd rfl (h x)
        | _ => exact .inr ⟨_, rfl, rfl⟩
    rcases k n with rfl | ⟨t, rfl, ht⟩ <;> rcases k n' with rfl | ⟨t', rfl, ht'⟩ <;> simp only [*] <;> rfl

theorem storeRow_same {r r' : Row} (h : Spec.SameReading r r') (s o : Gaussian) (w : Option Writer) : storeRow r' s o w = storeRow r s o w := by
  unfold storeRow Row.get
  rw [h.1 "test_time".toList (by simp), h.1 "cycle_number".toList (by simp)]

theorem runLoop_same {ops : EstimatorOps σ} {dims : Option (Nat × Nat)} {rows rows' : List Row} (h : List.Forall₂ Spec.SameReading rows rows') :
    ∀ (e : σ) (w : Option Writer), runLoop ops dims e w rows' = runLoop ops dims e w rows := by
  induction h with
  | nil => intro e w; rfl
  | cons hr _ ih =>
    intro e w
    simp only [runLoop, rowToInputs_same hr, storeRow_same hr, ih]

theorem rows_same {data data' : Data} (h : Spec.SameReadings data data') :
    (∃ err, data.rows = .error err ∧ data'.rows = .error err) ∨
      ∃ rows rows', data.rows = .ok rows ∧ data'.rows = .ok rows' ∧ List.Forall₂ Spec.SameReading rows rows' := by
  match data, data', h with
  | .memory none, .memory none, _ => exact .inl ⟨_, rfl, rfl⟩
  | .memory (some (cols, rows)), .memory (some (cols', rows')), h =>
    exact .inr ⟨_, _, rfl, rfl, by rw [List.forall₂_map_left_iff, List.forall₂_map_right_iff]; exact h⟩
  | .file rows, .file rows', h => exact .inr ⟨_, _, rfl, rfl, h⟩

theorem numCycles_same {data data' : Data} (h : Spec.SameReadings data data') : data'.numCycles = data.numCycles := by
  match data, data', h with
  | .memory none, .memory none, _ => rfl
  | .memory (some (cols, rows)), .memory (some (cols', rows')), h =>
    simp only [Data.numCycles, Option.some.injEq]
    congr 1
    replace h : List.Forall₂ (fun r r' => Spec.SameReading (cols.zip r) (cols'.zip r')) rows rows' := h
    induction h with
    | nil => rfl
    | cons hr _ ih => simp only [List.map_cons, ih, hr.1 "cycle_number".toList (by simp)]
  | .file rows, .file rows', h => rfl

/-- C129: what a run does (the table, the estimator it leaves, what is written to the file, or the error) depends only on the time, the current, the voltage,
the number of the cycle and the finite temperatures in the rows of the dataset.  For every estimator, with or without a writer. -/
theorem C129_only_used_columns (chunkOf : List Nat → Nat) (ops : EstimatorOps σ) (data data' : Data) (h : Spec.SameReadings data data') (e : σ) (out : Bool)
    (w : Option Writer) : runOnline chunkOf ops data' e out w = runOnline chunkOf ops data e out w := by
  unfold runOnline
  rw [numCycles_same h]
  rcases rows_same h with ⟨err, h1, h2⟩ | ⟨rows, rows', h1, h2, h3⟩
  · rw [h1, h2]
  · rw [h1, h2]
    cases h3 with
    | nil => rfl
    | cons hr h3 => simp only [ok_bind, rowToInputs_same hr, runLoop_same h3, h3.length_eq]

/-! ## Concrete cases -/

-- Readings without temperatures, and the same readings with the columns in another order, a further column and temperatures that are not numbers.
example (chunkOf : List Nat → Nat) (ops : EstimatorOps σ) (e : σ) (out : Bool) (w : Option Writer) (xs : List (ℝ × ℝ × ℝ × ℕ)) :
    runOnline chunkOf ops (.memory (some (["cycle_number", "energy", "voltage", "temperature", "current", "test_time"].map (·.toList),
      xs.map fun x => [.fin x.2.2.2, .fin 7, .fin x.2.2.1, .nan, .fin x.2.1, .fin x.1]))) e out w =
    runOnline chunkOf ops (Demo.dataset xs) e out w := by
  refine C129_only_used_columns chunkOf ops _ _ ?_ e out w
  show List.Forall₂ _ _ _
  rw [List.forall₂_map_left_iff, List.forall₂_map_right_iff, List.forall₂_same]
  refine fun x _ => ⟨?_, ?_⟩
  · intro k hk
    simp only [List.map_cons, List.map_nil, List.mem_cons, List.not_mem_nil, or_false] at hk
    rcases hk with rfl | rfl | rfl | rfl <;> rfl
  · intro y
    constructor <;> intro h <;> cases h

end Verif
