import Verif.Props.SimulatorFrame
/-!
# The descriptions of the columns of simulated datasets (C117)
-/

namespace Verif
variable {α A : Type}

/-! ## Specification -/

/-- The entry of a column `n` that comes from an object of the class `kind`. -/
def Spec.entry (kind n : Name) : Name × Name := (n, "Input variable from ".toList ++ kind)

/-- The last entries of the history are the present objects of the simulator. -/
structure Spec.UpToDate (s : Simulator (Container α) (Container α) A (Container α)) (h : History (Container α) (Container α) A (Container α)) : Prop where
  input : s.input ∈ h.inputs
  transient : s.transient ∈ h.transients
  measurement : s.measurement ∈ h.measurements

/-! ## Lemmas -/

theorem dictSet_new {κ β : Type} [DecidableEq κ] {d : List (κ × β)} {k : κ} (h : k ∉ d.map (·.1)) (v : β) : dictSet d k v = d ++ [(k, v)] := by
  unfold dictSet
  rw [if_neg]
  simp only [List.any_eq_true, decide_eq_true_eq, not_exists, not_and]
  intro e he hk
  exact h (List.mem_map.2 ⟨e, he, hk⟩)

theorem dictSet_foldl {κ β : Type} [DecidableEq κ] (v : β) (l : List κ) : ∀ d : List (κ × β), l.Nodup → (∀ k ∈ l, k ∉ d.map (·.1)) →
    l.foldl (fun d n => dictSet d n v) d = d ++ l.map fun n => (n, v) := by
  induction l with
  | nil => intro d _ _; simp
  | cons k l ih =>
    intro d hn hd
    rw [List.nodup_cons] at hn
    rw [List.foldl_cons, dictSet_new (hd k (by simp)), ih _ hn.2]
    · simp
    · intro j hj
      simp only [List.map_append, List.map_cons, List.map_nil, List.mem_append, List.mem_singleton, not_or]
      exact ⟨hd j (by simp [hj]), fun e => hn.1 (e ▸ hj)⟩

theorem dictSet_keys {κ β : Type} [DecidableEq κ] {d : List (κ × β)} (h : (d.map (·.1)).Nodup) (k : κ) (v : β) : ((dictSet d k v).map (·.1)).Nodup := by
  unfold dictSet
  split
  · have : (d.map fun e => if e.1 = k then (k, v) else e).map (·.1) = d.map (·.1) := by
      rw [List.map_map]
      refine List.map_congr_left fun e _ => ?_
      simp only [Function.comp]
      split
      · rename_i h; exact h.symm
      · rfl
    rwa [this]
  · rename_i hn
    simp only [List.any_eq_true, decide_eq_true_eq, not_exists, not_and] at hn
    rw [List.map_append, List.nodup_append]
    refine ⟨h, by simp, ?_⟩
    rintro a ha b hb rfl
    simp only [List.map_cons, List.map_nil, List.mem_singleton] at hb
    obtain ⟨e, he, rfl⟩ := List.mem_map.1 ha
    exact hn e he hb

theorem mem_dictSet {κ β : Type} [DecidableEq κ] {d : List (κ × β)} {k j : κ} {v w : β} :
    (j, w) ∈ dictSet d k v ↔ (j = k ∧ w = v) ∨ (j ≠ k ∧ (j, w) ∈ d) := by
  unfold dictSet
  split
  · rename_i hk
    simp only [List.any_eq_true, decide_eq_true_eq] at hk
    obtain ⟨e₀, h₀, rfl⟩ := hk
    simp only [List.mem_map]
    constructor
    · rintro ⟨e, he, h⟩
      split at h
      · simp only [Prod.mk.injEq] at h
        exact .inl ⟨h.1.symm, h.2.symm⟩
      · rename_i hne
        subst h
        exact .inr ⟨hne, he⟩
    · rintro (⟨rfl, rfl⟩ | ⟨hne, he⟩)
      · exact ⟨e₀, h₀, by rw [if_pos rfl]⟩
      · exact ⟨_, he, by rw [if_neg hne]⟩
  · rename_i hk
    simp only [List.any_eq_true, decide_eq_true_eq, not_exists, not_and] at hk
    simp only [List.mem_append, List.mem_singleton, Prod.mk.injEq]
    constructor
    · rintro (h | h)
      · exact .inr ⟨hk _ h, h⟩
      · exact .inl h
    · rintro (h | h)
      · exact .inr h
      · exact .inl h.2

theorem foldl_keys {κ β : Type} [DecidableEq κ] (v : β) (l : List κ) : ∀ d : List (κ × β), (d.map (·.1)).Nodup →
    ((l.foldl (fun d n => dictSet d n v) d).map (·.1)).Nodup := by
  induction l with
  | nil => intro d h; exact h
  | cons k l ih => intro d h; exact ih _ (dictSet_keys h k v)

theorem mem_foldl {κ β : Type} [DecidableEq κ] {v w : β} {j : κ} (l : List κ) : ∀ d : List (κ × β),
    (j, w) ∈ l.foldl (fun d n => dictSet d n v) d ↔ (j ∈ l ∧ w = v) ∨ (j ∉ l ∧ (j, w) ∈ d) := by
  induction l with
  | nil => intro d; simp
  | cons k l ih =>
    intro d
    rw [List.foldl_cons, ih, mem_dictSet, List.mem_cons]
    by_cases h2 : j = k
    · subst h2
      by_cases h1 : j ∈ l <;> simp [h1]
    · by_cases h1 : j ∈ l <;> simp [h1, h2]

theorem regular_columns {B : Nat} {l : List (Container α)} (h : Regular B l) {c d : Container α} (hc : c ∈ l) (hd : d ∈ l) :
    c.allNames = .ok (Spec.columns d) := by
  rw [(C15_length_width_names c (h.wf c hc)).1]
  have := congrArg (fun l => l.flatMap fun p : Name × Nat => Spec.labels p.1 p.2) (h.layout c hc d hd)
  simp only [List.flatMap_map] at this
  exact congrArg _ this

theorem extraColumns_foldl {s : Simulator (Container α) (Container α) A (Container α)} {i x y : List Name} (hi : s.input.allNames = .ok i)
    (hx : s.transient.allNames = .ok x) (hy : s.measurement.allNames = .ok y) (kinds : Name × Name × Name) :
    s.extraColumns kinds = .ok (y.foldl (fun d n => dictSet d n (describeColumn kinds.2.2)) (x.foldl (fun d n => dictSet d n (describeColumn kinds.2.1))
      (i.foldl (fun d n => dictSet d n (describeColumn kinds.1)) []))) := by
  unfold Simulator.extraColumns
  simp only [List.foldlM_cons, List.foldlM_nil, hi, hx, hy, bind, Except.bind, pure, Except.pure]

theorem described_extra {s : Simulator (Container α) (Container α) A (Container α)} {kinds : Name × Name × Name}
    {ds : List (List Name × List (List (Option α)) × List (Name × Name))} (h : s.toBatdataDescribed kinds = .ok ds)
    {d : List Name × List (List (Option α)) × List (Name × Name)} (hd : d ∈ ds) : s.extraColumns kinds = .ok d.2.2 := by
  unfold Simulator.toBatdataDescribed at h
  obtain ⟨l, -, h'⟩ := except_bind_ok h
  clear h
  rename' h' => h
  induction l generalizing ds with
  | nil => cases h; cases hd
  | cons e l ih =>
    rw [List.mapM_cons] at h
    obtain ⟨d', hd', h⟩ := except_bind_ok h
    obtain ⟨x, hx', hd'⟩ := except_bind_ok hd'
    obtain ⟨ds', hds', h⟩ := except_bind_ok h
    cases h
    cases hd'
    rcases List.mem_cons.1 hd with rfl | hd
    · exact hx'
    · exact ih hd hds'

theorem extraColumns_ok {s : Simulator (Container α) (Container α) A (Container α)} {i x y : List Name} (hi : s.input.allNames = .ok i)
    (hx : s.transient.allNames = .ok x) (hy : s.measurement.allNames = .ok y) (hn : (i ++ x ++ y).Nodup) (kinds : Name × Name × Name) :
    s.extraColumns kinds = .ok (i.map (Spec.entry kinds.1) ++ x.map (Spec.entry kinds.2.1) ++ y.map (Spec.entry kinds.2.2)) := by
  rw [List.nodup_append, List.nodup_append] at hn
  obtain ⟨⟨ni, nx, hix⟩, ny, hixy⟩ := hn
  unfold Simulator.extraColumns
  simp only [List.foldlM_cons, List.foldlM_nil, hi, hx, hy, bind, Except.bind, pure, Except.pure]
  rw [dictSet_foldl _ i [] ni (by simp), dictSet_foldl _ x _ nx, dictSet_foldl _ y _ ny]
  · rfl
  · intro k hk hm
    simp only [List.nil_append, List.map_append, List.map_map, List.mem_append, List.mem_map, Function.comp] at hm
    rcases hm with ⟨j, hj, rfl⟩ | ⟨j, hj, rfl⟩
    · exact hixy j (List.mem_append.2 (.inl hj)) j hk rfl
    · exact hixy j (List.mem_append.2 (.inr hj)) j hk rfl
  · intro k hk hm
    simp only [List.nil_append, List.map_map, List.mem_map, Function.comp] at hm
    obtain ⟨j, hj, rfl⟩ := hm
    exact hix j hj j hk rfl

theorem mapM_pure_ok {β γ : Type} {g : β → γ} (l : List β) : (l.mapM fun d => (.ok (g d) : Except Err γ)) = .ok (l.map g) := by
  induction l with
  | nil => rfl
  | cons d l ih => rw [List.mapM_cons, ih]; rfl

/-! ## C117 -/

/-- C117, the tables are the same with descriptions as without them. -/
theorem C117_same_tables (s : Simulator (Container α) (Container α) A (Container α)) (kinds : Name × Name × Name)
    {ds : List (List Name × List (List (Option α)) × List (Name × Name))} (h : s.toBatdataDescribed kinds = .ok ds) :
    s.toBatdata = .ok (ds.map fun d => (d.1, d.2.1)) := by
  unfold Simulator.toBatdataDescribed at h
  obtain ⟨l, hl, h'⟩ := except_bind_ok h
  rw [hl]
  refine congrArg _ ?_
  clear hl h
  rename' h' => h
  induction l generalizing ds with
  | nil => cases h; rfl
  | cons d l ih =>
    rw [List.mapM_cons] at h
    obtain ⟨d', hd', h⟩ := except_bind_ok h
    obtain ⟨e, -, hd'⟩ := except_bind_ok hd'
    obtain ⟨ds', hds', h⟩ := except_bind_ok h
    cases h
    cases hd'
    rw [List.map_cons, ← ih hds']

/-- C117, for every simulator: no name is described twice, and those described are the names of the last inputs, transient state and measurement, each said
to come from the last of the three that has it. -/
theorem C117_names_described (s : Simulator (Container α) (Container α) A (Container α)) (kinds : Name × Name × Name)
    {ds : List (List Name × List (List (Option α)) × List (Name × Name))} (h : s.toBatdataDescribed kinds = .ok ds) (hi : s.input.WF) (hx : s.transient.WF)
    (hy : s.measurement.WF) (d : List Name × List (List (Option α)) × List (Name × Name)) (hd : d ∈ ds) :
    (d.2.2.map (·.1)).Nodup ∧ ∀ n text, (n, text) ∈ d.2.2 ↔
      (n ∈ Spec.columns s.measurement ∧ (n, text) = Spec.entry kinds.2.2 n) ∨
      (n ∉ Spec.columns s.measurement ∧ n ∈ Spec.columns s.transient ∧ (n, text) = Spec.entry kinds.2.1 n) ∨
      (n ∉ Spec.columns s.measurement ∧ n ∉ Spec.columns s.transient ∧ n ∈ Spec.columns s.input ∧ (n, text) = Spec.entry kinds.1 n) := by
  have he := described_extra h hd
  rw [extraColumns_foldl (C15_length_width_names _ hi).1 (C15_length_width_names _ hx).1 (C15_length_width_names _ hy).1, Except.ok.injEq] at he
  rw [← he]
  refine ⟨foldl_keys _ _ _ (foldl_keys _ _ _ (foldl_keys _ _ _ (by simp))), fun n text => ?_⟩
  have ee : ∀ k : Name, (n, text) = Spec.entry k n ↔ text = describeColumn k := fun k => by
    unfold Spec.entry describeColumn
    generalize "Input variable from ".toList ++ k = t
    rw [Prod.mk.injEq, and_iff_right rfl]
  rw [mem_foldl, mem_foldl, mem_foldl, ee, ee, ee]
  simp only [List.not_mem_nil, and_false, or_false, and_or_left, Spec.columns]

/-- C117, for a recorded history whose columns have distinct names.  There is a dataset per cell, and its descriptions are: one for every name of an input,
of a transient state and of a measurement, telling the class it comes from – but these are the names before the time and the voltage are renamed, and all
are called inputs. -/
theorem C117_descriptions_partial (s : Simulator (Container α) (Container α) A (Container α)) (kinds : Name × Name × Name)
    (h : History (Container α) (Container α) A (Container α)) (B n : Nat) (hr : RegularHistory s h B n) (hu : Spec.UpToDate s h)
    (i₀ x₀ y₀ : Container α) (hi : h.inputs.head? = some i₀) (hx : h.transients.head? = some x₀) (hy : h.measurements.head? = some y₀)
    (hd : (Spec.columns i₀ ++ Spec.columns x₀ ++ Spec.columns y₀).Nodup) :
    ∃ ds, s.toBatdataDescribed kinds = .ok ds ∧ ds.length = B ∧ ∀ d ∈ ds,
      d.1 = (Spec.columns i₀ ++ Spec.columns x₀ ++ Spec.columns y₀).map Spec.datasetColumn ∧
      d.2.2 = (Spec.columns i₀).map (Spec.entry kinds.1) ++ (Spec.columns x₀).map (Spec.entry kinds.2.1) ++
        (Spec.columns y₀).map (Spec.entry kinds.2.2) := by
  obtain ⟨l, hl, hlen, hall⟩ := C42_batdata_contents_partial s h B n hr i₀ x₀ y₀ hi hx hy
  have he := extraColumns_ok (s := s) (regular_columns hr.inputs hu.input (List.mem_of_mem_head? hi))
    (regular_columns hr.transients hu.transient (List.mem_of_mem_head? hx))
    (regular_columns hr.measurements hu.measurement (List.mem_of_mem_head? hy)) hd kinds
  refine ⟨l.map fun d => (d.1, d.2, (Spec.columns i₀).map (Spec.entry kinds.1) ++ (Spec.columns x₀).map (Spec.entry kinds.2.1) ++
    (Spec.columns y₀).map (Spec.entry kinds.2.2)), ?_, ?_, ?_⟩
  · unfold Simulator.toBatdataDescribed
    rw [hl, he]
    exact mapM_pure_ok l
  · simpa using hlen
  · intro d hd'
    obtain ⟨e, he', rfl⟩ := List.mem_map.1 hd'
    refine ⟨?_, rfl⟩
    obtain ⟨b, hb, hbe⟩ := List.mem_iff_getElem.1 he'
    obtain ⟨rows, hrows, -⟩ := hall b (hlen ▸ hb)
    rw [List.getElem?_eq_getElem hb, hbe, Option.some.injEq] at hrows
    rw [hrows]

/-- C117, what is right about them: a column other than time and voltage has a description. -/
theorem C117_other_columns_described_partial (s : Simulator (Container α) (Container α) A (Container α)) (kinds : Name × Name × Name)
    (h : History (Container α) (Container α) A (Container α)) (B n : Nat) (hr : RegularHistory s h B n) (hu : Spec.UpToDate s h)
    (i₀ x₀ y₀ : Container α) (hi : h.inputs.head? = some i₀) (hx : h.transients.head? = some x₀) (hy : h.measurements.head? = some y₀)
    (hd : (Spec.columns i₀ ++ Spec.columns x₀ ++ Spec.columns y₀).Nodup) :
    ∃ ds, s.toBatdataDescribed kinds = .ok ds ∧ ∀ d ∈ ds, ∀ c ∈ d.1, c ≠ "test_time".toList → c ≠ "voltage".toList → ∃ text, (c, text) ∈ d.2.2 := by
  obtain ⟨ds, hds, -, hall⟩ := C117_descriptions_partial s kinds h B n hr hu i₀ x₀ y₀ hi hx hy hd
  refine ⟨ds, hds, fun d hd' c hc h1 h2 => ?_⟩
  obtain ⟨e1, e2⟩ := hall d hd'
  rw [e1] at hc
  obtain ⟨m, hm, rfl⟩ := List.mem_map.1 hc
  have em : Spec.datasetColumn m = m := by
    rw [← renameColumn_eq] at h1 h2 ⊢
    unfold renameColumn at *
    split
    · rename_i h; rw [if_pos h] at h1; exact absurd rfl h1
    · split
      · rename_i h' h; rw [if_neg h', if_pos h] at h2; exact absurd rfl h2
      · rfl
  rw [em, e2]
  simp only [List.mem_append] at hm ⊢
  rcases hm with (hm | hm) | hm
  · exact ⟨_, .inl (.inl (List.mem_map_of_mem hm))⟩
  · exact ⟨_, .inl (.inr (List.mem_map_of_mem hm))⟩
  · exact ⟨_, .inr (List.mem_map_of_mem hm)⟩

/-- C117 fails for the time and the voltage, whenever they are recorded: the datasets describe `time` and `terminal_voltage`, which none of their columns is
called, and not the columns `test_time` and `voltage` (unless other values have these names). -/
theorem C117_renamed_columns_not_described (s : Simulator (Container α) (Container α) A (Container α)) (kinds : Name × Name × Name)
    (h : History (Container α) (Container α) A (Container α)) (B n : Nat) (hr : RegularHistory s h B n) (hu : Spec.UpToDate s h)
    (i₀ x₀ y₀ : Container α) (hi : h.inputs.head? = some i₀) (hx : h.transients.head? = some x₀) (hy : h.measurements.head? = some y₀)
    (hd : (Spec.columns i₀ ++ Spec.columns x₀ ++ Spec.columns y₀).Nodup) :
    ∃ ds, s.toBatdataDescribed kinds = .ok ds ∧ ∀ d ∈ ds, ∀ p ∈ [("time".toList, "test_time".toList), ("terminal_voltage".toList, "voltage".toList)],
      p.1 ∈ Spec.columns i₀ ++ Spec.columns x₀ ++ Spec.columns y₀ →
      p.2 ∈ d.1 ∧ p.1 ∉ d.1 ∧ (∃ text, (p.1, text) ∈ d.2.2) ∧
        (p.2 ∉ Spec.columns i₀ ++ Spec.columns x₀ ++ Spec.columns y₀ → ∀ text, (p.2, text) ∉ d.2.2) := by
  obtain ⟨ds, hds, -, hall⟩ := C117_descriptions_partial s kinds h B n hr hu i₀ x₀ y₀ hi hx hy hd
  refine ⟨ds, hds, fun d hd' p hp hmem => ?_⟩
  obtain ⟨e1, e2⟩ := hall d hd'
  have ep : Spec.datasetColumn p.1 = p.2 := by
    simp only [List.mem_cons, List.not_mem_nil, or_false] at hp
    rcases hp with rfl | rfl <;> rfl
  have en : ∀ m, Spec.datasetColumn m ≠ p.1 := by
    intro m
    rw [← renameColumn_eq]
    simp only [List.mem_cons, List.not_mem_nil, or_false] at hp
    unfold renameColumn
    rcases hp with rfl | rfl
    · split
      · decide
      · split
        · decide
        · assumption
    · split
      · decide
      · split
        · decide
        · assumption
  rw [e1, e2]
  refine ⟨List.mem_map.2 ⟨p.1, hmem, ep⟩, ?_, ?_, ?_⟩
  · intro hc
    obtain ⟨m, -, hm⟩ := List.mem_map.1 hc
    exact en m hm
  · simp only [List.mem_append] at hmem ⊢
    rcases hmem with (hm | hm) | hm
    · exact ⟨_, .inl (.inl (List.mem_map_of_mem hm))⟩
    · exact ⟨_, .inl (.inr (List.mem_map_of_mem hm))⟩
    · exact ⟨_, .inr (List.mem_map_of_mem hm)⟩
  · intro hno text ht
    simp only [List.mem_append, List.mem_map, Spec.entry, Prod.mk.injEq, not_or] at ht hno
    rcases ht with (⟨m, hm, rfl, -⟩ | ⟨m, hm, rfl, -⟩) | ⟨m, hm, rfl, -⟩
    · exact hno.1.1 hm
    · exact hno.1.2 hm
    · exact hno.2 hm

/-- The hypothesis `UpToDate` holds for every simulator that kept its history and returned from all steps. -/
theorem upToDate_evolve (m : CellModel (Container α) (Container α) A (Container α)) (d : DegradationModel (Container α) (Container α) A (Container α))
    (a₀ : A) (x₀ i₀ : Container α) (s₀ s : Simulator (Container α) (Container α) A (Container α)) (inputs ys : List (Container α))
    (hinit : Simulator.init m d a₀ x₀ i₀ true = .ok s₀) (hrun : s₀.evolve inputs = (s, .ok ys)) :
    ∃ h, s.history = some h ∧ Spec.UpToDate s h := by
  obtain ⟨h, hh, -, -, -, -, -, -, -, -, -, l1, l2, -, l3⟩ := C39_history_faithful m d a₀ x₀ i₀ s₀ s inputs ys hinit hrun
  exact ⟨h, hh, List.mem_of_getLast? l1, List.mem_of_getLast? l2, List.mem_of_getLast? l3⟩

/-! ## A concrete case -/

-- Two cells recorded at two steps.
example (kinds : Name × Name × Name) : ∃ ds, FrameDemo.sim.toBatdataDescribed kinds = .ok ds ∧ ∀ d ∈ ds, ∀ c ∈ d.1, c ≠ "test_time".toList →
    c ≠ "voltage".toList → ∃ text, (c, text) ∈ d.2.2 :=
  C117_other_columns_described_partial _ kinds _ 2 2 FrameDemo.regularHistory
    ⟨by simp [FrameDemo.sim, FrameDemo.hist], by simp [FrameDemo.sim, FrameDemo.hist], by simp [FrameDemo.sim, FrameDemo.hist]⟩ _ _ _ rfl rfl rfl (by decide)

example : ∃ ds, FrameDemo.sim.toBatdataDescribed ("InputQuantities".toList, "GeneralContainer".toList, "OutputQuantities".toList) = .ok ds ∧
    ds.map (fun d => (d.1, d.2.2)) = List.replicate 2 (["test_time".toList, "soc".toList, "voltage".toList],
      [("time".toList, "Input variable from InputQuantities".toList), ("soc".toList, "Input variable from GeneralContainer".toList),
       ("terminal_voltage".toList, "Input variable from OutputQuantities".toList)]) :=
  ⟨_, rfl, by decide⟩

end Verif
