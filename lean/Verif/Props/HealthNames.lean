import Verif.Props.Demo
/-!
# Names, markings and batches of `HealthVariable` objects: C01, C02, C09, C10, C12
-/

namespace Verif
variable {α : Type}

/-! ## Spec-level broadcasting -/

theorem expandTo_eq_broadcast {b : Nat} (hb : 1 ≤ b) (a : Arr2 α) : expandTo b a = Spec.broadcast b a := by
  unfold expandTo Spec.broadcast
  split
  · rename_i h
    split
    · rename_i r hr
      apply Arr2.ext' <;> simp [Arr2.repeatRows, hr]
    · rename_i hr
      exfalso
      have := h.2
      unfold Arr2.nrow at this
      rw [List.length_eq_one_iff] at this
      obtain ⟨r, h⟩ := this
      exact hr r h
  · rename_i h
    split
    · rename_i r hr
      have : a.nrow = 1 := by simp [Arr2.nrow, hr]
      have hb1 : b = 1 := by omega
      subst hb1
      apply Arr2.ext' <;> simp [hr]
    · rfl

theorem batchLoop_ge {l : List Nat} : ∀ {b r : Nat}, batchLoop b l = .ok r → b ≤ r := by
  induction l with
  | nil => intro b r h; simp [batchLoop] at h; omega
  | cons n l ih =>
    intro b r h
    unfold batchLoop at h
    split at h
    · cases h
    · have := ih h; omega

theorem batchSize_pos {m : HV α} {b : Nat} (h : m.batchSize = .ok b) : 1 ≤ b := batchLoop_ge h

/-! ## C01 -/

/-- C01.  The names reported by `all_names` are exactly the names of the parameters of the object, and reading a parameter
by its name returns that parameter's own values (one copy of a single row per member of the batch). -/
theorem C01_name_addresses_its_parameter (m : HV α) (hw : m.WF) :
    (∀ n, n ∈ m.allNames ↔ ∃ p a, IsParam m p a ∧ n = pathName p) ∧
    (∀ p a b, IsParam m p a → m.batchSize = .ok b →
      m.getParameters (some [pathName p]) = .ok (Spec.broadcast b a)) := by
  refine ⟨fun n => mem_allNames, ?_⟩
  intro p a b hp hb
  have hn : pathName p ∈ m.allNames := mem_allNames.2 ⟨p, a, hp, rfl⟩
  rw [getParameters_names hw (by simp) (by simpa using hn) hb]
  have hv : valueAt m (pathName p) = a := valueAt_eq hw (mem_iterParams_false.2 ⟨p, hp, rfl⟩)
  simp [Arr2.hcat, hv, expandTo_eq_broadcast (batchSize_pos hb)]

/-- The hypotheses of C01 are met by a nested object: `t.1.r` addresses the second member of the tuple. -/
example : Demo.obj.getParameters (some [['t', '.', '1', '.', 'r']]) = .ok (.ofRow [7, 8]) := by
  have h : IsParam Demo.obj [['t'], ['1'], ['r']] (.ofRow [7, 8]) :=
    .tup (i := 1) (c := Demo.rc 7 8) (ms := [Demo.rc 5 6, Demo.rc 7 8]) (by simp) rfl (.arr (by simp))
  have := (C01_name_addresses_its_parameter Demo.obj Demo.obj_wf).2 _ _ 1 h (by rfl)
  simpa [pathName, Py.joinDots, Spec.broadcast, Arr2.ofRow] using this

/-- C01, `iter_parameters`: what is iterated under a name is the parameter of that name (both with and without
`updatable_only`). -/
theorem C01_iteration_yields_parameters (m : HV α) (n : Name) (a : Arr2 α) :
    ((n, a) ∈ iterParams false m ↔ ∃ p, IsParam m p a ∧ n = pathName p) ∧
    ((n, a) ∈ iterParams true m ↔ ∃ p, IsMarked m p a ∧ n = pathName p) :=
  ⟨mem_iterParams_false, mem_iterParams_true⟩

/-- The restriction in `HV.WF` is needed: with a dot in a dictionary key the reported name does not resolve. -/
theorem C01_dotted_key_unreachable :
    ∃ m : HV Int, ['d', '.', 'k', '.', 'l', '.', 'r'] ∈ m.allNames ∧
      m.getParameters (some [['d', '.', 'k', '.', 'l', '.', 'r']]) = .error .keyError :=
  ⟨.mk [] [(['d'], .dict [(['k', '.', 'l'], Demo.rc 1 2)])], by decide, by decide⟩

/-- Sub-models held in a Python list (rather than a tuple) are reported by `all_names` but cannot be read. -/
theorem C01_list_member_unreachable :
    ∃ m : HV Int, ['l', '.', '0', '.', 'r'] ∈ m.allNames ∧
      m.getParameters (some [['l', '.', '0', '.', 'r']]) = .error .valueError :=
  ⟨.mk [] [(['l'], .lst [Demo.rc 1 2])], by decide, by decide⟩

/-! ## C02 -/

/-- C02.  No name is reported twice. -/
theorem C02_names_distinct (m : HV α) (hw : m.WF) : m.allNames.Nodup ∧ m.updatableNames.Nodup :=
  ⟨iterParams_nodup false hw, iterParams_nodup true hw⟩

example : Demo.obj.allNames.Nodup := (C02_names_distinct Demo.obj Demo.obj_wf).1

/-- Dots in dictionary keys must be excluded: they can make two parameters share a name. -/
theorem C02_dotted_key_collision : ∃ m : HV Int, ¬ m.allNames.Nodup :=
  ⟨.mk [] [(['d'], .dict [(['k', '.', 'a'], Demo.rc 1 2), (['k'], .mk [] [(['a'], .sub (Demo.rc 3 4))])])], by decide⟩

/-! ## C09 -/

/-- C09, `mark_all_updatable()`. -/
theorem C09_mark_all_updatable (m : HV α) :
    (markAll true m).updatableNames = m.allNames ∧ iterParams false (markAll true m) = iterParams false m ∧
    iterParams true (markAll true m) = iterParams false m := by
  have h : ∀ u, iterParams u (markAll true m) = iterParams false m := by
    intro u; rw [iterParams_eq, iterP_markAll, ← iterParams_eq]
  exact ⟨by rw [HV.updatableNames, h]; rfl, h false, h true⟩

/-- C09, `mark_all_fixed()`, with or without recursion. -/
theorem C09_mark_all_fixed (m : HV α) (recurse : Bool) :
    (fixAll recurse m).updatableNames = [] ∧ iterParams false (fixAll recurse m) = iterParams false m := by
  constructor
  · rw [HV.updatableNames, iterParams_eq, iterP_fixAll_true]; rfl
  · rw [iterParams_eq, iterP_fixAll_false, ← iterParams_eq]

/-- C09, `mark_updatable(n)` for a parameter `n`: it succeeds, `n` becomes updatable, nothing stops being updatable, all
names and values stay. -/
theorem C09_mark_updatable (m : HV α) (hw : m.WF) (n : Name) (hn : n ∈ m.allNames) :
    ∃ m', m.markUpdatable n = .ok m' ∧ n ∈ m'.updatableNames ∧ (∀ k ∈ m.updatableNames, k ∈ m'.updatableNames) ∧
      iterParams false m' = iterParams false m := by
  obtain ⟨p, a, hp, rfl⟩ := mem_allNames.1 hn
  obtain ⟨m', h1, _, h3, h4, h5⟩ := mark_of_isParam hp hw
  refine ⟨m', ?_, mem_updatableNames.2 ⟨p, a, h4, rfl⟩, ?_, ?_⟩
  · simpa [HV.markUpdatable, pathName, hp.split hw] using h1
  · intro k hk
    obtain ⟨q, b, hq, rfl⟩ := mem_updatableNames.1 hk
    exact mem_updatableNames.2 ⟨q, b, h5 _ _ hq, rfl⟩
  · rw [iterParams_eq, h3, ← iterParams_eq]

example : ∃ m', Demo.obj.markUpdatable ['a', '.', 'q'] = .ok m' ∧ ['a', '.', 'q'] ∈ m'.updatableNames :=
  let ⟨m', h1, h2, _⟩ := C09_mark_updatable Demo.obj Demo.obj_wf ['a', '.', 'q'] (by decide)
  ⟨m', h1, h2⟩

/-- A side effect worth knowing: `mark_updatable` of one parameter can make *other* parameters updatable, namely those
already marked inside the sub-models on the way (here `d.k.r` exposes nothing else, but `a.q` exposes `a.p`). -/
theorem C09_mark_updatable_may_expose_others :
    ∃ (m m' : HV Int) (n k : Name), m.WF ∧ m.markUpdatable n = .ok m' ∧ k ≠ n ∧ k ∉ m.updatableNames ∧
      k ∈ m'.updatableNames :=
  ⟨.mk [] [(['a'], .sub Demo.inner)], .mk [['a']] [(['a'], .sub (.mk [['p'], ['q']] Demo.inner.fields))],
    ['a', '.', 'q'], ['a', '.', 'p'], by
      rw [WF_iff]
      refine ⟨by simp, ?_, ?_⟩
      · intro k f h; simp at h; simp [h.1]
      · intro k f h; simp at h; rw [h.2]; exact Demo.inner_wf,
    rfl, by decide, by decide, by decide⟩

/-! ## C10 -/

theorem sublist_eq_filter {us as : List Name} (hs : us.Sublist as) (hnd : as.Nodup) :
    us = as.filter (fun n => decide (n ∈ us)) := by
  induction hs with
  | slnil => rfl
  | @cons us as x hs ih =>
    simp only [List.nodup_cons] at hnd
    have hx : x ∉ us := fun h => hnd.1 (hs.subset h)
    simp only [List.filter_cons, hx, decide_false, Bool.false_eq_true, if_false]
    exact ih hnd.2
  | @cons_cons us as x hs ih =>
    simp only [List.nodup_cons] at hnd
    simp only [List.filter_cons, List.mem_cons, true_or, decide_true, if_true]
    congr 1
    have := ih hnd.2
    refine this.trans ?_
    apply List.filter_congr
    intro y hy
    have hne : y ≠ x := fun e => hnd.1 (e ▸ hy)
    simp [hne]

open Classical in
/-- C10.  `updatable_names` is `all_names` with the parameters dropped whose path is not completely marked: same order,
whatever the order of marking was. -/
theorem C10_updatable_names_are_marked_names_in_order (m : HV α) (hw : m.WF) :
    m.updatableNames = m.allNames.filter (fun n => decide (∃ p a, IsMarked m p a ∧ n = pathName p)) := by
  have hsub : m.updatableNames.Sublist m.allNames := by
    unfold HV.updatableNames HV.allNames
    rw [iterParams_eq, iterParams_eq]
    exact ((iterP_sublist m).map _).map _
  refine (sublist_eq_filter hsub (C02_names_distinct m hw).1).trans ?_
  apply List.filter_congr
  intro n _
  simp only [mem_updatableNames]

/-- C10, consequence: two objects with the same parameters and the same marked parameters have the same vector layout,
however the markings came about. -/
theorem C10_layout_independent_of_marking_history (m m' : HV α) (hw : m.WF) (hw' : m'.WF)
    (hnames : m.allNames = m'.allNames) (hmarks : ∀ n, n ∈ m.updatableNames ↔ n ∈ m'.updatableNames) :
    m.updatableNames = m'.updatableNames := by
  classical
  rw [C10_updatable_names_are_marked_names_in_order m hw, C10_updatable_names_are_marked_names_in_order m' hw', hnames]
  apply List.filter_congr
  intro n _
  have := hmarks n
  rw [mem_updatableNames, mem_updatableNames] at this
  simp only [this]

/-- Marking `a.q` and then `a.p`, or the other way round, gives the same layout. -/
example :
    ((Demo.obj.markUpdatable ['a', '.', 'q']).toOption.map HV.updatableNames) =
      some [['x'], ['a', '.', 'p'], ['a', '.', 'q'], ['t', '.', '0', '.', 'r'], ['t', '.', '1', '.', 'r']] := by decide

/-! ## C12 -/

/-- C12.  Batch size `B` is reported exactly if every parameter has one row or `B` rows and (`B = 1` or) some parameter
has `B` rows; otherwise `ValueError` is raised.  (Arrays have at least one row.) -/
theorem C12_batch_size (m : HV α) (hpos : ∀ p a, IsParam m p a → 1 ≤ a.nrow) :
    (∀ B, m.batchSize = .ok B ↔
      (∀ p a, IsParam m p a → a.nrow = 1 ∨ a.nrow = B) ∧ (B = 1 ∨ ∃ p a, IsParam m p a ∧ a.nrow = B)) ∧
    (m.batchSize = .error .valueError ↔
      ∃ p a q b, IsParam m p a ∧ IsParam m q b ∧ a.nrow ≠ 1 ∧ b.nrow ≠ 1 ∧ a.nrow ≠ b.nrow) := by
  have hmem : ∀ k, k ∈ (iterParams false m).map (fun p => p.2.nrow) ↔ ∃ p a, IsParam m p a ∧ a.nrow = k := by
    intro k
    simp only [List.mem_map]
    constructor
    · rintro ⟨⟨n, a⟩, h, rfl⟩
      obtain ⟨p, hp, _⟩ := mem_iterParams_false.1 h
      exact ⟨p, a, hp, rfl⟩
    · rintro ⟨p, a, hp, rfl⟩
      exact ⟨(pathName p, a), mem_iterParams_false.2 ⟨p, hp, rfl⟩, rfl⟩
  have hl : ∀ n ∈ (iterParams false m).map (fun p => p.2.nrow), 1 ≤ n := by
    intro n hn
    obtain ⟨p, a, hp, rfl⟩ := (hmem n).1 hn
    exact hpos p a hp
  have hok : ∀ B, m.batchSize = .ok B ↔
      (∀ p a, IsParam m p a → a.nrow = 1 ∨ a.nrow = B) ∧ (B = 1 ∨ ∃ p a, IsParam m p a ∧ a.nrow = B) := by
    intro B
    unfold HV.batchSize
    rw [batchLoop_ok (by omega) hl]
    constructor
    · rintro ⟨h1, h2⟩
      refine ⟨fun p a hp => h1 _ (List.mem_cons_of_mem _ ((hmem _).2 ⟨p, a, hp, rfl⟩)), ?_⟩
      rcases List.mem_cons.1 h2 with h2 | h2
      · exact .inl h2
      · exact .inr ((hmem _).1 h2)
    · rintro ⟨h1, h2⟩
      refine ⟨?_, ?_⟩
      · intro n hn
        rcases List.mem_cons.1 hn with rfl | hn
        · exact .inl rfl
        · obtain ⟨p, a, hp, rfl⟩ := (hmem n).1 hn
          exact h1 p a hp
      · rcases h2 with rfl | h2
        · simp
        · exact List.mem_cons_of_mem _ ((hmem _).2 h2)
  refine ⟨hok, ?_⟩
  constructor
  · intro he
    apply Classical.byContradiction
    intro hno
    -- no conflicting pair: then some `B` is reported
    by_cases hone : ∃ p a, IsParam m p a ∧ a.nrow ≠ 1
    · obtain ⟨p, a, hp, ha⟩ := hone
      have := (hok a.nrow).2 ⟨?_, .inr ⟨p, a, hp, rfl⟩⟩
      · rw [this] at he; cases he
      · intro q b hq
        by_cases hb : b.nrow = 1
        · exact .inl hb
        · right
          apply Classical.byContradiction
          intro hne
          exact hno ⟨q, b, p, a, hq, hp, hb, ha, hne⟩
    · have := (hok 1).2 ⟨?_, .inl rfl⟩
      · rw [this] at he; cases he
      · intro p a hp
        left
        apply Classical.byContradiction
        intro h
        exact hone ⟨p, a, hp, h⟩
  · rintro ⟨p, a, q, b, hp, hq, ha, hb, hne⟩
    cases hc : m.batchSize with
    | error e => rw [batchLoop_error hc]
    | ok B =>
      have h := ((hok B).1 hc).1
      have h1 := h p a hp
      have h2 := h q b hq
      omega

/-- A batched object: one parameter with 3 rows, one with a single row. -/
example : (HV.mk (α := Int) [] [(['x'], .arr (.column [1, 2, 3])), (['y'], .arr (.ofRow [4, 5]))]).batchSize = .ok 3 := by
  decide

/-- C12, reading: when `batch_size` is `B`, a vector of parameters has exactly `B` rows, and each block is the parameter
broadcast to `B` rows. -/
theorem C12_vector_has_batch_rows (m : HV α) (hw : m.WF) (hpos : ∀ p a, IsParam m p a → 1 ≤ a.nrow) (B : Nat)
    (hB : m.batchSize = .ok B) (ns : List Name) (hall : ∀ n ∈ ns, n ∈ m.allNames) :
    ∃ v, m.getParameters (some ns) = .ok v ∧ v.nrow = B := by
  by_cases hne : ns = []
  · subst hne
    refine ⟨Arr2.empty B, ?_, by simp [Arr2.nrow, Arr2.empty]⟩
    simp only [HV.getParameters, Option.getD_some, if_true, hB]; rfl
  · rw [getParameters_names hw hne hall hB]
    have hrows : ∀ a ∈ ns.map (fun n => expandTo B (valueAt m n)), a.nrow = B := by
      intro a ha
      rw [List.mem_map] at ha
      obtain ⟨n, hn, rfl⟩ := ha
      obtain ⟨p, hp, _⟩ := mem_iterParams_false.1 (valueAt_mem (hall n hn))
      have h1 := hpos p _ hp
      have h2 := (((C12_batch_size m hpos).1 B).1 hB).1 p _ hp
      unfold expandTo
      split
      · rename_i h
        have hlen : (valueAt m n).rows.length = 1 := h.2
        rw [List.length_eq_one_iff] at hlen
        obtain ⟨r, hr⟩ := hlen
        simp [Arr2.repeatRows, Arr2.nrow, hr]
      · rename_i h
        have := batchSize_pos hB
        omega
    have hne' : ns.map (fun n => expandTo B (valueAt m n)) ≠ [] := by simpa using hne
    revert hrows hne'
    generalize ns.map (fun n => expandTo B (valueAt m n)) = l
    intro hrows hne'
    induction l with
    | nil => exact absurd rfl hne'
    | cons a l ih =>
      cases l with
      | nil => exact ⟨a, rfl, hrows a (by simp)⟩
      | cons b l =>
        obtain ⟨w, hw1, hw2⟩ := ih (fun x hx => hrows x (by simp [hx])) (by simp)
        rw [Arr2.hcat, hw1]
        have ha := hrows a (by simp)
        have hc : Arr2.hcat2 a w = .ok ⟨a.ncol + w.ncol, List.zipWith (· ++ ·) a.rows w.rows, _⟩ := if_pos (by rw [ha, hw2])
        refine ⟨_, hc, ?_⟩
        simp only [Arr2.nrow, List.length_zipWith] at ha hw2 ⊢
        omega

/-- Arrays without any row must be excluded: then the outcome depends on the order of the fields. -/
theorem C12_zero_rows_order_dependent :
    ∃ a b : Arr2 Int,
      (HV.mk [] [(['x'], .arr a), (['y'], .arr b)]).batchSize = .ok 2 ∧
      (HV.mk [] [(['x'], .arr b), (['y'], .arr a)]).batchSize = .error .valueError :=
  ⟨⟨1, [], by simp⟩, .column [1, 2], by decide, by decide⟩

end Verif
