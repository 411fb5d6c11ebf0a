import Verif.Props.HealthNames
import Verif.Proofs.HealthSkeleton
/-!
# Reading and writing parameter vectors of `HealthVariable` objects: C03 – C08
-/

namespace Verif
variable {α : Type}

/-! ## Specification -/

/-- Every parameter of the object has a single row. -/
def Spec.Unbatched (m : HV α) : Prop := ∀ p a, IsParam m p a → a.nrow = 1

/-- `l` lists parameters of `m`: paths together with the arrays found there. -/
def Spec.Params (m : HV α) (l : List (List Name × Arr2 α)) : Prop := ∀ q ∈ l, IsParam m q.1 q.2

/-- The names under which the user knows the listed parameters. -/
def Spec.names (l : List (List Name × Arr2 α)) : List Name := l.map fun q => pathName q.1

/-! ## Lemmas -/

theorem updatable_subset {m : HV α} {n : Name} (h : n ∈ m.updatableNames) : n ∈ m.allNames := by
  obtain ⟨p, a, hp, rfl⟩ := mem_updatableNames.1 h
  exact mem_allNames.2 ⟨p, a, hp.isParam, rfl⟩

theorem isParam_iff_mem {m m' : HV α} (hw : m.WF) (hw' : m'.WF) {p : List Name} {a b : Arr2 α} (hp : IsParam m p a) :
    (pathName p, b) ∈ iterParams false m' ↔ IsParam m' p b := by
  constructor
  · intro h
    obtain ⟨q, hq, he⟩ := mem_iterParams_false.1 h
    rw [pathName_inj hw hw' hp hq he]; exact hq
  · intro h; exact mem_iterParams_false.2 ⟨p, h, rfl⟩

theorem isMarked_iff_mem {m m' : HV α} (hw : m.WF) (hw' : m'.WF) {p : List Name} {a b : Arr2 α} (hp : IsParam m p a) :
    (pathName p, b) ∈ iterParams true m' ↔ IsMarked m' p b := by
  constructor
  · intro h
    obtain ⟨q, hq, he⟩ := mem_iterParams_true.1 h
    rw [pathName_inj hw hw' hp hq.isParam he]; exact hq
  · intro h; exact mem_iterParams_true.2 ⟨p, h, rfl⟩

theorem updateParameters_fst (m : HV α) (v : Vals α) (names : Option (List Name)) :
    (m.updateParameters v names).1 = (updateLoop v.to2d (names.getD m.updatableNames) m 0 0).1 := by
  unfold HV.updateParameters
  simp only
  split <;> rename_i h <;> rw [h]

theorem updateParameters_snd_error {m : HV α} {v : Vals α} {names : Option (List Name)} {e : Err}
    (h : (updateLoop v.to2d (names.getD m.updatableNames) m 0 0).2 = .error e) :
    (m.updateParameters v names).2 = .error e := by
  unfold HV.updateParameters
  simp only
  split <;> rename_i h' <;> rw [h'] at h
  · simpa using h
  · cases h

theorem updateParameters_snd_ok {m : HV α} {v : Vals α} {names : Option (List Name)} {e : Nat}
    (h : (updateLoop v.to2d (names.getD m.updatableNames) m 0 0).2 = .ok e) :
    (m.updateParameters v names).2 = if e ≠ v.to2d.ncol then .error .valueError else .ok () := by
  unfold HV.updateParameters
  simp only
  split <;> rename_i h' <;> rw [h'] at h
  · cases h
  · cases h; rfl

/-- The call on parameter names: it performs a prefix of the block writes, succeeds exactly under the stated conditions and
otherwise raises `ValueError`. -/
theorem update_spec {m : HV α} (hw : m.WF) {v : Vals α} {ns : List Name} (hall : ∀ n ∈ ns, n ∈ m.allNames) (hnd : ns.Nodup) :
    ∃ k, k ≤ ns.length ∧ (m.updateParameters v (some ns)).1.WF ∧
      (∀ u, iterParams u (m.updateParameters v (some ns)).1 =
        (iterParams u m).map (assign ((writesFrom m v.to2d 0 ns).take k))) ∧
      ((∀ q ∈ writesFrom m v.to2d 0 ns, q ∈ iterParams false m) → (m.updateParameters v (some ns)).1 = m) ∧
      (((∀ n ∈ ns, n ∈ m.updatableNames) ∧ totalSize m ns = v.to2d.ncol ∧ k = ns.length ∧
          (m.updateParameters v (some ns)).2 = .ok ()) ∨
       (¬ ((∀ n ∈ ns, n ∈ m.updatableNames) ∧ totalSize m ns = v.to2d.ncol) ∧
          (m.updateParameters v (some ns)).2 = .error .valueError)) := by
  obtain ⟨k, hk, h1, h2, h3, h4⟩ := updateLoop_spec (v := v.to2d) (pos := 0) (e := 0) hw hall hnd
  rw [updateParameters_fst]
  refine ⟨k, hk, h1, h2, h3, ?_⟩
  rcases h4 with ⟨a1, a2, a3, a4⟩ | ⟨a1, a2, a3⟩
  · have a4' : (updateLoop v.to2d ns m 0 0).2 = .ok (totalSize m ns) := by
      rw [a4]
      by_cases hns : ns = []
      · subst hns; rfl
      · simp [hns]
    rw [updateParameters_snd_ok (names := some ns) a4']
    by_cases he : totalSize m ns = v.to2d.ncol
    · exact .inl ⟨a1, he, a3, by simp [he]⟩
    · exact .inr ⟨fun h => he h.2, by simp [he]⟩
  · rw [updateParameters_snd_error (names := some ns) a3]
    refine .inr ⟨fun h => a1 ⟨h.1, fun _ => ?_⟩, rfl⟩
    have := h.2
    omega

theorem sizeAt_unbatched {m : HV α} (hw : m.WF) (hu : Spec.Unbatched m) {p : List Name} {a : Arr2 α} (hp : IsParam m p a) :
    sizeAt m (pathName p) = a.ncol := by
  rw [sizeAt_of_isParam hw hp, Arr2.size, hu p a hp, Nat.one_mul]

theorem names_mem {m : HV α} {l : List (List Name × Arr2 α)} (hl : Spec.Params m l) :
    ∀ n ∈ Spec.names l, n ∈ m.allNames := by
  intro n hn
  simp only [Spec.names, List.mem_map] at hn
  obtain ⟨q, hq, rfl⟩ := hn
  exact mem_allNames.2 ⟨q.1, q.2, hl q hq, rfl⟩

theorem marked_iff {m : HV α} (hw : m.WF) {p : List Name} {a : Arr2 α} (hp : IsParam m p a) :
    pathName p ∈ m.updatableNames ↔ IsMarked m p a := by
  rw [mem_updatableNames]
  constructor
  · rintro ⟨p', a', h, he⟩
    have := pathName_inj hw hw hp h.isParam he
    subst this
    rw [hp.unique h.isParam hw]; exact h
  · intro h; exact ⟨p, a, h, rfl⟩

theorem names_marked {m : HV α} (hw : m.WF) {l : List (List Name × Arr2 α)} (hl : Spec.Params m l) :
    (∀ n ∈ Spec.names l, n ∈ m.updatableNames) ↔ ∀ q ∈ l, IsMarked m q.1 q.2 := by
  constructor
  · intro h q hq
    exact (marked_iff hw (hl q hq)).1 (h _ (by simp only [Spec.names, List.mem_map]; exact ⟨q, hq, rfl⟩))
  · intro h n hn
    simp only [Spec.names, List.mem_map] at hn
    obtain ⟨q, hq, rfl⟩ := hn
    exact (marked_iff hw (hl q hq)).2 (h q hq)

theorem totalSize_names {m : HV α} (hw : m.WF) {l : List (List Name × Arr2 α)} (hl : Spec.Params m l) :
    totalSize m (Spec.names l) = (l.map fun q => q.2.size).sum := by
  unfold totalSize Spec.names
  rw [List.map_map]
  congr 1
  apply List.map_congr_left
  intro q hq
  exact sizeAt_of_isParam hw (hl q hq)

theorem totalSize_unbatched {m : HV α} (hw : m.WF) (hu : Spec.Unbatched m) {l : List (List Name × Arr2 α)}
    (hl : Spec.Params m l) : totalSize m (Spec.names l) = (l.map fun q => q.2.ncol).sum := by
  rw [totalSize_names hw hl]
  congr 1
  apply List.map_congr_left
  intro q hq
  rw [Arr2.size, hu _ _ (hl q hq), Nat.one_mul]

theorem writes_mem_names {m : HV α} {v : Arr2 α} {ns : List Name} {pos : Nat} {q : Name × Arr2 α}
    (h : q ∈ writesFrom m v pos ns) : q.1 ∈ ns := by
  have := List.mem_map_of_mem (f := (·.1)) h
  rwa [writesFrom_names] at this

/-- Slices commute with broadcasting. -/
theorem expandTo_cols (b : Nat) (v : Arr2 α) (lo hi : Nat) : expandTo b (v.cols lo hi) = (expandTo b v).cols lo hi := by
  have hn : (v.cols lo hi).nrow = v.nrow := by simp [Arr2.cols, Arr2.nrow]
  unfold expandTo
  rw [hn]
  split
  · rename_i h
    have := h.2
    unfold Arr2.nrow at this
    rw [List.length_eq_one_iff] at this
    obtain ⟨r, hr⟩ := this
    apply Arr2.ext' <;> simp [Arr2.repeatRows, Arr2.cols, hr]
  · rfl

theorem slices_eq_writes (m : HV α) (v : Arr2 α) (ns : List Name) : ∀ pos,
    (writesFrom m v pos ns).map (·.2) = v.slices pos (ns.map (sizeAt m)) := by
  induction ns with
  | nil => intro pos; rfl
  | cons n ns ih => intro pos; simp [writesFrom, Arr2.slices, ih]

theorem slices_expandTo (b : Nat) (v : Arr2 α) (ss : List Nat) : ∀ pos,
    (v.slices pos ss).map (expandTo b) = (expandTo b v).slices pos ss := by
  induction ss with
  | nil => intro pos; rfl
  | cons s ss ih => intro pos; simp [Arr2.slices, ih, expandTo_cols]

theorem expandTo_ncol (b : Nat) (v : Arr2 α) : (expandTo b v).ncol = v.ncol := by
  unfold expandTo; split <;> rfl

/-- Values after a successful update: those written. -/
theorem valueAt_written {m m' : HV α} (hw' : m'.WF) {ws : List (Name × Arr2 α)}
    (hi : iterParams false m' = (iterParams false m).map (assign ws)) (hnd : (ws.map (·.1)).Nodup)
    {q : Name × Arr2 α} (hq : q ∈ ws) (hn : q.1 ∈ m.allNames) : valueAt m' q.1 = q.2 := by
  apply valueAt_eq hw'
  rw [hi, List.mem_map]
  refine ⟨(q.1, valueAt m q.1), valueAt_mem hn, ?_⟩
  unfold assign
  rw [assoc_of_mem hnd hq]
  rfl

/-! ## C03 -/

/-- C03.  After a successful `update_parameters(values, names)` on distinct parameter names the vector read back is
`values`, a single row standing for every member of the batch. -/
theorem C03_update_then_get (m : HV α) (hw : m.WF) (v : Vals α) (ns : List Name) (hne : ns ≠ []) (hnd : ns.Nodup)
    (hall : ∀ n ∈ ns, n ∈ m.allNames) (m' : HV α) (hok : m.updateParameters v (some ns) = (m', .ok ())) (b : Nat)
    (hb : m'.batchSize = .ok b) :
    m'.getParameters (some ns) = .ok (Spec.broadcast b v.to2d) := by
  obtain ⟨k, _, h1, h2, _, h4⟩ := update_spec (v := v) hw hall hnd
  rw [hok] at h1 h2 h4
  rcases h4 with ⟨a1, a2, a3, _⟩ | ⟨_, a2⟩
  rotate_left
  · cases a2
  have hlen : (writesFrom m v.to2d 0 ns).length = ns.length := by
    rw [← List.length_map (f := (·.1)), writesFrom_names]
  have htake : (writesFrom m v.to2d 0 ns).take k = writesFrom m v.to2d 0 ns := by
    rw [a3, ← hlen, List.take_length]
  simp only [htake] at h2
  have hall' : ∀ n ∈ ns, n ∈ m'.allNames := by
    intro n hn
    have : m'.allNames = m.allNames := by
      unfold HV.allNames; rw [h2 false, map_assign_names]
    rw [this]; exact hall n hn
  rw [getParameters_names h1 hne hall' hb]
  have hvals : ns.map (fun n => expandTo b (valueAt m' n)) = (expandTo b v.to2d).slices 0 (ns.map (sizeAt m)) := by
    rw [← slices_expandTo, ← slices_eq_writes]
    have : ns.map (fun n => expandTo b (valueAt m' n)) =
        ((writesFrom m v.to2d 0 ns).map (·.1)).map (fun n => expandTo b (valueAt m' n)) := by rw [writesFrom_names]
    rw [this, List.map_map, List.map_map]
    apply List.map_congr_left
    intro q hq
    simp only [Function.comp]
    rw [valueAt_written h1 (h2 false) (by rw [writesFrom_names]; exact hnd) hq (hall _ (writes_mem_names hq))]
  rw [hvals]
  have hsum : (ns.map (sizeAt m)).sum = (expandTo b v.to2d).ncol := by
    rw [expandTo_ncol, ← a2]; rfl
  rw [Arr2.hcat_slices _ (by simpa using hne) (by omega)]
  rw [hsum, Nat.zero_add, Arr2.cols_full, expandTo_eq_broadcast (batchSize_pos hb)]

/-- C03, when the parameters that are not written have a single row: any number of rows can be written and exactly
`values` is read back. -/
theorem C03_update_then_get_exact (m : HV α) (hw : m.WF) (v : Vals α) (ns : List Name) (hne : ns ≠ []) (hnd : ns.Nodup)
    (hall : ∀ n ∈ ns, n ∈ m.allNames) (hrow : 1 ≤ v.to2d.nrow)
    (hrest : ∀ p a, IsParam m p a → pathName p ∉ ns → a.nrow = 1) (m' : HV α)
    (hok : m.updateParameters v (some ns) = (m', .ok ())) :
    m'.batchSize = .ok v.to2d.nrow ∧ m'.getParameters (some ns) = .ok v.to2d := by
  obtain ⟨k, _, h1, h2, _, h4⟩ := update_spec (v := v) hw hall hnd
  rw [hok] at h1 h2 h4
  rcases h4 with ⟨a1, a2, a3, _⟩ | ⟨_, a2⟩
  rotate_left
  · cases a2
  have hlen : (writesFrom m v.to2d 0 ns).length = ns.length := by
    rw [← List.length_map (f := (·.1)), writesFrom_names]
  have htake : (writesFrom m v.to2d 0 ns).take k = writesFrom m v.to2d 0 ns := by
    rw [a3, ← hlen, List.take_length]
  simp only [htake] at h2
  have hwrows : ∀ pos, ∀ q ∈ writesFrom m v.to2d pos ns, q.2.nrow = v.to2d.nrow := by
    intro pos
    have := slices_eq_writes m v.to2d ns pos
    intro q hq
    have hq2 : q.2 ∈ v.to2d.slices pos (ns.map (sizeAt m)) := by
      rw [← this]; exact List.mem_map_of_mem (f := (·.2)) hq
    revert hq2
    generalize ns.map (sizeAt m) = ss
    generalize q.2 = w
    clear hq this
    intro hq2
    induction ss generalizing pos with
    | nil => simp [Arr2.slices] at hq2
    | cons s ss ih =>
      rw [Arr2.slices, List.mem_cons] at hq2
      rcases hq2 with rfl | hq2
      · simp [Arr2.cols, Arr2.nrow]
      · exact ih _ hq2
  have key : ∀ n a, (n, a) ∈ iterParams false m' → (n ∈ ns ∧ a.nrow = v.to2d.nrow) ∨ a.nrow = 1 := by
    intro n a hna
    rw [h2 false, List.mem_map] at hna
    obtain ⟨q, hq, he⟩ := hna
    have hqn : q.1 = n := by rw [← assign_fst, he]
    by_cases hn : n ∈ ns
    · left
      refine ⟨hn, ?_⟩
      have hmem : n ∈ (writesFrom m v.to2d 0 ns).map (·.1) := by rw [writesFrom_names]; exact hn
      rw [List.mem_map] at hmem
      obtain ⟨w, hw1, hw2⟩ := hmem
      have hsome : assoc q.1 (writesFrom m v.to2d 0 ns) = some w.2 := by
        rw [hqn, ← hw2]; exact assoc_of_mem (by rw [writesFrom_names]; exact hnd) hw1
      have ha : a = w.2 := by
        have := congrArg (·.2) he
        simp only [assign, hsome] at this
        simpa using this.symm
      rw [ha]; exact hwrows 0 w hw1
    · right
      have hno : assoc q.1 (writesFrom m v.to2d 0 ns) = none := by
        cases hc : assoc q.1 (writesFrom m v.to2d 0 ns) with
        | none => rfl
        | some w =>
          have := writes_mem_names (assoc_mem hc)
          simp only [hqn] at this
          exact absurd this hn
      have ha : a = q.2 := by
        have := congrArg (·.2) he
        simp only [assign, hno] at this
        simpa using this.symm
      obtain ⟨p, hp, hpn⟩ := mem_iterParams_false.1 hq
      rw [ha]
      exact hrest p q.2 hp (by rw [← hpn, hqn]; exact hn)
  have hb : m'.batchSize = .ok v.to2d.nrow := by
    unfold HV.batchSize
    rw [batchLoop_ok (by omega)]
    · refine ⟨?_, ?_⟩
      · intro r hr
        rw [List.mem_cons, List.mem_map] at hr
        rcases hr with rfl | ⟨⟨n, a⟩, hna, rfl⟩
        · exact .inl rfl
        · rcases key n a hna with h | h
          · exact .inr h.2
          · exact .inl h
      · obtain ⟨n, ns', rfl⟩ := List.exists_cons_of_ne_nil hne
        have hn : n ∈ m'.allNames := by
          have : m'.allNames = m.allNames := by
            unfold HV.allNames; rw [h2 false, map_assign_names]
          rw [this]; exact hall n (by simp)
        rw [List.mem_cons, List.mem_map]
        by_cases h1' : v.to2d.nrow = 1
        · exact .inl h1'
        · right
          refine ⟨(n, valueAt m' n), valueAt_mem hn, ?_⟩
          have : (n, v.to2d.cols 0 (0 + sizeAt m n)) ∈ writesFrom m v.to2d 0 (n :: ns') := by simp [writesFrom]
          have hv := valueAt_written h1 (h2 false) (by rw [writesFrom_names]; exact hnd) this (hall n (by simp))
          simp only at hv
          rw [hv]; exact hwrows 0 _ this
    · intro r hr
      rw [List.mem_map] at hr
      obtain ⟨⟨n, a⟩, hna, rfl⟩ := hr
      rcases key n a hna with h | h <;> simp only <;> omega
  refine ⟨hb, ?_⟩
  rw [C03_update_then_get m hw v ns hne hnd hall m' hok _ hb, ← expandTo_eq_broadcast (batchSize_pos hb)]
  unfold expandTo
  split
  · rename_i h; omega
  · rfl

/-- Three rows written to two parameters of the demo object and read back. -/
example : ∃ m', Demo.obj.updateParameters (.d2 ⟨3, [[1, 2, 3], [4, 5, 6], [7, 8, 9]], by decide⟩)
      (some [['a', '.', 'p'], ['x']]) = (m', .ok ()) ∧
    m'.getParameters (some [['a', '.', 'p'], ['x']]) = .ok ⟨3, [[1, 2, 3], [4, 5, 6], [7, 8, 9]], by decide⟩ := by
  refine ⟨_, (rfl : _ = (_, _)), ?_⟩
  decide

/-- C03 for `make_copy(values, names)`: it returns a copy exactly when the update of the object itself would be accepted, and the copy
reads `values` back. -/
theorem C03_make_copy_then_get (m : HV α) (hw : m.WF) (v : Vals α) (ns : List Name) (hne : ns ≠ []) (hnd : ns.Nodup)
    (hall : ∀ n ∈ ns, n ∈ m.allNames) :
    ((∃ c, m.makeCopy v (some ns) = .ok c) ↔ (m.updateParameters v (some ns)).2 = .ok ()) ∧
    ∀ c b, m.makeCopy v (some ns) = .ok c → c.batchSize = .ok b → c.getParameters (some ns) = .ok (Spec.broadcast b v.to2d) := by
  unfold HV.makeCopy
  rcases h : m.updateParameters v (some ns) with ⟨m', e | u⟩
  · simp
  · refine ⟨by simp, fun c b hc hb => ?_⟩
    cases hc
    exact C03_update_then_get m hw v ns hne hnd hall m' h b hb

/-- The condition on the other parameters cannot be dropped: if a fixed parameter has another batch size, the update is
accepted but nothing can be read afterwards. -/
theorem C03_conflicting_batch_accepted :
    ∃ (m m' : HV Int) (v : Vals Int) (ns : List Name), m.WF ∧ (∀ n ∈ ns, n ∈ m.updatableNames) ∧
      m.updateParameters v (some ns) = (m', .ok ()) ∧ m'.getParameters (some ns) = .error .valueError := by
  refine ⟨.mk [['x']] [(['x'], .arr (.ofRow [0])), (['y'], .arr (.column [1, 2]))], _, .d2 (.column [1, 2, 3]), [['x']],
    ?_, by decide, (rfl : _ = (_, _)), by decide⟩
  rw [WF_iff]
  refine ⟨by decide, ?_, ?_⟩
  · intro k f h; simp at h; rcases h with ⟨rfl, _⟩ | ⟨rfl, _⟩ <;> decide
  · intro k f h; simp at h; rcases h with ⟨_, rfl⟩ | ⟨_, rfl⟩ <;> trivial

/-! ## C05 -/

/-- C05.  Whether `update_parameters` succeeds or raises: names and markings stay as they are and every parameter that is
not named keeps its value.  (Also for repeated names.) -/
theorem C05_untouched (m : HV α) (hw : m.WF) (v : Vals α) (ns : List Name) (hall : ∀ n ∈ ns, n ∈ m.allNames)
    (m' : HV α) (r : Except Err Unit) (h : m.updateParameters v (some ns) = (m', r)) :
    m'.WF ∧ m'.allNames = m.allNames ∧ m'.updatableNames = m.updatableNames ∧
    ∀ p, pathName p ∉ ns → ∀ a, (IsParam m' p a ↔ IsParam m p a) ∧ (IsMarked m' p a ↔ IsMarked m p a) := by
  have hm' : m' = (m.updateParameters v (some ns)).1 := by rw [h]
  rw [updateParameters_fst] at hm'
  simp only [Option.getD_some] at hm'
  obtain ⟨hw', g, hg, hit⟩ := updateLoop_frame (v := v.to2d) (pos := 0) (e := 0) hw hall
  rw [← hm'] at hw' hit
  have hnames : ∀ u, (iterParams u m').map (·.1) = (iterParams u m).map (·.1) := by
    intro u; rw [hit u, List.map_map]; rfl
  refine ⟨hw', hnames false, hnames true, ?_⟩
  intro p hp a
  have same : ∀ u b, (pathName p, b) ∈ iterParams u m' ↔ (pathName p, b) ∈ iterParams u m := by
    intro u b
    rw [hit u, List.mem_map]
    constructor
    · rintro ⟨q, hq, he⟩
      have hq1 : q.1 = pathName p := congrArg (·.1) he
      have hq2 : g q.1 q.2 = b := congrArg (·.2) he
      rw [hg _ _ (.inl (by rw [hq1]; exact hp))] at hq2
      rw [← hq1, ← hq2]; exact hq
    · intro hq
      exact ⟨_, hq, by rw [hg _ _ (.inl hp)]⟩
  constructor
  · constructor
    · intro h'
      exact (isParam_iff_mem hw' hw h').1 ((same false a).1 (mem_iterParams_false.2 ⟨p, h', rfl⟩))
    · intro h'
      exact (isParam_iff_mem hw hw' h').1 ((same false a).2 (mem_iterParams_false.2 ⟨p, h', rfl⟩))
  · constructor
    · intro h'
      exact (isMarked_iff_mem hw' hw h'.isParam).1 ((same true a).1 (mem_iterParams_true.2 ⟨p, h', rfl⟩))
    · intro h'
      exact (isMarked_iff_mem hw hw' h'.isParam).1 ((same true a).2 (mem_iterParams_true.2 ⟨p, h', rfl⟩))

/-- Writing `x` of the demo object leaves `t.1.r` alone. -/
example : IsParam (Demo.obj.updateParameters (.d1 [42]) (some [['x']])).1 [['t'], ['1'], ['r']] (.ofRow [7, 8]) :=
  (((C05_untouched Demo.obj Demo.obj_wf (.d1 [42]) [['x']] (by decide) _ _ rfl).2.2.2 [['t'], ['1'], ['r']]
    (by decide) _).1).2 (.tup (i := 1) (c := Demo.rc 7 8) (ms := [Demo.rc 5 6, Demo.rc 7 8]) (by simp) rfl (.arr (by simp)))

/-! ## C06 -/

/-- C06.  On an unbatched object, `update_parameters(values, names)` for distinct parameters succeeds exactly if all of
them are marked along their whole path and the number of columns is their total width; otherwise it raises
`ValueError`. -/
theorem C06_accepts_exactly_legal (m : HV α) (hw : m.WF) (hu : Spec.Unbatched m) (l : List (List Name × Arr2 α))
    (hl : Spec.Params m l) (hnd : (Spec.names l).Nodup) (v : Vals α) :
    let legal := (∀ q ∈ l, IsMarked m q.1 q.2) ∧ v.to2d.ncol = (l.map fun q => q.2.ncol).sum
    let result := (m.updateParameters v (some (Spec.names l))).2
    (result = .ok () ↔ legal) ∧ (result = .error .valueError ↔ ¬ legal) := by
  intro legal result
  obtain ⟨k, _, _, _, _, h4⟩ := update_spec (v := v) hw (names_mem hl) hnd
  have hlegal : legal ↔ (∀ n ∈ Spec.names l, n ∈ m.updatableNames) ∧ totalSize m (Spec.names l) = v.to2d.ncol := by
    rw [names_marked hw hl, totalSize_unbatched hw hu hl]
    exact and_congr_right' ⟨Eq.symm, Eq.symm⟩
  rw [hlegal]
  rcases h4 with ⟨a1, a2, _, a4⟩ | ⟨a1, a2⟩
  · simp only [result, a4, true_iff, reduceCtorEq, false_iff, Classical.not_not]
    exact ⟨⟨a1, a2⟩, ⟨a1, a2⟩⟩
  · simp only [result, a2, true_iff, reduceCtorEq, false_iff]
    exact ⟨a1, a1⟩

/-- C06 for batched objects: the required number of columns is the number of *entries* (rows times width) of the current
values, not the width of the vector that is read. -/
theorem C06_batched_requirement (m : HV α) (hw : m.WF) (l : List (List Name × Arr2 α))
    (hl : Spec.Params m l) (hnd : (Spec.names l).Nodup) (v : Vals α) :
    let legal := (∀ q ∈ l, IsMarked m q.1 q.2) ∧ v.to2d.ncol = (l.map fun q => q.2.nrow * q.2.ncol).sum
    let result := (m.updateParameters v (some (Spec.names l))).2
    (result = .ok () ↔ legal) ∧ (result = .error .valueError ↔ ¬ legal) := by
  intro legal result
  obtain ⟨k, _, _, _, _, h4⟩ := update_spec (v := v) hw (names_mem hl) hnd
  have hlegal : legal ↔ (∀ n ∈ Spec.names l, n ∈ m.updatableNames) ∧ totalSize m (Spec.names l) = v.to2d.ncol := by
    rw [names_marked hw hl, totalSize_names hw hl]
    exact and_congr_right' ⟨Eq.symm, Eq.symm⟩
  rw [hlegal]
  rcases h4 with ⟨a1, a2, _, a4⟩ | ⟨a1, a2⟩
  · simp only [result, a4, true_iff, reduceCtorEq, false_iff, Classical.not_not]
    exact ⟨⟨a1, a2⟩, ⟨a1, a2⟩⟩
  · simp only [result, a2, true_iff, reduceCtorEq, false_iff]
    exact ⟨a1, a1⟩

theorem Demo.obj_unbatched : Spec.Unbatched Demo.obj := by
  intro p a h
  have := mem_iterParams_false.2 ⟨p, h, rfl⟩
  have hd : ∀ q ∈ iterParams false Demo.obj, q.2.nrow = 1 := by decide
  exact hd _ this

/-- The demo object accepts 3 numbers for `x` and `a.p`, and refuses `a.q`. -/
example : (Demo.obj.updateParameters (.d1 [7, 8, 9]) (some [['x'], ['a', '.', 'p']])).2 = .ok () ∧
    (Demo.obj.updateParameters (.d1 [7]) (some [['a', '.', 'q']])).2 = .error .valueError := by decide

/-! ## C04 -/

theorem hcat_single_row {l : List (Arr2 α)} (hne : l ≠ []) (h : ∀ a ∈ l, a.nrow = 1) :
    ∃ v, Arr2.hcat l = .ok v ∧ v.nrow = 1 ∧ v.ncol = (l.map (·.ncol)).sum ∧
      v.slices 0 (l.map (·.ncol)) = l := by
  have aux : ∀ {l : List (Arr2 α)}, l ≠ [] → (∀ a ∈ l, a.nrow = 1) →
      ∃ v, Arr2.hcat l = .ok v ∧ v.rows = [l.flatMap fun a => a.rows.flatMap id] := by
    intro l
    induction l with
    | nil => intro hne; exact absurd rfl hne
    | cons a l ih =>
      intro _ h
      have ha := h a (by simp)
      unfold Arr2.nrow at ha
      rw [List.length_eq_one_iff] at ha
      obtain ⟨r, hr⟩ := ha
      cases l with
      | nil => exact ⟨a, rfl, by simp [hr]⟩
      | cons b l =>
        obtain ⟨w, h1, h2⟩ := ih (by simp) (fun x hx => h x (by simp [hx]))
        rw [Arr2.hcat, h1]
        have hc : Arr2.hcat2 a w = .ok ⟨a.ncol + w.ncol, List.zipWith (· ++ ·) a.rows w.rows, _⟩ :=
          if_pos (by simp [Arr2.nrow, hr, h2])
        refine ⟨_, hc, ?_⟩
        simp [hr, h2]
  obtain ⟨v, h1, h2⟩ := aux hne h
  have hlen : v.ncol = (l.map (·.ncol)).sum := by
    have := v.wf (l.flatMap fun a => a.rows.flatMap id) (by rw [h2]; simp)
    rw [← this, List.length_flatMap]
    congr 1
    apply List.map_congr_left
    intro a ha
    have h1 := h a ha
    unfold Arr2.nrow at h1
    rw [List.length_eq_one_iff] at h1
    obtain ⟨r, hr⟩ := h1
    have := a.wf r (by rw [hr]; simp)
    simp [hr, this]
  refine ⟨v, h1, by simp [Arr2.nrow, h2], hlen, ?_⟩
  have : ∀ (l' pre : List (Arr2 α)), (∀ a ∈ l', a.nrow = 1) → pre ++ l' = l →
      v.slices (pre.map (·.ncol)).sum (l'.map (·.ncol)) = l' := by
    intro l'
    induction l' with
    | nil => intro pre _ _; rfl
    | cons a l' ih =>
      intro pre hl' he
      simp only [List.map_cons, Arr2.slices]
      have ih' := ih (pre ++ [a]) (fun x hx => hl' x (by simp [hx])) (by simpa using he)
      simp only [List.map_append, List.map_cons, List.map_nil, List.sum_append, List.sum_cons, List.sum_nil,
        Nat.add_zero] at ih'
      rw [ih']
      congr 1
      have ha := hl' a (by simp)
      unfold Arr2.nrow at ha
      rw [List.length_eq_one_iff] at ha
      obtain ⟨r, hr⟩ := ha
      have hra := a.wf r (by rw [hr]; simp)
      have hpre : (pre.flatMap fun a => a.rows.flatMap id).length = (pre.map (·.ncol)).sum := by
        rw [List.length_flatMap]
        congr 1
        apply List.map_congr_left
        intro x hx
        have h1 := h x (by rw [← he]; simp [hx])
        unfold Arr2.nrow at h1
        rw [List.length_eq_one_iff] at h1
        obtain ⟨r, hr⟩ := h1
        have := x.wf r (by rw [hr]; simp)
        simp [hr, this]
      apply Arr2.ext'
      · rw [Arr2.cols_ncol]
        · omega
        · rw [hlen, ← he]; simp [← Nat.add_assoc]
      · simp only [Arr2.cols, h2, List.map_cons, List.map_nil, hr, ← he, List.flatMap_append, List.flatMap_cons]
        rw [← hpre, List.drop_left]
        have : (pre.flatMap fun a => a.rows.flatMap id).length + a.ncol - (pre.flatMap fun a => a.rows.flatMap id).length
          = r.length := by omega
        rw [this]
        simp
  have := this l [] h rfl
  simpa using this

/-- C04, unbatched objects.  Reading any list of distinct updatable parameters and writing the vector back succeeds and
returns the very same object. -/
theorem C04_get_then_update_partial (m : HV α) (hw : m.WF) (hu : Spec.Unbatched m) (ns : List Name) (hnd : ns.Nodup)
    (hupd : ∀ n ∈ ns, n ∈ m.updatableNames) :
    ∃ v, m.getParameters (some ns) = .ok v ∧ m.updateParameters (.d2 v) (some ns) = (m, .ok ()) := by
  have hall : ∀ n ∈ ns, n ∈ m.allNames := fun n hn => updatable_subset (hupd n hn)
  have hb : m.batchSize = .ok 1 := by
    unfold HV.batchSize
    rw [batchLoop_ok (by omega)]
    · refine ⟨?_, by simp⟩
      intro r hr
      rw [List.mem_cons, List.mem_map] at hr
      rcases hr with rfl | ⟨⟨n, a⟩, hna, rfl⟩
      · exact .inl rfl
      · obtain ⟨p, hp, _⟩ := mem_iterParams_false.1 hna
        exact .inl (hu p a hp)
    · intro r hr
      rw [List.mem_map] at hr
      obtain ⟨⟨n, a⟩, hna, rfl⟩ := hr
      obtain ⟨p, hp, _⟩ := mem_iterParams_false.1 hna
      simp [hu p a hp]
  by_cases hne : ns = []
  · subst hne
    refine ⟨Arr2.empty 1, ?_, rfl⟩
    simp only [HV.getParameters, Option.getD_some, if_true, hb]; rfl
  rw [getParameters_names hw hne hall hb]
  have hexp : ∀ a : Arr2 α, expandTo 1 a = a := by intro a; simp [expandTo]
  simp only [hexp]
  have hrows : ∀ a ∈ ns.map (valueAt m), a.nrow = 1 := by
    intro a ha
    rw [List.mem_map] at ha
    obtain ⟨n, hn, rfl⟩ := ha
    obtain ⟨p, hp, _⟩ := mem_iterParams_false.1 (valueAt_mem (hall n hn))
    exact hu p _ hp
  obtain ⟨v, h1, h2, h3, h4⟩ := hcat_single_row (by simpa using hne) hrows
  refine ⟨v, h1, ?_⟩
  have hsz : ∀ n ∈ ns, sizeAt m n = (valueAt m n).ncol := by
    intro n hn
    obtain ⟨p, hp, hpn⟩ := mem_iterParams_false.1 (valueAt_mem (hall n hn))
    have := sizeAt_unbatched hw hu hp
    rwa [← hpn] at this
  have hmap : ns.map (sizeAt m) = (ns.map (valueAt m)).map (·.ncol) := by
    rw [List.map_map]; exact List.map_congr_left hsz
  have hwr : writesFrom m v 0 ns = ns.map fun n => (n, valueAt m n) := by
    have e1 : (writesFrom m v 0 ns).map (·.1) = ns := writesFrom_names _ _ _ _
    have e2 : (writesFrom m v 0 ns).map (·.2) = ns.map (valueAt m) := by
      rw [slices_eq_writes, hmap, h4]
    have gen : ∀ (ws : List (Name × Arr2 α)) (l : List Name), ws.map (·.1) = l → ws.map (·.2) = l.map (valueAt m) →
        ws = l.map fun n => (n, valueAt m n) := by
      intro ws
      induction ws with
      | nil => rintro l rfl _; rfl
      | cons w ws ih =>
        rintro l rfl he
        simp only [List.map_cons, List.cons.injEq] at he ⊢
        exact ⟨Prod.ext rfl he.1, ih _ rfl he.2⟩
    exact gen _ _ e1 e2
  obtain ⟨k, _, _, _, a3, a4⟩ := update_spec (v := .d2 v) hw hall hnd
  have hsame : (m.updateParameters (.d2 v) (some ns)).1 = m := by
    apply a3
    intro q hq
    simp only [Vals.to2d, hwr, List.mem_map] at hq
    obtain ⟨n, hn, rfl⟩ := hq
    exact valueAt_mem (hall n hn)
  have hok : (m.updateParameters (.d2 v) (some ns)).2 = .ok () := by
    rcases a4 with ⟨_, _, _, h⟩ | ⟨h, _⟩
    · exact h
    · exfalso
      apply h
      refine ⟨hupd, ?_⟩
      simp only [Vals.to2d, h3, totalSize, hmap]
  exact Prod.ext hsame hok

example : ∃ v, Demo.obj.getParameters (some [['t', '.', '1', '.', 'r'], ['x']]) = .ok v ∧
    Demo.obj.updateParameters (.d2 v) (some [['t', '.', '1', '.', 'r'], ['x']]) = (Demo.obj, .ok ()) :=
  C04_get_then_update_partial _ Demo.obj_wf Demo.obj_unbatched _ (by decide) (by decide)

theorem hcat_ncol {l : List (Arr2 α)} {v : Arr2 α} (h : Arr2.hcat l = .ok v) : v.ncol = (l.map (·.ncol)).sum := by
  induction l generalizing v with
  | nil => cases h
  | cons a l ih =>
    cases l with
    | nil => cases h; simp
    | cons b l =>
      rw [Arr2.hcat] at h
      cases hc : Arr2.hcat (b :: l) with
      | error e => rw [hc] at h; cases h
      | ok w =>
        rw [hc] at h
        have h' : Arr2.hcat2 a w = .ok v := h
        unfold Arr2.hcat2 at h'
        split at h'
        · cases h'
          simp only [ih hc, List.map_cons, List.sum_cons]
        · cases h'

/-- C04 fails for batched parameters: as soon as one of the parameters read has more than one row (and at least one
column), writing back the vector that was read raises `ValueError`. -/
theorem C04_batched_round_trip_raises (m : HV α) (hw : m.WF) (ns : List Name) (hnd : ns.Nodup)
    (hall : ∀ n ∈ ns, n ∈ m.allNames) (hpos : ∀ p a, IsParam m p a → 1 ≤ a.nrow)
    (p : List Name) (a : Arr2 α) (hp : IsParam m p a) (hpn : pathName p ∈ ns) (hrow : 1 < a.nrow) (hcol : 1 ≤ a.ncol)
    (v : Arr2 α) (hv : m.getParameters (some ns) = .ok v) :
    (m.updateParameters (.d2 v) (some ns)).2 = .error .valueError := by
  have hne : ns ≠ [] := List.ne_nil_of_mem hpn
  cases hbs : m.batchSize with
  | error e =>
    exfalso
    unfold HV.getParameters at hv
    simp only [Option.getD_some, hne, if_false, hbs] at hv
    cases hv
  | ok b =>
    rw [getParameters_names hw hne hall hbs] at hv
    have hn := hcat_ncol hv
    rw [List.map_map] at hn
    have hval : ∀ n ∈ ns, sizeAt m n = (valueAt m n).nrow * (valueAt m n).ncol ∧ 1 ≤ (valueAt m n).nrow := by
      intro n hn
      obtain ⟨p', hp', hpn'⟩ := mem_iterParams_false.1 (valueAt_mem (hall n hn))
      have := sizeAt_of_isParam hw hp'
      rw [← hpn'] at this
      exact ⟨this, hpos _ _ hp'⟩
    have hva : valueAt m (pathName p) = a := valueAt_eq hw (mem_iterParams_false.2 ⟨p, hp, rfl⟩)
    obtain ⟨_, _, _, _, _, h4⟩ := update_spec (v := .d2 v) hw hall hnd
    rcases h4 with ⟨_, h, _⟩ | ⟨_, h⟩
    · exfalso
      simp only [Vals.to2d, hn, totalSize] at h
      have hle : ∀ l : List Name, (∀ n ∈ l, n ∈ ns) →
          (l.map ((·.ncol) ∘ fun n => expandTo b (valueAt m n))).sum ≤ (l.map (sizeAt m)).sum ∧
          (pathName p ∈ l → (l.map ((·.ncol) ∘ fun n => expandTo b (valueAt m n))).sum < (l.map (sizeAt m)).sum) := by
        intro l
        induction l with
        | nil => intro _; simp
        | cons n l ih =>
          intro hl
          obtain ⟨i1, i2⟩ := ih fun k hk => hl k (by simp [hk])
          obtain ⟨j1, j2⟩ := hval n (hl n (by simp))
          simp only [List.map_cons, List.sum_cons, Function.comp, expandTo_ncol, List.mem_cons] at i1 i2 ⊢
          have hmul : (valueAt m n).ncol ≤ sizeAt m n := by
            rw [j1]; exact Nat.le_mul_of_pos_left _ (by omega)
          refine ⟨by omega, ?_⟩
          rintro (h | h)
          · have : (valueAt m n).ncol < sizeAt m n := by
              rw [j1, ← h, hva]
              have : 2 * a.ncol ≤ a.nrow * a.ncol := Nat.mul_le_mul_right _ (by omega)
              omega
            omega
          · have := i2 h
            omega
      have := (hle ns fun _ h => h).2 hpn
      omega
    · exact h

/-- The negation of C04 on a concrete batched object: the round trip of `x` (two rows) raises. -/
theorem C04_fails_on_batched_object :
    ∃ (m : HV Int) (v : Arr2 Int), m.WF ∧ (['x'] : Name) ∈ m.updatableNames ∧ m.getParameters (some [['x']]) = .ok v ∧
      (m.updateParameters (.d2 v) (some [['x']])).2 = .error .valueError := by
  refine ⟨.mk [['x']] [(['x'], .arr (.column [1, 2]))], .column [1, 2], ?_, by decide, by decide, by decide⟩
  rw [WF_iff]
  refine ⟨by decide, ?_, ?_⟩
  · intro k f h; simp at h; rw [h.1]; decide
  · intro k f h; simp at h; rw [h.2]; trivial

/-! ## C07 -/

/-- A sequence of `update_parameters` calls, each with its values and names, whatever their outcomes. -/
def runUpdates (m : HV α) (calls : List (Vals α × List Name)) : HV α :=
  calls.foldl (fun m c => (m.updateParameters c.1 (some c.2)).1) m

/-- C07.  Through any sequence of calls naming parameters – successful or raising – a parameter that is not marked along
its whole path keeps its value and stays unmarked. -/
theorem C07_fixed_never_change (m : HV α) (hw : m.WF) (calls : List (Vals α × List Name))
    (hall : ∀ c ∈ calls, ∀ n ∈ c.2, n ∈ m.allNames) (p : List Name) (a : Arr2 α) (hp : IsParam m p a)
    (hfix : ¬ IsMarked m p a) : IsParam (runUpdates m calls) p a ∧ ¬ IsMarked (runUpdates m calls) p a := by
  induction calls generalizing m with
  | nil => exact ⟨hp, hfix⟩
  | cons c calls ih =>
    have hc : ∀ n ∈ c.2, n ∈ m.allNames := hall c (by simp)
    obtain ⟨hw', g, hg, hit⟩ := updateLoop_frame (v := c.1.to2d) (pos := 0) (e := 0) hw hc
    have hfst := updateParameters_fst m c.1 (some c.2)
    simp only [Option.getD_some] at hfst
    rw [← hfst] at hw' hit
    have hnames : ∀ u, (iterParams u (m.updateParameters c.1 (some c.2)).1).map (·.1) = (iterParams u m).map (·.1) := by
      intro u; rw [hit u, List.map_map]; rfl
    have hnm : pathName p ∉ m.updatableNames := fun h => hfix ((marked_iff hw hp).1 h)
    have hp' : IsParam (m.updateParameters c.1 (some c.2)).1 p a := by
      refine (isParam_iff_mem hw hw' hp).1 ?_
      rw [hit false, List.mem_map]
      exact ⟨(pathName p, a), mem_iterParams_false.2 ⟨p, hp, rfl⟩, by rw [hg _ _ (.inr hnm)]⟩
    have hfix' : ¬ IsMarked (m.updateParameters c.1 (some c.2)).1 p a := by
      intro h
      apply hnm
      have := (marked_iff hw' hp').2 h
      unfold HV.updatableNames at this ⊢
      rwa [hnames true] at this
    refine ih _ hw' ?_ hp' hfix'
    intro d hd n hn
    have := hall d (by simp [hd]) n hn
    unfold HV.allNames at this ⊢
    rwa [hnames false]

/-- `a.q` of the demo object survives a sequence of three calls, two of which raise. -/
example : IsParam (runUpdates Demo.obj [(.d1 [9, 9, 9], [['x'], ['a', '.', 'p']]), (.d1 [5], [['a', '.', 'q']]),
    (.d1 [5], [['a', '.', 'p']])]) [['a'], ['q']] (.ofRow [4]) := by
  refine (C07_fixed_never_change Demo.obj Demo.obj_wf _ (by decide) _ _ ?_ ?_).1
  · exact .sub (c := Demo.inner) (by simp) (.arr (by simp))
  · intro h
    have := mem_updatableNames.2 ⟨_, _, h, rfl⟩
    revert this; decide

/-- C75 fails: naming an updatable *sub-model* instead of a parameter is accepted and destroys the (fixed) parameters
inside.  This is also why C05 and C07 speak of parameter names. -/
theorem C75_submodel_name_destroys_parameters :
    ∃ (m m' : HV Int) (v : Vals Int) (p : List Name) (a : Arr2 Int), m.WF ∧ IsParam m p a ∧ ¬ IsMarked m p a ∧
      m.updateParameters v (some [['a']]) = (m', .ok ()) ∧ ∀ b, ¬ IsParam m' p b := by
  refine ⟨.mk [['a']] [(['a'], .sub Demo.inner)], .mk [['a']] [(['a'], .arr (.ofRow [7]))], .d1 [7], [['a'], ['q']],
    .ofRow [4], ?_, .sub (c := Demo.inner) (by simp) (.arr (by simp)), ?_, ?_, ?_⟩
  · rw [WF_iff]
    refine ⟨by decide, ?_, ?_⟩
    · intro k f h; simp at h; rw [h.1]; decide
    · intro k f h; simp at h; rw [h.2]; exact Demo.inner_wf
  · intro h
    have := mem_updatableNames.2 ⟨_, _, h, rfl⟩
    revert this; decide
  · have : Vals.to2d (Vals.d1 [7]) = Arr2.ofRow [(7 : Int)] := rfl
    simp [HV.updateParameters, updateLoop, Py.splitDots, chain, HV.getField, assoc, lastField, HV.fields,
      HV.updatable, Vals.to2d, Field.npSize, HV.setAttr, alterChain, HV.setField, assocSet, Arr2.ofRow, Arr2.cols]
  · intro b h
    have := mem_iterParams_false.2 ⟨_, h, rfl⟩
    simp [iterParams, iterFields, iterField, pathName, Py.joinDots] at this

/-- How many values an attribute takes from the vector: all numbers of an array, one per member of a tuple or list, one for anything else. -/
def Spec.places : Field α → Nat
  | .arr a => a.nrow * a.ncol
  | .tup ms => ms.length
  | .lst ms => ms.length
  | _ => 1

theorem places_eq (f : Field α) : f.npSize = Spec.places f := by cases f <;> rfl

/-- C75 fails for every marked attribute that is not a parameter: it is replaced by the array (of one number for a sub-model or a
dictionary, of one number per member for a tuple or list of sub-models). -/
theorem C75_marked_attributes_overwritten (m : HV α) (k : Name) (f : Field α) (hk : '.' ∉ k) (hf : m.getField k = some f)
    (hu : k ∈ m.updatable) (xs : List α) (hx : xs.length = Spec.places f) :
    m.updateParameters (.d1 xs) (some [k]) = (m.setField k (.arr (.ofRow xs)), .ok ()) := by
  rw [← places_eq] at hx
  have hs : Py.splitDots k = [k] := Py.splitDots_noDot hk
  have hc : (Arr2.ofRow xs).cols 0 xs.length = Arr2.ofRow xs := by simp [Arr2.cols, Arr2.ofRow]
  have hn : (Arr2.ofRow xs).ncol = xs.length := rfl
  have hl : lastField [(k, m)] = .ok f := by simp [lastField, hf]
  unfold HV.updateParameters
  simp only [Vals.to2d, Option.getD_some, updateLoop, hs, chain, List.all_cons, List.all_nil, Bool.and_true, List.contains_iff_mem, hu,
    if_true, hl, hn, ← hx, Nat.zero_add, gt_iff_lt, Nat.lt_irrefl, if_false, hc, HV.setAttr, alterChain]
  simp

/-- A name that leads nowhere (missing attribute, bad index, missing key, descent into an array), or through an attribute that is not
marked as updatable. -/
def Spec.Inaccessible (m : HV α) (n : Name) : Prop :=
  (∃ e, m.lookup n = .error e) ∨ ∃ ch, chain m (Py.splitDots n) = .ok ch ∧ ∃ q ∈ ch, q.1 ∉ q.2.updatable

theorem inaccessible_skel (m : HV α) (n : Name) : Spec.Inaccessible (skel m) n ↔ Spec.Inaccessible m n := by
  unfold Spec.Inaccessible
  rw [lookup_skel, chain_skel]
  refine or_congr ?_ ?_
  · cases m.lookup n <;> simp [Except.map]
  · cases chain m (Py.splitDots n) with
    | error e => simp [Except.map]
    | ok ch =>
      simp only [Except.map, Except.ok.injEq, exists_eq_left']
      constructor
      · rintro ⟨q, hq, h⟩
        obtain ⟨q', hq', rfl⟩ := List.mem_map.1 hq
        exact ⟨q', hq', by rwa [skel_updatable] at h⟩
      · rintro ⟨q, hq, h⟩
        exact ⟨_, List.mem_map.2 ⟨q, hq, rfl⟩, by rwa [skel_updatable]⟩

theorem updateLoop_inaccessible {v : Arr2 α} {m : HV α} {n : Name} (h : Spec.Inaccessible m n) (post : List Name) (pos e : Nat) :
    ∃ e', updateLoop v (n :: post) m pos e = (m, .error e') := by
  simp only [updateLoop]
  cases hc : chain m (Py.splitDots n) with
  | error e' => exact ⟨e', rfl⟩
  | ok ch =>
    simp only
    split
    · rename_i hall
      rcases h with ⟨e', h⟩ | ⟨ch', h, q, hq, hm⟩
      · unfold HV.lookup at h
        rw [hc] at h
        rw [show lastField ch = .error e' from h]
        exact ⟨e', rfl⟩
      · rw [hc] at h
        simp only [Except.ok.injEq] at h
        subst h
        rw [List.all_eq_true] at hall
        exact absurd (hall q hq) (by simpa using hm)
    · exact ⟨_, rfl⟩

theorem updateLoop_append_inaccessible {v : Arr2 α} {n : Name} (post : List Name) : ∀ (pre : List Name) {m : HV α} (pos e : Nat), m.WF →
    (∀ k ∈ pre, k ∈ m.allNames) → Spec.Inaccessible m n →
    ∃ e', updateLoop v (pre ++ n :: post) m pos e = ((updateLoop v pre m pos e).1, .error e')
  | [], m, pos, e, _, _, hn => updateLoop_inaccessible hn post pos e
  | k :: pre, m, pos, e, hw, hall, hn => by
    rw [List.cons_append]
    have hk := hall k (by simp)
    obtain ⟨p, a, hp, rfl⟩ := mem_allNames.1 hk
    have hl : m.lookup (pathName p) = .ok (.arr a) := lookup_of_isParam hp hw
    rw [updateLoop, updateLoop]
    cases chain m (Py.splitDots (pathName p)) with
    | error e' => exact ⟨e', rfl⟩
    | ok ch =>
      simp only
      split
      · cases lastField ch with
        | error e' => exact ⟨e', rfl⟩
        | ok cur =>
          simp only
          split
          · exact ⟨_, rfl⟩
          · obtain ⟨m', hs, hw', hi, -⟩ := setAttr_of_name (v.cols pos (pos + cur.npSize)) hw hk
            rw [hs]
            refine updateLoop_append_inaccessible post pre _ _ hw' (fun k' hk' => ?_) ?_
            · rw [HV.allNames, hi false, map_assign_names]
              exact hall k' (by simp [hk'])
            · rw [← inaccessible_skel, setAttr_skel hl hs, inaccessible_skel]
              exact hn
      · exact ⟨_, rfl⟩

/-- C75, what does hold: a call with a name, at any position, that leads nowhere or through an attribute that is not marked raises (the
names before it being names of parameters).  The structure of the object stays intact: it has the same parameters and the same
updatable parameters, and of their values at most those named before have changed – none if the name comes first.
Missing: marked sub-models, tuples, dictionaries and other fields (`C75_submodel_name_destroys_parameters`). -/
theorem C75_inaccessible_name_refused_partial (m : HV α) (hw : m.WF) (v : Vals α) (pre post : List Name) (n : Name)
    (hpre : ∀ k ∈ pre, k ∈ m.allNames) (hn : Spec.Inaccessible m n) :
    ∃ m' e', m.updateParameters v (some (pre ++ n :: post)) = (m', .error e') ∧
      m'.WF ∧ m'.allNames = m.allNames ∧ m'.updatableNames = m.updatableNames ∧
      (∀ p, pathName p ∉ pre → ∀ a, (IsParam m' p a ↔ IsParam m p a) ∧ (IsMarked m' p a ↔ IsMarked m p a)) ∧
      (pre = [] → m' = m) := by
  obtain ⟨e', h⟩ := updateLoop_append_inaccessible (v := v.to2d) post pre 0 0 hw hpre hn
  have hu : m.updateParameters v (some (pre ++ n :: post)) = ((updateLoop v.to2d pre m 0 0).1, .error e') := by
    unfold HV.updateParameters
    simp only [Option.getD_some]
    rw [h]
  refine ⟨_, e', hu, ?_⟩
  obtain ⟨h1, h2, h3, h4⟩ := C05_untouched m hw v pre hpre (m.updateParameters v (some pre)).1 _ rfl
  rw [updateParameters_fst] at h1 h2 h3 h4
  simp only [Option.getD_some] at h1 h2 h3 h4
  exact ⟨h1, h2, h3, h4, fun hp => by subst hp; rfl⟩

/-- The parameter `x` is written, then `x.y` leads nowhere. -/
example : ∃ m' e', Demo.obj.updateParameters (.d1 [8, 1]) (some [['x'], ['x', '.', 'y']]) = (m', .error e') ∧
    m'.allNames = Demo.obj.allNames ∧ IsParam m' [['x']] (.ofRow [8]) := by
  obtain ⟨m', e', h, -, h2, -⟩ := C75_inaccessible_name_refused_partial Demo.obj Demo.obj_wf (.d1 [8, 1]) [['x']] [] ['x', '.', 'y']
    (by decide) (.inl ⟨.valueError, rfl⟩)
  refine ⟨m', e', h, h2, ?_⟩
  have e : m' = (Demo.obj.updateParameters (.d1 [8, 1]) (some [['x'], ['x', '.', 'y']])).1 := by
    rw [show [['x'], ['x', '.', 'y']] = [['x']] ++ [['x', '.', 'y']] from rfl, h]
  rw [e]
  exact .arr (List.mem_cons_self ..)

/-- A sub-model whose attribute is not marked is refused. -/
example : Spec.Inaccessible (.mk [] [(['a'], .sub Demo.inner)]) ['a'] :=
  .inr ⟨_, rfl, _, List.mem_cons_self .., by simp [HV.updatable]⟩

/-! ## C08 -/

/-- The consecutive column blocks of `v` of the widths of the listed values, starting at column `pos`, one for each listed
parameter name. -/
def Spec.blocks (v : Arr2 α) : Nat → List (List Name × Arr2 α) → List (List Name × Arr2 α)
  | _, [] => []
  | pos, q :: rest => (q.1, v.cols pos (pos + q.2.size)) :: Spec.blocks v (pos + q.2.size) rest

/-- C08 fails: after a rejected call the object can be changed (the first of two named parameters has been written when
the second is found to be fixed). -/
theorem C08_rejected_update_changes_object :
    ∃ (m m' : HV Int) (v : Vals Int) (ns : List Name), m.WF ∧ (∀ n ∈ ns, n ∈ m.allNames) ∧ ns.Nodup ∧
      m.updateParameters v (some ns) = (m', .error .valueError) ∧
      IsParam m [['x']] (.ofRow [1]) ∧ IsParam m' [['x']] (.ofRow [42]) := by
  refine ⟨Demo.obj, _, .d1 [42, 43], [['x'], ['a', '.', 'q']], Demo.obj_wf, by decide, by decide, (rfl : _ = (_, _)),
    .arr (by simp), ?_⟩
  exact .arr (List.mem_cons_self ..)

/-- C08 fails even for a single name with too many columns: the object is written and then the call raises. -/
theorem C08_too_many_columns_changes_object :
    ∃ (m m' : HV Int) (v : Vals Int), m.WF ∧ m.updateParameters v (some [['x']]) = (m', .error .valueError) ∧
      IsParam m [['x']] (.ofRow [1]) ∧ IsParam m' [['x']] (.ofRow [42]) := by
  refine ⟨Demo.obj, _, .d1 [42, 43], Demo.obj_wf, (rfl : _ = (_, _)), .arr (by simp), ?_⟩
  exact .arr (List.mem_cons_self ..)

theorem blocks_writes {m : HV α} (hw : m.WF) {l : List (List Name × Arr2 α)} (hl : Spec.Params m l) (v : Arr2 α) :
    ∀ pos, writesFrom m v pos (Spec.names l) = (Spec.blocks v pos l).map fun q => (pathName q.1, q.2) := by
  induction l with
  | nil => intro pos; rfl
  | cons q l ih =>
    intro pos
    have hq := sizeAt_of_isParam hw (hl q (by simp))
    have ih' := ih (fun x hx => hl x (by simp [hx])) (pos + q.2.size)
    simp only [Spec.names] at ih' ⊢
    simp only [List.map_cons, writesFrom, Spec.blocks, hq, ih']

/-- C08, what does hold: a rejected call has written a prefix of the requested blocks and nothing else.  If the first named
parameter is not marked, or wider than `values`, the prefix is empty: nothing has changed. -/
theorem C08_rejected_writes_prefix_partial (m : HV α) (hw : m.WF) (l : List (List Name × Arr2 α)) (hl : Spec.Params m l)
    (hnd : (Spec.names l).Nodup) (v : Vals α) (m' : HV α) (e : Err)
    (hr : m.updateParameters v (some (Spec.names l)) = (m', .error e)) :
    (∃ k, (∀ q ∈ (Spec.blocks v.to2d 0 l).take k, IsParam m' q.1 q.2) ∧
      ∀ q ∈ l.drop k, IsParam m' q.1 q.2) ∧
    (∀ p a, pathName p ∉ Spec.names l → (IsParam m' p a ↔ IsParam m p a)) ∧
    (∀ q rest, l = q :: rest → (¬ IsMarked m q.1 q.2 ∨ v.to2d.ncol < q.2.size) → m' = m) := by
  have hall := names_mem hl
  obtain ⟨k, hk, h1, h2, _, _⟩ := update_spec (v := v) hw hall hnd
  rw [hr] at h1 h2
  have hbw := blocks_writes hw hl v.to2d 0
  have hblen : (Spec.blocks v.to2d 0 l).map (·.1) = l.map (·.1) := by
    have gen : ∀ (l : List (List Name × Arr2 α)) pos, (Spec.blocks v.to2d pos l).map (·.1) = l.map (·.1) := by
      intro l
      induction l with
      | nil => intro _; rfl
      | cons q l ih => intro pos; simp [Spec.blocks, ih]
    exact gen l 0
  refine ⟨⟨k, ?_, ?_⟩, ?_, ?_⟩
  · intro q hq
    have hq' : (pathName q.1, q.2) ∈ (writesFrom m v.to2d 0 (Spec.names l)).take k := by
      rw [hbw, ← List.map_take]
      exact List.mem_map_of_mem (f := fun q : List Name × Arr2 α => (pathName q.1, q.2)) hq
    have hql : q.1 ∈ l.map (·.1) := by
      rw [← hblen]; exact List.mem_map_of_mem (f := (·.1)) (List.mem_of_mem_take hq)
    rw [List.mem_map] at hql
    obtain ⟨q0, hq0, he⟩ := hql
    have hp0 := hl q0 hq0
    rw [he] at hp0
    refine (isParam_iff_mem hw h1 hp0).1 ?_
    rw [h2 false, List.mem_map]
    refine ⟨(pathName q.1, q0.2), mem_iterParams_false.2 ⟨q.1, hp0, rfl⟩, ?_⟩
    unfold assign
    have hnd' : (((writesFrom m v.to2d 0 (Spec.names l)).take k).map (·.1)).Nodup := by
      have := (List.take_sublist k (writesFrom m v.to2d 0 (Spec.names l))).map (·.1)
      rw [writesFrom_names] at this
      exact this.nodup hnd
    rw [assoc_of_mem hnd' hq']
    rfl
  · intro q hq
    have hql := List.mem_of_mem_drop hq
    refine (isParam_iff_mem hw h1 (hl q hql)).1 ?_
    rw [h2 false, List.mem_map]
    refine ⟨(pathName q.1, q.2), mem_iterParams_false.2 ⟨q.1, hl q hql, rfl⟩, ?_⟩
    unfold assign
    have hno : assoc (pathName q.1) ((writesFrom m v.to2d 0 (Spec.names l)).take k) = none := by
      cases hc : assoc (pathName q.1) ((writesFrom m v.to2d 0 (Spec.names l)).take k) with
      | none => rfl
      | some w =>
        exfalso
        have hmem := List.mem_map_of_mem (f := (·.1)) (assoc_mem hc)
        simp only [List.map_take, writesFrom_names] at hmem
        have hd : pathName q.1 ∈ (Spec.names l).drop k := by
          simp only [Spec.names, ← List.map_drop, List.mem_map]
          exact ⟨q, hq, rfl⟩
        have hnd2 := hnd
        rw [← List.take_append_drop k (Spec.names l)] at hnd2
        exact (List.nodup_append.1 hnd2).2.2 _ hmem _ hd rfl
    rw [hno]; rfl
  · intro p a hp
    exact ((C05_untouched m hw v _ hall m' _ hr).2.2.2 p hp a).1
  · rintro q rest rfl hbad
    have hm' : m' = (m.updateParameters v (some (Spec.names (q :: rest)))).1 := by rw [hr]
    rw [updateParameters_fst] at hm'
    obtain ⟨c1, c2, _⟩ := updateLoop_cons (v := v.to2d) (ns := Spec.names rest) (pos := 0) (e := 0) hw
      (hall (pathName q.1) (by simp [Spec.names]))
    have hqp := hl q (by simp)
    rw [hm']
    show (updateLoop v.to2d (pathName q.1 :: Spec.names rest) m 0 0).1 = m
    rcases hbad with h | h
    · rw [c1 (fun hh => h ((marked_iff hw hqp).1 hh))]
    · by_cases hu : pathName q.1 ∈ m.updatableNames
      · rw [c2 hu (by rw [sizeAt_of_isParam hw hqp]; omega)]
      · rw [c1 hu]

/-- The rejected call of `C08_rejected_update_changes_object` meets the hypotheses: the block for `x` is written, `a.q` is
not. -/
example : ∃ k, (∀ q ∈ (Spec.blocks (Vals.to2d (.d1 [42, 43])) 0
      [([['x']], Arr2.ofRow [(1 : Int)]), ([['a'], ['q']], .ofRow [4])]).take k,
        IsParam (Demo.obj.updateParameters (.d1 [42, 43]) (some [['x'], ['a', '.', 'q']])).1 q.1 q.2) ∧
    ∀ q ∈ [([['x']], Arr2.ofRow [(1 : Int)]), ([['a'], ['q']], .ofRow [4])].drop k,
        IsParam (Demo.obj.updateParameters (.d1 [42, 43]) (some [['x'], ['a', '.', 'q']])).1 q.1 q.2 := by
  refine (C08_rejected_writes_prefix_partial Demo.obj Demo.obj_wf
    [([['x']], Arr2.ofRow [(1 : Int)]), ([['a'], ['q']], .ofRow [4])] ?_ (by decide) (.d1 [42, 43]) _ .valueError ?_).1
  · intro q hq
    simp only [List.mem_cons, List.not_mem_nil, or_false] at hq
    rcases hq with rfl | rfl
    · exact .arr (by simp)
    · exact .sub (c := Demo.inner) (by simp) (.arr (by simp))
  · rfl

end Verif
