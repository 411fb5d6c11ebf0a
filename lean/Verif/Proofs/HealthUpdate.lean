import Verif.Proofs.HealthLens
/-!
# `update_parameters` and `get_parameters` (lemmas)
-/

namespace Verif
variable {α β : Type}

/-! ## Names -/

theorem mem_iterParams_false {m : HV α} {n : Name} {a : Arr2 α} :
    (n, a) ∈ iterParams false m ↔ ∃ p, IsParam m p a ∧ n = pathName p := by
  rw [iterParams_eq, List.mem_map]
  constructor
  · rintro ⟨q, hq, h⟩
    cases h
    exact ⟨q.1, mem_iterP_false.1 hq, rfl⟩
  · rintro ⟨p, hp, rfl⟩
    exact ⟨(p, a), mem_iterP_false.2 hp, rfl⟩

theorem mem_iterParams_true {m : HV α} {n : Name} {a : Arr2 α} :
    (n, a) ∈ iterParams true m ↔ ∃ p, IsMarked m p a ∧ n = pathName p := by
  rw [iterParams_eq, List.mem_map]
  constructor
  · rintro ⟨q, hq, h⟩
    cases h
    exact ⟨q.1, mem_iterP_true.1 hq, rfl⟩
  · rintro ⟨p, hp, rfl⟩
    exact ⟨(p, a), mem_iterP_true.2 hp, rfl⟩

theorem mem_allNames {m : HV α} {n : Name} : n ∈ m.allNames ↔ ∃ p a, IsParam m p a ∧ n = pathName p := by
  simp only [HV.allNames, List.mem_map]
  constructor
  · rintro ⟨⟨n, a⟩, h, rfl⟩
    obtain ⟨p, hp⟩ := mem_iterParams_false.1 h
    exact ⟨p, a, hp⟩
  · rintro ⟨p, a, hp⟩
    exact ⟨(n, a), mem_iterParams_false.2 ⟨p, hp⟩, rfl⟩

theorem mem_updatableNames {m : HV α} {n : Name} : n ∈ m.updatableNames ↔ ∃ p a, IsMarked m p a ∧ n = pathName p := by
  simp only [HV.updatableNames, List.mem_map]
  constructor
  · rintro ⟨⟨n, a⟩, h, rfl⟩
    obtain ⟨p, hp⟩ := mem_iterParams_true.1 h
    exact ⟨p, a, hp⟩
  · rintro ⟨p, a, hp⟩
    exact ⟨(n, a), mem_iterParams_true.2 ⟨p, hp⟩, rfl⟩

theorem pathName_inj {m m' : HV α} {p q : List Name} {a b : Arr2 α} (hw : m.WF) (hw' : m'.WF) (hp : IsParam m p a)
    (hq : IsParam m' q b) (h : pathName p = pathName q) : p = q := by
  have h1 := hp.split hw
  have h2 := hq.split hw'
  unfold pathName at h
  rw [← h1, ← h2, h]

/-- Names reported by iteration are distinct. -/
theorem iterParams_nodup (u : Bool) {m : HV α} (hw : m.WF) : ((iterParams u m).map (·.1)).Nodup := by
  have h := iterP_nodup u hw
  rw [iterParams_eq, List.map_map]
  have hmem : ∀ q ∈ iterP u m, ∀ s ∈ q.1, '.' ∉ s := by
    intro q hq
    cases u with
    | false => exact (mem_iterP_false.1 hq).noDot hw
    | true => exact (mem_iterP_true.1 hq).isParam.noDot hw
  have hne : ∀ q ∈ iterP u m, q.1 ≠ [] := fun q hq => iterP_ne_nil hq
  revert h hmem hne
  generalize iterP u m = l
  intro h hmem hne
  induction l with
  | nil => simp
  | cons x xs ih =>
    simp only [List.map_cons, List.nodup_cons, List.mem_map, not_exists, not_and, Function.comp] at h ⊢
    refine ⟨?_, ih h.2 (fun q hq => hmem q (by simp [hq])) (fun q hq => hne q (by simp [hq]))⟩
    intro y hy e
    apply h.1 y hy
    have h1 := Py.splitDots_joinDots (hne y (by simp [hy])) (hmem y (by simp [hy]))
    have h2 := Py.splitDots_joinDots (hne x (by simp)) (hmem x (by simp))
    rw [← h1, ← h2, e]

/-! ## Overwriting by name -/

/-- Replace values by name. -/
def assign (ws : List (Name × Arr2 α)) (q : Name × Arr2 α) : Name × Arr2 α := (q.1, (assoc q.1 ws).getD q.2)

theorem assign_fst (ws : List (Name × Arr2 α)) (q : Name × Arr2 α) : (assign ws q).1 = q.1 := rfl

theorem assign_nil (q : Name × Arr2 α) : assign [] q = q := rfl

theorem map_assign_nil (l : List (Name × Arr2 α)) : l.map (assign []) = l := by
  have : (assign [] : Name × Arr2 α → Name × Arr2 α) = id := by funext q; rfl
  rw [this, List.map_id]

theorem assign_cons {n : Name} {w : Arr2 α} {ws : List (Name × Arr2 α)} (h : n ∉ ws.map (·.1)) (q : Name × Arr2 α) :
    assign ws (assign [(n, w)] q) = assign ((n, w) :: ws) q := by
  have hno : assoc n ws = none := by
    cases ha : assoc n ws with
    | none => rfl
    | some v => exact absurd (List.mem_map_of_mem (f := (·.1)) (assoc_mem ha)) h
  unfold assign
  by_cases hq : n = q.1
  · simp [assoc, ← hq, hno]
  · simp [assoc, hq]

/-- `setattr` through a parameter's name. -/
theorem setAttr_of_name {m : HV α} {n : Name} (v : Arr2 α) (hw : m.WF) (hn : n ∈ m.allNames) :
    ∃ m', m.setAttr n (.arr v) = .ok m' ∧ m'.WF ∧
      (∀ u, iterParams u m' = (iterParams u m).map (assign [(n, v)])) ∧ ((n, v) ∈ iterParams false m → m' = m) := by
  obtain ⟨p, a, hp, rfl⟩ := mem_allNames.1 hn
  obtain ⟨m', h1, h2, h3, h4⟩ := set_of_isParam v hp hw
  refine ⟨m', ?_, h2, ?_, ?_⟩
  · simpa [HV.setAttr, pathName, hp.split hw] using h1
  · intro u
    rw [iterParams_eq, iterParams_eq, h3 u, List.map_map, List.map_map]
    apply List.map_congr_left
    intro q hq
    have hqp : IsParam m q.1 q.2 := by
      cases u with
      | false => exact mem_iterP_false.1 hq
      | true => exact (mem_iterP_true.1 hq).isParam
    by_cases h : q.1 = p
    · simp [Function.comp, repl, assign, assoc, h, pathName]
    · have hne : Py.joinDots p ≠ Py.joinDots q.1 := fun e => h (pathName_inj hw hw hqp hp e.symm)
      simp [Function.comp, repl, assign, assoc, h, pathName, hne]
  · intro hm
    obtain ⟨p', hp', he⟩ := mem_iterParams_false.1 hm
    have := pathName_inj hw hw hp hp' he
    subst this
    exact h4 (hp'.unique hp hw)

theorem map_assign_names {l : List (Name × Arr2 α)} {ws : List (Name × Arr2 α)} :
    (l.map (assign ws)).map (·.1) = l.map (·.1) := by
  rw [List.map_map]; rfl

/-- Number of entries of the parameter called `n`. -/
def sizeAt (m : HV α) (n : Name) : Nat := ((assoc n (iterParams false m)).map Arr2.size).getD 0

theorem sizeAt_of_isParam {m : HV α} {p : List Name} {a : Arr2 α} (hw : m.WF) (hp : IsParam m p a) :
    sizeAt m (pathName p) = a.size := by
  have : assoc (pathName p) (iterParams false m) = some a :=
    assoc_of_mem (iterParams_nodup false hw) (mem_iterParams_false.2 ⟨p, hp, rfl⟩)
  simp [sizeAt, this]

theorem assoc_map_assign_ne {n k : Name} {w : Arr2 α} {l : List (Name × Arr2 α)} (h : n ≠ k) :
    assoc n (l.map (assign [(k, w)])) = assoc n l := by
  induction l with
  | nil => rfl
  | cons q rest ih =>
    obtain ⟨j, a⟩ := q
    simp only [List.map_cons, assoc, assign, ih]
    split
    · rename_i hj
      have hj' : k ≠ j := fun e => h (by rw [hj] at e; exact e.symm)
      simp [hj']
    · rfl

/-- One round of the loop of `update_parameters` on a parameter name. -/
theorem updateLoop_cons {m : HV α} {n : Name} {ns : List Name} {v : Arr2 α} {pos e : Nat} (hw : m.WF)
    (hn : n ∈ m.allNames) :
    (n ∉ m.updatableNames → updateLoop v (n :: ns) m pos e = (m, .error .valueError)) ∧
    (n ∈ m.updatableNames → pos + sizeAt m n > v.ncol →
      updateLoop v (n :: ns) m pos e = (m, .error .valueError)) ∧
    (n ∈ m.updatableNames → pos + sizeAt m n ≤ v.ncol → ∃ m', m'.WF ∧
      (∀ u, iterParams u m' = (iterParams u m).map (assign [(n, v.cols pos (pos + sizeAt m n))])) ∧
      ((n, v.cols pos (pos + sizeAt m n)) ∈ iterParams false m → m' = m) ∧
      updateLoop v (n :: ns) m pos e = updateLoop v ns m' (pos + sizeAt m n) (pos + sizeAt m n)) := by
  obtain ⟨p, a, hp, rfl⟩ := mem_allNames.1 hn
  obtain ⟨ch, h1, _, h2, h3⟩ := chain_of_isParam hp hw
  have hsplit : Py.splitDots (pathName p) = p := hp.split hw
  have hsz := sizeAt_of_isParam hw hp
  have hmk : IsMarked m p a ↔ pathName p ∈ m.updatableNames := by
    rw [mem_updatableNames]
    constructor
    · intro h; exact ⟨p, a, h, rfl⟩
    · rintro ⟨p', a', h, he⟩
      have := pathName_inj hw hw hp h.isParam he
      subst this
      rw [hp.unique h.isParam hw]; exact h
  refine ⟨?_, ?_, ?_⟩
  · intro h
    have hall : ¬ (ch.all (fun q => q.2.updatable.contains q.1) = true) := fun hh => h (hmk.1 (h3.1 hh))
    unfold updateLoop
    simp only [hsplit, h1]
    rw [if_neg hall]
  · intro h hgt
    have hall := h3.2 (hmk.2 h)
    rw [hsz] at hgt
    unfold updateLoop
    simp only [hsplit, h1, hall, if_true, h2, Field.npSize, hgt]
  · intro h hle
    have hall := h3.2 (hmk.2 h)
    obtain ⟨m', hs, hw', hi, hid⟩ := setAttr_of_name (v.cols pos (pos + sizeAt m (pathName p))) hw hn
    refine ⟨m', hw', hi, hid, ?_⟩
    have hle' : ¬ (pos + a.size > v.ncol) := by rw [← hsz]; omega
    rw [hsz] at hs
    rw [updateLoop, hsz]
    simp only [hsplit, h1, hall, if_true, h2, Field.npSize, hle', if_false, hs]

/-- The writes performed by `update_parameters`, in order. -/
def writesFrom (m : HV α) (v : Arr2 α) : Nat → List Name → List (Name × Arr2 α)
  | _, [] => []
  | pos, n :: ns => (n, v.cols pos (pos + sizeAt m n)) :: writesFrom m v (pos + sizeAt m n) ns

theorem writesFrom_names (m : HV α) (v : Arr2 α) (pos : Nat) (ns : List Name) :
    (writesFrom m v pos ns).map (·.1) = ns := by
  induction ns generalizing pos with
  | nil => rfl
  | cons n ns ih => simp [writesFrom, ih]

theorem writesFrom_congr {m m' : HV α} {v : Arr2 α} {pos : Nat} {ns : List Name}
    (h : ∀ n ∈ ns, sizeAt m' n = sizeAt m n) : writesFrom m' v pos ns = writesFrom m v pos ns := by
  induction ns generalizing pos with
  | nil => rfl
  | cons n ns ih =>
    rw [writesFrom, writesFrom, h n (by simp), ih (fun k hk => h k (by simp [hk]))]

/-- Total number of columns consumed. -/
def totalSize (m : HV α) (ns : List Name) : Nat := (ns.map (sizeAt m)).sum

/-- What the loop does: it performs a prefix of the writes; it performs all of them exactly if every name is updatable and
there are enough columns; otherwise it raises `ValueError`. -/
theorem updateLoop_spec {v : Arr2 α} {ns : List Name} : ∀ {m : HV α} {pos e : Nat}, m.WF → (∀ n ∈ ns, n ∈ m.allNames) →
    ns.Nodup → ∃ k, k ≤ ns.length ∧ (updateLoop v ns m pos e).1.WF ∧
      (∀ u, iterParams u (updateLoop v ns m pos e).1 = (iterParams u m).map (assign ((writesFrom m v pos ns).take k))) ∧
      ((∀ q ∈ writesFrom m v pos ns, q ∈ iterParams false m) → (updateLoop v ns m pos e).1 = m) ∧
      (((∀ n ∈ ns, n ∈ m.updatableNames) ∧ (ns ≠ [] → pos + totalSize m ns ≤ v.ncol) ∧ k = ns.length ∧
          (updateLoop v ns m pos e).2 = .ok (if ns = [] then e else pos + totalSize m ns)) ∨
       (¬ ((∀ n ∈ ns, n ∈ m.updatableNames) ∧ (ns ≠ [] → pos + totalSize m ns ≤ v.ncol)) ∧ k < ns.length ∧
          (updateLoop v ns m pos e).2 = .error .valueError)) := by
  induction ns with
  | nil =>
    intro m pos e hw _ _
    exact ⟨0, by simp, hw, fun u => by simp [updateLoop, writesFrom, map_assign_nil],
      fun _ => rfl, .inl ⟨by simp, by simp, rfl, rfl⟩⟩
  | cons n ns ih =>
    intro m pos e hw hall hnd
    obtain ⟨c1, c2, c3⟩ := updateLoop_cons (v := v) (ns := ns) (pos := pos) (e := e) hw (hall n (by simp))
    simp only [List.nodup_cons] at hnd
    have htot : totalSize m (n :: ns) = sizeAt m n + totalSize m ns := by simp [totalSize]
    by_cases hu : n ∈ m.updatableNames
    · by_cases hle : pos + sizeAt m n ≤ v.ncol
      · obtain ⟨m', hw', hi, hid, hl⟩ := c3 hu hle
        have hnames : ∀ u, (iterParams u m').map (·.1) = (iterParams u m).map (·.1) := by
          intro u; rw [hi u, map_assign_names]
        have hall' : ∀ k ∈ ns, k ∈ m'.allNames := by
          intro k hk
          rw [HV.allNames, hnames]
          exact hall k (by simp [hk])
        have hsz : ∀ k ∈ ns, sizeAt m' k = sizeAt m k := by
          intro k hk
          have hne : k ≠ n := fun e => hnd.1 (e ▸ hk)
          simp only [sizeAt, hi false, assoc_map_assign_ne hne]
        have hupd : m'.updatableNames = m.updatableNames := hnames true
        obtain ⟨k, hk, hw'', hit, hid', hres⟩ := ih (m := m') (pos := pos + sizeAt m n) (e := pos + sizeAt m n) hw' hall' hnd.2
        rw [writesFrom_congr hsz] at hit hid'
        have htot' : totalSize m' ns = totalSize m ns := by
          unfold totalSize
          congr 1
          exact List.map_congr_left hsz
        rw [hupd, htot'] at hres
        rw [hl]
        refine ⟨k + 1, by simp; omega, hw'', ?_, ?_, ?_⟩
        · intro u
          rw [hit u, hi u, List.map_map]
          apply List.map_congr_left
          intro q _
          simp only [Function.comp, writesFrom, List.take_succ_cons]
          apply assign_cons
          intro hmem
          apply hnd.1
          have hsub : List.Sublist (((writesFrom m v (pos + sizeAt m n) ns).take k).map (·.1)) ns := by
            have := (List.take_sublist k (writesFrom m v (pos + sizeAt m n) ns)).map (·.1)
            rwa [writesFrom_names] at this
          exact hsub.subset hmem
        · intro hall2
          rw [writesFrom] at hall2
          have hmm := hid (hall2 _ (by simp))
          subst hmm
          exact hid' fun q hq => hall2 q (by simp [hq])
        · rcases hres with ⟨h1, h2, h3, h4⟩ | ⟨h1, h2, h3⟩
          · left
            refine ⟨?_, ?_, by simp [h3], ?_⟩
            · intro j hj
              rcases List.mem_cons.1 hj with rfl | hj
              · exact hu
              · exact h1 j hj
            · intro _
              rw [htot]
              by_cases hns : ns = []
              · subst hns; simpa [totalSize] using hle
              · have := h2 hns; omega
            · rw [h4, htot]
              by_cases hns : ns = []
              · subst hns; simp [totalSize]
              · simp [hns]; omega
          · right
            refine ⟨?_, by simp; omega, h3⟩
            rintro ⟨ha, hb⟩
            apply h1
            refine ⟨fun j hj => ha j (by simp [hj]), fun _ => ?_⟩
            have := hb (by simp)
            rw [htot] at this; omega
      · rw [c2 hu (by omega)]
        refine ⟨0, by simp, hw, fun u => ?_, fun _ => rfl, .inr ⟨?_, by simp, rfl⟩⟩
        · simp [map_assign_nil]
        · rintro ⟨_, hb⟩
          have := hb (by simp)
          rw [htot] at this; omega
    · rw [c1 hu]
      refine ⟨0, by simp, hw, fun u => ?_, fun _ => rfl, .inr ⟨?_, by simp, rfl⟩⟩
      · simp [map_assign_nil]
      · rintro ⟨ha, _⟩
        exact hu (ha n (by simp))

/-- Frame of the loop, also for repeated names and failing calls: values change only at names that are in the list and
updatable. -/
theorem updateLoop_frame {v : Arr2 α} {ns : List Name} : ∀ {m : HV α} {pos e : Nat}, m.WF → (∀ n ∈ ns, n ∈ m.allNames) →
    (updateLoop v ns m pos e).1.WF ∧ ∃ g : Name → Arr2 α → Arr2 α,
      (∀ n a, (n ∉ ns ∨ n ∉ m.updatableNames) → g n a = a) ∧
      ∀ u, iterParams u (updateLoop v ns m pos e).1 = (iterParams u m).map fun q => (q.1, g q.1 q.2) := by
  induction ns with
  | nil =>
    intro m pos e hw _
    exact ⟨hw, fun _ a => a, fun _ _ _ => rfl, fun u => by simp [updateLoop]⟩
  | cons n ns ih =>
    intro m pos e hw hall
    obtain ⟨c1, c2, c3⟩ := updateLoop_cons (v := v) (ns := ns) (pos := pos) (e := e) hw (hall n (by simp))
    by_cases hu : n ∈ m.updatableNames
    · by_cases hle : pos + sizeAt m n ≤ v.ncol
      · obtain ⟨m', hw', hi, _, hl⟩ := c3 hu hle
        have hnames : ∀ u, (iterParams u m').map (·.1) = (iterParams u m).map (·.1) := by
          intro u; rw [hi u, map_assign_names]
        have hall' : ∀ k ∈ ns, k ∈ m'.allNames := by
          intro k hk
          rw [HV.allNames, hnames]
          exact hall k (by simp [hk])
        have hupd : m'.updatableNames = m.updatableNames := hnames true
        obtain ⟨hw'', g, hg, hit⟩ := ih (pos := pos + sizeAt m n) (e := pos + sizeAt m n) hw' hall'
        rw [hl]
        refine ⟨hw'', fun k a => g k (assign [(n, v.cols pos (pos + sizeAt m n))] (k, a)).2, ?_, ?_⟩
        · intro k a hk
          rw [hupd] at hg
          have hkn : n ≠ k := by
            rintro rfl
            rcases hk with h | h
            · simp at h
            · exact h hu
          refine (hg _ _ ?_).trans ?_
          rotate_left
          · simp [assign, assoc, hkn]
          · rcases hk with h | h
            · exact .inl fun h' => h (by simp [h'])
            · exact .inr h
        · intro u
          rw [hit u, hi u, List.map_map]
          rfl
      · rw [c2 hu (by omega)]
        exact ⟨hw, fun _ a => a, fun _ _ _ => rfl, fun u => by simp⟩
    · rw [c1 hu]
      exact ⟨hw, fun _ a => a, fun _ _ _ => rfl, fun u => by simp⟩

end Verif
