import Verif.Proofs.HealthUpdate
/-!
# The skeleton of a `HealthVariable` object: everything except the values of its parameters
-/

namespace Verif
variable {α : Type}

mutual
/-- The object with every array replaced by one and the same empty array. -/
def skel : HV α → HV Unit
  | .mk u fs => .mk u (skelFields fs)
def skelFields : List (Name × Field α) → List (Name × Field Unit)
  | [] => []
  | (k, f) :: rest => (k, skelField f) :: skelFields rest
def skelField : Field α → Field Unit
  | .arr _ => .arr (Arr2.empty 0)
  | .sub m => .sub (skel m)
  | .tup ms => .tup (skelList ms)
  | .lst ms => .lst (skelList ms)
  | .dict ms => .dict (skelDict ms)
  | .other => .other
def skelList : List (HV α) → List (HV Unit)
  | [] => []
  | m :: ms => skel m :: skelList ms
def skelDict : List (Name × HV α) → List (Name × HV Unit)
  | [] => []
  | (j, m) :: ms => (j, skel m) :: skelDict ms
end

theorem skelList_eq (ms : List (HV α)) : skelList ms = ms.map skel := by
  induction ms with
  | nil => rfl
  | cons m ms ih => simp [skelList, ih]

theorem skelDict_eq (ms : List (Name × HV α)) : skelDict ms = ms.map fun q => (q.1, skel q.2) := by
  induction ms with
  | nil => rfl
  | cons q ms ih => obtain ⟨j, m⟩ := q; simp [skelDict, ih]

theorem skelFields_eq (fs : List (Name × Field α)) : skelFields fs = fs.map fun q => (q.1, skelField q.2) := by
  induction fs with
  | nil => rfl
  | cons q ms ih => obtain ⟨j, m⟩ := q; simp [skelFields, ih]

theorem assoc_map {β γ : Type} (g : β → γ) (k : Name) (l : List (Name × β)) :
    assoc k (l.map fun q => (q.1, g q.2)) = (assoc k l).map g := by
  induction l with
  | nil => rfl
  | cons q l ih =>
    obtain ⟨k', v⟩ := q
    simp only [List.map_cons, assoc, ih]
    split <;> rfl

theorem assocSet_map {β γ : Type} (g : β → γ) (k : Name) (v : β) (l : List (Name × β)) :
    (assocSet k v l).map (fun q => (q.1, g q.2)) = assocSet k (g v) (l.map fun q => (q.1, g q.2)) := by
  induction l with
  | nil => rfl
  | cons q l ih =>
    obtain ⟨k', w⟩ := q
    simp only [List.map_cons, assocSet]
    split <;> simp [ih]

theorem skel_updatable (m : HV α) : (skel m).updatable = m.updatable := by cases m; rfl

theorem skel_getField (m : HV α) (k : Name) : (skel m).getField k = (m.getField k).map skelField := by
  obtain ⟨u, fs⟩ := m
  simp only [skel, HV.getField, HV.fields, skelFields_eq, assoc_map]

theorem skel_setField (m : HV α) (k : Name) (f : Field α) : skel (m.setField k f) = (skel m).setField k (skelField f) := by
  obtain ⟨u, fs⟩ := m
  simp only [skel, HV.setField, HV.updatable, HV.fields, skelFields_eq, assocSet_map]

theorem setField_same {m : HV α} {k : Name} {f : Field α} (h : m.getField k = some f) : m.setField k f = m := by
  obtain ⟨u, fs⟩ := m
  simp only [HV.setField, HV.updatable, HV.fields, assocSet_same (show assoc k fs = some f from h)]

/-- The models met on the way to a value are those of the skeleton. -/
theorem chain_skel : ∀ (segs : List Name) (m : HV α),
    chain (skel m) segs = (chain m segs).map fun ch => ch.map fun q => (q.1, skel q.2)
  | [], m => rfl
  | [n], m => rfl
  | n :: s :: rest, m => by
    simp only [chain, skel_getField]
    cases hf : m.getField n with
    | none => rfl
    | some f =>
      cases f with
      | arr a => rfl
      | lst ms => rfl
      | other => rfl
      | sub c =>
        simp only [Option.map_some, skelField, chain_skel (s :: rest) c]
        cases chain c (s :: rest) <;> simp [Except.map]
      | tup ms =>
        simp only [Option.map_some, skelField, skelList_eq, List.length_map, List.getElem?_map]
        by_cases hr : rest = []
        · simp [hr, Except.map]
        · simp only [if_neg hr]
          cases Py.intOf s with
          | none => rfl
          | some z =>
            simp only
            cases Py.seqIndex ms.length z with
            | none => rfl
            | some j =>
              simp only
              cases ms[j]? with
              | none => rfl
              | some c =>
                simp only [Option.map_some, chain_skel rest c]
                cases chain c rest <;> simp [Except.map]
      | dict ms =>
        simp only [Option.map_some, skelField, skelDict_eq, assoc_map]
        by_cases hr : rest = []
        · simp [hr, Except.map]
        · simp only [if_neg hr]
          cases assoc s ms with
          | none => rfl
          | some c =>
            simp only [Option.map_some, chain_skel rest c]
            cases chain c rest <;> simp [Except.map]

theorem lastField_skel (ch : List (Name × HV α)) :
    lastField (ch.map fun q => (q.1, skel q.2)) = (lastField ch).map skelField := by
  unfold lastField
  rw [List.getLast?_map]
  cases ch.getLast? with
  | none => rfl
  | some q =>
    obtain ⟨n, m⟩ := q
    simp only [Option.map_some, skel_getField]
    cases m.getField n <;> rfl

theorem lookup_skel (m : HV α) (n : Name) : (skel m).lookup n = (m.lookup n).map skelField := by
  unfold HV.lookup
  rw [chain_skel]
  cases chain m (Py.splitDots n) with
  | error e => rfl
  | ok ch => exact lastField_skel ch

/-- Setting an array where there is one keeps the skeleton. -/
theorem alterChain_skel (v : Arr2 α) : ∀ (segs : List Name) (m m' : HV α),
    (∃ ch a, chain m segs = .ok ch ∧ lastField ch = .ok (.arr a)) →
    alterChain (fun n o => o.setField n (.arr v)) (fun _ o => o) m segs = .ok m' → skel m' = skel m
  | [], m, m', _, h => by simp [alterChain] at h
  | [n], m, m', ⟨ch, a, h1, h2⟩, h => by
    simp only [chain, Except.ok.injEq] at h1
    subst h1
    simp only [alterChain, Except.ok.injEq] at h
    subst h
    have hf : m.getField n = some (.arr a) := by
      simp only [lastField, List.getLast?_singleton] at h2
      cases hf : m.getField n with
      | none => rw [hf] at h2; simp at h2
      | some f => rw [hf] at h2; simpa using h2
    rw [skel_setField]
    exact setField_same (by rw [skel_getField, hf]; rfl)
  | n :: s :: rest, m, m', ⟨ch, a, h1, h2⟩, h => by
    simp only [chain] at h1
    simp only [alterChain] at h
    cases hf : m.getField n with
    | none => rw [hf] at h; simp at h
    | some f =>
      rw [hf] at h h1
      have step : ∀ (segs : List Name) (c c' : HV α), segs ≠ [] → (chain c segs).map ((n, m) :: ·) = .ok ch →
          (∃ ch a, chain c segs = .ok ch ∧ lastField ch = .ok (.arr a)) := by
        intro segs c c' hne hc
        cases hcc : chain c segs with
        | error e => rw [hcc] at hc; simp [Except.map] at hc
        | ok ch' =>
          rw [hcc] at hc
          simp only [Except.map, Except.ok.injEq] at hc
          subst hc
          have hne' : ch' ≠ [] := by
            rintro rfl
            match segs, hcc, hne with
            | [x], hcc, _ => simp [chain] at hcc
            | x :: y :: z, hcc, _ =>
              simp only [chain] at hcc
              repeat' split at hcc
              all_goals first | exact absurd hcc (by simp) | skip
              all_goals
                cases hq : chain _ _ <;> rw [hq] at hcc <;> simp [Except.map] at hcc
          refine ⟨ch', a, rfl, ?_⟩
          obtain ⟨x, xs, rfl⟩ := List.exists_cons_of_ne_nil hne'
          unfold lastField at h2 ⊢
          rwa [List.getLast?_cons_cons] at h2
      cases f with
      | arr a => simp at h
      | lst ms => simp at h
      | other => simp at h
      | sub c =>
        simp only at h h1
        cases hc : alterChain (fun n o => o.setField n (.arr v)) (fun _ o => o) c (s :: rest) with
        | error e => rw [hc] at h; simp [Except.map] at h
        | ok c' =>
          rw [hc] at h
          simp only [Except.map, Except.ok.injEq] at h
          subst h
          have := alterChain_skel v (s :: rest) c c' (step _ c c' (by simp) h1) hc
          rw [skel_setField]
          exact setField_same (by rw [skel_getField, hf]; simp [skelField, this])
      | tup ms =>
        simp only at h h1
        by_cases hr : rest = []
        · simp [hr] at h
        · simp only [if_neg hr] at h h1
          cases hz : Py.intOf s with
          | none => rw [hz] at h; simp at h
          | some z =>
            rw [hz] at h h1
            simp only at h h1
            cases hj : Py.seqIndex ms.length z with
            | none => rw [hj] at h; simp at h
            | some j =>
              rw [hj] at h h1
              simp only at h h1
              cases hcj : ms[j]? with
              | none => rw [hcj] at h; simp at h
              | some c =>
                rw [hcj] at h h1
                simp only at h h1
                cases hc : alterChain (fun n o => o.setField n (.arr v)) (fun _ o => o) c rest with
                | error e => rw [hc] at h; simp [Except.map] at h
                | ok c' =>
                  rw [hc] at h
                  simp only [Except.map, Except.ok.injEq] at h
                  subst h
                  have := alterChain_skel v rest c c' (step _ c c' hr h1) hc
                  rw [skel_setField]
                  refine setField_same ?_
                  rw [skel_getField, hf]
                  simp only [Option.map_some, skelField, skelList_eq, Option.some.injEq, Field.tup.injEq]
                  refine List.ext_getElem? fun i => ?_
                  rw [List.getElem?_map, List.getElem?_map, List.getElem?_set]
                  by_cases hi : j = i
                  · subst hi
                    have hlt : j < ms.length := by
                      rw [List.getElem?_eq_some_iff] at hcj
                      exact hcj.1
                    rw [if_pos rfl, if_pos hlt, hcj, Option.map_some, Option.map_some, this]
                  · simp [hi]
      | dict ms =>
        simp only at h h1
        by_cases hr : rest = []
        · simp [hr] at h
        · simp only [if_neg hr] at h h1
          cases hcj : assoc s ms with
          | none => rw [hcj] at h; simp at h
          | some c =>
            rw [hcj] at h h1
            simp only at h h1
            cases hc : alterChain (fun n o => o.setField n (.arr v)) (fun _ o => o) c rest with
            | error e => rw [hc] at h; simp [Except.map] at h
            | ok c' =>
              rw [hc] at h
              simp only [Except.map, Except.ok.injEq] at h
              subst h
              have := alterChain_skel v rest c c' (step _ c c' hr h1) hc
              rw [skel_setField]
              refine setField_same ?_
              rw [skel_getField, hf]
              simp only [Option.map_some, skelField, skelDict_eq, Option.some.injEq, Field.dict.injEq, assocSet_map, this]
              rw [assocSet_same]
              rw [assoc_map, hcj]
              rfl

theorem setAttr_skel {m m' : HV α} {n : Name} {v a : Arr2 α} (hl : m.lookup n = .ok (.arr a)) (h : m.setAttr n (.arr v) = .ok m') :
    skel m' = skel m := by
  refine alterChain_skel v (Py.splitDots n) m m' ?_ h
  unfold HV.lookup at hl
  cases hc : chain m (Py.splitDots n) with
  | error e => rw [hc] at hl; simp [bind, Except.bind] at hl
  | ok ch => rw [hc] at hl; exact ⟨ch, a, rfl, hl⟩

end Verif
