import Verif.Proofs.HealthPaths
/-!
# Resolving, distinguishing and overwriting parameters (lemmas)
-/

namespace Verif
variable {α β : Type}

theorem IsParam.ne_nil {m : HV α} {p : List Name} {a : Arr2 α} (h : IsParam m p a) : p ≠ [] := by
  cases h <;> simp

theorem IsMarked.isParam {m : HV α} {p : List Name} {a : Arr2 α} (h : IsMarked m p a) : IsParam m p a := by
  induction h with
  | arr _ h => exact .arr h
  | sub _ h _ ih => exact .sub h ih
  | tup _ h hi _ ih => exact .tup h hi ih
  | lst _ h hi _ ih => exact .lst h hi ih
  | dict _ h hj _ ih => exact .dict h hj ih

theorem IsParam.noDot {m : HV α} {p : List Name} {a : Arr2 α} (h : IsParam m p a) (hw : m.WF) :
    ∀ s ∈ p, '.' ∉ s := by
  induction h with
  | arr h =>
    cases hw with
    | mk _ hd _ _ _ _ _ _ =>
    intro s hs; simp at hs; subst hs; exact hd _ _ h
  | sub h _ ih =>
    cases hw with
    | mk _ hd hs _ _ _ _ _ =>
    intro s hm
    rcases List.mem_cons.1 hm with rfl | hm
    · exact hd _ _ h
    · exact ih (hs _ _ h) s hm
  | tup h hi _ ih =>
    cases hw with
    | mk _ hd _ ht _ _ _ _ =>
    intro s hm
    rcases List.mem_cons.1 hm with rfl | hm
    · exact hd _ _ h
    rcases List.mem_cons.1 hm with rfl | hm
    · exact Py.natStr_noDot _
    · exact ih (ht _ _ h _ (List.mem_of_getElem? hi)) s hm
  | lst h hi _ ih =>
    cases hw with
    | mk _ _ _ _ _ _ _ hl => exact absurd h (hl _ _)
  | dict h hj _ ih =>
    cases hw with
    | mk _ hd _ _ _ hdd hdc _ =>
    intro s hm
    rcases List.mem_cons.1 hm with rfl | hm
    · exact hd _ _ h
    rcases List.mem_cons.1 hm with rfl | hm
    · exact hdd _ _ h _ _ hj
    · exact ih (hdc _ _ h _ _ hj) s hm

theorem IsParam.split {m : HV α} {p : List Name} {a : Arr2 α} (h : IsParam m p a) (hw : m.WF) :
    Py.splitDots (Py.joinDots p) = p := Py.splitDots_joinDots h.ne_nil (h.noDot hw)

theorem getLast?_cons_ne {β : Type} {x : β} {l : List β} (h : l ≠ []) : (x :: l).getLast? = l.getLast? := by
  cases l with
  | nil => exact absurd rfl h
  | cons y l => simp [List.getLast?_cons]

theorem lastField_cons {x : Name × HV α} {l : List (Name × HV α)} (h : l ≠ []) :
    lastField (x :: l) = lastField l := by
  simp [lastField, getLast?_cons_ne h]

/-- A parameter's path resolves to the parameter, and the models on the way are marked exactly if the path is. -/
theorem chain_of_isParam {m : HV α} {p : List Name} {a : Arr2 α} (h : IsParam m p a) (hw : m.WF) :
    ∃ ch, chain m p = .ok ch ∧ ch ≠ [] ∧ lastField ch = .ok (.arr a) ∧
      (ch.all (fun q => q.2.updatable.contains q.1) = true ↔ IsMarked m p a) := by
  induction h with
  | @arr u fs k a h =>
    cases hw with
    | mk hn _ _ _ _ _ _ _ =>
    refine ⟨[(k, .mk u fs)], rfl, by simp, ?_, ?_⟩
    · simp [lastField, HV.getField, HV.fields, assoc_of_mem hn h]
    · simp only [List.all_cons, List.all_nil, Bool.and_true, HV.updatable, List.contains_eq_mem, decide_eq_true_eq]
      exact ⟨fun hk => .arr hk h, fun hm => by cases hm <;> assumption⟩
  | @sub u fs k c p a h hp ih =>
    cases hw with
    | mk hn _ hs _ _ _ _ _ =>
    obtain ⟨ch, hch, hne, hl, hm⟩ := ih (hs _ _ h)
    have hg : (HV.mk u fs).getField k = some (.sub c) := by simp [HV.getField, HV.fields, assoc_of_mem hn h]
    obtain ⟨s, rest, rfl⟩ : ∃ s rest, p = s :: rest := by
      cases p with
      | nil => exact absurd rfl hp.ne_nil
      | cons s rest => exact ⟨s, rest, rfl⟩
    refine ⟨(k, .mk u fs) :: ch, ?_, by simp, by rw [lastField_cons hne]; exact hl, ?_⟩
    · simp only [chain, hg, hch]; rfl
    · rw [List.all_cons, Bool.and_eq_true, hm]
      simp only [HV.updatable, List.contains_eq_mem, decide_eq_true_eq]
      constructor
      · rintro ⟨hk, hm⟩; exact .sub hk h hm
      · intro hm
        cases hm with
        | sub hk h' hm =>
          have := assoc_of_mem hn h; rw [assoc_of_mem hn h'] at this; cases this; exact ⟨hk, hm⟩
        | tup _ h' => have := assoc_of_mem hn h; rw [assoc_of_mem hn h'] at this; cases this
        | lst _ h' => have := assoc_of_mem hn h; rw [assoc_of_mem hn h'] at this; cases this
        | dict _ h' => have := assoc_of_mem hn h; rw [assoc_of_mem hn h'] at this; cases this
  | @tup u fs k ms i c p a h hi hp ih =>
    cases hw with
    | mk hn _ _ ht _ _ _ _ =>
    obtain ⟨ch, hch, hne, hl, hm⟩ := ih (ht _ _ h _ (List.mem_of_getElem? hi))
    have hg : (HV.mk u fs).getField k = some (.tup ms) := by simp [HV.getField, HV.fields, assoc_of_mem hn h]
    have hlt : i < ms.length := (List.getElem?_eq_some_iff.1 hi).1
    refine ⟨(k, .mk u fs) :: ch, ?_, by simp, by rw [lastField_cons hne]; exact hl, ?_⟩
    · simp only [chain, hg, hp.ne_nil, if_false, Py.intOf_natStr, Py.seqIndex_nat hlt, hi, hch]; rfl
    · rw [List.all_cons, Bool.and_eq_true, hm]
      simp only [HV.updatable, List.contains_eq_mem, decide_eq_true_eq]
      constructor
      · rintro ⟨hk, hm⟩; exact .tup hk h hi hm
      · intro hm
        generalize hs : Py.natStr i = s at hm
        cases hm with
        | sub _ h' => have := assoc_of_mem hn h; rw [assoc_of_mem hn h'] at this; cases this
        | tup hk h' hi' hm =>
          have := assoc_of_mem hn h; rw [assoc_of_mem hn h'] at this; cases this
          have hij := Py.natStr_injective hs
          subst hij
          rw [hi] at hi'; cases hi'
          exact ⟨hk, hm⟩
        | lst _ h' => have := assoc_of_mem hn h; rw [assoc_of_mem hn h'] at this; cases this
        | dict _ h' => have := assoc_of_mem hn h; rw [assoc_of_mem hn h'] at this; cases this
  | lst h _ _ _ =>
    cases hw with
    | mk _ _ _ _ _ _ _ hl => exact absurd h (hl _ _)
  | @dict u fs k ms j c p a h hj hp ih =>
    cases hw with
    | mk hn _ _ _ hdn _ hdc _ =>
    obtain ⟨ch, hch, hne, hl, hm⟩ := ih (hdc _ _ h _ _ hj)
    have hg : (HV.mk u fs).getField k = some (.dict ms) := by simp [HV.getField, HV.fields, assoc_of_mem hn h]
    have hjj : assoc j ms = some c := assoc_of_mem (hdn _ _ h) hj
    refine ⟨(k, .mk u fs) :: ch, ?_, by simp, by rw [lastField_cons hne]; exact hl, ?_⟩
    · simp only [chain, hg, hp.ne_nil, if_false, hjj, hch]; rfl
    · rw [List.all_cons, Bool.and_eq_true, hm]
      simp only [HV.updatable, List.contains_eq_mem, decide_eq_true_eq]
      constructor
      · rintro ⟨hk, hm⟩; exact .dict hk h hj hm
      · intro hm
        cases hm with
        | sub _ h' => have := assoc_of_mem hn h; rw [assoc_of_mem hn h'] at this; cases this
        | tup _ h' => have := assoc_of_mem hn h; rw [assoc_of_mem hn h'] at this; cases this
        | lst _ h' => have := assoc_of_mem hn h; rw [assoc_of_mem hn h'] at this; cases this
        | dict hk h' hj' hm =>
          have := assoc_of_mem hn h; rw [assoc_of_mem hn h'] at this; cases this
          rw [assoc_of_mem (hdn _ _ h) hj'] at hjj; cases hjj
          exact ⟨hk, hm⟩

theorem IsParam.unique {m : HV α} {p : List Name} {a b : Arr2 α} (ha : IsParam m p a) (hb : IsParam m p b)
    (hw : m.WF) : a = b := by
  obtain ⟨ch, h1, _, h2, _⟩ := chain_of_isParam ha hw
  obtain ⟨ch', h1', _, h2', _⟩ := chain_of_isParam hb hw
  rw [h1] at h1'; cases h1'
  rw [h2] at h2'; cases h2'; rfl

theorem lookup_of_isParam {m : HV α} {p : List Name} {a : Arr2 α} (h : IsParam m p a) (hw : m.WF) :
    m.lookup (Py.joinDots p) = .ok (.arr a) := by
  obtain ⟨ch, h1, _, h2, _⟩ := chain_of_isParam h hw
  simp only [HV.lookup, h.split hw, h1]
  exact h2

/-! ## Distinct paths -/

theorem HV.WF.child {u : List Name} {fs : List (Name × Field α)} (hw : (HV.mk u fs).WF) {c : HV α}
    (hc : FieldsChild fs c) : c.WF := by
  cases hw with
  | mk _ _ hs ht _ _ hd hl =>
    rcases hc with ⟨k, h⟩ | ⟨k, ms, h, hc⟩ | ⟨k, ms, h, hc⟩ | ⟨k, ms, j, h, hc⟩
    · exact hs _ _ h
    · exact ht _ _ h _ hc
    · exact absurd h (hl _ _)
    · exact hd _ _ h _ _ hc

theorem nodup_map_inj {γ : Type} {l : List β} {f : β → γ} (hf : ∀ x y, f x = f y → x = y) (h : l.Nodup) :
    (l.map f).Nodup := by
  induction l with
  | nil => simp
  | cons x xs ih =>
    simp only [List.map_cons, List.nodup_cons, List.mem_map, not_exists, not_and] at h ⊢
    refine ⟨fun y hy e => h.1 (hf _ _ e ▸ hy), ih h.2⟩

theorem nodup_map_pre {k : Name} {l : List (List Name × Arr2 α)} (h : (l.map (·.1)).Nodup) :
    ((l.map (pre k)).map (·.1)).Nodup := by
  have : (l.map (pre k)).map (·.1) = (l.map (·.1)).map (k :: ·) := by
    simp [List.map_map, Function.comp_def, pre]
  rw [this]
  exact nodup_map_inj (fun x y h => by simpa using h) h

theorem head_of_mem_map_pre {k : Name} {l : List (List Name × Arr2 α)} {q : List Name}
    (h : q ∈ (l.map (pre k)).map (·.1)) : q.head? = some k := by
  simp only [List.mem_map, pre] at h
  obtain ⟨_, ⟨r, _, rfl⟩, rfl⟩ := h
  rfl

theorem iterPFields_head {u : Bool} {upd : List Name} {fs : List (Name × Field α)} {q : List Name}
    (h : q ∈ (iterPFields u upd fs).map (·.1)) : ∃ k, k ∈ fs.map (·.1) ∧ q.head? = some k := by
  rw [iterPFields_eq, List.mem_map] at h
  obtain ⟨r, hr, rfl⟩ := h
  rw [List.mem_flatMap] at hr
  obtain ⟨p, hp, hr⟩ := hr
  split at hr
  · simp at hr
  · exact ⟨p.1, List.mem_map_of_mem hp, head_of_mem_map_pre (List.mem_map_of_mem hr)⟩

theorem iterPSeq_head {u : Bool} {i : Nat} {ms : List (HV α)} {q : List Name}
    (h : q ∈ (iterPSeq u i ms).map (·.1)) : ∃ j, i ≤ j ∧ q.head? = some (Py.natStr j) := by
  rw [List.mem_map] at h
  obtain ⟨r, hr, rfl⟩ := h
  rw [mem_iterPSeq] at hr
  obtain ⟨j, c, _, p, _, rfl⟩ := hr
  exact ⟨i + j, by omega, rfl⟩

theorem iterPDict_head {u : Bool} {ms : List (Name × HV α)} {q : List Name}
    (h : q ∈ (iterPDict u ms).map (·.1)) : ∃ k, k ∈ ms.map (·.1) ∧ q.head? = some k := by
  rw [iterPDict_eq, List.mem_map] at h
  obtain ⟨r, hr, rfl⟩ := h
  rw [List.mem_flatMap] at hr
  obtain ⟨p, hp, hr⟩ := hr
  exact ⟨p.1, List.mem_map_of_mem hp, head_of_mem_map_pre (List.mem_map_of_mem hr)⟩

/-- All iterated paths are distinct. -/
theorem iterP_nodup (u : Bool) {m : HV α} (hw : m.WF) : ((iterP u m).map (·.1)).Nodup := by
  induction m using HV.induct with
  | h upd fs ih =>
    have ih' : ∀ c, FieldsChild fs c → ((iterP u c).map (·.1)).Nodup := fun c hc => ih c hc (hw.child hc)
    have hdn : ∀ k ms, (k, Field.dict ms) ∈ fs → (ms.map (·.1)).Nodup := by
      cases hw with | mk _ _ _ _ h _ _ _ => exact h
    have hseq : ∀ (ms : List (HV α)) (i : Nat), (∀ c ∈ ms, FieldsChild fs c) →
        ((iterPSeq u i ms).map (·.1)).Nodup := by
      intro ms
      induction ms with
      | nil => intros; simp [iterPSeq]
      | cons m ms ihm =>
        intro i hm
        rw [iterPSeq, List.map_append, List.nodup_append]
        refine ⟨nodup_map_pre (ih' m (hm m (by simp))), ihm _ (fun c hc => hm c (by simp [hc])), ?_⟩
        intro a ha b hb hab
        subst hab
        obtain ⟨j, hj, hj'⟩ := iterPSeq_head hb
        rw [head_of_mem_map_pre ha] at hj'
        have := Py.natStr_injective (Option.some.inj hj')
        omega
    have hdict : ∀ (ms : List (Name × HV α)), (∀ j c, (j, c) ∈ ms → FieldsChild fs c) → (ms.map (·.1)).Nodup →
        ((iterPDict u ms).map (·.1)).Nodup := by
      intro ms
      induction ms with
      | nil => intros; simp [iterPDict]
      | cons p ms ihm =>
        obtain ⟨k, m⟩ := p
        intro hm hnd
        simp only [List.map_cons, List.nodup_cons] at hnd
        rw [iterPDict, List.map_append, List.nodup_append]
        refine ⟨nodup_map_pre (ih' m (hm k m (by simp))), ihm (fun j c hc => hm j c (by simp [hc])) hnd.2, ?_⟩
        intro a ha b hb hab
        subst hab
        obtain ⟨j, hj, hj'⟩ := iterPDict_head hb
        rw [head_of_mem_map_pre ha] at hj'
        cases hj'
        exact hnd.1 hj
    have hf : ∀ k f, (k, f) ∈ fs → ((iterPField u f).map (·.1)).Nodup := by
      intro k f hkf
      cases f with
      | arr a => simp [iterPField]
      | other => simp [iterPField]
      | sub c => rw [iterPField]; exact ih' c (.inl ⟨k, hkf⟩)
      | tup ms => rw [iterPField]; exact hseq ms 0 fun c hc => .inr (.inl ⟨k, ms, hkf, hc⟩)
      | lst ms => rw [iterPField]; exact hseq ms 0 fun c hc => .inr (.inr (.inl ⟨k, ms, hkf, hc⟩))
      | dict ms =>
        rw [iterPField]
        exact hdict ms (fun j c hc => .inr (.inr (.inr ⟨k, ms, j, hkf, hc⟩))) (hdn _ _ hkf)
    have hn : (fs.map (·.1)).Nodup := by cases hw with | mk h _ _ _ _ _ _ _ => exact h
    rw [iterP]
    clear ih ih' hseq hdict hdn hw
    induction fs with
    | nil => simp [iterPFields]
    | cons p rest ihl =>
      obtain ⟨k, f⟩ := p
      simp only [List.map_cons, List.nodup_cons] at hn
      rw [iterPFields, List.map_append, List.nodup_append]
      refine ⟨?_, ihl (fun k f h => hf k f (List.mem_cons_of_mem _ h)) hn.2, ?_⟩
      · split
        · simp
        · exact nodup_map_pre (hf k f (by simp))
      · intro a ha b hb hab
        subst hab
        obtain ⟨j, hj, hj'⟩ := iterPFields_head hb
        split at ha
        · simp at ha
        · rw [head_of_mem_map_pre ha] at hj'
          cases hj'
          exact hn.1 hj

/-- Iterating only marked parameters gives a sub-sequence of iterating all. -/
theorem iterP_sublist (m : HV α) : (iterP true m).Sublist (iterP false m) := by
  induction m using HV.induct with
  | h upd fs ih =>
    have hseq : ∀ (ms : List (HV α)) (i : Nat), (∀ c ∈ ms, FieldsChild fs c) →
        (iterPSeq true i ms).Sublist (iterPSeq false i ms) := by
      intro ms
      induction ms with
      | nil => intros; simp [iterPSeq]
      | cons m ms ihm =>
        intro i hm
        rw [iterPSeq, iterPSeq]
        exact ((ih m (hm m (by simp))).map _).append (ihm _ fun c hc => hm c (by simp [hc]))
    have hdict : ∀ (ms : List (Name × HV α)), (∀ j c, (j, c) ∈ ms → FieldsChild fs c) →
        (iterPDict true ms).Sublist (iterPDict false ms) := by
      intro ms
      induction ms with
      | nil => intros; simp [iterPDict]
      | cons p ms ihm =>
        obtain ⟨k, m⟩ := p
        intro hm
        rw [iterPDict, iterPDict]
        exact ((ih m (hm k m (by simp))).map _).append (ihm fun j c hc => hm j c (by simp [hc]))
    have hf : ∀ k f, (k, f) ∈ fs → (iterPField true f).Sublist (iterPField false f) := by
      intro k f hkf
      cases f with
      | arr a => simp [iterPField]
      | other => simp [iterPField]
      | sub c => rw [iterPField, iterPField]; exact ih c (.inl ⟨k, hkf⟩)
      | tup ms => rw [iterPField, iterPField]; exact hseq ms 0 fun c hc => .inr (.inl ⟨k, ms, hkf, hc⟩)
      | lst ms => rw [iterPField, iterPField]; exact hseq ms 0 fun c hc => .inr (.inr (.inl ⟨k, ms, hkf, hc⟩))
      | dict ms =>
        rw [iterPField, iterPField]
        exact hdict ms fun j c hc => .inr (.inr (.inr ⟨k, ms, j, hkf, hc⟩))
    rw [iterP, iterP]
    clear ih hseq hdict
    induction fs with
    | nil => simp [iterPFields]
    | cons p rest ihl =>
      obtain ⟨k, f⟩ := p
      rw [iterPFields, iterPFields]
      refine List.Sublist.append ?_ (ihl fun k f h => hf k f (List.mem_cons_of_mem _ h))
      simp only [Bool.false_and, Bool.false_eq_true, if_false]
      split
      · simp
      · exact (hf k f (by simp)).map _

/-! ## Overwriting one parameter -/

/-- Replace the value at one path. -/
def repl (p : List Name) (v : Arr2 α) (q : List Name × Arr2 α) : List Name × Arr2 α :=
  if q.1 = p then (q.1, v) else q

theorem repl_fst (p : List Name) (v : Arr2 α) (q : List Name × Arr2 α) : (repl p v q).1 = q.1 := by
  unfold repl; split <;> rfl

theorem map_pre_repl_same (k : Name) (r : List Name) (v : Arr2 α) (l : List (List Name × Arr2 α)) :
    (l.map (pre k)).map (repl (k :: r) v) = (l.map (repl r v)).map (pre k) := by
  rw [List.map_map, List.map_map]
  apply List.map_congr_left
  intro q _
  by_cases h : q.1 = r <;> simp [Function.comp, repl, pre, h]

theorem map_pre_repl_ne {k k' : Name} (r : List Name) (v : Arr2 α) (l : List (List Name × Arr2 α)) (h : k' ≠ k) :
    (l.map (pre k')).map (repl (k :: r) v) = l.map (pre k') := by
  rw [List.map_map]
  apply List.map_congr_left
  intro q _
  simp [Function.comp, repl, pre, h]

theorem iterPFields_repl_ne {u : Bool} {upd : List Name} {fs : List (Name × Field α)} {k : Name} (r : List Name)
    (v : Arr2 α) (h : k ∉ fs.map (·.1)) :
    (iterPFields u upd fs).map (repl (k :: r) v) = iterPFields u upd fs := by
  induction fs with
  | nil => rfl
  | cons p rest ih =>
    obtain ⟨k', f⟩ := p
    simp only [List.map_cons, List.mem_cons, not_or] at h
    rw [iterPFields, List.map_append, ih h.2]
    congr 1
    split
    · rfl
    · exact map_pre_repl_ne _ _ _ (Ne.symm h.1)

theorem iterPFields_assocSet {u : Bool} {upd : List Name} {fs : List (Name × Field α)} {k : Name} {f f' : Field α}
    {r : List Name} {v : Arr2 α} (hn : (fs.map (·.1)).Nodup) (hk : (k, f) ∈ fs)
    (hf : iterPField u f' = (iterPField u f).map (repl r v)) :
    iterPFields u upd (assocSet k f' fs) = (iterPFields u upd fs).map (repl (k :: r) v) := by
  induction fs with
  | nil => simp at hk
  | cons p rest ih =>
    obtain ⟨k', g⟩ := p
    simp only [List.map_cons, List.nodup_cons] at hn
    simp only [List.mem_cons, Prod.mk.injEq] at hk
    unfold assocSet
    by_cases hkk : k' = k
    · subst hkk
      have hg : f = g := by
        rcases hk with h | h
        · exact h.2
        · exact absurd (List.mem_map_of_mem (f := (·.1)) h) hn.1
      subst hg
      simp only [if_true]
      rw [iterPFields, iterPFields, List.map_append, iterPFields_repl_ne _ _ hn.1]
      congr 1
      split
      · rfl
      · rw [hf, map_pre_repl_same]
    · rcases hk with h | h
      · exact absurd h.1.symm hkk
      · simp only [hkk, if_false]
        rw [iterPFields, iterPFields, List.map_append, ih hn.2 h]
        congr 1
        split
        · rfl
        · exact (map_pre_repl_ne _ _ _ hkk).symm

theorem iterPSeq_repl_lt {u : Bool} {i j : Nat} {ms : List (HV α)} (r : List Name) (v : Arr2 α) (h : j < i) :
    (iterPSeq u i ms).map (repl (Py.natStr j :: r) v) = iterPSeq u i ms := by
  induction ms generalizing i with
  | nil => rfl
  | cons m ms ih =>
    rw [iterPSeq, List.map_append, ih (by omega), map_pre_repl_ne _ _ _ (fun e => ?_)]
    have := Py.natStr_injective e
    omega

theorem iterPSeq_set {u : Bool} {ms : List (HV α)} {i j : Nat} {c c' : HV α} {r : List Name} {v : Arr2 α}
    (hj : ms[j]? = some c) (hc : iterP u c' = (iterP u c).map (repl r v)) :
    iterPSeq u i (ms.set j c') = (iterPSeq u i ms).map (repl (Py.natStr (i + j) :: r) v) := by
  induction ms generalizing i j with
  | nil => simp at hj
  | cons m ms ih =>
    cases j with
    | zero =>
      simp only [List.getElem?_cons_zero, Option.some.injEq] at hj
      subst hj
      have h0 : i + 0 = i := rfl
      rw [List.set_cons_zero, iterPSeq, iterPSeq, List.map_append, h0, map_pre_repl_same, hc,
        iterPSeq_repl_lt _ _ (by omega)]
    | succ j =>
      rw [List.set_cons_succ, iterPSeq, iterPSeq, List.map_append, ih (by simpa using hj),
        map_pre_repl_ne _ _ _ (fun e => ?_)]
      · congr 3; congr 2; omega
      · have := Py.natStr_injective e; omega

theorem iterPDict_repl_ne {u : Bool} {ms : List (Name × HV α)} {k : Name} (r : List Name)
    (v : Arr2 α) (h : k ∉ ms.map (·.1)) :
    (iterPDict u ms).map (repl (k :: r) v) = iterPDict u ms := by
  induction ms with
  | nil => rfl
  | cons p rest ih =>
    obtain ⟨k', f⟩ := p
    simp only [List.map_cons, List.mem_cons, not_or] at h
    rw [iterPDict, List.map_append, ih h.2, map_pre_repl_ne _ _ _ (Ne.symm h.1)]

theorem iterPDict_assocSet {u : Bool} {ms : List (Name × HV α)} {k : Name} {c c' : HV α}
    {r : List Name} {v : Arr2 α} (hn : (ms.map (·.1)).Nodup) (hk : (k, c) ∈ ms)
    (hc : iterP u c' = (iterP u c).map (repl r v)) :
    iterPDict u (assocSet k c' ms) = (iterPDict u ms).map (repl (k :: r) v) := by
  induction ms with
  | nil => simp at hk
  | cons p rest ih =>
    obtain ⟨k', g⟩ := p
    simp only [List.map_cons, List.nodup_cons] at hn
    simp only [List.mem_cons, Prod.mk.injEq] at hk
    unfold assocSet
    by_cases hkk : k' = k
    · subst hkk
      have hg : c = g := by
        rcases hk with h | h
        · exact h.2
        · exact absurd (List.mem_map_of_mem (f := (·.1)) h) hn.1
      subst hg
      simp only [if_true]
      rw [iterPDict, iterPDict, List.map_append, iterPDict_repl_ne _ _ hn.1, hc, map_pre_repl_same]
    · rcases hk with h | h
      · exact absurd h.1.symm hkk
      · simp only [hkk, if_false]
        rw [iterPDict, iterPDict, List.map_append, ih hn.2 h, map_pre_repl_ne _ _ _ hkk]

/-- Well-formedness of a field value. -/
def FieldWF : Field α → Prop
  | .arr _ => True
  | .sub c => c.WF
  | .tup ms => ∀ c ∈ ms, c.WF
  | .lst _ => False
  | .dict ms => (ms.map (·.1)).Nodup ∧ (∀ j c, (j, c) ∈ ms → '.' ∉ j) ∧ ∀ j c, (j, c) ∈ ms → c.WF
  | .other => True

theorem WF_iff {u : List Name} {fs : List (Name × Field α)} :
    (HV.mk u fs).WF ↔ (fs.map (·.1)).Nodup ∧ (∀ k f, (k, f) ∈ fs → '.' ∉ k) ∧ ∀ k f, (k, f) ∈ fs → FieldWF f := by
  constructor
  · intro h
    cases h with
    | mk h1 h2 h3 h4 h5 h6 h7 h8 =>
      refine ⟨h1, h2, fun k f hf => ?_⟩
      cases f with
      | arr a => trivial
      | other => trivial
      | sub c => exact h3 _ _ hf
      | tup ms => exact h4 _ _ hf
      | lst ms => exact absurd hf (h8 _ _)
      | dict ms => exact ⟨h5 _ _ hf, h6 _ _ hf, h7 _ _ hf⟩
  · rintro ⟨h1, h2, h3⟩
    exact .mk h1 h2 (fun k c h => h3 _ _ h) (fun k ms h => h3 _ _ h) (fun k ms h => (h3 _ _ h).1)
      (fun k ms h => (h3 _ _ h).2.1) (fun k ms h => (h3 _ _ h).2.2) (fun k ms h => h3 _ _ h)

theorem WF_setField {m : HV α} {k : Name} {f' : Field α} (hw : m.WF) (hf : FieldWF f') : (m.setField k f').WF := by
  cases m with
  | mk u fs =>
    rw [WF_iff] at hw
    obtain ⟨h1, h2, h3⟩ := hw
    rw [HV.setField, WF_iff]
    simp only [HV.fields]
    refine ⟨by rw [assocSet_keys]; exact h1, ?_, ?_⟩
    · intro j g hg
      have : j ∈ (assocSet k f' fs).map (·.1) := List.mem_map_of_mem (f := (·.1)) hg
      rw [assocSet_keys, List.mem_map] at this
      obtain ⟨⟨j', g'⟩, hm, rfl⟩ := this
      exact h2 _ _ hm
    · intro j g hg
      rcases mem_assocSet h1 hg with ⟨_, rfl⟩ | ⟨_, h⟩
      · exact hf
      · exact h3 _ _ h

theorem WF_setDict {ms : List (Name × HV α)} {j : Name} {c' : HV α} (hw : FieldWF (.dict ms)) (hc : c'.WF) :
    FieldWF (.dict (assocSet j c' ms)) := by
  obtain ⟨h1, h2, h3⟩ := hw
  refine ⟨by rw [assocSet_keys]; exact h1, ?_, ?_⟩
  · intro i g hg
    have : i ∈ (assocSet j c' ms).map (·.1) := List.mem_map_of_mem (f := (·.1)) hg
    rw [assocSet_keys, List.mem_map] at this
    obtain ⟨⟨j', g'⟩, hm, rfl⟩ := this
    exact h2 _ _ hm
  · intro i g hg
    rcases mem_assocSet h1 hg with ⟨_, rfl⟩ | ⟨_, h⟩
    · exact hc
    · exact h3 _ _ h

theorem WF_setTup {ms : List (HV α)} {j : Nat} {c' : HV α} (hw : FieldWF (.tup ms)) (hc : c'.WF) :
    FieldWF (.tup (ms.set j c')) := by
  intro c hm
  rcases List.mem_or_eq_of_mem_set hm with h | h
  · exact hw c h
  · exact h ▸ hc

/-- Overwriting the value of a parameter succeeds, changes that value only, and keeps order and markings. -/
theorem set_of_isParam {m : HV α} {p : List Name} {a : Arr2 α} (v : Arr2 α) (h : IsParam m p a) (hw : m.WF) :
    ∃ m', alterChain (fun n o => o.setField n (.arr v)) (fun _ o => o) m p = .ok m' ∧ m'.WF ∧
      (∀ u, iterP u m' = (iterP u m).map (repl p v)) ∧ (v = a → m' = m) := by
  induction h with
  | @arr u fs k a h =>
    have hw' := hw
    rw [WF_iff] at hw'
    obtain ⟨hn, _, _⟩ := hw'
    refine ⟨(HV.mk u fs).setField k (.arr v), rfl, WF_setField hw trivial, fun w => ?_, ?_⟩
    · simp only [HV.setField, HV.updatable, HV.fields, iterP]
      exact iterPFields_assocSet hn h (by simp [iterPField, repl])
    · rintro rfl
      simp [HV.setField, HV.updatable, HV.fields, assocSet_same (assoc_of_mem hn h)]
  | @sub u fs k c p a h hp ih =>
    have hw' := hw
    rw [WF_iff] at hw'
    obtain ⟨hn, _, hf⟩ := hw'
    obtain ⟨c', h1, h2, h3, h4⟩ := ih (hf _ _ h)
    have hg : (HV.mk u fs).getField k = some (.sub c) := by simp [HV.getField, HV.fields, assoc_of_mem hn h]
    obtain ⟨s, rest, rfl⟩ : ∃ s rest, p = s :: rest := by
      cases p with
      | nil => exact absurd rfl hp.ne_nil
      | cons s rest => exact ⟨s, rest, rfl⟩
    refine ⟨(HV.mk u fs).setField k (.sub c'), ?_, WF_setField hw h2, fun w => ?_, ?_⟩
    · simp only [alterChain, hg, h1]; rfl
    · simp only [HV.setField, HV.updatable, HV.fields, iterP]
      exact iterPFields_assocSet hn h (by simp [iterPField, h3 w])
    · intro e
      rw [h4 e]
      simp [HV.setField, HV.updatable, HV.fields, assocSet_same (assoc_of_mem hn h)]
  | @tup u fs k ms i c p a h hi hp ih =>
    have hw' := hw
    rw [WF_iff] at hw'
    obtain ⟨hn, _, hf⟩ := hw'
    obtain ⟨c', h1, h2, h3, h4⟩ := ih (hf _ _ h c (List.mem_of_getElem? hi))
    have hg : (HV.mk u fs).getField k = some (.tup ms) := by simp [HV.getField, HV.fields, assoc_of_mem hn h]
    have hlt : i < ms.length := (List.getElem?_eq_some_iff.1 hi).1
    refine ⟨(HV.mk u fs).setField k (.tup (ms.set i c')), ?_, WF_setField hw (WF_setTup (hf _ _ h) h2), fun w => ?_, ?_⟩
    · simp only [alterChain, hg, hp.ne_nil, if_false, Py.intOf_natStr, Py.seqIndex_nat hlt, hi, h1]; rfl
    · simp only [HV.setField, HV.updatable, HV.fields, iterP]
      refine iterPFields_assocSet hn h ?_
      rw [iterPField, iterPField, iterPSeq_set hi (h3 w)]
      simp
    · intro e
      rw [h4 e]
      have : ms.set i c = ms := by
        apply List.ext_getElem?
        intro j
        rw [List.getElem?_set]
        split
        · rename_i hij; subst hij; simp [hi]
        · rfl
      simp [HV.setField, HV.updatable, HV.fields, this, assocSet_same (assoc_of_mem hn h)]
  | lst h _ _ _ =>
    cases hw with
    | mk _ _ _ _ _ _ _ hl => exact absurd h (hl _ _)
  | @dict u fs k ms j c p a h hj hp ih =>
    have hw' := hw
    rw [WF_iff] at hw'
    obtain ⟨hn, _, hf⟩ := hw'
    obtain ⟨hdn, _, hdc⟩ := hf _ _ h
    obtain ⟨c', h1, h2, h3, h4⟩ := ih (hdc _ _ hj)
    have hg : (HV.mk u fs).getField k = some (.dict ms) := by simp [HV.getField, HV.fields, assoc_of_mem hn h]
    have hjj : assoc j ms = some c := assoc_of_mem hdn hj
    refine ⟨(HV.mk u fs).setField k (.dict (assocSet j c' ms)), ?_, WF_setField hw (WF_setDict (hf _ _ h) h2),
      fun w => ?_, ?_⟩
    · simp only [alterChain, hg, hp.ne_nil, if_false, hjj, h1]; rfl
    · simp only [HV.setField, HV.updatable, HV.fields, iterP]
      refine iterPFields_assocSet hn h ?_
      rw [iterPField, iterPField, iterPDict_assocSet hdn hj (h3 w)]
    · intro e
      rw [h4 e]
      simp [HV.setField, HV.updatable, HV.fields, assocSet_same hjj, assocSet_same (assoc_of_mem hn h)]

end Verif
