import Verif.Proofs.HealthGet
/-!
# Marking operations (lemmas)
-/

namespace Verif
variable {α β : Type}

theorem mem_addAll {ks : List Name} : ∀ {upd : List Name} {k : Name},
    k ∈ ks.foldl (fun u k => if k ∈ u then u else u ++ [k]) upd ↔ k ∈ upd ∨ k ∈ ks := by
  induction ks with
  | nil => intro upd k; simp
  | cons x xs ih =>
    intro upd k
    simp only [List.foldl_cons, ih, List.mem_cons]
    split
    · rename_i h
      constructor
      · rintro (h | h)
        · exact .inl h
        · exact .inr (.inr h)
      · rintro (h | rfl | h)
        · exact .inl h
        · exact .inl (by assumption)
        · exact .inr h
    · simp [or_assoc]

/-- Marking everything makes the marked iteration equal to the full one and keeps all values. -/
theorem iterP_markAll (m : HV α) : ∀ u, iterP u (markAll true m) = iterP false m := by
  induction m using HV.induct with
  | h upd fs ih =>
    intro u
    rw [markAll, iterP, iterP]
    simp only [if_true]
    have hseq : ∀ (ms : List (HV α)) (i : Nat), (∀ c ∈ ms, FieldsChild fs c) →
        iterPSeq u i (markAllSeq ms) = iterPSeq false i ms := by
      intro ms
      induction ms with
      | nil => intros; rfl
      | cons m ms ihm =>
        intro i hm
        rw [markAllSeq, iterPSeq, iterPSeq, ih m (hm m (by simp)), ihm _ fun c hc => hm c (by simp [hc])]
    have hdict : ∀ (ms : List (Name × HV α)), (∀ j c, (j, c) ∈ ms → FieldsChild fs c) →
        iterPDict u (markAllDict ms) = iterPDict false ms := by
      intro ms
      induction ms with
      | nil => intros; rfl
      | cons p ms ihm =>
        obtain ⟨k, m⟩ := p
        intro hm
        rw [markAllDict, iterPDict, iterPDict, ih m (hm k m (by simp)), ihm fun j c hc => hm j c (by simp [hc])]
    have hf : ∀ k f, (k, f) ∈ fs → iterPField u (markAllField f) = iterPField false f := by
      intro k f hkf
      cases f with
      | arr a => rfl
      | other => rfl
      | sub c => rw [markAllField, iterPField, iterPField, ih c (.inl ⟨k, hkf⟩)]
      | tup ms => rw [markAllField, iterPField, iterPField, hseq ms 0 fun c hc => .inr (.inl ⟨k, ms, hkf, hc⟩)]
      | lst ms => rw [markAllField, iterPField, iterPField, hseq ms 0 fun c hc => .inr (.inr (.inl ⟨k, ms, hkf, hc⟩))]
      | dict ms =>
        rw [markAllField, iterPField, iterPField,
          hdict ms fun j c hc => .inr (.inr (.inr ⟨k, ms, j, hkf, hc⟩))]
    generalize hU : ((fs.filter fun p => p.2.markable).map (·.1)).foldl
      (fun u k => if k ∈ u then u else u ++ [k]) upd = U
    have hmem : ∀ k f, (k, f) ∈ fs → f.markable = true → k ∈ U := by
      intro k f hkf hm
      rw [← hU, mem_addAll]
      right
      rw [List.mem_map]
      exact ⟨(k, f), List.mem_filter.2 ⟨hkf, hm⟩, rfl⟩
    clear hU ih hseq hdict
    induction fs with
    | nil => rfl
    | cons p rest ihl =>
      obtain ⟨k, f⟩ := p
      rw [markAllFields, iterPFields, iterPFields,
        ihl (fun k f h => hf k f (List.mem_cons_of_mem _ h)) (fun k f h => hmem k f (List.mem_cons_of_mem _ h)),
        hf k f (by simp)]
      congr 1
      simp only [Bool.false_and, Bool.false_eq_true, if_false]
      by_cases hmk : f.markable = true
      · have := hmem k f (by simp) hmk
        simp [this]
      · cases f <;> simp [Field.markable] at hmk
        simp [iterPField]

/-- Marking everything as fixed keeps all values. -/
theorem iterP_fixAll_false (m : HV α) (r : Bool) : iterP false (fixAll r m) = iterP false m := by
  induction m using HV.induct generalizing r with
  | h upd fs ih =>
    rw [fixAll, iterP, iterP]
    have hseq : ∀ (ms : List (HV α)) (i : Nat), (∀ c ∈ ms, FieldsChild fs c) →
        iterPSeq false i (fixAllSeq ms) = iterPSeq false i ms := by
      intro ms
      induction ms with
      | nil => intros; rfl
      | cons m ms ihm =>
        intro i hm
        rw [fixAllSeq, iterPSeq, iterPSeq, ih m (hm m (by simp)), ihm _ fun c hc => hm c (by simp [hc])]
    have hdict : ∀ (ms : List (Name × HV α)), (∀ j c, (j, c) ∈ ms → FieldsChild fs c) →
        iterPDict false (fixAllDict ms) = iterPDict false ms := by
      intro ms
      induction ms with
      | nil => intros; rfl
      | cons p ms ihm =>
        obtain ⟨k, m⟩ := p
        intro hm
        rw [fixAllDict, iterPDict, iterPDict, ih m (hm k m (by simp)), ihm fun j c hc => hm j c (by simp [hc])]
    have hf : ∀ k f, (k, f) ∈ fs → iterPField false (fixAllField f) = iterPField false f := by
      intro k f hkf
      cases f with
      | arr a => rfl
      | other => rfl
      | sub c => rw [fixAllField, iterPField, iterPField, ih c (.inl ⟨k, hkf⟩)]
      | tup ms => rw [fixAllField, iterPField, iterPField, hseq ms 0 fun c hc => .inr (.inl ⟨k, ms, hkf, hc⟩)]
      | lst ms => rw [fixAllField, iterPField, iterPField, hseq ms 0 fun c hc => .inr (.inr (.inl ⟨k, ms, hkf, hc⟩))]
      | dict ms =>
        rw [fixAllField, iterPField, iterPField,
          hdict ms fun j c hc => .inr (.inr (.inr ⟨k, ms, j, hkf, hc⟩))]
    cases r with
    | false =>
      simp only [Bool.false_eq_true, if_false]
      rw [iterPFields_eq, iterPFields_eq]; rfl
    | true =>
      simp only [if_true]
      clear ih hseq hdict
      induction fs with
      | nil => rfl
      | cons p rest ihl =>
        obtain ⟨k, f⟩ := p
        rw [fixAllFields, iterPFields, iterPFields, ihl (fun k f h => hf k f (List.mem_cons_of_mem _ h)),
          hf k f (by simp)]
        rfl

theorem iterP_fixAll_true (m : HV α) (r : Bool) : iterP true (fixAll r m) = [] := by
  cases m with
  | mk upd fs =>
    rw [fixAll, iterP, iterPFields_eq]
    rw [List.flatMap_eq_nil_iff]
    intro p _
    simp

theorem iterPFields_upd (fs : List (Name × Field α)) (u1 u2 : List Name) :
    iterPFields false u1 fs = iterPFields false u2 fs := by
  rw [iterPFields_eq, iterPFields_eq]; rfl

theorem iterPFields_false_assocSet {upd : List Name} {fs : List (Name × Field α)} {k : Name} {f f' : Field α}
    (hn : (fs.map (·.1)).Nodup) (hk : (k, f) ∈ fs) (hf : iterPField false f' = iterPField false f) :
    iterPFields false upd (assocSet k f' fs) = iterPFields false upd fs := by
  induction fs with
  | nil => simp at hk
  | cons p rest ih =>
    obtain ⟨k', g⟩ := p
    simp only [List.map_cons, List.nodup_cons] at hn
    simp only [List.mem_cons, Prod.mk.injEq] at hk
    unfold assocSet
    by_cases hkk : k' = k
    · subst hkk
      have hg : f = g := by
        rcases hk with h | h
        · exact h.2
        · exact absurd (List.mem_map_of_mem (f := (·.1)) h) hn.1
      subst hg
      simp only [if_true]
      rw [iterPFields, iterPFields, hf]
    · rcases hk with h | h
      · exact absurd h.1.symm hkk
      · simp only [hkk, if_false]
        rw [iterPFields, iterPFields, ih hn.2 h]

theorem iterPSeq_false_set {ms : List (HV α)} {i j : Nat} {c c' : HV α}
    (hj : ms[j]? = some c) (hc : iterP false c' = iterP false c) :
    iterPSeq false i (ms.set j c') = iterPSeq false i ms := by
  induction ms generalizing i j with
  | nil => simp at hj
  | cons m ms ih =>
    cases j with
    | zero =>
      simp only [List.getElem?_cons_zero, Option.some.injEq] at hj
      subst hj
      rw [List.set_cons_zero, iterPSeq, iterPSeq, hc]
    | succ j => rw [List.set_cons_succ, iterPSeq, iterPSeq, ih (by simpa using hj)]

theorem iterPDict_false_assocSet {ms : List (Name × HV α)} {k : Name} {c c' : HV α}
    (hn : (ms.map (·.1)).Nodup) (hk : (k, c) ∈ ms) (hc : iterP false c' = iterP false c) :
    iterPDict false (assocSet k c' ms) = iterPDict false ms := by
  induction ms with
  | nil => simp at hk
  | cons p rest ih =>
    obtain ⟨k', g⟩ := p
    simp only [List.map_cons, List.nodup_cons] at hn
    simp only [List.mem_cons, Prod.mk.injEq] at hk
    unfold assocSet
    by_cases hkk : k' = k
    · subst hkk
      have hg : c = g := by
        rcases hk with h | h
        · exact h.2
        · exact absurd (List.mem_map_of_mem (f := (·.1)) h) hn.1
      subst hg
      simp only [if_true]
      rw [iterPDict, iterPDict, hc]
    · rcases hk with h | h
      · exact absurd h.1.symm hkk
      · simp only [hkk, if_false]
        rw [iterPDict, iterPDict, ih hn.2 h]

theorem mem_assocSet_of_ne {k j : Name} {v w : β} {l : List (Name × β)} (hne : j ≠ k) (h : (j, w) ∈ l) :
    (j, w) ∈ assocSet k v l := by
  induction l with
  | nil => simp at h
  | cons p rest ih =>
    obtain ⟨k', v'⟩ := p
    simp only [List.mem_cons, Prod.mk.injEq] at h
    unfold assocSet
    split
    · rename_i hk
      rcases h with ⟨h, _⟩ | h
      · exact absurd (h.trans hk) hne
      · exact List.mem_cons_of_mem _ h
    · rcases h with ⟨rfl, rfl⟩ | h
      · simp
      · exact List.mem_cons_of_mem _ (ih h)

theorem mem_assocSet_self {k : Name} {v w : β} {l : List (Name × β)} (h : (k, w) ∈ l) : (k, v) ∈ assocSet k v l := by
  induction l with
  | nil => simp at h
  | cons p rest ih =>
    obtain ⟨k', v'⟩ := p
    simp only [List.mem_cons, Prod.mk.injEq] at h
    unfold assocSet
    split
    · rename_i hk; simp [hk]
    · rename_i hk
      rcases h with ⟨rfl, _⟩ | h
      · exact absurd rfl hk
      · exact List.mem_cons_of_mem _ (ih h)

theorem mem_addUpdatable {m : HV α} {k j : Name} : j ∈ (m.addUpdatable k).updatable ↔ j = k ∨ j ∈ m.updatable := by
  cases m with
  | mk u fs =>
    simp only [HV.addUpdatable, HV.updatable]
    by_cases h : k ∈ u
    · simp only [h, if_true]
      constructor
      · exact .inr
      · rintro (rfl | h')
        · exact h
        · exact h'
    · simp [h, or_comm]

theorem WF_addUpdatable {m : HV α} {k : Name} (hw : m.WF) : (m.addUpdatable k).WF := by
  cases m with
  | mk u fs => rw [HV.addUpdatable, WF_iff]; rw [WF_iff] at hw; exact hw

/-- Everything marked in `m` is marked in `m'`. -/
def MarkLE (m m' : HV α) : Prop := ∀ q b, IsMarked m q b → IsMarked m' q b

/-- Replacing the value of attribute `k` by one with the same or more markings, and marking more attributes. -/
theorem markLE_set {u u' : List Name} {fs : List (Name × Field α)} {k : Name} {f f' : Field α}
    (hn : (fs.map (·.1)).Nodup) (hk : (k, f) ∈ fs) (hu : ∀ j, j ∈ u → j ∈ u')
    (hf : match f, f' with
      | .sub c, .sub c' => MarkLE c c'
      | .tup ms, .tup ms' => ∀ (i : Nat) (c : HV α), ms[i]? = some c → ∃ c', ms'[i]? = some c' ∧ MarkLE c c'
      | .dict ms, .dict ms' => ∀ j c, (j, c) ∈ ms → ∃ c', (j, c') ∈ ms' ∧ MarkLE c c'
      | _, _ => False) :
    MarkLE (.mk u fs) (.mk u' (assocSet k f' fs)) := by
  intro q b h
  have key : ∀ j g, (j, g) ∈ fs → j = k → g = f := by
    intro j g hj e
    subst e
    have h1 := assoc_of_mem hn hj
    rw [assoc_of_mem hn hk] at h1
    cases h1; rfl
  cases h with
  | @arr _ _ j _ hj h =>
    by_cases e : j = k
    · have := key _ _ h e; subst this; exact absurd hf (by simp)
    · exact .arr (hu _ hj) (mem_assocSet_of_ne e h)
  | @sub _ _ j c p _ hj h hm =>
    by_cases e : j = k
    · have := key _ _ h e; subst this; subst e
      cases f' with
      | sub c' => exact .sub (hu _ hj) (mem_assocSet_self hk) (hf _ _ hm)
      | _ => exact absurd hf (by simp)
    · exact .sub (hu _ hj) (mem_assocSet_of_ne e h) hm
  | @tup _ _ j ms i c p _ hj h hi hm =>
    by_cases e : j = k
    · have := key _ _ h e; subst this; subst e
      cases f' with
      | tup ms' =>
        obtain ⟨c', hc', hle⟩ := hf i c hi
        exact .tup (hu _ hj) (mem_assocSet_self hk) hc' (hle _ _ hm)
      | _ => exact absurd hf (by simp)
    · exact .tup (hu _ hj) (mem_assocSet_of_ne e h) hi hm
  | @lst _ _ j ms i c p _ hj h hi hm =>
    by_cases e : j = k
    · have := key _ _ h e; subst this; exact absurd hf (by simp)
    · exact .lst (hu _ hj) (mem_assocSet_of_ne e h) hi hm
  | @dict _ _ j ms i c p _ hj h hi hm =>
    by_cases e : j = k
    · have := key _ _ h e; subst this; subst e
      cases f' with
      | dict ms' =>
        obtain ⟨c', hc', hle⟩ := hf i c hi
        exact .dict (hu _ hj) (mem_assocSet_self hk) hc' (hle _ _ hm)
      | _ => exact absurd hf (by simp)
    · exact .dict (hu _ hj) (mem_assocSet_of_ne e h) hi hm

theorem MarkLE.refl (m : HV α) : MarkLE m m := fun _ _ h => h

/-- Marking one parameter: it is marked afterwards, nothing gets unmarked and no value changes. -/
theorem mark_of_isParam {m : HV α} {p : List Name} {a : Arr2 α} (h : IsParam m p a) (hw : m.WF) :
    ∃ m', alterChain HV.addUpdatable HV.addUpdatable m p = .ok m' ∧ m'.WF ∧ iterP false m' = iterP false m ∧
      IsMarked m' p a ∧ MarkLE m m' := by
  induction h with
  | @arr u fs k a h =>
    refine ⟨(HV.mk u fs).addUpdatable k, rfl, WF_addUpdatable hw, ?_, ?_, ?_⟩
    · simp only [HV.addUpdatable, HV.fields, iterP]; exact iterPFields_upd _ _ _
    · exact .arr (mem_addUpdatable.2 (.inl rfl)) h
    · intro q b hm
      have hu : ∀ j, j ∈ u → j ∈ ((HV.mk u fs).addUpdatable k).updatable := fun j hj => mem_addUpdatable.2 (.inr hj)
      cases hm with
      | arr hj h => exact .arr (hu _ hj) h
      | sub hj h hm => exact .sub (hu _ hj) h hm
      | tup hj h hi hm => exact .tup (hu _ hj) h hi hm
      | lst hj h hi hm => exact .lst (hu _ hj) h hi hm
      | dict hj h hi hm => exact .dict (hu _ hj) h hi hm
  | @sub u fs k c p a h hp ih =>
    have hw' := hw
    rw [WF_iff] at hw'
    obtain ⟨hn, _, hf⟩ := hw'
    obtain ⟨c', h1, h2, h3, h4, h5⟩ := ih (hf _ _ h)
    have hg : (HV.mk u fs).getField k = some (.sub c) := by simp [HV.getField, HV.fields, assoc_of_mem hn h]
    obtain ⟨s, rest, rfl⟩ : ∃ s rest, p = s :: rest := by
      cases p with
      | nil => exact absurd rfl hp.ne_nil
      | cons s rest => exact ⟨s, rest, rfl⟩
    refine ⟨((HV.mk u fs).setField k (.sub c')).addUpdatable k, ?_, WF_addUpdatable (WF_setField hw h2), ?_, ?_, ?_⟩
    · simp only [alterChain, hg, h1]; rfl
    · simp only [HV.addUpdatable, HV.setField, HV.updatable, HV.fields, iterP]
      rw [iterPFields_false_assocSet hn h (by rw [iterPField, iterPField, h3])]
      exact iterPFields_upd _ _ _
    · exact .sub (mem_addUpdatable.2 (.inl rfl)) (mem_assocSet_self h) h4
    · exact markLE_set hn h (fun j hj => mem_addUpdatable.2 (.inr hj)) h5
  | @tup u fs k ms i c p a h hi hp ih =>
    have hw' := hw
    rw [WF_iff] at hw'
    obtain ⟨hn, _, hf⟩ := hw'
    obtain ⟨c', h1, h2, h3, h4, h5⟩ := ih (hf _ _ h c (List.mem_of_getElem? hi))
    have hg : (HV.mk u fs).getField k = some (.tup ms) := by simp [HV.getField, HV.fields, assoc_of_mem hn h]
    have hlt : i < ms.length := (List.getElem?_eq_some_iff.1 hi).1
    refine ⟨((HV.mk u fs).setField k (.tup (ms.set i c'))).addUpdatable k, ?_,
      WF_addUpdatable (WF_setField hw (WF_setTup (hf _ _ h) h2)), ?_, ?_, ?_⟩
    · simp only [alterChain, hg, hp.ne_nil, if_false, Py.intOf_natStr, Py.seqIndex_nat hlt, hi, h1]; rfl
    · simp only [HV.addUpdatable, HV.setField, HV.updatable, HV.fields, iterP]
      rw [iterPFields_false_assocSet hn h (by rw [iterPField, iterPField, iterPSeq_false_set hi h3])]
      exact iterPFields_upd _ _ _
    · exact .tup (mem_addUpdatable.2 (.inl rfl)) (mem_assocSet_self h) (by simp [hlt]) h4
    · refine markLE_set hn h (fun j hj => mem_addUpdatable.2 (.inr hj)) ?_
      intro j d hj
      by_cases e : i = j
      · subst e
        rw [hi] at hj; cases hj
        exact ⟨c', by simp [hlt], h5⟩
      · exact ⟨d, by rw [List.getElem?_set_ne e]; exact hj, MarkLE.refl d⟩
  | lst h _ _ _ =>
    cases hw with
    | mk _ _ _ _ _ _ _ hl => exact absurd h (hl _ _)
  | @dict u fs k ms j c p a h hj hp ih =>
    have hw' := hw
    rw [WF_iff] at hw'
    obtain ⟨hn, _, hf⟩ := hw'
    obtain ⟨hdn, _, hdc⟩ := hf _ _ h
    obtain ⟨c', h1, h2, h3, h4, h5⟩ := ih (hdc _ _ hj)
    have hg : (HV.mk u fs).getField k = some (.dict ms) := by simp [HV.getField, HV.fields, assoc_of_mem hn h]
    have hjj : assoc j ms = some c := assoc_of_mem hdn hj
    refine ⟨((HV.mk u fs).setField k (.dict (assocSet j c' ms))).addUpdatable k, ?_,
      WF_addUpdatable (WF_setField hw (WF_setDict (hf _ _ h) h2)), ?_, ?_, ?_⟩
    · simp only [alterChain, hg, hp.ne_nil, if_false, hjj, h1]; rfl
    · simp only [HV.addUpdatable, HV.setField, HV.updatable, HV.fields, iterP]
      rw [iterPFields_false_assocSet hn h (by rw [iterPField, iterPField, iterPDict_false_assocSet hdn hj h3])]
      exact iterPFields_upd _ _ _
    · exact .dict (mem_addUpdatable.2 (.inl rfl)) (mem_assocSet_self h) (mem_assocSet_self hj) h4
    · refine markLE_set hn h (fun j hj => mem_addUpdatable.2 (.inr hj)) ?_
      intro i d hd
      by_cases e : i = j
      · subst e
        rw [assoc_of_mem hdn hd] at hjj; cases hjj
        exact ⟨c', mem_assocSet_self hd, h5⟩
      · exact ⟨d, mem_assocSet_of_ne e hd, MarkLE.refl d⟩

end Verif
