import Verif.Spec.Health
/-!
# Iteration by paths, and the lens laws of `HealthVariable` trees (lemmas)
-/

namespace Verif
variable {α β : Type}

/-! ## Association lists -/

theorem assoc_mem {k : Name} {v : β} {l : List (Name × β)} (h : assoc k l = some v) : (k, v) ∈ l := by
  induction l with
  | nil => simp [assoc] at h
  | cons p rest ih =>
    obtain ⟨k', v'⟩ := p
    unfold assoc at h
    split at h
    · rename_i hk; simp at h; subst hk; subst h; simp
    · exact List.mem_cons_of_mem _ (ih h)

theorem assoc_of_mem {k : Name} {v : β} {l : List (Name × β)} (hn : (l.map (·.1)).Nodup) (h : (k, v) ∈ l) :
    assoc k l = some v := by
  induction l with
  | nil => simp at h
  | cons p rest ih =>
    obtain ⟨k', v'⟩ := p
    simp only [List.map_cons, List.nodup_cons] at hn
    unfold assoc
    simp only [List.mem_cons, Prod.mk.injEq] at h
    rcases h with ⟨rfl, rfl⟩ | h
    · simp
    · have : k' ≠ k := fun e => hn.1 (by subst e; exact List.mem_map_of_mem (f := (·.1)) h)
      simp [this, ih hn.2 h]

theorem assocSet_keys {k : Name} {v : β} {l : List (Name × β)} : (assocSet k v l).map (·.1) = l.map (·.1) := by
  induction l with
  | nil => rfl
  | cons p rest ih =>
    obtain ⟨k', v'⟩ := p
    unfold assocSet
    split <;> simp [ih]

theorem mem_assocSet {k j : Name} {v w : β} {l : List (Name × β)} (hn : (l.map (·.1)).Nodup)
    (h : (j, w) ∈ assocSet k v l) : (j = k ∧ w = v) ∨ (j ≠ k ∧ (j, w) ∈ l) := by
  induction l with
  | nil => simp [assocSet] at h
  | cons p rest ih =>
    obtain ⟨k', v'⟩ := p
    simp only [List.map_cons, List.nodup_cons] at hn
    unfold assocSet at h
    split at h
    · rename_i hk
      subst hk
      simp only [List.mem_cons, Prod.mk.injEq] at h
      rcases h with h | h
      · exact .inl h
      · right
        refine ⟨fun e => hn.1 ?_, List.mem_cons_of_mem _ h⟩
        subst e
        exact List.mem_map_of_mem (f := (·.1)) h
    · rename_i hk
      simp only [List.mem_cons, Prod.mk.injEq] at h
      rcases h with ⟨rfl, rfl⟩ | h
      · exact .inr ⟨hk, by simp⟩
      · rcases ih hn.2 h with h | h
        · exact .inl h
        · exact .inr ⟨h.1, List.mem_cons_of_mem _ h.2⟩

theorem assocSet_same {k : Name} {v : β} {l : List (Name × β)} (h : assoc k l = some v) : assocSet k v l = l := by
  induction l with
  | nil => rfl
  | cons p rest ih =>
    obtain ⟨k', v'⟩ := p
    unfold assoc at h
    unfold assocSet
    split
    · rename_i hk; simp [hk] at h; simp [h]
    · rename_i hk; simp [hk] at h; simp [ih h]

theorem assoc_assocSet_same {k : Name} {v w : β} {l : List (Name × β)} (h : assoc k l = some w) :
    assoc k (assocSet k v l) = some v := by
  induction l with
  | nil => simp [assoc] at h
  | cons p rest ih =>
    obtain ⟨k', v'⟩ := p
    unfold assoc at h
    unfold assocSet
    split
    · rename_i hk; simp [assoc, hk]
    · rename_i hk; simp [hk] at h; simp [assoc, hk, ih h]

theorem assoc_assocSet_ne {k j : Name} {v : β} {l : List (Name × β)} (hne : j ≠ k) :
    assoc j (assocSet k v l) = assoc j l := by
  induction l with
  | nil => rfl
  | cons p rest ih =>
    obtain ⟨k', v'⟩ := p
    unfold assocSet
    split
    · rename_i hk
      subst hk
      simp [assoc, Ne.symm hne]
    · simp only [assoc]
      split
      · rfl
      · exact ih

/-! ## Induction over the object tree -/

/-- `c` is a direct sub-model of the object with fields `fs`. -/
def FieldsChild (fs : List (Name × Field α)) (c : HV α) : Prop :=
  (∃ k, (k, Field.sub c) ∈ fs) ∨ (∃ k ms, (k, Field.tup ms) ∈ fs ∧ c ∈ ms) ∨
  (∃ k ms, (k, Field.lst ms) ∈ fs ∧ c ∈ ms) ∨ (∃ k ms j, (k, Field.dict ms) ∈ fs ∧ (j, c) ∈ ms)

theorem fieldsChild_sizeOf {u : List Name} {fs : List (Name × Field α)} {c : HV α} (h : FieldsChild fs c) :
    sizeOf c < sizeOf (HV.mk u fs) := by
  have aux : ∀ (k : Name) (f : Field α), (k, f) ∈ fs → sizeOf f < sizeOf (HV.mk u fs) := by
    intro k f hf
    have := List.sizeOf_lt_of_mem hf
    simp only [Prod.mk.sizeOf_spec, HV.mk.sizeOf_spec] at *
    omega
  rcases h with ⟨k, h⟩ | ⟨k, ms, h, hc⟩ | ⟨k, ms, h, hc⟩ | ⟨k, ms, j, h, hc⟩
  · have := aux _ _ h; simp only [Field.sub.sizeOf_spec] at this; omega
  · have := aux _ _ h; have := List.sizeOf_lt_of_mem hc; simp only [Field.tup.sizeOf_spec] at *; omega
  · have := aux _ _ h; have := List.sizeOf_lt_of_mem hc; simp only [Field.lst.sizeOf_spec] at *; omega
  · have := aux _ _ h; have := List.sizeOf_lt_of_mem hc
    simp only [Field.dict.sizeOf_spec, Prod.mk.sizeOf_spec] at *; omega

/-- Induction: a statement holds for all objects if it holds for each object whose direct sub-models satisfy it. -/
theorem HV.induct {P : HV α → Prop} (h : ∀ u fs, (∀ c, FieldsChild fs c → P c) → P (.mk u fs)) : ∀ m, P m := by
  intro m
  induction hn : sizeOf m using Nat.strongRecOn generalizing m with
  | _ n ih =>
    cases m with
    | mk u fs =>
      apply h
      intro c hc
      exact ih (sizeOf c) (by rw [← hn]; exact fieldsChild_sizeOf hc) c rfl

/-! ## Iteration by paths -/

/-- Prefix a path with one segment. -/
def pre (k : Name) (q : List Name × Arr2 α) : List Name × Arr2 α := (k :: q.1, q.2)

mutual
/-- `iterParams` with paths instead of dotted names. -/
def iterP (u : Bool) : HV α → List (List Name × Arr2 α)
  | .mk upd fs => iterPFields u upd fs
def iterPFields (u : Bool) (upd : List Name) : List (Name × Field α) → List (List Name × Arr2 α)
  | [] => []
  | (k, f) :: rest => (if u && !upd.contains k then [] else (iterPField u f).map (pre k)) ++ iterPFields u upd rest
def iterPField (u : Bool) : Field α → List (List Name × Arr2 α)
  | .arr a => [([], a)]
  | .sub m => iterP u m
  | .tup ms => iterPSeq u 0 ms
  | .lst ms => iterPSeq u 0 ms
  | .dict ms => iterPDict u ms
  | .other => []
def iterPSeq (u : Bool) (i : Nat) : List (HV α) → List (List Name × Arr2 α)
  | [] => []
  | m :: ms => (iterP u m).map (pre (Py.natStr i)) ++ iterPSeq u (i + 1) ms
def iterPDict (u : Bool) : List (Name × HV α) → List (List Name × Arr2 α)
  | [] => []
  | (j, m) :: ms => (iterP u m).map (pre j) ++ iterPDict u ms
end

theorem iterPFields_eq (u : Bool) (upd : List Name) (fs : List (Name × Field α)) :
    iterPFields u upd fs =
      fs.flatMap fun p => if u && !upd.contains p.1 then [] else (iterPField u p.2).map (pre p.1) := by
  induction fs with
  | nil => rfl
  | cons p rest ih => obtain ⟨k, f⟩ := p; simp only [iterPFields, List.flatMap_cons, ih]

theorem iterPDict_eq (u : Bool) (ms : List (Name × HV α)) :
    iterPDict u ms = ms.flatMap fun p => (iterP u p.2).map (pre p.1) := by
  induction ms with
  | nil => rfl
  | cons p rest ih => obtain ⟨k, f⟩ := p; simp only [iterPDict, List.flatMap_cons, ih]

theorem mem_iterPSeq {u : Bool} {i : Nat} {ms : List (HV α)} {q : List Name × Arr2 α} :
    q ∈ iterPSeq u i ms ↔ ∃ j c, ms[j]? = some c ∧ ∃ p ∈ iterP u c, pre (Py.natStr (i + j)) p = q := by
  induction ms generalizing i with
  | nil => simp [iterPSeq]
  | cons m ms ih =>
    simp only [iterPSeq, List.mem_append, List.mem_map, ih]
    constructor
    · rintro (⟨p, hp, rfl⟩ | ⟨j, c, hj, p, hp, rfl⟩)
      · exact ⟨0, m, by simp, p, hp, by simp⟩
      · exact ⟨j + 1, c, by simpa using hj, p, hp, by rw [Nat.add_assoc, Nat.add_comm 1 j]⟩
    · rintro ⟨j, c, hj, p, hp, rfl⟩
      cases j with
      | zero => simp at hj; subst hj; exact .inl ⟨p, hp, rfl⟩
      | succ j =>
        exact .inr ⟨j, c, by simpa using hj, p, hp, by rw [Nat.add_assoc, Nat.add_comm 1 j]⟩

theorem iterP_ne_nil {u : Bool} {m : HV α} {q : List Name × Arr2 α} (h : q ∈ iterP u m) : q.1 ≠ [] := by
  cases m with
  | mk upd fs =>
    rw [iterP, iterPFields_eq, List.mem_flatMap] at h
    obtain ⟨p, _, h⟩ := h
    split at h
    · simp at h
    · rw [List.mem_map] at h
      obtain ⟨r, _, rfl⟩ := h
      simp [pre]

theorem joinDots_pre {k : Name} {q : List Name × Arr2 α} (h : q.1 ≠ []) :
    Py.joinDots (pre k q).1 = k ++ '.' :: Py.joinDots q.1 := Py.joinDots_cons h

/-- The names reported by iteration are the joined paths, in the same order and with the same values. -/
theorem iterParams_eq (u : Bool) (m : HV α) :
    iterParams u m = (iterP u m).map fun q => (Py.joinDots q.1, q.2) := by
  induction m using HV.induct with
  | h upd fs ih =>
    rw [iterParams, iterP]
    suffices H : ∀ l : List (Name × Field α), (∀ c, FieldsChild l c → FieldsChild fs c) →
        iterFields u upd l = (iterPFields u upd l).map fun q => (Py.joinDots q.1, q.2) from H fs (fun _ h => h)
    intro l
    induction l with
    | nil => intro _; rfl
    | cons p rest ihl =>
      obtain ⟨k, f⟩ := p
      intro hl
      have hrest : ∀ c, FieldsChild rest c → FieldsChild fs c := by
        intro c hc
        apply hl
        rcases hc with ⟨k, h⟩ | ⟨k, ms, h, hc⟩ | ⟨k, ms, h, hc⟩ | ⟨k, ms, j, h, hc⟩
        · exact .inl ⟨k, List.mem_cons_of_mem _ h⟩
        · exact .inr (.inl ⟨k, ms, List.mem_cons_of_mem _ h, hc⟩)
        · exact .inr (.inr (.inl ⟨k, ms, List.mem_cons_of_mem _ h, hc⟩))
        · exact .inr (.inr (.inr ⟨k, ms, j, List.mem_cons_of_mem _ h, hc⟩))
      have hmap : ∀ (k : Name) (m : HV α), iterParams u m = (iterP u m).map (fun q => (Py.joinDots q.1, q.2)) →
          (iterParams u m).map (fun p => (k ++ '.' :: p.1, p.2)) =
          ((iterP u m).map (pre k)).map (fun q => (Py.joinDots q.1, q.2)) := by
        intro k m hm
        rw [hm, List.map_map, List.map_map]
        apply List.map_congr_left
        intro q hq
        simp only [Function.comp]
        rw [joinDots_pre (iterP_ne_nil hq)]; rfl
      have hmap2 : ∀ (k j : Name) (m : HV α), iterParams u m = (iterP u m).map (fun q => (Py.joinDots q.1, q.2)) →
          (iterParams u m).map (fun p => (k ++ '.' :: (j ++ '.' :: p.1), p.2)) =
          (((iterP u m).map (pre j)).map (pre k)).map (fun q => (Py.joinDots q.1, q.2)) := by
        intro k j m hm
        rw [hm, List.map_map, List.map_map, List.map_map]
        apply List.map_congr_left
        intro q hq
        simp only [Function.comp]
        rw [joinDots_pre (by simp [pre]), joinDots_pre (iterP_ne_nil hq)]; rfl
      have hseq : ∀ (ms : List (HV α)) (i : Nat), (∀ c ∈ ms, FieldsChild fs c) →
          iterSeq u k i ms = ((iterPSeq u i ms).map (pre k)).map (fun q => (Py.joinDots q.1, q.2)) := by
        intro ms
        induction ms with
        | nil => intros; rfl
        | cons m ms ihm =>
          intro i hm
          rw [iterSeq, iterPSeq, List.map_append, List.map_append, ← ihm _ (fun c hc => hm c (by simp [hc])),
            hmap2 _ _ _ (ih m (hm m (by simp)))]
      have hdict : ∀ (ms : List (Name × HV α)), (∀ j c, (j, c) ∈ ms → FieldsChild fs c) →
          iterDict u k ms = ((iterPDict u ms).map (pre k)).map (fun q => (Py.joinDots q.1, q.2)) := by
        intro ms
        induction ms with
        | nil => intros; rfl
        | cons p ms ihm =>
          obtain ⟨j, m⟩ := p
          intro hm
          rw [iterDict, iterPDict, List.map_append, List.map_append, ← ihm (fun j c hc => hm j c (by simp [hc])),
            hmap2 _ _ _ (ih m (hm j m (by simp)))]
      have hf : iterField u k f = ((iterPField u f).map (pre k)).map (fun q => (Py.joinDots q.1, q.2)) := by
        cases f with
        | arr a => rfl
        | other => rfl
        | sub c => rw [iterField, iterPField, hmap _ _ (ih c (hl c (.inl ⟨k, by simp⟩)))]
        | tup ms => rw [iterField, iterPField, hseq ms 0 fun c hc => hl c (.inr (.inl ⟨k, ms, by simp, hc⟩))]
        | lst ms => rw [iterField, iterPField, hseq ms 0 fun c hc => hl c (.inr (.inr (.inl ⟨k, ms, by simp, hc⟩)))]
        | dict ms =>
          rw [iterField, iterPField, hdict ms fun j c hc => hl c (.inr (.inr (.inr ⟨k, ms, j, by simp, hc⟩)))]
      rw [iterFields, iterPFields, List.map_append, ihl hrest, hf]
      split <;> simp

/-! ## Iteration finds exactly the parameters -/

theorem mem_iterP_false {m : HV α} {q : List Name × Arr2 α} : q ∈ iterP false m ↔ IsParam m q.1 q.2 := by
  induction m using HV.induct generalizing q with
  | h upd fs ih =>
    rw [iterP, iterPFields_eq]
    simp only [Bool.false_and, Bool.false_eq_true, if_false, List.mem_flatMap, List.mem_map]
    constructor
    · rintro ⟨⟨k, f⟩, hf, r, hr, rfl⟩
      cases f with
      | arr a => simp [iterPField] at hr; subst hr; exact .arr hf
      | other => simp [iterPField] at hr
      | sub c => rw [iterPField] at hr; exact .sub hf ((ih c (.inl ⟨k, hf⟩)).1 hr)
      | tup ms =>
        rw [iterPField, mem_iterPSeq] at hr
        obtain ⟨j, c, hj, p, hp, rfl⟩ := hr
        have hc : c ∈ ms := List.mem_of_getElem? hj
        simp only [Nat.zero_add]
        exact .tup hf hj ((ih c (.inr (.inl ⟨k, ms, hf, hc⟩))).1 hp)
      | lst ms =>
        rw [iterPField, mem_iterPSeq] at hr
        obtain ⟨j, c, hj, p, hp, rfl⟩ := hr
        have hc : c ∈ ms := List.mem_of_getElem? hj
        simp only [Nat.zero_add]
        exact .lst hf hj ((ih c (.inr (.inr (.inl ⟨k, ms, hf, hc⟩)))).1 hp)
      | dict ms =>
        rw [iterPField, iterPDict_eq, List.mem_flatMap] at hr
        obtain ⟨⟨j, c⟩, hj, hr⟩ := hr
        rw [List.mem_map] at hr
        obtain ⟨p, hp, rfl⟩ := hr
        exact .dict hf hj ((ih c (.inr (.inr (.inr ⟨k, ms, j, hf, hj⟩)))).1 hp)
    · intro h
      obtain ⟨path, a⟩ := q
      cases h with
      | arr h => exact ⟨_, h, ([], a), by simp [iterPField], rfl⟩
      | @sub _ _ k c p _ h hp =>
        refine ⟨_, h, (p, a), ?_, rfl⟩
        rw [iterPField]
        exact (ih c (.inl ⟨k, h⟩)).2 hp
      | @tup _ _ k ms i c p _ h hi hp =>
        refine ⟨_, h, (Py.natStr i :: p, a), ?_, rfl⟩
        rw [iterPField, mem_iterPSeq]
        exact ⟨i, c, hi, (p, a), (ih c (.inr (.inl ⟨k, ms, h, List.mem_of_getElem? hi⟩))).2 hp, by simp [pre]⟩
      | @lst _ _ k ms i c p _ h hi hp =>
        refine ⟨_, h, (Py.natStr i :: p, a), ?_, rfl⟩
        rw [iterPField, mem_iterPSeq]
        exact ⟨i, c, hi, (p, a), (ih c (.inr (.inr (.inl ⟨k, ms, h, List.mem_of_getElem? hi⟩)))).2 hp, by simp [pre]⟩
      | @dict _ _ k ms j c p _ h hj hp =>
        refine ⟨_, h, (j :: p, a), ?_, rfl⟩
        rw [iterPField, iterPDict_eq, List.mem_flatMap]
        refine ⟨_, hj, ?_⟩
        rw [List.mem_map]
        exact ⟨(p, a), (ih c (.inr (.inr (.inr ⟨k, ms, j, h, hj⟩)))).2 hp, rfl⟩

theorem mem_iterP_true {m : HV α} {q : List Name × Arr2 α} : q ∈ iterP true m ↔ IsMarked m q.1 q.2 := by
  induction m using HV.induct generalizing q with
  | h upd fs ih =>
    rw [iterP, iterPFields_eq]
    simp only [Bool.true_and, List.mem_flatMap]
    constructor
    · rintro ⟨⟨k, f⟩, hf, hr⟩
      simp only [Bool.not_eq_true', List.contains_eq_mem] at hr
      by_cases hk : k ∈ upd
      · simp only [hk, decide_true, Bool.true_eq_false, if_false, List.mem_map] at hr
        obtain ⟨r, hr, rfl⟩ := hr
        cases f with
        | arr a => simp [iterPField] at hr; subst hr; exact .arr hk hf
        | other => simp [iterPField] at hr
        | sub c => rw [iterPField] at hr; exact .sub hk hf ((ih c (.inl ⟨k, hf⟩)).1 hr)
        | tup ms =>
          rw [iterPField, mem_iterPSeq] at hr
          obtain ⟨j, c, hj, p, hp, rfl⟩ := hr
          have hc : c ∈ ms := List.mem_of_getElem? hj
          simp only [Nat.zero_add]
          exact .tup hk hf hj ((ih c (.inr (.inl ⟨k, ms, hf, hc⟩))).1 hp)
        | lst ms =>
          rw [iterPField, mem_iterPSeq] at hr
          obtain ⟨j, c, hj, p, hp, rfl⟩ := hr
          have hc : c ∈ ms := List.mem_of_getElem? hj
          simp only [Nat.zero_add]
          exact .lst hk hf hj ((ih c (.inr (.inr (.inl ⟨k, ms, hf, hc⟩)))).1 hp)
        | dict ms =>
          rw [iterPField, iterPDict_eq, List.mem_flatMap] at hr
          obtain ⟨⟨j, c⟩, hj, hr⟩ := hr
          rw [List.mem_map] at hr
          obtain ⟨p, hp, rfl⟩ := hr
          exact .dict hk hf hj ((ih c (.inr (.inr (.inr ⟨k, ms, j, hf, hj⟩)))).1 hp)
      · simp [hk] at hr
    · intro h
      obtain ⟨path, a⟩ := q
      cases h with
      | @arr _ _ k _ hk h =>
        exact ⟨_, h, by simp [hk, iterPField, pre]⟩
      | @sub _ _ k c p _ hk h hp =>
        refine ⟨_, h, ?_⟩
        simp only [hk, List.contains_eq_mem, decide_true, Bool.not_true, Bool.false_eq_true, if_false, List.mem_map]
        refine ⟨(p, a), ?_, rfl⟩
        rw [iterPField]
        exact (ih c (.inl ⟨k, h⟩)).2 hp
      | @tup _ _ k ms i c p _ hk h hi hp =>
        refine ⟨_, h, ?_⟩
        simp only [hk, List.contains_eq_mem, decide_true, Bool.not_true, Bool.false_eq_true, if_false, List.mem_map]
        refine ⟨(Py.natStr i :: p, a), ?_, rfl⟩
        rw [iterPField, mem_iterPSeq]
        exact ⟨i, c, hi, (p, a), (ih c (.inr (.inl ⟨k, ms, h, List.mem_of_getElem? hi⟩))).2 hp, by simp [pre]⟩
      | @lst _ _ k ms i c p _ hk h hi hp =>
        refine ⟨_, h, ?_⟩
        simp only [hk, List.contains_eq_mem, decide_true, Bool.not_true, Bool.false_eq_true, if_false, List.mem_map]
        refine ⟨(Py.natStr i :: p, a), ?_, rfl⟩
        rw [iterPField, mem_iterPSeq]
        exact ⟨i, c, hi, (p, a), (ih c (.inr (.inr (.inl ⟨k, ms, h, List.mem_of_getElem? hi⟩)))).2 hp, by simp [pre]⟩
      | @dict _ _ k ms j c p _ hk h hj hp =>
        refine ⟨_, h, ?_⟩
        simp only [hk, List.contains_eq_mem, decide_true, Bool.not_true, Bool.false_eq_true, if_false, List.mem_map]
        refine ⟨(j :: p, a), ?_, rfl⟩
        rw [iterPField, iterPDict_eq, List.mem_flatMap]
        refine ⟨_, hj, ?_⟩
        rw [List.mem_map]
        exact ⟨(p, a), (ih c (.inr (.inr (.inr ⟨k, ms, j, h, hj⟩)))).2 hp, rfl⟩

end Verif
