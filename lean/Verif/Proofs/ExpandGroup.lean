import Verif.Proofs.Expand
/-!
# Expanding the name of anything that holds sub-models (lemmas)
-/

namespace Verif
variable {α : Type}

/-- The parameters whose names begin with `s`. -/
def below (s : Name) (l : List (Name × Arr2 α)) : List (Name × Arr2 α) := l.filter fun q => s.isPrefixOf q.1

theorem dotPrefix {a b : Name} (ha : '.' ∉ a) (hb : '.' ∉ b) (t n : Name) :
    (a ++ '.' :: t).isPrefixOf (b ++ '.' :: n) = (decide (a = b) && t.isPrefixOf n) := by
  induction a generalizing b with
  | nil =>
    cases b with
    | nil => simp [List.isPrefixOf]
    | cons y b =>
      have : ('.' == y) = false := by
        simp only [List.mem_cons, not_or] at hb
        simpa using hb.1
      simp [List.isPrefixOf, this]
  | cons x a ih =>
    simp only [List.mem_cons, not_or] at ha
    cases b with
    | nil =>
      have : (x == '.') = false := by simpa using fun h => ha.1 h.symm
      simp [List.isPrefixOf, this]
    | cons y b =>
      simp only [List.mem_cons, not_or] at hb
      simp only [List.cons_append, List.isPrefixOf, ih ha.2 hb.2, List.cons.injEq]
      by_cases hxy : x = y <;> simp [hxy]

theorem below_map (k s : Name) (hk : '.' ∉ k) (l : List (Name × Arr2 α)) :
    below (k ++ '.' :: s) (l.map fun q => (k ++ '.' :: q.1, q.2)) = (below s l).map fun q => (k ++ '.' :: q.1, q.2) := by
  unfold below
  rw [List.filter_map]
  congr 2
  funext q
  simp only [Function.comp, dotPrefix hk hk, decide_true, Bool.true_and]

theorem below_map_ne (k j s : Name) (hk : '.' ∉ k) (hj : '.' ∉ j) (hne : j ≠ k) (f : Name → Name) (l : List (Name × Arr2 α)) :
    below (k ++ '.' :: s) (l.map fun q => (j ++ '.' :: f q.1, q.2)) = [] := by
  unfold below
  rw [List.filter_eq_nil_iff]
  intro q hq
  obtain ⟨p, _, rfl⟩ := List.mem_map.1 hq
  simp [dotPrefix hk hj, Ne.symm hne]

/-- The names under another attribute do not begin with this one. -/
theorem below_field_ne (k s k' : Name) (f' : Field α) (hk : '.' ∉ k) (hk' : '.' ∉ k') (hne : k' ≠ k) :
    below (k ++ '.' :: s) (iterField false k' f') = [] := by
  unfold below
  rw [List.filter_eq_nil_iff]
  intro q hq h
  have h1 := iterField_other_prefix (f' := f') hk hne hk' (List.mem_map_of_mem (f := (·.1)) hq)
  rw [List.isPrefixOf_iff_prefix] at h
  have : (k ++ ['.']) <+: q.1 := by
    refine List.IsPrefix.trans ⟨s, by simp⟩ h
  rw [← List.isPrefixOf_iff_prefix, h1] at this
  cases this

theorem below_fields {u : List Name} {k : Name} {f : Field α} (s : Name) {fs : List (Name × Field α)}
    (hn : (fs.map (·.1)).Nodup) (hdot : ∀ j g, (j, g) ∈ fs → '.' ∉ j) (hf : (k, f) ∈ fs) :
    below (k ++ '.' :: s) (iterFields false u fs) = below (k ++ '.' :: s) (iterField false k f) := by
  have hk := hdot k f hf
  have none' : ∀ fs' : List (Name × Field α), k ∉ fs'.map (·.1) → (∀ j g, (j, g) ∈ fs' → '.' ∉ j) →
      below (k ++ '.' :: s) (iterFields false u fs') = [] := by
    intro fs'
    induction fs' with
    | nil => intro _ _; rfl
    | cons p fs' ih =>
      obtain ⟨k', f'⟩ := p
      intro h1 h2
      simp only [List.map_cons, List.mem_cons, not_or] at h1
      have e1 := below_field_ne k s k' f' hk (h2 k' f' (by simp)) (Ne.symm h1.1)
      have e2 := ih h1.2 fun j g h => h2 j g (by simp [h])
      unfold below at e1 e2 ⊢
      simp only [iterFields, Bool.false_and, Bool.false_eq_true, if_false, List.filter_append, e1, e2, List.append_nil]
  induction fs with
  | nil => simp at hf
  | cons p fs ih =>
    obtain ⟨k', f'⟩ := p
    simp only [List.map_cons, List.nodup_cons] at hn
    have hrest : ∀ j g, (j, g) ∈ fs → '.' ∉ j := fun j g h => hdot j g (by simp [h])
    simp only [List.mem_cons, Prod.mk.injEq] at hf
    have app : ∀ a b : List (Name × Arr2 α), below (k ++ '.' :: s) (a ++ b) = below (k ++ '.' :: s) a ++ below (k ++ '.' :: s) b :=
      fun a b => List.filter_append ..
    simp only [iterFields, Bool.false_and, Bool.false_eq_true, if_false, app]
    rcases hf with ⟨rfl, rfl⟩ | hf
    · rw [none' fs hn.1 hrest, List.append_nil]
    · have hne : k' ≠ k := fun e => hn.1 (by subst e; exact List.mem_map_of_mem (f := (·.1)) hf)
      rw [below_field_ne k s k' f' hk (hdot k' f' (by simp)) hne, List.nil_append]
      exact ih hn.2 hrest hf

theorem below_append (s : Name) (a b : List (Name × Arr2 α)) : below s (a ++ b) = below s a ++ below s b := List.filter_append ..

/-- One member of a tuple. -/
theorem below_seq (k s : Name) (hk : '.' ∉ k) (ms : List (HV α)) : ∀ (i j : Nat) (c : HV α), ms[j]? = some c →
    below (k ++ '.' :: (Py.natStr (i + j) ++ '.' :: s)) (iterSeq false k i ms) =
      (below s (iterParams false c)).map fun q => (k ++ '.' :: (Py.natStr (i + j) ++ '.' :: q.1), q.2) := by
  have step : ∀ (x y : Nat) (l : List (Name × Arr2 α)), below (k ++ '.' :: (Py.natStr x ++ '.' :: s))
      (l.map fun p => (k ++ '.' :: (Py.natStr y ++ '.' :: p.1), p.2)) =
      if x = y then (below s l).map fun p => (k ++ '.' :: (Py.natStr y ++ '.' :: p.1), p.2) else [] := by
    intro x y l
    have e : (l.map fun p => (k ++ '.' :: (Py.natStr y ++ '.' :: p.1), p.2)) =
        (l.map fun p => (Py.natStr y ++ '.' :: p.1, p.2)).map fun q => (k ++ '.' :: q.1, q.2) := by
      rw [List.map_map]; rfl
    rw [e, below_map k _ hk]
    split
    · rename_i h; subst h
      rw [below_map _ _ (Py.natStr_noDot x), List.map_map]; rfl
    · rename_i h
      have := below_map_ne (Py.natStr x) (Py.natStr y) s (Py.natStr_noDot x) (Py.natStr_noDot y)
        (fun e => h (Py.natStr_injective e).symm) id l
      simp only [id] at this
      rw [this]; rfl
  have later : ∀ (ms : List (HV α)) (i x : Nat), x < i →
      below (k ++ '.' :: (Py.natStr x ++ '.' :: s)) (iterSeq false k i ms) = [] := by
    intro ms
    induction ms with
    | nil => intro i x _; rfl
    | cons d ms ih =>
      intro i x h
      rw [iterSeq, below_append, step, if_neg (by omega), ih (i + 1) x (by omega)]; rfl
  induction ms with
  | nil => intro i j c h; simp at h
  | cons d ms ih =>
    intro i j c h
    rw [iterSeq, below_append, step]
    cases j with
    | zero =>
      simp at h; subst h
      rw [Nat.add_zero, if_pos rfl, later ms (i + 1) i (by omega), List.append_nil]
    | succ j =>
      rw [if_neg (by omega), List.nil_append]
      have := ih (i + 1) j c (by simpa using h)
      rw [show i + 1 + j = i + (j + 1) by omega] at this
      exact this

/-- One member of a dictionary. -/
theorem below_dict (k s : Name) (hk : '.' ∉ k) (ms : List (Name × HV α)) (hn : (ms.map (·.1)).Nodup)
    (hd : ∀ j c, (j, c) ∈ ms → '.' ∉ j) (j : Name) (c : HV α) (h : (j, c) ∈ ms) :
    below (k ++ '.' :: (j ++ '.' :: s)) (iterDict false k ms) =
      (below s (iterParams false c)).map fun q => (k ++ '.' :: (j ++ '.' :: q.1), q.2) := by
  have hj := hd j c h
  have step : ∀ (y : Name) (l : List (Name × Arr2 α)), '.' ∉ y → below (k ++ '.' :: (j ++ '.' :: s))
      (l.map fun p => (k ++ '.' :: (y ++ '.' :: p.1), p.2)) =
      if j = y then (below s l).map fun p => (k ++ '.' :: (y ++ '.' :: p.1), p.2) else [] := by
    intro y l hy
    have e : (l.map fun p => (k ++ '.' :: (y ++ '.' :: p.1), p.2)) =
        (l.map fun p => (y ++ '.' :: p.1, p.2)).map fun q => (k ++ '.' :: q.1, q.2) := by
      rw [List.map_map]; rfl
    rw [e, below_map k _ hk]
    split
    · rename_i h; subst h
      rw [below_map _ _ hj, List.map_map]; rfl
    · rename_i h
      have := below_map_ne j y s hj hy (fun e => h e.symm) id l
      simp only [id] at this
      rw [this]; rfl
  have rest : ∀ ms : List (Name × HV α), j ∉ ms.map (·.1) → (∀ j c, (j, c) ∈ ms → '.' ∉ j) →
      below (k ++ '.' :: (j ++ '.' :: s)) (iterDict false k ms) = [] := by
    intro ms
    induction ms with
    | nil => intro _ _; rfl
    | cons p ms ih =>
      obtain ⟨y, d⟩ := p
      intro h1 h2
      simp only [List.map_cons, List.mem_cons, not_or] at h1
      rw [iterDict, below_append, step y _ (h2 y d (by simp)), if_neg h1.1, ih h1.2 fun a b h => h2 a b (by simp [h])]; rfl
  induction ms with
  | nil => simp at h
  | cons p ms ih =>
    obtain ⟨y, d⟩ := p
    simp only [List.map_cons, List.nodup_cons] at hn
    rw [iterDict, below_append, step y _ (hd y d (by simp))]
    simp only [List.mem_cons, Prod.mk.injEq] at h
    rcases h with ⟨rfl, rfl⟩ | h
    · rw [if_pos rfl, rest ms hn.1 fun a b h => hd a b (by simp [h]), List.append_nil]
    · have hne : j ≠ y := fun e => hn.1 (by subst e; exact List.mem_map_of_mem (f := (·.1)) h)
      rw [if_neg hne, List.nil_append]
      exact ih hn.2 (fun a b h => hd a b (by simp [h])) h

theorem IsGroup.ne_nil {m : HV α} {p : List Name} (h : IsGroup m p) : p ≠ [] := by cases h <;> simp

theorem IsGroup.noDot {m : HV α} {p : List Name} (h : IsGroup m p) (hw : m.WF) : ∀ s ∈ p, '.' ∉ s := by
  induction h with
  | sub h | tup h | dict h =>
    cases hw with
    | mk _ hd _ _ _ _ _ _ => intro s hs; simp at hs; subst hs; exact hd _ _ h
  | tupMember h hi =>
    cases hw with
    | mk _ hd _ _ _ _ _ _ =>
      intro s hs; simp at hs
      rcases hs with rfl | rfl
      · exact hd _ _ h
      · exact Py.natStr_noDot _
  | dictMember h hj =>
    cases hw with
    | mk _ hd _ _ _ hk _ _ =>
      intro s hs; simp at hs
      rcases hs with rfl | rfl
      · exact hd _ _ h
      · exact hk _ _ h _ _ hj
  | inSub h _ ih =>
    cases hw with
    | mk _ hd hs _ _ _ _ _ =>
      intro s hs'
      rcases List.mem_cons.1 hs' with rfl | hs'
      · exact hd _ _ h
      · exact ih (hs _ _ h) s hs'
  | inTup h hi _ ih =>
    cases hw with
    | mk _ hd _ ht _ _ _ _ =>
      intro s hs'
      simp only [List.mem_cons] at hs'
      rcases hs' with rfl | rfl | hs'
      · exact hd _ _ h
      · exact Py.natStr_noDot _
      · exact ih (ht _ _ h _ (List.mem_of_getElem? hi)) s hs'
  | inDict h hj _ ih =>
    cases hw with
    | mk _ hd _ _ _ hk hdw _ =>
      intro s hs'
      simp only [List.mem_cons] at hs'
      rcases hs' with rfl | rfl | hs'
      · exact hd _ _ h
      · exact hk _ _ h _ _ hj
      · exact ih (hdw _ _ h _ _ hj) s hs'

/-- The labels of a list of parameters. -/
def labelsOf (l : List (Name × Arr2 α)) : List Name := (l.map fun q => expandLabel q.1 q.2.ncol).flatten

theorem labelsOf_pre (k : Name) (l : List (Name × Arr2 α)) :
    labelsOf (l.map fun q => (k ++ '.' :: q.1, q.2)) = (labelsOf l).map fun n => k ++ '.' :: n := by
  unfold labelsOf
  rw [map_flatten_flatMap, List.map_map]
  congr 2
  funext q
  exact (expandLabel_pre k q.1 q.2.ncol).symm

theorem labelsOf_pre2 (k j : Name) (l : List (Name × Arr2 α)) :
    labelsOf (l.map fun q => (k ++ '.' :: (j ++ '.' :: q.1), q.2)) =
      ((labelsOf l).map fun n => j ++ '.' :: n).map fun n => k ++ '.' :: n := by
  rw [← labelsOf_pre j, ← labelsOf_pre k, List.map_map]; rfl

theorem below_nil (l : List (Name × Arr2 α)) : below [] l = l := by
  unfold below
  rw [List.filter_eq_self]
  intro q _
  cases q.1 <;> rfl

theorem below_own {k : Name} {f : Field α} (hnest : ∀ a, f ≠ .arr a) : below (k ++ ['.']) (iterField false k f) = iterField false k f := by
  unfold below
  rw [List.filter_eq_self]
  intro q hq
  exact iterField_self_prefix hnest (List.mem_map_of_mem (f := (·.1)) hq)

theorem expandAll_labels {c : HV α} (hw : c.WF) :
    Except.map List.flatten ((c.allNames).mapM fun n => expandHV c (Py.splitDots n)) = .ok (labelsOf (iterParams false c)) := by
  rw [expand_all hw]; rfl

theorem expandTupAt_nil (ms : List (HV α)) (hw : ∀ c ∈ ms, c.WF) : ∀ (j : Nat) (c : HV α), ms[j]? = some c →
    expandTupAt ms j [] = .ok (labelsOf (iterParams false c)) := by
  induction ms with
  | nil => intro j c h; simp at h
  | cons d ms ih =>
    intro j c h
    cases j with
    | zero => simp at h; subst h; rw [expandTupAt]; exact expandAll_labels (hw d (by simp))
    | succ j => rw [expandTupAt]; exact ih (fun c hc => hw c (by simp [hc])) j c (by simpa using h)

theorem expandDictAt_nil (ms : List (Name × HV α)) (hw : ∀ j c, (j, c) ∈ ms → c.WF) (hn : (ms.map (·.1)).Nodup) (j : Name)
    (c : HV α) (h : (j, c) ∈ ms) : expandDictAt ms j [] = .ok (labelsOf (iterParams false c)) := by
  induction ms with
  | nil => simp at h
  | cons p ms ih =>
    obtain ⟨j', d⟩ := p
    simp only [List.map_cons, List.nodup_cons] at hn
    unfold expandDictAt
    simp only [List.mem_cons, Prod.mk.injEq] at h
    rcases h with ⟨rfl, rfl⟩ | h
    · simp only [if_true]; exact expandAll_labels (hw j c (by simp))
    · have hne : j' ≠ j := fun e => hn.1 (by subst e; exact List.mem_map_of_mem (f := (·.1)) h)
      rw [if_neg hne]
      exact ih (fun a b h => hw a b (by simp [h])) hn.2 h

/-- Expanding the name of a group is labelling all parameters below it. -/
theorem expand_group {m : HV α} {p : List Name} (h : IsGroup m p) (hw : m.WF) :
    expandHV m p = .ok (labelsOf (below (Py.joinDots p ++ ['.']) (iterParams false m))) := by
  induction h with
  | @sub u fs k c h =>
    have e := expand_attribute hw h (by simp)
    cases hw with
    | mk hn hd _ _ _ _ _ _ =>
    rw [e, iterParams, Py.joinDots, below_fields [] hn hd h, below_own (by simp)]; rfl
  | @tup u fs k c h =>
    have e := expand_attribute hw h (by simp)
    cases hw with
    | mk hn hd _ _ _ _ _ _ =>
    rw [e, iterParams, Py.joinDots, below_fields [] hn hd h, below_own (by simp)]; rfl
  | @dict u fs k c h =>
    have e := expand_attribute hw h (by simp)
    cases hw with
    | mk hn hd _ _ _ _ _ _ =>
    rw [e, iterParams, Py.joinDots, below_fields [] hn hd h, below_own (by simp)]; rfl
  | @tupMember u fs k ms i c h hi =>
    cases hw with
    | mk hn hd _ ht _ _ _ _ =>
    have hlt : i < ms.length := (List.getElem?_eq_some_iff.1 hi).1
    have e : Py.joinDots [k, Py.natStr i] ++ ['.'] = k ++ '.' :: (Py.natStr i ++ '.' :: []) := by simp [Py.joinDots]
    have b := below_seq k [] (hd _ _ h) ms 0 i c hi
    rw [Nat.zero_add] at b
    rw [e, iterParams, below_fields _ hn hd h, iterField, b, below_nil, labelsOf_pre2, expandHV, expandFields_eq, assoc_of_mem hn h]
    simp only [expandField, List.drop_succ_cons, List.drop_zero, Py.intOf_natStr, Py.seqIndex_nat hlt,
      expandTupAt_nil ms (ht _ _ h) i c hi, Except.map]
  | @dictMember u fs k ms j c h hj =>
    cases hw with
    | mk hn hd _ _ hdn hdk hdw _ =>
    have e : Py.joinDots [k, j] ++ ['.'] = k ++ '.' :: (j ++ '.' :: []) := by simp [Py.joinDots]
    rw [e, iterParams, below_fields _ hn hd h, iterField, below_dict k [] (hd _ _ h) ms (hdn _ _ h) (hdk _ _ h) j c hj, below_nil,
      labelsOf_pre2, expandHV, expandFields_eq, assoc_of_mem hn h]
    simp only [expandField, List.drop_succ_cons, List.drop_zero, expandDictAt_nil ms (hdw _ _ h) (hdn _ _ h) j c hj, Except.map]
  | @inSub u fs k c p h hp ih =>
    cases hw with
    | mk hn hd hs _ _ _ _ _ =>
    have ih := ih (hs _ _ h)
    obtain ⟨s, rest, rfl⟩ := List.exists_cons_of_ne_nil hp.ne_nil
    have e : Py.joinDots (k :: s :: rest) ++ ['.'] = k ++ '.' :: (Py.joinDots (s :: rest) ++ ['.']) := by
      rw [Py.joinDots_cons (by simp)]; simp
    rw [e, iterParams, below_fields _ hn hd h, iterField, below_map _ _ (hd _ _ h), labelsOf_pre, expandHV, expandFields_eq,
      assoc_of_mem hn h]
    simp only [expandField, List.drop_succ_cons, List.drop_zero, ih, Except.map]
  | @inTup u fs k ms i c p h hi hp ih =>
    cases hw with
    | mk hn hd _ ht _ _ _ _ =>
    have ih := ih (ht _ _ h _ (List.mem_of_getElem? hi))
    obtain ⟨s, rest, rfl⟩ := List.exists_cons_of_ne_nil hp.ne_nil
    have hlt : i < ms.length := (List.getElem?_eq_some_iff.1 hi).1
    have e : Py.joinDots (k :: Py.natStr i :: s :: rest) ++ ['.'] =
        k ++ '.' :: (Py.natStr i ++ '.' :: (Py.joinDots (s :: rest) ++ ['.'])) := by
      rw [Py.joinDots_cons (by simp), Py.joinDots_cons (by simp)]; simp
    have b := below_seq k (Py.joinDots (s :: rest) ++ ['.']) (hd _ _ h) ms 0 i c hi
    rw [Nat.zero_add] at b
    rw [e, iterParams, below_fields _ hn hd h, iterField, b, labelsOf_pre2, expandHV, expandFields_eq, assoc_of_mem hn h]
    simp only [expandField, List.drop_succ_cons, List.drop_zero, Py.intOf_natStr, Py.seqIndex_nat hlt,
      expandTupAt_eq ms i c s rest hi, ih, Except.map]
  | @inDict u fs k ms j c p h hj hp ih =>
    cases hw with
    | mk hn hd _ _ hdn hdk hdw _ =>
    have ih := ih (hdw _ _ h _ _ hj)
    obtain ⟨s, rest, rfl⟩ := List.exists_cons_of_ne_nil hp.ne_nil
    have e : Py.joinDots (k :: j :: s :: rest) ++ ['.'] = k ++ '.' :: (j ++ '.' :: (Py.joinDots (s :: rest) ++ ['.'])) := by
      rw [Py.joinDots_cons (by simp), Py.joinDots_cons (by simp)]; simp
    rw [e, iterParams, below_fields _ hn hd h, iterField, below_dict k _ (hd _ _ h) ms (hdn _ _ h) (hdk _ _ h) j c hj,
      labelsOf_pre2, expandHV, expandFields_eq, assoc_of_mem hn h]
    simp only [expandField, List.drop_succ_cons, List.drop_zero, expandDictAt_eq ms (hdn _ _ h) j c s rest hj, ih, Except.map]

end Verif
