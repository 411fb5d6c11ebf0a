import Verif.Model.Expand
import Verif.Props.HealthUpdate
/-!
# Column blocks of a concatenation, labels, and `expand_names` (lemmas)
-/

namespace Verif
variable {α β : Type}

/-! ## Blocks of a concatenation -/

namespace Arr2

theorem hcat2_ok {a b v : Arr2 α} (h : hcat2 a b = .ok v) :
    a.nrow = b.nrow ∧ v.ncol = a.ncol + b.ncol ∧ v.rows = List.zipWith (· ++ ·) a.rows b.rows := by
  unfold hcat2 at h
  split at h
  · rename_i hn; cases h; exact ⟨hn, rfl, rfl⟩
  · cases h

theorem cols_hcat2_left {a b v : Arr2 α} (h : hcat2 a b = .ok v) : v.cols 0 a.ncol = a := by
  obtain ⟨h1, h2, h3⟩ := hcat2_ok h
  apply ext'
  · rw [cols_ncol] <;> omega
  · simp only [cols, h3, List.drop_zero, Nat.sub_zero]
    have ha := a.wf
    unfold nrow at h1
    revert ha h1
    generalize a.rows = ra
    generalize b.rows = rb
    intro h1 ha
    induction ra generalizing rb with
    | nil => simp
    | cons r ra ih =>
      cases rb with
      | nil => simp at h1
      | cons s rb =>
        simp only [List.zipWith_cons_cons, List.map_cons]
        rw [ih rb (by simpa using h1) (fun x hx => ha x (by simp [hx]))]
        rw [← ha r (by simp)]
        simp

theorem cols_hcat2_right {a b v : Arr2 α} (h : hcat2 a b = .ok v) (lo w : Nat) :
    v.cols (a.ncol + lo) (a.ncol + lo + w) = b.cols lo (lo + w) := by
  obtain ⟨h1, h2, h3⟩ := hcat2_ok h
  apply ext'
  · simp only [cols]; omega
  · simp only [cols, h3]
    have ha := a.wf
    unfold nrow at h1
    have e1 : a.ncol + lo + w - (a.ncol + lo) = w := by omega
    have e2 : lo + w - lo = w := by omega
    rw [e1, e2]
    revert ha h1
    generalize a.rows = ra
    generalize b.rows = rb
    intro h1 ha
    induction ra generalizing rb with
    | nil =>
      cases rb with
      | nil => simp
      | cons s rb => simp at h1
    | cons r ra ih =>
      cases rb with
      | nil => simp at h1
      | cons s rb =>
        simp only [List.zipWith_cons_cons, List.map_cons]
        rw [ih rb (by simpa using h1) (fun x hx => ha x (by simp [hx]))]
        have : (r ++ s).drop (a.ncol + lo) = s.drop lo := by
          rw [← ha r (by simp), List.drop_append]
          simp
        rw [this]

/-- The blocks of a concatenation are the arrays concatenated. -/
theorem slices_hcat {l : List (Arr2 α)} : ∀ {v : Arr2 α}, hcat l = .ok v → v.slices 0 (l.map (·.ncol)) = l := by
  induction l with
  | nil => intro v h; cases h
  | cons a l ih =>
    intro v h
    cases l with
    | nil =>
      cases h
      simp [slices, cols_full]
    | cons b l =>
      rw [hcat] at h
      cases hc : hcat (b :: l) with
      | error e => rw [hc] at h; cases h
      | ok w =>
        rw [hc] at h
        have h' : hcat2 a w = .ok v := h
        rw [List.map_cons, slices, Nat.zero_add, cols_hcat2_left h']
        congr 1
        refine Eq.trans ?_ (ih hc)
        have gen : ∀ ss lo, v.slices (a.ncol + lo) ss = w.slices lo ss := by
          intro ss
          induction ss with
          | nil => intro lo; rfl
          | cons s ss ih =>
            intro lo
            rw [slices, slices, cols_hcat2_right h', Nat.add_assoc, ih]
        exact gen _ 0

theorem slices_append (v : Arr2 α) (s t : List Nat) : ∀ pos,
    v.slices pos (s ++ t) = v.slices pos s ++ v.slices (pos + s.sum) t := by
  induction s with
  | nil => intro pos; simp [slices]
  | cons x s ih => intro pos; simp [slices, ih, Nat.add_assoc]

/-- Block of a concatenation after the arrays `l₁`. -/
theorem block_hcat {l₁ l₂ : List (Arr2 α)} {a v : Arr2 α} (h : hcat (l₁ ++ a :: l₂) = .ok v) :
    v.cols (l₁.map (·.ncol)).sum ((l₁.map (·.ncol)).sum + a.ncol) = a := by
  have := slices_hcat h
  rw [List.map_append, slices_append, List.map_cons, slices, Nat.zero_add] at this
  have hlen : (v.slices 0 (l₁.map (·.ncol))).length = l₁.length := by
    have gen : ∀ ss pos, (v.slices pos ss).length = ss.length := by
      intro ss
      induction ss with
      | nil => intro pos; rfl
      | cons s ss ih => intro pos; simp [slices, ih]
    rw [gen, List.length_map]
  have h2 := List.append_inj_right this hlen
  simp only [List.cons.injEq] at h2
  exact h2.1

end Arr2

/-! ## Labels -/

theorem expandLabel_pre (k n : Name) (w : Nat) :
    (expandLabel n w).map (fun n => k ++ '.' :: n) = expandLabel (k ++ '.' :: n) w := by
  unfold expandLabel
  split
  · rfl
  · rw [List.map_map]
    apply List.map_congr_left
    intro i _
    simp

theorem expandLabel_length (n : Name) (w : Nat) : (expandLabel n w).length = w := by
  unfold expandLabel
  split
  · rename_i h; simp [h]
  · simp

/-- A label determines the index. -/
theorem label_index_inj {n : Name} {i j : Nat}
    (h : n ++ '[' :: (Py.natStr i ++ [']']) = n ++ '[' :: (Py.natStr j ++ [']'])) : i = j := by
  have h1 := List.append_cancel_left h
  simp only [List.cons.injEq, true_and] at h1
  exact Py.natStr_injective (List.append_cancel_right h1)

theorem expandLabel_nodup (n : Name) (w : Nat) : (expandLabel n w).Nodup := by
  unfold expandLabel
  split
  · simp
  · exact nodup_map_inj (fun x y h => label_index_inj h) List.nodup_range

/-! ## `expand_names` -/

theorem expandFields_eq (fs : List (Name × Field α)) (k : Name) (rest : List Name) :
    expandFields fs (k :: rest) =
      match assoc k fs with
      | none => .error .attributeError
      | some f => expandField k f (k :: rest) := by
  induction fs with
  | nil => simp [expandFields, assoc]
  | cons p fs ih =>
    obtain ⟨k', f⟩ := p
    rw [expandFields, assoc]
    by_cases h : k' = k
    · subst h; simp
    · simp only [List.head?_cons, Option.some.injEq, h, if_false]
      exact ih

theorem expandTupAt_eq (ms : List (HV α)) : ∀ (j : Nat) (c : HV α) (s : Name) (rest : List Name), ms[j]? = some c →
    expandTupAt ms j (s :: rest) = expandHV c (s :: rest) := by
  induction ms with
  | nil => intro j c s rest h; simp at h
  | cons d ms ih =>
    intro j c s rest h
    cases j with
    | zero => simp at h; subst h; simp [expandTupAt]
    | succ j => rw [expandTupAt]; exact ih j c s rest (by simpa using h)

theorem expandDictAt_eq (ms : List (Name × HV α)) (hn : (ms.map (·.1)).Nodup) (j : Name) (c : HV α) (s : Name)
    (rest : List Name) (h : (j, c) ∈ ms) : expandDictAt ms j (s :: rest) = expandHV c (s :: rest) := by
  induction ms with
  | nil => simp at h
  | cons p ms ih =>
    obtain ⟨j', d⟩ := p
    simp only [List.map_cons, List.nodup_cons] at hn
    unfold expandDictAt
    simp only [List.mem_cons, Prod.mk.injEq] at h
    rcases h with ⟨rfl, rfl⟩ | h
    · simp
    · have hne : j' ≠ j := fun e => hn.1 (by subst e; exact List.mem_map_of_mem (f := (·.1)) h)
      rw [if_neg hne]
      exact ih hn.2 h

theorem expand_of_isParam {m : HV α} {p : List Name} {a : Arr2 α} (h : IsParam m p a) (hw : m.WF) :
    expandHV m p = .ok (expandLabel (Py.joinDots p) a.ncol) := by
  induction h with
  | @arr u fs k a h =>
    cases hw with
    | mk hn _ _ _ _ _ _ _ =>
    rw [expandHV, expandFields_eq, assoc_of_mem hn h]
    rfl
  | @sub u fs k c p a h hp ih =>
    cases hw with
    | mk hn _ hs _ _ _ _ _ =>
    obtain ⟨s, rest, rfl⟩ := List.exists_cons_of_ne_nil hp.ne_nil
    rw [expandHV, expandFields_eq, assoc_of_mem hn h]
    simp only [expandField, List.drop_succ_cons, List.drop_zero, ih (hs _ _ h), Except.map, expandLabel_pre]
    rfl
  | @tup u fs k ms i c p a h hi hp ih =>
    cases hw with
    | mk hn _ _ ht _ _ _ _ =>
    obtain ⟨s, rest, rfl⟩ := List.exists_cons_of_ne_nil hp.ne_nil
    have hlt : i < ms.length := (List.getElem?_eq_some_iff.1 hi).1
    rw [expandHV, expandFields_eq, assoc_of_mem hn h]
    simp only [expandField, List.drop_succ_cons, List.drop_zero, Py.intOf_natStr, Py.seqIndex_nat hlt,
      expandTupAt_eq ms i c s rest hi, ih (ht _ _ h _ (List.mem_of_getElem? hi)), Except.map, expandLabel_pre]
    rfl
  | lst h _ _ _ =>
    cases hw with
    | mk _ _ _ _ _ _ _ hl => exact absurd h (hl _ _)
  | @dict u fs k ms j c p a h hj hp ih =>
    cases hw with
    | mk hn _ _ _ hd _ hdw _ =>
    obtain ⟨s, rest, rfl⟩ := List.exists_cons_of_ne_nil hp.ne_nil
    rw [expandHV, expandFields_eq, assoc_of_mem hn h]
    simp only [expandField, List.drop_succ_cons, List.drop_zero,
      expandDictAt_eq ms (hd _ _ h) j c s rest hj, ih (hdw _ _ h _ _ hj), Except.map, expandLabel_pre]
    rfl

theorem map_flatten_flatMap {γ δ : Type} (f : γ → List δ) (g : δ → δ) (l : List γ) :
    (l.map f).flatten.map g = (l.map fun x => (f x).map g).flatten := by
  rw [List.map_flatten, List.map_map]; rfl

/-- Expanding every name of an object. -/
theorem expand_all {m : HV α} (hw : m.WF) :
    (m.allNames.mapM fun n => expandHV m (Py.splitDots n)) =
      .ok ((iterParams false m).map fun q => expandLabel q.1 q.2.ncol) := by
  unfold HV.allNames
  have key : ∀ l : List (Name × Arr2 α), (∀ q ∈ l, q ∈ iterParams false m) →
      ((l.map (·.1)).mapM fun n => expandHV m (Py.splitDots n)) = .ok (l.map fun q => expandLabel q.1 q.2.ncol) := by
    intro l
    induction l with
    | nil => intro _; rfl
    | cons q l ih =>
      intro hl
      obtain ⟨p, hp, hq⟩ := mem_iterParams_false.1 (hl q (by simp))
      rw [List.map_cons, List.mapM_cons, ih fun x hx => hl x (by simp [hx])]
      have : expandHV m (Py.splitDots q.1) = .ok (expandLabel q.1 q.2.ncol) := by
        rw [hq]; unfold pathName; rw [hp.split hw]; exact expand_of_isParam hp hw
      rw [this]; rfl
  exact key _ fun q hq => hq

theorem expandTupAll_eq (k : Name) (ms : List (HV α)) (hw : ∀ c ∈ ms, c.WF) : ∀ i,
    Except.map (List.map fun n => k ++ '.' :: n) (expandTupAll i ms) =
      .ok ((iterSeq false k i ms).map fun q => expandLabel q.1 q.2.ncol).flatten := by
  induction ms with
  | nil => intro i; rfl
  | cons c ms ih =>
    intro i
    have ih' := ih (fun d hd => hw d (by simp [hd])) (i + 1)
    rw [expandTupAll, expand_all (hw c (by simp))]
    cases hr : expandTupAll (i + 1) ms with
    | error e => rw [hr] at ih'; cases ih'
    | ok r =>
      rw [hr] at ih'
      simp only [Except.map, Except.ok.injEq] at ih'
      simp only [bind, Except.bind, Except.map, iterSeq, List.map_append, ih', List.flatten_append]
      rw [List.map_map, map_flatten_flatMap, List.map_map]
      congr 3
      apply List.map_congr_left
      intro q _
      simp only [Function.comp]
      rw [← expandLabel_pre, ← expandLabel_pre, List.map_map]

theorem expandDictAll_eq (k : Name) (ms : List (Name × HV α)) (hw : ∀ j c, (j, c) ∈ ms → c.WF) :
    Except.map (List.map fun n => k ++ '.' :: n) (expandDictAll ms) =
      .ok ((iterDict false k ms).map fun q => expandLabel q.1 q.2.ncol).flatten := by
  induction ms with
  | nil => rfl
  | cons p ms ih =>
    obtain ⟨j, c⟩ := p
    have ih' := ih (fun d e hd => hw d e (by simp [hd]))
    rw [expandDictAll, expand_all (hw j c (by simp))]
    cases hr : expandDictAll ms with
    | error e => rw [hr] at ih'; cases ih'
    | ok r =>
      rw [hr] at ih'
      simp only [Except.map, Except.ok.injEq] at ih'
      simp only [bind, Except.bind, Except.map, iterDict, List.map_append, ih', List.flatten_append]
      rw [List.map_map, map_flatten_flatMap, List.map_map]
      congr 3
      apply List.map_congr_left
      intro q _
      simp only [Function.comp]
      rw [← expandLabel_pre, ← expandLabel_pre, List.map_map]

/-- Expanding a whole attribute. -/
theorem expand_attribute {u : List Name} {fs : List (Name × Field α)} (hw : (HV.mk u fs).WF) {k : Name} {f : Field α}
    (hf : (k, f) ∈ fs) (hnest : f ≠ .other) :
    expandHV (.mk u fs) [k] = .ok ((iterField false k f).map fun q => expandLabel q.1 q.2.ncol).flatten := by
  cases hw with
  | mk hn _ hs ht hd _ hdw hl =>
  rw [expandHV, expandFields_eq, assoc_of_mem hn hf]
  cases f with
  | arr a => simp [expandField, iterField, Py.joinDots]
  | sub c =>
    simp only [expandField, List.drop_succ_cons, List.drop_zero, expand_all (hs _ _ hf), iterField, Except.map]
    rw [map_flatten_flatMap, List.map_map]
    congr 3
    funext q
    exact expandLabel_pre k q.1 q.2.ncol
  | tup ms =>
    simp only [expandField, List.drop_succ_cons, List.drop_zero, iterField]
    exact expandTupAll_eq k ms (ht _ _ hf) 0
  | dict ms =>
    simp only [expandField, List.drop_succ_cons, List.drop_zero, iterField]
    exact expandDictAll_eq k ms (hdw _ _ hf)
  | lst ms => exact absurd hf (hl _ _)
  | other => exact absurd rfl hnest

/-- The names below attribute `k` are those beginning with `k.`. -/
theorem iterField_prefix {k : Name} {f : Field α} {n : Name} (hn : n ∈ (iterField false k f).map (·.1))
    (hnest : ∀ a, f ≠ .arr a) : ∃ r, n = k ++ '.' :: r := by
  have seq : ∀ (ms : List (HV α)) i, n ∈ (iterSeq false k i ms).map (·.1) → ∃ r, n = k ++ '.' :: r := by
    intro ms
    induction ms with
    | nil => intro i h; simp [iterSeq] at h
    | cons c ms ih =>
      intro i h
      simp only [iterSeq, List.map_append, List.mem_append, List.map_map, List.mem_map, Function.comp] at h
      rcases h with ⟨q, _, rfl⟩ | h
      · exact ⟨_, rfl⟩
      · exact ih (i + 1) (by simpa using h)
  have dict : ∀ (ms : List (Name × HV α)), n ∈ (iterDict false k ms).map (·.1) → ∃ r, n = k ++ '.' :: r := by
    intro ms
    induction ms with
    | nil => intro h; simp [iterDict] at h
    | cons c ms ih =>
      intro h
      obtain ⟨j, c⟩ := c
      simp only [iterDict, List.map_append, List.mem_append, List.map_map, List.mem_map, Function.comp] at h
      rcases h with ⟨q, _, rfl⟩ | h
      · exact ⟨_, rfl⟩
      · exact ih (by simpa using h)
  cases f with
  | arr a => exact absurd rfl (hnest a)
  | sub c =>
    simp only [iterField, List.map_map, List.mem_map, Function.comp] at hn
    obtain ⟨q, _, rfl⟩ := hn
    exact ⟨_, rfl⟩
  | tup ms => exact seq ms 0 hn
  | lst ms => exact seq ms 0 hn
  | dict ms => exact dict ms hn
  | other => simp [iterField] at hn

theorem iterField_self_prefix {k : Name} {f : Field α} (hnest : ∀ a, f ≠ .arr a) {n : Name}
    (hn : n ∈ (iterField false k f).map (·.1)) : (k ++ ['.']).isPrefixOf n = true := by
  obtain ⟨r, rfl⟩ := iterField_prefix hn hnest
  rw [List.isPrefixOf_iff_prefix]
  exact ⟨r, by simp⟩

theorem iterField_other_prefix {k k' : Name} {f' : Field α} (hk : '.' ∉ k) (hne : k' ≠ k) (hk' : '.' ∉ k') {n : Name}
    (hn : n ∈ (iterField false k' f').map (·.1)) : (k ++ ['.']).isPrefixOf n = false := by
  cases hb : (k ++ ['.']).isPrefixOf n with
  | false => rfl
  | true =>
    exfalso
    rw [List.isPrefixOf_iff_prefix] at hb
    obtain ⟨t, ht⟩ := hb
    rw [List.append_assoc] at ht
    have hs : Py.splitOnce n = some (k, t) := by rw [← ht]; exact Py.splitOnce_append t hk
    by_cases ha : ∃ a, f' = .arr a
    · obtain ⟨a, rfl⟩ := ha
      simp [iterField] at hn
      subst hn
      rw [Py.splitOnce_none.2 hk'] at hs
      cases hs
    · obtain ⟨r, rfl⟩ := iterField_prefix hn (fun a h => ha ⟨a, h⟩)
      rw [Py.splitOnce_append r hk'] at hs
      simp only [Option.some.injEq, Prod.mk.injEq] at hs
      exact hne hs.1

end Verif
