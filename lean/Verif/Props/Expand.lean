import Verif.Proofs.ExpandGroup
/-!
# C11: `expand_names`
-/

namespace Verif
variable {α : Type}

/-! ## Specification -/

/-- The labels of the `w` columns of the value called `n`: `n` alone for one column, else `n[0]`, …, `n[w-1]`. -/
def Spec.labels (n : Name) (w : Nat) : List Name :=
  if w = 1 then [n] else (List.range w).map fun i => n ++ ['['] ++ Py.natStr i ++ [']']

/-- The last attribute name on a path is an identifier, so it contains no `[`. -/
def Spec.PlainAttr (p : List Name) : Prop := ∀ s, p.getLast? = some s → '[' ∉ s

/-! ## Lemmas -/

theorem labels_eq (n : Name) (w : Nat) : Spec.labels n w = expandLabel n w := by
  unfold Spec.labels expandLabel
  split
  · rfl
  · simp

theorem joinDots_last {p : List Name} {s : Name} (h : p.getLast? = some s) :
    ∃ pre, Py.joinDots p = pre ++ s ∧ (pre = [] ∨ ∃ r, pre = r ++ ['.']) := by
  induction p with
  | nil => simp at h
  | cons x p ih =>
    cases p with
    | nil => simp at h; subst h; exact ⟨[], rfl, .inl rfl⟩
    | cons y p =>
      rw [List.getLast?_cons_cons] at h
      obtain ⟨pre, h1, h2⟩ := ih h
      refine ⟨x ++ '.' :: pre, by simp [Py.joinDots, h1], .inr ?_⟩
      rcases h2 with rfl | ⟨r, rfl⟩
      · exact ⟨x, rfl⟩
      · exact ⟨x ++ '.' :: r, by simp⟩

/-- After a `[` in a parameter name there is a dot. -/
theorem bracket_then_dot {p : List Name} (hne : p ≠ []) (hp : Spec.PlainAttr p) {u v : Name}
    (h : pathName p = u ++ '[' :: v) : '.' ∈ v := by
  obtain ⟨s, hs⟩ : ∃ s, p.getLast? = some s := by
    cases hl : p.getLast? with
    | none => rw [List.getLast?_eq_none_iff] at hl; exact absurd hl hne
    | some s => exact ⟨s, rfl⟩
  obtain ⟨pre, h1, h2⟩ := joinDots_last hs
  have hs' := hp s hs
  unfold pathName at h
  rw [h1] at h
  rcases List.append_eq_append_iff.1 h with ⟨c, hc1, hc2⟩ | ⟨c, hc1, hc2⟩
  · exact absurd (by rw [hc2]; simp) hs'
  · rcases h2 with rfl | ⟨r, rfl⟩
    · simp at hc1; obtain ⟨rfl, rfl⟩ := hc1
      simp at hc2
      exact absurd (by rw [← hc2]; simp) hs'
    · cases c with
      | nil => simp at hc2; exact absurd (by rw [← hc2]; simp) hs'
      | cons x c =>
        simp only [List.cons_append, List.cons.injEq] at hc2
        obtain ⟨rfl, hv⟩ := hc2
        rw [hv, List.mem_append]
        left
        have : '.' ∈ u ++ '[' :: c := by rw [← hc1]; simp
        have hlast := congrArg List.getLast? hc1
        rw [List.getLast?_append] at hlast
        simp only [List.getLast?_singleton, Option.some_or, List.getLast?_append] at hlast
        cases c with
        | nil => simp at hlast
        | cons y c =>
          rw [List.getLast?_cons_cons] at hlast
          cases hc : (y :: c).getLast? with
          | none => rw [List.getLast?_eq_none_iff] at hc; cases hc
          | some z =>
            rw [hc] at hlast
            simp only [Option.some_or, Option.some.injEq] at hlast
            subst hlast
            exact List.mem_of_getLast? hc

theorem label_shape {n x : Name} {w : Nat} (h : x ∈ expandLabel n w) :
    ∃ t, x = n ++ t ∧ '.' ∉ t ∧ (t = [] ∨ ∃ r, t = '[' :: r) := by
  unfold expandLabel at h
  split at h
  · simp at h; subst h; exact ⟨[], by simp, by simp, .inl rfl⟩
  · rw [List.mem_map] at h
    obtain ⟨i, _, rfl⟩ := h
    refine ⟨_, rfl, ?_, .inr ⟨_, rfl⟩⟩
    simp only [List.mem_cons, List.mem_append, List.not_mem_nil, or_false, not_or]
    exact ⟨by decide, Py.natStr_noDot i, by decide⟩

theorem label_name_inj {p q : List Name} (hp : p ≠ []) (hq : q ≠ []) (hpp : Spec.PlainAttr p) (hqp : Spec.PlainAttr q)
    {x : Name} {w w' : Nat} (h1 : x ∈ expandLabel (pathName p) w) (h2 : x ∈ expandLabel (pathName q) w') :
    pathName p = pathName q := by
  have half : ∀ {p q : List Name}, q ≠ [] → Spec.PlainAttr q → ∀ {t t' c : Name}, '.' ∉ t → (t = [] ∨ ∃ r, t = '[' :: r) →
      pathName q = pathName p ++ c → t = c ++ t' → pathName p = pathName q := by
    intro p q hq hqp t t' c ht hts he1 he2
    cases c with
    | nil => simpa using he1.symm
    | cons y c =>
      rcases hts with rfl | ⟨r, rfl⟩
      · simp at he2
      · simp only [List.cons_append, List.cons.injEq] at he2
        obtain ⟨rfl, hr⟩ := he2
        have := bracket_then_dot hq hqp he1
        exfalso
        apply ht
        rw [hr]
        simp [this]
  obtain ⟨t, hx, ht1, ht2⟩ := label_shape h1
  obtain ⟨t', hx', ht1', ht2'⟩ := label_shape h2
  rw [hx] at hx'
  rcases List.append_eq_append_iff.1 hx' with ⟨c, hc1, hc2⟩ | ⟨c, hc1, hc2⟩
  · exact half hq hqp ht1 ht2 hc1 hc2
  · exact (half hp hpp ht1' ht2' hc1 hc2).symm

theorem expandNames_params {m : HV α} (hw : m.WF) {l : List (List Name × Arr2 α)} (hl : Spec.Params m l) :
    m.expandNames (Spec.names l) = .ok (l.flatMap fun q => Spec.labels (pathName q.1) q.2.ncol) := by
  unfold HV.expandNames
  have : (Spec.names l).mapM (fun n => expandHV m (Py.splitDots n)) =
      .ok (l.map fun q => expandLabel (pathName q.1) q.2.ncol) := by
    induction l with
    | nil => rfl
    | cons q l ih =>
      have hq := hl q (by simp)
      show (pathName q.1 :: Spec.names l).mapM _ = _
      rw [List.mapM_cons, ih fun x hx => hl x (by simp [hx])]
      have : expandHV m (Py.splitDots (pathName q.1)) = .ok (expandLabel (pathName q.1) q.2.ncol) := by
        unfold pathName; rw [hq.split hw]; exact expand_of_isParam hq hw
      rw [this]; rfl
  rw [this]
  simp only [Except.map, List.flatMap, labels_eq]

/-! ## C11 -/

/-- C11.  Expanding the names of any list of parameters gives, in order, the labels of their columns: as many labels as
`get_parameters` has columns; the columns labelled by a parameter's labels hold that parameter; and labels are pairwise
distinct if the names are. -/
theorem C11_one_label_per_column (m : HV α) (hw : m.WF) (l : List (List Name × Arr2 α)) (hl : Spec.Params m l) :
    m.expandNames (Spec.names l) = .ok (l.flatMap fun q => Spec.labels (pathName q.1) q.2.ncol) ∧
    (∀ v, m.getParameters (some (Spec.names l)) = .ok v →
      (l.flatMap fun q => Spec.labels (pathName q.1) q.2.ncol).length = v.ncol ∧
      ∀ l₁ q l₂ b, l = l₁ ++ q :: l₂ → m.batchSize = .ok b →
        let start := (l₁.flatMap fun q => Spec.labels (pathName q.1) q.2.ncol).length
        v.cols start (start + q.2.ncol) = Spec.broadcast b q.2) ∧
    ((Spec.names l).Nodup → (∀ q ∈ l, Spec.PlainAttr q.1) →
      (l.flatMap fun q => Spec.labels (pathName q.1) q.2.ncol).Nodup) := by
  have hlen : ∀ l : List (List Name × Arr2 α),
      (l.flatMap fun q => Spec.labels (pathName q.1) q.2.ncol).length = (l.map fun q => q.2.ncol).sum := by
    intro l
    rw [List.length_flatMap]
    simp only [labels_eq, expandLabel_length]
  refine ⟨expandNames_params hw hl, ?_, ?_⟩
  · intro v hv
    have hbs : ∃ b, m.batchSize = .ok b := by
      cases hb : m.batchSize with
      | ok b => exact ⟨b, rfl⟩
      | error e =>
        exfalso
        unfold HV.getParameters at hv
        simp only [hb] at hv
        split at hv <;> cases hv
    obtain ⟨b, hb⟩ := hbs
    by_cases hne : l = []
    · subst hne
      unfold HV.getParameters at hv
      simp only [Spec.names, List.map_nil, Option.getD_some, if_true, hb] at hv
      cases hv
      refine ⟨rfl, ?_⟩
      intro l₁ q l₂ b h
      simp at h
    · have hne' : Spec.names l ≠ [] := by simpa [Spec.names] using hne
      rw [getParameters_names hw hne' (names_mem hl) hb] at hv
      have hvals : ∀ l' : List (List Name × Arr2 α), Spec.Params m l' →
          (Spec.names l').map (fun n => expandTo b (valueAt m n)) = l'.map fun q => expandTo b q.2 := by
        intro l' hl'
        unfold Spec.names
        rw [List.map_map]
        apply List.map_congr_left
        intro q hq
        simp only [Function.comp]
        rw [valueAt_eq hw (mem_iterParams_false.2 ⟨q.1, hl' q hq, rfl⟩)]
      rw [hvals l hl] at hv
      have hn : ∀ l' : List (List Name × Arr2 α),
          ((l'.map fun q => expandTo b q.2).map (·.ncol)).sum = (l'.map fun q => q.2.ncol).sum := by
        intro l'
        rw [List.map_map]
        congr 1
        apply List.map_congr_left
        intro q _
        exact expandTo_ncol b q.2
      refine ⟨?_, ?_⟩
      · rw [hlen, hcat_ncol hv, hn]
      · intro l₁ q l₂ b' he hb'
        rw [hb] at hb'; cases hb'
        subst he
        simp only
        rw [hlen]
        rw [List.map_append, List.map_cons] at hv
        have := Arr2.block_hcat hv
        rw [hn, expandTo_ncol] at this
        rw [this, expandTo_eq_broadcast (batchSize_pos hb)]
  · intro hnd hplain
    clear hlen
    induction l with
    | nil => simp
    | cons q l ih =>
      have hnd' : pathName q.1 ∉ Spec.names l ∧ (Spec.names l).Nodup := by
        have : (pathName q.1 :: Spec.names l).Nodup := hnd
        simpa using this
      rw [List.flatMap_cons, List.nodup_append]
      refine ⟨by rw [labels_eq]; exact expandLabel_nodup _ _,
        ih (fun x hx => hl x (by simp [hx])) hnd'.2 (fun x hx => hplain x (by simp [hx])), ?_⟩
      rintro x hx y hy rfl
      rw [List.mem_flatMap] at hy
      obtain ⟨q', hq', hx'⟩ := hy
      rw [labels_eq] at hx hx'
      have := label_name_inj (hl q (by simp)).ne_nil (hl q' (by simp [hq'])).ne_nil (hplain q (by simp))
        (hplain q' (by simp [hq'])) hx hx'
      apply hnd'.1
      rw [this]
      simp only [Spec.names, List.mem_map]
      exact ⟨q', hq', rfl⟩

/-- The labels of two parameters of the demo object. -/
example : Demo.obj.expandNames [['t', '.', '1', '.', 'r'], ['x']] =
    .ok [['t', '.', '1', '.', 'r', '[', '0', ']'], ['t', '.', '1', '.', 'r', '[', '1', ']'], ['x']] := by decide

/-- C11.  Expanding the name of a sub-model, of a tuple or dictionary of sub-models, or of one of its members – at any depth – is expanding
all the parameter names below it, i.e. those of `all_names` that begin with the name and a dot. -/
theorem C11_whole_submodel (m : HV α) (hw : m.WF) (p : List Name) (hp : IsGroup m p) :
    m.expandNames [pathName p] = m.expandNames (m.allNames.filter fun n => (pathName p ++ ['.']).isPrefixOf n) := by
  have e1 : m.expandNames [pathName p] =
      .ok (((below (pathName p ++ ['.']) (iterParams false m)).map fun q => expandLabel q.1 q.2.ncol).flatten) := by
    have hsplit : Py.splitDots (pathName p) = p := Py.splitDots_joinDots hp.ne_nil (hp.noDot hw)
    unfold HV.expandNames
    simp only [List.mapM_cons, List.mapM_nil, hsplit, expand_group hp hw]
    simp [bind, Except.bind, pure, Except.pure, Except.map, labelsOf, pathName]
  have gen : ∀ l : List (Name × Arr2 α), (∀ q ∈ l, q ∈ iterParams false m) →
      m.expandNames (l.map (·.1)) = .ok (l.map fun q => expandLabel q.1 q.2.ncol).flatten := by
    intro l
    unfold HV.expandNames
    intro hl
    have : (l.map (·.1)).mapM (fun n => expandHV m (Py.splitDots n)) = .ok (l.map fun q => expandLabel q.1 q.2.ncol) := by
      induction l with
      | nil => rfl
      | cons q l ih =>
        obtain ⟨p, hp, hq⟩ := mem_iterParams_false.1 (hl q (by simp))
        rw [List.map_cons, List.mapM_cons, ih fun x hx => hl x (by simp [hx])]
        have : expandHV m (Py.splitDots q.1) = .ok (expandLabel q.1 q.2.ncol) := by
          rw [hq]; unfold pathName; rw [hp.split hw]; exact expand_of_isParam hp hw
        rw [this]; rfl
    rw [this]; rfl
  have e2 : (m.allNames.filter fun n => (pathName p ++ ['.']).isPrefixOf n) =
      (below (pathName p ++ ['.']) (iterParams false m)).map (·.1) := by
    unfold HV.allNames below
    rw [List.filter_map]; rfl
  rw [e1, e2, gen (below (pathName p ++ ['.']) (iterParams false m)) fun q hq => (List.mem_filter.1 hq).1]

/-- Expanding the tuple `t` of the demo object lists the columns of both members. -/
example : Demo.obj.expandNames [['t']] = Demo.obj.expandNames [['t', '.', '0', '.', 'r'], ['t', '.', '1', '.', 'r']] := by
  have := C11_whole_submodel _ Demo.obj_wf [['t']] (.tup (ms := [Demo.rc 5 6, Demo.rc 7 8]) (by simp))
  exact this

/-- Expanding the member `1` of that tuple. -/
example : Demo.obj.expandNames [['t', '.', '1']] = Demo.obj.expandNames [['t', '.', '1', '.', 'r']] := by
  have := C11_whole_submodel _ Demo.obj_wf [['t'], ['1']]
    (.tupMember (ms := [Demo.rc 5 6, Demo.rc 7 8]) (i := 1) (c := Demo.rc 7 8) (by simp) rfl)
  exact this

end Verif
