import Verif.Props.Expand
/-!
# Containers of inputs, transient states and outputs: C14 – C16
-/

namespace Verif
variable {α : Type}

/-! ## Specification -/

/-- Field names of a container are distinct identifiers (always true in Python). -/
def Container.WF (c : Container α) : Prop := (c.fields.map (·.1)).Nodup ∧ ∀ k f, (k, f) ∈ c.fields → '[' ∉ k

/-- The values held, in order, with their names. -/
def Spec.held (c : Container α) : List (Name × Arr2 α) := c.fields.filterMap fun
  | (_, none) => none
  | (k, some a) => some (k, a)

/-! ## Lemmas -/

theorem present_eq (c : Container α) : c.present = Spec.held c := by
  unfold Container.present Spec.held
  congr 1
  funext p
  obtain ⟨k, f⟩ := p
  cases f <;> rfl

theorem held_cons_none (k : Name) (fs : List (Name × Option (Arr2 α))) : Spec.held ⟨(k, none) :: fs⟩ = Spec.held ⟨fs⟩ := rfl

theorem held_cons_some (k : Name) (a : Arr2 α) (fs : List (Name × Option (Arr2 α))) :
    Spec.held ⟨(k, some a) :: fs⟩ = (k, a) :: Spec.held ⟨fs⟩ := rfl

theorem held_fill (v : Arr2 α) (fs : List (Name × Option (Arr2 α))) : ∀ pos,
    (Spec.held ⟨Container.fillFrom v pos fs⟩).map (·.2) = v.slices pos ((Spec.held ⟨fs⟩).map fun p => p.2.ncol) := by
  induction fs with
  | nil => intro pos; rfl
  | cons p fs ih =>
    intro pos
    obtain ⟨k, f⟩ := p
    cases f with
    | none => exact ih pos
    | some a =>
      rw [Container.fillFrom, held_cons_some, held_cons_some, List.map_cons, ih, List.map_cons, Arr2.slices]

theorem lengthField_of_mem {c : Container α} (hn : (c.fields.map (·.1)).Nodup) {k : Name} {f : Option (Arr2 α)}
    (h : (k, f) ∈ c.fields) : c.lengthField k = (f.map Arr2.ncol).getD 0 := by
  unfold Container.lengthField
  rw [assoc_of_mem hn h]
  cases f <;> rfl

theorem sum_held (fs : List (Name × Option (Arr2 α))) :
    (fs.map fun p => (p.2.map Arr2.ncol).getD 0).sum = ((Spec.held ⟨fs⟩).map fun p => p.2.ncol).sum := by
  induction fs with
  | nil => rfl
  | cons p fs ih =>
    obtain ⟨k, f⟩ := p
    cases f with
    | none => simpa [held_cons_none] using ih
    | some a => simp [held_cons_some, ih]

theorem len_eq {c : Container α} (hn : (c.fields.map (·.1)).Nodup) : c.len = ((Spec.held c).map fun p => p.2.ncol).sum := by
  have : c.len = (c.fields.map fun p => (p.2.map Arr2.ncol).getD 0).sum := by
    unfold Container.len Container.allFields
    rw [List.map_map]
    congr 1
    apply List.map_congr_left
    intro p hp
    exact lengthField_of_mem hn hp
  rw [this, sum_held]

theorem fillFrom_keys (v : Arr2 α) (fs : List (Name × Option (Arr2 α))) : ∀ pos,
    (Container.fillFrom v pos fs).map (·.1) = fs.map (·.1) := by
  induction fs with
  | nil => intro pos; rfl
  | cons p fs ih =>
    intro pos
    obtain ⟨k, f⟩ := p
    cases f with
    | none => rw [Container.fillFrom, List.map_cons, ih, List.map_cons]
    | some a => rw [Container.fillFrom, List.map_cons, ih, List.map_cons]

theorem batchLoop_const {l : List Nat} {r : Nat} (h : ∀ n ∈ l, n = r) (hne : l ≠ []) : batchLoop 1 l = .ok (max 1 r) := by
  have gen : ∀ (l : List Nat), (∀ n ∈ l, n = r) → batchLoop (max 1 r) l = .ok (max 1 r) := by
    intro l
    induction l with
    | nil => intro _; rfl
    | cons n l ih =>
      intro h
      have hn := h n (by simp)
      subst hn
      unfold batchLoop
      have : ¬ (max 1 n > 1 ∧ n ≠ 1 ∧ n ≠ max 1 n) := by omega
      rw [if_neg this]
      have e : max (max 1 n) n = max 1 n := by omega
      rw [e]
      exact ih fun k hk => h k (by simp [hk])
  cases l with
  | nil => exact absurd rfl hne
  | cons n l =>
    have hn := h n (by simp)
    subst hn
    unfold batchLoop
    rw [if_neg (by omega)]
    exact gen l fun k hk => h k (by simp [hk])

theorem toNumpy_eq {c : Container α} {b : Nat} (hb : c.batchSize = .ok b) :
    c.toNumpy = Arr2.hcat ((Spec.held c).map fun p => expandTo b p.2) := by
  unfold Container.toNumpy
  rw [hb, present_eq]
  rfl

theorem toNumpy_ok {c : Container α} {v : Arr2 α} (h : c.toNumpy = .ok v) :
    ∃ b, c.batchSize = .ok b ∧ Arr2.hcat ((Spec.held c).map fun p => expandTo b p.2) = .ok v := by
  cases hb : c.batchSize with
  | error e => unfold Container.toNumpy at h; rw [hb] at h; cases h
  | ok b => exact ⟨b, rfl, by rw [← toNumpy_eq hb]; exact h⟩

theorem batchSize_fill {c : Container α} {v : Vals α} (hne : Spec.held c ≠ []) :
    (c.fromNumpy v).batchSize = .ok (max 1 v.to2d.nrow) := by
  unfold Container.batchSize
  rw [present_eq]
  have hs := held_fill v.to2d c.fields 0
  apply batchLoop_const
  · intro n hn
    have : (Spec.held (c.fromNumpy v)).map (fun p => p.2.nrow) =
        ((Spec.held (c.fromNumpy v)).map (·.2)).map (·.nrow) := by rw [List.map_map]; rfl
    rw [this, Container.fromNumpy, hs] at hn
    revert hn
    generalize ((Spec.held c).map fun p => p.2.ncol) = ss
    generalize 0 = pos
    intro hn
    induction ss generalizing pos with
    | nil => simp [Arr2.slices] at hn
    | cons s ss ih =>
      rw [Arr2.slices, List.map_cons, List.mem_cons] at hn
      rcases hn with rfl | hn
      · simp [Arr2.cols, Arr2.nrow]
      · exact ih _ hn
  · intro he
    have hl := congrArg List.length hs
    have gen : ∀ (w : Arr2 α) ss pos, (w.slices pos ss).length = ss.length := by
      intro w ss
      induction ss with
      | nil => intro pos; rfl
      | cons s ss ih => intro pos; simp [Arr2.slices, ih]
    rw [gen, List.length_map, List.length_map] at hl
    have he' := congrArg List.length he
    simp only [List.length_map, List.length_nil] at he'
    have : (Spec.held c).length = 0 := by
      have h1 : (Spec.held (c.fromNumpy v)).length = (Spec.held ⟨c.fields⟩).length := hl
      have h2 : (Spec.held (c.fromNumpy v)).length = 0 := he'
      rw [h1] at h2; exact h2
    exact hne (List.length_eq_zero_iff.1 this)

theorem expandTo_of_nrow {b : Nat} {a : Arr2 α} (h : b = max 1 a.nrow) : expandTo b a = a := by
  unfold expandTo
  rw [if_neg (by omega)]

/-- What is read after writing: the columns that fit. -/
theorem toNumpy_fromNumpy {c : Container α} (hn : (c.fields.map (·.1)).Nodup) {v : Vals α} (hne : Spec.held c ≠ [])
    (hw : c.len ≤ v.to2d.ncol) : (c.fromNumpy v).toNumpy = .ok (v.to2d.cols 0 c.len) := by
  rw [toNumpy_eq (batchSize_fill hne)]
  have hs := held_fill v.to2d c.fields 0
  have hrow : ∀ a ∈ v.to2d.slices 0 ((Spec.held c).map fun p => p.2.ncol), a.nrow = v.to2d.nrow := by
    generalize ((Spec.held c).map fun p => p.2.ncol) = ss
    generalize 0 = pos
    intro a ha
    induction ss generalizing pos with
    | nil => simp [Arr2.slices] at ha
    | cons s ss ih =>
      rw [Arr2.slices, List.mem_cons] at ha
      rcases ha with rfl | ha
      · simp [Arr2.cols, Arr2.nrow]
      · exact ih _ ha
  have : (Spec.held (c.fromNumpy v)).map (fun p => expandTo (max 1 v.to2d.nrow) p.2) =
      v.to2d.slices 0 ((Spec.held c).map fun p => p.2.ncol) := by
    have e : (Spec.held (c.fromNumpy v)).map (fun p => expandTo (max 1 v.to2d.nrow) p.2) =
        ((Spec.held (c.fromNumpy v)).map (·.2)).map (expandTo (max 1 v.to2d.nrow)) := by rw [List.map_map]; rfl
    rw [e, Container.fromNumpy, hs]
    have : ∀ l : List (Arr2 α), (∀ a ∈ l, a.nrow = v.to2d.nrow) → l.map (expandTo (max 1 v.to2d.nrow)) = l := by
      intro l hl
      have : l.map (expandTo (max 1 v.to2d.nrow)) = l.map id := by
        apply List.map_congr_left
        intro a ha
        exact expandTo_of_nrow (by rw [hl a ha])
      rw [this, List.map_id]
    exact this _ hrow
  rw [this, Arr2.hcat_slices _ (by simpa using hne), Nat.zero_add, ← len_eq hn]
  rw [Nat.zero_add, ← len_eq hn]; exact hw

/-! ## C14 -/

/-- C14.  Writing a vector of the container's length – any number of rows – and reading it back gives that vector. -/
theorem C14_from_numpy_then_to_numpy (c : Container α) (hc : c.WF) (hne : Spec.held c ≠ []) (v : Vals α)
    (hv : v.to2d.ncol = c.len) : (c.fromNumpy v).toNumpy = .ok v.to2d := by
  rw [toNumpy_fromNumpy hc.1 hne (by omega), ← hv, Arr2.cols_full]

/-- C14.  Writing back the vector that was read keeps every field: absent fields stay absent, and each value stays what it
is, a single row being repeated for the batch. -/
theorem C14_to_numpy_then_from_numpy (c : Container α) (v : Arr2 α) (b : Nat) (hb : c.batchSize = .ok b)
    (hv : c.toNumpy = .ok v) :
    (c.fromNumpy (.d2 v)).fields = c.fields.map fun p => (p.1, p.2.map (Spec.broadcast b)) := by
  rw [toNumpy_eq hb] at hv
  have hs := Arr2.slices_hcat hv
  have hb1 : 1 ≤ b := batchLoop_ge hb
  unfold Container.fromNumpy Vals.to2d
  have key : ∀ (fs : List (Name × Option (Arr2 α))) pos,
      v.slices pos (((Spec.held ⟨fs⟩).map fun p => expandTo b p.2).map (·.ncol)) =
        (Spec.held ⟨fs⟩).map (fun p => expandTo b p.2) →
      Container.fillFrom v pos fs = fs.map fun p => (p.1, p.2.map (Spec.broadcast b)) := by
    intro fs
    induction fs with
    | nil => intro pos _; rfl
    | cons p fs ih =>
      intro pos h
      obtain ⟨k, f⟩ := p
      cases f with
      | none =>
        rw [Container.fillFrom, List.map_cons, ih pos h]
        rfl
      | some a =>
        rw [held_cons_some, List.map_cons, List.map_cons, Arr2.slices] at h
        simp only [List.cons.injEq, expandTo_ncol] at h
        rw [Container.fillFrom, List.map_cons, ih _ h.2, h.1, expandTo_eq_broadcast hb1]
        rfl
  exact key c.fields 0 hs

/-- A container with a scalar, an absent field and a batched pair. -/
def Demo.box : Container Int := ⟨[(['s'], some (.ofRow [1])), (['q'], none), (['i'], some ⟨2, [[2, 3], [4, 5]], by decide⟩)]⟩

theorem Demo.box_wf : Demo.box.WF := by
  refine ⟨by decide, ?_⟩
  intro k f h
  simp [Demo.box] at h
  rcases h with ⟨rfl, _⟩ | ⟨rfl, _⟩ | ⟨rfl, _⟩ <;> decide

example : Demo.box.toNumpy = .ok ⟨3, [[1, 2, 3], [1, 4, 5]], by decide⟩ ∧
    (Demo.box.fromNumpy (.d1 [7, 8, 9])).toNumpy = .ok (.ofRow [7, 8, 9]) := by
  refine ⟨by decide, ?_⟩
  exact C14_from_numpy_then_to_numpy Demo.box Demo.box_wf (by simp [Demo.box, Spec.held]) (.d1 [7, 8, 9]) rfl

/-! ## C15 -/

/-- C15.  `len`, the width of the vector and the number of names agree; the names are the labels of the held values in
order; they are pairwise distinct; and the columns at a value's labels hold that value. -/
theorem C15_length_width_names (c : Container α) (hc : c.WF) :
    c.allNames = .ok ((Spec.held c).flatMap fun p => Spec.labels p.1 p.2.ncol) ∧
    ((Spec.held c).flatMap fun p => Spec.labels p.1 p.2.ncol).length = c.len ∧
    ((Spec.held c).flatMap fun p => Spec.labels p.1 p.2.ncol).Nodup ∧
    (∀ v, c.toNumpy = .ok v → v.ncol = c.len) ∧
    (∀ v b l₁ p l₂, c.toNumpy = .ok v → c.batchSize = .ok b → Spec.held c = l₁ ++ p :: l₂ →
      let start := (l₁.flatMap fun p => Spec.labels p.1 p.2.ncol).length
      v.cols start (start + p.2.ncol) = Spec.broadcast b p.2) := by
  have hlen : ∀ l : List (Name × Arr2 α), (l.flatMap fun p => Spec.labels p.1 p.2.ncol).length = (l.map fun p => p.2.ncol).sum := by
    intro l
    rw [List.length_flatMap]
    simp only [labels_eq, expandLabel_length]
  have hsum : ∀ b (l : List (Name × Arr2 α)),
      ((l.map fun p => expandTo b p.2).map (·.ncol)).sum = (l.map fun p => p.2.ncol).sum := by
    intro b l
    rw [List.map_map]
    congr 1
    apply List.map_congr_left
    intro p _
    exact expandTo_ncol b p.2
  refine ⟨?_, ?_, ?_, ?_, ?_⟩
  · unfold Container.allNames Container.allFields
    have gen : ∀ fs : List (Name × Option (Arr2 α)), (∀ p ∈ fs, p ∈ c.fields) →
        c.expandNames (fs.map (·.1)) = .ok ((Spec.held ⟨fs⟩).flatMap fun p => Spec.labels p.1 p.2.ncol) := by
      intro fs
      induction fs with
      | nil => intro _; rfl
      | cons p fs ih =>
        intro h
        obtain ⟨k, f⟩ := p
        have ih' := ih fun q hq => h q (by simp [hq])
        rw [List.map_cons, Container.expandNames, assoc_of_mem hc.1 (h (k, f) (by simp))]
        cases f with
        | none => exact ih'
        | some a =>
          simp only [ih', Except.map, held_cons_some, List.flatMap_cons, labels_eq]
    exact gen c.fields fun p hp => hp
  · rw [hlen, len_eq hc.1]
  · have hnd : ((Spec.held c).map (·.1)).Nodup := by
      have hsub : List.Sublist ((Spec.held c).map (·.1)) (c.fields.map (·.1)) := by
        have : ∀ fs : List (Name × Option (Arr2 α)), List.Sublist ((Spec.held ⟨fs⟩).map (·.1)) (fs.map (·.1)) := by
          intro fs
          induction fs with
          | nil => exact List.Sublist.slnil
          | cons p fs ih =>
            obtain ⟨k, f⟩ := p
            cases f with
            | none => exact .cons _ ih
            | some a => exact .cons_cons _ ih
        exact this c.fields
      exact hsub.nodup hc.1
    have hplain : ∀ p ∈ Spec.held c, '[' ∉ p.1 ∧ p.1 = p.1 := by
      intro p hp
      unfold Spec.held at hp
      rw [List.mem_filterMap] at hp
      obtain ⟨⟨k, f⟩, h1, h2⟩ := hp
      cases f with
      | none => simp at h2
      | some a =>
        simp at h2
        subst h2
        exact ⟨hc.2 _ _ h1, rfl⟩
    revert hnd hplain
    generalize Spec.held c = l
    intro hnd hplain
    induction l with
    | nil => simp
    | cons p l ih =>
      simp only [List.map_cons, List.nodup_cons] at hnd
      rw [List.flatMap_cons, List.nodup_append]
      refine ⟨by rw [labels_eq]; exact expandLabel_nodup _ _, ih hnd.2 fun q hq => hplain q (by simp [hq]), ?_⟩
      rintro x hx y hy rfl
      rw [List.mem_flatMap] at hy
      obtain ⟨q, hq, hy⟩ := hy
      rw [labels_eq] at hx hy
      have := label_name_inj (p := [p.1]) (q := [q.1]) (by simp) (by simp)
        (by intro s hs; simp at hs; subst hs; exact (hplain p (by simp)).1)
        (by intro s hs; simp at hs; subst hs; exact (hplain q (by simp [hq])).1) hx hy
      apply hnd.1
      have e : p.1 = q.1 := this
      rw [e]
      exact List.mem_map_of_mem (f := (·.1)) hq
  · intro v hv
    obtain ⟨b, hb, h⟩ := toNumpy_ok hv
    rw [hcat_ncol h, hsum, len_eq hc.1]
  · intro v b l₁ p l₂ hv hb he
    rw [toNumpy_eq hb, he, List.map_append, List.map_cons] at hv
    have := Arr2.block_hcat hv
    rw [hsum, expandTo_ncol] at this
    simp only
    rw [hlen, this, expandTo_eq_broadcast (batchLoop_ge hb)]

example : Demo.box.allNames = .ok [['s'], ['i', '[', '0', ']'], ['i', '[', '1', ']']] ∧ Demo.box.len = 3 := by
  decide

/-! ## C16 -/

/-- C16 fails: a vector that is too long and one that is too short are both taken without any error; the first loses its
last number, the second leaves the container one number shorter. -/
theorem C16_wrong_widths_accepted :
    ∃ c : Container Int, c.WF ∧ c.len = 3 ∧
      (c.fromNumpy (.d1 [1, 2, 3, 4])).toNumpy = .ok (.ofRow [1, 2, 3]) ∧
      (c.fromNumpy (.d1 [1, 2])).toNumpy = .ok (.ofRow [1, 2]) ∧ (c.fromNumpy (.d1 [1, 2])).len = 2 :=
  ⟨Demo.box, Demo.box_wf, by decide, by decide, by decide, by decide⟩

theorem slices_ncol_sum (v : Arr2 α) (ss : List Nat) : ∀ pos, pos ≤ v.ncol →
    ((v.slices pos ss).map (·.ncol)).sum = min ss.sum (v.ncol - pos) := by
  induction ss with
  | nil => intro pos _; simp [Arr2.slices]
  | cons s ss ih =>
    intro pos hp
    simp only [Arr2.slices, List.map_cons, List.sum_cons]
    by_cases h : pos + s ≤ v.ncol
    · rw [ih (pos + s) h]
      simp only [Arr2.cols]
      omega
    · have hz : ∀ ss pos', v.ncol ≤ pos' → ((v.slices pos' ss).map (·.ncol)).sum = 0 := by
        intro ss
        induction ss with
        | nil => intro _ _; rfl
        | cons t ss ih =>
          intro pos' hp'
          simp only [Arr2.slices, List.map_cons, List.sum_cons, Arr2.cols]
          rw [ih (pos' + t) (by omega)]
          omega
      rw [hz ss (pos + s) (by omega)]
      simp only [Arr2.cols]
      omega

/-- C16, what happens instead of a rejection: surplus columns are dropped, and with missing columns the container's length
becomes the number of columns given – so a later `len` tells a short vector, but nothing tells a long one.  Missing: the
rejection itself. -/
theorem C16_wrong_width_effect_partial (c : Container α) (hc : c.WF) (hne : Spec.held c ≠ []) (v : Vals α) :
    (c.fromNumpy v).len = min c.len v.to2d.ncol ∧
    (c.len ≤ v.to2d.ncol → (c.fromNumpy v).toNumpy = .ok (v.to2d.cols 0 c.len)) := by
  refine ⟨?_, toNumpy_fromNumpy hc.1 hne⟩
  have hn' : ((c.fromNumpy v).fields.map (·.1)).Nodup := by
    unfold Container.fromNumpy
    rw [fillFrom_keys]; exact hc.1
  rw [len_eq hn', len_eq hc.1]
  have e : (Spec.held (c.fromNumpy v)).map (fun p => p.2.ncol) =
      ((Spec.held (c.fromNumpy v)).map (·.2)).map (·.ncol) := by rw [List.map_map]; rfl
  rw [e, Container.fromNumpy, held_fill, slices_ncol_sum _ _ 0 (by omega)]
  rfl

end Verif
