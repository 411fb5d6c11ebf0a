import Verif.Props.ExpandRefused
import Verif.Props.Dimensions
/-!
# C113: marking and setting names that address nothing
-/

namespace Verif
variable {α : Type}

/-- A path that is lost before its last segment. -/
def Spec.LostBefore (m : HV α) (segs : List Name) (e : Err) : Prop :=
  ∃ p d k s rest, segs = p ++ k :: s :: rest ∧ Spec.LeadsTo m p d ∧ Spec.CutOff d.fields k (s :: rest) e

theorem alter_error_iff (last mid : Name → HV α → HV α) (e : Err) (segs : List Name) (m : HV α) :
    alterChain last mid m segs = .error e ↔ chain m segs = .error e := by
  have step : ∀ {β γ : Type} (f : β → HV α) (g : γ → List (Name × HV α)) (x : Except Err β) (y : Except Err γ),
      (x = .error e ↔ y = .error e) → (x.map f = .error e ↔ y.map g = .error e) := by
    intro β γ f g x y h
    have h1 : x.map f = .error e ↔ x = .error e := by cases x <;> simp [Except.map]
    have h2 : y.map g = .error e ↔ y = .error e := by cases y <;> simp [Except.map]
    rw [h1, h2, h]
  have err : ∀ {β γ : Type} (x : Err), ((.error x : Except Err β) = .error e ↔ (.error x : Except Err γ) = .error e) := by
    intro β γ x; simp
  match segs with
  | [] => exact err _
  | [n] => simp [alterChain, chain]
  | n :: s :: rest =>
    rw [alterChain, chain]
    cases m.getField n with
    | none => exact err _
    | some f =>
      cases f with
      | arr a => exact err _
      | lst ms => exact err _
      | other => exact err _
      | sub c => exact step _ _ _ _ (alter_error_iff last mid e (s :: rest) c)
      | tup ms =>
        simp only
        split
        · exact err _
        · cases Py.intOf s with
          | none => exact err _
          | some z =>
            simp only
            cases Py.seqIndex ms.length z with
            | none => exact err _
            | some j =>
              simp only
              cases ms[j]? with
              | none => exact err _
              | some c => exact step _ _ _ _ (alter_error_iff last mid e rest c)
      | dict ms =>
        simp only
        split
        · exact err _
        · cases assoc s ms with
          | none => exact err _
          | some c => exact step _ _ _ _ (alter_error_iff last mid e rest c)
termination_by segs.length

theorem alter_ok {last mid : Name → HV α → HV α} {segs : List Name} {m : HV α} {ch : List (Name × HV α)} (h : chain m segs = .ok ch) :
    ∃ m', alterChain last mid m segs = .ok m' := by
  cases ha : alterChain last mid m segs with
  | ok m' => exact ⟨m', rfl⟩
  | error e => rw [alter_error_iff, h] at ha; cases ha

/-! ## `set_value` -/

/-- C113 for `set_value`: it raises exactly if the name leads to no value (with the exception for it), or to something else than a
parameter (AttributeError), or to a parameter of width 1 with a value that is no batch of scalars (ValueError). -/
theorem C113_set_value_raises (m : HV α) (hw : m.WF) (n : Name) (v : NDArray α) (e : Err) :
    m.setValue n v = .error e ↔
      Spec.Lost m (Py.splitDots n) e ∨
      (e = .attributeError ∧ ∃ f, Spec.ToValue m (Py.splitDots n) f ∧ Spec.NoArray f) ∨
      (e = .valueError ∧ 1 < (v.shape.filter (· ≠ 1)).length ∧ ∃ a, Spec.ToArray m (Py.splitDots n) a ∧ a.ncol = 1) := by
  unfold HV.setValue
  cases hl : m.lookup n with
  | error e' =>
    have hno : ∀ f, ¬ Spec.ToValue m (Py.splitDots n) f := by intro f; rw [← lookup_ok_iff hw, hl]; simp
    have hno' : ∀ a, ¬ Spec.ToArray m (Py.splitDots n) a := fun a => hno _
    rw [← lookup_error_iff hw, hl]
    simp only [hno, hno', false_and, exists_false, and_false, or_false]
    simp [bind, Except.bind]
  | ok f =>
    have hlost : ¬ Spec.Lost m (Py.splitDots n) e := by rw [← lookup_error_iff hw, hl]; simp
    have huniq : ∀ g, Spec.ToValue m (Py.splitDots n) g ↔ f = g := by intro g; rw [← lookup_ok_iff hw, hl]; simp
    have harr : ∀ a, Spec.ToArray m (Py.splitDots n) a ↔ f = .arr a := fun a => huniq _
    simp only [hlost, huniq, harr, false_or]
    have other : Spec.NoArray f → ((.error .attributeError : Except Err (HV α)) = .error e ↔
        (e = .attributeError ∧ ∃ g, f = g ∧ Spec.NoArray g) ∨
        (e = .valueError ∧ 1 < (v.shape.filter (· ≠ 1)).length ∧ ∃ a, f = .arr a ∧ a.ncol = 1)) := by
      intro hf
      simp only [Except.error.injEq]
      constructor
      · rintro rfl; exact .inl ⟨rfl, f, rfl, hf⟩
      · rintro (⟨h, _⟩ | ⟨_, _, a, h, _⟩)
        · exact h.symm
        · exact absurd h (hf a)
    cases f with
    | sub _ => exact other (by intro a; simp)
    | tup _ => exact other (by intro a; simp)
    | lst _ => exact other (by intro a; simp)
    | dict _ => exact other (by intro a; simp)
    | other => exact other (by intro a; simp)
    | arr cur =>
      obtain ⟨ch, hch⟩ : ∃ ch, chain m (Py.splitDots n) = .ok ch := by
        cases hc : chain m (Py.splitDots n) with
        | ok ch => exact ⟨ch, rfl⟩
        | error e => unfold HV.lookup at hl; rw [hc] at hl; cases hl
      have hset : ∀ y, ∃ m', m.setAttr n (fieldOfArray y) = .ok m' := fun y => alter_ok hch
      have hno : ¬ ∃ g, Field.arr cur = g ∧ Spec.NoArray g := by rintro ⟨_, rfl, h⟩; exact h _ rfl
      simp only [hno, and_false, false_or, Field.arr.injEq, exists_eq_left']
      show (enforceDimensions v (if cur.ncol = 1 then 0 else 1) >>= fun y => m.setAttr n (fieldOfArray y)) = _ ↔ _
      by_cases hc : cur.ncol = 1
      · simp only [hc, if_true, and_true]
        by_cases hv : 1 < (v.shape.filter (· ≠ 1)).length
        · rw [(C17_scalar v).1.2 hv]
          simp only [bind, Except.bind, Except.error.injEq]
          exact ⟨fun h => ⟨h.symm, hv⟩, fun h => h.1.symm⟩
        · obtain ⟨y, h1, _⟩ := (C17_scalar v).2 (by omega)
          obtain ⟨m', hm'⟩ := hset y
          rw [h1]
          simp only [bind, Except.bind, hm', reduceCtorEq, false_iff]
          exact fun h => hv h.2
      · simp only [hc, if_false, and_false, iff_false]
        obtain ⟨y, h1, _⟩ := C17_list v
        obtain ⟨m', hm'⟩ := hset y
        rw [h1]
        simp only [bind, Except.bind, hm', reduceCtorEq, not_false_eq_true]

/-! ## `mark_updatable` -/

/-- Marking anything below an object that can be reached. -/
theorem mark_leadsTo {m d : HV α} {p : List Name} (h : Spec.LeadsTo m p d) (k : Name) : m.WF →
    ∃ m', alterChain HV.addUpdatable HV.addUpdatable m (p ++ [k]) = .ok m' ∧ m'.WF ∧ iterP false m' = iterP false m ∧ MarkLE m m' := by
  induction h with
  | @here m =>
    intro hw
    obtain ⟨u, fs⟩ := m
    refine ⟨(HV.mk u fs).addUpdatable k, rfl, WF_addUpdatable hw, ?_, ?_⟩
    · simp only [HV.addUpdatable, HV.fields, iterP]; exact iterPFields_upd _ _ _
    · intro q b hm
      have hu : ∀ j, j ∈ u → j ∈ ((HV.mk u fs).addUpdatable k).updatable := fun j hj => mem_addUpdatable.2 (.inr hj)
      cases hm with
      | arr hj h => exact .arr (hu _ hj) h
      | sub hj h hm => exact .sub (hu _ hj) h hm
      | tup hj h hi hm => exact .tup (hu _ hj) h hi hm
      | lst hj h hi hm => exact .lst (hu _ hj) h hi hm
      | dict hj h hi hm => exact .dict (hu _ hj) h hi hm
  | @sub u fs n c p d h hp ih =>
    intro hw
    have hw' := hw
    rw [WF_iff] at hw'
    obtain ⟨hn, _, hf⟩ := hw'
    obtain ⟨c', h1, h2, h3, h5⟩ := ih (hf _ _ h)
    have hg : (HV.mk u fs).getField n = some (.sub c) := getField_of_mem hn h
    refine ⟨((HV.mk u fs).setField n (.sub c')).addUpdatable n, ?_, WF_addUpdatable (WF_setField hw h2), ?_, ?_⟩
    · obtain ⟨s, rest, hs⟩ := List.exists_cons_of_ne_nil (l := p ++ [k]) (by simp)
      rw [hs] at h1
      rw [List.cons_append, hs]
      simp only [alterChain, hg, h1]; rfl
    · simp only [HV.addUpdatable, HV.setField, HV.updatable, HV.fields, iterP]
      rw [iterPFields_false_assocSet hn h (by rw [iterPField, iterPField, h3])]
      exact iterPFields_upd _ _ _
    · exact markLE_set hn h (fun j hj => mem_addUpdatable.2 (.inr hj)) h5
  | @tup u fs n ms s c p d h hs hp ih =>
    intro hw
    have hw' := hw
    rw [WF_iff] at hw'
    obtain ⟨hn, _, hf⟩ := hw'
    obtain ⟨z, i, hz, hj, hi⟩ := member_iff.1 hs
    obtain ⟨c', h1, h2, h3, h5⟩ := ih (hf _ _ h c (List.mem_of_getElem? hi))
    have hg : (HV.mk u fs).getField n = some (.tup ms) := getField_of_mem hn h
    have hlt : i < ms.length := (List.getElem?_eq_some_iff.1 hi).1
    refine ⟨((HV.mk u fs).setField n (.tup (ms.set i c'))).addUpdatable n, ?_,
      WF_addUpdatable (WF_setField hw (WF_setTup (hf _ _ h) h2)), ?_, ?_⟩
    · rw [List.cons_append, List.cons_append]
      simp only [alterChain, hg, hz, hj, hi, h1]
      rw [if_neg (by simp)]; rfl
    · simp only [HV.addUpdatable, HV.setField, HV.updatable, HV.fields, iterP]
      rw [iterPFields_false_assocSet hn h (by rw [iterPField, iterPField, iterPSeq_false_set hi h3])]
      exact iterPFields_upd _ _ _
    · refine markLE_set hn h (fun j hj => mem_addUpdatable.2 (.inr hj)) ?_
      intro j d hj
      by_cases e : i = j
      · subst e
        rw [hi] at hj; cases hj
        exact ⟨c', by simp [hlt], h5⟩
      · exact ⟨d, by rw [List.getElem?_set_ne e]; exact hj, MarkLE.refl d⟩
  | @dict u fs n ms j c p d h hj hp ih =>
    intro hw
    have hw' := hw
    rw [WF_iff] at hw'
    obtain ⟨hn, _, hf⟩ := hw'
    obtain ⟨hdn, _, hdc⟩ := hf _ _ h
    obtain ⟨c', h1, h2, h3, h5⟩ := ih (hdc _ _ hj)
    have hg : (HV.mk u fs).getField n = some (.dict ms) := getField_of_mem hn h
    have hjj : assoc j ms = some c := assoc_of_mem hdn hj
    refine ⟨((HV.mk u fs).setField n (.dict (assocSet j c' ms))).addUpdatable n, ?_,
      WF_addUpdatable (WF_setField hw (WF_setDict (hf _ _ h) h2)), ?_, ?_⟩
    · rw [List.cons_append, List.cons_append]
      simp only [alterChain, hg, hjj, h1]
      rw [if_neg (by simp)]; rfl
    · simp only [HV.addUpdatable, HV.setField, HV.updatable, HV.fields, iterP]
      rw [iterPFields_false_assocSet hn h (by rw [iterPField, iterPField, iterPDict_false_assocSet hdn hj h3])]
      exact iterPFields_upd _ _ _
    · refine markLE_set hn h (fun j hj => mem_addUpdatable.2 (.inr hj)) ?_
      intro i d hd
      by_cases e : i = j
      · subst e
        rw [assoc_of_mem hdn hd] at hjj; cases hjj
        exact ⟨c', mem_assocSet_self hd, h5⟩
      · exact ⟨d, mem_assocSet_of_ne e hd, MarkLE.refl d⟩

/-- C113 fails for `mark_updatable`: any last segment is accepted, whether the object it is asked of has such an attribute or not, and
no parameter or value is changed by it. -/
theorem C113_mark_unknown_accepted (m : HV α) (hw : m.WF) (n : Name) (p : List Name) (d : HV α) (k : Name)
    (hn : Py.splitDots n = p ++ [k]) (hp : Spec.LeadsTo m p d) :
    ∃ m', m.markUpdatable n = .ok m' ∧ iterParams false m' = iterParams false m := by
  obtain ⟨m', h1, _, h3, _⟩ := mark_leadsTo hp k hw
  exact ⟨m', by rw [HV.markUpdatable, hn, h1], by rw [iterParams_eq, h3, ← iterParams_eq]⟩

/-- C113.  In particular a misspelt parameter of the object itself is accepted, and the same parameters are updatable as before. -/
theorem C113_misspelt_without_effect (m : HV α) (n : Name) (hn : '.' ∉ n) (hk : ∀ f, (n, f) ∉ m.fields) :
    ∃ m', m.markUpdatable n = .ok m' ∧ iterParams true m' = iterParams true m ∧ iterParams false m' = iterParams false m := by
  obtain ⟨u, fs⟩ := m
  refine ⟨(HV.mk u fs).addUpdatable n, by rw [HV.markUpdatable, Py.splitDots_noDot hn]; rfl, ?_, ?_⟩
  · show iterFields true _ fs = iterFields true u fs
    replace hk : ∀ f, (n, f) ∉ fs := hk
    clear hn
    generalize hu : (if n ∈ HV.updatable (.mk u fs) then HV.updatable (.mk u fs) else HV.updatable (.mk u fs) ++ [n]) = u'
    have hu' : ∀ j, j ≠ n → (u'.contains j = u.contains j) := by
      intro j hj
      rw [← hu]
      split
      · rfl
      · simp [HV.updatable, hj]
    clear hu
    induction fs with
    | nil => rfl
    | cons q fs ih =>
      obtain ⟨j, f⟩ := q
      have hj : j ≠ n := by rintro rfl; exact hk f (by simp)
      rw [iterFields, iterFields, hu' j hj, ih fun f hf => hk f (by simp [hf])]
  · show iterFields false _ fs = iterFields false u fs
    clear hn hk
    generalize (if n ∈ HV.updatable (.mk u fs) then HV.updatable (.mk u fs) else HV.updatable (.mk u fs) ++ [n]) = u'
    induction fs with
    | nil => rfl
    | cons q fs ih =>
      obtain ⟨j, f⟩ := q
      rw [iterFields, iterFields, ih]; rfl

theorem chain_error_iff {m : HV α} (hw : m.WF) {segs : List Name} (hne : segs ≠ []) (e : Err) :
    chain m segs = .error e ↔ Spec.LostBefore m segs e := by
  constructor
  · intro h
    have hl : lookupSegs m segs = .error e := by unfold lookupSegs; rw [h]; rfl
    rcases lookup_cases hw hne with ⟨f, h1, _⟩ | ⟨e', h1, p, d, k, rest, h2, h3, h4⟩
    · rw [hl] at h1; cases h1
    · rw [hl] at h1; cases h1
      cases rest with
      | cons s rest => exact ⟨p, d, k, s, rest, h2, h3, h4⟩
      | nil =>
        exfalso
        obtain ⟨m', hm', _⟩ := mark_leadsTo h3 k hw
        rw [← h2, (alter_error_iff _ _ e segs m).2 h] at hm'; cases hm'
  · rintro ⟨p, d, k, s, rest, rfl, h3, h4⟩
    have hl := lookup_lost hw ⟨p, d, k, s :: rest, rfl, h3, h4⟩
    obtain ⟨hd, he⟩ := lookup_leadsTo h3 hw
    unfold lookupSegs at hl
    cases hc : chain m (p ++ k :: s :: rest) with
    | error e' => rw [hc] at hl; cases hl; rfl
    | ok ch =>
      exfalso
      -- the chain would have to pass the place where the path is cut off
      have : ∀ {m d : HV α} {p : List Name}, Spec.LeadsTo m p d → m.WF → ∀ {ch}, chain m (p ++ k :: s :: rest) = .ok ch →
          ∃ ch', chain d (k :: s :: rest) = .ok ch' := by
        intro m d p h
        induction h with
        | here => intro _ ch h; exact ⟨ch, h⟩
        | @sub u fs n c p d hk hc ih =>
          intro hw ch h
          cases hw with
          | mk hn _ hs _ _ _ _ _ =>
          obtain ⟨s', rest', hr⟩ := List.exists_cons_of_ne_nil (l := p ++ k :: s :: rest) (by simp)
          rw [List.cons_append, hr, chain, getField_of_mem hn hk, ← hr] at h
          simp only at h
          cases hx : chain c (p ++ k :: s :: rest) with
          | error e => rw [hx] at h; cases h
          | ok ch' => exact ih (hs _ _ hk) hx
        | @tup u fs n ms t c p d hk hm hc ih =>
          intro hw ch h
          cases hw with
          | mk hn _ _ ht _ _ _ _ =>
          obtain ⟨z, j, hz, hj, hmj⟩ := member_iff.1 hm
          rw [List.cons_append, List.cons_append, chain, getField_of_mem hn hk] at h
          simp only [hz, hj, hmj] at h
          rw [if_neg (by simp)] at h
          cases hx : chain c (p ++ k :: s :: rest) with
          | error e => rw [hx] at h; cases h
          | ok ch' => exact ih (ht _ _ hk _ (List.mem_of_getElem? hmj)) hx
        | @dict u fs n ms t c p d hk hm hc ih =>
          intro hw ch h
          cases hw with
          | mk hn _ _ _ hd _ hdw _ =>
          rw [List.cons_append, List.cons_append, chain, getField_of_mem hn hk] at h
          simp only [assoc_of_mem (hd _ _ hk) hm] at h
          rw [if_neg (by simp)] at h
          cases hx : chain c (p ++ k :: s :: rest) with
          | error e => rw [hx] at h; cases h
          | ok ch' => exact ih (hdw _ _ hk _ _ hm) hx
      obtain ⟨ch', hch'⟩ := this h3 hw hc
      obtain ⟨u, fs⟩ := d
      cases hd with
      | mk hn _ _ _ hdn _ _ _ =>
      cases h4 with
      | missing h => rw [chain, show (HV.mk u fs).getField k = none from assoc_none_iff.2 h] at hch'; cases hch'
      | behindArray h => rw [chain, getField_of_mem hn h] at hch'; cases hch'
      | behindOther h => rw [chain, getField_of_mem hn h] at hch'; cases hch'
      | tupleMember h => rw [chain, getField_of_mem hn h] at hch'; cases hch'
      | dictMember h => rw [chain, getField_of_mem hn h] at hch'; cases hch'
      | noInteger h hz => rw [chain, getField_of_mem hn h] at hch'; simp [hz] at hch'
      | outside h hz ho => rw [chain, getField_of_mem hn h] at hch'; simp [hz, seqIndex_none_iff.2 ho] at hch'
      | noKey h hj => rw [chain, getField_of_mem hn h] at hch'; simp [assoc_none_iff.2 hj] at hch'

/-- C113 for `mark_updatable`: it raises exactly if the name is lost before its last segment.  Missing: that it raises for last segments
that are no attributes, which it does not. -/
theorem C113_mark_raises_partial (m : HV α) (hw : m.WF) (n : Name) (e : Err) :
    m.markUpdatable n = .error e ↔ Spec.LostBefore m (Py.splitDots n) e := by
  rw [HV.markUpdatable, alter_error_iff, chain_error_iff hw (Py.splitDots_ne_nil n)]

/-! ### Examples -/

/-- `t.-1.x` can be marked though the elements of `t` have no `x`. -/
example : ∃ m', Demo.obj.markUpdatable "t.-1.x".toList = .ok m' ∧ iterParams false m' = iterParams false Demo.obj :=
  C113_mark_unknown_accepted Demo.obj Demo.obj_wf _ [['t'], ['-', '1']] (Demo.rc 7 8) ['x'] (by decide)
    (.tup (ms := [Demo.rc 5 6, Demo.rc 7 8]) (by simp) ⟨-1, 1, by decide, rfl, .inr (by decide)⟩ .here)

/-- So can `z`, without effect. -/
example : ∃ m', Demo.obj.markUpdatable ['z'] = .ok m' ∧ iterParams true m' = iterParams true Demo.obj ∧
    iterParams false m' = iterParams false Demo.obj :=
  C113_misspelt_without_effect Demo.obj ['z'] (by decide) (by simp [Demo.obj, HV.fields])

/-- `t.2.r` cannot be marked nor set: IndexError. -/
example : Demo.obj.markUpdatable "t.2.r".toList = .error .indexError ∧
    ∀ v, Demo.obj.setValue "t.2.r".toList v = .error .indexError := by
  have h : Spec.CutOff Demo.obj.fields ['t'] [['2'], ['r']] .indexError :=
    .outside (ms := [Demo.rc 5 6, Demo.rc 7 8]) (z := 2) (by simp [Demo.obj, HV.fields]) (by decide) (.inr (by decide))
  exact ⟨(C113_mark_raises_partial Demo.obj Demo.obj_wf _ _).2 ⟨[], _, _, _, _, by decide, .here, h⟩,
    fun v => (C113_set_value_raises Demo.obj Demo.obj_wf _ v _).2 (.inl ⟨[], _, _, _, by decide, .here, h⟩)⟩

end Verif
