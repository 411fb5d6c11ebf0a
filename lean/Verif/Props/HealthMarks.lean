import Verif.Props.HealthNames
/-!
# Which markings there are below an object (C09)
-/

namespace Verif
variable {α : Type}

/-- `IsMarked` without the first attribute: every attribute on the way is marked, the one of the object itself excepted. -/
inductive Spec.IsMarkedInside : HV α → List Name → Arr2 α → Prop where
  | arr {u fs k a} : (k, Field.arr a) ∈ fs → IsMarkedInside (.mk u fs) [k] a
  | sub {u fs k c p a} : (k, Field.sub c) ∈ fs → IsMarked c p a → IsMarkedInside (.mk u fs) (k :: p) a
  | tup {u fs k ms i c p a} : (k, Field.tup ms) ∈ fs → ms[i]? = some c → IsMarked c p a → IsMarkedInside (.mk u fs) (k :: Py.natStr i :: p) a
  | lst {u fs k ms i c p a} : (k, Field.lst ms) ∈ fs → ms[i]? = some c → IsMarked c p a → IsMarkedInside (.mk u fs) (k :: Py.natStr i :: p) a
  | dict {u fs k ms j c p a} : (k, Field.dict ms) ∈ fs → (j, c) ∈ ms → IsMarked c p a → IsMarkedInside (.mk u fs) (k :: j :: p) a

open Spec

/-! ## Proofs -/

/-- The object that the path leads to, without its last step, has that step marked. -/
inductive IsMark : HV α → List Name → Prop where
  | here {u fs k} : k ∈ u → IsMark (.mk u fs) [k]
  | sub {u fs k c p} : (k, Field.sub c) ∈ fs → IsMark c p → IsMark (.mk u fs) (k :: p)
  | tup {u fs k ms i c p} : (k, Field.tup ms) ∈ fs → ms[i]? = some c → IsMark c p → IsMark (.mk u fs) (k :: Py.natStr i :: p)
  | lst {u fs k ms i c p} : (k, Field.lst ms) ∈ fs → ms[i]? = some c → IsMark c p → IsMark (.mk u fs) (k :: Py.natStr i :: p)
  | dict {u fs k ms j c p} : (k, Field.dict ms) ∈ fs → (j, c) ∈ ms → IsMark c p → IsMark (.mk u fs) (k :: j :: p)

theorem IsMarked.isMark {m : HV α} {p : List Name} {a : Arr2 α} (h : IsMarked m p a) : IsMark m p := by
  induction h with
  | arr h _ => exact .here h
  | sub _ h _ ih => exact .sub h ih
  | tup _ h hi _ ih => exact .tup h hi ih
  | lst _ h hi _ ih => exact .lst h hi ih
  | dict _ h hi _ ih => exact .dict h hi ih

theorem assocSet_inv {β : Type} {k j : Name} {v w : β} {l : List (Name × β)} (h : (j, w) ∈ assocSet k v l) : (j = k ∧ w = v) ∨ (j, w) ∈ l := by
  induction l with
  | nil => cases h
  | cons p rest ih =>
    obtain ⟨k', v'⟩ := p
    unfold assocSet at h
    split at h
    · next hk =>
      rcases List.mem_cons.1 h with h | h
      · cases h
        exact .inl ⟨hk, rfl⟩
      · exact .inr (List.mem_cons_of_mem _ h)
    · rcases List.mem_cons.1 h with h | h
      · cases h
        exact .inr List.mem_cons_self
      · exact (ih h).imp_right (List.mem_cons_of_mem _)

theorem fixAllSeq_eq (ms : List (HV α)) : fixAllSeq ms = ms.map (fixAll true) := by
  induction ms with
  | nil => rfl
  | cons m ms ih => rw [fixAllSeq, ih, List.map_cons]

theorem fixAllDict_eq (ms : List (Name × HV α)) : fixAllDict ms = ms.map fun p => (p.1, fixAll true p.2) := by
  induction ms with
  | nil => rfl
  | cons m ms ih => rw [fixAllDict, ih, List.map_cons]

theorem fixAllFields_eq (fs : List (Name × Field α)) : fixAllFields fs = fs.map fun p => (p.1, fixAllField p.2) := by
  induction fs with
  | nil => rfl
  | cons m ms ih => rw [fixAllFields, ih, List.map_cons]

theorem mem_fixAllFields {fs : List (Name × Field α)} {k : Name} {f : Field α} :
    (k, f) ∈ fixAllFields fs ↔ ∃ g, (k, g) ∈ fs ∧ fixAllField g = f := by
  rw [fixAllFields_eq, List.mem_map]
  constructor
  · rintro ⟨⟨j, g⟩, h, he⟩
    cases he
    exact ⟨g, h, rfl⟩
  · rintro ⟨g, h, rfl⟩
    exact ⟨(k, g), h, rfl⟩

/-- Nothing is marked after marking everything as fixed. -/
theorem not_isMark_fixAll (m : HV α) : ∀ q, ¬ IsMark (fixAll true m) q := by
  induction m using HV.induct with
  | h u fs ih =>
    intro q hq
    rw [fixAll, if_pos rfl] at hq
    cases hq with
    | here h => cases h
    | sub h hm =>
      obtain ⟨g, hg, he⟩ := mem_fixAllFields.1 h
      cases g <;> cases he
      exact ih _ (.inl ⟨_, hg⟩) _ hm
    | tup h hi hm =>
      obtain ⟨g, hg, he⟩ := mem_fixAllFields.1 h
      cases g with
      | tup ms =>
        rw [fixAllField] at he
        cases he
        rw [fixAllSeq_eq, List.getElem?_map, Option.map_eq_some_iff] at hi
        obtain ⟨c, hc, rfl⟩ := hi
        exact ih _ (.inr (.inl ⟨_, _, hg, List.mem_of_getElem? hc⟩)) _ hm
      | _ => cases he
    | lst h hi hm =>
      obtain ⟨g, hg, he⟩ := mem_fixAllFields.1 h
      cases g with
      | lst ms =>
        rw [fixAllField] at he
        cases he
        rw [fixAllSeq_eq, List.getElem?_map, Option.map_eq_some_iff] at hi
        obtain ⟨c, hc, rfl⟩ := hi
        exact ih _ (.inr (.inr (.inl ⟨_, _, hg, List.mem_of_getElem? hc⟩))) _ hm
      | _ => cases he
    | dict h hj hm =>
      obtain ⟨g, hg, he⟩ := mem_fixAllFields.1 h
      cases g with
      | dict ms =>
        rw [fixAllField] at he
        cases he
        rw [fixAllDict_eq, List.mem_map] at hj
        obtain ⟨⟨j, c⟩, hc, he⟩ := hj
        cases he
        exact ih _ (.inr (.inr (.inr ⟨_, _, _, hg, hc⟩))) _ hm
      | _ => cases he

theorem WF_fixAll (m : HV α) : m.WF → (fixAll true m).WF := by
  induction m using HV.induct with
  | h u fs ih =>
    intro hw
    rw [fixAll, if_pos rfl]
    cases hw with
    | mk h1 h2 h3 h4 h5 h6 h7 h8 =>
    refine .mk ?_ ?_ ?_ ?_ ?_ ?_ ?_ ?_
    · rw [fixAllFields_eq, List.map_map]
      exact h1
    · intro k f h
      obtain ⟨g, hg, -⟩ := mem_fixAllFields.1 h
      exact h2 k g hg
    · intro k c h
      obtain ⟨g, hg, he⟩ := mem_fixAllFields.1 h
      cases g <;> cases he
      exact ih _ (.inl ⟨_, hg⟩) (h3 _ _ hg)
    · intro k ms h c hc
      obtain ⟨g, hg, he⟩ := mem_fixAllFields.1 h
      cases g with
      | tup ms =>
        rw [fixAllField] at he
        cases he
        rw [fixAllSeq_eq, List.mem_map] at hc
        obtain ⟨c, hc, rfl⟩ := hc
        exact ih _ (.inr (.inl ⟨_, _, hg, hc⟩)) (h4 _ _ hg _ hc)
      | _ => cases he
    · intro k ms h
      obtain ⟨g, hg, he⟩ := mem_fixAllFields.1 h
      cases g with
      | dict ms =>
        rw [fixAllField] at he
        cases he
        rw [fixAllDict_eq, List.map_map]
        exact h5 _ _ hg
      | _ => cases he
    · intro k ms h j c hc
      obtain ⟨g, hg, he⟩ := mem_fixAllFields.1 h
      cases g with
      | dict ms =>
        rw [fixAllField] at he
        cases he
        rw [fixAllDict_eq, List.mem_map] at hc
        obtain ⟨⟨j, c⟩, hc, he⟩ := hc
        cases he
        exact h6 _ _ hg _ _ hc
      | _ => cases he
    · intro k ms h j c hc
      obtain ⟨g, hg, he⟩ := mem_fixAllFields.1 h
      cases g with
      | dict ms =>
        rw [fixAllField] at he
        cases he
        rw [fixAllDict_eq, List.mem_map] at hc
        obtain ⟨⟨j, c⟩, hc, he⟩ := hc
        cases he
        exact ih _ (.inr (.inr (.inr ⟨_, _, _, hg, hc⟩))) (h7 _ _ hg _ _ hc)
      | _ => cases he
    · intro k ms h
      obtain ⟨g, hg, he⟩ := mem_fixAllFields.1 h
      cases g with
      | lst ms => exact h8 _ _ hg
      | _ => cases he

/-- Marking a path marks it and its beginnings, nothing else. -/
theorem isMark_of_mark {m : HV α} {p : List Name} {a : Arr2 α} (h : IsParam m p a) (hw : m.WF) : ∀ {m' : HV α},
    alterChain HV.addUpdatable HV.addUpdatable m p = .ok m' → ∀ q, IsMark m' q → IsMark m q ∨ q <+: p := by
  induction h with
  | @arr u fs k a h =>
    intro m' hm' q hq
    cases Except.ok.inj hm'
    cases hq with
    | here hj =>
      rcases (mem_addUpdatable (m := .mk u fs)).1 hj with rfl | hj
      · exact .inr List.prefix_rfl
      · exact .inl (.here hj)
    | sub hj hm => exact .inl (.sub hj hm)
    | tup hj hi hm => exact .inl (.tup hj hi hm)
    | lst hj hi hm => exact .inl (.lst hj hi hm)
    | dict hj hi hm => exact .inl (.dict hj hi hm)
  | @sub u fs k c p a h hp ih =>
    intro m' hm' q hq
    have hw' := hw
    rw [WF_iff] at hw'
    obtain ⟨hn, _, hf⟩ := hw'
    obtain ⟨c', h1, -⟩ := mark_of_isParam hp (hf _ _ h)
    have hg : (HV.mk u fs).getField k = some (.sub c) := by simp [HV.getField, HV.fields, assoc_of_mem hn h]
    have ih := ih (hf _ _ h) h1
    obtain ⟨s, rest, rfl⟩ : ∃ s rest, p = s :: rest := by
      cases p with
      | nil => exact absurd rfl hp.ne_nil
      | cons s rest => exact ⟨s, rest, rfl⟩
    have e : alterChain HV.addUpdatable HV.addUpdatable (.mk u fs) (k :: s :: rest) = .ok (((HV.mk u fs).setField k (.sub c')).addUpdatable k) := by
      simp only [alterChain, hg, h1]; rfl
    cases e.symm.trans hm'
    cases hq with
    | here hj =>
      rcases (mem_addUpdatable (m := (HV.mk u fs).setField k (.sub c'))).1 hj with rfl | hj
      · exact .inr (by simp)
      · exact .inl (.here hj)
    | sub hj hm =>
      rcases assocSet_inv hj with ⟨rfl, he⟩ | hj
      · cases he
        rcases ih _ hm with h' | h'
        · exact .inl (.sub h h')
        · exact .inr ((List.prefix_cons_inj _).2 h')
      · exact .inl (.sub hj hm)
    | tup hj hi hm =>
      rcases assocSet_inv hj with ⟨rfl, he⟩ | hj
      · cases he
      · exact .inl (.tup hj hi hm)
    | lst hj hi hm =>
      rcases assocSet_inv hj with ⟨rfl, he⟩ | hj
      · cases he
      · exact .inl (.lst hj hi hm)
    | dict hj hi hm =>
      rcases assocSet_inv hj with ⟨rfl, he⟩ | hj
      · cases he
      · exact .inl (.dict hj hi hm)
  | @tup u fs k ms i c p a h hi hp ih =>
    intro m' hm' q hq
    have hw' := hw
    rw [WF_iff] at hw'
    obtain ⟨hn, _, hf⟩ := hw'
    have hwc := hf _ _ h c (List.mem_of_getElem? hi)
    obtain ⟨c', h1, -⟩ := mark_of_isParam hp hwc
    have hg : (HV.mk u fs).getField k = some (.tup ms) := by simp [HV.getField, HV.fields, assoc_of_mem hn h]
    have hlt : i < ms.length := (List.getElem?_eq_some_iff.1 hi).1
    have ih := ih hwc h1
    have e : alterChain HV.addUpdatable HV.addUpdatable (.mk u fs) (k :: Py.natStr i :: p) =
        .ok (((HV.mk u fs).setField k (.tup (ms.set i c'))).addUpdatable k) := by
      simp only [alterChain, hg, hp.ne_nil, if_false, Py.intOf_natStr, Py.seqIndex_nat hlt, hi, h1]; rfl
    cases e.symm.trans hm'
    cases hq with
    | here hj =>
      rcases (mem_addUpdatable (m := (HV.mk u fs).setField k (.tup (ms.set i c')))).1 hj with rfl | hj
      · exact .inr (by simp)
      · exact .inl (.here hj)
    | sub hj hm =>
      rcases assocSet_inv hj with ⟨rfl, he⟩ | hj
      · cases he
      · exact .inl (.sub hj hm)
    | @tup _ _ _ ms' i' d _ hj hi' hm =>
      rcases assocSet_inv hj with ⟨rfl, he⟩ | hj
      · cases he
        by_cases e : i = i'
        · subst e
          rw [List.getElem?_set_self hlt] at hi'
          cases hi'
          rcases ih _ hm with h' | h'
          · exact .inl (.tup h hi h')
          · exact .inr ((List.prefix_cons_inj _).2 ((List.prefix_cons_inj _).2 h'))
        · rw [List.getElem?_set_ne e] at hi'
          exact .inl (.tup h hi' hm)
      · exact .inl (.tup hj hi' hm)
    | lst hj hi hm =>
      rcases assocSet_inv hj with ⟨rfl, he⟩ | hj
      · cases he
      · exact .inl (.lst hj hi hm)
    | dict hj hi hm =>
      rcases assocSet_inv hj with ⟨rfl, he⟩ | hj
      · cases he
      · exact .inl (.dict hj hi hm)
  | lst h _ _ _ =>
    cases hw with
    | mk _ _ _ _ _ _ _ hl => exact absurd h (hl _ _)
  | @dict u fs k ms j c p a h hj hp ih =>
    intro m' hm' q hq
    have hw' := hw
    rw [WF_iff] at hw'
    obtain ⟨hn, _, hf⟩ := hw'
    obtain ⟨hdn, _, hdc⟩ := hf _ _ h
    obtain ⟨c', h1, -⟩ := mark_of_isParam hp (hdc _ _ hj)
    have hg : (HV.mk u fs).getField k = some (.dict ms) := by simp [HV.getField, HV.fields, assoc_of_mem hn h]
    have hjj : assoc j ms = some c := assoc_of_mem hdn hj
    have ih := ih (hdc _ _ hj) h1
    have e : alterChain HV.addUpdatable HV.addUpdatable (.mk u fs) (k :: j :: p) =
        .ok (((HV.mk u fs).setField k (.dict (assocSet j c' ms))).addUpdatable k) := by
      simp only [alterChain, hg, hp.ne_nil, if_false, hjj, h1]; rfl
    cases e.symm.trans hm'
    cases hq with
    | here hi =>
      rcases (mem_addUpdatable (m := (HV.mk u fs).setField k (.dict (assocSet j c' ms)))).1 hi with rfl | hi
      · exact .inr (by simp)
      · exact .inl (.here hi)
    | sub hi hm =>
      rcases assocSet_inv hi with ⟨rfl, he⟩ | hi
      · cases he
      · exact .inl (.sub hi hm)
    | tup hi hi' hm =>
      rcases assocSet_inv hi with ⟨rfl, he⟩ | hi
      · cases he
      · exact .inl (.tup hi hi' hm)
    | lst hi hi' hm =>
      rcases assocSet_inv hi with ⟨rfl, he⟩ | hi
      · cases he
      · exact .inl (.lst hi hi' hm)
    | dict hi hi' hm =>
      rcases assocSet_inv hi with ⟨rfl, he⟩ | hi
      · cases he
        rcases assocSet_inv hi' with ⟨rfl, rfl⟩ | hi'
        · rcases ih _ hm with h' | h'
          · exact .inl (.dict h hj h')
          · exact .inr ((List.prefix_cons_inj _).2 ((List.prefix_cons_inj _).2 h'))
        · exact .inl (.dict h hi' hm)
      · exact .inl (.dict hi hi' hm)

theorem field_unique {u : List Name} {fs : List (Name × Field α)} (hw : (HV.mk u fs).WF) {k : Name} {f g : Field α} (hf : (k, f) ∈ fs) (hg : (k, g) ∈ fs) :
    f = g := by
  rw [WF_iff] at hw
  exact Option.some.inj ((assoc_of_mem hw.1 hf).symm.trans (assoc_of_mem hw.1 hg))

/-- No parameter is inside another one. -/
theorem IsParam.not_inside {m : HV α} {p : List Name} {a : Arr2 α} (h : IsParam m p a) (hw : m.WF) : ∀ {q : List Name} {b : Arr2 α}, IsParam m q b →
    p <+: q → p = q := by
  induction h with
  | @arr u fs k a h =>
    intro q b hq hpre
    cases hq with
    | arr _ =>
      obtain ⟨rfl, -⟩ := List.cons_prefix_cons.1 hpre
      rfl
    | sub h' _ =>
      obtain ⟨rfl, -⟩ := List.cons_prefix_cons.1 hpre
      cases field_unique hw h h'
    | tup h' _ _ =>
      obtain ⟨rfl, -⟩ := List.cons_prefix_cons.1 hpre
      cases field_unique hw h h'
    | lst h' _ _ =>
      obtain ⟨rfl, -⟩ := List.cons_prefix_cons.1 hpre
      cases field_unique hw h h'
    | dict h' _ _ =>
      obtain ⟨rfl, -⟩ := List.cons_prefix_cons.1 hpre
      cases field_unique hw h h'
  | @sub u fs k c p a h hp ih =>
    intro q b hq hpre
    have hw' := hw
    rw [WF_iff] at hw'
    cases hq with
    | arr h' =>
      obtain ⟨rfl, -⟩ := List.cons_prefix_cons.1 hpre
      cases field_unique hw h h'
    | sub h' hq =>
      obtain ⟨rfl, hpre'⟩ := List.cons_prefix_cons.1 hpre
      cases field_unique hw h h'
      rw [ih (hw'.2.2 _ _ h) hq hpre']
    | tup h' _ _ =>
      obtain ⟨rfl, -⟩ := List.cons_prefix_cons.1 hpre
      cases field_unique hw h h'
    | lst h' _ _ =>
      obtain ⟨rfl, -⟩ := List.cons_prefix_cons.1 hpre
      cases field_unique hw h h'
    | dict h' _ _ =>
      obtain ⟨rfl, -⟩ := List.cons_prefix_cons.1 hpre
      cases field_unique hw h h'
  | @tup u fs k ms i c p a h hi hp ih =>
    intro q b hq hpre
    have hw' := hw
    rw [WF_iff] at hw'
    cases hq with
    | arr h' =>
      obtain ⟨rfl, -⟩ := List.cons_prefix_cons.1 hpre
      cases field_unique hw h h'
    | sub h' hq =>
      obtain ⟨rfl, hpre⟩ := List.cons_prefix_cons.1 hpre
      cases field_unique hw h h'
    | @tup _ _ _ _ i' _ _ _ h' hi' hq =>
      obtain ⟨rfl, hpre'⟩ := List.cons_prefix_cons.1 hpre
      cases field_unique hw h h'
      obtain ⟨hii, hpre''⟩ := List.cons_prefix_cons.1 hpre'
      obtain rfl : i = i' := by
        have := congrArg Py.intOf hii
        rw [Py.intOf_natStr, Py.intOf_natStr] at this
        exact Int.ofNat.inj (Option.some.inj this)
      cases hi.symm.trans hi'
      rw [ih (hw'.2.2 _ _ h c (List.mem_of_getElem? hi)) hq hpre'']
    | lst h' _ _ =>
      obtain ⟨rfl, -⟩ := List.cons_prefix_cons.1 hpre
      cases field_unique hw h h'
    | dict h' _ _ =>
      obtain ⟨rfl, -⟩ := List.cons_prefix_cons.1 hpre
      cases field_unique hw h h'
  | lst h _ _ _ =>
    cases hw with
    | mk _ _ _ _ _ _ _ hl => exact absurd h (hl _ _)
  | @dict u fs k ms j c p a h hj hp ih =>
    intro q b hq hpre
    have hw' := hw
    rw [WF_iff] at hw'
    cases hq with
    | arr h' =>
      obtain ⟨rfl, -⟩ := List.cons_prefix_cons.1 hpre
      cases field_unique hw h h'
    | sub h' hq =>
      obtain ⟨rfl, hpre⟩ := List.cons_prefix_cons.1 hpre
      cases field_unique hw h h'
    | tup h' hi' hq =>
      obtain ⟨rfl, -⟩ := List.cons_prefix_cons.1 hpre
      cases field_unique hw h h'
    | lst h' _ _ =>
      obtain ⟨rfl, -⟩ := List.cons_prefix_cons.1 hpre
      cases field_unique hw h h'
    | dict h' hj' hq =>
      obtain ⟨rfl, hpre'⟩ := List.cons_prefix_cons.1 hpre
      cases field_unique hw h h'
      obtain ⟨rfl, hpre''⟩ := List.cons_prefix_cons.1 hpre'
      obtain ⟨hdn, _, hdc⟩ := hw'.2.2 _ _ h
      obtain rfl : c = _ := Option.some.inj ((assoc_of_mem hdn hj).symm.trans (assoc_of_mem hdn hj'))
      rw [ih (hdc _ _ hj) hq hpre'']

/-! ## C09 -/

/-- C09, choosing what to estimate: marking everything as fixed and then some parameters as updatable, in any order, leaves exactly these updatable,
whatever was marked before anywhere in the object. -/
theorem C09_fixed_then_marked (m : HV α) (hw : m.WF) (ns : List Name) (hns : ∀ n ∈ ns, n ∈ m.allNames) :
    ∃ m', ns.foldlM HV.markUpdatable (fixAll true m) = .ok m' ∧ (∀ n, n ∈ m'.updatableNames ↔ n ∈ ns) ∧ iterParams false m' = iterParams false m := by
  suffices H : ∀ (ns : List Name) (m₁ : HV α) (S : List (List Name)), m₁.WF → iterP false m₁ = iterP false m → (∀ n ∈ ns, n ∈ m.allNames) →
      (∀ q, IsMark m₁ q → ∃ p ∈ S, q <+: p) → (∀ p ∈ S, ∃ a, IsMarked m₁ p a) →
      ∃ m', ns.foldlM HV.markUpdatable m₁ = .ok m' ∧ (∀ n, n ∈ m'.updatableNames ↔ n ∈ ns ∨ n ∈ S.map pathName) ∧
        iterP false m' = iterP false m by
    obtain ⟨m', h1, h2, h3⟩ := H ns (fixAll true m) [] (WF_fixAll m hw) (iterP_fixAll_false m true) hns
      (fun q hq => absurd hq (not_isMark_fixAll m q)) nofun
    exact ⟨m', h1, fun n => by simpa using h2 n, by rw [iterParams_eq, h3, ← iterParams_eq]⟩
  intro ns
  induction ns with
  | nil =>
    intro m₁ S hw₁ he _ hS hS'
    refine ⟨m₁, rfl, fun n => ⟨fun hn => .inr ?_, ?_⟩, he⟩
    · obtain ⟨p, a, hp, rfl⟩ := mem_updatableNames.1 hn
      obtain ⟨q, hq, hpre⟩ := hS p hp.isMark
      obtain ⟨b, hb⟩ := hS' q hq
      rw [hp.isParam.not_inside hw₁ hb.isParam hpre]
      exact List.mem_map_of_mem hq
    · rintro (hn | hn)
      · cases hn
      · obtain ⟨q, hq, rfl⟩ := List.mem_map.1 hn
        obtain ⟨b, hb⟩ := hS' q hq
        exact mem_updatableNames.2 ⟨q, b, hb, rfl⟩
  | cons n ns ih =>
    intro m₁ S hw₁ he hns hS hS'
    obtain ⟨p, a, hp, rfl⟩ := mem_allNames.1 (hns n List.mem_cons_self)
    have hp₁ : IsParam m₁ p a := by
      have : (p, a) ∈ iterP false m₁ := by
        rw [he]
        exact mem_iterP_false.2 hp
      exact mem_iterP_false.1 this
    obtain ⟨m₂, h1, h2, h3, h4, h5⟩ := mark_of_isParam hp₁ hw₁
    obtain ⟨m', k1, k2, k3⟩ := ih m₂ (p :: S) h2 (h3.trans he) (fun n hn => hns n (List.mem_cons_of_mem _ hn)) (fun q hq => by
      rcases isMark_of_mark hp₁ hw₁ h1 q hq with hq | hq
      · obtain ⟨p', hp', h⟩ := hS q hq
        exact ⟨p', List.mem_cons_of_mem _ hp', h⟩
      · exact ⟨p, List.mem_cons_self, hq⟩) (fun q hq => by
      rcases List.mem_cons.1 hq with rfl | hq
      · exact ⟨a, h4⟩
      · obtain ⟨b, hb⟩ := hS' q hq
        exact ⟨b, h5 q b hb⟩)
    refine ⟨m', ?_, fun k => ?_, k3⟩
    · have e : m₁.markUpdatable (pathName p) = .ok m₂ := by simpa [HV.markUpdatable, pathName, hp.split hw] using h1
      rw [List.foldlM_cons, e]
      exact k1
    · rw [k2, List.map_cons, List.mem_cons, List.mem_cons]
      constructor
      · rintro (h | h | h)
        · exact .inl (.inr h)
        · exact .inl (.inl h)
        · exact .inr h
      · rintro ((h | h) | h)
        · exact .inr (.inl h)
        · exact .inl h
        · exact .inr (.inr h)

/-- C09, `mark_all_updatable(recurse=False)`: the parameters whose attributes below the object itself are marked become updatable; and
`mark_all_fixed(recurse=False)` before it makes no difference, while `mark_all_fixed()` leaves nothing but the object's own arrays to it. -/
theorem C09_without_recursion (m : HV α) (n : Name) :
    (n ∈ (markAll false m).updatableNames ↔ ∃ p a, IsMarkedInside m p a ∧ n = pathName p) ∧
    (n ∈ (markAll false (fixAll false m)).updatableNames ↔ ∃ p a, IsMarkedInside m p a ∧ n = pathName p) ∧
    (n ∈ (markAll false (fixAll true m)).updatableNames ↔ ∃ a, (n, Field.arr a) ∈ m.fields) := by
  obtain ⟨u, fs⟩ := m
  have key : ∀ (u : List Name) (fs : List (Name × Field α)) (p : List Name) (a : Arr2 α),
      IsMarked (markAll false (.mk u fs)) p a ↔ IsMarkedInside (.mk u fs) p a := by
    intro u fs p a
    rw [markAll]
    simp only [Bool.false_eq_true, if_false]
    have hmem : ∀ k f, (k, f) ∈ fs → f.markable = true →
        k ∈ ((fs.filter fun p => p.2.markable).map (·.1)).foldl (fun u k => if k ∈ u then u else u ++ [k]) u := by
      intro k f hkf hm
      rw [mem_addAll]
      right
      rw [List.mem_map]
      exact ⟨(k, f), List.mem_filter.2 ⟨hkf, hm⟩, rfl⟩
    constructor
    · intro h
      cases h with
      | arr _ h => exact .arr h
      | sub _ h hm => exact .sub h hm
      | tup _ h hi hm => exact .tup h hi hm
      | lst _ h hi hm => exact .lst h hi hm
      | dict _ h hi hm => exact .dict h hi hm
    · intro h
      cases h with
      | arr h => exact .arr (hmem _ _ h rfl) h
      | sub h hm => exact .sub (hmem _ _ h rfl) h hm
      | tup h hi hm => exact .tup (hmem _ _ h rfl) h hi hm
      | lst h hi hm => exact .lst (hmem _ _ h rfl) h hi hm
      | dict h hi hm => exact .dict (hmem _ _ h rfl) h hi hm
  refine ⟨?_, ?_, ?_⟩
  · rw [mem_updatableNames]
    simp only [key]
  · rw [mem_updatableNames, fixAll]
    simp only [Bool.false_eq_true, if_false, key]
    constructor
    · rintro ⟨p, a, h, rfl⟩
      refine ⟨p, a, ?_, rfl⟩
      cases h with
      | arr h => exact .arr h
      | sub h hm => exact .sub h hm
      | tup h hi hm => exact .tup h hi hm
      | lst h hi hm => exact .lst h hi hm
      | dict h hi hm => exact .dict h hi hm
    · rintro ⟨p, a, h, rfl⟩
      refine ⟨p, a, ?_, rfl⟩
      cases h with
      | arr h => exact .arr h
      | sub h hm => exact .sub h hm
      | tup h hi hm => exact .tup h hi hm
      | lst h hi hm => exact .lst h hi hm
      | dict h hi hm => exact .dict h hi hm
  · rw [mem_updatableNames]
    constructor
    · rintro ⟨p, a, h, rfl⟩
      have h0 := not_isMark_fixAll (.mk u fs)
      rw [fixAll, if_pos rfl] at h h0
      rw [key] at h
      cases h with
      | arr h =>
        obtain ⟨g, hg, he⟩ := mem_fixAllFields.1 h
        cases g <;> cases he
        exact ⟨_, hg⟩
      | sub h hm => exact absurd (.sub h hm.isMark) (h0 _)
      | tup h hi hm => exact absurd (.tup h hi hm.isMark) (h0 _)
      | lst h hi hm => exact absurd (.lst h hi hm.isMark) (h0 _)
      | dict h hi hm => exact absurd (.dict h hi hm.isMark) (h0 _)
    · rintro ⟨a, h⟩
      refine ⟨[n], a, ?_, rfl⟩
      rw [fixAll, if_pos rfl, key]
      exact .arr (mem_fixAllFields.2 ⟨_, h, rfl⟩)

-- The nested object: everything fixed, then two parameters marked in submodels of a tuple and of a dictionary.
example : ∃ m', [['t', '.', '1', '.', 'r'], ['a', '.', 'q']].foldlM HV.markUpdatable (fixAll true Demo.obj) = .ok m' ∧
    ∀ n, n ∈ m'.updatableNames ↔ n = ['t', '.', '1', '.', 'r'] ∨ n = ['a', '.', 'q'] := by
  obtain ⟨m', h1, h2, -⟩ := C09_fixed_then_marked Demo.obj Demo.obj_wf [['t', '.', '1', '.', 'r'], ['a', '.', 'q']] (by decide)
  exact ⟨m', h1, fun n => by simpa using h2 n⟩

-- Of two arrays in a submodel the marked one becomes updatable together with the submodel; after fixing everything only the array of the object itself does.
example : let m : HV Nat := .mk [] [(['r'], .arr (.ofRow [1])), (['a'], .sub (.mk [['p']] [(['p'], .arr (.ofRow [2])), (['q'], .arr (.ofRow [3]))]))]
    m.updatableNames = [] ∧ ['a', '.', 'p'] ∈ (markAll false (fixAll false m)).updatableNames ∧
    ['a', '.', 'p'] ∉ (markAll false (fixAll true m)).updatableNames := by
  intro m
  refine ⟨by decide +kernel, (C09_without_recursion m _).2.1.2 ⟨[['a'], ['p']], .ofRow [2], .sub (c := .mk [['p']] _) (List.mem_cons_of_mem _ List.mem_cons_self)
    (.arr List.mem_cons_self List.mem_cons_self), rfl⟩, fun h => ?_⟩
  obtain ⟨a, ha⟩ := (C09_without_recursion m _).2.2.1 h
  rcases List.mem_cons.1 ha with h | h
  · cases h
  · rcases List.mem_cons.1 h with h | h <;> cases h

end Verif
