import Verif.Props.Expand
import Verif.Props.HealthUpdate
/-!
# C110: names that address nothing
-/

namespace Verif
variable {α : Type}

/-! ## Specification -/

/-- The text `s` selects the member `c` of a sequence: it is an integer, counted from the end if it is negative. -/
def Spec.Member (ms : List (HV α)) (s : Name) (c : HV α) : Prop :=
  ∃ (z : Int) (j : Nat), Py.intOf s = some z ∧ ms[j]? = some c ∧ (z = j ∨ z = (j : Int) - ms.length)

/-- Following the attributes, positions and keys in a path from an object one arrives at another object. -/
inductive Spec.LeadsTo : HV α → List Name → HV α → Prop where
  | here {m} : Spec.LeadsTo m [] m
  | sub {u fs k c p d} : (k, Field.sub c) ∈ fs → Spec.LeadsTo c p d → Spec.LeadsTo (.mk u fs) (k :: p) d
  | tup {u fs k ms s c p d} : (k, Field.tup ms) ∈ fs → Spec.Member ms s c → Spec.LeadsTo c p d → Spec.LeadsTo (.mk u fs) (k :: s :: p) d
  | dict {u fs k ms s c p d} : (k, Field.dict ms) ∈ fs → (s, c) ∈ ms → Spec.LeadsTo c p d → Spec.LeadsTo (.mk u fs) (k :: s :: p) d

/-- Why the rest of a path, beginning with an attribute `k`, cannot be followed from an object with the fields `fs`, and the exception for
it: there is no such attribute; it is none that holds parameters; the text after a tuple's name is no integer or outside the tuple; or
the text after a dictionary's name is not one of its keys. -/
inductive Spec.Stuck (fs : List (Name × Field α)) (k : Name) : List Name → Err → Prop where
  | missing {rest} : (∀ f, (k, f) ∉ fs) → Spec.Stuck fs k rest .attributeError
  | other {rest} : (k, Field.other) ∈ fs → Spec.Stuck fs k rest .notImplementedError
  | noInteger {ms s rest} : (k, Field.tup ms) ∈ fs → Py.intOf s = none → Spec.Stuck fs k (s :: rest) .valueError
  | outside {ms s z rest} : (k, Field.tup ms) ∈ fs → Py.intOf s = some z → (z < -(ms.length : Int) ∨ (ms.length : Int) ≤ z) →
      Spec.Stuck fs k (s :: rest) .indexError
  | noKey {ms s rest} : (k, Field.dict ms) ∈ fs → (∀ c, (s, c) ∉ ms) → Spec.Stuck fs k (s :: rest) .keyError

/-- A path that leads nowhere, and the exception for it. -/
def Spec.Nowhere (m : HV α) (segs : List Name) (e : Err) : Prop :=
  ∃ p d k rest, segs = p ++ k :: rest ∧ Spec.LeadsTo m p d ∧ Spec.Stuck d.fields k rest e

/-- A path that leads to an array. -/
def Spec.ToArray (m : HV α) (segs : List Name) (a : Arr2 α) : Prop :=
  ∃ p d k, segs = p ++ [k] ∧ Spec.LeadsTo m p d ∧ (k, Field.arr a) ∈ d.fields

/-- A path that leads to the value of an attribute. -/
def Spec.ToValue (m : HV α) (segs : List Name) (f : Field α) : Prop :=
  ∃ p d k, segs = p ++ [k] ∧ Spec.LeadsTo m p d ∧ (k, f) ∈ d.fields

/-- Why the rest of a path, beginning with an attribute `k`, cannot be followed to a value from an object with the fields `fs`, and the
exception for it: there is no such attribute; the path goes on behind an attribute that holds no models; it ends at a member of a tuple
or dictionary; the text after a tuple's name is no integer or outside the tuple; or the text after a dictionary's name is not one of its
keys. -/
inductive Spec.CutOff (fs : List (Name × Field α)) (k : Name) : List Name → Err → Prop where
  | missing {rest} : (∀ f, (k, f) ∉ fs) → Spec.CutOff fs k rest .attributeError
  | behindArray {a s rest} : (k, Field.arr a) ∈ fs → Spec.CutOff fs k (s :: rest) .valueError
  | behindOther {s rest} : (k, Field.other) ∈ fs → Spec.CutOff fs k (s :: rest) .valueError
  | tupleMember {ms s} : (k, Field.tup ms) ∈ fs → Spec.CutOff fs k [s] .valueError
  | dictMember {ms s} : (k, Field.dict ms) ∈ fs → Spec.CutOff fs k [s] .valueError
  | noInteger {ms s t rest} : (k, Field.tup ms) ∈ fs → Py.intOf s = none → Spec.CutOff fs k (s :: t :: rest) .valueError
  | outside {ms s t z rest} : (k, Field.tup ms) ∈ fs → Py.intOf s = some z → (z < -(ms.length : Int) ∨ (ms.length : Int) ≤ z) →
      Spec.CutOff fs k (s :: t :: rest) .indexError
  | noKey {ms s t rest} : (k, Field.dict ms) ∈ fs → (∀ c, (s, c) ∉ ms) → Spec.CutOff fs k (s :: t :: rest) .keyError

/-- A path that leads to no value, and the exception for it. -/
def Spec.Lost (m : HV α) (segs : List Name) (e : Err) : Prop :=
  ∃ p d k rest, segs = p ++ k :: rest ∧ Spec.LeadsTo m p d ∧ Spec.CutOff d.fields k rest e

/-- The value is no array. -/
def Spec.NoArray (f : Field α) : Prop := ∀ a, f ≠ .arr a

/-- A name that stops `get_parameters` while it collects the values of an object with `B` rows: it leads to no value, or, with several
rows, to a value that is no array. -/
def Spec.Stops (m : HV α) (B : Nat) (segs : List Name) (e : Err) : Prop :=
  Spec.Lost m segs e ∨ (1 < B ∧ e = .attributeError ∧ ∃ f, Spec.ToValue m segs f ∧ Spec.NoArray f)

/-! ## Lemmas -/

theorem seqIndex_some_iff {len : Nat} {z : Int} {j : Nat} :
    Py.seqIndex len z = some j ↔ j < len ∧ (z = j ∨ z = (j : Int) - len) := by
  unfold Py.seqIndex
  split
  · split
    · simp only [Option.some.injEq]; omega
    · simp only [reduceCtorEq, false_iff]; omega
  · split
    · simp only [Option.some.injEq]; omega
    · simp only [reduceCtorEq, false_iff]; omega

theorem seqIndex_none_iff {len : Nat} {z : Int} : Py.seqIndex len z = none ↔ z < -(len : Int) ∨ (len : Int) ≤ z := by
  unfold Py.seqIndex
  split
  · split
    · simp only [reduceCtorEq, false_iff]; omega
    · simp only [true_iff]; omega
  · split
    · simp only [reduceCtorEq, false_iff]; omega
    · simp only [true_iff]; omega

theorem member_iff {ms : List (HV α)} {s : Name} {c : HV α} :
    Spec.Member ms s c ↔ ∃ z j, Py.intOf s = some z ∧ Py.seqIndex ms.length z = some j ∧ ms[j]? = some c := by
  constructor
  · rintro ⟨z, j, h1, h2, h3⟩
    exact ⟨z, j, h1, seqIndex_some_iff.2 ⟨(List.getElem?_eq_some_iff.1 h2).1, h3⟩, h2⟩
  · rintro ⟨z, j, h1, h2, h3⟩
    exact ⟨z, j, h1, h3, (seqIndex_some_iff.1 h2).2⟩

theorem assoc_none_iff {β : Type} {k : Name} {l : List (Name × β)} : assoc k l = none ↔ ∀ v, (k, v) ∉ l := by
  induction l with
  | nil => simp [assoc]
  | cons p l ih =>
    obtain ⟨k', v'⟩ := p
    unfold assoc
    split
    · rename_i h; subst h
      simp only [reduceCtorEq, false_iff]
      exact fun h => h v' (List.mem_cons_self ..)
    · rename_i h
      rw [ih]
      simp only [List.mem_cons, Prod.mk.injEq, not_or, not_and]
      constructor
      · intro h' v; exact ⟨fun e => absurd e.symm h, h' v⟩
      · intro h' v; exact (h' v).2

theorem expandDictAt_none {ms : List (Name × HV α)} {s : Name} (h : ∀ c, (s, c) ∉ ms) (rest : List Name) :
    expandDictAt ms s rest = .error .keyError := by
  induction ms with
  | nil => rfl
  | cons p ms ih =>
    obtain ⟨j, c⟩ := p
    have hj : j ≠ s := fun e => h c (by simp [e])
    unfold expandDictAt
    rw [if_neg hj]
    exact ih fun c hc => h c (by simp [hc])

/-- What is looked up inside another object. -/
theorem expand_leadsTo {m d : HV α} {p : List Name} (h : Spec.LeadsTo m p d) (hw : m.WF) : d.WF ∧ ∀ s rest,
    expandHV m (p ++ s :: rest) = Except.map (List.map fun n => Py.joinDots (p ++ [n])) (expandHV d (s :: rest)) := by
  have comp : ∀ (f g : Name → Name) (x : Except Err (List Name)),
      Except.map (List.map f) (Except.map (List.map g) x) = Except.map (List.map fun n => f (g n)) x := by
    intro f g x; cases x <;> simp [Except.map, Function.comp_def]
  have jc : ∀ (k : Name) (p : List Name) (n : Name), k ++ '.' :: Py.joinDots (p ++ [n]) = Py.joinDots (k :: p ++ [n]) := by
    intro k p n; rw [List.cons_append, Py.joinDots_cons (by simp)]
  induction h with
  | here =>
    refine ⟨hw, fun s rest => ?_⟩
    cases hx : expandHV _ (s :: rest) <;> simp [hx, Except.map, Py.joinDots]
  | @sub u fs k c p d hk hc ih =>
    cases hw with
    | mk hn _ hs _ _ _ _ _ =>
    obtain ⟨h1, h2⟩ := ih (hs _ _ hk)
    refine ⟨h1, fun s rest => ?_⟩
    rw [List.cons_append, expandHV, expandFields_eq, assoc_of_mem hn hk]
    obtain ⟨s', rest', hr⟩ := List.exists_cons_of_ne_nil (l := p ++ s :: rest) (by simp)
    simp only [expandField, List.drop_succ_cons, List.drop_zero]
    rw [hr]
    simp only
    rw [← hr, h2, comp]
    simp only [jc]
  | @tup u fs k ms t c p d hk hm hc ih =>
    cases hw with
    | mk hn _ _ ht _ _ _ _ =>
    obtain ⟨z, j, hz, hj, hmj⟩ := member_iff.1 hm
    obtain ⟨h1, h2⟩ := ih (ht _ _ hk _ (List.mem_of_getElem? hmj))
    refine ⟨h1, fun s rest => ?_⟩
    rw [List.cons_append, expandHV, expandFields_eq, assoc_of_mem hn hk]
    obtain ⟨s', rest', hr⟩ := List.exists_cons_of_ne_nil (l := p ++ s :: rest) (by simp)
    simp only [expandField, List.drop_succ_cons, List.drop_zero, List.cons_append, hz, hj]
    rw [hr, expandTupAt_eq ms j c s' rest' hmj, ← hr, h2, comp, comp]
    simp only [jc]
    rfl
  | @dict u fs k ms t c p d hk hm hc ih =>
    cases hw with
    | mk hn _ _ _ hd _ hdw _ =>
    obtain ⟨h1, h2⟩ := ih (hdw _ _ hk _ _ hm)
    refine ⟨h1, fun s rest => ?_⟩
    rw [List.cons_append, expandHV, expandFields_eq, assoc_of_mem hn hk]
    obtain ⟨s', rest', hr⟩ := List.exists_cons_of_ne_nil (l := p ++ s :: rest) (by simp)
    simp only [expandField, List.drop_succ_cons, List.drop_zero, List.cons_append]
    rw [hr, expandDictAt_eq ms (hd _ _ hk) t c s' rest' hm, ← hr, h2, comp, comp]
    simp only [jc]
    rfl

theorem expand_stuck {fs : List (Name × Field α)} {u : List Name} (hw : (HV.mk u fs).WF) {k : Name} {rest : List Name} {e : Err}
    (h : Spec.Stuck fs k rest e) : expandHV (.mk u fs) (k :: rest) = .error e := by
  cases hw with
  | mk hn _ _ _ _ _ _ _ =>
  rw [expandHV, expandFields_eq]
  cases h with
  | missing h => rw [assoc_none_iff.2 h]
  | other h => rw [assoc_of_mem hn h]; rfl
  | noInteger h hz =>
    rw [assoc_of_mem hn h]
    simp only [expandField, List.drop_succ_cons, List.drop_zero, hz]; rfl
  | outside h hz ho =>
    rw [assoc_of_mem hn h]
    simp only [expandField, List.drop_succ_cons, List.drop_zero, hz, seqIndex_none_iff.2 ho]; rfl
  | noKey h hj =>
    rw [assoc_of_mem hn h]
    simp only [expandField, List.drop_succ_cons, List.drop_zero, expandDictAt_none hj]; rfl

theorem expand_nowhere {m : HV α} (hw : m.WF) {segs : List Name} {e : Err} (h : Spec.Nowhere m segs e) : expandHV m segs = .error e := by
  obtain ⟨p, d, k, rest, rfl, hl, hs⟩ := h
  obtain ⟨hd, he⟩ := expand_leadsTo hl hw
  cases d with
  | mk u fs =>
    rw [he, expand_stuck hd hs]; rfl

theorem nowhere_in {m c : HV α} {p : List Name} {segs : List Name} {e : Err} (h : ∀ {q d}, Spec.LeadsTo c q d → Spec.LeadsTo m (p ++ q) d)
    (hn : Spec.Nowhere c segs e) : Spec.Nowhere m (p ++ segs) e := by
  obtain ⟨q, d, k, rest, rfl, hl, hs⟩ := hn
  exact ⟨p ++ q, d, k, rest, by simp, h hl, hs⟩

theorem expand_fails {m : HV α} (hw : m.WF) {s : Name} {rest : List Name} {e : Err} (h : expandHV m (s :: rest) = .error e) :
    Spec.Nowhere m (s :: rest) e := by
  cases m with
  | mk u fs =>
  have hw' := hw
  cases hw with
  | mk hn _ hs ht hd _ hdw hl =>
  rw [expandHV, expandFields_eq] at h
  cases hk : assoc s fs with
  | none =>
    rw [hk] at h; cases h
    exact ⟨[], _, s, rest, rfl, .here, .missing (assoc_none_iff.1 hk)⟩
  | some f =>
    rw [hk] at h
    have hm := assoc_mem hk
    cases f with
    | arr a => cases h
    | lst ms => exact absurd hm (hl _ _)
    | other => cases h; exact ⟨[], _, s, rest, rfl, .here, .other hm⟩
    | sub c =>
      simp only [expandField, List.drop_succ_cons, List.drop_zero] at h
      cases rest with
      | nil => rw [expand_all (hs _ _ hm)] at h; cases h
      | cons s' rest =>
        simp only at h
        have hx : expandHV c (s' :: rest) = .error e := by
          cases hx : expandHV c (s' :: rest) with
          | error e' => rw [hx] at h; cases h; rfl
          | ok l => rw [hx] at h; cases h
        exact nowhere_in (p := [s]) (fun h => .sub hm h) (expand_fails (hs _ _ hm) hx)
    | tup ms =>
      simp only [expandField, List.drop_succ_cons, List.drop_zero] at h
      cases rest with
      | nil => rw [expandTupAll_eq s ms (ht _ _ hm) 0] at h; cases h
      | cons s' rest =>
        cases hz : Py.intOf s' with
        | none =>
          simp only [hz] at h; cases h
          exact ⟨[], _, s, s' :: rest, rfl, .here, .noInteger hm hz⟩
        | some z =>
          cases hj : Py.seqIndex ms.length z with
          | none =>
            simp only [hz, hj] at h; cases h
            exact ⟨[], _, s, s' :: rest, rfl, .here, .outside hm hz (seqIndex_none_iff.1 hj)⟩
          | some j =>
            simp only [hz, hj] at h
            obtain ⟨c, hc⟩ : ∃ c, ms[j]? = some c := ⟨_, List.getElem?_eq_getElem (Py.seqIndex_lt hj)⟩
            have hcw := ht _ _ hm _ (List.mem_of_getElem? hc)
            cases rest with
            | nil => rw [expandTupAt_nil ms (ht _ _ hm) j c hc] at h; cases h
            | cons s'' rest =>
              rw [expandTupAt_eq ms j c s'' rest hc] at h
              have hx : expandHV c (s'' :: rest) = .error e := by
                cases hx : expandHV c (s'' :: rest) with
                | error e' => rw [hx] at h; cases h; rfl
                | ok l => rw [hx] at h; cases h
              exact nowhere_in (p := [s, s']) (fun h => .tup hm (member_iff.2 ⟨z, j, hz, hj, hc⟩) h) (expand_fails hcw hx)
    | dict ms =>
      simp only [expandField, List.drop_succ_cons, List.drop_zero] at h
      cases rest with
      | nil => rw [expandDictAll_eq s ms (hdw _ _ hm)] at h; cases h
      | cons s' rest =>
        simp only at h
        by_cases hk : ∃ c, (s', c) ∈ ms
        · obtain ⟨c, hc⟩ := hk
          have hcw := hdw _ _ hm _ _ hc
          cases rest with
          | nil => rw [expandDictAt_nil ms (hdw _ _ hm) (hd _ _ hm) s' c hc] at h; cases h
          | cons s'' rest =>
            rw [expandDictAt_eq ms (hd _ _ hm) s' c s'' rest hc] at h
            have hx : expandHV c (s'' :: rest) = .error e := by
              cases hx : expandHV c (s'' :: rest) with
              | error e' => rw [hx] at h; cases h; rfl
              | ok l => rw [hx] at h; cases h
            exact nowhere_in (p := [s, s']) (fun h => .dict hm hc h) (expand_fails hcw hx)
        · have hk' : ∀ c, (s', c) ∉ ms := fun c hc => hk ⟨c, hc⟩
          rw [expandDictAt_none hk'] at h; cases h
          exact ⟨[], _, s, s' :: rest, rfl, .here, .noKey hm hk'⟩
termination_by rest.length

theorem mapM_fails_iff {β γ : Type} {f : β → Except Err γ} {e : Err} : ∀ {l : List β},
    l.mapM f = .error e ↔ ∃ pre x post, l = pre ++ x :: post ∧ (∀ y ∈ pre, ∃ v, f y = .ok v) ∧ f x = .error e := by
  intro l
  induction l with
  | nil =>
    simp only [List.mapM_nil, pure, Except.pure, reduceCtorEq, false_iff]
    rintro ⟨pre, x, post, h, -⟩
    cases pre <;> simp at h
  | cons a l ih =>
    rw [List.mapM_cons]
    cases ha : f a with
    | error e' =>
      constructor
      · intro h; cases h
        exact ⟨[], a, l, rfl, by simp, ha⟩
      · rintro ⟨pre, x, post, h, h1, h2⟩
        cases pre with
        | nil => simp at h; rw [← h.1, ha] at h2; cases h2; rfl
        | cons b pre =>
          simp at h
          obtain ⟨v, hv⟩ := h1 b (by simp)
          rw [← h.1, ha] at hv; cases hv
    | ok v =>
      have e1 : (do let r ← (Except.ok v : Except Err γ); let rs ← l.mapM f; pure (r :: rs)) = .error e ↔ l.mapM f = .error e := by
        cases hl : l.mapM f <;> simp [bind, Except.bind, pure, Except.pure]
      rw [e1, ih]
      constructor
      · rintro ⟨pre, x, post, h, h1, h2⟩
        refine ⟨a :: pre, x, post, by simp [h], ?_, h2⟩
        intro y hy
        rcases List.mem_cons.1 hy with rfl | hy
        · exact ⟨v, ha⟩
        · exact h1 y hy
      · rintro ⟨pre, x, post, h, h1, h2⟩
        cases pre with
        | nil => simp at h; rw [← h.1, ha] at h2; cases h2
        | cons b pre =>
          simp at h
          exact ⟨pre, x, post, h.2, fun y hy => h1 y (by simp [hy]), h2⟩

theorem expand_ok_iff {m : HV α} (hw : m.WF) (n : Name) :
    (∃ v, expandHV m (Py.splitDots n) = .ok v) ↔ ∀ e, ¬ Spec.Nowhere m (Py.splitDots n) e := by
  obtain ⟨s, rest, hs⟩ := List.exists_cons_of_ne_nil (Py.splitDots_ne_nil n)
  rw [hs]
  constructor
  · rintro ⟨v, hv⟩ e he
    rw [expand_nowhere hw he] at hv; cases hv
  · intro h
    cases hx : expandHV m (s :: rest) with
    | ok v => exact ⟨v, rfl⟩
    | error e => exact absurd (expand_fails hw hx) (h e)

theorem expand_error_iff {m : HV α} (hw : m.WF) (n : Name) (e : Err) :
    expandHV m (Py.splitDots n) = .error e ↔ Spec.Nowhere m (Py.splitDots n) e := by
  obtain ⟨s, rest, hs⟩ := List.exists_cons_of_ne_nil (Py.splitDots_ne_nil n)
  rw [hs]
  exact ⟨expand_fails hw, expand_nowhere hw⟩

/-- The value found by the segments of a name. -/
def lookupSegs (m : HV α) (segs : List Name) : Except Err (Field α) := chain m segs >>= lastField

theorem chain_ne_nil {m : HV α} {segs : List Name} {ch : List (Name × HV α)} (h : chain m segs = .ok ch) : ch ≠ [] := by
  have key : ∀ {c : HV α} {r : List Name} {x : Name × HV α}, (chain c r).map (x :: ·) = .ok ch → ch ≠ [] := by
    intro c r x h
    cases hc : chain c r <;> rw [hc] at h <;> cases h; simp
  unfold chain at h
  split at h
  · cases h
  · cases h; simp
  · split at h
    · cases h
    · exact key h
    · split at h
      · cases h
      · split at h
        · cases h
        · split at h
          · cases h
          · split at h
            · cases h
            · exact key h
    · split at h
      · cases h
      · split at h
        · cases h
        · exact key h
    all_goals cases h

theorem lookup_step (c : HV α) (r : List Name) (x : Name × HV α) : ((chain c r).map (x :: ·) >>= lastField) = lookupSegs c r := by
  unfold lookupSegs
  cases hc : chain c r with
  | error e => rfl
  | ok ch =>
    obtain ⟨y, ch', rfl⟩ := List.exists_cons_of_ne_nil (chain_ne_nil hc)
    show lastField (x :: y :: ch') = lastField (y :: ch')
    unfold lastField
    rw [List.getLast?_cons_cons]

theorem getField_of_mem {u : List Name} {fs : List (Name × Field α)} (hn : (fs.map (·.1)).Nodup) {k : Name} {f : Field α} (h : (k, f) ∈ fs) :
    (HV.mk u fs).getField k = some f := assoc_of_mem hn h

theorem lookup_leadsTo {m d : HV α} {p : List Name} (h : Spec.LeadsTo m p d) (hw : m.WF) : d.WF ∧ ∀ s rest,
    lookupSegs m (p ++ s :: rest) = lookupSegs d (s :: rest) := by
  induction h with
  | here => exact ⟨hw, fun _ _ => rfl⟩
  | @sub u fs k c p d hk hc ih =>
    cases hw with
    | mk hn _ hs _ _ _ _ _ =>
    obtain ⟨h1, h2⟩ := ih (hs _ _ hk)
    refine ⟨h1, fun s rest => ?_⟩
    obtain ⟨s', rest', hr⟩ := List.exists_cons_of_ne_nil (l := p ++ s :: rest) (by simp)
    rw [← h2, List.cons_append, hr, lookupSegs, chain, getField_of_mem hn hk]
    exact lookup_step ..
  | @tup u fs k ms t c p d hk hm hc ih =>
    cases hw with
    | mk hn _ _ ht _ _ _ _ =>
    obtain ⟨z, j, hz, hj, hmj⟩ := member_iff.1 hm
    obtain ⟨h1, h2⟩ := ih (ht _ _ hk _ (List.mem_of_getElem? hmj))
    refine ⟨h1, fun s rest => ?_⟩
    rw [← h2, List.cons_append, List.cons_append, lookupSegs, chain, getField_of_mem hn hk]
    simp only [hz, hj, hmj]
    rw [if_neg (by simp)]
    exact lookup_step ..
  | @dict u fs k ms t c p d hk hm hc ih =>
    cases hw with
    | mk hn _ _ _ hd _ hdw _ =>
    obtain ⟨h1, h2⟩ := ih (hdw _ _ hk _ _ hm)
    refine ⟨h1, fun s rest => ?_⟩
    rw [← h2, List.cons_append, List.cons_append, lookupSegs, chain, getField_of_mem hn hk]
    simp only [assoc_of_mem (hd _ _ hk) hm]
    rw [if_neg (by simp)]
    exact lookup_step ..

theorem lookup_single (m : HV α) (k : Name) : lookupSegs m [k] = match m.getField k with | none => .error .attributeError | some f => .ok f := rfl

theorem lookup_toArray {m : HV α} (hw : m.WF) {segs : List Name} {a : Arr2 α} (h : Spec.ToArray m segs a) : lookupSegs m segs = .ok (.arr a) := by
  obtain ⟨p, d, k, rfl, hl, hk⟩ := h
  obtain ⟨hd, he⟩ := lookup_leadsTo hl hw
  rw [he, lookup_single]
  cases d with
  | mk u fs =>
  cases hd with
  | mk hn _ _ _ _ _ _ _ => rw [getField_of_mem hn hk]

/-- A path that goes on behind an array. -/
theorem lookup_surplus {m : HV α} (hw : m.WF) {segs : List Name} {a : Arr2 α} (h : Spec.ToArray m segs a) {rest : List Name} (hr : rest ≠ []) :
    lookupSegs m (segs ++ rest) = .error .valueError := by
  obtain ⟨p, d, k, rfl, hl, hk⟩ := h
  obtain ⟨hd, he⟩ := lookup_leadsTo hl hw
  obtain ⟨s, rest, rfl⟩ := List.exists_cons_of_ne_nil hr
  rw [List.append_assoc, List.singleton_append, he]
  cases d with
  | mk u fs =>
  cases hd with
  | mk hn _ _ _ _ _ _ _ => rw [lookupSegs, chain, getField_of_mem hn hk]; rfl

theorem toValue_in {m c : HV α} {p : List Name} {segs : List Name} {f : Field α} (h : ∀ {q d}, Spec.LeadsTo c q d → Spec.LeadsTo m (p ++ q) d)
    (hn : Spec.ToValue c segs f) : Spec.ToValue m (p ++ segs) f := by
  obtain ⟨q, d, k, rfl, hl, hs⟩ := hn
  exact ⟨p ++ q, d, k, by simp, h hl, hs⟩

theorem lost_in {m c : HV α} {p : List Name} {segs : List Name} {e : Err} (h : ∀ {q d}, Spec.LeadsTo c q d → Spec.LeadsTo m (p ++ q) d)
    (hn : Spec.Lost c segs e) : Spec.Lost m (p ++ segs) e := by
  obtain ⟨q, d, k, rest, rfl, hl, hs⟩ := hn
  exact ⟨p ++ q, d, k, rest, by simp, h hl, hs⟩

/-- Every path leads to a value or is lost. -/
theorem lookup_cases {m : HV α} (hw : m.WF) {segs : List Name} (hne : segs ≠ []) :
    (∃ f, lookupSegs m segs = .ok f ∧ Spec.ToValue m segs f) ∨ ∃ e, lookupSegs m segs = .error e ∧ Spec.Lost m segs e := by
  obtain ⟨u, fs⟩ := m
  have hw' := hw
  cases hw' with
  | mk hn _ hs ht hd _ hdw hl =>
  cases segs with
  | nil => exact absurd rfl hne
  | cons k segs =>
  cases segs with
  | nil =>
    rw [lookup_single]
    cases hk : (HV.mk u fs).getField k with
    | none => exact .inr ⟨_, rfl, [], _, k, [], rfl, .here, .missing (assoc_none_iff.1 hk)⟩
    | some f => exact .inl ⟨f, rfl, [], _, k, rfl, .here, assoc_mem hk⟩
  | cons s rest =>
    rw [lookupSegs, chain]
    cases hk : (HV.mk u fs).getField k with
    | none => exact .inr ⟨_, rfl, [], _, k, _, rfl, .here, .missing (assoc_none_iff.1 hk)⟩
    | some f =>
      have hm : (k, f) ∈ fs := assoc_mem hk
      cases f with
      | arr a => exact .inr ⟨_, rfl, [], _, k, _, rfl, .here, .behindArray hm⟩
      | lst ms => exact absurd hm (hl _ _)
      | other => exact .inr ⟨_, rfl, [], _, k, _, rfl, .here, .behindOther hm⟩
      | sub c =>
        simp only
        rw [lookup_step]
        rcases lookup_cases (hs _ _ hm) (segs := s :: rest) (by simp) with ⟨f, h1, h2⟩ | ⟨e, h1, h2⟩
        · exact .inl ⟨f, h1, toValue_in (p := [k]) (fun h => .sub hm h) h2⟩
        · exact .inr ⟨e, h1, lost_in (p := [k]) (fun h => .sub hm h) h2⟩
      | tup ms =>
        simp only
        cases rest with
        | nil => exact .inr ⟨_, rfl, [], _, k, _, rfl, .here, .tupleMember hm⟩
        | cons t rest =>
          rw [if_neg (by simp)]
          cases hz : Py.intOf s with
          | none => exact .inr ⟨_, rfl, [], _, k, _, rfl, .here, .noInteger hm hz⟩
          | some z =>
            simp only
            cases hj : Py.seqIndex ms.length z with
            | none => exact .inr ⟨_, rfl, [], _, k, _, rfl, .here, .outside hm hz (seqIndex_none_iff.1 hj)⟩
            | some j =>
              obtain ⟨c, hc⟩ : ∃ c, ms[j]? = some c := ⟨_, List.getElem?_eq_getElem (Py.seqIndex_lt hj)⟩
              simp only [hc]
              rw [lookup_step]
              rcases lookup_cases (ht _ _ hm _ (List.mem_of_getElem? hc)) (segs := t :: rest) (by simp) with ⟨f, h1, h2⟩ | ⟨e, h1, h2⟩
              · exact .inl ⟨f, h1, toValue_in (p := [k, s]) (fun h => .tup hm (member_iff.2 ⟨z, j, hz, hj, hc⟩) h) h2⟩
              · exact .inr ⟨e, h1, lost_in (p := [k, s]) (fun h => .tup hm (member_iff.2 ⟨z, j, hz, hj, hc⟩) h) h2⟩
      | dict ms =>
        simp only
        cases rest with
        | nil => exact .inr ⟨_, rfl, [], _, k, _, rfl, .here, .dictMember hm⟩
        | cons t rest =>
          rw [if_neg (by simp)]
          cases hc : assoc s ms with
          | none => exact .inr ⟨_, rfl, [], _, k, _, rfl, .here, .noKey hm (assoc_none_iff.1 hc)⟩
          | some c =>
            simp only
            rw [lookup_step]
            rcases lookup_cases (hdw _ _ hm _ _ (assoc_mem hc)) (segs := t :: rest) (by simp) with ⟨f, h1, h2⟩ | ⟨e, h1, h2⟩
            · exact .inl ⟨f, h1, toValue_in (p := [k, s]) (fun h => .dict hm (assoc_mem hc) h) h2⟩
            · exact .inr ⟨e, h1, lost_in (p := [k, s]) (fun h => .dict hm (assoc_mem hc) h) h2⟩
termination_by segs.length

theorem lookup_toValue {m : HV α} (hw : m.WF) {segs : List Name} {f : Field α} (h : Spec.ToValue m segs f) : lookupSegs m segs = .ok f := by
  obtain ⟨p, d, k, rfl, hl, hk⟩ := h
  obtain ⟨hd, he⟩ := lookup_leadsTo hl hw
  rw [he, lookup_single]
  cases d with
  | mk u fs =>
  cases hd with
  | mk hn _ _ _ _ _ _ _ => rw [getField_of_mem hn hk]

theorem lookup_lost {m : HV α} (hw : m.WF) {segs : List Name} {e : Err} (h : Spec.Lost m segs e) : lookupSegs m segs = .error e := by
  obtain ⟨p, d, k, rest, rfl, hl, hk⟩ := h
  obtain ⟨hd, he⟩ := lookup_leadsTo hl hw
  rw [he]
  cases d with
  | mk u fs =>
  cases hd with
  | mk hn _ _ _ hdn _ _ _ =>
  cases hk with
  | missing h =>
    have hg : (HV.mk u fs).getField k = none := assoc_none_iff.2 h
    cases rest with
    | nil => rw [lookup_single, hg]
    | cons s rest => rw [lookupSegs, chain, hg]; rfl
  | behindArray h => rw [lookupSegs, chain, getField_of_mem hn h]; rfl
  | behindOther h => rw [lookupSegs, chain, getField_of_mem hn h]; rfl
  | tupleMember h => rw [lookupSegs, chain, getField_of_mem hn h]; rfl
  | dictMember h => rw [lookupSegs, chain, getField_of_mem hn h]; rfl
  | noInteger h hz => rw [lookupSegs, chain, getField_of_mem hn h]; simp only [hz]; rfl
  | outside h hz ho => rw [lookupSegs, chain, getField_of_mem hn h]; simp only [hz, seqIndex_none_iff.2 ho]; rfl
  | noKey h hj => rw [lookupSegs, chain, getField_of_mem hn h]; simp only [assoc_none_iff.2 hj]; rfl

theorem lookup_error_iff {m : HV α} (hw : m.WF) (n : Name) (e : Err) : m.lookup n = .error e ↔ Spec.Lost m (Py.splitDots n) e := by
  constructor
  · intro h
    rcases lookup_cases hw (Py.splitDots_ne_nil n) with ⟨f, h1, _⟩ | ⟨e', h1, h2⟩
    · rw [show m.lookup n = .ok f from h1] at h; cases h
    · rw [show m.lookup n = .error e' from h1] at h; cases h; exact h2
  · exact lookup_lost hw

theorem lookup_ok_iff {m : HV α} (hw : m.WF) (n : Name) (f : Field α) : m.lookup n = .ok f ↔ Spec.ToValue m (Py.splitDots n) f := by
  constructor
  · intro h
    rcases lookup_cases hw (Py.splitDots_ne_nil n) with ⟨f', h1, h2⟩ | ⟨e', h1, _⟩
    · rw [show m.lookup n = .ok f' from h1] at h; cases h; exact h2
    · rw [show m.lookup n = .error e' from h1] at h; cases h
  · exact lookup_toValue hw

theorem lookup_iff {m : HV α} (hw : m.WF) (n : Name) (a : Arr2 α) : m.lookup n = .ok (.arr a) ↔ Spec.ToArray m (Py.splitDots n) a :=
  lookup_ok_iff hw n _

/-- What is found under a path is a parameter. -/
theorem param_of_leadsTo {m d : HV α} {p : List Name} (h : Spec.LeadsTo m p d) : ∀ {q : List Name} {a : Arr2 α}, IsParam d q a →
    ∃ p', IsParam m p' a := by
  induction h with
  | here => exact fun h => ⟨_, h⟩
  | sub hk _ ih =>
    intro q a h
    obtain ⟨p', h⟩ := ih h
    exact ⟨_, .sub hk h⟩
  | tup hk hm _ ih =>
    intro q a h
    obtain ⟨p', h⟩ := ih h
    obtain ⟨z, j, _, hj, _⟩ := hm
    exact ⟨_, .tup hk hj h⟩
  | dict hk hm _ ih =>
    intro q a h
    obtain ⟨p', h⟩ := ih h
    exact ⟨_, .dict hk hm h⟩

theorem param_of_toArray {m : HV α} {segs : List Name} {a : Arr2 α} (h : Spec.ToArray m segs a) : ∃ p, IsParam m p a := by
  obtain ⟨p, d, k, rfl, hl, hk⟩ := h
  cases d with
  | mk u fs => exact param_of_leadsTo hl (.arr hk)

theorem joinDots_append_last (q : List Name) (hq : q ≠ []) (x : Name) : ∀ p : List Name,
    Py.joinDots (p ++ [Py.joinDots q ++ x]) = Py.joinDots (p ++ q) ++ x := by
  intro p
  induction p with
  | nil => rfl
  | cons k p ih =>
    rw [List.cons_append, List.cons_append, Py.joinDots_cons (by simp), Py.joinDots_cons (by simp [hq]), ih]; simp

theorem expand_array {m : HV α} (hw : m.WF) {segs : List Name} {a : Arr2 α} (h : Spec.ToArray m segs a) (rest : List Name) :
    expandHV m (segs ++ rest) = .ok (Spec.labels (Py.joinDots (segs ++ rest)) a.ncol) := by
  obtain ⟨p, d, k, rfl, hl, hk⟩ := h
  obtain ⟨hd, he⟩ := expand_leadsTo hl hw
  rw [List.append_assoc, List.singleton_append, he]
  cases d with
  | mk u fs =>
  cases hd with
  | mk hn _ _ _ _ _ _ _ =>
  rw [expandHV, expandFields_eq, assoc_of_mem hn hk]
  simp only [expandField, Except.map, Except.ok.injEq]
  unfold expandLabel Spec.labels
  split
  · have := joinDots_append_last (k :: rest) (by simp) [] p
    simpa using this
  · rw [List.map_map]
    apply List.map_congr_left
    intro i _
    simpa using joinDots_append_last (k :: rest) (by simp) ('[' :: Py.natStr i ++ [']']) p

theorem hcat_exists {l : List (Arr2 α)} {B : Nat} (hne : l ≠ []) (h : ∀ a ∈ l, a.nrow = B) : ∃ v, Arr2.hcat l = .ok v ∧ v.nrow = B := by
  induction l with
  | nil => exact absurd rfl hne
  | cons a l ih =>
    cases l with
    | nil => exact ⟨a, rfl, h a (by simp)⟩
    | cons b l =>
      obtain ⟨w, hw1, hw2⟩ := ih (by simp) fun x hx => h x (by simp [hx])
      rw [Arr2.hcat, hw1]
      have ha := h a (by simp)
      have hc : Arr2.hcat2 a w = .ok ⟨a.ncol + w.ncol, List.zipWith (· ++ ·) a.rows w.rows, _⟩ := if_pos (by rw [ha, hw2])
      refine ⟨_, hc, ?_⟩
      simp only [Arr2.nrow, List.length_zipWith] at ha hw2 ⊢
      omega

theorem getOne_error_iff {m : HV α} (hw : m.WF) (B : Nat) (n : Name) (e : Err) :
    m.getOne B n = .error e ↔ Spec.Stops m B (Py.splitDots n) e := by
  unfold HV.getOne Spec.Stops
  cases hl : m.lookup n with
  | error e' =>
    simp only [Except.error.injEq]
    rw [← lookup_error_iff hw, hl]
    constructor
    · rintro rfl; exact .inl rfl
    · rintro (h | ⟨_, _, f, hf, _⟩)
      · cases h; rfl
      · rw [← lookup_ok_iff hw, hl] at hf; cases hf
  | ok f =>
    have hlost : ¬ Spec.Lost m (Py.splitDots n) e := by rw [← lookup_error_iff hw, hl]; simp
    have huniq : ∀ g, Spec.ToValue m (Py.splitDots n) g ↔ f = g := by intro g; rw [← lookup_ok_iff hw, hl]; simp
    simp only [hlost, huniq, false_or]
    have other : Spec.NoArray f → ((if B > 1 then (.error .attributeError : Except Err (Field α)) else .ok f) = .error e ↔
        1 < B ∧ e = .attributeError ∧ ∃ g, f = g ∧ Spec.NoArray g) := by
      intro hf
      split
      · simp only [Except.error.injEq]
        exact ⟨fun h => ⟨by assumption, h.symm, _, rfl, hf⟩, fun h => h.2.1.symm⟩
      · simp only [reduceCtorEq, false_iff]
        exact fun h => absurd h.1 (by assumption)
    cases f with
    | arr a =>
      simp only [reduceCtorEq, false_iff]
      rintro ⟨_, _, _, rfl, h⟩
      exact h a rfl
    | sub _ => exact other (by intro a; simp)
    | tup _ => exact other (by intro a; simp)
    | lst _ => exact other (by intro a; simp)
    | dict _ => exact other (by intro a; simp)
    | other => exact other (by intro a; simp)

theorem getOne_ok_iff {m : HV α} (hw : m.WF) (B : Nat) (n : Name) :
    (∃ v, m.getOne B n = .ok v) ↔ ∀ e, ¬ Spec.Stops m B (Py.splitDots n) e := by
  simp only [← getOne_error_iff hw]
  cases m.getOne B n <;> simp

/-- What is collected under a name. -/
theorem getOne_value {m : HV α} (hw : m.WF) {B : Nat} {n : Name} {v : Field α} (h : m.getOne B n = .ok v) :
    (∃ a, Spec.ToArray m (Py.splitDots n) a ∧ v = .arr (expandTo B a)) ∨ (Spec.NoArray v ∧ Spec.ToValue m (Py.splitDots n) v) := by
  unfold HV.getOne at h
  split at h
  · cases h
  · rename_i a ha; cases h
    exact .inl ⟨a, (lookup_ok_iff hw n _).1 ha, rfl⟩
  · rename_i f hf ha
    split at h
    · cases h
    · cases h
      exact .inr ⟨hf, (lookup_ok_iff hw n _).1 ha⟩

theorem concat_arrays {vs : List (Field α)} {B : Nat} (hne : vs ≠ []) (h : ∀ v ∈ vs, ∃ a, v = .arr a ∧ a.nrow = B) :
    ∃ w, HV.concatFields vs = .ok w := by
  obtain ⟨l, rfl, hl⟩ : ∃ l : List (Arr2 α), vs = l.map Field.arr ∧ ∀ a ∈ l, a.nrow = B := by
    clear hne
    induction vs with
    | nil => exact ⟨[], rfl, by simp⟩
    | cons v vs ih =>
      obtain ⟨a, rfl, ha⟩ := h v (by simp)
      obtain ⟨l, rfl, hl⟩ := ih fun v hv => h v (by simp [hv])
      exact ⟨a :: l, rfl, by simpa [ha] using hl⟩
  rw [concatFields_arr]
  obtain ⟨w, hw, _⟩ := hcat_exists (by simpa using hne) hl
  exact ⟨w, hw⟩

theorem concat_other {vs : List (Field α)} {v : Field α} (hv : v ∈ vs) (h : Spec.NoArray v) : HV.concatFields vs = .error .valueError := by
  have hm : vs.mapM HV.toConcat = .error .valueError := by
    induction vs with
    | nil => cases hv
    | cons x vs ih =>
      rw [List.mapM_cons]
      cases hx : HV.toConcat x with
      | error e =>
        have : e = .valueError := by
          cases x <;> simp [HV.toConcat] at hx <;> exact hx.symm
        rw [this]; rfl
      | ok a =>
        have hne : v ≠ x := by
          rintro rfl
          cases v <;> simp [HV.toConcat] at hx
          exact h _ rfl
        rw [ih ((List.mem_cons.1 hv).resolve_left hne)]; rfl
  unfold HV.concatFields
  rw [hm]; rfl

/-! ## C110 -/

theorem collect_ok {m : HV α} (hw : m.WF) (hpos : ∀ p a, IsParam m p a → 1 ≤ a.nrow) {B : Nat} (hB : m.batchSize = .ok B) :
    ∀ {names : List Name} {vs : List (Field α)}, names.mapM (m.getOne B) = .ok vs → vs.length = names.length ∧
      ((∀ n ∈ names, ∃ a, Spec.ToArray m (Py.splitDots n) a) → ∀ v ∈ vs, ∃ a, v = .arr a ∧ a.nrow = B) ∧
      (∀ n ∈ names, (∃ f, Spec.ToValue m (Py.splitDots n) f ∧ Spec.NoArray f) → ∃ v ∈ vs, Spec.NoArray v) ∧
      ∀ n ∈ names, ∃ f, Spec.ToValue m (Py.splitDots n) f := by
  intro names
  induction names with
  | nil => intro vs h; cases h; simp
  | cons n names ih =>
    intro vs h
    rw [List.mapM_cons] at h
    cases h0 : m.getOne B n with
    | error e => rw [h0] at h; cases h
    | ok v =>
      cases h1 : names.mapM (m.getOne B) with
      | error e => rw [h0, h1] at h; cases h
      | ok ws =>
        rw [h0, h1] at h; cases h
        obtain ⟨i1, i2, i3, i4⟩ := ih h1
        have huniq : ∀ f g, Spec.ToValue m (Py.splitDots n) f → Spec.ToValue m (Py.splitDots n) g → f = g := by
          intro f g hf hg
          rw [← lookup_ok_iff hw] at hf hg
          rw [hf] at hg; cases hg; rfl
        refine ⟨by simp [i1], ?_, ?_, ?_⟩
        · intro hall x hx
          rcases List.mem_cons.1 hx with rfl | hx
          · obtain ⟨b, hb⟩ := hall n (by simp)
            rcases getOne_value hw h0 with ⟨a, ha, rfl⟩ | ⟨hv, hv2⟩
            · refine ⟨_, rfl, ?_⟩
              obtain ⟨p, hp⟩ := param_of_toArray ha
              have h1 := hpos p _ hp
              have h2 := (((C12_batch_size m hpos).1 B).1 hB).1 p _ hp
              unfold expandTo
              split
              · rename_i h
                have hlen : a.rows.length = 1 := h.2
                rw [List.length_eq_one_iff] at hlen
                obtain ⟨r, hr⟩ := hlen
                simp [Arr2.repeatRows, Arr2.nrow, hr]
              · have := batchSize_pos hB
                omega
            · exact absurd (huniq _ _ hv2 hb) (hv _)
          · exact i2 (fun k hk => hall k (by simp [hk])) x hx
        · rintro k hk hf
          rcases List.mem_cons.1 hk with rfl | hk
          · obtain ⟨f, hf, hno⟩ := hf
            rcases getOne_value hw h0 with ⟨a, ha, rfl⟩ | ⟨hv, hv2⟩
            · exact absurd (huniq _ _ hf ha) (hno _)
            · exact ⟨v, by simp, hv⟩
          · obtain ⟨x, hx, hx2⟩ := i3 k hk hf
            exact ⟨x, by simp [hx], hx2⟩
        · intro k hk
          rcases List.mem_cons.1 hk with rfl | hk
          · rcases getOne_value hw h0 with ⟨a, ha, rfl⟩ | ⟨hv, hv2⟩
            · exact ⟨_, ha⟩
            · exact ⟨_, hv2⟩
          · exact i4 k hk

/-- C110 for `get_parameters`, with the exceptions: the first name that stops the collection decides; if there is none, a name that leads
to something else than an array makes the concatenation fail (ValueError); otherwise nothing is raised.  (The object is one with the
row counts of a batch of `B`, and its attributes are its fields.) -/
theorem C110_get_parameters_raises (m : HV α) (hw : m.WF) (hpos : ∀ p a, IsParam m p a → 1 ≤ a.nrow) (B : Nat)
    (hB : m.batchSize = .ok B) (names : List Name) (hne : names ≠ []) (e : Err) :
    m.getParameters (some names) = .error e ↔
      (∃ pre n post, names = pre ++ n :: post ∧ (∀ k ∈ pre, ∀ e', ¬ Spec.Stops m B (Py.splitDots k) e') ∧ Spec.Stops m B (Py.splitDots n) e) ∨
      ((∀ n ∈ names, ∀ e', ¬ Spec.Stops m B (Py.splitDots n) e') ∧ e = .valueError ∧
        ∃ n ∈ names, ∃ f, Spec.ToValue m (Py.splitDots n) f ∧ Spec.NoArray f) := by
  have h0 := mapM_fails_iff (f := m.getOne B) (e := e) (l := names)
  simp only [getOne_ok_iff hw, getOne_error_iff hw] at h0
  rw [← h0]
  have hg : m.getParameters (some names) = names.mapM (m.getOne B) >>= HV.concatFields := by
    unfold HV.getParameters
    simp only [Option.getD_some, if_neg hne, hB, bind, Except.bind]
  rw [hg]
  cases hm : names.mapM (m.getOne B) with
  | error e' =>
    obtain ⟨pre, n, post, rfl, _, h2⟩ := mapM_fails_iff.1 hm
    constructor
    · intro h; cases h; exact .inl rfl
    · rintro (h | ⟨h, -⟩)
      · cases h; rfl
      · exact absurd ((getOne_error_iff hw B n e').1 h2) (h n (by simp) e')
  | ok vs =>
    obtain ⟨i1, i2, i3, i4⟩ := collect_ok hw hpos hB hm
    have hno : ∀ n ∈ names, ∀ e', ¬ Spec.Stops m B (Py.splitDots n) e' := by
      intro n hn e' he
      obtain ⟨pre, post, rfl⟩ := List.append_of_mem hn
      have : ¬ ∃ v, m.getOne B n = .ok v := by rw [getOne_ok_iff hw]; exact fun h => h e' he
      apply this
      clear hne hg h0 i1 i2 i3 i4 hn
      induction pre generalizing vs with
      | nil =>
        rw [List.nil_append, List.mapM_cons] at hm
        cases hx : m.getOne B n with
        | ok v => exact ⟨v, rfl⟩
        | error e => rw [hx] at hm; cases hm
      | cons x pre ih =>
        rw [List.cons_append, List.mapM_cons] at hm
        cases hx : m.getOne B x with
        | error e => rw [hx] at hm; cases hm
        | ok v =>
          cases hy : (pre ++ n :: post).mapM (m.getOne B) with
          | error e => rw [hx, hy] at hm; cases hm
          | ok ws => exact ih ws hy
    have hvs : vs ≠ [] := by
      intro h; rw [h] at i1
      exact hne (List.length_eq_zero_iff.1 i1.symm)
    show HV.concatFields vs = .error e ↔ _
    constructor
    · intro h
      refine .inr ⟨hno, ?_⟩
      by_cases hall : ∀ n ∈ names, ∃ a, Spec.ToArray m (Py.splitDots n) a
      · obtain ⟨w, hw⟩ := concat_arrays hvs (i2 hall)
        rw [hw] at h; cases h
      · obtain ⟨n, hn⟩ := Classical.not_forall.1 hall
        obtain ⟨hn, hna⟩ := Classical.not_imp.1 hn
        obtain ⟨f, hf⟩ := i4 n hn
        have hfn : Spec.NoArray f := by rintro a rfl; exact hna ⟨a, hf⟩
        obtain ⟨v, hv, hv2⟩ := i3 n hn ⟨f, hf, hfn⟩
        rw [concat_other hv hv2] at h; cases h
        exact ⟨rfl, n, hn, f, hf, hfn⟩
    · rintro (h | ⟨_, rfl, n, hn, hf⟩)
      · cases h
      · obtain ⟨v, hv, hv2⟩ := i3 n hn hf
        exact concat_other hv hv2

/-- C110 for `get_parameters`: a list of names is accepted exactly if each name leads to a parameter; any name that leads nowhere, or to
something else than a parameter, or behind a parameter, is refused.  (Positions may be counted from the end.) -/
theorem C110_get_parameters_refuses (m : HV α) (hw : m.WF) (hpos : ∀ p a, IsParam m p a → 1 ≤ a.nrow) (B : Nat)
    (hB : m.batchSize = .ok B) (names : List Name) (hne : names ≠ []) :
    (∃ v, m.getParameters (some names) = .ok v) ↔ ∀ n ∈ names, ∃ a, Spec.ToArray m (Py.splitDots n) a := by
  have hg : m.getParameters (some names) = names.mapM (m.getOne B) >>= HV.concatFields := by
    unfold HV.getParameters
    simp only [Option.getD_some, if_neg hne, hB, bind, Except.bind]
  rw [hg]
  constructor
  · rintro ⟨v, hv⟩
    cases hm : names.mapM (m.getOne B) with
    | error e => rw [hm] at hv; cases hv
    | ok vs =>
      rw [hm] at hv
      obtain ⟨i1, i2, i3, i4⟩ := collect_ok hw hpos hB hm
      intro n hn
      obtain ⟨f, hf⟩ := i4 n hn
      cases hfa : f with
      | arr a => subst hfa; exact ⟨a, hf⟩
      | _ =>
        exfalso
        obtain ⟨x, hx, hx2⟩ := i3 n hn ⟨f, hf, by subst hfa; intro a; simp⟩
        have := concat_other hx hx2
        rw [show HV.concatFields vs = .ok v from hv] at this; cases this
  · intro hall
    cases hm : names.mapM (m.getOne B) with
    | error e =>
      exfalso
      obtain ⟨pre, n, post, rfl, _, h2⟩ := mapM_fails_iff.1 hm
      obtain ⟨a, ha⟩ := hall n (by simp)
      unfold HV.getOne at h2
      rw [(lookup_iff hw n a).2 ha] at h2
      cases h2
    | ok vs =>
      obtain ⟨i1, i2, i3, i4⟩ := collect_ok hw hpos hB hm
      have hvs : vs ≠ [] := by
        intro h; rw [h] at i1
        exact hne (List.length_eq_zero_iff.1 i1.symm)
      exact concat_arrays hvs (i2 hall)

/-- C110 fails for `expand_names`: after the name of any parameter, any further segments are accepted and end up in the labels, though
the name addresses nothing (`get_parameters` raises for it). -/
theorem C110_surplus_segments_accepted (m : HV α) (hw : m.WF) (B : Nat) (hB : m.batchSize = .ok B) (n : Name) (segs rest : List Name)
    (hn : Py.splitDots n = segs ++ rest) (hr : rest ≠ []) (a : Arr2 α) (ha : Spec.ToArray m segs a) :
    m.expandNames [n] = .ok (Spec.labels n a.ncol) ∧ m.getParameters (some [n]) = .error .valueError := by
  constructor
  · unfold HV.expandNames
    rw [List.mapM_cons, hn, expand_array hw ha, ← hn, Py.joinDots_splitDots]
    simp [bind, Except.bind, pure, Except.pure, Except.map]
  · have : m.lookup n = .error .valueError := by
      have := lookup_surplus hw ha hr
      rw [← hn] at this
      exact this
    unfold HV.getParameters
    simp only [Option.getD_some, hB, bind, Except.bind, List.mapM_cons, HV.getOne, this]
    rfl

/-- C110 for `expand_names`, what does hold: a list of names is refused exactly if one of them cannot be followed, the first such name
deciding the exception.  Missing: names that go on behind a parameter (`C110_surplus_segments_accepted`). -/
theorem C110_expand_names_refuses_partial (m : HV α) (hw : m.WF) (names : List Name) (e : Err) :
    m.expandNames names = .error e ↔
      ∃ pre n post, names = pre ++ n :: post ∧ (∀ k ∈ pre, ∀ e', ¬ Spec.Nowhere m (Py.splitDots k) e') ∧ Spec.Nowhere m (Py.splitDots n) e := by
  have h0 : m.expandNames names = .error e ↔ (names.mapM fun n => expandHV m (Py.splitDots n)) = .error e := by
    unfold HV.expandNames
    cases names.mapM fun n => expandHV m (Py.splitDots n) <;> simp [Except.map]
  rw [h0, mapM_fails_iff]
  simp only [expand_ok_iff hw, expand_error_iff hw]

/-- C110, for names written with positions counted from the end (or any other way to write a position): the value is that of the
parameter, and the labels repeat the name as given. -/
theorem C110_labels_as_given (m : HV α) (hw : m.WF) (n : Name) (a : Arr2 α) (ha : Spec.ToArray m (Py.splitDots n) a) :
    m.expandNames [n] = .ok (Spec.labels n a.ncol) := by
  unfold HV.expandNames
  have := expand_array hw ha []
  rw [List.append_nil, Py.joinDots_splitDots] at this
  rw [List.mapM_cons, this]
  simp [bind, Except.bind, pure, Except.pure, Except.map]

/-! ### Examples -/

/-- `t.-1.r` is the parameter `t.1.r` of the demonstration object. -/
theorem Demo.obj_last : Spec.ToArray Demo.obj [['t'], ['-', '1'], ['r']] (.ofRow [7, 8]) := by
  refine ⟨[['t'], ['-', '1']], Demo.rc 7 8, ['r'], rfl, ?_, by simp [Demo.rc, HV.fields]⟩
  exact .tup (ms := [Demo.rc 5 6, Demo.rc 7 8]) (by simp) ⟨-1, 1, by decide, rfl, .inr (by decide)⟩ .here

/-- `t.-1.r.s` is accepted by `expand_names` and refused by `get_parameters`. -/
example : Demo.obj.expandNames ["t.-1.r.s".toList] = .ok ["t.-1.r.s[0]".toList, "t.-1.r.s[1]".toList] ∧
    Demo.obj.getParameters (some ["t.-1.r.s".toList]) = .error .valueError :=
  C110_surplus_segments_accepted Demo.obj Demo.obj_wf 1 (by decide) _ [['t'], ['-', '1'], ['r']] [['s']] (by decide) (by simp) _ Demo.obj_last

/-- `t.-1.r` is accepted by both. -/
example : ∃ v, Demo.obj.getParameters (some ["t.-1.r".toList]) = .ok v := by
  refine (C110_get_parameters_refuses Demo.obj Demo.obj_wf ?_ 1 (by decide) _ (by simp)).2 ?_
  · intro p a h
    have := mem_iterParams_false.2 ⟨p, h, rfl⟩
    have hall : ∀ q ∈ iterParams false Demo.obj, 1 ≤ q.2.nrow := by decide
    exact hall _ this
  · intro n hn
    simp at hn; subst hn
    exact ⟨_, Demo.obj_last⟩

theorem Demo.obj_rows : ∀ p a, IsParam Demo.obj p a → 1 ≤ a.nrow := by
  intro p a h
  have := mem_iterParams_false.2 ⟨p, h, rfl⟩
  have hall : ∀ q ∈ iterParams false Demo.obj, 1 ≤ q.2.nrow := by decide
  exact hall _ this

/-- `get_parameters` of the tuple `t` and the missing `z` raises AttributeError for the latter, of `t` alone ValueError. -/
example : Demo.obj.getParameters (some [['t'], ['z']]) = .error .attributeError ∧
    Demo.obj.getParameters (some [['t']]) = .error .valueError := by
  have ht : Spec.ToValue Demo.obj [['t']] (.tup [Demo.rc 5 6, Demo.rc 7 8]) := ⟨[], _, _, rfl, .here, by simp [Demo.obj, HV.fields]⟩
  have hn : Spec.NoArray (Field.tup [Demo.rc 5 6, Demo.rc 7 8]) := by intro a; simp
  have hs : ∀ e, ¬ Spec.Stops Demo.obj 1 (Py.splitDots ['t']) e := by
    rintro e (h | ⟨h, -⟩)
    · have h1 := (lookup_error_iff Demo.obj_wf ['t'] e).2 h
      have h2 := (lookup_ok_iff Demo.obj_wf ['t'] _).2 ht
      rw [h1] at h2; cases h2
    · exact absurd h (by decide)
  constructor
  · refine (C110_get_parameters_raises Demo.obj Demo.obj_wf Demo.obj_rows 1 (by decide) _ (by simp) _).2 (.inl ⟨[['t']], ['z'], [], rfl, ?_, ?_⟩)
    · intro k hk; rw [List.mem_singleton.1 hk]; exact hs
    · exact .inl ⟨[], _, ['z'], [], rfl, .here, .missing (by simp [Demo.obj, HV.fields])⟩
  · refine (C110_get_parameters_raises Demo.obj Demo.obj_wf Demo.obj_rows 1 (by decide) _ (by simp) _).2 (.inr ⟨?_, rfl, ['t'], by simp, _, ht, hn⟩)
    intro k hk; rw [List.mem_singleton.1 hk]; exact hs

/-- `t.2` is outside the tuple, `t.z` no position, `d.q` no key, `z` no attribute and `o` no parameter. -/
example : Spec.Nowhere Demo.obj [['t'], ['2']] .indexError ∧ Spec.Nowhere Demo.obj [['t'], ['z']] .valueError ∧
    Spec.Nowhere Demo.obj [['d'], ['q']] .keyError ∧ Spec.Nowhere Demo.obj [['z']] .attributeError ∧
    Spec.Nowhere Demo.obj [['o']] .notImplementedError := by
  refine ⟨⟨[], _, _, _, rfl, .here, .outside (ms := [Demo.rc 5 6, Demo.rc 7 8]) (z := 2) (by simp [Demo.obj, HV.fields]) (by decide) (.inr (by decide))⟩,
    ⟨[], _, _, _, rfl, .here, .noInteger (ms := [Demo.rc 5 6, Demo.rc 7 8]) (by simp [Demo.obj, HV.fields]) (by decide)⟩,
    ⟨[], _, _, _, rfl, .here, .noKey (ms := [(['k'], Demo.rc 9 10)]) (by simp [Demo.obj, HV.fields]) (by simp)⟩,
    ⟨[], _, _, _, rfl, .here, .missing (by simp [Demo.obj, HV.fields])⟩,
    ⟨[], _, _, _, rfl, .here, .other (by simp [Demo.obj, HV.fields])⟩⟩

end Verif
