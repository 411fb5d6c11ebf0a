import Verif.Proofs.HealthSkeleton
import Verif.Proofs.Wrappers
/-!
# Objects that differ only in the values of their parameters
-/

namespace Verif
variable {α : Type}

/-- `update_parameters` keeps everything but the values of parameters. -/
theorem updateLoop_skel {v : Arr2 α} {ns : List Name} : ∀ {m : HV α} {pos e : Nat}, m.WF → (∀ n ∈ ns, n ∈ m.allNames) →
    skel (updateLoop v ns m pos e).1 = skel m := by
  induction ns with
  | nil => exact fun _ _ => rfl
  | cons n ns ih =>
    intro m pos e hw hall
    obtain ⟨p, a, hp, hpn⟩ := mem_allNames.1 (hall n (by simp))
    have hl := lookup_of_isParam hp hw
    rw [updateLoop]
    split
    · rfl
    · split
      · split
        · rfl
        · dsimp only
          split
          · rfl
          · split
            · rfl
            · rename_i m' hm'
              obtain ⟨m2, h1, h2, h3, _⟩ := setAttr_of_name _ hw (hall n (by simp))
              rw [hm'] at h1
              cases h1
              rw [ih h2 (fun k hk => ?_)]
              · exact setAttr_skel (by rw [hpn]; exact hl) hm'
              · rw [HV.allNames, h3 false, map_assign_names]
                exact hall k (by simp [hk])
      · rfl

theorem makeCopy_skel {m m' : HV α} (hw : m.WF) {ns : List Name} (hall : ∀ n ∈ ns, n ∈ m.allNames) {v : Vals α}
    (h : m.makeCopy v (some ns) = .ok m') : skel m' = skel m := by
  unfold HV.makeCopy HV.updateParameters at h
  simp only [Option.getD_some] at h
  have hs := updateLoop_skel (v := v.to2d) (pos := 0) (e := 0) hw hall
  rcases hq : updateLoop v.to2d ns m 0 0 with ⟨m1, r⟩
  rw [hq] at h hs
  cases r with
  | error e => simp at h
  | ok e =>
    simp only at h hs
    split at h
    · cases h
    · simp only [Except.ok.injEq] at h
      rename_i heq
      split at heq <;> simp_all

/-- The two objects have the same attributes, and the values of the parameter at any path are related. -/
structure HV.Alike {β : Type} (R : List Name → Arr2 α → Arr2 β → Prop) (m : HV α) (m' : HV β) : Prop where
  same : skel m' = skel m
  values : ∀ p x y, IsParam m p x → IsParam m' p y → R p x y

namespace HV.Alike
variable {β : Type} {R : List Name → Arr2 α → Arr2 β → Prop} {m : HV α} {m' : HV β}

theorem getField_mem {m : HV α} {k : Name} {f : Field α} (h : m.getField k = some f) : (k, f) ∈ m.fields := assoc_mem h

theorem field (h : Alike R m m') (k : Name) : (m'.getField k).map skelField = (m.getField k).map skelField := by
  rw [← skel_getField, ← skel_getField, h.same]

theorem arr (h : Alike R m m') {k : Name} {x : Arr2 α} (hk : m.getField k = some (.arr x)) :
    ∃ y, m'.getField k = some (.arr y) ∧ R [k] x y := by
  have e := h.field k
  rw [hk] at e
  cases hf : m'.getField k with
  | none => rw [hf] at e; cases e
  | some f =>
    rw [hf] at e
    cases f with
    | arr y =>
      refine ⟨y, rfl, h.values _ _ _ ?_ ?_⟩
      · obtain ⟨u, fs⟩ := m; exact .arr (getField_mem hk)
      · obtain ⟨u, fs⟩ := m'; exact .arr (getField_mem hf)
    | _ => simp [skelField] at e

theorem sub (h : Alike R m m') {k : Name} {c : HV α} (hk : m.getField k = some (.sub c)) :
    ∃ c', m'.getField k = some (.sub c') ∧ Alike (fun p => R (k :: p)) c c' := by
  have e := h.field k
  rw [hk] at e
  cases hf : m'.getField k with
  | none => rw [hf] at e; cases e
  | some f =>
    rw [hf] at e
    cases f with
    | sub c' =>
      refine ⟨c', rfl, ?_, fun p x y hx hy => h.values _ _ _ ?_ ?_⟩
      · simpa [skelField] using e
      · obtain ⟨u, fs⟩ := m; exact .sub (getField_mem hk) hx
      · obtain ⟨u, fs⟩ := m'; exact .sub (getField_mem hf) hy
    | _ => simp [skelField] at e

theorem other (h : Alike R m m') {k : Name} (hk : m.getField k = some .other) : m'.getField k = some .other := by
  have e := h.field k
  rw [hk] at e
  cases hf : m'.getField k with
  | none => rw [hf] at e; cases e
  | some f =>
    rw [hf] at e
    cases f with
    | other => rfl
    | _ => simp [skelField] at e

theorem tup (h : Alike R m m') {k : Name} {ms : List (HV α)} (hk : m.getField k = some (.tup ms)) :
    ∃ ms', m'.getField k = some (.tup ms') ∧ ms'.length = ms.length ∧
      ∀ (i : Nat) c c', ms[i]? = some c → ms'[i]? = some c' → Alike (fun p => R (k :: Py.natStr i :: p)) c c' := by
  have e := h.field k
  rw [hk] at e
  cases hf : m'.getField k with
  | none => rw [hf] at e; cases e
  | some f =>
    rw [hf] at e
    cases f with
    | tup ms' =>
      simp only [Option.map_some, skelField, Option.some.injEq, Field.tup.injEq, skelList_eq] at e
      refine ⟨ms', rfl, by simpa using congrArg List.length e, fun i c c' hc hc' => ⟨?_, fun p x y hx hy => h.values _ _ _ ?_ ?_⟩⟩
      · have := congrArg (fun l => l[i]?) e
        simpa [List.getElem?_map, hc, hc'] using this
      · obtain ⟨u, fs⟩ := m; exact .tup (getField_mem hk) hc hx
      · obtain ⟨u, fs⟩ := m'; exact .tup (getField_mem hf) hc' hy
    | _ => simp [skelField] at e

end HV.Alike

/-! ## Copies with several rows of values -/

/-- `y` is row `i` of `x`, or its only row. -/
def Arr2.RowOf (i : Nat) (x y : Arr2 α) : Prop :=
  y.ncol = x.ncol ∧ y.rows = [x.rows.getD (if x.nrow = 1 then 0 else i) []]

theorem Arr2.RowOf.cols {i : Nat} {x y : Arr2 α} (h : Arr2.RowOf i x y) (lo hi : Nat) : Arr2.RowOf i (x.cols lo hi) (y.cols lo hi) := by
  refine ⟨by simp only [Arr2.cols, h.1], ?_⟩
  rw [Arr2.cols_nrow]
  simp only [Arr2.cols, h.2, List.map_cons, List.map_nil, List.getD_eq_getElem?_getD, List.getElem?_map]
  cases x.rows[if x.nrow = 1 then 0 else i]? <;> simp

theorem Arr2.rowOf_self {i : Nat} {x : Arr2 α} (h : x.nrow = 1) : Arr2.RowOf i x x := by
  refine ⟨rfl, ?_⟩
  rw [if_pos h]
  obtain ⟨r, hr⟩ := List.length_eq_one_iff.1 h
  rw [hr]
  rfl

theorem slices_rowOf {i : Nat} {v w : Arr2 α} (h : Arr2.RowOf i v w) (ss : List Nat) : ∀ pos,
    List.Forall₂ (Arr2.RowOf i) (v.slices pos ss) (w.slices pos ss) := by
  induction ss with
  | nil => exact fun _ => .nil
  | cons s ss ih => exact fun pos => .cons (h.cols _ _) (ih _)

theorem slices_ncol {v : Arr2 α} (ss : List Nat) : ∀ pos, pos + ss.sum ≤ v.ncol →
    List.Forall₂ (fun s a => a.ncol = s) ss (v.slices pos ss) := by
  induction ss with
  | nil => exact fun _ _ => .nil
  | cons s ss ih =>
    intro pos h
    rw [List.sum_cons] at h
    exact .cons (by rw [Arr2.cols_ncol _ (by omega)]; omega) (ih _ (by omega))

theorem forall₂_map_mem {β γ δ : Type} {S : γ → δ → Prop} {f : β → γ} {g : β → δ} {l : List β}
    (h : List.Forall₂ S (l.map f) (l.map g)) : ∀ n ∈ l, S (f n) (g n) := by
  induction l with
  | nil => exact nofun
  | cons x l ih =>
    rw [List.map_cons, List.map_cons, List.forall₂_cons] at h
    intro n hn
    rcases List.mem_cons.1 hn with rfl | hn
    · exact h.1
    · exact ih h.2 n hn

theorem valueAt_isParam {m : HV α} (hw : m.WF) {p : List Name} {a : Arr2 α} (h : IsParam m p a) : valueAt m (pathName p) = a := by
  have : assoc (pathName p) (iterParams false m) = some a :=
    assoc_of_mem (iterParams_nodup false hw) (mem_iterParams_false.2 ⟨p, h, rfl⟩)
  simp [valueAt, this]

/-- The copy of an object without batch, for a batch of values: the selected parameters have as many rows as there are values, the others
are those of the object. -/
theorem copy_alike {m m' : HV α} (hw : m.WF) (hu : Spec.Unbatched m) {ns : List Name} (hnd : ns.Nodup)
    (hup : ∀ n ∈ ns, n ∈ m.updatableNames) {v : Arr2 α} (hwid : totalSize m ns = v.ncol) (hrow : 1 ≤ v.nrow)
    (h : m.makeCopy (.d2 v) (some ns) = .ok m') :
    m'.WF ∧ HV.Alike (fun p x y => y.ncol = x.ncol ∧ x.nrow = 1 ∧ y.nrow = (if pathName p ∈ ns then v.nrow else 1) ∧
      (pathName p ∉ ns → y = x)) m m' := by
  have hall : ∀ n ∈ ns, n ∈ m.allNames := fun n hn => updatable_subset (hup n hn)
  obtain ⟨m1, h1, h2, _, _, h5, h6, h7, _⟩ := makeCopy_writes hw hu hnd hup hwid hrow
  rw [h] at h1
  cases h1
  refine ⟨h2, makeCopy_skel hw hall h, fun p x y hx hy => ?_⟩
  by_cases hp : pathName p ∈ ns
  · have e1 := valueAt_isParam h2 hy
    have e2 := slices_nrow _ (h5 _ hp)
    have e3 := slices_ncol (v := v) (ns.map (sizeAt m)) 0 (by rw [Nat.zero_add, ← hwid]; exact le_refl _)
    rw [← h6] at e3
    have e4 := forall₂_map_mem e3 _ hp
    rw [e1] at e2 e4
    refine ⟨by rw [e4]; exact sizeAt_unbatched hw hu hx, hu _ _ hx, by rw [if_pos hp, e2], fun hn => absurd hp hn⟩
  · have := hx.unique ((h7 p y hp).1 hy) hw
    subst this
    exact ⟨rfl, hu _ _ hx, by rw [if_neg hp]; exact hu _ _ hx, fun _ => rfl⟩

/-- The copy for one of the rows holds that row of every value. -/
theorem copy_row {m m' : HV α} (hw : m.WF) (hu : Spec.Unbatched m) {ns : List Name} (hnd : ns.Nodup)
    (hup : ∀ n ∈ ns, n ∈ m.updatableNames) {v w : Arr2 α} (hwid : totalSize m ns = v.ncol) (hrow : 1 ≤ v.nrow)
    (h : m.makeCopy (.d2 v) (some ns) = .ok m') {i : Nat} (hv : Arr2.RowOf i v w) :
    ∃ mi, m.makeCopy (.d2 w) (some ns) = .ok mi ∧ HV.Alike (fun _ => Arr2.RowOf i) m' mi := by
  have hall : ∀ n ∈ ns, n ∈ m.allNames := fun n hn => updatable_subset (hup n hn)
  obtain ⟨m1, h1, h2, _, _, _, h6, h7, _⟩ := makeCopy_writes hw hu hnd hup hwid hrow
  rw [h] at h1
  cases h1
  obtain ⟨mi, g1, g2, _, _, _, g6, g7, _⟩ := makeCopy_writes hw hu hnd hup (v := w) (by rw [hv.1, hwid])
    (by rw [Arr2.nrow, hv.2]; exact le_refl 1)
  refine ⟨mi, g1, by rw [makeCopy_skel hw hall g1, makeCopy_skel hw hall h], fun p x y hx hy => ?_⟩
  by_cases hp : pathName p ∈ ns
  · have e := slices_rowOf hv (ns.map (sizeAt m)) 0
    rw [← h6, ← g6] at e
    have e4 := forall₂_map_mem e _ hp
    rwa [valueAt_isParam h2 hx, valueAt_isParam g2 hy] at e4
  · have hx' := (h7 p x hp).1 hx
    have := hx'.unique ((g7 p y hp).1 hy) hw
    subst this
    exact Arr2.rowOf_self (hu _ _ hx')

end Verif
