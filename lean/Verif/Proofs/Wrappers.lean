import Verif.Model.Wrappers
import Verif.Props.Container
import Verif.Props.Distributions
/-!
# Lemmas about the wrappers
-/

namespace Verif

theorem Mat.toMat_toArr2 (A : Mat) : A.toArr2.toMat = A := by
  obtain ⟨m, n, A⟩ := A
  have hm : (Mat.toArr2 ⟨m, n, A⟩).nrow = m := by simp [Mat.toArr2, Arr2.nrow]
  refine Mat.ext_at hm rfl fun i hi j hj => ?_
  have hi' : i < m := by simpa [Arr2.toMat, hm] using hi
  have hj' : j < n := by simpa [Arr2.toMat, Mat.toArr2] using hj
  rw [Mat.at_lt hi hj, Mat.at_lt hi' hj']
  simp [Arr2.toMat, Mat.toArr2, List.getD_eq_getElem?_getD, hi', hj']

theorem Arr2.toArr2_toMat (a : Arr2 ℝ) : a.toMat.toArr2 = a := by
  apply Arr2.ext'
  · rfl
  · apply List.ext_getElem
    · simp [Mat.toArr2, Arr2.toMat, Arr2.nrow]
    · intro i h1 h2
      have hlen : a.rows[i].length = a.ncol := a.wf _ (List.getElem_mem _)
      apply List.ext_getElem
      · simp [Mat.toArr2, Arr2.toMat, hlen]
      · intro j h3 h4
        simp [Mat.toArr2, Arr2.toMat, List.getD_eq_getElem?_getD, h2, h4]

@[simp] theorem Mat.toArr2_ncol (A : Mat) : A.toArr2.ncol = A.n := rfl
@[simp] theorem Mat.toArr2_nrow (A : Mat) : A.toArr2.nrow = A.m := by simp [Mat.toArr2, Arr2.nrow]
@[simp] theorem Arr2.toMat_n (a : Arr2 ℝ) : a.toMat.n = a.ncol := rfl
@[simp] theorem Arr2.toMat_m (a : Arr2 ℝ) : a.toMat.m = a.nrow := rfl

namespace Arr2
variable {α : Type}

theorem hcat_pair {a b : Arr2 α} (h : a.nrow = b.nrow) :
    ∃ j, hcat [a, b] = .ok j ∧ j.nrow = a.nrow ∧ j.ncol = a.ncol + b.ncol ∧ j.cols 0 a.ncol = a ∧ j.cols a.ncol j.ncol = b := by
  have hj : ∃ j, hcat [a, b] = .ok j ∧ j.ncol = a.ncol + b.ncol ∧ j.rows = List.zipWith (· ++ ·) a.rows b.rows := by
    simp only [hcat, hcat2, bind, Except.bind]
    rw [if_pos h]
    exact ⟨_, rfl, rfl, rfl⟩
  obtain ⟨j, h1, h2, h3⟩ := hj
  have hlen : j.rows.length = a.rows.length := by
    rw [h3, List.length_zipWith]
    simp only [nrow] at h
    omega
  have hrow : ∀ i (hi : i < j.rows.length) (ha : i < a.rows.length) (hb : i < b.rows.length), j.rows[i] = a.rows[i] ++ b.rows[i] := by
    intro i hi ha hb
    simp only [h3, List.getElem_zipWith]
  refine ⟨j, h1, hlen, h2, ?_, ?_⟩
  · apply ext'
    · simp [cols, h2]
    · apply List.ext_getElem
      · simpa [cols] using hlen
      · intro i hi ha
        have hb : i < b.rows.length := by simp only [nrow] at h; omega
        have hla : a.rows[i].length = a.ncol := a.wf _ (List.getElem_mem _)
        simp only [cols, List.getElem_map, List.drop_zero, Nat.sub_zero]
        rw [hrow i (by omega) ha hb, ← hla, List.take_left']
        rfl
  · apply ext'
    · simp [cols, h2]
    · apply List.ext_getElem
      · simp only [cols, List.length_map]; simp only [nrow] at h; omega
      · intro i hi hb
        have ha : i < a.rows.length := by simp only [nrow] at h; omega
        have hla : a.rows[i].length = a.ncol := a.wf _ (List.getElem_mem _)
        have hlb : b.rows[i].length = b.ncol := b.wf _ (List.getElem_mem _)
        simp only [cols, List.getElem_map]
        rw [hrow i (by omega) ha hb, List.drop_left' hla, h2, Nat.add_sub_cancel_left, ← hlb, List.take_length]

/-- Cutting an array in two and joining the parts. -/
theorem hcat_cut (j : Arr2 α) {k : Nat} (hk : k ≤ j.ncol) : hcat [j.cols 0 k, j.cols k j.ncol] = .ok j := by
  have := hcat2_cols j (p := 0) (s := k) (t := j.ncol - k) (by omega)
  simp only [hcat, bind, Except.bind]
  have e1 : 0 + k = k := by omega
  have e2 : k + (j.ncol - k) = j.ncol := by omega
  simp only [e1, e2] at this
  rw [this, cols_full]

end Arr2


variable {α : Type}

/-! ## Copies of containers depend on the layout only -/

/-- Two containers have the same fields, of the same widths (`None` in the same places). -/
def Spec.SameLayout (c d : Container α) : Prop :=
  c.fields.map (fun p => (p.1, p.2.map Arr2.ncol)) = d.fields.map fun p => (p.1, p.2.map Arr2.ncol)

theorem fillFrom_layout {fs gs : List (Name × Option (Arr2 α))} (v : Arr2 α)
    (h : fs.map (fun p => (p.1, p.2.map Arr2.ncol)) = gs.map fun p => (p.1, p.2.map Arr2.ncol)) : ∀ pos,
    Container.fillFrom v pos fs = Container.fillFrom v pos gs := by
  induction fs generalizing gs with
  | nil =>
    intro pos
    cases gs with
    | nil => rfl
    | cons g gs => simp at h
  | cons f fs ih =>
    intro pos
    cases gs with
    | nil => simp at h
    | cons g gs =>
      rw [List.map_cons, List.map_cons, List.cons.injEq, Prod.mk.injEq] at h
      obtain ⟨⟨h1, h2⟩, h3⟩ := h
      obtain ⟨k, f⟩ := f
      obtain ⟨l, g⟩ := g
      simp only at h1 h2
      subst h1
      cases f with
      | none =>
        cases g with
        | none => rw [Container.fillFrom, Container.fillFrom, ih h3]
        | some b => simp at h2
      | some a =>
        cases g with
        | none => simp at h2
        | some b =>
          simp only [Option.map_some, Option.some.injEq] at h2
          rw [Container.fillFrom, Container.fillFrom, ih h3, h2]

theorem makeCopy_layout {c d : Container α} (h : Spec.SameLayout c d) (v : Vals α) : c.makeCopy v = d.makeCopy v := by
  unfold Container.makeCopy Container.fromNumpy
  rw [fillFrom_layout _ h]

theorem held_layout {fs gs : List (Name × Option (Arr2 α))}
    (h : fs.map (fun p => (p.1, p.2.map Arr2.ncol)) = gs.map fun p => (p.1, p.2.map Arr2.ncol)) :
    (Spec.held ⟨fs⟩).map (fun p => p.2.ncol) = (Spec.held ⟨gs⟩).map fun p => p.2.ncol := by
  induction fs generalizing gs with
  | nil =>
    cases gs with
    | nil => rfl
    | cons g gs => simp at h
  | cons f fs ih =>
    cases gs with
    | nil => simp at h
    | cons g gs =>
      rw [List.map_cons, List.map_cons, List.cons.injEq, Prod.mk.injEq] at h
      obtain ⟨⟨h1, h2⟩, h3⟩ := h
      obtain ⟨k, f⟩ := f
      obtain ⟨l, g⟩ := g
      cases f with
      | none =>
        cases g with
        | none => rw [held_cons_none, held_cons_none, ih h3]
        | some b => simp at h2
      | some a =>
        cases g with
        | none => simp at h2
        | some b =>
          simp only [Option.map_some, Option.some.injEq] at h2
          rw [held_cons_some, held_cons_some, List.map_cons, List.map_cons, ih h3, h2]

theorem len_layout {c d : Container α} (hc : (c.fields.map (·.1)).Nodup) (h : Spec.SameLayout c d) : c.len = d.len := by
  have hd : (d.fields.map (·.1)).Nodup := by
    have := congrArg (List.map Prod.fst) h
    simp only [List.map_map, Function.comp_def] at this
    rwa [← this]
  rw [len_eq hc, len_eq hd, held_layout h]

theorem toNumpy_len {c : Container α} (hc : (c.fields.map (·.1)).Nodup) {v : Arr2 α} (h : c.toNumpy = .ok v) : v.ncol = c.len := by
  obtain ⟨b, hb, hv⟩ := toNumpy_ok h
  rw [hcat_ncol hv, len_eq hc, List.map_map]
  congr 1
  apply List.map_congr_left
  intro p _
  exact expandTo_ncol _ _

/-! ## Copies of health variables -/

theorem slices_nrow {v : Arr2 α} {ss : List Nat} : ∀ {pos : Nat}, ∀ a ∈ v.slices pos ss, a.nrow = v.nrow := by
  induction ss with
  | nil => intro pos a ha; simp [Arr2.slices] at ha
  | cons s ss ih =>
    intro pos a ha
    rw [Arr2.slices, List.mem_cons] at ha
    rcases ha with rfl | ha
    · simp
    · exact ih a ha

theorem width_eq {m : HV α} (hw : m.WF) (hu : Spec.Unbatched m) {ns : List Name} (hall : ∀ n ∈ ns, n ∈ m.allNames) {p : Arr2 α}
    (h : m.getParameters (some ns) = .ok p) : totalSize m ns = p.ncol := by
  have hb : m.batchSize = .ok 1 :=
    ((C12_batch_size m fun p a hp => by rw [hu p a hp]).1 1).2 ⟨fun p a hp => .inl (hu p a hp), .inl rfl⟩
  by_cases hne : ns = []
  · subst hne
    simp only [HV.getParameters, Option.getD_some, if_true, hb] at h
    cases h
    rfl
  · rw [getParameters_names hw hne hall hb] at h
    rw [hcat_ncol h, List.map_map]
    unfold totalSize
    congr 1
    apply List.map_congr_left
    intro n hn
    obtain ⟨p, hp, hpn⟩ := mem_iterParams_false.1 (valueAt_mem (hall n hn))
    simp only [Function.comp, expandTo_ncol]
    have := sizeAt_unbatched hw hu hp
    rwa [← hpn] at this

/-- `make_copy` of an object without batch, for distinct updatable parameters and a vector of their total width. -/
theorem makeCopy_writes {m : HV α} (hw : m.WF) (hu : Spec.Unbatched m) {ns : List Name} (hnd : ns.Nodup)
    (hup : ∀ n ∈ ns, n ∈ m.updatableNames) {v : Arr2 α} (hwid : totalSize m ns = v.ncol) (hrow : 1 ≤ v.nrow) :
    ∃ m', m.makeCopy (.d2 v) (some ns) = .ok m' ∧ m'.WF ∧ m'.allNames = m.allNames ∧ m'.updatableNames = m.updatableNames ∧
      (∀ n ∈ ns, valueAt m' n ∈ v.slices 0 (ns.map (sizeAt m))) ∧
      ns.map (valueAt m') = v.slices 0 (ns.map (sizeAt m)) ∧
      (∀ p a, pathName p ∉ ns → (IsParam m' p a ↔ IsParam m p a)) ∧
      (ns ≠ [] ∨ v.nrow = 1 → m'.batchSize = .ok v.nrow ∧ m'.getParameters (some ns) = .ok v) := by
  have hall : ∀ n ∈ ns, n ∈ m.allNames := fun n hn => updatable_subset (hup n hn)
  obtain ⟨k, _, h1, h2, _, h4⟩ := update_spec (v := .d2 v) hw hall hnd
  rcases h4 with ⟨_, _, a3, a4⟩ | ⟨a1, _⟩
  rotate_left
  · exact absurd ⟨hup, hwid⟩ a1
  rcases hup' : m.updateParameters (.d2 v) (some ns) with ⟨m', r⟩
  rw [hup'] at h1 h2 a4
  simp only at h1 h2 a4
  subst a4
  obtain ⟨c1, c2, c3, c4⟩ := C05_untouched m hw (.d2 v) ns hall m' _ hup'
  have hlen : (writesFrom m (Vals.to2d (.d2 v)) 0 ns).length = ns.length := by
    rw [← List.length_map (f := (·.1)), writesFrom_names]
  have htake : (writesFrom m (Vals.to2d (.d2 v)) 0 ns).take k = writesFrom m (Vals.to2d (.d2 v)) 0 ns := by
    rw [a3, ← hlen, List.take_length]
  simp only [htake] at h2
  have hvals : ns.map (valueAt m') = v.slices 0 (ns.map (sizeAt m)) := by
    have e : (v : Arr2 α) = Vals.to2d (.d2 v) := rfl
    rw [e, ← slices_eq_writes]
    have : ns.map (valueAt m') = ((writesFrom m (Vals.to2d (.d2 v)) 0 ns).map (·.1)).map (valueAt m') := by rw [writesFrom_names]
    rw [this, List.map_map]
    apply List.map_congr_left
    intro q hq
    simp only [Function.comp]
    rw [valueAt_written h1 (h2 false) (by rw [writesFrom_names]; exact hnd) hq (hall _ (writes_mem_names hq))]
  refine ⟨m', by unfold HV.makeCopy; rw [hup'], c1, c2, c3, ?_, hvals, fun p a hp => (c4 p hp a).1, ?_⟩
  · intro n hn
    rw [← hvals]
    exact List.mem_map_of_mem hn
  · intro hor
    by_cases hne : ns = []
    · subst hne
      have h1' : v.nrow = 1 := by rcases hor with h | h; exact absurd rfl h; exact h
      have hu' : ∀ p a, IsParam m' p a → a.nrow = 1 := fun p a hp => hu p a ((c4 p (by simp) a).1.1 hp)
      have hb : m'.batchSize = .ok 1 := ((C12_batch_size m' fun p a hp => by rw [hu' p a hp]).1 1).2
        ⟨fun p a hp => .inl (hu' p a hp), .inl rfl⟩
      rw [h1']
      refine ⟨hb, ?_⟩
      simp only [HV.getParameters, Option.getD_some, if_true, hb]
      have hz : v.ncol = 0 := by rw [← hwid]; rfl
      show Except.ok _ = _
      congr 1
      apply Arr2.ext'
      · exact hz.symm
      · have hl : v.rows.length = 1 := h1'
        obtain ⟨r, hr⟩ := List.length_eq_one_iff.1 hl
        have : r.length = 0 := by rw [← hz]; exact v.wf r (by simp [hr])
        rw [hr, List.length_eq_zero_iff.1 this]
        rfl
    · exact C03_update_then_get_exact m hw (.d2 v) ns hne hnd hall hrow (fun p a hp _ => hu p a hp) m' hup'

end Verif
