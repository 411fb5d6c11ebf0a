import Verif.Proofs.HealthAlike
import Verif.Proofs.Expand
/-!
# How updates of parameters compose (C136)
-/

namespace Verif
variable {α : Type}

/-! ## Lemmas -/

mutual
theorem iterParams_length : ∀ m : HV α, (iterParams false m).length = (iterParams false (skel m)).length
  | .mk u fs => by simpa only [iterParams, skel] using iterFields_length u fs
theorem iterFields_length (u : List Name) : ∀ fs : List (Name × Field α), (iterFields false u fs).length = (iterFields false u (skelFields fs)).length
  | [] => rfl
  | (k, f) :: fs => by
    simp only [iterFields, skelFields, Bool.false_and, Bool.false_eq_true, if_false, List.length_append]
    rw [iterField_length k f, iterFields_length u fs]
theorem iterField_length (k : Name) : ∀ f : Field α, (iterField false k f).length = (iterField false k (skelField f)).length
  | .arr _ => rfl
  | .sub m => by simpa only [iterField, skelField, List.length_map] using iterParams_length m
  | .tup ms => by simpa only [iterField, skelField] using iterSeq_length k 0 ms
  | .lst ms => by simpa only [iterField, skelField] using iterSeq_length k 0 ms
  | .dict ms => by simpa only [iterField, skelField] using iterDict_length k ms
  | .other => rfl
theorem iterSeq_length (k : Name) : ∀ (i : Nat) (ms : List (HV α)), (iterSeq false k i ms).length = (iterSeq false k i (skelList ms)).length
  | _, [] => rfl
  | i, m :: ms => by
    simp only [iterSeq, skelList, List.length_append, List.length_map]
    rw [iterParams_length m, iterSeq_length k (i + 1) ms]
theorem iterDict_length (k : Name) : ∀ ms : List (Name × HV α), (iterDict false k ms).length = (iterDict false k (skelDict ms)).length
  | [] => rfl
  | (j, m) :: ms => by
    simp only [iterDict, skelDict, List.length_append, List.length_map]
    rw [iterParams_length m, iterDict_length k ms]
end

mutual
theorem skel_ext' : ∀ m m' : HV α, skel m = skel m' → (iterParams false m).map (·.2) = (iterParams false m').map (·.2) → m = m'
  | .mk u fs => fun m' hs hv => by
    obtain ⟨u', fs'⟩ := m'
    simp only [skel, HV.mk.injEq] at hs
    obtain ⟨rfl, hs⟩ := hs
    rw [skelFields_ext u fs fs' hs (by simpa only [iterParams] using hv)]
theorem skelFields_ext (u : List Name) : ∀ fs fs' : List (Name × Field α), skelFields fs = skelFields fs' →
    (iterFields false u fs).map (·.2) = (iterFields false u fs').map (·.2) → fs = fs'
  | [] => fun fs' hs _ => by cases fs' <;> simp [skelFields_eq] at hs ⊢
  | (k, f) :: fs => fun fs' hs hv => by
    cases fs' with
    | nil => simp [skelFields_eq] at hs
    | cons q fs' =>
      obtain ⟨k', f'⟩ := q
      simp only [skelFields, List.cons.injEq, Prod.mk.injEq] at hs
      obtain ⟨⟨rfl, hf⟩, hs⟩ := hs
      simp only [iterFields, Bool.false_and, Bool.false_eq_true, if_false, List.map_append] at hv
      obtain ⟨h1, h2⟩ := List.append_inj hv (by rw [List.length_map, List.length_map, iterField_length k f, iterField_length k f', hf])
      rw [skelField_ext k f f' hf h1, skelFields_ext u fs fs' hs h2]
theorem skelField_ext (k : Name) : ∀ f f' : Field α, skelField f = skelField f' →
    (iterField false k f).map (·.2) = (iterField false k f').map (·.2) → f = f'
  | .arr a => fun f' hs hv => by
    cases f' <;> simp [skelField] at hs
    simpa [iterField] using hv
  | .sub m => fun f' hs hv => by
    cases f' <;> simp only [skelField, Field.sub.injEq, reduceCtorEq] at hs
    simp only [iterField, List.map_map] at hv
    rw [skel_ext' m _ hs hv]
  | .tup ms => fun f' hs hv => by
    cases f' <;> simp only [skelField, Field.tup.injEq, reduceCtorEq] at hs
    simp only [iterField] at hv
    rw [skelList_ext k ms _ 0 hs hv]
  | .lst ms => fun f' hs hv => by
    cases f' <;> simp only [skelField, Field.lst.injEq, reduceCtorEq] at hs
    simp only [iterField] at hv
    rw [skelList_ext k ms _ 0 hs hv]
  | .dict ms => fun f' hs hv => by
    cases f' <;> simp only [skelField, Field.dict.injEq, reduceCtorEq] at hs
    simp only [iterField] at hv
    rw [skelDict_ext k ms _ hs hv]
  | .other => fun f' hs _ => by cases f' <;> simp [skelField] at hs ⊢
theorem skelList_ext (k : Name) : ∀ (ms ms' : List (HV α)) (i : Nat), skelList ms = skelList ms' →
    (iterSeq false k i ms).map (·.2) = (iterSeq false k i ms').map (·.2) → ms = ms'
  | [] => fun ms' i hs _ => by cases ms' <;> simp [skelList] at hs ⊢
  | m :: ms => fun ms' i hs hv => by
    cases ms' with
    | nil => simp [skelList] at hs
    | cons m' ms' =>
      simp only [skelList, List.cons.injEq] at hs
      simp only [iterSeq, List.map_append, List.map_map] at hv
      obtain ⟨h1, h2⟩ := List.append_inj hv (by rw [List.length_map, List.length_map, iterParams_length m, iterParams_length m', hs.1])
      rw [skel_ext' m m' hs.1 h1, skelList_ext k ms ms' (i + 1) hs.2 h2]
theorem skelDict_ext (k : Name) : ∀ ms ms' : List (Name × HV α), skelDict ms = skelDict ms' →
    (iterDict false k ms).map (·.2) = (iterDict false k ms').map (·.2) → ms = ms'
  | [] => fun ms' hs _ => by cases ms' <;> simp [skelDict_eq] at hs ⊢
  | (j, m) :: ms => fun ms' hs hv => by
    cases ms' with
    | nil => simp [skelDict_eq] at hs
    | cons q ms' =>
      obtain ⟨j', m'⟩ := q
      simp only [skelDict, List.cons.injEq, Prod.mk.injEq] at hs
      obtain ⟨⟨rfl, hm⟩, hs⟩ := hs
      simp only [iterDict, List.map_append, List.map_map] at hv
      obtain ⟨h1, h2⟩ := List.append_inj hv (by rw [List.length_map, List.length_map, iterParams_length m, iterParams_length m', hm])
      rw [skel_ext' m m' hm h1, skelDict_ext k ms ms' hs h2]
end

/-- Two objects with the same attributes and the same values are the same. -/
theorem skel_ext {m m' : HV α} (hs : skel m = skel m') (hv : (iterParams false m).map (·.2) = (iterParams false m').map (·.2)) : m = m' :=
  skel_ext' m m' hs hv

theorem update_skel {m m' : HV α} (hw : m.WF) {ns : List Name} (hall : ∀ n ∈ ns, n ∈ m.allNames) {v : Vals α} {r : Except Err Unit}
    (h : m.updateParameters v (some ns) = (m', r)) : skel m' = skel m := by
  have := updateLoop_skel (v := v.to2d) (pos := 0) (e := 0) hw hall
  have hm : (m.updateParameters v (some ns)).1 = m' := by rw [h]
  rw [← hm, updateParameters_fst]
  exact this

/-- A successful update writes the columns of the values to the parameters. -/
theorem update_ok_iff {m : HV α} (hw : m.WF) {ns : List Name} (hall : ∀ n ∈ ns, n ∈ m.allNames) (hnd : ns.Nodup) {v : Vals α} {m' : HV α} :
    m.updateParameters v (some ns) = (m', .ok ()) ↔ ((∀ n ∈ ns, n ∈ m.updatableNames) ∧ totalSize m ns = v.to2d.ncol) ∧
      skel m' = skel m ∧ (iterParams false m').map (·.2) = ((iterParams false m).map (assign (writesFrom m v.to2d 0 ns))).map (·.2) := by
  obtain ⟨k, -, -, h2, -, h4⟩ := update_spec (v := v) hw hall hnd
  have hlen : (writesFrom m v.to2d 0 ns).length = ns.length := by rw [← List.length_map (f := (·.1)), writesFrom_names]
  rcases h4 with ⟨a1, a2, rfl, a4⟩ | ⟨a1, a2⟩
  · have h2 := h2 false
    rw [← hlen, List.take_length] at h2
    have hsk : skel (m.updateParameters v (some ns)).1 = skel m := update_skel hw hall (v := v) (r := (m.updateParameters v (some ns)).2) rfl
    constructor
    · intro h
      rw [h] at h2 hsk
      exact ⟨⟨a1, a2⟩, hsk, by rw [h2]⟩
    · rintro ⟨-, h5, h6⟩
      refine Prod.ext (skel_ext (hsk.trans h5.symm) ?_) a4
      rw [h2, h6]
  · constructor
    · intro h
      rw [h] at a2
      simp at a2
    · exact fun h => absurd h.1 a1

theorem update_result {m : HV α} (hw : m.WF) {ns : List Name} (hall : ∀ n ∈ ns, n ∈ m.allNames) (hnd : ns.Nodup) (v : Vals α) :
    ((∀ n ∈ ns, n ∈ m.updatableNames) ∧ totalSize m ns = v.to2d.ncol ∧ (m.updateParameters v (some ns)).2 = .ok ()) ∨
      (¬ ((∀ n ∈ ns, n ∈ m.updatableNames) ∧ totalSize m ns = v.to2d.ncol) ∧ (m.updateParameters v (some ns)).2 = .error .valueError) := by
  obtain ⟨k, -, -, -, -, h4⟩ := update_spec (v := v) hw hall hnd
  exact h4.imp (fun h => ⟨h.1, h.2.1, h.2.2.2⟩) id

theorem assoc_some_of_mem {β : Type} {n : Name} {l : List (Name × β)} (h : n ∈ l.map (·.1)) : ∃ b, assoc n l = some b := by
  induction l with
  | nil => simp at h
  | cons p l ih =>
    obtain ⟨k, b⟩ := p
    by_cases hk : k = n
    · exact ⟨b, by simp [assoc, hk]⟩
    · obtain ⟨c, hc⟩ := ih (by simpa [Ne.symm hk] using h)
      exact ⟨c, by simp [assoc, hk, hc]⟩

theorem assign_assign {ws ws' : List (Name × Arr2 α)} (h : ws.map (·.1) = ws'.map (·.1)) (q : Name × Arr2 α) : assign ws' (assign ws q) = assign ws' q := by
  unfold assign
  simp only [Prod.mk.injEq, true_and]
  by_cases hq : q.1 ∈ ws'.map (·.1)
  · obtain ⟨b, hb⟩ := assoc_some_of_mem hq
    rw [hb]; rfl
  · have hno : ∀ l : List (Name × Arr2 α), q.1 ∉ l.map (·.1) → assoc q.1 l = none := fun l hl => by
      cases ha : assoc q.1 l with
      | none => rfl
      | some v => exact absurd (List.mem_map_of_mem (f := (·.1)) (assoc_mem ha)) hl
    rw [hno ws' hq, hno ws (h ▸ hq)]
    rfl

theorem assoc_assign {ws l : List (Name × Arr2 α)} (n : Name) : assoc n (l.map (assign ws)) = (assoc n l).map fun a => (assoc n ws).getD a := by
  induction l with
  | nil => rfl
  | cons q l ih =>
    obtain ⟨k, a⟩ := q
    simp only [List.map_cons, assign, assoc, ih]
    split
    · rename_i hk; subst hk; rfl
    · rfl

theorem writesFrom_shape {m : HV α} {v : Arr2 α} {ns : List Name} : ∀ {pos : Nat}, pos + totalSize m ns ≤ v.ncol → ∀ q ∈ writesFrom m v pos ns,
    q.2.nrow = v.nrow ∧ q.2.ncol = sizeAt m q.1 := by
  induction ns with
  | nil => intro pos _ q hq; simp [writesFrom] at hq
  | cons n ns ih =>
    intro pos h q hq
    simp only [totalSize, List.map_cons, List.sum_cons] at h
    simp only [writesFrom, List.mem_cons] at hq
    rcases hq with rfl | hq
    · refine ⟨Arr2.cols_nrow .., ?_⟩
      rw [Arr2.cols_ncol _ (by omega)]
      exact Nat.add_sub_cancel_left _ _
    · exact ih (by unfold totalSize; omega) q hq

/-- One row written to parameters leaves their numbers of entries as they are. -/
theorem sizeAt_written {m m₁ : HV α} {v : Arr2 α} {ns : List Name} (hall : ∀ n ∈ ns, n ∈ m.allNames) (hv : v.nrow = 1) (hsz : totalSize m ns = v.ncol)
    (h : iterParams false m₁ = (iterParams false m).map (assign (writesFrom m v 0 ns))) : ∀ n ∈ ns, sizeAt m₁ n = sizeAt m n := by
  intro n hn
  obtain ⟨a, ha⟩ := assoc_some_of_mem (hall n hn)
  obtain ⟨b, hb⟩ := assoc_some_of_mem (l := writesFrom m v 0 ns) (n := n) (by rw [writesFrom_names]; exact hn)
  obtain ⟨h1, h2⟩ := writesFrom_shape (pos := 0) (by omega) _ (assoc_mem hb)
  have : sizeAt m₁ n = b.size := by unfold sizeAt; rw [h, assoc_assign, ha, hb]; rfl
  rw [this, Arr2.size, h1, hv, Nat.one_mul, h2]

/-! ## C136 -/

/-- C136, the last update counts.  If one row of values has been written to some parameters, writing other values to them has the same effect as if the
first had not been written: the same object, or the same error. -/
theorem C136_last_counts (m : HV α) (hw : m.WF) (ns : List Name) (hall : ∀ n ∈ ns, n ∈ m.allNames) (hnd : ns.Nodup) (v : Vals α) (hv : v.to2d.nrow = 1)
    {m₁ : HV α} (h : m.updateParameters v (some ns) = (m₁, .ok ())) (v' : Vals α) :
    (∀ m', m₁.updateParameters v' (some ns) = (m', .ok ()) ↔ m.updateParameters v' (some ns) = (m', .ok ())) ∧
      (m₁.updateParameters v' (some ns)).2 = (m.updateParameters v' (some ns)).2 := by
  obtain ⟨hw1, e1, e2, -⟩ := C05_untouched m hw v ns hall m₁ _ h
  obtain ⟨⟨-, hsz⟩, hsk, -⟩ := (update_ok_iff hw hall hnd).1 h
  obtain ⟨k, -, -, h2, -, h4⟩ := update_spec (v := v) hw hall hnd
  have hlen : (writesFrom m v.to2d 0 ns).length = ns.length := by rw [← List.length_map (f := (·.1)), writesFrom_names]
  have hit : iterParams false m₁ = (iterParams false m).map (assign (writesFrom m v.to2d 0 ns)) := by
    rcases h4 with ⟨-, -, rfl, -⟩ | ⟨-, a⟩
    · have := h2 false
      rwa [h, ← hlen, List.take_length] at this
    · rw [h] at a; simp at a
  have hsame := sizeAt_written hall hv hsz hit
  have hall1 : ∀ n ∈ ns, n ∈ m₁.allNames := by rw [e1]; exact hall
  have htot : totalSize m₁ ns = totalSize m ns := congrArg List.sum (List.map_congr_left hsame)
  have hwr : writesFrom m₁ v'.to2d 0 ns = writesFrom m v'.to2d 0 ns := writesFrom_congr hsame
  constructor
  · intro m'
    rw [update_ok_iff hw1 hall1 hnd, update_ok_iff hw hall hnd, e2, htot, hsk, hwr, hit]
    have : (assign (writesFrom m v'.to2d 0 ns) ∘ assign (writesFrom m v.to2d 0 ns)) = assign (writesFrom m v'.to2d 0 ns) :=
      funext fun q => assign_assign (by rw [writesFrom_names, writesFrom_names]) q
    have e : ((iterParams false m).map (assign (writesFrom m v.to2d 0 ns))).map (assign (writesFrom m v'.to2d 0 ns)) =
        (iterParams false m).map (assign (writesFrom m v'.to2d 0 ns)) := by rw [List.map_map, this]
    rw [e]
  · have r1 := update_result hw1 hall1 hnd v'
    have r2 := update_result hw hall hnd v'
    rw [e2, htot] at r1
    rcases r1 with ⟨a, b, c⟩ | ⟨a, c⟩ <;> rcases r2 with ⟨a', b', c'⟩ | ⟨a', c'⟩
    · rw [c, c']
    · exact absurd ⟨a, b⟩ a'
    · exact absurd ⟨a', b'⟩ a
    · rw [c, c']

/-- One row is needed: once two rows have been written, one row is refused that was accepted before. -/
theorem C136_not_after_two_rows :
    ∃ (m m₁ : HV Int) (v v' : Vals Int) (ns : List Name), m.WF ∧ (∀ n ∈ ns, n ∈ m.allNames) ∧ ns.Nodup ∧ m.updateParameters v (some ns) = (m₁, .ok ()) ∧
      (m.updateParameters v' (some ns)).2 = .ok () ∧ (m₁.updateParameters v' (some ns)).2 = .error .valueError :=
  ⟨Demo.obj, _, .d2 (.column [7, 8]), .d1 [9], [['x']], Demo.obj_wf, by decide, by decide, (rfl : _ = (_, _)), by decide, by decide⟩

-- Two rounds of values for `x` and `a.p` of the demo object: the second counts.
example : ∃ m₁ m' : HV Int, Demo.obj.updateParameters (.d1 [7, 8, 9]) (some [['x'], ['a', '.', 'p']]) = (m₁, .ok ()) ∧
    m₁.updateParameters (.d1 [4, 5, 6]) (some [['x'], ['a', '.', 'p']]) = (m', .ok ()) ∧
    Demo.obj.updateParameters (.d1 [4, 5, 6]) (some [['x'], ['a', '.', 'p']]) = (m', .ok ()) :=
  ⟨_, _, (rfl : _ = (_, _)), ((C136_last_counts _ Demo.obj_wf _ (by decide) (by decide) (.d1 [7, 8, 9]) rfl rfl (.d1 [4, 5, 6])).1 _).2 (rfl : _ = (_, _)), rfl⟩

/-! ### One call or several -/

theorem cols_within {v : Arr2 α} {n lo hi : Nat} (h : hi ≤ n) (hn : n ≤ v.ncol) : (v.cols 0 n).cols lo hi = v.cols lo hi := by
  apply Arr2.ext'
  · simp only [Arr2.cols]; omega
  · simp only [Arr2.cols, List.map_map]
    refine List.map_congr_left fun r _ => ?_
    simp only [Function.comp_apply, List.drop_zero, Nat.sub_zero, List.drop_take, List.take_take]
    congr 1
    omega

theorem updateLoop_left {v v₁ v₂ : Arr2 α} (hv : Arr2.hcat2 v₁ v₂ = .ok v) {ns : List Name} : ∀ {m m₁ : HV α} {pos e e' : Nat},
    updateLoop v₁ ns m pos e = (m₁, .ok e') → updateLoop v ns m pos e = (m₁, .ok e') := by
  have hn := (Arr2.hcat2_ok hv).2.1
  have hcols : ∀ {lo hi : Nat}, hi ≤ v₁.ncol → v.cols lo hi = v₁.cols lo hi := fun {lo hi} h => by
    rw [← Arr2.cols_hcat2_left hv, cols_within h (by omega)]
  induction ns with
  | nil => exact fun h => h
  | cons n ns ih =>
    intro m m₁ pos e e' h
    rw [updateLoop] at h ⊢
    split at h
    · simp at h
    rename_i ch hch
    simp only [hch]
    split at h
    · rename_i hup
      rw [if_pos hup]
      split at h
      · simp at h
      rename_i cur hcur
      dsimp only at h
      split at h
      · simp at h
      rename_i hle
      rw [if_neg (by omega), hcols (by omega)]
      split at h
      · simp at h
      rename_i m2 hm2
      exact ih h
    · simp at h

theorem updateLoop_append {v : Arr2 α} {ns₁ ns₂ : List Name} : ∀ {m m₁ : HV α} {pos e : Nat},
    updateLoop v ns₁ m pos pos = (m₁, .ok e) → updateLoop v (ns₁ ++ ns₂) m pos pos = updateLoop v ns₂ m₁ e e := by
  induction ns₁ with
  | nil =>
    intro m m₁ pos e h
    simp only [updateLoop, Prod.mk.injEq, Except.ok.injEq] at h
    obtain ⟨rfl, rfl⟩ := h
    rfl
  | cons n ns ih =>
    intro m m₁ pos e h
    rw [updateLoop] at h
    rw [List.cons_append, updateLoop]
    split at h
    · simp at h
    rename_i ch hch
    simp only [hch]
    split at h
    · rename_i hup
      rw [if_pos hup]
      split at h
      · simp at h
      rename_i cur hcur
      dsimp only at h
      split at h
      · simp at h
      rename_i hle
      rw [if_neg hle]
      split at h
      · simp at h
      rename_i m2 hm2
      exact ih h
    · simp at h

theorem updateLoop_right {v v₁ v₂ : Arr2 α} (hv : Arr2.hcat2 v₁ v₂ = .ok v) {ns : List Name} : ∀ {m : HV α} {pos e : Nat},
    updateLoop v ns m (v₁.ncol + pos) (v₁.ncol + e) = ((updateLoop v₂ ns m pos e).1, (updateLoop v₂ ns m pos e).2.map (v₁.ncol + ·)) := by
  have hn := (Arr2.hcat2_ok hv).2.1
  induction ns with
  | nil => exact rfl
  | cons n ns ih =>
    intro m pos e
    rw [updateLoop, updateLoop]
    cases chain m (Py.splitDots n) with
    | error err => rfl
    | ok ch =>
      simp only []
      split
      · cases lastField ch with
        | error err => rfl
        | ok cur =>
          simp only [Nat.add_assoc]
          by_cases hle : pos + cur.npSize > v₂.ncol
          · rw [if_pos hle, if_pos (by omega)]; rfl
          · rw [if_neg hle, if_neg (by omega), ← Nat.add_assoc, Arr2.cols_hcat2_right hv]
            cases m.setAttr n (.arr (v₂.cols pos (pos + cur.npSize))) with
            | error err => rfl
            | ok m2 =>
              simp only [Nat.add_assoc]
              exact ih
      · rfl

/-- C136, one call or several: once `v₁` has been written to the parameters `ns₁`, writing `v₂` to `ns₂` does just what writing all columns to all names at
once does to the object as it was: the same object and the same outcome. -/
theorem C136_in_parts (m : HV α) (ns₁ ns₂ : List Name) {v₁ v₂ v : Arr2 α} (hv : Arr2.hcat2 v₁ v₂ = .ok v) {m₁ : HV α}
    (h : m.updateParameters (.d2 v₁) (some ns₁) = (m₁, .ok ())) :
    m.updateParameters (.d2 v) (some (ns₁ ++ ns₂)) = m₁.updateParameters (.d2 v₂) (some ns₂) := by
  have hn := (Arr2.hcat2_ok hv).2.1
  have h1 : updateLoop v₁ ns₁ m 0 0 = (m₁, .ok v₁.ncol) := by
    unfold HV.updateParameters at h
    simp only [Option.getD_some, Vals.to2d] at h
    split at h
    · simp at h
    · rename_i m2 e he
      simp only [Prod.mk.injEq] at h
      obtain ⟨rfl, h2⟩ := h
      by_cases hne : e = v₁.ncol
      · rw [he, hne]
      · simp [hne] at h2
  have h2 := updateLoop_append (ns₂ := ns₂) (updateLoop_left hv h1)
  have h3 := updateLoop_right hv (ns := ns₂) (m := m₁) (pos := 0) (e := 0)
  rw [Nat.add_zero] at h3
  rw [h3] at h2
  unfold HV.updateParameters
  simp only [Option.getD_some, Vals.to2d, h2]
  rcases updateLoop v₂ ns₂ m₁ 0 0 with ⟨m2, r⟩
  cases r with
  | error e => rfl
  | ok e =>
    simp only [Except.map]
    by_cases he : e = v₂.ncol
    · simp [he, hn]
    · have : v₁.ncol + e ≠ v.ncol := by omega
      simp only [ne_eq, he, this, not_false_eq_true, if_true]

-- Writing `x`, and then `a.p`, is writing both.
example : Demo.obj.updateParameters (.d2 (.ofRow [7, 8, 9])) (some ([['x']] ++ [['a', '.', 'p']])) =
    (Demo.obj.updateParameters (.d2 (.ofRow [7])) (some [['x']])).1.updateParameters (.d2 (.ofRow [8, 9])) (some [['a', '.', 'p']]) :=
  C136_in_parts Demo.obj [['x']] [['a', '.', 'p']] (v₁ := .ofRow [7]) rfl rfl

/-! ### The order of the names -/

theorem assoc_perm {β : Type} {l l' : List (Name × β)} (hp : l.Perm l') (hnd : (l.map (·.1)).Nodup) (n : Name) : assoc n l = assoc n l' := by
  have hnd' := (hp.map (·.1)).nodup_iff.1 hnd
  cases h : assoc n l with
  | some b => exact (assoc_of_mem hnd' (hp.mem_iff.1 (assoc_mem h))).symm
  | none =>
    cases h' : assoc n l' with
    | none => rfl
    | some b => rw [assoc_of_mem hnd (hp.mem_iff.2 (assoc_mem h'))] at h; cases h

theorem writesFrom_blocks {m : HV α} {v : Arr2 α} {l : List (Name × Arr2 α)} (hwidth : ∀ q ∈ l, q.2.ncol = sizeAt m q.1) : ∀ {pos : Nat},
    v.slices pos (l.map fun q => q.2.ncol) = l.map (·.2) → writesFrom m v pos (l.map (·.1)) = l := by
  induction l with
  | nil => exact fun _ => rfl
  | cons q l ih =>
    intro pos h
    obtain ⟨n, b⟩ := q
    simp only [List.map_cons, Arr2.slices, List.cons.injEq] at h
    have hb : b.ncol = sizeAt m n := hwidth (n, b) (.head _)
    simp only [List.map_cons, writesFrom, ← hb, h.1]
    rw [ih (fun q hq => hwidth q (.tail _ hq)) h.2]

/-- C136, the order does not matter: if the names are listed in another order, and the columns accordingly, the effect is the same. -/
theorem C136_order (m : HV α) (hw : m.WF) {l l' : List (Name × Arr2 α)} (hp : l.Perm l') (hall : ∀ q ∈ l, q.1 ∈ m.allNames) (hnd : (l.map (·.1)).Nodup)
    (hwidth : ∀ q ∈ l, ∀ p a, IsParam m p a → pathName p = q.1 → q.2.ncol = a.size) {v v' : Arr2 α} (hv : Arr2.hcat (l.map (·.2)) = .ok v)
    (hv' : Arr2.hcat (l'.map (·.2)) = .ok v') :
    (∀ m', m.updateParameters (.d2 v) (some (l.map (·.1))) = (m', .ok ()) ↔ m.updateParameters (.d2 v') (some (l'.map (·.1))) = (m', .ok ())) ∧
      (m.updateParameters (.d2 v) (some (l.map (·.1)))).2 = (m.updateParameters (.d2 v') (some (l'.map (·.1)))).2 := by
  have hnd' := (hp.map (·.1)).nodup_iff.1 hnd
  have hall1 : ∀ n ∈ l.map (·.1), n ∈ m.allNames := fun n hn => by
    obtain ⟨q, hq, rfl⟩ := List.mem_map.1 hn
    exact hall q hq
  have hall2 : ∀ n ∈ l'.map (·.1), n ∈ m.allNames := fun n hn => hall1 n ((hp.map (·.1)).mem_iff.2 hn)
  have hw1 : ∀ q ∈ l, q.2.ncol = sizeAt m q.1 := fun q hq => by
    obtain ⟨p, a, hpa, hpn⟩ := mem_allNames.1 (hall q hq)
    rw [hpn, sizeAt_of_isParam hw hpa]
    exact hwidth q hq p a hpa hpn.symm
  have hw2 : ∀ q ∈ l', q.2.ncol = sizeAt m q.1 := fun q hq => hw1 q (hp.mem_iff.2 hq)
  have b1 : writesFrom m v 0 (l.map (·.1)) = l := writesFrom_blocks hw1 (by have := Arr2.slices_hcat hv; rwa [List.map_map] at this)
  have b2 : writesFrom m v' 0 (l'.map (·.1)) = l' := writesFrom_blocks hw2 (by have := Arr2.slices_hcat hv'; rwa [List.map_map] at this)
  have hup : (∀ n ∈ l.map (·.1), n ∈ m.updatableNames) ↔ ∀ n ∈ l'.map (·.1), n ∈ m.updatableNames :=
    forall_congr' fun n => by rw [(hp.map (·.1)).mem_iff]
  have hsz : totalSize m (l.map (·.1)) = totalSize m (l'.map (·.1)) := by
    unfold totalSize
    exact ((hp.map (fun q => q.1)).map (sizeAt m)).sum_eq
  have hcol : v.ncol = v'.ncol := by
    rw [hcat_ncol hv, hcat_ncol hv']
    exact ((hp.map (fun q => q.2)).map (fun a => a.ncol)).sum_eq
  have has : assign l = assign l' := funext fun q => by unfold assign; rw [assoc_perm hp hnd]
  constructor
  · intro m'
    rw [update_ok_iff hw hall1 hnd, update_ok_iff hw hall2 hnd', hup, hsz]
    simp only [Vals.to2d, b1, b2, hcol, has]
  · have r1 := update_result hw hall1 hnd (.d2 v)
    have r2 := update_result hw hall2 hnd' (.d2 v')
    simp only [Vals.to2d] at r1 r2
    rw [hup, hsz, hcol] at r1
    rcases r1 with ⟨a, b, c⟩ | ⟨a, c⟩ <;> rcases r2 with ⟨a', b', c'⟩ | ⟨a', c'⟩
    · rw [c, c']
    · exact absurd ⟨a, b⟩ a'
    · exact absurd ⟨a', b'⟩ a
    · rw [c, c']

-- `a.p` before `x`, with their columns in this order.
example : (Demo.obj.updateParameters (.d2 (.ofRow [8, 9, 7])) (some [['a', '.', 'p'], ['x']])) =
    Demo.obj.updateParameters (.d2 (.ofRow [7, 8, 9])) (some [['x'], ['a', '.', 'p']]) := by
  have h := (C136_order Demo.obj Demo.obj_wf (l := [(['x'], .ofRow [7]), (['a', '.', 'p'], .ofRow [8, 9])]) (.swap ..) (by decide) (by decide)
    (by
      intro q hq p a hp hn
      have hd : ∀ r ∈ iterParams false Demo.obj, ∀ q ∈ [((['x'] : Name), Arr2.ofRow [(7 : Int)]), (['a', '.', 'p'], .ofRow [8, 9])], r.1 = q.1 → q.2.ncol = r.2.size := by
        decide
      exact hd _ (mem_iterParams_false.2 ⟨p, hp, rfl⟩) q hq hn) (v := .ofRow [7, 8, 9]) (v' := .ofRow [8, 9, 7]) rfl rfl).1
  exact (h _).1 (rfl : _ = (_, _))

end Verif
