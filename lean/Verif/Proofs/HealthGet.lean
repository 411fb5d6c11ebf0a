import Verif.Proofs.HealthUpdate
/-!
# Columns, batches and `get_parameters` (lemmas)
-/

namespace Verif
variable {α β : Type}

namespace Arr2

theorem cols_full (v : Arr2 α) : v.cols 0 v.ncol = v := by
  apply ext'
  · simp [cols]
  · simp only [cols, List.drop_zero, Nat.sub_zero]
    have : v.rows.map (fun r => r.take v.ncol) = v.rows.map id := by
      apply List.map_congr_left
      intro r hr
      rw [← v.wf r hr]; simp
    rw [this, List.map_id]

@[simp] theorem cols_nrow (v : Arr2 α) (lo hi : Nat) : (v.cols lo hi).nrow = v.nrow := by simp [cols, nrow]

theorem cols_ncol (v : Arr2 α) {lo hi : Nat} (h : hi ≤ v.ncol) : (v.cols lo hi).ncol = hi - lo := by
  simp only [cols]; omega

theorem zipWith_map_same {γ δ : Type} (f : γ → β) (g : γ → δ) {ε : Type} (h : β → δ → ε) (l : List γ) :
    List.zipWith h (l.map f) (l.map g) = l.map fun x => h (f x) (g x) := by
  induction l with
  | nil => rfl
  | cons x xs ih => simp [ih]

theorem hcat2_cols (v : Arr2 α) {p s t : Nat} (h : p + s + t ≤ v.ncol) :
    hcat2 (v.cols p (p + s)) (v.cols (p + s) (p + s + t)) = .ok (v.cols p (p + s + t)) := by
  unfold hcat2
  simp only [cols_nrow, if_true]
  congr 1
  apply ext'
  · simp only [cols]; omega
  · simp only [cols]
    rw [zipWith_map_same]
    apply List.map_congr_left
    intro r _
    have e1 : p + s - p = s := by omega
    have e2 : p + s + t - (p + s) = t := by omega
    have e3 : p + s + t - p = s + t := by omega
    rw [e1, e2, e3, List.take_add, List.drop_drop]

/-- Consecutive column blocks of the given widths. -/
def slices (v : Arr2 α) : Nat → List Nat → List (Arr2 α)
  | _, [] => []
  | pos, s :: ss => v.cols pos (pos + s) :: slices v (pos + s) ss

theorem hcat_slices (v : Arr2 α) {ss : List Nat} (hne : ss ≠ []) : ∀ {pos : Nat}, pos + ss.sum ≤ v.ncol →
    hcat (v.slices pos ss) = .ok (v.cols pos (pos + ss.sum)) := by
  induction ss with
  | nil => exact absurd rfl hne
  | cons s ss ih =>
    intro pos h
    cases ss with
    | nil => simp [slices, hcat]
    | cons t ss =>
      simp only [List.sum_cons] at h ih ⊢
      have ih' := ih (by simp) (pos := pos + s) (by omega)
      rw [slices] at ih'
      rw [slices, slices, hcat, ih']
      show hcat2 _ _ = _
      have := hcat2_cols v (p := pos) (s := s) (t := t + ss.sum) (by omega)
      rw [this, Nat.add_assoc]

end Arr2

/-! ## Batch size -/

theorem batchLoop_ok {l : List Nat} : ∀ {b r : Nat}, 1 ≤ b → (∀ n ∈ l, 1 ≤ n) →
    (batchLoop b l = .ok r ↔ (∀ n ∈ b :: l, n = 1 ∨ n = r) ∧ r ∈ b :: l) := by
  induction l with
  | nil =>
    intro b r hb _
    simp only [batchLoop, Except.ok.injEq, List.mem_singleton]
    constructor
    · rintro rfl; simp
    · rintro ⟨_, h⟩; exact h.symm
  | cons n l ih =>
    intro b r hb hl
    have hn := hl n (by simp)
    unfold batchLoop
    split
    · rename_i h
      simp only [reduceCtorEq, false_iff, not_and]
      intro h'
      have h1 := h' b (by simp)
      have h2 := h' n (by simp)
      omega
    · rename_i h
      rw [ih (by omega) (fun k hk => hl k (by simp [hk]))]
      constructor
      · rintro ⟨h1, h2⟩
        refine ⟨?_, ?_⟩
        · intro k hk
          have hmax := h1 (max b n) (by simp)
          simp only [List.mem_cons] at hk
          rcases hk with rfl | rfl | hk
          · omega
          · omega
          · exact h1 k (by simp [hk])
        · simp only [List.mem_cons] at h2 ⊢
          rcases h2 with h2 | h2
          · rcases Nat.le_total b n with hbn | hbn
            · right; left; omega
            · left; omega
          · simp [h2]
      · rintro ⟨h1, h2⟩
        have hb1 := h1 b (by simp)
        have hn1 := h1 n (by simp)
        refine ⟨?_, ?_⟩
        · intro k hk
          simp only [List.mem_cons] at hk
          rcases hk with rfl | hk
          · omega
          · exact h1 k (by simp [hk])
        · simp only [List.mem_cons] at h2 ⊢
          rcases h2 with h2 | h2 | h2
          · by_cases hbn : n ≤ b
            · left; omega
            · left; omega
          · by_cases hbn : b ≤ n
            · left; omega
            · left; omega
          · exact .inr h2

theorem batchLoop_error {l : List Nat} : ∀ {b : Nat} {e : Err}, batchLoop b l = .error e → e = .valueError := by
  induction l with
  | nil => intro b e h; simp [batchLoop] at h
  | cons n l ih =>
    intro b e h
    unfold batchLoop at h
    split at h
    · cases h; rfl
    · exact ih h

/-! ## Reading -/

theorem mapM_ok {γ : Type} {f : β → Except Err γ} {g : β → γ} {l : List β} (h : ∀ x ∈ l, f x = .ok (g x)) :
    l.mapM f = .ok (l.map g) := by
  induction l with
  | nil => rfl
  | cons x xs ih =>
    rw [List.mapM_cons, h x (by simp), ih (fun y hy => h y (by simp [hy]))]
    rfl

/-- Repetition along the batch axis as done when reading (moirae/models/base.py:358-359). -/
def expandTo (b : Nat) (a : Arr2 α) : Arr2 α := if b > 1 ∧ a.nrow = 1 then a.repeatRows b else a

theorem concatFields_arr (l : List (Arr2 α)) : HV.concatFields (l.map Field.arr) = Arr2.hcat l := by
  have h : (l.map Field.arr).mapM HV.toConcat = .ok l := by
    induction l with
    | nil => rfl
    | cons a l ih => rw [List.map_cons, List.mapM_cons, ih]; rfl
  unfold HV.concatFields
  rw [h]; rfl

theorem getOne_of_mem {m : HV α} (hw : m.WF) {n : Name} {a : Arr2 α} (h : (n, a) ∈ iterParams false m) (b : Nat) :
    m.getOne b n = .ok (.arr (expandTo b a)) := by
  obtain ⟨p, hp, rfl⟩ := mem_iterParams_false.1 h
  unfold HV.getOne pathName
  rw [lookup_of_isParam hp hw]
  rfl

/-- The value of the parameter called `n`. -/
def valueAt [Inhabited (Arr2 α)] (m : HV α) (n : Name) : Arr2 α := (assoc n (iterParams false m)).getD default

instance : Inhabited (Arr2 α) := ⟨Arr2.empty 0⟩

theorem valueAt_mem {m : HV α} {n : Name} (h : n ∈ m.allNames) : (n, valueAt m n) ∈ iterParams false m := by
  unfold valueAt
  simp only [HV.allNames, List.mem_map] at h
  obtain ⟨⟨k, a⟩, hm, rfl⟩ := h
  cases ha : assoc k (iterParams false m) with
  | some v => exact assoc_mem ha
  | none =>
    exfalso
    revert hm ha
    generalize iterParams false m = l
    intro hm ha
    induction l with
    | nil => simp at hm
    | cons q rest ih =>
      obtain ⟨j, w⟩ := q
      unfold assoc at ha
      split at ha
      · cases ha
      · rename_i hj
        simp only [List.mem_cons, Prod.mk.injEq] at hm
        rcases hm with ⟨h, _⟩ | hm
        · exact hj h.symm
        · exact ih hm ha

theorem valueAt_eq {m : HV α} (hw : m.WF) {n : Name} {a : Arr2 α} (h : (n, a) ∈ iterParams false m) :
    valueAt m n = a := by
  simp [valueAt, assoc_of_mem (iterParams_nodup false hw) h]

/-- `get_parameters` on parameter names. -/
theorem getParameters_names {m : HV α} (hw : m.WF) {ns : List Name} (hne : ns ≠ []) (hall : ∀ n ∈ ns, n ∈ m.allNames)
    {b : Nat} (hb : m.batchSize = .ok b) :
    m.getParameters (some ns) = Arr2.hcat (ns.map fun n => expandTo b (valueAt m n)) := by
  unfold HV.getParameters
  simp only [Option.getD_some, hne, if_false, hb]
  have := mapM_ok (f := m.getOne b) (g := fun n => .arr (expandTo b (valueAt m n))) (l := ns)
    (fun n hn => getOne_of_mem hw (valueAt_mem (hall n hn)) b)
  show (do let vs ← ns.mapM (m.getOne b); HV.concatFields vs) = _
  rw [this]
  show HV.concatFields _ = _
  rw [show (ns.map fun n => Field.arr (expandTo b (valueAt m n))) = (ns.map fun n => expandTo b (valueAt m n)).map Field.arr by simp]
  exact concatFields_arr _

end Verif
