import Verif.Props.Wrappers
import Verif.Props.Container
import Verif.Props.Expand
import Verif.Model.Estimators
/-!
# Names of the state dimensions: C60
-/

namespace Verif

theorem Arr2.cols_cols {α : Type} (v : Arr2 α) {lo hi a b : Nat} (hv : hi ≤ v.ncol) (h : lo + b ≤ hi) :
    (v.cols lo hi).cols a b = v.cols (lo + a) (lo + b) := by
  apply Arr2.ext'
  · simp only [Arr2.cols]; omega
  · simp only [Arr2.cols, List.map_map]
    apply List.map_congr_left
    intro r _
    simp only [Function.comp, List.drop_take, List.take_take, List.drop_drop]
    congr 1
    omega

/-- C60.  For every selection `l` of parameters of the state of health: the names are the labels of the transient values followed by
those of the selected parameters; they are as many as the state vector `V` (transient values, then selected parameters) has columns; and
the columns carrying the labels of a transient field or of a parameter hold its value. -/
theorem C60_names_label_the_state (o : Online) (htr : o.transients.WF) (hwf : o.asoh.WF) (l : List (List Name × Arr2 ℝ))
    (hl : Spec.Params o.asoh l) (hsel : o.names = Spec.names l) :
    o.stateNames = .ok (((Spec.held o.transients).flatMap fun p => Spec.labels p.1 p.2.ncol) ++
      l.flatMap fun q => Spec.labels (pathName q.1) q.2.ncol) ∧
    (∀ T A V, o.transients.toNumpy = .ok T → o.asoh.getParameters (some o.names) = .ok A → Arr2.hcat [T, A] = .ok V →
      o.nState = .ok V.ncol ∧
      (∀ b l₁ p l₂, o.transients.batchSize = .ok b → Spec.held o.transients = l₁ ++ p :: l₂ →
        let start := (l₁.flatMap fun p => Spec.labels p.1 p.2.ncol).length
        V.cols start (start + p.2.ncol) = Spec.broadcast b p.2) ∧
      ∀ b l₁ q l₂, o.asoh.batchSize = .ok b → l = l₁ ++ q :: l₂ →
        let start := (((Spec.held o.transients).flatMap fun p => Spec.labels p.1 p.2.ncol) ++
          l₁.flatMap fun q => Spec.labels (pathName q.1) q.2.ncol).length
        V.cols start (start + q.2.ncol) = Spec.broadcast b q.2) := by
  obtain ⟨t1, t2, t3, t4, t5⟩ := C15_length_width_names o.transients htr
  obtain ⟨a1, a2, _⟩ := C11_one_label_per_column o.asoh hwf l hl
  have hs : o.stateNames = .ok (((Spec.held o.transients).flatMap fun p => Spec.labels p.1 p.2.ncol) ++
      l.flatMap fun q => Spec.labels (pathName q.1) q.2.ncol) := by
    simp only [Online.stateNames, t1, hsel, a1]
    rfl
  refine ⟨hs, fun T A V hT hA hV => ?_⟩
  rw [hsel] at hA
  obtain ⟨b1, b2⟩ := a2 A hA
  have hVn : V.ncol = T.ncol + A.ncol := by simpa using hcat_ncol hV
  have hVT : V.cols 0 T.ncol = T := by simpa using Arr2.block_hcat (l₁ := []) (a := T) (l₂ := [A]) hV
  have hVA : V.cols T.ncol (T.ncol + A.ncol) = A := by simpa using Arr2.block_hcat (l₁ := [T]) (a := A) (l₂ := []) hV
  have hsplit : ∀ (l₁ l₂ : List (Name × Arr2 ℝ)) (p : Name × Arr2 ℝ), Spec.held o.transients = l₁ ++ p :: l₂ →
      (l₁.flatMap fun p => Spec.labels p.1 p.2.ncol).length + p.2.ncol ≤ T.ncol := by
    intro l₁ l₂ p h
    rw [t4 T hT, ← t2, h, List.flatMap_append, List.flatMap_cons, List.length_append, List.length_append, labels_eq, expandLabel_length]
    omega
  have hsplitA : ∀ (l₁ l₂ : List (List Name × Arr2 ℝ)) (q : List Name × Arr2 ℝ), l = l₁ ++ q :: l₂ →
      (l₁.flatMap fun q => Spec.labels (pathName q.1) q.2.ncol).length + q.2.ncol ≤ A.ncol := by
    intro l₁ l₂ q h
    rw [← b1, h, List.flatMap_append, List.flatMap_cons, List.length_append, List.length_append, labels_eq, expandLabel_length]
    omega
  refine ⟨?_, ?_, ?_⟩
  · simp only [Online.nState, hs]
    show Except.ok _ = _
    rw [List.length_append, t2, b1, hVn, t4 T hT]
  · intro b l₁ p l₂ hb h
    have h1 := hsplit l₁ l₂ p h
    rw [← t5 T b l₁ p l₂ hT hb h, ← hVT, Arr2.cols_cols V (by omega) (by simpa [hVT] using h1), Nat.zero_add, Nat.zero_add]
  · intro b l₁ q l₂ hb h
    have h1 := hsplitA l₁ l₂ q h
    rw [← b2 l₁ q l₂ b h hb, ← hVA, Arr2.cols_cols V (by omega) (by omega)]
    simp only
    rw [List.length_append, t2, ← t4 T hT, Nat.add_assoc]

/-- C60.  The names are pairwise distinct if no selected parameter has the name of a transient field (and names of attributes contain no
square brackets).  Missing: the package does not rule that out, see `C60_names_can_clash`. -/
theorem C60_names_distinct_partial (o : Online) (htr : o.transients.WF) (hwf : o.asoh.WF) (l : List (List Name × Arr2 ℝ))
    (hl : Spec.Params o.asoh l) (hsel : o.names = Spec.names l) (hplain : ∀ q ∈ l, Spec.PlainAttr q.1) (hnd : (Spec.names l).Nodup)
    (hclash : ∀ p ∈ Spec.held o.transients, p.1 ∉ o.names) : ∃ ns, o.stateNames = .ok ns ∧ ns.Nodup := by
  refine ⟨_, (C60_names_label_the_state o htr hwf l hl hsel).1, ?_⟩
  rw [List.nodup_append]
  refine ⟨(C15_length_width_names o.transients htr).2.2.1, (C11_one_label_per_column o.asoh hwf l hl).2.2 hnd hplain, ?_⟩
  rintro x hx y hy rfl
  rw [List.mem_flatMap] at hx hy
  obtain ⟨p, hp, hx⟩ := hx
  obtain ⟨q, hq, hy⟩ := hy
  rw [labels_eq] at hx hy
  have hb : '[' ∉ p.1 := by
    obtain ⟨⟨k, f⟩, h1, h2⟩ := List.mem_filterMap.1 hp
    cases f with
    | none => simp at h2
    | some a => simp at h2; subst h2; exact htr.2 _ _ h1
  have := label_name_inj (p := [p.1]) (q := q.1) (by simp) (hl q hq).ne_nil
    (by intro s hs; simp at hs; subst hs; exact hb) (hplain q hq) hx hy
  exact hclash p hp (by rw [hsel, show p.1 = pathName q.1 from this]; exact List.mem_map_of_mem (f := fun q => pathName q.1) hq)

theorem expandNames_nil {α : Type} (m : HV α) : m.expandNames [] = .ok [] := rfl

/-- C60, for estimators that are given a choice instead of names (`updatable_asoh`): with True the names are those of the transient
values followed by the labels of exactly the updatable parameters, in the order of declaration; with False of the transient values
alone. -/
theorem C60_chosen_parameters (cell : Cell) (asoh : HV ℝ) (hwf : asoh.WF) (tr inp : Container ℝ) (htr : tr.WF) (choice : Bool) (o : Online)
    (ho : Online.init cell asoh tr inp (.inl choice) = .ok o) :
    ∃ l : List (List Name × Arr2 ℝ), Spec.Params asoh l ∧
      o.stateNames = .ok (((Spec.held tr).flatMap fun p => Spec.labels p.1 p.2.ncol) ++
        l.flatMap fun q => Spec.labels (pathName q.1) q.2.ncol) ∧
      (choice = false → l = []) ∧
      (choice = true → (∀ q, q ∈ l ↔ IsMarked asoh q.1 q.2) ∧ (Spec.names l).Sublist asoh.allNames) := by
  have hmake : ∀ names, Online.make cell asoh tr inp names = .ok o → o.asoh = asoh ∧ o.transients = tr ∧ o.names = names := by
    intro names h
    unfold Online.make at h
    cases hy : cell.output inp tr asoh with
    | error e => rw [hy] at h; cases h
    | ok y =>
      cases hn : y.allNames with
      | error e => simp only [hy, hn, bind, Except.bind] at h; cases h
      | ok yn =>
        cases hbt : tr.batchSize with
        | error e => simp only [hy, hn, hbt, bind, Except.bind] at h; cases h
        | ok bt =>
          simp only [hy, hn, hbt, bind, Except.bind] at h
          split at h
          · cases h
          · cases hba : asoh.batchSize with
            | error e => simp only [hba] at h; cases h
            | ok ba =>
              simp only [hba] at h
              split at h
              · cases h
              · cases h; exact ⟨rfl, rfl, rfl⟩
  cases choice with
  | false =>
    obtain ⟨h1, h2, h3⟩ := hmake [] ho
    refine ⟨[], (by intro q hq; cases hq), ?_, fun _ => rfl, by simp⟩
    exact h2 ▸ (C60_names_label_the_state o (h2 ▸ htr) (h1 ▸ hwf) [] (by intro q hq; cases hq) h3).1
  | true =>
    obtain ⟨h1, h2, h3⟩ := hmake asoh.updatableNames ho
    have hp : Spec.Params asoh (iterP true asoh) := by
      intro q hq
      exact (mem_iterP_true.1 hq).isParam
    have hnames : Spec.names (iterP true asoh) = asoh.updatableNames := by
      unfold Spec.names HV.updatableNames
      rw [iterParams_eq, List.map_map]
      rfl
    refine ⟨iterP true asoh, hp, ?_, by simp, fun _ => ⟨fun q => mem_iterP_true, ?_⟩⟩
    · exact h2 ▸ (C60_names_label_the_state o (h2 ▸ htr) (h1 ▸ hwf) _ (h1 ▸ hp) (h3.trans hnames.symm)).1
    · rw [hnames, C10_updatable_names_are_marked_names_in_order asoh hwf]
      exact List.filter_sublist

/-- With True all updatable parameters of the demonstration state of health are estimated. -/
example : ∃ o, Online.init Demo.restCell Demo.health ⟨[(['x'], some (.ofRow [3]))]⟩ Demo.inp (.inl true) = .ok o ∧
    o.stateNames = .ok ["x".toList, "q".toList] := ⟨_, rfl, rfl⟩

/-- Transient values `x`, and `h` with two columns; the wide parameter `r` and the number `q` selected in that order. -/
example : ∃ o : Online, o.transients.WF ∧ o.asoh.WF ∧ Spec.Params o.asoh [([['r']], .ofRow [1, 2]), ([['q']], .ofRow [5])] ∧
    o.stateNames = .ok ["x".toList, "h[0]".toList, "h[1]".toList, "r[0]".toList, "r[1]".toList, "q".toList] := by
  refine ⟨⟨Demo.restCell, Demo.health, ⟨[(['x'], some (.ofRow [3])), (['h'], some (.ofRow [7, 8]))]⟩, Demo.inp, 1, [['v']], [['r'], ['q']]⟩,
    ⟨by decide, ?_⟩, Demo.health_wf, ?_, ?_⟩
  · intro k f h
    simp at h
    rcases h with ⟨rfl, _⟩ | ⟨rfl, _⟩ <;> decide
  · intro q hq
    simp only [List.mem_cons, List.not_mem_nil, or_false] at hq
    rcases hq with rfl | rfl
    · exact .arr (by simp)
    · exact .arr (by simp)
  · rfl

/-- C60 fails when a transient field and a parameter share their name: the same name then labels two dimensions. -/
theorem C60_names_can_clash : ∃ o, Online.make Demo.restCell Demo.health ⟨[(['q'], some (.ofRow [3]))]⟩ Demo.inp [['q']] = .ok o ∧
    o.stateNames = .ok [['q'], ['q']] := ⟨_, rfl, rfl⟩

end Verif
