import Verif.Props.InterfaceRuns
/-!
# C128: a run can be interrupted and continued

`run_online_estimate` does not observe the first row of a dataset.  So the second part of a dataset has to begin with the last row of the
first part.
-/

namespace Verif

variable {σ : Type}

/-! ## Specification -/

/-- The table of a run, from the tables of the runs on its two parts: the second table takes the place of the last row of the first one, which
describes nothing (`C63_rows_partial`). -/
def Spec.joined : Option Table → Option Table → Option Table
  | some t₁, some t₂ => some ⟨t₂.columns, t₁.rows.dropLast ++ t₂.rows⟩
  | _, _ => none

/-! ## Proofs -/

/-- The names and sizes of an estimator stay the same in every step. -/
def EstimatorOps.Steady (ops : EstimatorOps σ) : Prop :=
  ∀ e u y r, ops.step e u y = .ok r → (ops.info r.1).stateNames = (ops.info e).stateNames ∧
    (ops.info r.1).outputNames = (ops.info e).outputNames ∧ (ops.info r.1).nOutputs = (ops.info e).nOutputs

theorem Joint.steady (svd : Mat → Vec × Mat) : (Joint.ops svd).Steady := by
  intro e u y r h
  simp only [Joint.ops, Joint.step, bind_eq_ok_iff, pure_eq_ok, Except.ok.injEq] at h
  obtain ⟨_, -, _, -, _, -, _, -, _, -, _, -, _, -, _, -, _, -, rfl⟩ := h
  exact ⟨rfl, rfl, rfl⟩

theorem Dual.steady (svd : Mat → Vec × Mat) : (Dual.ops svd).Steady := by
  intro e u y r h
  simp only [Dual.ops, Dual.step, bind_eq_ok_iff, pure_eq_ok, Except.ok.injEq] at h
  obtain ⟨_, -, _, -, _, -, _, -, _, -, _, -, _, -, _, -, _, -, _, -, _, -, _, -, _, -, _, -, _, -, _, -, rfl⟩ := h
  exact ⟨rfl, rfl, rfl⟩

theorem runLoop_none_ok {ops : EstimatorOps σ} {dims : Option (Nat × Nat)} {row : Row} {rest : List Row} {e e' : σ} {w' : Option Writer}
    {lines : List (List ℝ)} : runLoop ops dims e none (row :: rest) = .ok (e', w', lines) ↔
      ∃ io r line more, rowToInputs row = .ok io ∧ ops.step e io.1 io.2 = .ok r ∧ lineFor dims r.2.1 r.2.2 = .ok line ∧
        runLoop ops dims r.1 none rest = .ok (e', w', more) ∧ lines = line :: more := by
  simp only [runLoop, bind_eq_ok_iff, storeRow, pure_eq_ok, Except.ok.injEq, Prod.mk.injEq]
  constructor
  · rintro ⟨io, h1, r, h2, line, h3, w, rfl, ⟨e1, w1, more⟩, h4, rfl, rfl, rfl⟩
    exact ⟨io, r, line, more, h1, h2, h3, h4, rfl⟩
  · rintro ⟨io, r, line, more, h1, h2, h3, h4, rfl⟩
    exact ⟨io, h1, r, h2, line, h3, none, rfl, _, h4, rfl, rfl, rfl⟩

theorem runLoop_none_end {ops : EstimatorOps σ} {dims : Option (Nat × Nat)} {e' : σ} {w' : Option Writer} {rows : List Row} :
    ∀ {e : σ} {lines : List (List ℝ)}, runLoop ops dims e none rows = .ok (e', w', lines) → w' = none ∧ lines.length = rows.length ∧
      (ops.Steady → (ops.info e').stateNames = (ops.info e).stateNames ∧
        (ops.info e').outputNames = (ops.info e).outputNames ∧ (ops.info e').nOutputs = (ops.info e).nOutputs) := by
  induction rows with
  | nil =>
    intro e lines h
    simp only [runLoop, Except.ok.injEq, Prod.mk.injEq] at h
    obtain ⟨rfl, rfl, rfl⟩ := h
    exact ⟨rfl, rfl, fun _ => ⟨rfl, rfl, rfl⟩⟩
  | cons row rest ih =>
    intro e lines h
    obtain ⟨io, r, line, more, -, h2, -, h4, rfl⟩ := runLoop_none_ok.1 h
    obtain ⟨k1, k2, k3⟩ := ih h4
    refine ⟨k1, by simp [k2], fun hs => ?_⟩
    obtain ⟨a1, a2, a3⟩ := hs _ _ _ _ h2
    obtain ⟨b1, b2, b3⟩ := k3 hs
    exact ⟨b1.trans a1, b2.trans a2, b3.trans a3⟩

theorem runLoop_append {ops : EstimatorOps σ} {dims : Option (Nat × Nat)} {e' : σ} {bs : List Row} {as : List Row} :
    ∀ {e : σ} {lines : List (List ℝ)}, runLoop ops dims e none (as ++ bs) = .ok (e', none, lines) ↔ ∃ e1 l1 l2,
      runLoop ops dims e none as = .ok (e1, none, l1) ∧ runLoop ops dims e1 none bs = .ok (e', none, l2) ∧ lines = l1 ++ l2 := by
  induction as with
  | nil =>
    intro e lines
    simp only [List.nil_append]
    constructor
    · exact fun h => ⟨e, [], lines, rfl, h, rfl⟩
    · rintro ⟨e1, l1, l2, h1, h2, rfl⟩
      simp only [runLoop, Except.ok.injEq, Prod.mk.injEq] at h1
      obtain ⟨rfl, -, rfl⟩ := h1
      exact h2
  | cons row rest ih =>
    intro e lines
    simp only [List.cons_append, runLoop_none_ok]
    constructor
    · rintro ⟨io, r, line, more, h1, h2, h3, h4, rfl⟩
      obtain ⟨e1, l1, l2, k1, k2, rfl⟩ := ih.1 h4
      exact ⟨e1, line :: l1, l2, ⟨io, r, line, l1, h1, h2, h3, k1, rfl⟩, k2, rfl⟩
    · rintro ⟨e1, _, l2, ⟨io, r, line, l1, h1, h2, h3, k1, rfl⟩, k2, rfl⟩
      exact ⟨io, r, line, l1 ++ l2, h1, h2, h3, ih.2 ⟨e1, l1, l2, k1, k2, rfl⟩, rfl⟩

/-- A run without a writer succeeds if and only if its parts do. -/
theorem runOnline_none_ok {chunkOf : List Nat → Nat} {ops : EstimatorOps σ} {data : Data} {e e' : σ} {out : Bool} {w' : Option Writer}
    {t : Option Table} {u : CellInput} {first : Row} {rest : List Row} (hd : data.rows = .ok (first :: rest)) :
    runOnline chunkOf ops data e out none = .ok (t, e', u, w') ↔ w' = none ∧ (∃ y, rowToInputs first = .ok (u, y)) ∧
      ∃ dims lines, dimsOf (ops.info e) out = .ok dims ∧ runLoop ops dims e none rest = .ok (e', none, lines) ∧
      makeTable (ops.info e') (rest.length + 1) lines dims = .ok t := by
  constructor
  · intro h
    obtain ⟨f, r, y, dims, w1, w2, lines, h1, h2, h3, h4, h5, h6, rfl⟩ := runOnline_ok h
    rw [hd] at h1
    cases h1
    cases h4
    obtain ⟨rfl, -, -⟩ := runLoop_none_end h5
    exact ⟨rfl, ⟨y, h2⟩, dims, lines, h3, h5, h6⟩
  · rintro ⟨rfl, ⟨y, h2⟩, dims, lines, h3, h5, h6⟩
    unfold runOnline
    simp only [hd, openWriter, h2, h3, h5, h6, ok_bind, pure_eq_ok, Option.map_none]

theorem dimsOf_steady {ops : EstimatorOps σ} {e e' : σ} (out : Bool) (h1 : (ops.info e').stateNames = (ops.info e).stateNames)
    (h3 : (ops.info e').nOutputs = (ops.info e).nOutputs) : dimsOf (ops.info e') out = dimsOf (ops.info e) out := by
  unfold dimsOf
  rw [h1, h3]

theorem makeTable_split {i i1 i2 : EstimatorInfo} (h1 : i1.stateNames = i.stateNames ∧ i1.outputNames = i.outputNames)
    (h2 : i2.stateNames = i.stateNames ∧ i2.outputNames = i.outputNames) {dims : Option (Nat × Nat)} {l1 l2 : List (List ℝ)} {t : Option Table} :
    makeTable i2 (l1.length + (l2.length + 1)) (l1 ++ l2) dims = .ok t ↔ ∃ t1 t2, makeTable i1 (l1.length + 1) l1 dims = .ok t1 ∧
      makeTable i2 (l2.length + 1) l2 dims = .ok t2 ∧ t = Spec.joined t1 t2 := by
  cases dims with
  | none =>
    simp only [makeTable, Except.ok.injEq]
    constructor
    · rintro rfl; exact ⟨none, none, rfl, rfl, rfl⟩
    · rintro ⟨_, _, rfl, rfl, rfl⟩; rfl
  | some d =>
    obtain ⟨nS, nO⟩ := d
    simp only [makeTable, h1.1, h1.2, h2.1, h2.2]
    cases i.stateNames with
    | error x =>
      constructor
      · intro h; cases h
      · rintro ⟨_, _, h, -⟩; cases h
    | ok names =>
      simp only [ok_bind]
      split
      · constructor
        · intro h; cases h
        · rintro ⟨_, _, h, -⟩; cases h
      · have e1 : l1.length + (l2.length + 1) - (l1 ++ l2).length = 1 := by rw [List.length_append]; omega
        have e2 : l1.length + 1 - l1.length = 1 := by omega
        have e3 : l2.length + 1 - l2.length = 1 := by omega
        simp only [e1, e2, e3, pure_eq_ok, Except.ok.injEq]
        constructor
        · rintro rfl
          exact ⟨_, _, rfl, rfl, by simp [Spec.joined]⟩
        · rintro ⟨_, _, rfl, rfl, rfl⟩
          simp [Spec.joined]

theorem EstimatorOps.Steady.continued {ops : EstimatorOps σ} (hops : ops.Steady) (chunkOf : List Nat → Nat) {whole part₁ part₂ : Data}
    {as bs : List Row} {r : Row} (hw : whole.rows = .ok (as ++ r :: bs)) (h₁ : part₁.rows = .ok (as ++ [r])) (h₂ : part₂.rows = .ok (r :: bs))
    (out : Bool) (e e' : σ) (t : Option Table) (u : CellInput) :
    runOnline chunkOf ops whole e out none = .ok (t, e', u, none) ↔ ∃ e₁ t₁ t₂ v,
      runOnline chunkOf ops part₁ e out none = .ok (t₁, e₁, u, none) ∧
      runOnline chunkOf ops part₂ e₁ out none = .ok (t₂, e', v, none) ∧ t = Spec.joined t₁ t₂ := by
  obtain ⟨first, rest, hfr, hw', h₁'⟩ : ∃ first rest, (rest ++ bs).length = (as ++ bs).length ∧ as ++ r :: bs = first :: (rest ++ bs) ∧
      as ++ [r] = first :: rest := by
    cases as with
    | nil => exact ⟨r, [], rfl, rfl, rfl⟩
    | cons a as => exact ⟨a, as ++ [r], by simp; omega, by simp, rfl⟩
  rw [hw'] at hw
  rw [h₁'] at h₁
  have hr : ∀ {dims e e1 l}, runLoop ops dims e none rest = .ok (e1, none, l) → (∃ u y, rowToInputs first = .ok (u, y)) →
      ∃ u y, rowToInputs r = .ok (u, y) := by
    intro dims e e1 l h hf
    cases as with
    | nil =>
      cases h₁'
      exact hf
    | cons a as =>
      cases h₁'
      obtain ⟨e2, _, _, _, h, _⟩ := runLoop_append.1 h
      obtain ⟨io, _, _, _, k, _⟩ := runLoop_none_ok.1 h
      exact ⟨_, _, k⟩
  constructor
  · intro h
    obtain ⟨-, ⟨y, k1⟩, dims, lines, k2, k3, k4⟩ := (runOnline_none_ok hw).1 h
    obtain ⟨e1, l1, l2, k5, k6, rfl⟩ := runLoop_append.1 k3
    obtain ⟨-, n1, s1⟩ := runLoop_none_end k5
    obtain ⟨-, n2, s2⟩ := runLoop_none_end k6
    obtain ⟨a1, a2, a3⟩ := s1 hops
    obtain ⟨b1, b2, b3⟩ := s2 hops
    rw [List.length_append, ← n1, ← n2, Nat.add_assoc] at k4
    obtain ⟨t1, t2, m1, m2, rfl⟩ := (makeTable_split ⟨a1, a2⟩ ⟨b1.trans a1, b2.trans a2⟩).1 k4
    obtain ⟨v, z, hz⟩ := hr k5 ⟨_, _, k1⟩
    rw [n1] at m1
    rw [n2] at m2
    exact ⟨e1, t1, t2, v, (runOnline_none_ok h₁).2 ⟨rfl, ⟨y, k1⟩, dims, l1, k2, k5, m1⟩,
      (runOnline_none_ok h₂).2 ⟨rfl, ⟨z, hz⟩, dims, l2, (dimsOf_steady out a1 a3).trans k2, k6, m2⟩, rfl⟩
  · rintro ⟨e1, t1, t2, v, g1, g2, rfl⟩
    obtain ⟨-, ⟨y, k1⟩, dims, l1, k2, k5, m1⟩ := (runOnline_none_ok h₁).1 g1
    obtain ⟨-, -, dims', l2, k2', k6, m2⟩ := (runOnline_none_ok h₂).1 g2
    obtain ⟨-, n1, s1⟩ := runLoop_none_end k5
    obtain ⟨a1, a2, a3⟩ := s1 hops
    obtain rfl : dims = dims' := Except.ok.inj (k2.symm.trans ((dimsOf_steady out a1 a3).symm.trans k2'))
    obtain ⟨-, n2, s2⟩ := runLoop_none_end k6
    obtain ⟨b1, b2, b3⟩ := s2 hops
    refine (runOnline_none_ok hw).2 ⟨rfl, ⟨y, k1⟩, dims, l1 ++ l2, k2, runLoop_append.2 ⟨e1, l1, l2, k5, k6, rfl⟩, ?_⟩
    rw [← n1] at m1
    rw [← n2] at m2
    rw [List.length_append, ← n1, ← n2, Nat.add_assoc]
    exact (makeTable_split ⟨a1, a2⟩ ⟨b1.trans a1, b2.trans a2⟩).2 ⟨t1, t2, m1, m2, rfl⟩

theorem EstimatorOps.Steady.skips {ops : EstimatorOps σ} (hops : ops.Steady) (chunkOf : List Nat → Nat) {part₁ part₂ without : Data}
    {as bs : List Row} {r : Row} (h₁ : part₁.rows = .ok as) (h₂ : part₂.rows = .ok (r :: bs)) (hw : without.rows = .ok (as ++ bs))
    (out : Bool) {e e₁ e₂ : σ} {t₁ t₂ : Option Table} {u v : CellInput}
    (g₁ : runOnline chunkOf ops part₁ e out none = .ok (t₁, e₁, u, none)) (g₂ : runOnline chunkOf ops part₂ e₁ out none = .ok (t₂, e₂, v, none)) :
    ∃ t, runOnline chunkOf ops without e out none = .ok (t, e₂, u, none) := by
  cases as with
  | nil =>
    unfold runOnline at g₁
    rw [h₁] at g₁
    cases g₁
  | cons first rest =>
    obtain ⟨-, ⟨y, k1⟩, dims, l1, k2, k5, m1⟩ := (runOnline_none_ok h₁).1 g₁
    obtain ⟨-, -, dims', l2, k2', k6, m2⟩ := (runOnline_none_ok h₂).1 g₂
    obtain ⟨-, n1, s1⟩ := runLoop_none_end k5
    obtain ⟨a1, a2, a3⟩ := s1 hops
    obtain rfl : dims = dims' := Except.ok.inj (k2.symm.trans ((dimsOf_steady out a1 a3).symm.trans k2'))
    obtain ⟨-, n2, s2⟩ := runLoop_none_end k6
    obtain ⟨b1, b2, b3⟩ := s2 hops
    refine ⟨Spec.joined t₁ t₂, (runOnline_none_ok hw).2 ⟨rfl, ⟨y, k1⟩, dims, l1 ++ l2, k2, runLoop_append.2 ⟨e₁, l1, l2, k5, k6, rfl⟩, ?_⟩⟩
    rw [← n1] at m1
    rw [← n2] at m2
    show makeTable _ ((rest ++ bs).length + 1) _ _ = _
    rw [List.length_append, ← n1, ← n2, Nat.add_assoc]
    exact (makeTable_split ⟨a1, a2⟩ ⟨b1.trans a1, b2.trans a2⟩).2 ⟨t₁, t₂, m1, m2, rfl⟩

/-- C128, joint estimation.  The dataset `whole` is made of the rows `as`, `r` and `bs`; the first part ends with `r`, the second part begins with `r`.
A run on the whole succeeds exactly if a run on the first part does and the estimator it leaves can be run on the second part; then it ends with the same
estimator (and so with the same estimates, whatever is done next), and its table is made of theirs. -/
theorem C128_joint (chunkOf : List Nat → Nat) (svd : Mat → Vec × Mat) (whole part₁ part₂ : Data) (as bs : List Row) (r : Row)
    (hw : whole.rows = .ok (as ++ r :: bs)) (h₁ : part₁.rows = .ok (as ++ [r])) (h₂ : part₂.rows = .ok (r :: bs)) (out : Bool) (e e' : Joint)
    (t : Option Table) (u : CellInput) :
    runOnline chunkOf (Joint.ops svd) whole e out none = .ok (t, e', u, none) ↔ ∃ e₁ t₁ t₂ v,
      runOnline chunkOf (Joint.ops svd) part₁ e out none = .ok (t₁, e₁, u, none) ∧
      runOnline chunkOf (Joint.ops svd) part₂ e₁ out none = .ok (t₂, e', v, none) ∧ t = Spec.joined t₁ t₂ :=
  (Joint.steady svd).continued chunkOf hw h₁ h₂ out e e' t u

/-- C128, dual estimation. -/
theorem C128_dual (chunkOf : List Nat → Nat) (svd : Mat → Vec × Mat) (whole part₁ part₂ : Data) (as bs : List Row) (r : Row)
    (hw : whole.rows = .ok (as ++ r :: bs)) (h₁ : part₁.rows = .ok (as ++ [r])) (h₂ : part₂.rows = .ok (r :: bs)) (out : Bool) (e e' : Dual)
    (t : Option Table) (u : CellInput) :
    runOnline chunkOf (Dual.ops svd) whole e out none = .ok (t, e', u, none) ↔ ∃ e₁ t₁ t₂ v,
      runOnline chunkOf (Dual.ops svd) part₁ e out none = .ok (t₁, e₁, u, none) ∧
      runOnline chunkOf (Dual.ops svd) part₂ e₁ out none = .ok (t₂, e', v, none) ∧ t = Spec.joined t₁ t₂ :=
  (Dual.steady svd).continued chunkOf hw h₁ h₂ out e e' t u

/-- C128, why the parts have to share a row: if the second part begins with the row `r` after the last row of the first part, the estimator ends as if the
row `r` were not there. -/
theorem C128_without_overlap (chunkOf : List Nat → Nat) (svd : Mat → Vec × Mat) (part₁ part₂ without : Data) (as bs : List Row) (r : Row)
    (h₁ : part₁.rows = .ok as) (h₂ : part₂.rows = .ok (r :: bs)) (hw : without.rows = .ok (as ++ bs)) (out : Bool) :
    (∀ (e e₁ e₂ : Joint) t₁ t₂ u v, runOnline chunkOf (Joint.ops svd) part₁ e out none = .ok (t₁, e₁, u, none) →
      runOnline chunkOf (Joint.ops svd) part₂ e₁ out none = .ok (t₂, e₂, v, none) →
      ∃ t, runOnline chunkOf (Joint.ops svd) without e out none = .ok (t, e₂, u, none)) ∧
    ∀ (e e₁ e₂ : Dual) t₁ t₂ u v, runOnline chunkOf (Dual.ops svd) part₁ e out none = .ok (t₁, e₁, u, none) →
      runOnline chunkOf (Dual.ops svd) part₂ e₁ out none = .ok (t₂, e₂, v, none) →
      ∃ t, runOnline chunkOf (Dual.ops svd) without e out none = .ok (t, e₂, u, none) :=
  ⟨fun _ _ _ _ _ _ _ => (Joint.steady svd).skips chunkOf h₁ h₂ hw out, fun _ _ _ _ _ _ _ => (Dual.steady svd).skips chunkOf h₁ h₂ hw out⟩

/-! ## Concrete cases -/

-- The joint estimator of the concrete cell on any dataset of at least one row, in two parts that share the reading `x`.
example (chunkOf : List Nat → Nat) (svd : Mat → Vec × Mat) (xs ys : List (ℝ × ℝ × ℝ × ℕ)) (x : ℝ × ℝ × ℝ × ℕ) :
    ∃ E table table₁ table₂ E₁ E' u v,
      Joint.fromWrapper (Demo.joint .identity) (.inl ⟨2, 2, 1⟩) none (some ⟨2, 2, 1⟩) none none (some ⟨1, 1, 1⟩) ⟨1, none, 2⟩ = .ok E ∧
      runOnline chunkOf (Joint.ops svd) (Demo.dataset (xs ++ x :: ys)) E true none = .ok (some table, E', u, none) ∧
      runOnline chunkOf (Joint.ops svd) (Demo.dataset (xs ++ [x])) E true none = .ok (some table₁, E₁, u, none) ∧
      runOnline chunkOf (Joint.ops svd) (Demo.dataset (x :: ys)) E₁ true none = .ok (some table₂, E', v, none) ∧
      table.rows = table₁.rows.dropLast ++ table₂.rows ∧ table.rows.length = xs.length + 1 + ys.length := by
  obtain ⟨E, h1, -, h2⟩ := Demo.joint_healthy (fun _ => one_ne_zero) (identity_rescales 2)
  obtain ⟨n1, n2, n3⟩ := Demo.joint_names (Joint.fromWrapper_base h1)
  obtain ⟨table, E', u, a1, a2⟩ := C79_joint_run_succeeds chunkOf svd E (h2 3) _ n1 rfl n2 n3 (Demo.dataset (xs ++ x :: ys)) _
    (Demo.dataset_rows _) (by simp) (by
      intro r hr
      obtain ⟨x, -, rfl⟩ := List.mem_map.1 hr
      exact Demo.reading_finite x)
  have ew := Demo.dataset_rows (xs ++ x :: ys)
  have e1 := Demo.dataset_rows (xs ++ [x])
  rw [List.map_append] at ew e1
  obtain ⟨E1, t1, t2, v, g1, g2, g3⟩ := (C128_joint chunkOf svd _ _ _ _ _ _ ew e1 (Demo.dataset_rows (x :: ys)) true E E' (some table) u).1 a1
  cases t1 with
  | none => cases g3
  | some t1 =>
    cases t2 with
    | none => cases g3
    | some t2 =>
      refine ⟨E, table, t1, t2, E1, E', u, v, h1, a1, g1, g2, ?_, by simp at a2; omega⟩
      obtain rfl := Option.some.inj g3
      rfl

-- The dual estimator of the concrete cell.
example (chunkOf : List Nat → Nat) (svd : Mat → Vec × Mat) (xs ys : List (ℝ × ℝ × ℝ × ℕ)) (x : ℝ × ℝ × ℝ × ℕ) :
    ∃ E table t₁ t₂ E₁ E' u v, Dual.fromWrappers Demo.sumCellW Demo.sumAsohW ⟨1, 1, 1⟩ ⟨1, 1, 1⟩ none (some ⟨1, 1, 1⟩) (some ⟨1, 1, 1⟩) (some ⟨1, 1, 1⟩)
        ⟨1, none, 2⟩ ⟨1, none, 2⟩ = .ok E ∧
      runOnline chunkOf (Dual.ops svd) (Demo.dataset (xs ++ x :: ys)) E true none = .ok (some table, E', u, none) ∧
      runOnline chunkOf (Dual.ops svd) (Demo.dataset (xs ++ [x])) E true none = .ok (t₁, E₁, u, none) ∧
      runOnline chunkOf (Dual.ops svd) (Demo.dataset (x :: ys)) E₁ true none = .ok (t₂, E', v, none) ∧ some table = Spec.joined t₁ t₂ := by
  obtain ⟨E, h1, h2⟩ := Demo.sum_healthy
  obtain ⟨_, _, _, _, _, _, -, -, -, -, -, -, -, -, -, -, -, -, -, -, hb⟩ := Dual.fromWrappers_ok h1
  obtain ⟨n1, n2, n3⟩ := Demo.sum_names hb
  obtain ⟨table, E', u, a1, a2⟩ := C79_dual_run_succeeds chunkOf svd E (h2 3) _ n1 rfl n2 n3 (Demo.dataset (xs ++ x :: ys)) _ (Demo.dataset_rows _)
    (by simp) (by
      intro r hr
      obtain ⟨x, -, rfl⟩ := List.mem_map.1 hr
      exact Demo.reading_finite x)
  have ew := Demo.dataset_rows (xs ++ x :: ys)
  have e1 := Demo.dataset_rows (xs ++ [x])
  rw [List.map_append] at ew e1
  obtain ⟨E1, t1, t2, v, g1, g2, g3⟩ := (C128_dual chunkOf svd _ _ _ _ _ _ ew e1 (Demo.dataset_rows (x :: ys)) true E E' (some table) u).1 a1
  exact ⟨E, table, t1, t2, E1, E', u, v, h1, a1, g1, g2, g3⟩

end Verif
