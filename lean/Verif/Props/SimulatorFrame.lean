import Verif.Model.SimulatorFrame
import Verif.Props.Simulator
import Verif.Props.Container
import Mathlib.Data.List.Forall2
import Mathlib.Tactic.Push
/-!
# The simulator's tables (C42)
-/

namespace Verif
variable {α A : Type}

/-! ## Specification -/

/-- The numbers of cell `b` in a container: its own row of every value, the single row of values given once for all cells. -/
def Spec.cellRow (c : Container α) (b : Nat) : List α :=
  (Spec.held c).flatMap fun p => p.2.rows.getD (if p.2.nrow = 1 then 0 else b) []

/-- Containers of one kind, each value given once for all cells or once per cell of a batch of `B`. -/
structure Regular (B : Nat) (l : List (Container α)) : Prop where
  wf : ∀ c ∈ l, c.WF
  ne : ∀ c ∈ l, Spec.held c ≠ []
  rows : ∀ c ∈ l, ∀ p ∈ Spec.held c, p.2.nrow = 1 ∨ p.2.nrow = B
  layout : ∀ c ∈ l, ∀ d ∈ l, (Spec.held c).map (fun p => (p.1, p.2.ncol)) = (Spec.held d).map fun p => (p.1, p.2.ncol)

/-- The column labels of a container. -/
def Spec.columns (c : Container α) : List Name := (Spec.held c).flatMap fun p => Spec.labels p.1 p.2.ncol

/-- The name under which the battery data toolkit knows a column of the table: the schema's names of time and voltage, every
other name unchanged. -/
def Spec.datasetColumn (n : Name) : Name :=
  (List.lookup n [("time".toList, "test_time".toList), ("terminal_voltage".toList, "voltage".toList)]).getD n

/-! ## Lemmas -/

theorem renameColumn_eq (n : Name) : renameColumn n = Spec.datasetColumn n := by
  unfold renameColumn Spec.datasetColumn
  by_cases h1 : n = "time".toList
  · subst h1; rfl
  · by_cases h2 : n = "terminal_voltage".toList
    · subst h2; rfl
    · have e1 : (n == "time".toList) = false := by simpa using h1
      have e2 : (n == "terminal_voltage".toList) = false := by simpa using h2
      rw [if_neg h1, if_neg h2, List.lookup_cons, e1]
      simp only [List.lookup_cons, e2, List.lookup_nil, Option.getD_none]

theorem flatMap_uniform {β γ : Type} (f : γ → List β) (B : Nat) : ∀ (l : List γ), (∀ c ∈ l, (f c).length = B) →
    ∀ k b, b < B → (l.flatMap f)[k * B + b]? = (l[k]?).bind fun c => (f c)[b]? := by
  intro l
  induction l with
  | nil => intro _ k b _; simp
  | cons c l ih =>
    intro hl k b hb
    have hc := hl c (by simp)
    rw [List.flatMap_cons]
    cases k with
    | zero =>
      rw [Nat.zero_mul, Nat.zero_add, List.getElem?_append_left (by omega)]
      simp
    | succ k =>
      rw [List.getElem?_append_right (by rw [hc, Nat.succ_mul]; omega), hc]
      have : (k + 1) * B + b - B = k * B + b := by rw [Nat.succ_mul]; omega
      rw [this, ih (fun d hd => hl d (by simp [hd])) k b hb]
      simp

theorem flatMap_congr' {β γ : Type} {f g : γ → List β} {l : List γ} (h : ∀ c ∈ l, f c = g c) : l.flatMap f = l.flatMap g := by
  rw [List.flatMap_def, List.flatMap_def, List.map_congr_left h]

theorem flatMap_length {β γ : Type} {f : γ → List β} {n : Nat} {l : List γ} (h : ∀ c ∈ l, (f c).length = n) :
    (l.flatMap f).length = l.length * n := by
  induction l with
  | nil => simp
  | cons c l ih =>
    rw [List.flatMap_cons, List.length_append, h c (by simp), ih fun d hd => h d (by simp [hd]), List.length_cons, Nat.succ_mul]
    omega

theorem memberLabels_get {B n r : Nat} (hr : r < B * n) : (memberLabels B n)[r]? = some (r / n) := by
  have hn : 0 < n := Nat.pos_of_ne_zero (by rintro rfl; simp at hr)
  have h := flatMap_uniform (fun b => List.replicate n b) n (List.range B) (by simp) (r / n) (r % n) (Nat.mod_lt _ hn)
  rw [Nat.mul_comm (r / n) n, Nat.div_add_mod] at h
  unfold memberLabels
  have hdiv : r / n < B := (Nat.div_lt_iff_lt_mul hn).2 hr
  rw [h, List.getElem?_range hdiv]
  simp [Nat.mod_lt _ hn]

theorem memberLabels_length (B n : Nat) : (memberLabels B n).length = B * n := by
  unfold memberLabels
  rw [flatMap_length (n := n) (by simp), List.length_range]

theorem hcat_rows : ∀ {l : List (Arr2 α)} {r : Nat}, l ≠ [] → (∀ a ∈ l, a.nrow = r) →
    ∃ v, Arr2.hcat l = .ok v ∧ v.ncol = (l.map (·.ncol)).sum ∧
      v.rows = (List.range r).map fun j => l.flatMap fun a => a.rows.getD j [] := by
  intro l r
  induction l with
  | nil => intro h; exact absurd rfl h
  | cons a l ih =>
    intro _ h
    have ha : a.rows.length = r := h a (by simp)
    cases l with
    | nil =>
      refine ⟨a, rfl, by simp, ?_⟩
      apply List.ext_getElem
      · simp [ha]
      · intro j h1 h2
        simp [List.getD_eq_getElem?_getD, List.getElem?_eq_getElem h1]
    | cons b l =>
      obtain ⟨v, hv, hc, hr⟩ := ih (by simp) fun x hx => h x (by simp [hx])
      have hvr : v.nrow = r := by rw [Arr2.nrow, hr]; simp
      refine ⟨⟨a.ncol + v.ncol, List.zipWith (· ++ ·) a.rows v.rows, ?_⟩, ?_, ?_, ?_⟩
      · intro r hr
        rw [List.mem_iff_getElem] at hr
        obtain ⟨i, hi, rfl⟩ := hr
        simp only [List.length_zipWith] at hi
        simp [a.wf _ (List.getElem_mem _), v.wf _ (List.getElem_mem _)]
      · show (do Arr2.hcat2 a (← Arr2.hcat (b :: l))) = _
        rw [hv]
        show Arr2.hcat2 a v = _
        unfold Arr2.hcat2
        rw [if_pos (by rw [hvr]; exact ha)]
      · simp [hc]
      · simp only
        rw [hr]
        apply List.ext_getElem
        · simp [ha]
        · intro j h1 h2
          simp only [List.length_zipWith, List.length_map, List.length_range] at h1
          have hj : j < a.rows.length := by omega
          simp [List.getD_eq_getElem?_getD, List.getElem?_eq_getElem hj]

theorem expandTo_rows {b : Nat} (hb : 1 ≤ b) {a : Arr2 α} (h : a.nrow = 1 ∨ a.nrow = b) :
    (expandTo b a).nrow = b ∧ ∀ j < b, (expandTo b a).rows.getD j [] = a.rows.getD (if a.nrow = 1 then 0 else j) [] := by
  by_cases h1 : a.nrow = 1
  · have hl : a.rows.length = 1 := h1
    obtain ⟨r, hr⟩ := List.length_eq_one_iff.1 hl
    unfold expandTo
    by_cases hb1 : b > 1
    · rw [if_pos ⟨hb1, h1⟩]
      refine ⟨by simp [Arr2.nrow, Arr2.repeatRows, hr], fun j hj => ?_⟩
      simp [Arr2.repeatRows, hr, h1, List.getD_eq_getElem?_getD, hj]
    · rw [if_neg (by omega)]
      refine ⟨by omega, fun j hj => ?_⟩
      have : j = 0 := by omega
      subst this
      simp
  · have hab : a.nrow = b := h.resolve_left h1
    unfold expandTo
    rw [if_neg (by omega)]
    exact ⟨hab, fun j _ => by rw [if_neg h1]⟩

theorem container_batch {c : Container α} {B : Nat} (hB : 1 ≤ B) (h : ∀ p ∈ Spec.held c, p.2.nrow = 1 ∨ p.2.nrow = B) :
    (c.batchSize = .ok B ∨ c.batchSize = .ok 1 ∧ ∀ p ∈ Spec.held c, p.2.nrow = 1) := by
  have hpos : ∀ n ∈ (Spec.held c).map (fun p => p.2.nrow), 1 ≤ n := by
    intro n hn
    obtain ⟨p, hp, rfl⟩ := List.mem_map.1 hn
    rcases h p hp with e | e <;> omega
  unfold Container.batchSize
  rw [present_eq]
  by_cases hall : ∀ p ∈ Spec.held c, p.2.nrow = 1
  · right
    refine ⟨?_, hall⟩
    rw [batchLoop_ok (Nat.le_refl _) hpos]
    refine ⟨?_, by simp⟩
    intro n hn
    rcases List.mem_cons.1 hn with rfl | hn
    · simp
    · obtain ⟨p, hp, rfl⟩ := List.mem_map.1 hn
      exact .inl (hall p hp)
  · left
    rw [batchLoop_ok (Nat.le_refl _) hpos]
    refine ⟨?_, ?_⟩
    · intro n hn
      rcases List.mem_cons.1 hn with rfl | hn
      · simp
      · obtain ⟨p, hp, rfl⟩ := List.mem_map.1 hn
        exact h p hp
    · simp only [not_forall] at hall
      obtain ⟨p, hp, hne⟩ := hall
      exact List.mem_cons_of_mem _ (List.mem_map.2 ⟨p, hp, (h p hp).resolve_left hne⟩)

/-- What `_squish` makes of one container: one row per cell. -/
theorem squishOne_ok {c : Container α} {B : Nat} (hB : 1 ≤ B) (hne : Spec.held c ≠ [])
    (h : ∀ p ∈ Spec.held c, p.2.nrow = 1 ∨ p.2.nrow = B) :
    ∃ v, squishOne B c = .ok v ∧ v.ncol = ((Spec.held c).map fun p => p.2.ncol).sum ∧
      v.rows = (List.range B).map (Spec.cellRow c) := by
  have colsSum : ∀ b, (((Spec.held c).map fun p => expandTo b p.2).map (·.ncol)).sum =
      ((Spec.held c).map fun p => p.2.ncol).sum := by
    intro b
    rw [List.map_map]
    congr 1
    apply List.map_congr_left
    intro p _
    simp only [Function.comp, expandTo]
    split <;> rfl
  have main : ∀ b, 1 ≤ b → c.batchSize = .ok b → (∀ p ∈ Spec.held c, p.2.nrow = 1 ∨ p.2.nrow = b) →
      ∃ v, c.toNumpy = .ok v ∧ v.ncol = ((Spec.held c).map fun p => p.2.ncol).sum ∧
        v.rows = (List.range b).map (Spec.cellRow c) := by
    intro b hb hbs hrows
    obtain ⟨v, hv, hc, hr⟩ := hcat_rows (l := (Spec.held c).map fun p => expandTo b p.2) (r := b) (by simpa using hne)
      (by
        intro a ha
        obtain ⟨p, hp, rfl⟩ := List.mem_map.1 ha
        exact (expandTo_rows hb (hrows p hp)).1)
    refine ⟨v, by rw [toNumpy_eq hbs]; exact hv, by rw [hc, colsSum], ?_⟩
    rw [hr]
    apply List.map_congr_left
    intro j hj
    rw [List.mem_range] at hj
    unfold Spec.cellRow
    rw [List.flatMap_map]
    apply flatMap_congr'
    intro p hp
    exact (expandTo_rows hb (hrows p hp)).2 j hj
  unfold squishOne
  rcases container_batch hB h with hb | ⟨hb, hone⟩
  · obtain ⟨v, hv, hc, hr⟩ := main B hB hb h
    refine ⟨v, ?_, hc, hr⟩
    rw [hb, hv]
    show Except.ok (if B = B then v else _) = _
    rw [if_pos rfl]
  · obtain ⟨v, hv, hc, hr⟩ := main 1 (Nat.le_refl _) hb fun p hp => .inl (hone p hp)
    by_cases h1 : 1 = B
    · subst h1
      refine ⟨v, ?_, hc, hr⟩
      rw [hb, hv]
      show Except.ok (if 1 = 1 then v else _) = _
      rw [if_pos rfl]
    · refine ⟨v.repeatRows B, ?_, hc, ?_⟩
      · rw [hb, hv]
        show Except.ok (if 1 = B then v else _) = _
        rw [if_neg h1]
      · have : ∀ b, Spec.cellRow c b = Spec.cellRow c 0 := by
          intro b
          unfold Spec.cellRow
          apply flatMap_congr'
          intro p hp
          rw [if_pos (hone p hp), if_pos (hone p hp)]
        simp only [Arr2.repeatRows, hr]
        apply List.ext_getElem
        · simp
        · intro j h1 h2
          simp [this j]

theorem mapM_ok_of {β γ : Type} {f : β → Except Err γ} {P : β → γ → Prop} : ∀ {l : List β}, (∀ c ∈ l, ∃ v, f c = .ok v ∧ P c v) →
    ∃ vs, l.mapM f = .ok vs ∧ List.Forall₂ P l vs := by
  intro l
  induction l with
  | nil => intro _; exact ⟨[], rfl, .nil⟩
  | cons c l ih =>
    intro h
    obtain ⟨v, hv, hp⟩ := h c (by simp)
    obtain ⟨vs, hvs, hps⟩ := ih fun d hd => h d (by simp [hd])
    refine ⟨v :: vs, ?_, .cons hp hps⟩
    rw [List.mapM_cons, hv]
    show (do let vs ← l.mapM f; pure (v :: vs)) = _
    rw [hvs]; rfl

/-- What `_squish` makes of a history: the labels of the first container; row `k*B+b` is cell `b` of entry `k`. -/
theorem squish_ok {l : List (Container α)} {c₀ : Container α} {B : Nat} (hB : 1 ≤ B) (h0 : l.head? = some c₀) (hl : Regular B l) :
    ∃ v, squish B l = .ok (Spec.columns c₀, v) ∧ v.nrow = l.length * B ∧
      ∀ k b c, l[k]? = some c → b < B → v.rows[k * B + b]? = some (Spec.cellRow c b) := by
  obtain ⟨vs, hvs, hall⟩ := mapM_ok_of (f := squishOne B)
    (P := fun c v => v.ncol = ((Spec.held c).map fun p => p.2.ncol).sum ∧ v.rows = (List.range B).map (Spec.cellRow c))
    (fun c hc => squishOne_ok hB (hl.ne c hc) (hl.rows c hc))
  obtain ⟨rest, rfl⟩ : ∃ rest, l = c₀ :: rest := by
    cases l with
    | nil => simp at h0
    | cons c rest => simp at h0; exact ⟨rest, by rw [h0]⟩
  have widths : ∀ c ∈ c₀ :: rest, ((Spec.held c).map fun p => p.2.ncol).sum = ((Spec.held c₀).map fun p => p.2.ncol).sum := by
    intro c hc
    have := congrArg (List.map Prod.snd) (hl.layout c hc c₀ (by simp))
    simp only [List.map_map] at this
    exact congrArg List.sum this
  have rowsEq : (vs.map (·.rows)).flatten = (c₀ :: rest).flatMap fun c => (List.range B).map (Spec.cellRow c) := by
    rw [List.flatMap_def]
    congr 1
    have gen : ∀ (l : List (Container α)) (vs : List (Arr2 α)), List.Forall₂ (fun c v =>
        v.ncol = ((Spec.held c).map fun p => p.2.ncol).sum ∧ v.rows = (List.range B).map (Spec.cellRow c)) l vs →
        vs.map (·.rows) = l.map fun c => (List.range B).map (Spec.cellRow c) := by
      intro l vs h
      induction h with
      | nil => rfl
      | cons hp _ ih => rw [List.map_cons, List.map_cons, hp.2, ih]
    exact gen _ _ hall
  have ncols : ∀ v ∈ vs, v.ncol = ((Spec.held c₀).map fun p => p.2.ncol).sum := by
    intro v hv
    obtain ⟨i, hi, rfl⟩ := List.mem_iff_getElem.1 hv
    have hlen := hall.length_eq
    have h2 := (List.forall₂_iff_get.1 hall).2 i (by omega) hi
    rw [← widths _ (List.getElem_mem (by omega : i < (c₀ :: rest).length))]
    exact h2.1
  cases vs with
  | nil => cases hall
  | cons v vs =>
    have hcond : ∀ w ∈ vs, w.ncol = v.ncol := fun w hw => by
      rw [ncols w (by simp [hw]), ncols v (by simp)]
    have wfv : ∀ r ∈ ((v :: vs).map (·.rows)).flatten, r.length = v.ncol := by
      intro r hr
      simp only [List.mem_flatten, List.mem_map] at hr
      obtain ⟨m, ⟨b, hb, rfl⟩, hr⟩ := hr
      rcases List.mem_cons.1 hb with rfl | hb
      · exact b.wf r hr
      · rw [b.wf r hr, hcond b hb]
    have hc15 := C15_length_width_names c₀ (hl.wf c₀ (by simp))
    have hw : (Spec.columns c₀).length = v.ncol := by
      rw [ncols v (by simp), ← len_eq (hl.wf c₀ (by simp)).1]
      exact hc15.2.1
    refine ⟨⟨v.ncol, ((v :: vs).map (·.rows)).flatten, wfv⟩, ?_, ?_, ?_⟩
    · unfold squish
      rw [hvs]
      show (do labelled (c₀ :: rest) (← Arr2.vcat (v :: vs))) = _
      have hv : Arr2.vcat (v :: vs) = .ok ⟨v.ncol, ((v :: vs).map (·.rows)).flatten, wfv⟩ := by
        simp only [Arr2.vcat]
        rw [dif_pos hcond]
      rw [hv]
      show labelled (c₀ :: rest) _ = _
      unfold labelled
      simp only [hc15.1]
      have : ¬ (Spec.columns c₀).length ≠ v.ncol := by simp [hw]
      exact if_neg this
    · show (((v :: vs).map (·.rows)).flatten).length = _
      rw [rowsEq, flatMap_length (n := B) (by simp)]
    · intro k b c hk hb
      show (((v :: vs).map (·.rows)).flatten)[k * B + b]? = _
      rw [rowsEq, flatMap_uniform _ B _ (by simp) k b hb, hk]
      simp [hb]

/-! ## C42 -/

/-- The hypotheses under which the table is as described: a history of `n` entries, batch size `B` of the last measurement, every
recorded value given once or once per cell, one kind of container per history. -/
structure RegularHistory (s : Simulator (Container α) (Container α) A (Container α))
    (h : History (Container α) (Container α) A (Container α)) (B n : Nat) : Prop where
  kept : s.history = some h
  batch : s.measurement.batchSize = .ok B
  pos : 1 ≤ B
  inputs : Regular B h.inputs
  transients : Regular B h.transients
  measurements : Regular B h.measurements
  ni : h.inputs.length = n
  nx : h.transients.length = n
  ny : h.measurements.length = n

theorem frame_ok {s : Simulator (Container α) (Container α) A (Container α)}
    {h : History (Container α) (Container α) A (Container α)} {B n : Nat} (hr : RegularHistory s h B n)
    {i₀ x₀ y₀ : Container α} (hi : h.inputs.head? = some i₀) (hx : h.transients.head? = some x₀)
    (hy : h.measurements.head? = some y₀) :
    ∃ f, s.toDataframe = .ok f ∧ f.names = Spec.columns i₀ ++ Spec.columns x₀ ++ Spec.columns y₀ ∧
      ∃ cells : Nat → List (Option α), f.rows = (List.range (B * n)).map (fun r => (some (r / n), cells r)) ∧
        ∀ k b i x y, h.inputs[k]? = some i → h.transients[k]? = some x → h.measurements[k]? = some y → b < B →
          cells (k * B + b) = (Spec.cellRow i b ++ Spec.cellRow x b ++ Spec.cellRow y b).map some := by
  obtain ⟨vi, ei, li, ri⟩ := squish_ok hr.pos hi hr.inputs
  obtain ⟨vx, ex, lx, rx⟩ := squish_ok hr.pos hx hr.transients
  obtain ⟨vy, ey, ly, ry⟩ := squish_ok hr.pos hy hr.measurements
  refine ⟨besides (memberLabels B n) (Spec.columns i₀, vi) (Spec.columns x₀, vx) (Spec.columns y₀, vy), ?_, rfl,
    fun r => blockRow vi r ++ blockRow vx r ++ blockRow vy r, ?_, ?_⟩
  · unfold Simulator.toDataframe
    rw [hr.kept]
    simp only
    rw [hr.batch]
    show (do
      let i ← squish B h.inputs
      let x ← squish B h.transients
      let y ← squish B h.measurements
      pure (besides (memberLabels B h.inputs.length) i x y)) = _
    rw [ei, ex, ey, hr.ni]; rfl
  · simp only [besides]
    rw [memberLabels_length, li, lx, ly, hr.ni, hr.nx, hr.ny, Nat.mul_comm n B, Nat.max_self, Nat.max_self, Nat.max_self]
    apply List.map_congr_left
    intro r hrr
    rw [List.mem_range] at hrr
    rw [memberLabels_get hrr]
  · intro k b i x y hki hkx hky hb
    simp only [blockRow]
    rw [ri k b i hki hb, rx k b x hkx hb, ry k b y hky hb]
    simp

/-- C42, the contents of the table, and the label the code gives each row.  The table has one row per step and cell; row `k*B+b`
holds the inputs, transient state and measurement of cell `b` at step `k`; but its label is `(k*B+b)/n` (with `n` the number of
steps recorded), not `b`.  See `C42_labels_right_iff`. -/
theorem C42_rows_partial (s : Simulator (Container α) (Container α) A (Container α))
    (h : History (Container α) (Container α) A (Container α)) (B n : Nat) (hr : RegularHistory s h B n)
    (i₀ x₀ y₀ : Container α) (hi : h.inputs.head? = some i₀) (hx : h.transients.head? = some x₀)
    (hy : h.measurements.head? = some y₀) :
    ∃ f, s.toDataframe = .ok f ∧ f.names = Spec.columns i₀ ++ Spec.columns x₀ ++ Spec.columns y₀ ∧ f.rows.length = n * B ∧
      ∀ k b i x y, h.inputs[k]? = some i → h.transients[k]? = some x → h.measurements[k]? = some y → b < B →
        f.rows[k * B + b]? = some (some ((k * B + b) / n),
          (Spec.cellRow i b ++ Spec.cellRow x b ++ Spec.cellRow y b).map some) := by
  obtain ⟨f, hf, hn, cells, hrows, hcells⟩ := frame_ok hr hi hx hy
  refine ⟨f, hf, hn, by rw [hrows]; simp [Nat.mul_comm], ?_⟩
  intro k b i x y hki hkx hky hb
  have hk : k < n := by rw [← hr.ni]; exact (List.getElem?_eq_some_iff.1 hki).1
  have hlt : k * B + b < B * n := by
    have : (k + 1) * B ≤ n * B := Nat.mul_le_mul_right B hk
    rw [Nat.mul_comm B n]; rw [Nat.succ_mul] at this; omega
  rw [hrows, List.getElem?_map, List.getElem?_range hlt, Option.map_some, hcells k b i x y hki hkx hky hb]

/-- C42: the labels `(k*B+b)/n` name the right cells in every row exactly when there is a single cell or a single recorded step. -/
theorem C42_labels_right_iff (B n : Nat) (hB : 1 ≤ B) (hn : 1 ≤ n) :
    (∀ k < n, ∀ b < B, (k * B + b) / n = b) ↔ B = 1 ∨ n = 1 := by
  constructor
  · intro h
    by_contra hne
    push Not at hne
    have h1 := h 0 (by omega) 1 (by omega)
    have : (0 * B + 1) / n = 0 := Nat.div_eq_of_lt (by omega)
    omega
  · rintro (rfl | rfl) k hk b hb
    · have : b = 0 := by omega
      subst this
      rw [Nat.mul_one, Nat.add_zero, Nat.div_eq_of_lt hk]
    · have : k = 0 := by omega
      subst this
      simp

theorem range_filter_div {B n b : Nat} (hn : 0 < n) (hb : b < B) :
    (List.range (B * n)).filter (fun r => r / n == b) = (List.range n).map (b * n + ·) := by
  induction B with
  | zero => omega
  | succ B ih =>
    have tail : ∀ c, ((List.range n).map (B * n + ·)).filter (fun r => r / n == c) =
        if B = c then (List.range n).map (B * n + ·) else [] := by
      intro c
      have hdiv : ∀ r ∈ (List.range n).map (B * n + ·), (r / n == c) = (B == c) := by
        intro r hr
        obtain ⟨j, hj, rfl⟩ := List.mem_map.1 hr
        rw [List.mem_range] at hj
        have : (B * n + j) / n = B := by
          rw [Nat.mul_comm, Nat.mul_add_div hn, Nat.div_eq_of_lt hj, Nat.add_zero]
        rw [this]
      rw [List.filter_congr hdiv]
      by_cases hc : B = c
      · simp [hc]
      · simp [hc]
    rw [Nat.succ_mul, List.range_add, List.filter_append, tail]
    by_cases hbB : b < B
    · rw [ih hbB, if_neg (by omega), List.append_nil]
    · have : B = b := by omega
      subst this
      rw [if_pos rfl, List.filter_eq_nil_iff.2, List.nil_append]
      intro r hr
      rw [List.mem_range] at hr
      have := (Nat.div_lt_iff_lt_mul hn).2 hr
      simp; omega

theorem ascending_keys {L : List Nat} {B : Nat} (hB : 1 ≤ B) (hL : ∀ b, b ∈ L ↔ b < B) :
    (List.range (L.foldr max 0 + 1)).filter (fun b => L.contains b) = List.range B := by
  have up : ∀ (L : List Nat) (m : Nat), (∀ b ∈ L, b ≤ m) → L.foldr max 0 ≤ m := by
    intro L m
    induction L with
    | nil => intro _; simp
    | cons x L ih =>
      intro h
      have := ih fun b hb => h b (by simp [hb])
      have := h x (by simp)
      simp only [List.foldr_cons]; omega
  have lo : ∀ (L : List Nat) b, b ∈ L → b ≤ L.foldr max 0 := by
    intro L b
    induction L with
    | nil => simp
    | cons x L ih =>
      intro h
      simp only [List.foldr_cons]
      rcases List.mem_cons.1 h with rfl | h
      · omega
      · have := ih h; omega
  have e : L.foldr max 0 + 1 = B := by
    have h1 := up L (B - 1) fun b hb => by have := (hL b).1 hb; omega
    have h2 := lo L (B - 1) ((hL _).2 (by omega))
    omega
  rw [e, List.filter_eq_self.2]
  intro b hb
  rw [List.mem_range] at hb
  simpa using (hL b).2 hb

/-- C42, the datasets.  There is one per cell, each with `n` rows and the columns of the table renamed; but row `j` of dataset `b`
is cell `(b*n+j) % B` at step `(b*n+j) / B`.  With a single cell this is step `j` of that cell: the series in time order
(`C42_batdata_single_cell_partial`); with several cells and steps the series are mixed up
(`C42_batdata_mixes_cells`). -/
theorem C42_batdata_contents_partial (s : Simulator (Container α) (Container α) A (Container α))
    (h : History (Container α) (Container α) A (Container α)) (B n : Nat) (hr : RegularHistory s h B n)
    (i₀ x₀ y₀ : Container α) (hi : h.inputs.head? = some i₀) (hx : h.transients.head? = some x₀)
    (hy : h.measurements.head? = some y₀) :
    ∃ ds, s.toBatdata = .ok ds ∧ ds.length = B ∧ ∀ b < B, ∃ rows,
      ds[b]? = some ((Spec.columns i₀ ++ Spec.columns x₀ ++ Spec.columns y₀).map Spec.datasetColumn, rows) ∧ rows.length = n ∧
      ∀ j < n, ∀ i x y, h.inputs[(b * n + j) / B]? = some i → h.transients[(b * n + j) / B]? = some x →
        h.measurements[(b * n + j) / B]? = some y →
        rows[j]? = some ((Spec.cellRow i ((b * n + j) % B) ++ Spec.cellRow x ((b * n + j) % B) ++
          Spec.cellRow y ((b * n + j) % B)).map some) := by
  obtain ⟨f, hf, hn, cells, hrows, hcells⟩ := frame_ok hr hi hx hy
  have hnpos : 0 < n := by
    rw [← hr.ni]
    cases hh : h.inputs with
    | nil => rw [hh] at hi; simp at hi
    | cons _ _ => simp
  have hkeys : f.groups = List.range B := by
    unfold Frame.groups
    apply ascending_keys hr.pos
    intro b
    rw [hrows, List.filterMap_map]
    simp only [List.mem_filterMap, List.mem_range, Function.comp, Option.some.injEq]
    constructor
    · rintro ⟨r, hr', rfl⟩
      exact (Nat.div_lt_iff_lt_mul hnpos).2 hr'
    · intro hb
      refine ⟨b * n, (Nat.mul_lt_mul_right hnpos).2 hb, Nat.mul_div_cancel _ hnpos⟩
  refine ⟨f.groups.map fun b => (f.names.map renameColumn, (f.rows.filter fun r => r.1 == some b).map (·.2)), ?_, ?_, ?_⟩
  · unfold Simulator.toBatdata
    rw [hf]; rfl
  · rw [hkeys]; simp
  · intro b hb
    have hdata : (f.rows.filter fun r => r.1 == some b).map (·.2) = (List.range n).map fun j => cells (b * n + j) := by
      rw [hrows, List.filter_map, List.map_map]
      have : ((fun r : Option Nat × List (Option α) => r.1 == some b) ∘ fun r => (some (r / n), cells r)) =
          fun r => r / n == b := by
        funext r; simp
      rw [this, range_filter_div hnpos hb, List.map_map]
      rfl
    refine ⟨(List.range n).map fun j => cells (b * n + j), ?_, by simp, ?_⟩
    · rw [hkeys, List.getElem?_map, List.getElem?_range hb, Option.map_some, hdata, hn, show renameColumn = Spec.datasetColumn from funext renameColumn_eq]
    · intro j hj i x y hji hjx hjy
      rw [List.getElem?_map, List.getElem?_range hj, Option.map_some]
      have e := hcells ((b * n + j) / B) ((b * n + j) % B) i x y hji hjx hjy (Nat.mod_lt _ hr.pos)
      rw [Nat.mul_comm _ B, Nat.div_add_mod] at e
      rw [e]

/-- C42 for a single cell: the table's only label is 0, and the only dataset is the cell's series in time order. -/
theorem C42_batdata_single_cell_partial (s : Simulator (Container α) (Container α) A (Container α))
    (h : History (Container α) (Container α) A (Container α)) (n : Nat) (hr : RegularHistory s h 1 n)
    (i₀ x₀ y₀ : Container α) (hi : h.inputs.head? = some i₀) (hx : h.transients.head? = some x₀)
    (hy : h.measurements.head? = some y₀) :
    ∃ rows : List (List (Option α)), s.toBatdata = .ok [((Spec.columns i₀ ++ Spec.columns x₀ ++ Spec.columns y₀).map Spec.datasetColumn, rows)] ∧
      rows.length = n ∧
      ∀ (k : Nat) i x y, h.inputs[k]? = some i → h.transients[k]? = some x → h.measurements[k]? = some y →
        rows[k]? = some ((Spec.cellRow i 0 ++ Spec.cellRow x 0 ++ Spec.cellRow y 0).map some) := by
  obtain ⟨ds, hds, hlen, hall⟩ := C42_batdata_contents_partial s h 1 n hr i₀ x₀ y₀ hi hx hy
  obtain ⟨rows, h0, hl, hrow⟩ := hall 0 (by omega)
  obtain ⟨d, rfl⟩ := List.length_eq_one_iff.1 hlen
  simp only [List.getElem?_cons_zero, Option.some.injEq] at h0
  refine ⟨rows, by rw [hds, h0], hl, ?_⟩
  intro k i x y hki hkx hky
  have hk : k < n := by rw [← hr.ni]; exact (List.getElem?_eq_some_iff.1 hki).1
  have := hrow k hk i x y (by simpa using hki) (by simpa using hkx) (by simpa using hky)
  simpa [Nat.mod_one] using this

/-! ## Concrete cases -/

namespace FrameDemo

/-- A container with one field. -/
def one (k : String) (a : Arr2 Int) : Container Int := ⟨[(k.toList, some a)]⟩

/-- Two cells at two steps; time 0 then 1; the cells' states are 10, 20 and then 11, 21; the voltages are 30, 40 and then 31, 41. -/
def hist : History (Container Int) (Container Int) Unit (Container Int) :=
  ⟨[one "time" (.scalar 0), one "time" (.scalar 1)],
   [one "soc" (.column [10, 20]), one "soc" (.column [11, 21])], [(), ()],
   [one "terminal_voltage" (.column [30, 40]), one "terminal_voltage" (.column [31, 41])]⟩

def sim : Simulator (Container Int) (Container Int) Unit (Container Int) where
  model := ⟨fun _ _ x _ => .ok x, fun _ x _ => .ok x⟩
  degradation := NoDegradation _ _ _ _
  asoh := ()
  transient := one "soc" (.column [11, 21])
  input := one "time" (.scalar 1)
  measurement := one "terminal_voltage" (.column [31, 41])
  history := some hist

theorem one_wf (k : String) (a : Arr2 Int) (h : '[' ∉ k.toList) : (one k a).WF := by
  refine ⟨by simp [one], ?_⟩
  intro k' f hf
  simp only [one, List.mem_singleton, Prod.mk.injEq] at hf
  rw [hf.1]; exact h

theorem regular (k : String) (hk : '[' ∉ k.toList) (w r : Nat) (a b : Arr2 Int) (ha : a.ncol = w) (hb : b.ncol = w)
    (har : a.nrow = 1 ∨ a.nrow = r) (hbr : b.nrow = 1 ∨ b.nrow = r) : Regular r [one k a, one k b] := by
  refine ⟨?_, ?_, ?_, ?_⟩
  · intro c hc
    simp only [List.mem_cons, List.not_mem_nil, or_false] at hc
    rcases hc with rfl | rfl <;> exact one_wf _ _ hk
  · intro c hc
    simp only [List.mem_cons, List.not_mem_nil, or_false] at hc
    rcases hc with rfl | rfl <;> simp [one, Spec.held]
  · intro c hc p hp
    simp only [List.mem_cons, List.not_mem_nil, or_false] at hc
    rcases hc with rfl | rfl <;> simp only [one, Spec.held, List.filterMap_cons, List.filterMap_nil, List.mem_singleton] at hp <;>
      subst hp
    · exact har
    · exact hbr
  · intro c hc d hd
    simp only [List.mem_cons, List.not_mem_nil, or_false] at hc hd
    rcases hc with rfl | rfl <;> rcases hd with rfl | rfl <;> simp [one, Spec.held, ha, hb]

/-- The hypotheses of `C42_rows_partial` and `C42_batdata_contents_partial` are met by two cells recorded at two steps. -/
theorem regularHistory : RegularHistory sim hist 2 2 where
  kept := rfl
  batch := rfl
  pos := by omega
  inputs := regular "time" (by decide) 1 2 _ _ rfl rfl (.inl rfl) (.inl rfl)
  transients := regular "soc" (by decide) 1 2 _ _ rfl rfl (.inr rfl) (.inr rfl)
  measurements := regular "terminal_voltage" (by decide) 1 2 _ _ rfl rfl (.inr rfl) (.inr rfl)
  ni := rfl
  nx := rfl
  ny := rfl

/-- The same with one cell (for `C42_batdata_single_cell_partial`). -/
example : ∃ (s : Simulator (Container Int) (Container Int) Unit (Container Int)) (h : _), RegularHistory s h 1 2 := by
  let h : History (Container Int) (Container Int) Unit (Container Int) :=
    ⟨[one "time" (.scalar 0), one "time" (.scalar 1)], [one "soc" (.scalar 10), one "soc" (.scalar 11)], [(), ()],
      [one "terminal_voltage" (.scalar 30), one "terminal_voltage" (.scalar 31)]⟩
  refine ⟨{ sim with measurement := one "terminal_voltage" (.scalar 31), history := some h }, h, ?_⟩
  exact ⟨rfl, rfl, by omega, regular "time" (by decide) 1 1 _ _ rfl rfl (.inl rfl) (.inl rfl),
    regular "soc" (by decide) 1 1 _ _ rfl rfl (.inl rfl) (.inl rfl),
    regular "terminal_voltage" (by decide) 1 1 _ _ rfl rfl (.inl rfl) (.inl rfl), rfl, rfl, rfl⟩

end FrameDemo

/-- C42 fails for the code as written: with two cells and two recorded steps, the second row of the table is labelled cell 0 and
holds state 20 and voltage 40, which cell 0 never had; the third is labelled cell 1 and holds the second step of cell 0. -/
theorem C42_labels_name_wrong_cells :
    ∃ f, FrameDemo.sim.toDataframe = .ok f ∧
      f.rows = [(some 0, [some 0, some 10, some 30]), (some 0, [some 0, some 20, some 40]),
                (some 1, [some 1, some 11, some 31]), (some 1, [some 1, some 21, some 41])] ∧
      Spec.cellRow (FrameDemo.one "soc" (.column [10, 20])) 0 = [10] ∧
      Spec.cellRow (FrameDemo.one "soc" (.column [11, 21])) 0 = [11] :=
  ⟨_, rfl, rfl, rfl, rfl⟩

/-- C42 fails for the datasets: the first dataset holds both cells at the first step instead of the first cell at both steps. -/
theorem C42_batdata_mixes_cells :
    ∃ ds, FrameDemo.sim.toBatdata = .ok ds ∧
      ds.map (·.2) = [[[some 0, some 10, some 30], [some 0, some 20, some 40]],
                      [[some 1, some 11, some 31], [some 1, some 21, some 41]]] :=
  ⟨_, rfl, rfl⟩

theorem blockRow_length (v : Arr2 α) (r : Nat) : (blockRow v r).length = v.ncol := by
  unfold blockRow
  split
  · rename_i row h
    rw [List.length_map, v.wf row (List.mem_of_getElem? h)]
  · simp

theorem except_bind_ok {ε β γ : Type} {x : Except ε β} {g : β → Except ε γ} {c : γ} (h : x >>= g = .ok c) :
    ∃ v, x = .ok v ∧ g v = .ok c := by
  cases x with
  | error e => cases h
  | ok v => exact ⟨v, rfl, h⟩

theorem squish_width {b : Nat} {l : List (Container α)} {names : List Name} {v : Arr2 α}
    (h : squish b l = .ok (names, v)) : names.length = v.ncol := by
  unfold squish at h
  obtain ⟨vs, -, h⟩ := except_bind_ok h
  obtain ⟨w, -, h⟩ := except_bind_ok h
  unfold labelled at h
  split at h
  · cases h
  · split at h
    · cases h
    · rename_i ns _
      by_cases hne : ns.length ≠ w.ncol
      · rw [if_pos hne] at h; cases h
      · rw [if_neg hne] at h
        simp only [Except.ok.injEq, Prod.mk.injEq] at h
        rw [← h.1, ← h.2]
        exact not_not.1 hne

/-- C42: whatever was recorded, a table that is returned is rectangular: every row has one entry, possibly missing, per column,
and so has every row of every dataset. -/
theorem C42_rectangular (s : Simulator (Container α) (Container α) A (Container α)) :
    (∀ f, s.toDataframe = .ok f → ∀ r ∈ f.rows, r.2.length = f.names.length) ∧
    ∀ ds, s.toBatdata = .ok ds → ∀ d ∈ ds, ∀ r ∈ d.2, r.length = d.1.length := by
  have key : ∀ f, s.toDataframe = .ok f → ∀ r ∈ f.rows, r.2.length = f.names.length := by
    intro f hf
    unfold Simulator.toDataframe at hf
    split at hf
    · cases hf
    rename_i h _
    obtain ⟨b, -, hf⟩ := except_bind_ok hf
    obtain ⟨⟨ni, vi⟩, hi, hf⟩ := except_bind_ok hf
    obtain ⟨⟨nx, vx⟩, hx, hf⟩ := except_bind_ok hf
    obtain ⟨⟨ny, vy⟩, hy, hf⟩ := except_bind_ok hf
    simp only [pure, Except.pure, Except.ok.injEq] at hf
    subst hf
    intro r hr
    simp only [besides, List.mem_map] at hr
    obtain ⟨k, _, rfl⟩ := hr
    simp only [besides, List.length_append, blockRow_length, squish_width hi, squish_width hx, squish_width hy]
  refine ⟨key, ?_⟩
  intro ds hds d hd r hr
  unfold Simulator.toBatdata at hds
  obtain ⟨f, hf, hds⟩ := except_bind_ok hds
  simp only [pure, Except.pure, Except.ok.injEq] at hds
  subst hds
  obtain ⟨b, _, rfl⟩ := List.mem_map.1 hd
  simp only [List.mem_map, List.mem_filter] at hr
  obtain ⟨q, ⟨hq, _⟩, rfl⟩ := hr
  rw [key f hf q hq, List.length_map]

/-- A case with missing entries: an input of three rows beside two cells is repeated to six rows, the other parts have two. -/
example : ∃ f, ({ FrameDemo.sim with
      history := some ⟨[FrameDemo.one "time" (.column [0, 1, 2])], [FrameDemo.one "soc" (.column [10, 20])], [()],
        [FrameDemo.one "terminal_voltage" (.column [30, 40])]⟩ } :
      Simulator (Container Int) (Container Int) Unit (Container Int)).toDataframe = .ok f ∧
    f.rows = [(some 0, [some 0, some 10, some 30]), (some 1, [some 0, some 20, some 40]), (none, [some 1, none, none]),
              (none, [some 1, none, none]), (none, [some 2, none, none]), (none, [some 2, none, none])] :=
  ⟨_, rfl, rfl⟩

/-- C42: without history there is no table: ValueError. -/
theorem C42_needs_history (s : Simulator (Container α) (Container α) A (Container α)) (h : s.history = none) :
    s.toDataframe = .error .valueError ∧ s.toBatdata = .error .valueError := by
  unfold Simulator.toBatdata Simulator.toDataframe
  rw [h]
  exact ⟨rfl, rfl⟩

end Verif
