import Verif.Model.Dimensions
import Verif.Props.HealthUpdate
/-!
# C13 (`set_value`) and C17 (`enforce_dimensions`)
-/

namespace Verif
variable {α : Type}

theorem NDArray.squeeze_shape (x : NDArray α) : x.squeeze.shape = x.shape.filter (· ≠ 1) := rfl

theorem NDArray.atleast1d_data (x : NDArray α) : x.atleast1d.data = x.data := by
  unfold NDArray.atleast1d; split <;> rfl

theorem NDArray.atleast2d_data (x : NDArray α) : x.atleast2d.data = x.data := by
  unfold NDArray.atleast2d; split <;> rfl

theorem NDArray.atleast1d_shape (x : NDArray α) : x.atleast1d.shape = if x.shape = [] then [1] else x.shape := by
  unfold NDArray.atleast1d
  split
  · rename_i h; simp [h]
  · rename_i h; simp [h]

theorem NDArray.atleast2d_shape (x : NDArray α) : x.atleast2d.shape =
    match x.shape with
    | [] => [1, 1]
    | [n] => [1, n]
    | s => s := by
  unfold NDArray.atleast2d
  split
  · rename_i h; simp [h]
  · rename_i n h; simp [h]
  · rename_i h1 h2
    split
    · rename_i h; exact absurd h h1
    · rename_i n h; exact absurd h (h2 n)
    · rfl

/-- C17, scalars (`dim = 0`).  The call raises (`ValueError`) exactly if more than one axis has a size other than 1;
otherwise the result has shape `(n, 1)` and holds the same entries in the same order. -/
theorem C17_scalar (x : NDArray α) :
    (enforceDimensions x 0 = .error .valueError ↔ 1 < (x.shape.filter (· ≠ 1)).length) ∧
    ((x.shape.filter (· ≠ 1)).length ≤ 1 →
      ∃ y, enforceDimensions x 0 = .ok y ∧ y.shape = [x.data.length, 1] ∧ y.data = x.data) := by
  unfold enforceDimensions
  simp only [if_true]
  constructor
  · split
    · rename_i h; simpa [NDArray.ndim, NDArray.squeeze_shape] using h
    · rename_i h
      simp only [NDArray.ndim, NDArray.squeeze_shape] at h
      simp only [reduceCtorEq, false_iff]; exact h
  · intro h
    have hn : ¬ x.squeeze.ndim > 1 := by simp only [NDArray.ndim, NDArray.squeeze_shape]; omega
    rw [if_neg hn]
    refine ⟨_, rfl, ?_, ?_⟩
    · show x.squeeze.atleast1d.shape ++ [1] = _
      rw [NDArray.atleast1d_shape]
      have hw := x.squeeze.wf
      have hd : x.squeeze.data = x.data := rfl
      cases hs : x.squeeze.shape with
      | nil => rw [hs, hd] at hw; simp at hw; simp [hw]
      | cons n t =>
        have : t = [] := by
          have : x.squeeze.shape.length ≤ 1 := h
          rw [hs] at this
          cases t with
          | nil => rfl
          | cons a b => simp at this
        subst this
        rw [hs, hd] at hw
        simp at hw
        simp [hw]
    · show x.squeeze.atleast1d.data = _
      rw [NDArray.atleast1d_data]; rfl

/-- C17, lists (`dim = 1`).  The call never raises; the result has at least two axes, the same entries in the same order,
and arrays of two or more axes are returned as they are; a number becomes `(1, 1)` and a vector `(1, n)`. -/
theorem C17_list (x : NDArray α) :
    ∃ y, enforceDimensions x 1 = .ok y ∧ y.data = x.data ∧ 2 ≤ y.shape.length ∧ (2 ≤ x.shape.length → y = x) ∧
      (x.shape = [] → y.shape = [1, 1]) ∧ (∀ n, x.shape = [n] → y.shape = [1, n]) := by
  refine ⟨x.atleast2d, by simp [enforceDimensions], NDArray.atleast2d_data x, ?_, ?_, ?_, ?_⟩
  · rw [NDArray.atleast2d_shape]
    split
    · simp
    · simp
    · rename_i s h1 h2
      match h : x.shape with
      | [] => exact absurd h (h1)
      | [n] => exact absurd h (h2 n)
      | _ :: _ :: _ => simp
  · intro h
    unfold NDArray.atleast2d
    split
    · rename_i h'; rw [h'] at h; simp at h
    · rename_i n h'; rw [h'] at h; simp at h
    · rfl
  · intro h; rw [NDArray.atleast2d_shape, h]
  · intro n h; rw [NDArray.atleast2d_shape, h]

/-- C17.  Other dimensionalities are refused. -/
theorem C17_other (x : NDArray α) (dim : Nat) (h : 2 ≤ dim) : enforceDimensions x dim = .error .valueError := by
  unfold enforceDimensions
  rw [if_neg (by omega), if_neg (by omega)]

/-- C17.  Applying it twice is applying it once. -/
theorem C17_idempotent (x y : NDArray α) (dim : Nat) (h : enforceDimensions x dim = .ok y) :
    enforceDimensions y dim = .ok y := by
  by_cases h0 : dim = 0
  · subst h0
    by_cases hlen : (x.shape.filter (· ≠ 1)).length ≤ 1
    · obtain ⟨y', h1, h2, h3⟩ := (C17_scalar x).2 hlen
      rw [h1] at h; cases h
      have hy : (y.shape.filter (· ≠ 1)).length ≤ 1 := by
        rw [h2]
        by_cases hn : x.data.length = 1 <;> simp [hn]
      obtain ⟨z, g1, g2, g3⟩ := (C17_scalar y).2 hy
      rw [g1]
      congr 1
      apply NDArray.ext'
      · rw [g2, h2, h3]
      · exact g3
    · rw [(C17_scalar x).1.2 (by omega)] at h; cases h
  · by_cases h1 : dim = 1
    · subst h1
      obtain ⟨z, g1, _, g3, _⟩ := C17_list x
      rw [g1] at h; cases h
      obtain ⟨w, k1, _, _, k4, _⟩ := C17_list y
      rw [k1, k4 g3]
    · rw [C17_other x dim (by omega)] at h; cases h

/-- A `(1, 3, 1)` array becomes `(3, 1)`; a `(2, 2)` array is no scalar. -/
example : enforceDimensions (⟨[1, 3, 1], [5, 6, 7], rfl⟩ : NDArray Int) 0 = .ok ⟨[3, 1], [5, 6, 7], rfl⟩ ∧
    enforceDimensions (⟨[2, 2], [5, 6, 7, 8], rfl⟩ : NDArray Int) 0 = .error .valueError ∧
    enforceDimensions (⟨[3], [5, 6, 7], rfl⟩ : NDArray Int) 1 = .ok ⟨[1, 3], [5, 6, 7], rfl⟩ := by
  refine ⟨rfl, rfl, rfl⟩

/-! ## C13 -/

theorem fieldOfArray_shape {y : NDArray α} {n w : Nat} (h : y.shape = [n, w]) :
    ∃ a : Arr2 α, fieldOfArray y = .arr a ∧ a.nrow = n ∧ a.ncol = w ∧ a.rows.flatten = y.data := by
  obtain ⟨a, h1, h2⟩ := NDArray.toArr2_of_shape h
  exact ⟨a, by simp [fieldOfArray, h1], h2⟩

/-- What replacing one parameter means: the parameter at `p` holds `v`, every other parameter its old value, and names
and markings are unchanged. -/
def Spec.Replaced (m m' : HV α) (p : List Name) (v : Arr2 α) : Prop :=
  IsParam m' p v ∧ (∀ q b, q ≠ p → (IsParam m' q b ↔ IsParam m q b)) ∧ m'.allNames = m.allNames ∧
    m'.updatableNames = m.updatableNames

theorem setAttr_replaced {m : HV α} (hw : m.WF) {p : List Name} {a : Arr2 α} (hp : IsParam m p a) (v : Arr2 α) :
    ∃ m', m.setAttr (pathName p) (.arr v) = .ok m' ∧ m'.WF ∧ Spec.Replaced m m' p v := by
  have hn : pathName p ∈ m.allNames := mem_allNames.2 ⟨p, a, hp, rfl⟩
  obtain ⟨m', h1, h2, h3, _⟩ := setAttr_of_name v hw hn
  have hnames : ∀ u, (iterParams u m').map (·.1) = (iterParams u m).map (·.1) := by
    intro u; rw [h3 u, map_assign_names]
  refine ⟨m', h1, h2, ?_, ?_, hnames false, hnames true⟩
  · refine (isParam_iff_mem hw h2 hp).1 ?_
    rw [h3 false, List.mem_map]
    exact ⟨_, mem_iterParams_false.2 ⟨p, hp, rfl⟩, by simp [assign, assoc]⟩
  · intro q b hqp
    have same : ∀ m'' : HV α, m''.WF → ∀ c, IsParam m'' q c → ((pathName q, b) ∈ iterParams false m' ↔
        (pathName q, b) ∈ iterParams false m) := by
      intro m'' hw'' c hq
      have hne : pathName p ≠ pathName q := fun e => hqp (pathName_inj hw hw'' hp hq e).symm
      rw [h3 false, List.mem_map]
      constructor
      · rintro ⟨r, hr, he⟩
        have hr1 : r.1 = pathName q := by have := congrArg (·.1) he; exact this
        have : assign [(pathName p, v)] r = r := Prod.ext rfl (by simp [assign, assoc, hr1, hne])
        rw [this] at he; rw [← he]; exact hr
      · intro hr
        exact ⟨_, hr, by simp [assign, assoc, hne]⟩
    constructor
    · intro hq
      exact (isParam_iff_mem h2 hw hq).1 ((same m' h2 b hq).1 (mem_iterParams_false.2 ⟨q, hq, rfl⟩))
    · intro hq
      exact (isParam_iff_mem hw h2 hq).1 ((same m hw b hq).2 (mem_iterParams_false.2 ⟨q, hq, rfl⟩))

/-- C13, a parameter of width 1.  `set_value` raises `ValueError` exactly if the value has more than one axis of size
other than 1 (it is no batch of scalars); otherwise the parameter becomes the column of the value's entries in order and
nothing else changes.  No assumption on markings: they are ignored. -/
theorem C13_set_value_scalar (m : HV α) (hw : m.WF) (p : List Name) (a : Arr2 α) (hp : IsParam m p a) (ha : a.ncol = 1)
    (v : NDArray α) :
    (m.setValue (pathName p) v = .error .valueError ↔ 1 < (v.shape.filter (· ≠ 1)).length) ∧
    ((v.shape.filter (· ≠ 1)).length ≤ 1 →
      ∃ m', m.setValue (pathName p) v = .ok m' ∧ m'.WF ∧ Spec.Replaced m m' p (.column v.data)) := by
  have hlook : m.lookup (pathName p) = .ok (.arr a) := lookup_of_isParam hp hw
  have hred : m.setValue (pathName p) v = (do let y ← enforceDimensions v 0; m.setAttr (pathName p) (fieldOfArray y)) := by
    unfold HV.setValue
    rw [hlook]
    simp [ha, bind, Except.bind]
  have main : (v.shape.filter (· ≠ 1)).length ≤ 1 →
      ∃ m', m.setValue (pathName p) v = .ok m' ∧ m'.WF ∧ Spec.Replaced m m' p (.column v.data) := by
    intro h
    obtain ⟨y, h1, h2, h3⟩ := (C17_scalar v).2 h
    obtain ⟨b, g1, g2, g3, g4⟩ := fieldOfArray_shape h2
    have hb : b = .column v.data := by
      apply Arr2.ext'
      · rw [g3]; rfl
      · have hr : ∀ r ∈ b.rows, r.length = 1 := by intro r hr; rw [b.wf r hr, g3]
        rw [h3] at g4
        rw [← g4]
        show b.rows = b.rows.flatten.map fun x => [x]
        clear g1 g2 g4
        generalize b.rows = rows at hr
        induction rows with
        | nil => rfl
        | cons r rows ih =>
          have h1 := hr r (by simp)
          rw [List.length_eq_one_iff] at h1
          obtain ⟨x, rfl⟩ := h1
          simp only [List.flatten_cons, List.cons_append, List.nil_append, List.map_cons]
          rw [← ih fun r' hr' => hr r' (by simp [hr'])]
    subst hb
    obtain ⟨m', k1, k2, k3⟩ := setAttr_replaced hw hp (.column v.data)
    exact ⟨m', by rw [hred, h1]; show m.setAttr _ (fieldOfArray y) = _; rw [g1, k1], k2, k3⟩
  refine ⟨?_, main⟩
  constructor
  · intro h
    apply Classical.byContradiction
    intro hn
    obtain ⟨m', h', _⟩ := main (by omega)
    rw [h'] at h; cases h
  · intro h
    rw [hred, (C17_scalar v).1.2 h]; rfl

/-- C13, a parameter of another width.  A number, a vector or a matrix is stored as `(1, 1)`, `(1, n)` or as it is; the
entries keep their order, nothing else changes, and the call never raises. -/
theorem C13_set_value_list (m : HV α) (hw : m.WF) (p : List Name) (a : Arr2 α) (hp : IsParam m p a) (ha : a.ncol ≠ 1)
    (v : NDArray α) (hv : v.shape.length ≤ 2) :
    ∃ m' b, m.setValue (pathName p) v = .ok m' ∧ m'.WF ∧ Spec.Replaced m m' p b ∧ b.rows.flatten = v.data ∧
      (b.nrow, b.ncol) = match v.shape with
        | [] => (1, 1)
        | [n] => (1, n)
        | s => (s.headD 0, (s.drop 1).headD 0) := by
  have hlook : m.lookup (pathName p) = .ok (.arr a) := lookup_of_isParam hp hw
  have hred : m.setValue (pathName p) v = (do let y ← enforceDimensions v 1; m.setAttr (pathName p) (fieldOfArray y)) := by
    unfold HV.setValue
    rw [hlook]
    simp [ha, bind, Except.bind]
  obtain ⟨y, h1, h2, h3, h4, h5, h6⟩ := C17_list v
  have hshape : ∃ n w, y.shape = [n, w] ∧ (n, w) = match v.shape with
        | [] => (1, 1)
        | [n] => (1, n)
        | s => (s.headD 0, (s.drop 1).headD 0) := by
    match hs : v.shape with
    | [] => exact ⟨1, 1, h5 hs, rfl⟩
    | [n] => exact ⟨1, n, h6 n hs, rfl⟩
    | [n, w] =>
      refine ⟨n, w, ?_, rfl⟩
      rw [h4 (by rw [hs]; simp), hs]
    | _ :: _ :: _ :: _ => rw [hs] at hv; simp at hv
  obtain ⟨n, w, hs, hnw⟩ := hshape
  obtain ⟨b, g1, g2, g3, g4⟩ := fieldOfArray_shape hs
  obtain ⟨m', k1, k2, k3⟩ := setAttr_replaced hw hp b
  refine ⟨m', b, ?_, k2, k3, by rw [g4, h2], by rw [g2, g3, hnw]⟩
  rw [hred, h1]; show m.setAttr _ (fieldOfArray y) = _; rw [g1, k1]

/-- Setting the fixed parameter `a.q` (width 1) of the demo object to three values makes it a batch of three. -/
example : ∃ m', Demo.obj.setValue ['a', '.', 'q'] ⟨[3], [1, 2, 3], rfl⟩ = .ok m' ∧
    IsParam m' [['a'], ['q']] (.column [1, 2, 3]) := by
  obtain ⟨m', h1, _, h3⟩ := (C13_set_value_scalar Demo.obj Demo.obj_wf [['a'], ['q']] (.ofRow [4])
    (.sub (c := Demo.inner) (by simp) (.arr (by simp))) rfl ⟨[3], [1, 2, 3], rfl⟩).2 (by decide)
  exact ⟨m', h1, h3.1⟩

end Verif
