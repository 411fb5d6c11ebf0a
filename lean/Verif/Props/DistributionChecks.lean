import Verif.Model.DistributionChecks
import Verif.Props.Distributions
/-!
# C84–C86: which arrays distributions and conversions accept, and the first-order propagation of covariances
-/

namespace Verif

/-! ## C84 -/

/-- An array is the vector `v`. -/
def NDArray.IsVector (x : NDArray ℝ) (v : Vec) : Prop := x.shape = [v.n] ∧ ∀ i, x.data[i.1]? = some (v.get i)

/-- An array is the matrix `A` (entries row by row). -/
def NDArray.IsMatrix (x : NDArray ℝ) (A : Mat) : Prop := x.shape = [A.m, A.n] ∧ ∀ i j, x.data[i.1 * A.n + j.1]? = some (A.get i j)

theorem NDArray.isVector_flatten {x : NDArray ℝ} {n : Nat} (h : x.shape = [n]) : x.flatten.n = n ∧ x.IsVector x.flatten := by
  have hl : x.data.length = n := by have := x.wf; rw [h] at this; simpa using this
  refine ⟨hl, by rw [h]; show [n] = [x.data.length]; rw [hl], fun i => ?_⟩
  exact List.getElem?_eq_getElem i.2

theorem NDArray.isVector_iff {x : NDArray ℝ} {v : Vec} : x.IsVector v ↔ x.shape = [v.n] ∧ x.flatten = v := by
  constructor
  · rintro ⟨h1, h2⟩
    refine ⟨h1, ?_⟩
    obtain ⟨h3, h4⟩ := isVector_flatten h1
    refine Vec.ext_at h3 fun i hi => ?_
    have hi' : i < v.n := h3 ▸ hi
    have e1 := h2 ⟨i, hi'⟩
    have e2 := h4.2 ⟨i, hi⟩
    unfold Vec.at'
    rw [dif_pos hi, dif_pos hi']
    exact Option.some.inj (e2.symm.trans e1)
  · rintro ⟨h1, rfl⟩
    exact (isVector_flatten h1).2

theorem NDArray.isMatrix_toMat {x : NDArray ℝ} {m n : Nat} (h : x.shape = [m, n]) : x.IsMatrix (x.toMat m n) := by
  have hl : x.data.length = m * n := by have := x.wf; rw [h] at this; simpa using this
  refine ⟨h, fun i j => ?_⟩
  have hi : i.1 < m := i.2
  have hj : j.1 < n := j.2
  have hlt : i.1 * n + j.1 < x.data.length := by
    rw [hl]
    calc i.1 * n + j.1 < i.1 * n + n := by omega
      _ = (i.1 + 1) * n := by ring
      _ ≤ m * n := Nat.mul_le_mul_right _ hi
  show x.data[i.1 * n + j.1]? = some (x.data.getD (i.1 * n + j.1) 0)
  rw [List.getElem?_eq_getElem hlt, List.getD_eq_getElem?_getD, List.getElem?_eq_getElem hlt]
  rfl

theorem NDArray.isMatrix_iff {x : NDArray ℝ} {A : Mat} : x.IsMatrix A ↔ x.shape = [A.m, A.n] ∧ x.toMat A.m A.n = A := by
  constructor
  · rintro ⟨h1, h2⟩
    refine ⟨h1, ?_⟩
    obtain ⟨m, n, A⟩ := A
    have h3 := isMatrix_toMat h1
    have : (x.toMat m n).get = A := by
      funext i j
      exact Option.some.inj ((h3.2 i j).symm.trans (h2 i j))
    show (⟨m, n, (x.toMat m n).get⟩ : Mat) = _
    rw [this]
  · rintro ⟨h1, h2⟩
    have := isMatrix_toMat h1
    rwa [h2] at this

theorem mean1d_vector {x : NDArray ℝ} {n : Nat} (h : x.shape = [n]) : mean1d x = .ok x.flatten := by
  simp [mean1d, NDArray.ndim, h]

/-- `mean_1d` accepts the arrays with one dimension and refuses all others. -/
theorem mean1d_ok {x : NDArray ℝ} {v : Vec} : mean1d x = .ok v ↔ x.IsVector v := by
  rw [NDArray.isVector_iff]
  constructor
  · intro h
    match hs : x.shape with
    | [] => simp [mean1d, hs] at h
    | [n] =>
      rw [mean1d_vector hs] at h
      cases h
      exact ⟨by rw [(NDArray.isVector_flatten hs).1], rfl⟩
    | a :: b :: l =>
      unfold mean1d at h
      rw [if_neg (by rw [hs]; simp)] at h
      split at h
      · cases h
      · split at h
        · cases h
        · rename_i h1 h2
          exfalso
          simp only [NDArray.ndim, hs, List.length_cons] at h1 h2
          omega
  · rintro ⟨h1, rfl⟩
    exact mean1d_vector h1

theorem mean1d_error {x : NDArray ℝ} (h : ∀ n, x.shape ≠ [n]) : mean1d x = .error .valueError := by
  cases he : mean1d x with
  | ok v => exact absurd (mean1d_ok.1 he).1 (h _)
  | error e =>
    unfold mean1d at he
    split at he
    · cases he; rfl
    · split at he
      · cases he; rfl
      · split at he
        · cases he; rfl
        · cases he

/-- C84 for delta distributions.  Exactly the arrays with one dimension are accepted, and the distribution then has that mean; all others
are refused with a ValueError.  Missing: rows and columns, see `C84_rows_and_columns_refused`. -/
theorem C84_delta_partial (mu : NDArray ℝ) :
    (∀ d, Delta.validate mu = .ok d ↔ mu.IsVector d.mean) ∧ ((∀ n, mu.shape ≠ [n]) → Delta.validate mu = .error .valueError) := by
  constructor
  · intro d
    rw [← mean1d_ok, Delta.validate]
    cases mean1d mu with
    | ok v =>
      constructor
      · intro h; cases h; rfl
      · intro h; cases h; rfl
    | error e => exact ⟨nofun, nofun⟩
  · intro h
    rw [Delta.validate, mean1d_error h]
    rfl

theorem minLength1_ok {x : NDArray ℝ} : minLength1 x = .ok () ↔ ∃ n l, x.shape = (n + 1) :: l := by
  unfold minLength1
  split
  · rename_i h; simp [h]
  · rename_i n l h
    cases n with
    | zero => simp [h]
    | succ n => simp [h]

theorem cov2d_ok {x : NDArray ℝ} {A : Mat} : cov2d x = .ok A ↔ x.IsMatrix A := by
  rw [NDArray.isMatrix_iff]
  unfold cov2d
  split
  · rename_i m n h
    constructor
    · intro h'; cases h'; exact ⟨h, rfl⟩
    · rintro ⟨h1, h2⟩
      rw [h] at h1
      injection h1 with e1 h1
      injection h1 with e2
      subst e1 e2
      rw [h2]
  · rename_i h
    constructor
    · nofun
    · rintro ⟨h1, -⟩; exact absurd h1 (h _ _)

/-- C84 for Gaussian distributions.  Exactly the vectors with at least one entry are accepted, together with a square matrix of the same
dimension, and the distribution then has that mean and covariance; everything else is refused.  Missing: rows and columns. -/
theorem C84_gaussian_partial (mu sigma : NDArray ℝ) (g : Gaussian) :
    Gaussian.validate mu sigma = .ok g ↔
      mu.IsVector g.mean ∧ sigma.IsMatrix g.cov ∧ 1 ≤ g.mean.n ∧ g.cov.m = g.mean.n ∧ g.cov.n = g.mean.n := by
  have key : ∀ {β : Type} (x : NDArray ℝ) (k : Except Err β) (b : β), (minLength1 x >>= fun _ => k) = .ok b ↔
      minLength1 x = .ok () ∧ k = .ok b := by
    intro β x k b
    cases minLength1 x <;> simp [bind, Except.bind]
  unfold Gaussian.validate
  constructor
  · intro h
    split at h
    · rename_i m c h1 h2
      rw [key] at h1 h2
      split at h
      · rename_i hd
        cases h
        have hm := mean1d_ok.1 h1.2
        obtain ⟨n, l, hn⟩ := minLength1_ok.1 h1.1
        refine ⟨hm, cov2d_ok.1 h2.2, ?_, hd⟩
        have := hm.1.symm.trans hn
        injection this with this _
        show 1 ≤ m.n
        omega
      · cases h
    all_goals cases h
  · rintro ⟨h1, h2, h3, h4, h5⟩
    obtain ⟨m, c⟩ := g
    simp only at h1 h2 h3 h4 h5
    have e1 : (minLength1 mu >>= fun _ => mean1d mu) = .ok m :=
      (key _ _ _).2 ⟨minLength1_ok.2 ⟨m.n - 1, [], by rw [h1.1]; congr 1; omega⟩, mean1d_ok.2 h1⟩
    have e2 : (minLength1 sigma >>= fun _ => cov2d sigma) = .ok c :=
      (key _ _ _).2 ⟨minLength1_ok.2 ⟨c.m - 1, [c.n], by rw [h2.1]; congr 1; omega⟩, cov2d_ok.2 h2⟩
    rw [e1, e2]
    simp only
    rw [if_pos ⟨h4, h5⟩]

/-- C84: the check on arrays and the check the other models use (`Gaussian.make`) are the same. -/
theorem C84_same_check_partial (mu sigma : NDArray ℝ) (m : Vec) (c : Mat) (hm : mu.IsVector m) (hc : sigma.IsMatrix c) :
    Gaussian.validate mu sigma = Gaussian.make m c := by
  by_cases h : 1 ≤ m.n ∧ 1 ≤ c.m ∧ c.m = m.n ∧ c.n = m.n
  · rw [Gaussian.make, if_pos h]
    exact (C84_gaussian_partial mu sigma ⟨m, c⟩).2 ⟨hm, hc, h.1, h.2.2.1, h.2.2.2⟩
  · rw [Gaussian.make, if_neg h]
    have e3 : mean1d mu = .ok m := mean1d_ok.2 hm
    have e4 : cov2d sigma = .ok c := cov2d_ok.2 hc
    unfold Gaussian.validate
    rw [e3, e4]
    by_cases h1 : 1 ≤ m.n
    · have e1 : minLength1 mu = .ok () := minLength1_ok.2 ⟨m.n - 1, [], by rw [hm.1]; congr 1; omega⟩
      by_cases h2 : 1 ≤ c.m
      · have e2 : minLength1 sigma = .ok () := minLength1_ok.2 ⟨c.m - 1, [c.n], by rw [hc.1]; congr 1; omega⟩
        rw [e1, e2]
        show (if c.m = m.n ∧ c.n = m.n then _ else _) = _
        rw [if_neg (by omega)]
      · have e2 : minLength1 sigma = .error .valueError := by
          unfold minLength1; rw [hc.1]; exact if_pos (by omega)
        rw [e1, e2]; rfl
    · have e1 : minLength1 mu = .error .valueError := by
        unfold minLength1; rw [hm.1]; exact if_pos (by omega)
      have e2 : minLength1 sigma = .ok () ∨ minLength1 sigma = .error .valueError := by
        unfold minLength1; rw [hc.1]
        simp only
        split
        · exact .inr rfl
        · exact .inl rfl
      rw [e1]
      rcases e2 with e2 | e2 <;> rw [e2] <;> rfl

/-- C84 fails: every mean given as a row `(1, dim)` or as a column `(dim, 1)`, which the documentation of both classes admits, is refused
with a ValueError (for a Gaussian: whatever the covariance, as long as that has a dimension). -/
theorem C84_rows_and_columns_refused (mu : NDArray ℝ) (n : Nat) (h : mu.shape = [1, n] ∨ mu.shape = [n, 1]) :
    Delta.validate mu = .error .valueError ∧ ∀ sigma : NDArray ℝ, sigma.shape ≠ [] → Gaussian.validate mu sigma = .error .valueError := by
  have hne : ∀ k, mu.shape ≠ [k] := by
    intro k; rcases h with h | h <;> rw [h] <;> simp
  refine ⟨(C84_delta_partial mu).2 hne, fun sigma hs => ?_⟩
  have e1 : (minLength1 mu >>= fun _ => mean1d mu) = .error .valueError := by
    rw [mean1d_error hne]
    unfold minLength1
    rcases h with h | h <;> rw [h] <;> simp only [bind, Except.bind]
    · rfl
    · by_cases hn : n < 1
      · rw [if_pos hn]
      · rw [if_neg hn]
  have e2 : (∃ c, (minLength1 sigma >>= fun _ => cov2d sigma) = .ok c) ∨ (minLength1 sigma >>= fun _ => cov2d sigma) = .error .valueError := by
    unfold minLength1 cov2d
    match hsh : sigma.shape with
    | [] => exact absurd hsh hs
    | [k] => by_cases hk : k < 1 <;> simp [bind, Except.bind, hk]
    | [k, l] => by_cases hk : k < 1 <;> simp [bind, Except.bind, hk]
    | k :: l :: l' :: r => by_cases hk : k < 1 <;> simp [bind, Except.bind, hk]
  unfold Gaussian.validate
  rw [e1]
  rcases e2 with ⟨c, e2⟩ | e2 <;> rw [e2]

/-- The mean `(1, 2)` as a row, refused; the same numbers as a vector, accepted. -/
example : Delta.validate ⟨[1, 2], [1, 2], rfl⟩ = .error .valueError ∧ ∃ d, Delta.validate ⟨[2], [1, 2], rfl⟩ = .ok d ∧ d.mean = ⟨2, ![1, 2]⟩ := by
  refine ⟨(C84_rows_and_columns_refused _ 2 (.inl rfl)).1, ⟨⟨2, ![1, 2]⟩⟩, ((C84_delta_partial _).1 _).2 ⟨rfl, ?_⟩, rfl⟩
  intro i
  fin_cases i <;> rfl

example : ∃ g, Gaussian.validate ⟨[2], [1, 2], rfl⟩ ⟨[2, 2], [4, 1, 1, 4], rfl⟩ = .ok g := by
  refine ⟨⟨⟨2, ![1, 2]⟩, ⟨2, 2, !![4, 1; 1, 4]⟩⟩, (C84_gaussian_partial _ _ _).2 ⟨⟨rfl, ?_⟩, ⟨rfl, ?_⟩, by simp, rfl, rfl⟩⟩
  · intro i; fin_cases i <;> rfl
  · intro i j; fin_cases i <;> fin_cases j <;> rfl

/-! ## C85 -/

open Matrix in
/-- C85.  With `J` the Jacobian at the pivot the covariance becomes `Jᵀ Σ J`: the documented `J Σ Jᵀ` whenever `J` is symmetric, as for
the one operator of this kind in the package; and always when `get_jacobian` returns the transposed Jacobian.  Missing: other Jacobians,
see `C85_not_the_documented_rule`. -/
theorem C85_symmetric_jacobian_partial {n : Nat} (s1 i1 : Vec → Except Err Vec) (s2 i2 : Mat → Except Err Mat)
    (jac invJac : Vec → Except Err Mat) (p : Vec) (J K C : Matrix (Fin n) (Fin n) ℝ) (hJ : jac p = .ok ⟨n, n, J⟩)
    (hK : invJac p = .ok ⟨n, n, K⟩) :
    (Jᵀ = J → (Operator.taylor s1 s2 i1 i2 jac invJac).covariance ⟨n, n, C⟩ p = .ok ⟨n, n, J * C * Jᵀ⟩) ∧
    (Kᵀ = K → (Operator.taylor s1 s2 i1 i2 jac invJac).invCovariance ⟨n, n, C⟩ p = .ok ⟨n, n, K * C * Kᵀ⟩) := by
  constructor
  · intro hs
    simp only [Operator.taylor, hJ, ok_bind, Mat.transpose_of, Mat.mul_of]
    rw [hs]
  · intro hs
    simp only [Operator.taylor, hK, ok_bind, Mat.transpose_of, Mat.mul_of]
    rw [hs]

open Matrix in
/-- C85: the Jacobian of the operator in the package is symmetric, so its covariances follow the documented rule. -/
theorem C85_absolute_value_partial {n : Nat} (indices : Option (List Int)) (p : Fin n → ℝ) (C : Matrix (Fin n) (Fin n) ℝ)
    (hidx : ∀ is, indices = some is → ∀ i ∈ is, -(n : Int) ≤ i ∧ i < n) :
    ∃ J : Matrix (Fin n) (Fin n) ℝ, Operator.absJacobian indices ⟨n, p⟩ = .ok ⟨n, n, J⟩ ∧
      (Operator.abs indices).covariance ⟨n, n, C⟩ ⟨n, p⟩ = .ok ⟨n, n, J * C * Jᵀ⟩ := by
  obtain ⟨sel, hsel⟩ : ∃ sel, Operator.resolve n indices = .ok sel := by
    cases indices with
    | none => exact ⟨_, rfl⟩
    | some is =>
      have h1 : ∀ i ∈ is, ∃ k, Operator.resolve1 n i = .ok k := by
        intro i hi
        have := hidx is rfl i hi
        unfold Operator.resolve1
        by_cases h : 0 ≤ i ∧ i < n
        · exact ⟨_, if_pos h⟩
        · rw [if_neg h]
          exact ⟨_, if_pos (by omega)⟩
      clear hidx
      induction is with
      | nil => exact ⟨[], rfl⟩
      | cons i is ih =>
        obtain ⟨k, hk⟩ := h1 i (by simp)
        obtain ⟨l, hl⟩ := ih fun j hj => h1 j (by simp [hj])
        refine ⟨k :: l, ?_⟩
        have hl : is.mapM (Operator.resolve1 n) = .ok l := hl
        show (i :: is).mapM (Operator.resolve1 n) = _
        rw [List.mapM_cons, hk, ok_bind, hl]
        rfl
  have hJ : Operator.absJacobian indices ⟨n, p⟩ =
      .ok (Mat.diag ⟨n, fun i => if i.1 ∈ sel then (if 0 ≤ p i then 1 else -1) else 1⟩) := by
    simp only [Operator.absJacobian, hsel, ok_bind]
    rfl
  rw [Mat.diag_of] at hJ
  exact ⟨_, hJ, (C85_symmetric_jacobian_partial _ _ _ _ _ _ _ _ 1 C hJ (by
    show Except.ok (Mat.eye n) = _
    rw [Mat.eye, Mat.diag_of]
    rfl)).1 (Matrix.diagonal_transpose _)⟩

open Matrix in
/-- C85 fails: for the conversion of `(x, y)` to `(x + y, y)`, whose Jacobian is not symmetric, the converted covariance is not
`J Σ Jᵀ`; the two differ for every covariance with two independent entries of variance 1. -/
theorem C85_not_the_documented_rule (s1 i1 : Vec → Except Err Vec) (s2 i2 : Mat → Except Err Mat) (invJac : Vec → Except Err Mat) (p : Vec) :
    ∃ J C : Matrix (Fin 2) (Fin 2) ℝ, (∀ x y : ℝ, J *ᵥ ![x, y] = ![x + y, y]) ∧ ∃ R : Matrix (Fin 2) (Fin 2) ℝ,
      (Operator.taylor s1 s2 i1 i2 (fun _ => .ok ⟨2, 2, J⟩) invJac).covariance ⟨2, 2, C⟩ p = .ok ⟨2, 2, R⟩ ∧ R ≠ J * C * Jᵀ := by
  refine ⟨!![1, 1; 0, 1], 1, ?_, (!![1, 1; 0, 1] : Matrix (Fin 2) (Fin 2) ℝ)ᵀ * 1 * !![1, 1; 0, 1], ?_, ?_⟩
  · intro x y
    ext i
    fin_cases i <;> simp [Matrix.mulVec, dotProduct, Fin.sum_univ_two]
  · simp only [Operator.taylor, ok_bind, Mat.transpose_of, Mat.mul_of]
  · intro h
    have := congrFun (congrFun h 0) 0
    simp [Matrix.mul_apply, Fin.sum_univ_two] at this

open Matrix in
/-- C85 fails: a Jacobian of a conversion between different numbers of dimensions (as many rows as new dimensions) raises a ValueError
for every covariance. -/
theorem C85_other_dimension_raises {n k : Nat} (hnk : n ≠ k) (s1 i1 : Vec → Except Err Vec) (s2 i2 : Mat → Except Err Mat)
    (jac invJac : Vec → Except Err Mat) (p : Vec) (J : Matrix (Fin k) (Fin n) ℝ) (hJ : jac p = .ok ⟨k, n, J⟩) (C : Matrix (Fin n) (Fin n) ℝ) :
    (Operator.taylor s1 s2 i1 i2 jac invJac).covariance ⟨n, n, C⟩ p = .error .valueError := by
  simp only [Operator.taylor, hJ, ok_bind, Mat.transpose_of]
  unfold Mat.mul
  rw [if_neg (by simpa using hnk.symm)]
  rfl

/-! ## C86 -/

/-- C86.  A number, a vector or a matrix as factor, and a number or a vector as offset: the operator is the one of the other models.
Missing: no offset at all (`None`), see `C86_no_offset_raises`. -/
theorem C86_linear_operator_partial (pinv : Mat → Mat) (M b : NDArray ℝ) (c : Vec) (hb : b.IsVector c ∨ (b.shape = [] ∧ c.n = 1 ∧ b.data[0]? = some (c.at' 0))) :
    (M.shape = [] → ∃ x, M.data = [x] ∧ Operator.linearOf pinv M (some b) = .ok (.linearScalar x c)) ∧
    (∀ d, M.IsVector d → Operator.linearOf pinv M (some b) = .ok (.linear1d pinv d c)) ∧
    (∀ A, M.IsMatrix A → Operator.linearOf pinv M (some b) = .ok (.linear pinv A c)) ∧
    (2 < M.ndim → Operator.linearOf pinv M (some b) = .error .valueError) := by
  have hadd : additive1d (some b) = .ok c := by
    rcases hb with hb | ⟨h1, h2, h3⟩
    · obtain ⟨h1, h2⟩ := NDArray.isVector_iff.1 hb
      simp [additive1d, NDArray.ndim, h1, h2]
    · have hl : b.data.length = 1 := by have := b.wf; rw [h1] at this; simpa using this
      simp only [additive1d, NDArray.ndim, h1, List.length_nil, Except.ok.injEq]
      rw [if_neg (by omega)]
      refine congrArg Except.ok (Vec.ext_at (by rw [h2]; exact hl) fun i hi => ?_)
      have hi0 : i = 0 := by have : i < b.data.length := hi; omega
      subst hi0
      have hi' : 0 < b.data.length := hi
      rw [List.getElem?_eq_getElem hi'] at h3
      rw [← Option.some.inj h3]
      unfold Vec.at'
      rw [dif_pos hi]
      rfl
  refine ⟨?_, ?_, ?_, ?_⟩
  · intro h
    have hl : M.data.length = 1 := by have := M.wf; rw [h] at this; simpa using this
    obtain ⟨x, hx⟩ := List.length_eq_one_iff.1 hl
    refine ⟨x, hx, ?_⟩
    simp [Operator.linearOf, hadd, multiplicative2d, h, hx]
  · intro d hd
    obtain ⟨h1, h2⟩ := NDArray.isVector_iff.1 hd
    simp [Operator.linearOf, hadd, multiplicative2d, h1, h2, Operator.linear1d]
  · intro A hA
    obtain ⟨h1, h2⟩ := NDArray.isMatrix_iff.1 hA
    simp [Operator.linearOf, hadd, multiplicative2d, h1, h2]
  · intro h
    unfold Operator.linearOf multiplicative2d
    rw [hadd]
    match hs : M.shape with
    | [] => simp [NDArray.ndim, hs] at h
    | [_] => simp [NDArray.ndim, hs] at h
    | [_, _] => simp [NDArray.ndim, hs] at h
    | _ :: _ :: _ :: _ => rfl

/-- C86: an offset with more than one dimension is refused with a ValueError. -/
theorem C86_offset_matrix_refused_partial (pinv : Mat → Mat) (M b : NDArray ℝ) (h : 1 < b.ndim) :
    Operator.linearOf pinv M (some b) = .error .valueError := by
  have : additive1d (some b) = .error .valueError := if_pos h
  unfold Operator.linearOf
  rw [this]
  cases multiplicative2d M with
  | ok r => cases r <;> rfl
  | error e => rfl

/-- C86 fails: `additive_array=None`, which the type of the field admits, raises an AttributeError whatever the factor. -/
theorem C86_no_offset_raises (pinv : Mat → Mat) (M : NDArray ℝ) : Operator.linearOf pinv M none = .error .attributeError := by
  unfold Operator.linearOf additive1d
  cases multiplicative2d M with
  | ok r => cases r <;> rfl
  | error e => rfl

/-- Factors (2, 3) and the offset 1. -/
example (pinv : Mat → Mat) : Operator.linearOf pinv ⟨[2], [2, 3], rfl⟩ (some ⟨[], [1], rfl⟩) = .ok (.linear1d pinv ⟨2, ![2, 3]⟩ ⟨1, ![1]⟩) := by
  refine (C86_linear_operator_partial pinv _ _ ⟨1, ![1]⟩ (.inr ⟨rfl, rfl, ?_⟩)).2.1 _ ⟨rfl, ?_⟩
  · simp [Vec.at']
  · intro i; fin_cases i <;> rfl

end Verif
