import Verif.Model.Distributions
import Verif.Proofs.Linear
import Mathlib.LinearAlgebra.Basis.VectorSpace
import Mathlib.Algebra.Order.Star.Real
/-!
# Properties of distributions and conversions (C44–C47)
-/

namespace Verif
open Matrix

/-! ## Specification -/

/-- The values of a 1D array. -/
def Vec.toList (v : Vec) : List ℝ := List.ofFn v.get

/-- Where the values of the `k`-th of several vectors of lengths `ns` start in their concatenation. -/
def offset (ns : List Nat) (k : Nat) : Nat := (ns.take k).sum

/-- A Gaussian as accepted by its constructor. -/
structure Gaussian.Valid (g : Gaussian) : Prop where
  pos : 1 ≤ g.mean.n
  rows : g.cov.m = g.mean.n
  cols : g.cov.n = g.mean.n

/-- What is assumed of `np.linalg.pinv`: the result `P` has the transposed shape and `M P M = M`.  (True of the Moore–Penrose inverse;
satisfiable: `exists_pinv`.) -/
def IsPinv (pinv : Mat → Mat) : Prop :=
  ∀ m n (M : Matrix (Fin m) (Fin n) ℝ), ∃ P : Matrix (Fin n) (Fin m) ℝ, pinv ⟨m, n, M⟩ = ⟨n, m, P⟩ ∧ M * P * M = M

/-- A bias that can be added to vectors of length `k`: one number or one per coordinate. -/
def Fits (b : Vec) (k : Nat) : Prop := b.n = k ∨ b.n = 1

/-- Weighted mean of samples (one per row). -/
def wmean {K n : Nat} (w : Fin K → ℝ) (X : Matrix (Fin K) (Fin n) ℝ) : Fin n → ℝ := fun j => ∑ i, w i * X i j

/-- Weighted covariance of samples around a centre. -/
def wcov {K n : Nat} (v : Fin K → ℝ) (X : Matrix (Fin K) (Fin n) ℝ) (μ : Fin n → ℝ) : Matrix (Fin n) (Fin n) ℝ :=
  fun a b => ∑ i, v i * (X i a - μ a) * (X i b - μ b)

/-! ## C44: proofs -/

theorem Vec.at_append (a b : Vec) (i : Nat) : (a.append b).at' i = if i < a.n then a.at' i else b.at' (i - a.n) := by
  unfold Vec.append
  by_cases h : i < a.n + b.n
  · rw [Vec.at_lt h]
  · simp only [Vec.at', h, dite_false]
    rw [if_neg (by omega), dif_neg (by omega)]

theorem Vec.append_nil (a : Vec) : a.append ⟨0, Fin.elim0⟩ = a := by
  refine Vec.ext_at rfl fun i hi => ?_
  rw [Vec.at_append, if_pos (by simpa [Vec.append] using hi)]

theorem Vec.concat_cons (v : Vec) (vs : List Vec) : Vec.concat (v :: vs) = v.append (Vec.concat vs) := by
  cases vs with
  | nil => rw [Vec.concat, Vec.concat, Vec.append_nil]
  | cons w vs => rfl

theorem Vec.append_assoc (a b c : Vec) : (a.append b).append c = a.append (b.append c) := by
  refine Vec.ext_at (by simp [Vec.append, Nat.add_assoc]) fun i _ => ?_
  have hn : (a.append b).n = a.n + b.n := rfl
  simp only [Vec.at_append, hn]
  split
  · rename_i h
    by_cases h2 : i < a.n
    · rw [if_pos h2, if_pos h2]
    · rw [if_neg h2, if_neg h2, if_pos (by omega)]
  · rw [if_neg (by omega), if_neg (by omega), Nat.sub_sub]

theorem Vec.concat_append (us vs : List Vec) : Vec.concat (us ++ vs) = (Vec.concat us).append (Vec.concat vs) := by
  induction us with
  | nil =>
    refine Vec.ext_at (by simp [Vec.append, Vec.concat]) fun i _ => ?_
    rw [Vec.at_append]
    simp [Vec.concat]
  | cons u us ih => rw [List.cons_append, Vec.concat_cons, ih, Vec.concat_cons, Vec.append_assoc]

theorem Vec.concat_n (vs : List Vec) : (Vec.concat vs).n = (vs.map (·.n)).sum := by
  induction vs with
  | nil => rfl
  | cons v vs ih => rw [Vec.concat_cons]; simp [Vec.append, ih]

theorem Vec.toList_append (a b : Vec) : (a.append b).toList = a.toList ++ b.toList := by
  apply List.ext_getElem
  · simp [Vec.toList, Vec.append]
  · intro i h1 h2
    have h1' : i < a.n + b.n := by simpa [Vec.toList, Vec.append] using h1
    have : (a.append b).toList[i] = (a.append b).at' i := by
      rw [Vec.at_lt h1']; simp [Vec.toList]
    rw [this, Vec.at_append, List.getElem_append]
    have hl : a.toList.length = a.n := by simp [Vec.toList]
    by_cases h : i < a.n
    · rw [if_pos h, dif_pos (by omega), Vec.at_lt h]; simp [Vec.toList]
    · rw [if_neg h, dif_neg (by omega), Vec.at_lt (by omega)]; simp [Vec.toList]

theorem Vec.toList_concat (vs : List Vec) : (Vec.concat vs).toList = (vs.map Vec.toList).flatten := by
  induction vs with
  | nil => rfl
  | cons v vs ih => rw [Vec.concat_cons, Vec.toList_append, ih]; simp

theorem Mat.at_block2 (A B : Mat) (i j : Nat) : (A.block2 B).at' i j =
    if i < A.m then (if j < A.n then A.at' i j else 0) else if j < A.n then 0 else B.at' (i - A.m) (j - A.n) := by
  unfold Mat.block2
  by_cases h : i < A.m + B.m ∧ j < A.n + B.n
  · rw [Mat.at_lt h.1 h.2]
  · have e : Mat.at' ⟨A.m + B.m, A.n + B.n, fun i j => if i.1 < A.m then (if j.1 < A.n then A.at' i j else 0)
        else if j.1 < A.n then 0 else B.at' (i - A.m) (j - A.n)⟩ i j = 0 := by
      simp only [Mat.at', h, dite_false]
    rw [e]
    split
    · split
      · omega
      · rfl
    · split
      · rfl
      · rw [Mat.at', dif_neg (by omega)]

theorem Mat.block2_nil (A : Mat) : A.block2 ⟨0, 0, fun i => i.elim0⟩ = A := by
  refine Mat.ext_at rfl rfl fun i hi j hj => ?_
  rw [Mat.at_block2, if_pos (by simpa [Mat.block2] using hi), if_pos (by simpa [Mat.block2] using hj)]

theorem Mat.blockDiag_cons (A : Mat) (As : List Mat) : Mat.blockDiag (A :: As) = A.block2 (Mat.blockDiag As) := by
  cases As with
  | nil => rw [Mat.blockDiag, Mat.blockDiag, Mat.block2_nil]
  | cons B As => rfl

theorem Mat.block2_assoc (A B C : Mat) : (A.block2 B).block2 C = A.block2 (B.block2 C) := by
  refine Mat.ext_at (by simp [Mat.block2, Nat.add_assoc]) (by simp [Mat.block2, Nat.add_assoc]) fun i _ j _ => ?_
  have hm : (A.block2 B).m = A.m + B.m := rfl
  have hn : (A.block2 B).n = A.n + B.n := rfl
  simp only [Mat.at_block2, hm, hn, Nat.sub_sub]
  by_cases h1 : i < A.m <;> by_cases h2 : j < A.n <;> by_cases h3 : i < A.m + B.m <;> by_cases h4 : j < A.n + B.n <;>
    simp only [h1, h2, h3, h4, if_true, if_false] <;> (repeat' split) <;> first | rfl | omega

theorem Mat.blockDiag_append (As Bs : List Mat) : Mat.blockDiag (As ++ Bs) = (Mat.blockDiag As).block2 (Mat.blockDiag Bs) := by
  induction As with
  | nil =>
    refine Mat.ext_at (by simp [Mat.block2, Mat.blockDiag]) (by simp [Mat.block2, Mat.blockDiag]) fun i _ j _ => ?_
    rw [Mat.at_block2]
    simp [Mat.blockDiag]
  | cons A As ih => rw [List.cons_append, Mat.blockDiag_cons, ih, Mat.blockDiag_cons, Mat.block2_assoc]

theorem Mat.blockDiag_m (As : List Mat) : (Mat.blockDiag As).m = (As.map (·.m)).sum := by
  induction As with
  | nil => rfl
  | cons A As ih => rw [Mat.blockDiag_cons]; simp [Mat.block2, ih]

theorem Mat.blockDiag_n (As : List Mat) : (Mat.blockDiag As).n = (As.map (·.n)).sum := by
  induction As with
  | nil => rfl
  | cons A As ih => rw [Mat.blockDiag_cons]; simp [Mat.block2, ih]

theorem Mat.blockDiag_at (As : List Mat) (hsq : ∀ A ∈ As, A.m = A.n) : ∀ (k l : Nat) (hk : k < As.length) (hl : l < As.length) (p q : Nat),
    p < As[k].n → q < As[l].n →
    (Mat.blockDiag As).at' (offset (As.map (·.n)) k + p) (offset (As.map (·.n)) l + q) = if k = l then As[k].at' p q else 0 := by
  induction As with
  | nil => intro k l hk; simp at hk
  | cons A As ih =>
    intro k l hk hl p q hp hq
    have hA := hsq A (by simp)
    rw [Mat.blockDiag_cons, Mat.at_block2, hA]
    cases k with
    | zero =>
      have hp' : p < A.n := by simpa using hp
      cases l with
      | zero =>
        have hq' : q < A.n := by simpa using hq
        simp [offset, hp', hq']
      | succ l =>
        have hq2 : ¬ offset ((A :: As).map (·.n)) (l + 1) + q < A.n := by
          simp only [offset, List.map_cons, List.take_succ_cons, List.sum_cons]; omega
        have hp2 : offset ((A :: As).map (·.n)) 0 + p < A.n := by simpa [offset] using hp'
        rw [if_pos hp2, if_neg hq2, if_neg (by omega)]
    | succ k =>
      cases l with
      | zero =>
        have hq2 : ¬ offset ((A :: As).map (·.n)) (k + 1) + p < A.n := by
          simp only [offset, List.map_cons, List.take_succ_cons, List.sum_cons]; omega
        have hp2 : offset ((A :: As).map (·.n)) 0 + q < A.n := by simpa [offset] using hq
        rw [if_neg hq2, if_pos hp2, if_neg (by omega)]
      | succ l =>
        have := ih (fun B hB => hsq B (by simp [hB])) k l (by simpa using hk) (by simpa using hl) p q (by simpa using hp)
          (by simpa using hq)
        simp only [offset] at this ⊢
        simp only [List.map_cons, List.take_succ_cons, List.sum_cons, List.getElem_cons_succ, Nat.add_right_cancel_iff]
        rw [if_neg (by omega), if_neg (by omega), ← this]
        congr 1 <;> omega

/-! ## C44 -/

/-- C44.  Combining Gaussians: the means one after another, the dimensions add up, and the entry of the covariance at the `p`-th
coordinate of the `k`-th and the `q`-th coordinate of the `l`-th distribution is the one of that distribution when `k = l` and 0
otherwise. -/
theorem C44_combine_gaussians (g : Gaussian) (gs : List Gaussian) (hv : ∀ x ∈ g :: gs, x.Valid) :
    ∃ r, g.combine gs = .ok r ∧ r.Valid ∧ r.dim = ((g :: gs).map (·.dim)).sum ∧
      r.mean.toList = ((g :: gs).map fun x => x.mean.toList).flatten ∧
      ∀ (k l : Nat) (hk : k < (g :: gs).length) (hl : l < (g :: gs).length) (p q : Nat),
        p < (g :: gs)[k].dim → q < (g :: gs)[l].dim →
        r.cov.at' (offset ((g :: gs).map (·.dim)) k + p) (offset ((g :: gs).map (·.dim)) l + q) =
          if k = l then (g :: gs)[k].cov.at' p q else 0 := by
  have hmean : Vec.concat (g.mean :: gs.map (·.mean)) = Vec.concat ((g :: gs).map (·.mean)) := rfl
  have hcov : Mat.blockDiag (g.cov :: gs.map (·.cov)) = Mat.blockDiag ((g :: gs).map (·.cov)) := rfl
  have e1 : ((g :: gs).map (·.cov)).map (·.m) = (g :: gs).map (·.dim) := by
    rw [List.map_map]; exact List.map_congr_left fun x hx => (hv x hx).rows
  have e2 : ((g :: gs).map (·.cov)).map (·.n) = (g :: gs).map (·.dim) := by
    rw [List.map_map]; exact List.map_congr_left fun x hx => (hv x hx).cols
  have e3 : ((g :: gs).map (·.mean)).map (·.n) = (g :: gs).map (·.dim) := by rw [List.map_map]; rfl
  have hn : (Vec.concat ((g :: gs).map (·.mean))).n = ((g :: gs).map (·.dim)).sum := by rw [Vec.concat_n, e3]
  have hm : (Mat.blockDiag ((g :: gs).map (·.cov))).m = ((g :: gs).map (·.dim)).sum := by rw [Mat.blockDiag_m, e1]
  have hm' : (Mat.blockDiag ((g :: gs).map (·.cov))).n = ((g :: gs).map (·.dim)).sum := by rw [Mat.blockDiag_n, e2]
  have hpos : 1 ≤ ((g :: gs).map (·.dim)).sum := by
    have := (hv g (by simp)).pos
    simp only [List.map_cons, List.sum_cons]
    show 1 ≤ g.mean.n + _
    omega
  refine ⟨⟨Vec.concat ((g :: gs).map (·.mean)), Mat.blockDiag ((g :: gs).map (·.cov))⟩, ?_, ⟨?_, ?_, ?_⟩, ?_, ?_, ?_⟩
  · unfold Gaussian.combine Gaussian.make
    rw [hmean, hcov, if_pos (by omega)]
  · exact hpos.trans hn.ge
  · exact hm.trans hn.symm
  · exact hm'.trans hn.symm
  · exact hn
  · show (Vec.concat _).toList = _
    rw [Vec.toList_concat, List.map_map]; rfl
  · intro k l hk hl p q hp hq
    have := Mat.blockDiag_at ((g :: gs).map (·.cov)) (by
      intro A hA
      obtain ⟨x, hx, rfl⟩ := List.mem_map.1 hA
      rw [(hv x hx).rows, (hv x hx).cols]) k l (by simpa using hk) (by simpa using hl) p q
      (by rw [List.getElem_map, (hv _ (List.getElem_mem hk)).cols]; exact hp)
      (by rw [List.getElem_map, (hv _ (List.getElem_mem hl)).cols]; exact hq)
    rw [e2, List.getElem_map] at this
    exact this

/-- C44.  Combining is associative: combining a combination with further distributions, or a distribution with a combination, is
combining all of them at once. -/
theorem C44_combine_associative (g : Gaussian) (gs hs : List Gaussian) (h : Gaussian) :
    (∀ r, g.combine gs = .ok r → r.combine hs = g.combine (gs ++ hs)) ∧
    (∀ r, h.combine hs = .ok r → g.combine (gs ++ [r]) = g.combine (gs ++ h :: hs)) := by
  have key : ∀ {a : Gaussian} {as : List Gaussian} {r}, a.combine as = .ok r →
      r.mean = Vec.concat ((a :: as).map (·.mean)) ∧ r.cov = Mat.blockDiag ((a :: as).map (·.cov)) := by
    intro a as r hr
    unfold Gaussian.combine Gaussian.make at hr
    split at hr
    · cases hr; exact ⟨rfl, rfl⟩
    · cases hr
  constructor
  · intro r hr
    obtain ⟨h1, h2⟩ := key hr
    unfold Gaussian.combine
    congr 1
    · rw [Vec.concat_cons, h1, ← Vec.concat_append]; simp
    · rw [Mat.blockDiag_cons, h2, ← Mat.blockDiag_append]; simp
  · intro r hr
    obtain ⟨h1, h2⟩ := key hr
    unfold Gaussian.combine
    congr 1
    · rw [List.map_append, List.map_append, ← List.cons_append, ← List.cons_append, Vec.concat_append, Vec.concat_append]
      simp only [List.map_cons, List.map_nil, Vec.concat, h1]
    · rw [List.map_append, List.map_append, ← List.cons_append, ← List.cons_append, Mat.blockDiag_append, Mat.blockDiag_append]
      simp only [List.map_cons, List.map_nil, Mat.blockDiag, h2]

/-- C44 for delta distributions, whose covariance is always zero. -/
theorem C44_combine_deltas (d : Delta) (ds es : List Delta) :
    (d.combine ds).mean.toList = ((d :: ds).map fun x => x.mean.toList).flatten ∧
    (d.combine ds).dim = ((d :: ds).map (·.dim)).sum ∧
    (d.combine ds).cov = ⟨(d.combine ds).dim, (d.combine ds).dim, 0⟩ ∧
    (d.combine ds).combine es = d.combine (ds ++ es) ∧ ∀ e, d.combine (ds ++ [e.combine es]) = d.combine (ds ++ e :: es) := by
  refine ⟨?_, ?_, rfl, ?_, fun e => ?_⟩
  · show (Vec.concat ((d :: ds).map (·.mean))).toList = _
    rw [Vec.toList_concat, List.map_map]; rfl
  · show (Vec.concat ((d :: ds).map (·.mean))).n = _
    rw [Vec.concat_n, List.map_map]; rfl
  · show Delta.mk _ = Delta.mk _
    congr 1
    show Vec.concat (Vec.concat ((d :: ds).map (·.mean)) :: es.map (·.mean)) = _
    rw [Vec.concat_cons, ← Vec.concat_append]; simp
  · show Delta.mk _ = Delta.mk _
    congr 1
    rw [List.map_append, List.map_append, ← List.cons_append, ← List.cons_append, Vec.concat_append, Vec.concat_append]
    simp only [List.map_cons, List.map_nil, Vec.concat, Delta.combine]

/-- A scalar and a correlated pair: three dimensions. -/
example : ∃ r, Gaussian.combine ⟨⟨1, ![1]⟩, ⟨1, 1, !![4]⟩⟩ [⟨⟨2, ![2, 3]⟩, ⟨2, 2, !![5, 6; 6, 8]⟩⟩] = .ok r ∧ r.dim = 3 ∧
    r.mean.toList = [1, 2, 3] ∧ r.cov.at' 2 1 = 6 ∧ r.cov.at' 0 2 = 0 := by
  obtain ⟨r, h1, _, h2, h3, h4⟩ := C44_combine_gaussians ⟨⟨1, ![1]⟩, ⟨1, 1, !![4]⟩⟩ [⟨⟨2, ![2, 3]⟩, ⟨2, 2, !![5, 6; 6, 8]⟩⟩]
    (by intro x hx; simp at hx; rcases hx with rfl | rfl <;> exact ⟨by decide, rfl, rfl⟩)
  refine ⟨r, h1, h2, by rw [h3]; simp [Vec.toList, List.ofFn_succ], ?_, ?_⟩
  · have := h4 1 1 (by decide) (by decide) 1 0 (by decide) (by decide)
    simpa [offset, Gaussian.dim, Mat.at'] using this
  · have := h4 0 1 (by decide) (by decide) 0 1 (by decide) (by decide)
    simpa [offset, Gaussian.dim] using this

/-! ## C45–C47: how the operators act on arrays that fit -/

theorem Fits.row {b : Vec} {k : Nat} (h : Fits b k) : ∃ b' : Fin k → ℝ,
    (∀ f a, Vec.bop f ⟨k, a⟩ b = .ok ⟨k, fun i => f (a i) (b' i)⟩) ∧
    ∀ f m A, Mat.bop f ⟨m, k, A⟩ (.ofRow b) = .ok ⟨m, k, fun i j => f (A i j) (b' j)⟩ := by
  obtain ⟨n, b⟩ := b
  rcases h with h | h
  · simp only at h
    subst h
    exact ⟨b, fun f a => Vec.bop_of f a b, fun f m A => Mat.bop_row f A b⟩
  · simp only at h
    subst h
    exact ⟨fun _ => b 0, fun f a => Vec.bop_one f a b, fun f m A => Mat.bop_row_one f A b⟩

/-- A pseudo-inverse as assumed exists. -/
theorem exists_pinv : ∃ pinv, IsPinv pinv := by
  classical
  have key : ∀ m n (M : Matrix (Fin m) (Fin n) ℝ), ∃ P : Matrix (Fin n) (Fin m) ℝ, M * P * M = M := by
    intro m n M
    let f : (Fin n → ℝ) →ₗ[ℝ] (Fin m → ℝ) := Matrix.toLin' M
    obtain ⟨s, hs⟩ := f.rangeRestrict.exists_rightInverse_of_surjective f.range_rangeRestrict
    obtain ⟨p, hp⟩ := (LinearMap.range f).subtype.exists_leftInverse_of_injective (Submodule.ker_subtype _)
    refine ⟨LinearMap.toMatrix' (s ∘ₗ p), ?_⟩
    apply Matrix.toLin'.injective
    rw [Matrix.toLin'_mul, Matrix.toLin'_mul, Matrix.toLin'_toMatrix']
    ext1 x
    have h1 : ∀ y, p (f y) = f.rangeRestrict y := fun y => LinearMap.congr_fun hp (f.rangeRestrict y)
    have h2 : ∀ y, f.rangeRestrict (s y) = y := fun y => LinearMap.congr_fun hs y
    have h3 : ∀ y, (f.rangeRestrict y : Fin m → ℝ) = f y := fun y => rfl
    ext1
    simp only [LinearMap.comp_apply]
    show f (s (p (f _))) = f _
    rw [h1, ← h3, h2, h3]
  refine ⟨fun A => ⟨A.n, A.m, (key A.m A.n A.get).choose⟩, fun m n M => ⟨_, rfl, (key m n M).choose_spec⟩⟩

/-! ## C45 -/

/-- C45.  The identity operator returns every distribution unchanged, in both directions. -/
theorem C45_identity_round_trip (g : Gaussian) (hv : g.Valid) (d : Delta) :
    g.convert .identity = .ok g ∧ g.convert .identity true = .ok g ∧ d.convert .identity = .ok d ∧ d.convert .identity true = .ok d := by
  have h : Gaussian.make g.mean g.cov = .ok g := by
    unfold Gaussian.make
    have := hv.pos; have := hv.rows; have := hv.cols
    rw [if_pos (by omega)]
  exact ⟨h, h, rfl, rfl⟩

theorem Gaussian.make_of {n : Nat} (hn : 1 ≤ n) (μ : Fin n → ℝ) (S : Matrix (Fin n) (Fin n) ℝ) :
    Gaussian.make ⟨n, μ⟩ ⟨n, n, S⟩ = .ok ⟨⟨n, μ⟩, ⟨n, n, S⟩⟩ := by
  unfold Gaussian.make
  rw [if_pos ⟨hn, hn, rfl, rfl⟩]

theorem Gaussian.convert_ok {g : Gaussian} {op : Operator} {k : Nat} (hk : 1 ≤ k) {μ : Fin k → ℝ} {S : Matrix (Fin k) (Fin k) ℝ}
    (h1 : op.samples1 g.mean = .ok ⟨k, μ⟩) (h2 : op.covariance g.cov g.mean = .ok ⟨k, k, S⟩) :
    g.convert op = .ok ⟨⟨k, μ⟩, ⟨k, k, S⟩⟩ := by
  show (do let m ← op.samples1 g.mean; let c ← op.covariance g.cov g.mean; Gaussian.make m c) = _
  rw [h1, h2]
  exact Gaussian.make_of hk μ S

theorem Gaussian.unconvert_ok {g : Gaussian} {op : Operator} {k : Nat} (hk : 1 ≤ k) {μ : Fin k → ℝ} {S : Matrix (Fin k) (Fin k) ℝ}
    (h1 : op.invSamples1 g.mean = .ok ⟨k, μ⟩) (h2 : op.invCovariance g.cov g.mean = .ok ⟨k, k, S⟩) :
    g.convert op true = .ok ⟨⟨k, μ⟩, ⟨k, k, S⟩⟩ := by
  show (do let m ← op.invSamples1 g.mean; let c ← op.invCovariance g.cov g.mean; Gaussian.make m c) = _
  rw [h1, h2]
  exact Gaussian.make_of hk μ S

/-- C45.  A scalar factor other than 0 (with one bias, or one per coordinate): there and back, back and there. -/
theorem C45_scalar_round_trip {n : Nat} (hn : 1 ≤ n) (c : ℝ) (hc : c ≠ 0) (b : Vec) (hb : Fits b n) (μ : Fin n → ℝ)
    (S : Matrix (Fin n) (Fin n) ℝ) :
    (∃ h, Gaussian.convert ⟨⟨n, μ⟩, ⟨n, n, S⟩⟩ (.linearScalar c b) = .ok h ∧
      h.convert (.linearScalar c b) true = .ok ⟨⟨n, μ⟩, ⟨n, n, S⟩⟩) ∧
    (∃ h, Gaussian.convert ⟨⟨n, μ⟩, ⟨n, n, S⟩⟩ (.linearScalar c b) true = .ok h ∧
      h.convert (.linearScalar c b) = .ok ⟨⟨n, μ⟩, ⟨n, n, S⟩⟩) ∧
    (∃ h, Delta.convert ⟨⟨n, μ⟩⟩ (.linearScalar c b) = .ok h ∧ h.convert (.linearScalar c b) true = .ok ⟨⟨n, μ⟩⟩) ∧
    (∃ h, Delta.convert ⟨⟨n, μ⟩⟩ (.linearScalar c b) true = .ok h ∧ h.convert (.linearScalar c b) = .ok ⟨⟨n, μ⟩⟩) := by
  obtain ⟨b', hb1, _⟩ := hb.row
  have f1 : ∀ v : Fin n → ℝ, (Operator.linearScalar c b).samples1 ⟨n, v⟩ = .ok ⟨n, fun i => c * v i + b' i⟩ :=
    fun v => hb1 (· + ·) fun i => c * v i
  have f2 : ∀ (C : Matrix (Fin n) (Fin n) ℝ) p, (Operator.linearScalar c b).covariance ⟨n, n, C⟩ p = .ok ⟨n, n, (c * c) • C⟩ :=
    fun C p => rfl
  have i1 : ∀ v : Fin n → ℝ, (Operator.linearScalar c b).invSamples1 ⟨n, v⟩ = .ok ⟨n, fun i => (v i - b' i) * (1 / c)⟩ := by
    intro v
    show (do return (← Vec.bop (· - ·) ⟨n, v⟩ b).map (· * (1 / c)) : Except Err Vec) = _
    rw [hb1]; rfl
  have i2 : ∀ (C : Matrix (Fin n) (Fin n) ℝ) p, (Operator.linearScalar c b).invCovariance ⟨n, n, C⟩ p =
      .ok ⟨n, n, (1 / c * (1 / c)) • C⟩ := fun C p => rfl
  have e1 : (fun i => (c * μ i + b' i - b' i) * (1 / c)) = μ := by funext i; field_simp; ring
  have e2 : (fun i => c * ((μ i - b' i) * (1 / c)) + b' i) = μ := by funext i; field_simp; ring
  have e3 : (1 / c * (1 / c)) • (c * c) • S = S := by
    rw [smul_smul]
    have : 1 / c * (1 / c) * (c * c) = 1 := by field_simp
    rw [this, one_smul]
  have e4 : (c * c) • (1 / c * (1 / c)) • S = S := by
    rw [smul_smul]
    have : c * c * (1 / c * (1 / c)) = 1 := by field_simp
    rw [this, one_smul]
  refine ⟨⟨_, Gaussian.convert_ok hn (f1 μ) (f2 S _), ?_⟩, ⟨_, Gaussian.unconvert_ok hn (i1 μ) (i2 S _), ?_⟩,
    ⟨⟨⟨n, fun i => c * μ i + b' i⟩⟩, ?_, ?_⟩, ⟨⟨⟨n, fun i => (μ i - b' i) * (1 / c)⟩⟩, ?_, ?_⟩⟩
  · rw [Gaussian.unconvert_ok hn (i1 _) (i2 _ _), e1, e3]
  · rw [Gaussian.convert_ok hn (f1 _) (f2 _ _), e2, e4]
  · show (do return ⟨← (Operator.linearScalar c b).samples1 ⟨n, μ⟩⟩ : Except Err Delta) = _
    rw [f1]; rfl
  · show (do return ⟨← (Operator.linearScalar c b).invSamples1 ⟨n, _⟩⟩ : Except Err Delta) = _
    rw [i1, e1]; rfl
  · show (do return ⟨← (Operator.linearScalar c b).invSamples1 ⟨n, μ⟩⟩ : Except Err Delta) = _
    rw [i1]; rfl
  · show (do return ⟨← (Operator.linearScalar c b).samples1 ⟨n, _⟩⟩ : Except Err Delta) = _
    rw [f1, e2]; rfl

/-- How a matrix operator acts on arrays that fit. -/
theorem linear_acts {pinv : Mat → Mat} {n k : Nat} {M : Matrix (Fin n) (Fin k) ℝ} {P : Matrix (Fin k) (Fin n) ℝ}
    (hP : pinv ⟨n, k, M⟩ = ⟨k, n, P⟩) {b : Vec} (hb : Fits b k) : ∃ b' : Fin k → ℝ,
    (∀ v : Fin n → ℝ, (Operator.linear pinv ⟨n, k, M⟩ b).samples1 ⟨n, v⟩ = .ok ⟨k, v ᵥ* M + b'⟩) ∧
    (∀ m (X : Matrix (Fin m) (Fin n) ℝ), (Operator.linear pinv ⟨n, k, M⟩ b).samples2 ⟨m, n, X⟩ =
      .ok ⟨m, k, fun i => X i ᵥ* M + b'⟩) ∧
    (∀ (C : Matrix (Fin n) (Fin n) ℝ) p, (Operator.linear pinv ⟨n, k, M⟩ b).covariance ⟨n, n, C⟩ p = .ok ⟨k, k, Mᵀ * C * M⟩) ∧
    (∀ v : Fin k → ℝ, (Operator.linear pinv ⟨n, k, M⟩ b).invSamples1 ⟨k, v⟩ = .ok ⟨n, (v - b') ᵥ* P⟩) ∧
    (∀ m (X : Matrix (Fin m) (Fin k) ℝ), (Operator.linear pinv ⟨n, k, M⟩ b).invSamples2 ⟨m, k, X⟩ =
      .ok ⟨m, n, fun i => (X i - b') ᵥ* P⟩) ∧
    (∀ (C : Matrix (Fin k) (Fin k) ℝ) p, (Operator.linear pinv ⟨n, k, M⟩ b).invCovariance ⟨k, k, C⟩ p = .ok ⟨n, n, Pᵀ * C * P⟩) := by
  obtain ⟨b', hb1, hb2⟩ := hb.row
  refine ⟨b', fun v => ?_, fun m X => ?_, fun C p => ?_, fun v => ?_, fun m X => ?_, fun C p => ?_⟩
  · show (do Vec.bop (· + ·) (← Mat.vecMul ⟨n, v⟩ ⟨n, k, M⟩) b) = _
    rw [Mat.vecMul_of, ok_bind, hb1]; rfl
  · show (do Mat.bop (· + ·) (← Mat.mul ⟨m, n, X⟩ ⟨n, k, M⟩) (.ofRow b)) = _
    rw [Mat.mul_of, ok_bind, hb2]; rfl
  · show (do (← Mat.mul (Mat.transpose ⟨n, k, M⟩) ⟨n, n, C⟩).mul ⟨n, k, M⟩) = _
    rw [Mat.transpose_of, Mat.mul_of, ok_bind, Mat.mul_of]
  · show (do Mat.vecMul (← Vec.bop (· - ·) ⟨k, v⟩ b) (pinv ⟨n, k, M⟩)) = _
    rw [hb1, ok_bind, hP, Mat.vecMul_of]; rfl
  · show (do (← Mat.bop (· - ·) ⟨m, k, X⟩ (.ofRow b)).mul (pinv ⟨n, k, M⟩)) = _
    rw [hb2, ok_bind, hP]
    exact Mat.mul_of (fun i j => X i j - b' j : Matrix (Fin m) (Fin k) ℝ) P
  · show (do (← Mat.mul (Mat.transpose (pinv ⟨n, k, M⟩)) ⟨k, k, C⟩).mul (pinv ⟨n, k, M⟩)) = _
    rw [hP, Mat.transpose_of, Mat.mul_of, ok_bind, Mat.mul_of]

/-- C45.  A matrix operator that loses nothing (`M` has a right inverse, so `k ≥ n`): there and back. -/
theorem C45_injective_there_and_back {pinv : Mat → Mat} (hpinv : IsPinv pinv) {n k : Nat} (hn : 1 ≤ n) (hk : 1 ≤ k)
    (M : Matrix (Fin n) (Fin k) ℝ) (hM : ∃ R : Matrix (Fin k) (Fin n) ℝ, M * R = 1) (b : Vec) (hb : Fits b k) (μ : Fin n → ℝ) (S : Matrix (Fin n) (Fin n) ℝ) :
    ∃ h, Gaussian.convert ⟨⟨n, μ⟩, ⟨n, n, S⟩⟩ (.linear pinv ⟨n, k, M⟩ b) = .ok h ∧
      h.convert (.linear pinv ⟨n, k, M⟩ b) true = .ok ⟨⟨n, μ⟩, ⟨n, n, S⟩⟩ := by
  obtain ⟨P, hP, hMP⟩ := hpinv n k M
  obtain ⟨R, hR⟩ := hM
  obtain ⟨b', f1, _, f3, i1, _, i3⟩ := linear_acts hP hb
  have hid : M * P = 1 := by
    have := congrArg (· * R) hMP
    simpa [Matrix.mul_assoc, hR] using this
  refine ⟨_, Gaussian.convert_ok hk (f1 μ) (f3 S _), ?_⟩
  rw [Gaussian.unconvert_ok hn (i1 _) (i3 _ _)]
  congr 3
  · rw [add_sub_cancel_right, Matrix.vecMul_vecMul, hid, Matrix.vecMul_one]
  · have hid' : Pᵀ * Mᵀ = 1 := by rw [← Matrix.transpose_mul, hid, Matrix.transpose_one]
    rw [← Matrix.mul_assoc, ← Matrix.mul_assoc, Matrix.mul_assoc _ M P, hid, Matrix.mul_one, hid', Matrix.one_mul]

/-- C45.  A matrix operator that reaches everything (`M` has a left inverse, so `k ≤ n`): back and there. -/
theorem C45_surjective_back_and_there {pinv : Mat → Mat} (hpinv : IsPinv pinv) {n k : Nat} (hn : 1 ≤ n) (hk : 1 ≤ k)
    (M : Matrix (Fin n) (Fin k) ℝ) (hM : ∃ L : Matrix (Fin k) (Fin n) ℝ, L * M = 1) (b : Vec) (hb : Fits b k) (μ : Fin k → ℝ) (S : Matrix (Fin k) (Fin k) ℝ) :
    ∃ h, Gaussian.convert ⟨⟨k, μ⟩, ⟨k, k, S⟩⟩ (.linear pinv ⟨n, k, M⟩ b) true = .ok h ∧
      h.convert (.linear pinv ⟨n, k, M⟩ b) = .ok ⟨⟨k, μ⟩, ⟨k, k, S⟩⟩ := by
  obtain ⟨P, hP, hMP⟩ := hpinv n k M
  obtain ⟨L, hL⟩ := hM
  obtain ⟨b', f1, _, f3, i1, _, i3⟩ := linear_acts hP hb
  have hid : P * M = 1 := by
    have := congrArg (L * ·) hMP
    simpa [← Matrix.mul_assoc, hL] using this
  refine ⟨_, Gaussian.unconvert_ok hn (i1 μ) (i3 S _), ?_⟩
  rw [Gaussian.convert_ok hk (f1 _) (f3 _ _)]
  congr 3
  · rw [Matrix.vecMul_vecMul, hid, Matrix.vecMul_one, sub_add_cancel]
  · have hid' : Mᵀ * Pᵀ = 1 := by rw [← Matrix.transpose_mul, hid, Matrix.transpose_one]
    rw [← Matrix.mul_assoc, ← Matrix.mul_assoc, Matrix.mul_assoc _ P M, hid, Matrix.mul_one, hid', Matrix.one_mul]

/-- C45.  An invertible matrix (with one bias, or one per coordinate): there and back, back and there. -/
theorem C45_matrix_round_trip {pinv : Mat → Mat} (hpinv : IsPinv pinv) {n : Nat} (hn : 1 ≤ n) (M : Matrix (Fin n) (Fin n) ℝ)
    (hM : M.det ≠ 0) (b : Vec) (hb : Fits b n) (μ : Fin n → ℝ) (S : Matrix (Fin n) (Fin n) ℝ) :
    (∃ h, Gaussian.convert ⟨⟨n, μ⟩, ⟨n, n, S⟩⟩ (.linear pinv ⟨n, n, M⟩ b) = .ok h ∧
      h.convert (.linear pinv ⟨n, n, M⟩ b) true = .ok ⟨⟨n, μ⟩, ⟨n, n, S⟩⟩) ∧
    (∃ h, Gaussian.convert ⟨⟨n, μ⟩, ⟨n, n, S⟩⟩ (.linear pinv ⟨n, n, M⟩ b) true = .ok h ∧
      h.convert (.linear pinv ⟨n, n, M⟩ b) = .ok ⟨⟨n, μ⟩, ⟨n, n, S⟩⟩) :=
  have hu : IsUnit M.det := isUnit_iff_ne_zero.2 hM
  ⟨C45_injective_there_and_back hpinv hn hn M ⟨M⁻¹, Matrix.mul_nonsing_inv _ hu⟩ b hb μ S,
    C45_surjective_back_and_there hpinv hn hn M ⟨M⁻¹, Matrix.nonsing_inv_mul _ hu⟩ b hb μ S⟩

/-- C45.  One non-zero factor per coordinate (a 1D `multiplicative_array`). -/
theorem C45_factors_round_trip {pinv : Mat → Mat} (hpinv : IsPinv pinv) {n : Nat} (hn : 1 ≤ n) (d : Fin n → ℝ)
    (hd : ∀ i, d i ≠ 0) (b : Vec) (hb : Fits b n) (μ : Fin n → ℝ) (S : Matrix (Fin n) (Fin n) ℝ) :
    (∃ h, Gaussian.convert ⟨⟨n, μ⟩, ⟨n, n, S⟩⟩ (.linear1d pinv ⟨n, d⟩ b) = .ok h ∧
      h.convert (.linear1d pinv ⟨n, d⟩ b) true = .ok ⟨⟨n, μ⟩, ⟨n, n, S⟩⟩) ∧
    (∃ h, Gaussian.convert ⟨⟨n, μ⟩, ⟨n, n, S⟩⟩ (.linear1d pinv ⟨n, d⟩ b) true = .ok h ∧
      h.convert (.linear1d pinv ⟨n, d⟩ b) = .ok ⟨⟨n, μ⟩, ⟨n, n, S⟩⟩) := by
  unfold Operator.linear1d
  rw [Mat.diag_of]
  exact C45_matrix_round_trip hpinv hn _ (by rw [Matrix.det_diagonal]; exact Finset.prod_ne_zero_iff.2 fun i _ => hd i) b hb μ S

/-- C45 for samples (1D and 2D) of an invertible matrix operator. -/
theorem C45_samples_round_trip {pinv : Mat → Mat} (hpinv : IsPinv pinv) {n m : Nat} (M : Matrix (Fin n) (Fin n) ℝ)
    (hM : M.det ≠ 0) (b : Vec) (hb : Fits b n) (v : Fin n → ℝ) (X : Matrix (Fin m) (Fin n) ℝ) :
    let op := Operator.linear pinv ⟨n, n, M⟩ b
    (op.samples1 ⟨n, v⟩ >>= op.invSamples1) = .ok ⟨n, v⟩ ∧ (op.invSamples1 ⟨n, v⟩ >>= op.samples1) = .ok ⟨n, v⟩ ∧
    (op.samples2 ⟨m, n, X⟩ >>= op.invSamples2) = .ok ⟨m, n, X⟩ ∧ (op.invSamples2 ⟨m, n, X⟩ >>= op.samples2) = .ok ⟨m, n, X⟩ := by
  obtain ⟨P, hP, hMP⟩ := hpinv n n M
  have hu : IsUnit M.det := isUnit_iff_ne_zero.2 hM
  have hid : M * P = 1 := by
    have := congrArg (· * M⁻¹) hMP
    simpa [Matrix.mul_assoc, Matrix.mul_nonsing_inv _ hu] using this
  have hid2 : P * M = 1 := mul_eq_one_comm.1 hid
  obtain ⟨b', f1, f2, _, i1, i2, _⟩ := linear_acts hP hb
  refine ⟨?_, ?_, ?_, ?_⟩
  · rw [f1, ok_bind, i1, add_sub_cancel_right, Matrix.vecMul_vecMul, hid, Matrix.vecMul_one]
  · rw [i1, ok_bind, f1, Matrix.vecMul_vecMul, hid2, Matrix.vecMul_one, sub_add_cancel]
  · rw [f2, ok_bind]
    refine (i2 m _).trans ?_
    congr 2; funext i
    rw [add_sub_cancel_right, Matrix.vecMul_vecMul, hid, Matrix.vecMul_one]
  · rw [i2, ok_bind]
    refine (f2 m _).trans ?_
    congr 2; funext i
    rw [Matrix.vecMul_vecMul, hid2, Matrix.vecMul_one, sub_add_cancel]

/-- A shear with a bias, from two coordinates to two others and back. -/
example : ∃ pinv, ∃ h, Gaussian.convert ⟨⟨2, ![1, 2]⟩, ⟨2, 2, !![2, 1; 1, 3]⟩⟩ (.linear pinv ⟨2, 2, !![1, 5; 0, 2]⟩ ⟨1, ![7]⟩) = .ok h ∧
    h.convert (.linear pinv ⟨2, 2, !![1, 5; 0, 2]⟩ ⟨1, ![7]⟩) true = .ok ⟨⟨2, ![1, 2]⟩, ⟨2, 2, !![2, 1; 1, 3]⟩⟩ := by
  obtain ⟨pinv, hp⟩ := exists_pinv
  exact ⟨pinv, (C45_matrix_round_trip hp (by decide) _ (by simp [Matrix.det_fin_two]) _ (Or.inr rfl) _ _).1⟩

/-- Percentages of two coordinates, with one bias each. -/
example : ∃ h, Gaussian.convert ⟨⟨2, ![1, 2]⟩, ⟨2, 2, !![2, 1; 1, 3]⟩⟩ (.linearScalar 100 ⟨2, ![7, 8]⟩) = .ok h ∧
    h.convert (.linearScalar 100 ⟨2, ![7, 8]⟩) true = .ok ⟨⟨2, ![1, 2]⟩, ⟨2, 2, !![2, 1; 1, 3]⟩⟩ :=
  (C45_scalar_round_trip (by decide) 100 (by norm_num) _ (Or.inl rfl) _ _).1

/-! ## C46 -/

theorem psd_sandwich {n k : Nat} {C : Matrix (Fin n) (Fin n) ℝ} (hC : C.PosSemidef) (M : Matrix (Fin n) (Fin k) ℝ) :
    (Mᵀ * C * M).PosSemidef := by
  have := hC.conjTranspose_mul_mul_same M
  rwa [Matrix.conjTranspose_eq_transpose_of_trivial] at this

/-- C46.  Converted covariances of symmetric positive semi-definite matrices are symmetric positive semi-definite, in both
directions: a scalar factor, a matrix, and a first-order expansion with any Jacobians (in particular the absolute value). -/
theorem C46_covariances_stay_valid {n : Nat} (C : Matrix (Fin n) (Fin n) ℝ) (hC : C.PosSemidef) :
    (∀ p, ∃ C', Operator.identity.covariance ⟨n, n, C⟩ p = .ok ⟨n, n, C'⟩ ∧ Operator.identity.invCovariance ⟨n, n, C⟩ p = .ok ⟨n, n, C'⟩ ∧
      C'.PosSemidef) ∧
    (∀ c b p, ∃ C' C'' : Matrix (Fin n) (Fin n) ℝ, (Operator.linearScalar c b).covariance ⟨n, n, C⟩ p = .ok ⟨n, n, C'⟩ ∧
      (Operator.linearScalar c b).invCovariance ⟨n, n, C⟩ p = .ok ⟨n, n, C''⟩ ∧ C'.PosSemidef ∧ C''.PosSemidef) ∧
    (∀ pinv b k (M : Matrix (Fin n) (Fin k) ℝ) p, ∃ C' : Matrix (Fin k) (Fin k) ℝ,
      (Operator.linear pinv ⟨n, k, M⟩ b).covariance ⟨n, n, C⟩ p = .ok ⟨k, k, C'⟩ ∧ C'.PosSemidef) ∧
    (∀ pinv, IsPinv pinv → ∀ b k (M : Matrix (Fin k) (Fin n) ℝ) p, ∃ C' : Matrix (Fin k) (Fin k) ℝ,
      (Operator.linear pinv ⟨k, n, M⟩ b).invCovariance ⟨n, n, C⟩ p = .ok ⟨k, k, C'⟩ ∧ C'.PosSemidef) ∧
    (∀ s1 s2 i1 i2 jac inv p k (J : Matrix (Fin n) (Fin k) ℝ), jac p = .ok ⟨n, k, J⟩ → ∃ C' : Matrix (Fin k) (Fin k) ℝ,
      (Operator.taylor s1 s2 i1 i2 jac inv).covariance ⟨n, n, C⟩ p = .ok ⟨k, k, C'⟩ ∧ C'.PosSemidef) ∧
    (∀ s1 s2 i1 i2 jac inv p k (J : Matrix (Fin n) (Fin k) ℝ), inv p = .ok ⟨n, k, J⟩ → ∃ C' : Matrix (Fin k) (Fin k) ℝ,
      (Operator.taylor s1 s2 i1 i2 jac inv).invCovariance ⟨n, n, C⟩ p = .ok ⟨k, k, C'⟩ ∧ C'.PosSemidef) := by
  refine ⟨fun p => ⟨C, rfl, rfl, hC⟩, fun c b p => ⟨(c * c) • C, (1 / c * (1 / c)) • C, rfl, rfl, ?_, ?_⟩, ?_, ?_, ?_, ?_⟩
  · exact hC.smul (mul_self_nonneg c)
  · exact hC.smul (mul_self_nonneg _)
  · intro pinv b k M p
    refine ⟨_, ?_, psd_sandwich hC M⟩
    show (do (← Mat.mul (Mat.transpose ⟨n, k, M⟩) ⟨n, n, C⟩).mul ⟨n, k, M⟩) = _
    rw [Mat.transpose_of, Mat.mul_of, ok_bind, Mat.mul_of]
  · intro pinv hp b k M p
    obtain ⟨P, hP, _⟩ := hp k n M
    refine ⟨_, ?_, psd_sandwich hC P⟩
    show (do (← Mat.mul (Mat.transpose (pinv ⟨k, n, M⟩)) ⟨n, n, C⟩).mul (pinv ⟨k, n, M⟩)) = _
    rw [hP, Mat.transpose_of, Mat.mul_of, ok_bind, Mat.mul_of]
  · intro s1 s2 i1 i2 jac inv p k J hJ
    refine ⟨_, ?_, psd_sandwich hC J⟩
    show (do let J ← jac p; (← J.transpose.mul ⟨n, n, C⟩).mul J) = _
    rw [hJ, ok_bind, Mat.transpose_of, Mat.mul_of, ok_bind, Mat.mul_of]
  · intro s1 s2 i1 i2 jac inv p k J hJ
    refine ⟨_, ?_, psd_sandwich hC J⟩
    show (do let J ← inv p; (← J.transpose.mul ⟨n, n, C⟩).mul J) = _
    rw [hJ, ok_bind, Mat.transpose_of, Mat.mul_of, ok_bind, Mat.mul_of]

theorem wmean_affine {K n k : Nat} (w : Fin K → ℝ) (hw : ∑ i, w i = 1) (X : Matrix (Fin K) (Fin n) ℝ) (M : Matrix (Fin n) (Fin k) ℝ)
    (b : Fin k → ℝ) : wmean w (fun i => X i ᵥ* M + b) = wmean w X ᵥ* M + b := by
  funext j
  simp only [wmean, Pi.add_apply, Matrix.vecMul, dotProduct, mul_add, Finset.sum_add_distrib, ← Finset.sum_mul, hw, one_mul]
  congr 1
  simp only [Finset.mul_sum, Finset.sum_mul]
  rw [Finset.sum_comm]
  exact Finset.sum_congr rfl fun _ _ => Finset.sum_congr rfl fun _ _ => by ring

theorem wcov_affine {K n k : Nat} (v : Fin K → ℝ) (X : Matrix (Fin K) (Fin n) ℝ) (μ : Fin n → ℝ) (M : Matrix (Fin n) (Fin k) ℝ)
    (b : Fin k → ℝ) : wcov v (fun i => X i ᵥ* M + b) (μ ᵥ* M + b) = Mᵀ * wcov v X μ * M := by
  ext a c
  have h : ∀ i, ∀ c, (X i ᵥ* M + b) c - (μ ᵥ* M + b) c = ∑ p, (X i p - μ p) * M p c := by
    intro i c
    simp only [Pi.add_apply, Matrix.vecMul, dotProduct, add_sub_add_right_eq_sub, sub_mul, Finset.sum_sub_distrib]
  simp only [wcov, h, Matrix.mul_apply, Matrix.transpose_apply, Finset.sum_mul, Finset.mul_sum]
  rw [Finset.sum_comm]
  refine Finset.sum_congr rfl fun q _ => ?_
  rw [Finset.sum_comm]
  exact Finset.sum_congr rfl fun p _ => Finset.sum_congr rfl fun i _ => by ring

/-- C46.  Converting samples with a matrix operator: the converted mean and covariance of any weighted samples are the mean and
covariance of the converted samples. -/
theorem C46_moments_of_converted_samples {K n k : Nat} (w v : Fin K → ℝ) (hw : ∑ i, w i = 1) (X : Matrix (Fin K) (Fin n) ℝ)
    {pinv : Mat → Mat} (hpinv : IsPinv pinv) (M : Matrix (Fin n) (Fin k) ℝ) (b : Vec) (hb : Fits b k) (p : Vec) :
    ∃ Y : Matrix (Fin K) (Fin k) ℝ, (Operator.linear pinv ⟨n, k, M⟩ b).samples2 ⟨K, n, X⟩ = .ok ⟨K, k, Y⟩ ∧
      (Operator.linear pinv ⟨n, k, M⟩ b).samples1 ⟨n, wmean w X⟩ = .ok ⟨k, wmean w Y⟩ ∧
      (Operator.linear pinv ⟨n, k, M⟩ b).covariance ⟨n, n, wcov v X (wmean w X)⟩ p = .ok ⟨k, k, wcov v Y (wmean w Y)⟩ := by
  obtain ⟨P, hP, _⟩ := hpinv n k M
  obtain ⟨b', f1, f2, f3, _⟩ := linear_acts hP hb
  refine ⟨_, f2 K X, ?_, ?_⟩
  · rw [f1, wmean_affine w hw]
  · rw [f3, wmean_affine w hw, wcov_affine]

/-- C46 for the inverse conversion. -/
theorem C46_moments_of_unconverted_samples {K n k : Nat} (w v : Fin K → ℝ) (hw : ∑ i, w i = 1) (X : Matrix (Fin K) (Fin k) ℝ)
    {pinv : Mat → Mat} (hpinv : IsPinv pinv) (M : Matrix (Fin n) (Fin k) ℝ) (b : Vec) (hb : Fits b k) (p : Vec) :
    ∃ Y : Matrix (Fin K) (Fin n) ℝ, (Operator.linear pinv ⟨n, k, M⟩ b).invSamples2 ⟨K, k, X⟩ = .ok ⟨K, n, Y⟩ ∧
      (Operator.linear pinv ⟨n, k, M⟩ b).invSamples1 ⟨k, wmean w X⟩ = .ok ⟨n, wmean w Y⟩ ∧
      (Operator.linear pinv ⟨n, k, M⟩ b).invCovariance ⟨k, k, wcov v X (wmean w X)⟩ p = .ok ⟨n, n, wcov v Y (wmean w Y)⟩ := by
  obtain ⟨P, hP, _⟩ := hpinv n k M
  obtain ⟨b', _, _, _, i1, i2, i3⟩ := linear_acts hP hb
  have e : ∀ x : Fin k → ℝ, (x - b') ᵥ* P = x ᵥ* P + -(b' ᵥ* P) := fun x => by rw [Matrix.sub_vecMul, sub_eq_add_neg]
  simp only [e] at i1 i2
  refine ⟨_, i2 K X, ?_, ?_⟩
  · rw [i1, wmean_affine w hw]
  · rw [i3, wmean_affine w hw, wcov_affine]

/-- C46 for a scalar factor. -/
theorem C46_moments_of_scaled_samples {K n : Nat} (w v : Fin K → ℝ) (hw : ∑ i, w i = 1) (X : Matrix (Fin K) (Fin n) ℝ) (c : ℝ)
    (b : Vec) (hb : Fits b n) (p : Vec) :
    ∃ Y : Matrix (Fin K) (Fin n) ℝ, (Operator.linearScalar c b).samples2 ⟨K, n, X⟩ = .ok ⟨K, n, Y⟩ ∧
      (Operator.linearScalar c b).samples1 ⟨n, wmean w X⟩ = .ok ⟨n, wmean w Y⟩ ∧
      (Operator.linearScalar c b).covariance ⟨n, n, wcov v X (wmean w X)⟩ p = .ok ⟨n, n, wcov v Y (wmean w Y)⟩ := by
  obtain ⟨b', hb1, hb2⟩ := hb.row
  have e : ∀ x : Fin n → ℝ, x ᵥ* (c • (1 : Matrix (Fin n) (Fin n) ℝ)) + b' = fun i => c * x i + b' i := by
    intro x; funext i; simp [Matrix.vecMul_smul]
  have h1 : wmean w (fun i j => c * X i j + b' j) = fun j => c * wmean w X j + b' j := by
    have := wmean_affine w hw X (c • (1 : Matrix (Fin n) (Fin n) ℝ)) b'
    simp only [e] at this
    exact this
  refine ⟨fun i j => c * X i j + b' j, hb2 (· + ·) K fun i j => c * X i j, ?_, ?_⟩
  · rw [h1]; exact hb1 (· + ·) fun i => c * wmean w X i
  · rw [h1]
    show Except.ok (Mat.mk n n _) = _
    congr 2
    funext a d
    simp only [wcov, Finset.mul_sum]
    exact Finset.sum_congr rfl fun _ _ => by ring

/-- Three samples of two coordinates, added up to one. -/
example : ∃ pinv Y, (Operator.linear pinv ⟨2, 1, !![1; 1]⟩ ⟨1, ![5]⟩).samples2 ⟨3, 2, !![1, 2; 3, 4; 5, 9]⟩ = .ok ⟨3, 1, Y⟩ ∧
    (Operator.linear pinv ⟨2, 1, !![1; 1]⟩ ⟨1, ![5]⟩).samples1 ⟨2, wmean ![1 / 2, 1 / 4, 1 / 4] !![1, 2; 3, 4; 5, 9]⟩ =
      .ok ⟨1, wmean ![1 / 2, 1 / 4, 1 / 4] Y⟩ := by
  obtain ⟨pinv, hp⟩ := exists_pinv
  obtain ⟨Y, h1, h2, _⟩ := C46_moments_of_converted_samples ![1 / 2, 1 / 4, 1 / 4] ![1, 1, 1]
    (by simp [Fin.sum_univ_succ]; norm_num) !![1, 2; 3, 4; 5, 9] hp (!![1; 1] : Matrix (Fin 2) (Fin 1) ℝ) ⟨1, ![5]⟩ (Or.inl rfl) ⟨0, Fin.elim0⟩
  exact ⟨pinv, Y, h1, h2⟩

/-! ## C47 -/

/-- `i` is one of the positions selected by `indices` in arrays of length `n`: all of them without a list; otherwise those listed,
negative ones counted from the end. -/
def Selected (n : Nat) (indices : Option (List Int)) (i : Nat) : Prop :=
  ∀ is, indices = some is → (i : Int) ∈ is ∨ (i : Int) - n ∈ is

/-- All the listed indices exist in arrays of length `n`. -/
def InRange (n : Nat) (indices : Option (List Int)) : Prop := ∀ is, indices = some is → ∀ i ∈ is, -(n : Int) ≤ i ∧ i < n

theorem resolve_spec {n : Nat} {indices : Option (List Int)} (h : InRange n indices) :
    ∃ sel, Operator.resolve n indices = .ok sel ∧ ∀ i < n, i ∈ sel ↔ Selected n indices i := by
  cases indices with
  | none => exact ⟨_, rfl, fun i hi => by simp [Selected, hi]⟩
  | some is =>
    have h' := h is rfl
    suffices H : ∃ sel, is.mapM (Operator.resolve1 n) = .ok sel ∧ ∀ i < n, i ∈ sel ↔ ((i : Int) ∈ is ∨ (i : Int) - n ∈ is) by
      obtain ⟨sel, h1, h2⟩ := H
      exact ⟨sel, h1, fun i hi => by rw [h2 i hi]; simp [Selected]⟩
    clear h
    induction is with
    | nil => exact ⟨[], rfl, by simp⟩
    | cons a is ih =>
      obtain ⟨sel, h1, h2⟩ := ih fun i hi => h' i (by simp [hi])
      have ha := h' a (by simp)
      by_cases h0 : 0 ≤ a
      · refine ⟨a.toNat :: sel, ?_, fun i hi => ?_⟩
        · rw [List.mapM_cons, h1]
          unfold Operator.resolve1
          rw [if_pos ⟨h0, ha.2⟩]; rfl
        · simp only [List.mem_cons, h2 i hi]
          constructor
          · rintro (h | h | h)
            · left; left; omega
            · left; right; exact h
            · right; right; exact h
          · rintro ((h | h) | (h | h))
            · left; omega
            · right; left; exact h
            · omega
            · right; right; exact h
      · refine ⟨(a + n).toNat :: sel, ?_, fun i hi => ?_⟩
        · rw [List.mapM_cons, h1]
          unfold Operator.resolve1
          rw [if_neg (by omega), if_pos (by omega)]; rfl
        · simp only [List.mem_cons, h2 i hi]
          constructor
          · rintro (h | h | h)
            · right; left; omega
            · left; right; exact h
            · right; right; exact h
          · rintro ((h | h) | (h | h))
            · omega
            · right; left; exact h
            · left; omega
            · right; right; exact h

/-- C47.  Converted samples (one per row): non-negative at the selected positions, of the same absolute value, and untouched elsewhere.
The same for single samples, and converting samples in a 2D array is converting them one by one. -/
theorem C47_absolute_value {m n : Nat} (indices : Option (List Int)) (h : InRange n indices) (X : Matrix (Fin m) (Fin n) ℝ) :
    ∃ Y : Matrix (Fin m) (Fin n) ℝ, (Operator.abs indices).samples2 ⟨m, n, X⟩ = .ok ⟨m, n, Y⟩ ∧
      (∀ i (j : Fin n), Selected n indices j → 0 ≤ Y i j ∧ |Y i j| = |X i j|) ∧ (∀ i (j : Fin n), ¬ Selected n indices j → Y i j = X i j) ∧
      ∀ i, (Operator.abs indices).samples1 ⟨n, X i⟩ = .ok ⟨n, Y i⟩ := by
  obtain ⟨sel, h1, h2⟩ := resolve_spec h
  refine ⟨fun i j => if j.1 ∈ sel then |X i j| else X i j, ?_, ?_, ?_, ?_⟩
  · show Operator.absSamples2 indices ⟨m, n, X⟩ = _
    unfold Operator.absSamples2
    rw [h1]; rfl
  · intro i j hj
    simp only [(h2 j j.2).2 hj, if_true, abs_abs, abs_nonneg, and_self]
  · intro i j hj
    simp only [mt (h2 j j.2).1 hj, if_false]
  · intro i
    show Operator.absSamples1 indices ⟨n, X i⟩ = _
    unfold Operator.absSamples1
    rw [h1]; rfl

/-- C47.  Samples that are admissible already (non-negative at the selected positions) are unchanged, and so converting twice is
converting once. -/
theorem C47_identity_on_admissible {m n : Nat} (indices : Option (List Int)) (h : InRange n indices) (X : Matrix (Fin m) (Fin n) ℝ) :
    ((∀ i (j : Fin n), Selected n indices j → 0 ≤ X i j) → (Operator.abs indices).samples2 ⟨m, n, X⟩ = .ok ⟨m, n, X⟩) ∧
    ∀ Y, (Operator.abs indices).samples2 ⟨m, n, X⟩ = .ok Y → (Operator.abs indices).samples2 Y = .ok Y := by
  have key : ∀ X : Matrix (Fin m) (Fin n) ℝ, (∀ i (j : Fin n), Selected n indices j → 0 ≤ X i j) →
      (Operator.abs indices).samples2 ⟨m, n, X⟩ = .ok ⟨m, n, X⟩ := by
    intro X hX
    obtain ⟨Y, hY, h1, h2, _⟩ := C47_absolute_value indices h X
    have : Y = X := by
      ext i j
      by_cases hj : Selected n indices j
      · obtain ⟨h3, h4⟩ := h1 i j hj
        rwa [abs_of_nonneg h3, abs_of_nonneg (hX i j hj)] at h4
      · exact h2 i j hj
    rw [hY, this]
  refine ⟨key X, fun Z hZ => ?_⟩
  obtain ⟨Y, hY, h1, _, _⟩ := C47_absolute_value indices h X
  rw [hY] at hZ
  cases hZ
  exact key Y fun i j hj => (h1 i j hj).1

/-- C47.  Around any pivot, the converted covariance has the same variances, covariances of the same size, and unchanged covariances
among the untouched coordinates. -/
theorem C47_variances_preserved {n : Nat} (indices : Option (List Int)) (h : InRange n indices) (C : Matrix (Fin n) (Fin n) ℝ)
    (p : Fin n → ℝ) :
    ∃ C' : Matrix (Fin n) (Fin n) ℝ, (Operator.abs indices).covariance ⟨n, n, C⟩ ⟨n, p⟩ = .ok ⟨n, n, C'⟩ ∧ (∀ i, C' i i = C i i) ∧
      (∀ i j, |C' i j| = |C i j|) ∧ ∀ i j : Fin n, ¬ Selected n indices i → ¬ Selected n indices j → C' i j = C i j := by
  obtain ⟨sel, h1, h2⟩ := resolve_spec h
  let d : Fin n → ℝ := fun i => if i.1 ∈ sel then (if 0 ≤ p i then 1 else -1) else 1
  have hd : ∀ i, d i = 1 ∨ d i = -1 := by
    intro i
    simp only [d]
    split
    · split <;> simp
    · simp
  have hJ : Operator.absJacobian indices ⟨n, p⟩ = .ok ⟨n, n, Matrix.diagonal d⟩ := by
    unfold Operator.absJacobian
    rw [h1, ok_bind]; rfl
  have hC : ∀ i j, ((Matrix.diagonal d)ᵀ * C * Matrix.diagonal d) i j = d i * C i j * d j := by
    intro i j
    rw [Matrix.diagonal_transpose, Matrix.mul_diagonal, Matrix.diagonal_mul]
  refine ⟨(Matrix.diagonal d)ᵀ * C * Matrix.diagonal d, ?_, fun i => ?_, fun i j => ?_, fun i j hi hj => ?_⟩
  · show (do let J ← Operator.absJacobian indices ⟨n, p⟩; (← J.transpose.mul ⟨n, n, C⟩).mul J) = _
    rw [hJ, ok_bind, Mat.transpose_of, Mat.mul_of, ok_bind, Mat.mul_of]
  · rw [hC]
    rcases hd i with h | h <;> rw [h] <;> ring
  · rw [hC, abs_mul, abs_mul]
    rcases hd i with h | h <;> rcases hd j with h' | h' <;> rw [h, h'] <;> simp
  · rw [hC]
    have e : ∀ i : Fin n, ¬ Selected n indices i → d i = 1 := by
      intro i hi
      simp only [d, mt (h2 i i.2).1 hi, if_false]
    rw [e i hi, e j hj]; ring

/-- An index that does not exist raises IndexError. -/
theorem C47_unknown_index {n : Nat} (is : List Int) (v : Fin n → ℝ) (h : ¬ InRange n (some is)) :
    (Operator.abs (some is)).samples1 ⟨n, v⟩ = .error .indexError := by
  have key : is.mapM (Operator.resolve1 n) = .error .indexError := by
    have h' : ¬ ∀ i ∈ is, -(n : Int) ≤ i ∧ i < n := fun hh => h fun is' e => by cases e; exact hh
    clear h
    induction is with
    | nil => exact absurd (by simp) h'
    | cons a is ih =>
      rw [List.mapM_cons]
      by_cases ha : -(n : Int) ≤ a ∧ a < n
      · have ih := ih fun hh => h' (by simpa [ha] using hh)
        have : ∃ k, Operator.resolve1 n a = .ok k := by
          unfold Operator.resolve1
          split
          · exact ⟨_, rfl⟩
          · rw [if_pos (by omega)]; exact ⟨_, rfl⟩
        obtain ⟨k, hk⟩ := this
        rw [hk, ih]; rfl
      · unfold Operator.resolve1
        rw [if_neg (by omega), if_neg (by omega)]; rfl
  show Operator.absSamples1 (some is) ⟨n, v⟩ = _
  unfold Operator.absSamples1 Operator.resolve
  simp only [key]; rfl

/-- The first and the last of three coordinates. -/
example : (Operator.abs (some [0, -1])).samples2 ⟨1, 3, !![-1, -2, -3]⟩ = .ok ⟨1, 3, !![1, -2, 3]⟩ := by
  obtain ⟨Y, hY, h1, h2, _⟩ := C47_absolute_value (m := 1) (n := 3) (some [0, -1]) (by intro is e i hi; cases e; simp at hi; omega) !![-1, -2, -3]
  rw [hY]
  congr 2
  ext i j
  fin_cases i
  have s0 : Selected 3 (some [0, -1]) 0 := by intro is e; cases e; simp
  have s1 : ¬ Selected 3 (some [0, -1]) 1 := by intro h; have := h _ rfl; simp at this
  have s2 : Selected 3 (some [0, -1]) 2 := by intro is e; cases e; simp
  fin_cases j
  · have := h1 0 0 s0; rw [abs_of_nonneg this.1] at this; simpa using this.2
  · have := h2 0 1 s1; simpa using this
  · have := h1 0 2 s2; rw [abs_of_nonneg this.1] at this; simpa using this.2

end Verif
