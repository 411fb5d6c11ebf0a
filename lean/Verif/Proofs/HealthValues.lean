import Verif.Proofs.EcmRead
import Verif.Props.EstimatorsDual
/-!
# Which of the given values a copy holds where
-/

namespace Verif
open Ecm

theorem slices_getElem? {α : Type} (v : Arr2 α) (ss : List Nat) : ∀ (pos j : Nat) (s : Nat), ss[j]? = some s →
    (v.slices pos ss)[j]? = some (v.cols (pos + (ss.take j).sum) (pos + (ss.take j).sum + s)) := by
  induction ss with
  | nil => exact fun _ _ _ h => by simp at h
  | cons s ss ih =>
    intro pos j t h
    cases j with
    | zero =>
      simp only [List.getElem?_cons_zero, Option.some.injEq] at h
      simp [Arr2.slices, h]
    | succ j =>
      rw [List.getElem?_cons_succ] at h
      have := ih (pos + s) j t h
      simp only [Arr2.slices, List.getElem?_cons_succ, this, List.take_succ_cons, List.sum_cons, Nat.add_assoc]

/-- Where the values of a parameter begin among those given for the names `ns`. -/
def firstOf (m : HV ℝ) (ns : List Name) (n : Name) : Nat := ((ns.map (sizeAt m)).take (ns.idxOf n)).sum

/-- Parameters at the names `ns` have the values in the list `z`, the others are left as they are. -/
def valueRel (m : HV ℝ) (ns : List Name) (z : List ℝ) : ArrRel := fun p x y =>
  y.ncol = x.ncol ∧ x.nrow = 1 ∧ y.nrow = 1 ∧ (pathName p ∉ ns → y = x) ∧
    (pathName p ∈ ns → ∀ k < x.ncol, y.toNd.get [0, k] = z.getD (firstOf m ns (pathName p) + k) 0)

theorem copy_values {m : HV ℝ} (hw : m.WF) (hu : Spec.Unbatched m) {ns : List Name} (hnd : ns.Nodup)
    (hup : ∀ n ∈ ns, n ∈ m.updatableNames) {z : List ℝ} (hz : z.length = totalSize m ns) :
    ∃ m', m.makeCopy (.d1 z) (some ns) = .ok m' ∧ HV.Alike (valueRel m ns z) m m' := by
  have hwid : totalSize m ns = (Arr2.ofRow z).ncol := by rw [← hz]; rfl
  have hrow : 1 ≤ (Arr2.ofRow z).nrow := le_refl 1
  obtain ⟨m', h1, h2, _, _, _, h6, h7, _⟩ := makeCopy_writes hw hu hnd hup hwid hrow
  obtain ⟨-, k2⟩ := copy_alike hw hu hnd hup hwid hrow h1
  refine ⟨m', h1, k2.same, fun p x y hx hy => ?_⟩
  obtain ⟨c1, c2, c3, c4⟩ := k2.values p x y hx hy
  have hr : (Arr2.ofRow z).nrow = 1 := rfl
  refine ⟨c1, c2, by rw [c3, hr]; split <;> rfl, c4, fun hp k hk => ?_⟩
  have hj : ns.idxOf (pathName p) < ns.length := List.idxOf_lt_length_iff.2 hp
  have hn : ns[ns.idxOf (pathName p)]? = some (pathName p) := by
    rw [List.getElem?_eq_getElem hj, List.getElem_idxOf]
  have e1 := slices_getElem? (Arr2.ofRow z) (ns.map (sizeAt m)) 0 (ns.idxOf (pathName p)) (sizeAt m (pathName p))
    (by rw [List.getElem?_map, hn]; rfl)
  rw [← h6, List.getElem?_map, hn, Option.map_some, Option.some.injEq, valueAt_isParam h2 hy, Nat.zero_add] at e1
  have es : sizeAt m (pathName p) = x.ncol := sizeAt_unbatched hw hu hx
  rw [e1]
  show (((Arr2.ofRow z).cols _ _).rows.getD 0 []).getD k 0 = _
  simp only [Arr2.cols, Arr2.ofRow, List.map_cons, List.map_nil, List.getD_cons_zero, Nat.add_sub_cancel_left, es, firstOf,
    List.getD_eq_getElem?_getD, List.getElem?_cons_zero, Option.getD_some, List.getElem?_take, hk, if_true, List.getElem?_drop]

end Verif
