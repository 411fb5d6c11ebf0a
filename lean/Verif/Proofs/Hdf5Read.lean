import Verif.Proofs.Hdf5
import Verif.Spec.Estimates
/-!
# Reading back what a group holds
-/

namespace Verif
namespace Writer

/-- The values written for one step. -/
noncomputable def entries (what : OutputType) (s : Step) : List (Name × Payload) :=
  match toInsert s.time s.state s.output what with
  | .ok items => items
  | .error _ => []

theorem entries_ok {what : OutputType} (h : what ≠ .none) (s : Step) :
    toInsert s.time s.state s.output what = .ok (entries what s) := by
  cases what <;> first | rfl | exact absurd rfl h

theorem entries_keys (what : OutputType) (s s' : Step) :
    (entries what s).map Prod.fst = (entries what s').map Prod.fst := by
  cases what <;> rfl

theorem entries_nodup (what : OutputType) (s : Step) : ((entries what s).map Prod.fst).Nodup := by
  cases what
  · show ["time".toList, "state".toList ++ "_mean".toList, "state".toList ++ "_covariance".toList,
      "output".toList ++ "_mean".toList, "output".toList ++ "_covariance".toList].Nodup
    decide
  · show ["time".toList, "state".toList ++ "_mean".toList, "state".toList ++ "_covariance".toList,
      "output".toList ++ "_mean".toList, "output".toList ++ "_covariance".toList].Nodup
    decide
  · show ["time".toList, "state".toList ++ "_mean".toList, "state".toList ++ "_variance".toList,
      "output".toList ++ "_mean".toList, "output".toList ++ "_variance".toList].Nodup
    decide
  · show ["time".toList, "state".toList ++ "_mean".toList, "output".toList ++ "_mean".toList].Nodup
    decide
  · exact List.nodup_nil

theorem entries_time {what : OutputType} (h : what ≠ .none) (s : Step) :
    lookupKey "time".toList (entries what s) = some (.num s.time) := by
  cases what <;> first | rfl | exact absurd rfl h

theorem unpackKeys_of {i : Nat} {typ : Name} {g : Group} {items : List (Name × Payload)}
    (h : List.Forall₂ (fun p q => p.1 = q.1 ∧ p.2.row i = .ok (some q.2)) g items) :
    unpackKeys g i typ = .ok ((items.filter fun p => p.1 ≠ "time".toList ∧ typ.isPrefixOf p.1).map fun p => (p.1.drop typ.length, p.2)) := by
  unfold unpackKeys
  induction h with
  | nil => rfl
  | @cons p q g items hpq _ ih =>
    obtain ⟨k, d⟩ := p
    obtain ⟨k', v⟩ := q
    obtain ⟨rfl, hr⟩ := hpq
    simp only [List.filter_cons]
    by_cases hc : k ≠ "time".toList ∧ typ.isPrefixOf k
    · rw [if_pos (decide_eq_true hc), if_pos (decide_eq_true hc), List.mapM_cons, ih, List.map_cons]
      simp only [hr, ok_bind]
      rfl
    · simp only [hc, decide_false, Bool.false_eq_true, if_false]
      exact ih

theorem Stores.row {g : Group} {proto : List (Name × Payload)} {content : Nat → Option (List (Name × Payload))}
    (h : Stores g proto content) (hn : (proto.map Prod.fst).Nodup) {i : Nat} {it : List (Name × Payload)} (hi : content i = some it) :
    List.Forall₂ (fun p q => p.1 = q.1 ∧ p.2.row i = .ok (some q.2)) g it := by
  have hk : g.map Prod.fst = it.map Prod.fst := by rw [h.keys, h.itemKeys i it hi]
  have hg : (g.map Prod.fst).Nodup := h.keys ▸ hn
  have hit : (it.map Prod.fst).Nodup := hk ▸ hg
  have hl : g.length = it.length := by simpa using congrArg List.length hk
  refine List.forall₂_iff_get.2 ⟨hl, fun j h1 h2 => ?_⟩
  have e : (g.get ⟨j, h1⟩).1 = (it.get ⟨j, h2⟩).1 := by
    have := congrArg (fun l => l[j]?) hk
    simpa [h1, h2] using this
  refine ⟨e, ?_⟩
  have a := lookupKey_of_mem hg (List.get_mem g ⟨j, h1⟩)
  have b := lookupKey_of_mem hit (List.get_mem it ⟨j, h2⟩)
  have v := h.val _ _ a i
  rw [hi, Option.bind_some, e, b] at v
  rw [Dataset.row_ofNat (Dataset.val_lt v), v]

theorem diag_diagonal {n : Nat} {A : Mat} (hm : A.m = n) (hn : A.n = n) :
    Mat.diag A.diagonal = ⟨n, n, fun i j => if i = j then A.at' i i else 0⟩ := by
  obtain ⟨m, k, A⟩ := A
  subst hm
  cases hn
  have : ∀ q, q = m → (Mat.diag ⟨q, fun i => (Mat.mk m m A).at' i i⟩) = ⟨m, m, fun i j => if i = j then (Mat.mk m m A).at' i i else 0⟩ := by
    rintro q rfl
    unfold Mat.diag
    refine congrArg (Mat.mk q q) ?_
    funext i j
    rfl
  exact this _ (min_self _)

theorem _root_.Verif.Gaussian.Proper.make {g : Gaussian} (h : g.Proper) : Gaussian.make g.mean g.cov = .ok g := by
  obtain ⟨h1, h2, h3⟩ := h
  simp [Gaussian.make, h1, h2, h3]

theorem _root_.Verif.Gaussian.Proper.make_diagonal {g : Gaussian} (h : g.Proper) :
    Gaussian.make g.mean (Mat.diag g.cov.diagonal) =
      .ok ⟨g.mean, ⟨g.mean.n, g.mean.n, fun i j => if i = j then g.cov.at' i i else 0⟩⟩ := by
  obtain ⟨h1, h2, h3⟩ := h
  rw [diag_diagonal h2 h3]
  simp [Gaussian.make, h1]

theorem unpack_entries {what : OutputType} (hw : what ≠ .none) {g : Group} {i : Nat} {s : Step}
    (h : List.Forall₂ (fun p q => p.1 = q.1 ∧ p.2.row i = .ok (some q.2)) g (entries what s))
    (hs : s.state.Proper) (ho : s.output.Proper) :
    (unpack g what i "state_".toList >>= makeDist (what = .mean)) = .ok (asStored what s.state) ∧
      (unpack g what i "output_".toList >>= makeDist (what = .mean)) = .ok (asStored what s.output) := by
  unfold unpack
  rw [unpackKeys_of h, unpackKeys_of h]
  cases what
  · exact ⟨(congrArg (Except.map Dist.gaussian) hs.make :), (congrArg (Except.map Dist.gaussian) ho.make :)⟩
  · exact ⟨(congrArg (Except.map Dist.gaussian) hs.make :), (congrArg (Except.map Dist.gaussian) ho.make :)⟩
  · exact ⟨(congrArg (Except.map Dist.gaussian) hs.make_diagonal :), (congrArg (Except.map Dist.gaussian) ho.make_diagonal :)⟩
  · exact ⟨rfl, rfl⟩
  · exact absurd rfl hw

end Writer
end Verif
