import Verif.Proofs.Hdf5Session
/-!
# When there is room for another step
-/

namespace Verif
namespace Writer

/-- Every dataset has the declared number of rows, or can grow and has at least `lim` rows. -/
def Room (g : Group) (ex : Option Nat) (lim : Nat) : Prop :=
  ∀ k d, lookupKey k g = some d →
    (∃ N, ex = some N ∧ N ≤ d.rows.length) ∨ (ex = none ∧ d.maxRows = none ∧ 1 ≤ d.chunk ∧ lim ≤ d.rows.length)

/-- An index can be used next: it is below the declared size, or not beyond `lim`. -/
def Usable (ex : Option Nat) (lim i : Nat) : Prop := (∃ N, ex = some N ∧ i < N) ∨ (ex = none ∧ i ≤ lim)

theorem room_create {chunkOf : List Nat → Nat} (hc : ∀ l, 1 ≤ chunkOf l) {rs : Bool} {ex : Option Nat}
    (hs : rs = true ∨ ex.isSome) {items : List (Name × Payload)} : Room (create chunkOf rs ex items) ex 128 := by
  intro k d hd
  obtain ⟨v, -, rfl⟩ := create_lookup hd
  cases ex with
  | some N => exact .inl ⟨N, rfl, by simp⟩
  | none =>
    obtain rfl : rs = true := by simpa using hs
    exact .inr ⟨rfl, rfl, hc _, by simp⟩

theorem Room.mono {g : Group} {ex : Option Nat} {lim lim' : Nat} (h : Room g ex lim) (hl : lim' ≤ lim) : Room g ex lim' := by
  intro k d hd
  rcases h k d hd with a | ⟨a, b, c, e⟩
  · exact .inl a
  · exact .inr ⟨a, b, c, hl.trans e⟩

theorem Room.fits {g : Group} {ex : Option Nat} {lim i : Nat} (h : Room g ex lim) (hu : Usable ex lim i) {k : Name} {d : Dataset}
    (hd : lookupKey k g = some d) : Fits d i := by
  rcases h k d hd with ⟨N, rfl, hN⟩ | ⟨rfl, h1, h2, h3⟩
  · rcases hu with ⟨M, hM, hi⟩ | ⟨h0, -⟩
    · cases hM
      exact .inl (by omega)
    · cases h0
  · rcases hu with ⟨M, hM, hi⟩ | ⟨-, hi⟩
    · cases hM
    · exact .inr ⟨h1, by omega⟩

theorem Room.insertAll {g g' : Group} {ex : Option Nat} {lim i : Nat} (h : Room g ex lim) {items : List (Name × Payload)}
    (hk : g.map Prod.fst = items.map Prod.fst) (hn : (items.map Prod.fst).Nodup) (hi : insertAll i g items = (g', none)) :
    Room g' ex (max lim (i + 1)) := by
  have r := insertAll_ok hn hi
  intro k d' hd'
  have hm := mem_keys_of_lookupKey hd'
  rw [r.keys, hk] at hm
  obtain ⟨v, hv⟩ := lookupKey_some_of_mem hm
  obtain ⟨d, d'', hd, hd'', hp⟩ := r.put k v hv
  rw [hd'] at hd''
  obtain rfl := Option.some.inj hd''
  have := hp.le
  have := hp.lt
  rcases h k d hd with ⟨N, rfl, hN⟩ | ⟨rfl, h1, h2, h3⟩
  · exact .inl ⟨N, rfl, by omega⟩
  · exact .inr ⟨rfl, by rw [hp.maxRows, h1], by rw [hp.chunk]; exact h2, by omega⟩

/-- Two steps of the same dimensions. -/
def SameDims (s p : Step) : Prop :=
  (s.state.mean.n = p.state.mean.n ∧ s.state.cov.m = p.state.cov.m ∧ s.state.cov.n = p.state.cov.n) ∧
    s.output.mean.n = p.output.mean.n ∧ s.output.cov.m = p.output.cov.m ∧ s.output.cov.n = p.output.cov.n

theorem entries_shapes {what : OutputType} {s p : Step} (h : SameDims s p) {k : Name} {v w : Payload}
    (hv : lookupKey k (entries what s) = some v) (hw : lookupKey k (entries what p) = some w) : v.shape = w.shape := by
  have key : (entries what s).map (fun q => (q.1, q.2.shape)) = (entries what p).map (fun q => (q.1, q.2.shape)) := by
    obtain ⟨⟨a1, a2, a3⟩, b1, b2, b3⟩ := h
    cases what <;>
      simp [entries, toInsert, toNumpyDict, Payload.shape, Mat.diagonal, a1, a2, a3, b1, b2, b3]
  have h1 := lookupKey_map (f := fun q : Name × Payload => q.2.shape) (k := k) (l := entries what s)
  have h2 := lookupKey_map (f := fun q : Name × Payload => q.2.shape) (k := k) (l := entries what p)
  rw [hv] at h1
  rw [hw] at h2
  dsimp only at h1 h2
  rw [key, h2] at h1
  exact (Option.some.inj h1).symm

/-- `Logs`, with room. -/
def Holds (e : Estimates) (wh : Where) (what : OutputType) (p : Step) (steps : Nat → Option Step) (ex : Option Nat) (lim : Nat) : Prop :=
  ∃ g, e.get wh = some g ∧ Stores g (entries what p) (fun i => (steps i).map (entries what)) ∧ Room g ex lim

theorem Holds.insert {g : Group} {what : OutputType} {p s : Step} {steps : Nat → Option Step} {ex : Option Nat} {lim i : Nat}
    (hst : Stores g (entries what p) (fun i => (steps i).map (entries what))) (hr : Room g ex lim) (hs : SameDims s p)
    (hu : Usable ex lim i) :
    ∃ g', insertAll i g (entries what s) = (g', none) ∧
      Stores g' (entries what p) (fun j => (recordAt steps i s j).map (entries what)) ∧ Room g' ex (max lim (i + 1)) := by
  obtain ⟨g', hg'⟩ := insertAll_succeeds (i := i) (g := g) (entries_nodup what s) (fun k v hv => by
    have hm : k ∈ g.map Prod.fst := by
      rw [hst.keys, ← entries_keys what s p]
      exact mem_keys_of_lookupKey hv
    obtain ⟨d, hd⟩ := lookupKey_some_of_mem hm
    obtain ⟨v', hv'⟩ := lookupKey_some_of_mem (by rw [← entries_keys what s p]; exact mem_keys_of_lookupKey hv : k ∈ (entries what p).map Prod.fst)
    exact ⟨d, hd, by rw [hst.item k d v' hd hv', entries_shapes hs hv hv'], hr.fits hu hd⟩)
  refine ⟨g', hg', ?_, hr.insertAll (by rw [hst.keys]; exact entries_keys what p s) (entries_nodup what s) hg'⟩
  have := hst.insertAll (entries_nodup what p) (entries_keys what s p) hg'
  have e : (fun j => (recordAt steps i s j).map (entries what)) =
      fun j => if j = i then some (entries what s) else (fun j => (steps j).map (entries what)) j := by
    funext j
    simp only [recordAt]
    split_ifs <;> rfl
  rw [e]
  exact this

theorem Holds.timestep {e : Estimates} {what : OutputType} (hw : what ≠ .none) {p s : Step} {steps : Nat → Option Step} {ex : Option Nat}
    {lim i : Nat} (h : Holds e .timestep what p steps ex lim) (hs : SameDims s p) (hu : Usable ex lim i) :
    ∃ g', appendAt s.time s.state s.output e i what .timestep = (e.set .timestep g', none) ∧
      Holds (e.set .timestep g') .timestep what p (recordAt steps i s) ex (max lim (i + 1)) := by
  obtain ⟨g, hg, hst, hr⟩ := h
  obtain ⟨g', h1, h2, h3⟩ := Holds.insert hst hr hs hu
  refine ⟨g', ?_, g', get_set_self _ _ _, h2, h3⟩
  unfold appendAt
  rw [if_neg hw, hg]
  dsimp only
  rw [entries_ok hw]
  dsimp only
  rw [h1]

theorem Holds.cycle {e : Estimates} {what : OutputType} (hw : what ≠ .none) {p s : Step} {steps : Nat → Option Step} {ex : Option Nat}
    {lim i : Nat} (h : Holds e .cycle what p steps ex lim) (ht : ∀ i s, steps i = some s → s.time ≠ .nan)
    (hl : (steps i).isSome → i + 1 ≤ lim) (hs : SameDims s p) (hu : Usable ex lim i) :
    ∃ e', appendAt s.time s.state s.output e i what .cycle = (e', none) ∧
      Holds e' .cycle what p (if (steps i).isSome then steps else recordAt steps i s) ex (max lim (i + 1)) := by
  obtain ⟨g, hg, hst, hr⟩ := h
  obtain ⟨d, hd, hval⟩ := Logs.time (e := e) (wh := .cycle) hw hst
  unfold appendAt
  rw [if_neg hw, hg]
  dsimp only
  rw [hd]
  dsimp only
  have hv := hval i
  cases hsi : steps i with
  | some s0 =>
    rw [hsi] at hv hl
    have hlt := Dataset.val_lt hv
    rw [if_pos (by omega)]
    simp only [Dataset.isNanAt, Dataset.row_ofNat hlt, hv, Option.map_some, ok_bind, Num.isNan_false (ht i s0 hsi), pure_eq_ok, Bool.not_false]
    exact ⟨e, rfl, g, hg, hst, by rw [max_eq_left (hl rfl)]; exact hr⟩
  | none =>
    rw [hsi] at hv
    have hskip : (if (i : Int) < d.rows.length then do return !(← d.isNanAt i) else (.ok false : Except Err Bool)) = .ok false := by
      split_ifs with hlt
      · simp only [Dataset.isNanAt, Dataset.row_ofNat (Int.ofNat_lt.1 hlt), hv, Option.map_none, ok_bind, pure_eq_ok, Bool.not_true]
      · rfl
    rw [hskip]
    dsimp only
    rw [entries_ok hw]
    dsimp only
    obtain ⟨g', h1, h2, h3⟩ := Holds.insert hst hr hs hu
    rw [h1]
    exact ⟨_, rfl, g', get_set_self _ _ _, by simpa using h2, h3⟩

end Writer
end Verif
