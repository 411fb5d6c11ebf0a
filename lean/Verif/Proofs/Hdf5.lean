import Verif.Model.Hdf5
import Verif.Proofs.Ukf
import Mathlib.Tactic.Linarith
import Mathlib.Data.List.Nodup
/-!
# Lemmas on the datasets of an HDF5 group
-/

namespace Verif

section keys
variable {α : Type}

theorem lookupKey_setKey_self {k : Name} {a b : α} {l : List (Name × α)} (h : lookupKey k l = some b) :
    lookupKey k (setKey k a l) = some a := by
  induction l with
  | nil => simp [lookupKey] at h
  | cons p l ih =>
    obtain ⟨k', c⟩ := p
    unfold lookupKey at h
    unfold setKey
    split_ifs at h ⊢ with hk
    · simp [lookupKey, hk]
    · simp [lookupKey, hk, ih h]

theorem lookupKey_setKey_ne {k k' : Name} {a : α} {l : List (Name × α)} (h : k' ≠ k) :
    lookupKey k' (setKey k a l) = lookupKey k' l := by
  induction l with
  | nil => rfl
  | cons p l ih =>
    obtain ⟨k'', c⟩ := p
    unfold setKey
    split_ifs with hk
    · subst hk; simp [lookupKey, Ne.symm h]
    · simp only [lookupKey, ih]

theorem setKey_keys {k : Name} {a : α} {l : List (Name × α)} : (setKey k a l).map Prod.fst = l.map Prod.fst := by
  induction l with
  | nil => rfl
  | cons p l ih =>
    obtain ⟨k'', c⟩ := p
    unfold setKey
    split_ifs with hk
    · rfl
    · simp [ih]

theorem lookupKey_none {k : Name} {l : List (Name × α)} : lookupKey k l = none ↔ k ∉ l.map Prod.fst := by
  induction l with
  | nil => simp [lookupKey]
  | cons p l ih =>
    obtain ⟨k', c⟩ := p
    unfold lookupKey
    split_ifs with hk
    · simp [hk]
    · simp only [ih, List.map_cons, List.mem_cons, not_or]
      exact ⟨fun h => ⟨fun e => hk e.symm, h⟩, fun h => h.2⟩

theorem lookupKey_some_of_mem {k : Name} {l : List (Name × α)} (h : k ∈ l.map Prod.fst) : ∃ a, lookupKey k l = some a := by
  cases e : lookupKey k l with
  | none => exact absurd h (lookupKey_none.1 e)
  | some a => exact ⟨a, rfl⟩

theorem mem_keys_of_lookupKey {k : Name} {a : α} {l : List (Name × α)} (h : lookupKey k l = some a) : k ∈ l.map Prod.fst := by
  by_contra hn
  rw [lookupKey_none.2 hn] at h
  cases h

theorem lookupKey_of_mem {l : List (Name × α)} (hn : (l.map Prod.fst).Nodup) {p : Name × α} (h : p ∈ l) :
    lookupKey p.1 l = some p.2 := by
  induction l with
  | nil => cases h
  | cons q l ih =>
    obtain ⟨k', c⟩ := q
    simp only [List.map_cons, List.nodup_cons] at hn
    unfold lookupKey
    rcases List.mem_cons.1 h with rfl | h
    · simp
    · have : k' ≠ p.1 := fun e => hn.1 (e ▸ List.mem_map_of_mem h)
      rw [if_neg this]
      exact ih hn.2 h

theorem lookupKey_map {β : Type} {f : Name × α → β} {k : Name} {l : List (Name × α)} :
    lookupKey k (l.map fun p => (p.1, f p)) = (lookupKey k l).map fun a => f (k, a) := by
  induction l with
  | nil => rfl
  | cons p l ih =>
    obtain ⟨k', c⟩ := p
    simp only [List.map_cons, lookupKey]
    split_ifs with hk
    · subst hk; rfl
    · exact ih

end keys

/-! ## One dataset -/

/-- The value in a row, `none` if nothing was written there. -/
def Dataset.val (d : Dataset) (i : Nat) : Option Payload := (d.rows[i]?).join

namespace Dataset

theorem pos_ofNat {d : Dataset} {i : Nat} (h : i < d.rows.length) : d.pos i = .ok i := by
  simp [pos, Operator.resolve1, h]

theorem pos_ofNat_out {d : Dataset} {i : Nat} (h : d.rows.length ≤ i) : d.pos i = .error .indexError := by
  have : ¬ ((i : Int) < d.rows.length) := by omega
  simp only [pos, Operator.resolve1, this, and_false, if_false]
  rw [if_neg]
  omega

theorem row_ofNat {d : Dataset} {i : Nat} (h : i < d.rows.length) : d.row i = .ok (d.val i) := by
  simp [row, pos_ofNat h, val]

theorem val_out {d : Dataset} {i : Nat} (h : d.rows.length ≤ i) : d.val i = none := by
  simp [val, h]

theorem val_lt {d : Dataset} {i : Nat} {v : Payload} (h : d.val i = some v) : i < d.rows.length := by
  by_contra hn
  rw [val_out (by omega)] at h
  cases h

theorem grow_ok {d d' : Dataset} {n : Nat} (h : d.grow n = .ok d') :
    d' = { d with rows := d.rows ++ List.replicate (n - d.rows.length) none } := by
  unfold grow at h
  split at h
  · split_ifs at h
    exact (Except.ok.inj h).symm
  · exact (Except.ok.inj h).symm

theorem val_append {d : Dataset} {m i : Nat} :
    ({ d with rows := d.rows ++ List.replicate m none } : Dataset).val i = d.val i := by
  simp only [val, List.getElem?_append]
  split_ifs with h
  · rfl
  · rw [List.getElem?_eq_none (l := d.rows) (by omega)]
    simp only [List.getElem?_replicate]
    split_ifs <;> rfl

end Dataset

/-! ## Writing -/

namespace Writer

/-- What one write does to the dataset. -/
structure Put (d d' : Dataset) (i : Nat) (v : Payload) : Prop where
  shape : v.shape = d.item
  item : d'.item = d.item
  chunk : d'.chunk = d.chunk
  maxRows : d'.maxRows = d.maxRows
  val : ∀ j, d'.val j = if j = i then some v else d.val j
  lt : i < d'.rows.length
  le : d.rows.length ≤ d'.rows.length

theorem put_set {d : Dataset} {i : Nat} {v : Payload} (hs : v.shape = d.item) (hi : i < d.rows.length) :
    Put d { d with rows := d.rows.set i (some v) } i v where
  shape := hs
  item := rfl
  chunk := rfl
  maxRows := rfl
  val j := by
    simp only [Dataset.val, List.getElem?_set]
    by_cases h : i = j
    · subst h
      simp [hi]
    · simp [h, Ne.symm h]
  lt := by simpa using hi
  le := by simp

theorem write_ok {d d' : Dataset} {i : Nat} {v : Payload} (h : d.write i v = .ok d') : Put d d' i v := by
  unfold Dataset.write at h
  by_cases hi : i < d.rows.length
  · rw [Dataset.pos_ofNat hi, ok_bind] at h
    split_ifs at h with hs
    rw [← Except.ok.inj h]
    exact put_set hs hi
  · rw [Dataset.pos_ofNat_out (by omega)] at h
    cases h

theorem Put.mono {d d' d'' : Dataset} {i m : Nat} {v : Payload} (h : Put d' d'' i v)
    (e : d' = { d with rows := d.rows ++ List.replicate m none }) : Put d d'' i v := by
  subst e
  exact ⟨h.shape, h.item, h.chunk, h.maxRows, fun j => by rw [h.val, Dataset.val_append], h.lt,
    le_trans (by simp) h.le⟩

theorem insert1_ok {g g' : Group} {i : Nat} {k : Name} {v : Payload} (h : insert1 g i k v = (g', none)) :
    ∃ d d', lookupKey k g = some d ∧ g' = setKey k d' g ∧ Put d d' i v := by
  unfold insert1 at h
  split at h
  · cases h
  · next d hd =>
    split at h
    · cases h
    · next d1 h1 =>
      split at h
      · cases h
      · next d2 h2 =>
        refine ⟨d, d2, hd, (Prod.mk.inj h).1.symm, ?_⟩
        split_ifs at h1
        · exact (write_ok h2).mono (Dataset.grow_ok h1)
        · rw [← Except.ok.inj h1] at h2
          exact write_ok h2

theorem write_succeeds {d : Dataset} {i : Nat} {v : Payload} (hi : i < d.rows.length) (hs : v.shape = d.item) :
    d.write i v = .ok { d with rows := d.rows.set i (some v) } := by
  simp [Dataset.write, Dataset.pos_ofNat hi, hs]

theorem grow_free {d : Dataset} {n : Nat} (h : d.maxRows = none) :
    d.grow n = .ok { d with rows := d.rows ++ List.replicate (n - d.rows.length) none } := by
  unfold Dataset.grow
  rw [h]

/-- Whether a dataset can take a row at an index: it is long enough, or becomes so by one chunk. -/
def Fits (d : Dataset) (i : Nat) : Prop := i < d.rows.length ∨ (d.maxRows = none ∧ i < d.rows.length + d.chunk)

theorem insert1_succeeds {g : Group} {i : Nat} {k : Name} {v : Payload} {d : Dataset} (hd : lookupKey k g = some d)
    (hs : v.shape = d.item) (hf : Fits d i) : ∃ g', insert1 g i k v = (g', none) := by
  unfold insert1
  rw [hd]
  dsimp only
  by_cases hi : i < d.rows.length
  · rw [if_neg (by omega)]
    simp [Dataset.write, Dataset.pos_ofNat hi, hs]
  · rcases hf with h | ⟨h1, h2⟩
    · exact absurd h hi
    · rw [if_pos (by omega), grow_free h1]
      dsimp only
      rw [write_succeeds (d := { d with rows := d.rows ++ List.replicate (d.rows.length + d.chunk - d.rows.length) none })
        (by simp; omega) hs]
      exact ⟨_, rfl⟩

/-- What writing a set of values does to the group. -/
structure PutAll (g g' : Group) (i : Nat) (items : List (Name × Payload)) : Prop where
  keys : g'.map Prod.fst = g.map Prod.fst
  put : ∀ k v, lookupKey k items = some v → ∃ d d', lookupKey k g = some d ∧ lookupKey k g' = some d' ∧ Put d d' i v
  other : ∀ k, lookupKey k items = none → lookupKey k g' = lookupKey k g

theorem insertAll_ok {i : Nat} {items : List (Name × Payload)} (hn : (items.map Prod.fst).Nodup) :
    ∀ {g g' : Group}, insertAll i g items = (g', none) → PutAll g g' i items := by
  induction items with
  | nil =>
    intro g g' h
    rw [← (Prod.mk.inj h).1]
    exact ⟨rfl, fun k v hv => (by cases hv), fun _ _ => rfl⟩
  | cons p items ih =>
    obtain ⟨k, v⟩ := p
    simp only [List.map_cons, List.nodup_cons] at hn
    intro g g' h
    unfold insertAll at h
    split at h
    · cases h
    · next g1 h1 =>
      obtain ⟨d, d', hd, rfl, hp⟩ := insert1_ok h1
      have r := ih hn.2 h
      have hk : lookupKey k items = none := lookupKey_none.2 hn.1
      refine ⟨by rw [r.keys, setKey_keys], fun k' v' hv => ?_, fun k' hv => ?_⟩
      · unfold lookupKey at hv
        split_ifs at hv with e
        · subst e
          obtain rfl := Option.some.inj hv
          exact ⟨d, d', hd, by rw [r.other _ hk, lookupKey_setKey_self hd], hp⟩
        · obtain ⟨e1, e2, a, b, c⟩ := r.put _ _ hv
          rw [lookupKey_setKey_ne (Ne.symm e)] at a
          exact ⟨e1, e2, a, b, c⟩
      · unfold lookupKey at hv
        split_ifs at hv with e
        rw [r.other _ hv, lookupKey_setKey_ne (Ne.symm e)]

theorem insertAll_succeeds {i : Nat} {items : List (Name × Payload)} (hn : (items.map Prod.fst).Nodup) :
    ∀ {g : Group}, (∀ k v, lookupKey k items = some v → ∃ d, lookupKey k g = some d ∧ v.shape = d.item ∧ Fits d i) →
      ∃ g', insertAll i g items = (g', none) := by
  induction items with
  | nil => exact fun _ => ⟨_, rfl⟩
  | cons p items ih =>
    obtain ⟨k, v⟩ := p
    simp only [List.map_cons, List.nodup_cons] at hn
    intro g h
    obtain ⟨d, hd, hs, hf⟩ := h k v (by simp [lookupKey])
    obtain ⟨g1, h1⟩ := insert1_succeeds hd hs hf
    unfold insertAll
    rw [h1]
    refine ih hn.2 fun k' v' hv => ?_
    have hne : k' ≠ k := by
      rintro rfl
      rw [lookupKey_none.2 hn.1] at hv
      cases hv
    obtain ⟨_, d', _, rfl, _⟩ := insert1_ok h1
    rw [lookupKey_setKey_ne hne]
    exact h k' v' (by simp [lookupKey, Ne.symm hne, hv])

/-! ## The content of a group -/

/-- A group holds, in row `i` of its datasets, the values `content i`, which all have the keys and shapes of `proto`. -/
structure Stores (g : Group) (proto : List (Name × Payload)) (content : Nat → Option (List (Name × Payload))) : Prop where
  keys : g.map Prod.fst = proto.map Prod.fst
  item : ∀ k d v, lookupKey k g = some d → lookupKey k proto = some v → d.item = v.shape
  val : ∀ k d, lookupKey k g = some d → ∀ i, d.val i = (content i).bind (lookupKey k)
  itemKeys : ∀ i it, content i = some it → it.map Prod.fst = proto.map Prod.fst
  shapes : ∀ i it, content i = some it → ∀ k v w, lookupKey k it = some v → lookupKey k proto = some w → v.shape = w.shape

theorem Stores.insertAll {g g' : Group} {proto : List (Name × Payload)} {content : Nat → Option (List (Name × Payload))}
    (h : Stores g proto content) (hn : (proto.map Prod.fst).Nodup) {i : Nat} {items : List (Name × Payload)}
    (hk : items.map Prod.fst = proto.map Prod.fst) (hi : insertAll i g items = (g', none)) :
    Stores g' proto (fun j => if j = i then some items else content j) := by
  have r := insertAll_ok (hk ▸ hn) hi
  have key : ∀ k d', lookupKey k g' = some d' → ∃ v d, lookupKey k items = some v ∧ lookupKey k g = some d ∧ Put d d' i v := by
    intro k d' hd'
    have hm := mem_keys_of_lookupKey hd'
    rw [r.keys, h.keys, ← hk] at hm
    obtain ⟨v, hv⟩ := lookupKey_some_of_mem hm
    obtain ⟨d, d'', hd, hd'', hp⟩ := r.put k v hv
    rw [hd'] at hd''
    exact ⟨v, d, hv, hd, Option.some.inj hd'' ▸ hp⟩
  refine ⟨by rw [r.keys, h.keys], fun k d' v hd' hv => ?_, fun k d' hd' j => ?_, fun j it hj => ?_, fun j it hj => ?_⟩
  · obtain ⟨_, d, _, hd, hp⟩ := key k d' hd'
    rw [hp.item]
    exact h.item k d v hd hv
  · obtain ⟨v, d, hv, hd, hp⟩ := key k d' hd'
    rw [hp.val]
    split_ifs with e
    · simp [hv]
    · exact h.val k d hd j
  · split_ifs at hj with e
    · rw [← Option.some.inj hj, hk]
    · exact h.itemKeys j it hj
  · split_ifs at hj with e
    · rw [← Option.some.inj hj]
      intro k v w hv hw
      obtain ⟨d, _, hd, _, hp⟩ := r.put k v hv
      rw [hp.shape, h.item k d w hd hw]
    · exact h.shapes j it hj

theorem create_lookup {chunkOf : List Nat → Nat} {rs : Bool} {ex : Option Nat} {items : List (Name × Payload)} {k : Name} {d : Dataset}
    (h : lookupKey k (create chunkOf rs ex items) = some d) :
    ∃ v, lookupKey k items = some v ∧ d = ⟨v.shape, List.replicate (ex.getD 128) none, if rs then ex else some (ex.getD 128),
      chunkOf (ex.getD 128 :: v.shape)⟩ := by
  unfold create at h
  rw [lookupKey_map (f := fun p : Name × Payload => (⟨p.2.shape, List.replicate (ex.getD 128) none,
    if rs then ex else some (ex.getD 128), chunkOf (ex.getD 128 :: p.2.shape)⟩ : Dataset))] at h
  cases e : lookupKey k items with
  | none => rw [e] at h; cases h
  | some v =>
    rw [e] at h
    exact ⟨v, rfl, (Option.some.inj h).symm⟩

theorem create_keys {chunkOf : List Nat → Nat} {rs : Bool} {ex : Option Nat} {items : List (Name × Payload)} :
    (create chunkOf rs ex items).map Prod.fst = items.map Prod.fst := by
  simp [create]

theorem stores_create {chunkOf : List Nat → Nat} {rs : Bool} {ex : Option Nat} {items : List (Name × Payload)} :
    Stores (create chunkOf rs ex items) items (fun _ => none) where
  keys := create_keys
  item k d v hd hv := by
    obtain ⟨v', hv', rfl⟩ := create_lookup hd
    rw [hv] at hv'
    rw [Option.some.inj hv']
  val k d hd i := by
    obtain ⟨v', hv', rfl⟩ := create_lookup hd
    simp only [Dataset.val, List.getElem?_replicate]
    split_ifs <;> rfl
  itemKeys i it h := by cases h
  shapes i it h := by cases h

end Writer
end Verif
