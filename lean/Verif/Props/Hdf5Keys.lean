import Verif.Props.Hdf5Life
/-!
# C111: several writers with one file
-/

namespace Verif
open Writer

/-- C111.  Whatever a writer is asked to do, in any order and whether or not it raises, what is stored under other keys stays as it is,
and nothing appears there. -/
theorem C111_other_keys_untouched (chunkOf : List Nat → Nat) (w : Writer) (ops : List Op) (k : Name) (hk : k ≠ w.storageKey) :
    lookupKey k (w.run chunkOf ops).root = lookupKey k w.root := by
  have happ : ∀ (l : List (Name × Estimates)) (j : Name) (e : Estimates), k ≠ j → lookupKey k (l ++ [(j, e)]) = lookupKey k l := by
    intro l j e hj
    induction l with
    | nil => simp [lookupKey, Ne.symm hj]
    | cons p l ih => simp only [List.cons_append, lookupKey, ih]
  have key : ∀ (w : Writer) (op : Op), k ≠ w.storageKey →
      (w.apply chunkOf op).1.storageKey = w.storageKey ∧ lookupKey k (w.apply chunkOf op).1.root = lookupKey k w.root := by
    intro w op hk
    have hset : ∀ e, lookupKey k (w.setGroup e).root = lookupKey k w.root := fun e => lookupKey_setKey_ne hk
    cases op with
    | enter =>
      refine ⟨rfl, ?_⟩
      show lookupKey k (if _ then _ else _) = _
      split
      · rfl
      · exact happ _ _ _ hk
    | exit => exact ⟨rfl, rfl⟩
    | prepare info steps cycles =>
      rcases prepare_fst (chunkOf := chunkOf) (w := w) (info := info) (steps := steps) (cycles := cycles) with ⟨-, h⟩ | ⟨e, h, -⟩ <;>
        unfold apply <;> dsimp only <;> rw [h]
      exacts [⟨rfl, rfl⟩, ⟨rfl, hset e⟩]
    | append s =>
      rcases append_fst w s with h | ⟨c, e1, o, -, -, -, h | h | h⟩ <;> unfold apply <;> dsimp only <;> rw [h]
      exacts [⟨rfl, rfl⟩, ⟨rfl, hset e1⟩, ⟨rfl, hset o⟩, ⟨rfl, hset o⟩]
  induction ops generalizing w with
  | nil => rfl
  | cons op ops ih =>
    obtain ⟨h1, h2⟩ := key w op hk
    unfold run
    rw [ih _ (by rw [h1]; exact hk), h2]

/-- What a writer has stored successfully is found under its key. -/
theorem stored_under_key (chunkOf : List Nat → Nat) (w0 w w' : Writer) (info : EstimatorInfo) (steps cycles : Option Nat)
    (hp : w0.enter.prepare chunkOf info steps cycles = (w, none)) (ss : List Step) (ha : w.appendAll ss = (w', none)) :
    lookupKey w0.storageKey w'.exit.root = some w'.exit.group := by
  obtain ⟨state, h⟩ := prepare_ok (hasGroup_enter w0) hp
  have hs := appendAll_same ss h.hasGroup h.ready ha
  have e : w'.storageKey = w0.storageKey := by rw [hs.storageKey, h.storageKey]; rfl
  obtain ⟨a, ha'⟩ := Option.isSome_iff_exists.1 hs.hasGroup
  show lookupKey w0.storageKey w'.root = some ((lookupKey w'.storageKey w'.root).getD .empty)
  rw [e] at ha' ⊢
  rw [ha']; rfl

/-- C111.  Estimates of one writer are read back after any use of another writer with another key on the same file. -/
theorem C111_read_back_after_another_writer (chunkOf : List Nat → Nat) (w0 w w' : Writer) (info : EstimatorInfo) (steps cycles : Option Nat)
    (hp : w0.enter.prepare chunkOf info steps cycles = (w, none)) (ss : List Step) (ha : w.appendAll ss = (w', none))
    (ht : ∀ s ∈ ss, s.time ≠ .nan) (hv : ∀ s ∈ ss, s.state.Proper ∧ s.output.Proper) (hm : w0.perTimestep ≠ .none)
    (other : Writer) (hroot : other.root = w'.exit.root) (hk : other.storageKey ≠ w0.storageKey) (ops : List Op) :
    ∃ e, lookupKey w0.storageKey (other.run chunkOf ops).root = some e ∧
      e.read .timestep = .ok (ss.map fun s => (s.time, asStored w0.perTimestep s.state, asStored w0.perTimestep s.output)) := by
  refine ⟨w'.exit.group, ?_, C66_timesteps_read_back chunkOf w0 w w' info steps cycles hp ss ha ht hv hm⟩
  rw [C111_other_keys_untouched chunkOf other ops _ (Ne.symm hk), hroot]
  exact stored_under_key chunkOf w0 w w' info steps cycles hp ss ha

/-- C111.  Reading a path is reading the group `state_estimates`, per timestep and per cycle alike: all estimates of a writer with the
default key are found, -/
theorem C111_path_of_default_key (chunkOf : List Nat → Nat) (w0 w w' : Writer) (info : EstimatorInfo) (steps cycles : Option Nat)
    (hp : w0.enter.prepare chunkOf info steps cycles = (w, none)) (ss : List Step) (ha : w.appendAll ss = (w', none))
    (hk : w0.storageKey = "state_estimates".toList) (other : Writer) (hroot : other.root = w'.exit.root)
    (ho : other.storageKey ≠ w0.storageKey) (ops : List Op) :
    readFile (other.run chunkOf ops).root .timestep = w'.exit.group.read .timestep ∧
      readFile (other.run chunkOf ops).root .cycle = w'.exit.group.read .cycle := by
  have := stored_under_key chunkOf w0 w w' info steps cycles hp ss ha
  rw [← hroot, ← C111_other_keys_untouched chunkOf other ops _ (Ne.symm ho), hk] at this
  unfold readFile
  rw [this]
  exact ⟨rfl, rfl⟩

/-- C111, while a file with estimates under other keys only cannot be read by its path: KeyError, whatever the writer has stored. -/
theorem C111_path_of_other_key (chunkOf : List Nat → Nat) (w : Writer) (hk : w.storageKey ≠ "state_estimates".toList)
    (hn : lookupKey "state_estimates".toList w.root = none) (ops : List Op) (wh : Where) :
    readFile (w.run chunkOf ops).root wh = .error .keyError := by
  unfold readFile
  rw [C111_other_keys_untouched chunkOf w ops _ (Ne.symm hk), hn]

open Demo in
/-- A step stored under the default key is read back by path after anything done with the key `mine`. -/
example (ops : List Op) : ∃ w w', writer1.enter.prepare (fun _ => 128) info1 none none = (w, none) ∧ w.appendAll [step1 0 0] = (w', none) ∧
    readFile (Writer.run (fun _ => 128) ⟨"mine".toList, true, .mean, .full, false, 0, w'.exit.root⟩ ops).root .timestep =
      .ok [(.fin 0, .delta ⟨⟨1, fun _ => 0⟩⟩, .delta ⟨⟨1, fun _ => 0 + 1⟩⟩)] := by
  obtain ⟨w, hw⟩ := writer1_prepares
  have hd : ∀ s ∈ [step1 0 0], s.Matches (gauss1 3 4) 1 := by
    intro s hs
    simp only [List.mem_cons, List.not_mem_nil, or_false] at hs
    rw [hs]; exact step1_matches _ _
  have ht : ∀ s ∈ [step1 0 0], s.time ≠ .nan := by
    intro s hs
    simp only [List.mem_cons, List.not_mem_nil, or_false] at hs
    rw [hs]; exact nofun
  have hc : ∀ s ∈ [step1 0 0], ∃ c : ℕ, s.cycle = .fin (c : ℝ) ∧ c < 128 := by
    intro s hs
    simp only [List.mem_cons, List.not_mem_nil, or_false] at hs
    rw [hs]; exact ⟨0, rfl, by decide⟩
  have hgr : Gradual [step1 0 0] := by
    intro pre s post e c hs
    obtain ⟨c', hc', h⟩ := hc s (by rw [e]; simp)
    rw [hs] at hc'
    have : c = c' := by exact_mod_cast Num.fin.inj hc'
    exact .inl (by omega)
  obtain ⟨w', hw'⟩ := C68_appends_succeed_partial (fun _ => 128) (fun _ => by omega) writer1 w info1 (gauss1 3 4) rfl (gauss1_proper _ _)
    none none hw _ hd ht (fun s hs => let ⟨c, h, _⟩ := hc s hs; ⟨c, h⟩) (fun _ N h => by cases h) (fun _ => hgr)
  refine ⟨w, w', hw, hw', ?_⟩
  rw [(C111_path_of_default_key _ writer1 w w' info1 none none hw _ hw' rfl
    ⟨"mine".toList, true, .mean, .full, false, 0, w'.exit.root⟩ rfl
    (show "mine".toList ≠ writer1.storageKey by decide) ops).1]
  exact C66_timesteps_read_back _ writer1 w w' info1 none none hw _ hw' ht (fun s hs => ⟨(hd s hs).1, (hd s hs).2.1⟩) (by decide)

/-- A new file written under the key `mine`. -/
example (chunkOf : List Nat → Nat) (ops : List Op) :
    readFile (Writer.run chunkOf ⟨"mine".toList, true, .mean, .full, false, 0, []⟩ ops).root .timestep = .error .keyError :=
  C111_path_of_other_key chunkOf _ (by decide) rfl ops _

end Verif
