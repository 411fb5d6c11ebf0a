import Verif.Proofs.Hdf5Room
/-!
# Estimates stored in HDF5 files: what is written is read back (C66, C67, C68)
-/

namespace Verif
namespace Writer

theorem Prepared.logs {chunkOf : List Nat → Nat} {w w' : Writer} {state : Gaussian} {info : EstimatorInfo} {steps cycles : Option Nat}
    (h : Prepared chunkOf w w' state info steps cycles) :
    (w.perTimestep ≠ .none → Logs w'.group .timestep w'.perTimestep (proto state info.nOutputs) (fun i => ([] : List Step)[i]?)) ∧
      (w.perCycle ≠ .none → Logs w'.group .cycle w'.perCycle (proto state info.nOutputs) (fun c => firstOfCycle c [])) := by
  constructor
  · intro hw
    rw [h.perTimestep]
    exact ⟨_, h.timestep hw, stores_create⟩
  · intro hw
    rw [h.perCycle]
    exact ⟨_, h.cycle hw, stores_create⟩

theorem Step.Matches.sameDims {s : Step} {g : Gaussian} {nOut : Nat} (h : s.Matches g nOut) (hg : g.Proper) :
    SameDims s (proto g nOut) := by
  obtain ⟨⟨a1, a2, a3⟩, ⟨b1, b2, b3⟩, c1, c2⟩ := h
  obtain ⟨g1, g2, g3⟩ := hg
  simp only [SameDims, proto, Vec.zeros, Mat.zeros]
  omega

end Writer

open Writer

/-- C66.  A writer is opened and prepared, any number of steps with times is appended, and none of these operations raises.  Then reading
the per-timestep estimates, after closing the writer, yields one entry per appended step, in their order, with its time and of its state
and its outputs what the chosen mode stores. -/
theorem C66_timesteps_read_back (chunkOf : List Nat → Nat) (w0 w w' : Writer) (info : EstimatorInfo) (steps cycles : Option Nat)
    (hp : w0.enter.prepare chunkOf info steps cycles = (w, none)) (ss : List Step) (ha : w.appendAll ss = (w', none))
    (ht : ∀ s ∈ ss, s.time ≠ .nan) (hv : ∀ s ∈ ss, s.state.Proper ∧ s.output.Proper) (hm : w0.perTimestep ≠ .none) :
    w'.exit.group.read .timestep = .ok (ss.map fun s => (s.time, asStored w0.perTimestep s.state, asStored w0.perTimestep s.output)) := by
  obtain ⟨state, h⟩ := prepare_ok (hasGroup_enter w0) hp
  have hm' : w.perTimestep ≠ .none := by rw [h.perTimestep]; exact hm
  obtain ⟨hs, hl⟩ := appendAll_timestep ss h.hasGroup h.ready hm' (hist := []) (by rw [h.position]; rfl) (h.logs.1 hm) ha
  have e : w.perTimestep = w0.perTimestep := h.perTimestep
  rw [e] at hl
  exact hl.read hm (ts := w0.perTimestep) (cy := w0.perCycle) (by rw [hs.settings, h.settings]; rfl) rfl (by rw [hs.distType, h.distType]) (fun i _ => by simp) ht hv

/-- C66, steps without a time (NaN): reading ends before the first of them, and it and all later steps are not read although they are
stored. -/
theorem C66_reading_ends_at_nan (chunkOf : List Nat → Nat) (w0 w w' : Writer) (info : EstimatorInfo) (steps cycles : Option Nat)
    (hp : w0.enter.prepare chunkOf info steps cycles = (w, none)) (before : List Step) (lost : Step) (after : List Step)
    (ha : w.appendAll (before ++ lost :: after) = (w', none)) (ht : ∀ s ∈ before, s.time ≠ .nan) (hlost : lost.time = .nan)
    (hv : ∀ s ∈ before ++ lost :: after, s.state.Proper ∧ s.output.Proper) (hm : w0.perTimestep ≠ .none) :
    w'.exit.group.read .timestep = .ok (before.map fun s => (s.time, asStored w0.perTimestep s.state, asStored w0.perTimestep s.output)) := by
  obtain ⟨state, h⟩ := prepare_ok (hasGroup_enter w0) hp
  have hm' : w.perTimestep ≠ .none := by rw [h.perTimestep]; exact hm
  obtain ⟨hs, hl⟩ := appendAll_timestep (before ++ lost :: after) h.hasGroup h.ready hm' (hist := []) (by rw [h.position]; rfl) (h.logs.1 hm) ha
  have e : w.perTimestep = w0.perTimestep := h.perTimestep
  rw [e] at hl
  have hr := hl.readTimed hm (ts := w0.perTimestep) (cy := w0.perCycle) (by rw [hs.settings, h.settings]; rfl) rfl
    (by rw [hs.distType, h.distType]) (ss := before ++ lost :: after) (fun i _ => by simp) hv
  refine hr.trans ?_
  have ht' : timed (before ++ lost :: after) = before := by
    unfold timed
    rw [List.takeWhile_append_of_pos (by intro s hs; simpa using ht s hs), List.takeWhile_cons_of_neg (by simp [hlost]), List.append_nil]
  rw [ht']

/-- The same for a path: the estimates are found if the writer stored them under the default key. -/
theorem C66_file_read_back (chunkOf : List Nat → Nat) (w0 w w' : Writer) (info : EstimatorInfo) (steps cycles : Option Nat)
    (hp : w0.enter.prepare chunkOf info steps cycles = (w, none)) (ss : List Step) (ha : w.appendAll ss = (w', none))
    (ht : ∀ s ∈ ss, s.time ≠ .nan) (hv : ∀ s ∈ ss, s.state.Proper ∧ s.output.Proper) (hm : w0.perTimestep ≠ .none)
    (hk : w0.storageKey = "state_estimates".toList) :
    readFile w'.exit.root .timestep =
      .ok (ss.map fun s => (s.time, asStored w0.perTimestep s.state, asStored w0.perTimestep s.output)) := by
  rw [← C66_timesteps_read_back chunkOf w0 w w' info steps cycles hp ss ha ht hv hm]
  obtain ⟨state, h⟩ := prepare_ok (hasGroup_enter w0) hp
  have hs := appendAll_same ss h.hasGroup h.ready ha
  have e : w'.storageKey = "state_estimates".toList := by rw [hs.storageKey, h.storageKey, ← hk]; rfl
  obtain ⟨a, ha'⟩ := Option.isSome_iff_exists.1 hs.hasGroup
  unfold readFile group exit
  dsimp only
  rw [← e, ha']
  rfl

/-- C67, what is stored: the per-cycle group has the columns that belong to the writer's mode, and row `c` of each holds its part of the
first step of cycle `c`, and nothing if no step belongs to cycle `c`. -/
theorem C67_first_steps_stored (chunkOf : List Nat → Nat) (w0 w w' : Writer) (info : EstimatorInfo) (steps cycles : Option Nat)
    (hp : w0.enter.prepare chunkOf info steps cycles = (w, none)) (ss : List Step) (ha : w.appendAll ss = (w', none))
    (ht : ∀ s ∈ ss, s.time ≠ .nan) (hc : ∀ s ∈ ss, ∃ c : ℕ, s.cycle = .fin (c : ℝ)) (hm : w0.perCycle ≠ .none) :
    ∃ g, w'.exit.group.perCycle = some g ∧ ∀ column value, StoredColumn w0.perCycle column value →
      ∃ d, lookupKey column.toList g = some d ∧ ∀ c : ℕ, (d.rows[c]?).join = (firstOfCycle c ss).map value := by
  obtain ⟨state, h⟩ := prepare_ok (hasGroup_enter w0) hp
  have hm' : w.perCycle ≠ .none := by rw [h.perCycle]; exact hm
  obtain ⟨g, hg, hst⟩ := appendAll_cycle ss h.hasGroup h.ready hm' (hist := []) ht hc (h.logs.2 hm) ha
  refine ⟨g, hg, fun column value hcol => ?_⟩
  rw [← show w.perCycle = w0.perCycle from h.perCycle] at hcol
  have hk : ∀ s, lookupKey column.toList (entries w.perCycle s) = some (value s) := by
    intro s
    cases hcol with
    | time => exact entries_time hm' s
    | state => cases hq : w.perCycle <;> first | rfl | exact absurd hq hm'
    | output => cases hq : w.perCycle <;> first | rfl | exact absurd hq hm'
    | stateCov hq => rcases hq with hq | hq <;> rw [hq] <;> rfl
    | outputCov hq => rcases hq with hq | hq <;> rw [hq] <;> rfl
    | stateVar hq => rw [hq]; rfl
    | outputVar hq => rw [hq]; rfl
  obtain ⟨d, hd⟩ := lookupKey_some_of_mem
    (by rw [hst.keys]; exact mem_keys_of_lookupKey (hk (proto state info.nOutputs)) : column.toList ∈ g.map Prod.fst)
  refine ⟨d, hd, fun c => ?_⟩
  have := hst.val _ d hd c
  rw [← Dataset.val, this]
  dsimp only
  rw [List.nil_append]
  cases firstOfCycle c ss with
  | none => rfl
  | some s => exact hk s

/-- C67, which cycle a step belongs to if its cycle number is not whole: the one of the whole part.  Any sequence of appends does the same with
the fractions cut off, so that `C67_first_steps_stored` and `C67_read_back_partial` apply to them. -/
theorem C67_fractions_cut_off (w : Writer) (ss : List Step) (hc : ∀ s ∈ ss, ∃ x : ℝ, s.cycle = .fin x ∧ 0 ≤ x) (whole : Step → ℕ)
    (hw : ∀ s ∈ ss, ∀ x : ℝ, s.cycle = .fin x → (whole s : ℝ) ≤ x ∧ x < whole s + 1) :
    w.appendAll ss = w.appendAll (ss.map fun s => { s with cycle := .fin (whole s) }) := by
  induction ss generalizing w with
  | nil => rfl
  | cons s ss ih =>
    obtain ⟨x, hx, hx0⟩ := hc s (List.mem_cons_self ..)
    obtain ⟨h1, h2⟩ := hw s (List.mem_cons_self ..) x hx
    have e : (Num.fin x).toInt = (Num.fin (whole s : ℝ)).toInt := by
      rw [toInt_nat]
      simp only [Num.toInt, if_pos hx0, Except.ok.injEq]
      exact Int.floor_eq_iff.2 ⟨by exact_mod_cast h1, by exact_mod_cast h2⟩
    have e' : w.append s.time s.cycle s.state s.output = w.append s.time (.fin (whole s)) s.state s.output := by
      unfold append
      rw [hx, e]
    have ih' := fun w => ih w (fun s hs => hc s (List.mem_cons_of_mem _ hs)) (fun s hs => hw s (List.mem_cons_of_mem _ hs))
    rw [List.map_cons]
    unfold appendAll
    rw [e']
    simp only [ih']

/-- C67, steps that belong to no cycle: those whose cycle number is NaN or infinite are refused, and nothing changes. -/
theorem C67_no_cycle_refused (w : Writer) (time cycle : Num) (state output : Gaussian) (hc : ∀ x, cycle ≠ .fin x) :
    ∃ err, w.append time cycle state output = (w, some err) := by
  unfold append
  split
  · exact ⟨_, rfl⟩
  · cases cycle with
    | fin x => exact absurd rfl (hc x)
    | nan => exact ⟨_, rfl⟩
    | _ => exact ⟨_, rfl⟩

/-- C67, what is read: the first steps of the cycles 0, 1, …, up to the first cycle without steps.  If the cycles that have steps are
exactly those below `n`, that is all of them; the property asks for all of them whichever numbers they have. -/
theorem C67_read_back_partial (chunkOf : List Nat → Nat) (w0 w w' : Writer) (info : EstimatorInfo) (steps cycles : Option Nat)
    (hp : w0.enter.prepare chunkOf info steps cycles = (w, none)) (ss : List Step) (ha : w.appendAll ss = (w', none))
    (ht : ∀ s ∈ ss, s.time ≠ .nan) (hv : ∀ s ∈ ss, s.state.Proper ∧ s.output.Proper)
    (hc : ∀ s ∈ ss, ∃ c : ℕ, s.cycle = .fin (c : ℝ)) (hm : w0.perCycle ≠ .none)
    (firsts : List Step) (hf : ∀ c (h : c < firsts.length), firstOfCycle c ss = some firsts[c])
    (hn : firstOfCycle firsts.length ss = none) :
    w'.exit.group.read .cycle = .ok (firsts.map fun s => (s.time, asStored w0.perCycle s.state, asStored w0.perCycle s.output)) := by
  obtain ⟨state, h⟩ := prepare_ok (hasGroup_enter w0) hp
  have hm' : w.perCycle ≠ .none := by rw [h.perCycle]; exact hm
  have hl := appendAll_cycle ss h.hasGroup h.ready hm' (hist := []) ht hc (h.logs.2 hm) ha
  have hs := appendAll_same ss h.hasGroup h.ready ha
  have e : w.perCycle = w0.perCycle := h.perCycle
  rw [e, List.nil_append] at hl
  have hmem : ∀ s ∈ firsts, s ∈ ss := by
    intro s hs
    obtain ⟨c, hc, rfl⟩ := List.getElem_of_mem hs
    exact List.mem_of_find?_eq_some (hf c hc)
  refine hl.read hm (ts := w0.perTimestep) (cy := w0.perCycle) (by rw [hs.settings, h.settings]; rfl) rfl (by rw [hs.distType, h.distType]) (fun i hi => ?_)
    (fun s hs => ht s (hmem s hs)) (fun s hs => hv s (hmem s hs))
  rcases Nat.lt_or_ge i firsts.length with hlt | hge
  · rw [hf i hlt, List.getElem?_eq_getElem hlt]
  · obtain rfl : i = firsts.length := by omega
    rw [hn, List.getElem?_eq_none (le_refl _)]

/-- C67 fails if cycle 0 has no steps, e.g. when cycles are counted from 1: nothing at all is read back. -/
theorem C67_nothing_read_without_cycle_zero (chunkOf : List Nat → Nat) (w0 w w' : Writer) (info : EstimatorInfo) (steps cycles : Option Nat)
    (hp : w0.enter.prepare chunkOf info steps cycles = (w, none)) (ss : List Step) (ha : w.appendAll ss = (w', none))
    (ht : ∀ s ∈ ss, s.time ≠ .nan) (hv : ∀ s ∈ ss, s.state.Proper ∧ s.output.Proper)
    (hc : ∀ s ∈ ss, ∃ c : ℕ, s.cycle = .fin (c : ℝ) ∧ 1 ≤ c) (hm : w0.perCycle ≠ .none) :
    w'.exit.group.read .cycle = .ok [] := by
  refine C67_read_back_partial chunkOf w0 w w' info steps cycles hp ss ha ht hv
    (fun s hs => let ⟨c, hc, _⟩ := hc s hs; ⟨c, hc⟩) hm [] (fun c h => absurd h (by simp)) ?_
  unfold firstOfCycle
  rw [List.find?_eq_none]
  intro s hs
  obtain ⟨c, hc, h1⟩ := hc s hs
  have : (c : ℝ) ≠ 0 := by exact_mod_cast (by omega : c ≠ 0)
  simp [hc, this]

namespace Writer

theorem appendAll_succeeds {p : Step} {steps cycles : Option Nat} (ss : List Step) :
    ∀ {w : Writer} {hist : List Step}, w.HasGroup → w.ready = true → w.position = hist.length →
      (∀ s ∈ hist ++ ss, s.time ≠ .nan) → (∀ s ∈ ss, SameDims s p) → (∀ s ∈ ss, ∃ c : ℕ, s.cycle = .fin (c : ℝ)) →
      (w.perTimestep = .none ∨ (Holds w.group .timestep w.perTimestep p (fun i => hist[i]?) steps hist.length ∧
        ∀ N, steps = some N → hist.length + ss.length ≤ N)) →
      (w.perCycle = .none ∨ (∃ lim, Holds w.group .cycle w.perCycle p (fun c => firstOfCycle c hist) cycles lim ∧ 128 ≤ lim ∧
        (∀ s ∈ hist, ∀ c : ℕ, s.cycle = .fin (c : ℝ) → c + 1 ≤ lim) ∧
        ∀ pre s post, ss = pre ++ s :: post → ∀ c : ℕ, s.cycle = .fin (c : ℝ) → (∀ N, cycles = some N → c < N) ∧
          (cycles = none → c < 128 ∨ ∃ s' ∈ hist ++ pre, ∃ c' : ℕ, s'.cycle = .fin (c' : ℝ) ∧ c ≤ c' + 1))) →
      ∃ w', w.appendAll ss = (w', none) := by
  induction ss with
  | nil => exact fun _ _ _ _ _ _ _ _ => ⟨_, rfl⟩
  | cons s ss ih =>
    intro w hist hg hr hpos ht hd hc hT hC
    obtain ⟨c, hcs⟩ := hc s (by simp)
    have hds := hd s (by simp)
    have T : ∃ e1, appendAt s.time s.state s.output w.group w.position w.perTimestep .timestep = (e1, none) ∧
        (w.perTimestep = .none ∨ (Holds e1 .timestep w.perTimestep p (fun i => (hist ++ [s])[i]?) steps (hist ++ [s]).length ∧
          ∀ N, steps = some N → (hist ++ [s]).length + ss.length ≤ N)) := by
      rcases hT with hT | ⟨hT, hN⟩
      · exact ⟨w.group, by rw [hT]; rfl, .inl hT⟩
      · by_cases hw : w.perTimestep = .none
        · exact ⟨w.group, by rw [hw]; rfl, .inl hw⟩
        · have hu : Usable steps hist.length hist.length := by
            cases hst : steps with
            | none => exact .inr ⟨rfl, le_refl _⟩
            | some N =>
              have := hN N hst
              simp only [List.length_cons] at this
              exact .inl ⟨N, rfl, by omega⟩
          obtain ⟨g', a1, a2⟩ := hT.timestep hw hds hu
          rw [recordAt_list] at a2
          refine ⟨_, by rw [hpos]; exact a1, .inr ⟨?_, ?_⟩⟩
          · simpa using a2
          · intro N hN'
            have := hN N hN'
            simp only [List.length_cons, List.length_append, List.length_nil] at this ⊢
            omega
    obtain ⟨e1, t1, t2⟩ := T
    have hget : ∀ wh', wh' ≠ Where.timestep → e1.get wh' = w.group.get wh' := by
      intro wh' hne
      have := appendAt_other (time := s.time) (state := s.state) (output := s.output) (e := w.group) (i := w.position)
        (what := w.perTimestep) hne
      rw [t1] at this
      exact this
    have C : ∃ e2, appendAt s.time s.state s.output e1 c w.perCycle .cycle = (e2, none) ∧
        (w.perCycle = .none ∨ (∃ lim, Holds e2 .cycle w.perCycle p (fun c => firstOfCycle c (hist ++ [s])) cycles lim ∧ 128 ≤ lim ∧
        (∀ s' ∈ hist ++ [s], ∀ c : ℕ, s'.cycle = .fin (c : ℝ) → c + 1 ≤ lim) ∧
        ∀ pre s' post, ss = pre ++ s' :: post → ∀ c : ℕ, s'.cycle = .fin (c : ℝ) → (∀ N, cycles = some N → c < N) ∧
          (cycles = none → c < 128 ∨ ∃ s'' ∈ (hist ++ [s]) ++ pre, ∃ c' : ℕ, s''.cycle = .fin (c' : ℝ) ∧ c ≤ c' + 1))) := by
      rcases hC with hC | ⟨lim, hC, hlim, hold, hfit⟩
      · exact ⟨e1, by rw [hC]; rfl, .inl hC⟩
      · by_cases hw : w.perCycle = .none
        · exact ⟨e1, by rw [hw]; rfl, .inl hw⟩
        · have hC1 : Holds e1 .cycle w.perCycle p (fun c => firstOfCycle c hist) cycles lim := by
            obtain ⟨g, b1, b2⟩ := hC
            exact ⟨g, by rw [hget _ (by decide)]; exact b1, b2⟩
          have hnan : ∀ i s', firstOfCycle i hist = some s' → s'.time ≠ .nan := by
            intro i s' hs
            exact ht s' (List.mem_append_left _ (List.mem_of_find?_eq_some hs))
          have hseen : (firstOfCycle c hist).isSome → c + 1 ≤ lim := by
            intro hs
            obtain ⟨s', hs'⟩ := Option.isSome_iff_exists.1 hs
            have := List.find?_some hs'
            exact hold s' (List.mem_of_find?_eq_some hs') c (by simpa using this)
          have hu : Usable cycles lim c := by
            have := hfit [] s ss rfl c hcs
            cases hcy : cycles with
            | some N => exact .inl ⟨N, rfl, this.1 N hcy⟩
            | none =>
              refine .inr ⟨rfl, ?_⟩
              rcases this.2 hcy with h | ⟨s', hs', c', hc', hle⟩
              · omega
              · have := hold s' (by simpa using hs') c' hc'
                omega
          obtain ⟨e2, a1, a2⟩ := hC1.cycle hw hnan hseen hds hu
          rw [← firstOfCycle_append hist s c hcs] at a2
          refine ⟨e2, a1, .inr ⟨_, a2, by omega, ?_, ?_⟩⟩
          · intro s' hs' c' hc'
            rcases List.mem_append.1 hs' with h | h
            · have := hold s' h c' hc'
              omega
            · obtain rfl : s' = s := by simpa using h
              rw [hcs] at hc'
              have : c = c' := by
                have := Num.fin.inj hc'
                exact_mod_cast this
              omega
          · intro pre s' post e c' hc'
            have := hfit (s :: pre) s' post (by rw [e]; rfl) c' hc'
            refine ⟨this.1, fun hn => ?_⟩
            simpa using this.2 hn
    obtain ⟨e2, c1, c2⟩ := C
    have hap : w.append s.time s.cycle s.state s.output = ({ w.setGroup e2 with position := w.position + 1 }, none) := by
      unfold append
      rw [hr, hcs, toInt_nat]
      dsimp only [Bool.not_true]
      rw [if_neg (by decide), t1]
      dsimp only
      rw [c1]
    unfold appendAll
    rw [hap]
    have hgrp : ({ w.setGroup e2 with position := w.position + 1 } : Writer).group = e2 := group_setGroup hg e2
    refine ih (hist := hist ++ [s]) (hasGroup_setGroup hg e2) hr (by simp [hpos]) (by simpa using ht) (fun s' h => hd s' (by simp [h]))
      (fun s' h => hc s' (by simp [h])) ?_ ?_
    · rw [hgrp]
      rcases t2 with t2 | ⟨⟨g, b1, b2⟩, b3⟩
      · exact .inl t2
      · refine .inr ⟨⟨g, ?_, b2⟩, b3⟩
        have := appendAt_other (time := s.time) (state := s.state) (output := s.output) (e := e1) (i := (c : Int))
          (what := w.perCycle) (wh := .cycle) (wh' := .timestep) (by decide)
        rw [c1] at this
        exact this.trans b1
    · rw [hgrp]
      exact c2

end Writer

/-- C68.  A writer is opened and prepared.  Then appending any number of steps of the announced dimensions succeeds, as long as they fit
declared sizes, and, without a declared number of cycles, no cycle number is 128 or more and more than one above all earlier ones.  The
property asks for any cycle number. -/
theorem C68_appends_succeed_partial (chunkOf : List Nat → Nat) (hchunk : ∀ l, 1 ≤ chunkOf l) (w0 w : Writer) (info : EstimatorInfo)
    (g : Gaussian) (hg : info.state = .ok g) (hgp : g.Proper) (steps cycles : Option Nat)
    (hp : w0.enter.prepare chunkOf info steps cycles = (w, none)) (ss : List Step) (hd : ∀ s ∈ ss, s.Matches g info.nOutputs)
    (ht : ∀ s ∈ ss, s.time ≠ .nan) (hc : ∀ s ∈ ss, ∃ c : ℕ, s.cycle = .fin (c : ℝ))
    (hsteps : w0.perTimestep ≠ .none → ∀ N, steps = some N → ss.length ≤ N) (hcycles : w0.perCycle ≠ .none → CyclesFit cycles ss) :
    ∃ w', w.appendAll ss = (w', none) := by
  obtain ⟨state, h⟩ := prepare_ok (hasGroup_enter w0) hp
  obtain rfl : state = g := Except.ok.inj (h.hstate.symm.trans hg)
  have hsz : w0.enter.resizable = true ∨ (steps.isSome ∧ cycles.isSome) := h.sizes
  refine appendAll_succeeds (p := proto state info.nOutputs) (steps := steps) (cycles := cycles) ss (hist := []) h.hasGroup h.ready
    (by rw [h.position]; rfl) ht (fun s hs => ?_) hc ?_ ?_
  · exact (hd s hs).sameDims hgp
  · by_cases hw : w0.perTimestep = .none
    · exact .inl (by rw [h.perTimestep]; exact hw)
    · refine .inr ⟨?_, fun N hN => by simpa using hsteps hw N hN⟩
      rw [h.perTimestep]
      exact ⟨_, h.timestep hw, stores_create, (room_create hchunk (hsz.imp_right And.left)).mono (Nat.zero_le _)⟩
  · by_cases hw : w0.perCycle = .none
    · exact .inl (by rw [h.perCycle]; exact hw)
    · refine .inr ⟨128, ?_, le_refl _, fun s hs => by simp at hs, ?_⟩
      · rw [h.perCycle]
        exact ⟨_, h.cycle hw, stores_create, room_create hchunk (hsz.imp_right And.right)⟩
      · intro pre s post e c hcs
        have hfit := hcycles hw
        cases cycles with
        | none =>
          refine ⟨fun N hN => (by cases hN), fun _ => ?_⟩
          simpa using hfit pre s post e c hcs
        | some M =>
          refine ⟨fun N hN => ?_, fun hN => (by cases hN)⟩
          cases hN
          exact hfit s (by rw [e]; simp) c hcs

/-- C68 fails for other cycle numbers: without a declared number of cycles, a first step whose cycle number is one chunk or more beyond the
initial 128 rows raises an IndexError. -/
theorem C68_far_cycle_raises (chunkOf : List Nat → Nat) (hchunk : ∀ l, 1 ≤ chunkOf l) (w0 w : Writer) (info : EstimatorInfo)
    (g : Gaussian) (hg : info.state = .ok g) (hgp : g.Proper) (steps : Option Nat) (hs0 : steps ≠ some 0)
    (hp : w0.enter.prepare chunkOf info steps none = (w, none)) (hm : w0.perCycle ≠ .none)
    (s : Step) (hd : s.Matches g info.nOutputs) (c : ℕ) (hc : s.cycle = .fin (c : ℝ)) (hfar : 128 + chunkOf [128] ≤ c) :
    (w.append s.time s.cycle s.state s.output).2 = some .indexError := by
  obtain ⟨state, h⟩ := prepare_ok (hasGroup_enter w0) hp
  obtain rfl : state = g := Except.ok.inj (h.hstate.symm.trans hg)
  have hm' : w0.enter.perCycle ≠ .none := hm
  have hgC := h.cycle hm'
  have hres : w0.enter.resizable = true := by
    rcases h.sizes with hs | ⟨_, hs⟩
    · exact hs
    · cases hs
  have hmw : w.perCycle ≠ .none := by rw [h.perCycle]; exact hm
  obtain ⟨rest, hrest⟩ : ∃ rest, entries w0.enter.perCycle (proto state info.nOutputs) = ("time".toList, .num (.fin 0)) :: rest := by
    cases hq : w0.enter.perCycle <;> first | exact ⟨_, rfl⟩ | exact absurd hq hm'
  obtain ⟨rest', hrest'⟩ : ∃ rest', entries w.perCycle s = ("time".toList, .num s.time) :: rest' := by
    cases hq : w.perCycle <;> first | exact ⟨_, rfl⟩ | exact absurd hq hmw
  have hT : ∃ e1, appendAt s.time s.state s.output w.group w.position w.perTimestep .timestep = (e1, none) := by
    by_cases hw : w.perTimestep = .none
    · exact ⟨w.group, by rw [hw]; rfl⟩
    · have hH : Holds w.group .timestep w.perTimestep (proto state info.nOutputs) (fun _ => none) steps 0 := by
        have hw' := hw
        rw [h.perTimestep] at hw' ⊢
        exact ⟨_, h.timestep hw', stores_create, (room_create hchunk (h.sizes.imp_right And.left)).mono (Nat.zero_le _)⟩
      obtain ⟨g', a1, -⟩ := hH.timestep (s := s) (i := 0) hw (hd.sameDims hgp) (by
        cases steps with
        | none => exact .inr ⟨rfl, le_refl _⟩
        | some N => exact .inl ⟨N, rfl, by have : N ≠ 0 := fun e => hs0 (by rw [e]); omega⟩)
      exact ⟨_, by rw [h.position]; exact a1⟩
  obtain ⟨e1, hT⟩ := hT
  have hgC1 : e1.get .cycle = w.group.get .cycle := by
    have := appendAt_other (time := s.time) (state := s.state) (output := s.output) (e := w.group) (i := w.position)
      (what := w.perTimestep) (wh := .timestep) (wh' := .cycle) (by decide)
    rw [hT] at this
    exact this
  rw [← hgC1] at hgC
  have hC : (appendAt s.time s.state s.output e1 c w.perCycle .cycle).2 = some .indexError := by
    have hd0 : lookupKey "time".toList (create chunkOf true none (entries w0.enter.perCycle (proto state info.nOutputs))) =
        some ⟨[], List.replicate 128 none, none, chunkOf [128]⟩ := by
      rw [hrest]
      rfl
    rw [hres] at hgC
    generalize create chunkOf true none (entries w0.enter.perCycle (proto state info.nOutputs)) = g at hgC hd0
    unfold appendAt
    rw [if_neg hmw, hgC]
    dsimp only
    rw [hd0]
    dsimp only
    rw [List.length_replicate, if_neg (by omega)]
    dsimp only
    rw [entries_ok hmw, hrest']
    dsimp only
    unfold insertAll insert1
    rw [hd0]
    dsimp only
    rw [List.length_replicate, if_pos (by omega), grow_free rfl]
    dsimp only
    have hpos : ∀ d : Dataset, d.rows.length ≤ c → ∀ v, d.write c v = .error .indexError := by
      intro d hd v
      unfold Dataset.write
      rw [Dataset.pos_ofNat_out hd]
      rfl
    rw [hpos _ (by simp; omega)]
  unfold append
  rw [h.ready, hc, toInt_nat]
  dsimp only [Bool.not_true]
  rw [if_neg (by decide), hT]
  dsimp only
  generalize hx : appendAt s.time s.state s.output e1 c w.perCycle .cycle = x at hC
  obtain ⟨e, err⟩ := x
  dsimp only at hC
  subst hC
  rfl

/-! ## Cases -/

namespace Demo

/-- A Gaussian in one dimension. -/
def gauss1 (m v : ℝ) : Gaussian := ⟨⟨1, fun _ => m⟩, ⟨1, 1, fun _ _ => v⟩⟩

theorem gauss1_proper (m v : ℝ) : (gauss1 m v).Proper := ⟨le_refl _, rfl, rfl⟩

/-- An estimator with one state variable and one output. -/
noncomputable def info1 : EstimatorInfo := ⟨.ok ["r0.base_values".toList], ["terminal_voltage".toList], .ok (gauss1 3 4), 1⟩

/-- The default writer, on an empty file. -/
def writer1 : Writer := ⟨"state_estimates".toList, true, .mean, .full, false, 0, []⟩

/-- A step at time `t` in cycle `c`. -/
noncomputable def step1 (t : ℝ) (c : ℕ) : Step := ⟨.fin t, .fin c, gauss1 t 4, gauss1 (t + 1) 9⟩

theorem step1_matches (t : ℝ) (c : ℕ) : (step1 t c).Matches (gauss1 3 4) 1 :=
  ⟨gauss1_proper _ _, gauss1_proper _ _, rfl, rfl⟩

theorem writer1_prepares : ∃ w, writer1.enter.prepare (fun _ => 128) info1 none none = (w, none) := ⟨_, rfl⟩

end Demo

open Demo in
/-- A step without a time between two others is accepted; only the one before it is read. -/
example : ∃ w w', ({ writer1 with perCycle := .none } : Writer).enter.prepare (fun _ => 128) info1 (some 3) (some 1) = (w, none) ∧
    w.appendAll ([step1 0 0] ++ { step1 1 0 with time := .nan } :: [step1 2 0]) = (w', none) ∧
    w'.exit.group.read .timestep = .ok [(.fin 0, .delta ⟨⟨1, fun _ => 0⟩⟩, .delta ⟨⟨1, fun _ => 0 + 1⟩⟩)] := by
  obtain ⟨w, hw, w', ha⟩ : ∃ w, ({ writer1 with perCycle := .none } : Writer).enter.prepare (fun _ => 128) info1 (some 3) (some 1) = (w, none) ∧
      ∃ w', w.appendAll ([step1 0 0] ++ { step1 1 0 with time := .nan } :: [step1 2 0]) = (w', none) := by
    refine ⟨_, rfl, ?_⟩
    have h0 : (Num.fin ((0 : ℕ) : ℝ)).toInt = .ok 0 := toInt_nat 0
    simp only [List.cons_append, List.nil_append, appendAll, append, step1, h0]
    exact ⟨_, rfl⟩
  refine ⟨w, w', hw, ha, ?_⟩
  rw [C66_reading_ends_at_nan (fun _ => 128) { writer1 with perCycle := .none } w w' info1 (some 3) (some 1) hw [step1 0 0] { step1 1 0 with time := .nan }
    [step1 2 0] ha (by intro s hs; rw [List.mem_singleton.1 hs]; exact nofun) rfl ?_ nofun]
  · rfl
  · intro s hs
    simp only [List.cons_append, List.nil_append, List.mem_cons, List.not_mem_nil, or_false] at hs
    rcases hs with rfl | rfl | rfl <;> exact ⟨gauss1_proper _ _, gauss1_proper _ _⟩

open Demo in
/-- Three steps of the cycles 0, 0 and 1 are accepted and read back, per timestep and per cycle. -/
example : ∃ w w', writer1.enter.prepare (fun _ => 128) info1 none none = (w, none) ∧
    w.appendAll [step1 0 0, step1 1 0, step1 2 1] = (w', none) ∧
    w'.exit.group.read .timestep = .ok [(.fin 0, .delta ⟨⟨1, fun _ => 0⟩⟩, .delta ⟨⟨1, fun _ => 0 + 1⟩⟩),
      (.fin 1, .delta ⟨⟨1, fun _ => 1⟩⟩, .delta ⟨⟨1, fun _ => 1 + 1⟩⟩), (.fin 2, .delta ⟨⟨1, fun _ => 2⟩⟩, .delta ⟨⟨1, fun _ => 2 + 1⟩⟩)] ∧
    w'.exit.group.read .cycle = .ok [(.fin 0, .gaussian (gauss1 0 4), .gaussian (gauss1 (0 + 1) 9)),
      (.fin 2, .gaussian (gauss1 2 4), .gaussian (gauss1 (2 + 1) 9))] := by
  obtain ⟨w, hw⟩ := writer1_prepares
  have hd : ∀ s ∈ [step1 0 0, step1 1 0, step1 2 1], s.Matches (gauss1 3 4) 1 := by
    intro s hs
    simp only [List.mem_cons, List.not_mem_nil, or_false] at hs
    rcases hs with rfl | rfl | rfl <;> exact step1_matches _ _
  have ht : ∀ s ∈ [step1 0 0, step1 1 0, step1 2 1], s.time ≠ .nan := by
    intro s hs
    simp only [List.mem_cons, List.not_mem_nil, or_false] at hs
    rcases hs with rfl | rfl | rfl <;> exact nofun
  have hc : ∀ s ∈ [step1 0 0, step1 1 0, step1 2 1], ∃ c : ℕ, s.cycle = .fin (c : ℝ) ∧ c < 128 := by
    intro s hs
    simp only [List.mem_cons, List.not_mem_nil, or_false] at hs
    rcases hs with rfl | rfl | rfl
    exacts [⟨0, rfl, by decide⟩, ⟨0, rfl, by decide⟩, ⟨1, rfl, by decide⟩]
  have hgr : Gradual [step1 0 0, step1 1 0, step1 2 1] := by
    intro pre s post e c hs
    obtain ⟨c', hc', h⟩ := hc s (by rw [e]; simp)
    rw [hs] at hc'
    have : c = c' := by exact_mod_cast Num.fin.inj hc'
    exact .inl (by omega)
  obtain ⟨w', hw'⟩ := C68_appends_succeed_partial (fun _ => 128) (fun _ => by omega) writer1 w info1 (gauss1 3 4) rfl (gauss1_proper _ _)
    none none hw _ hd ht (fun s hs => let ⟨c, h, _⟩ := hc s hs; ⟨c, h⟩) (fun _ N h => by cases h) (fun _ => hgr)
  refine ⟨w, w', hw, hw', ?_, ?_⟩
  · exact C66_timesteps_read_back _ writer1 w w' info1 none none hw _ hw' ht (fun s hs => ⟨(hd s hs).1, (hd s hs).2.1⟩) (by decide)
  · refine C67_read_back_partial _ writer1 w w' info1 none none hw _ hw' ht (fun s hs => ⟨(hd s hs).1, (hd s hs).2.1⟩)
      (fun s hs => let ⟨c, h, _⟩ := hc s hs; ⟨c, h⟩) (by decide) [step1 0 0, step1 2 1] ?_ ?_
    · intro c h
      match c, h with
      | 0, _ => simp [firstOfCycle, step1]
      | 1, _ => simp [firstOfCycle, step1]
    · simp [firstOfCycle, step1]

open Demo in
/-- Two steps of the cycles 1 and 2 are accepted, and nothing is read back of them per cycle. -/
example : ∃ w w', writer1.enter.prepare (fun _ => 128) info1 none none = (w, none) ∧
    w.appendAll [step1 0 1, step1 1 2] = (w', none) ∧ w'.exit.group.read .cycle = .ok [] := by
  obtain ⟨w, hw⟩ := writer1_prepares
  have hd : ∀ s ∈ [step1 0 1, step1 1 2], s.Matches (gauss1 3 4) 1 := by
    intro s hs
    simp only [List.mem_cons, List.not_mem_nil, or_false] at hs
    rcases hs with rfl | rfl <;> exact step1_matches _ _
  have ht : ∀ s ∈ [step1 0 1, step1 1 2], s.time ≠ .nan := by
    intro s hs
    simp only [List.mem_cons, List.not_mem_nil, or_false] at hs
    rcases hs with rfl | rfl <;> exact nofun
  have hc : ∀ s ∈ [step1 0 1, step1 1 2], ∃ c : ℕ, s.cycle = .fin (c : ℝ) ∧ 1 ≤ c ∧ c < 128 := by
    intro s hs
    simp only [List.mem_cons, List.not_mem_nil, or_false] at hs
    rcases hs with rfl | rfl
    exacts [⟨1, rfl, by decide, by decide⟩, ⟨2, rfl, by decide, by decide⟩]
  have hgr : Gradual [step1 0 1, step1 1 2] := by
    intro pre s post e c hs
    obtain ⟨c', hc', h⟩ := hc s (by rw [e]; simp)
    rw [hs] at hc'
    have : c = c' := by exact_mod_cast Num.fin.inj hc'
    exact .inl (by omega)
  obtain ⟨w', hw'⟩ := C68_appends_succeed_partial (fun _ => 128) (fun _ => by omega) writer1 w info1 (gauss1 3 4) rfl (gauss1_proper _ _)
    none none hw _ hd ht (fun s hs => let ⟨c, h, _⟩ := hc s hs; ⟨c, h⟩) (fun _ N h => by cases h) (fun _ => hgr)
  exact ⟨w, w', hw, hw', C67_nothing_read_without_cycle_zero _ writer1 w w' info1 none none hw _ hw' ht
    (fun s hs => ⟨(hd s hs).1, (hd s hs).2.1⟩) (fun s hs => let ⟨c, h, h1, _⟩ := hc s hs; ⟨c, h, h1⟩) (by decide)⟩

open Demo in
/-- With 128 rows per chunk, a first step of cycle 256 raises. -/
example : ∃ w, writer1.enter.prepare (fun _ => 128) info1 none none = (w, none) ∧
    (w.append (step1 0 256).time (step1 0 256).cycle (step1 0 256).state (step1 0 256).output).2 = some .indexError := by
  obtain ⟨w, hw⟩ := writer1_prepares
  exact ⟨w, hw, C68_far_cycle_raises (fun _ => 128) (fun _ => by omega) writer1 w info1 (gauss1 3 4) rfl (gauss1_proper _ _) none
    (by simp) hw (by decide) (step1 0 256) (step1_matches _ _) 256 rfl (by omega)⟩

open Demo in
/-- Steps of the cycle numbers 1/2 and 3/2 are appended like steps of the cycles 0 and 1; a step without a cycle number is refused. -/
example (w : Writer) : w.appendAll [{ step1 0 0 with cycle := .fin (1 / 2) }, { step1 1 1 with cycle := .fin (3 / 2) }] = w.appendAll [step1 0 0, step1 1 1] ∧
    ∃ err, w.append (.fin 0) .nan (gauss1 0 4) (gauss1 0 9) = (w, some err) := by
  refine ⟨?_, C67_no_cycle_refused w _ _ _ _ nofun⟩
  have h := C67_fractions_cut_off w [{ step1 0 0 with cycle := .fin (1 / 2) }, { step1 1 1 with cycle := .fin (3 / 2) }]
    (by
      intro s hs
      simp only [List.mem_cons, List.not_mem_nil, or_false] at hs
      rcases hs with rfl | rfl
      · exact ⟨1 / 2, rfl, by norm_num⟩
      · exact ⟨3 / 2, rfl, by norm_num⟩)
    (fun s => match s.cycle with | .fin x => ⌊x⌋₊ | _ => 0)
    (by
      intro s hs x hx
      simp only [hx]
      have : 0 ≤ x := by
        simp only [List.mem_cons, List.not_mem_nil, or_false] at hs
        rcases hs with rfl | rfl <;> cases hx <;> norm_num
      exact ⟨Nat.floor_le this, Nat.lt_floor_add_one x⟩)
  rw [h]
  have e1 : ⌊(1 / 2 : ℝ)⌋₊ = 0 := Nat.floor_eq_zero.2 (by norm_num)
  have e2 : ⌊(3 / 2 : ℝ)⌋₊ = 1 := by rw [Nat.floor_eq_iff (by norm_num)]; norm_num
  simp only [List.map_cons, List.map_nil, step1, e1, e2, Nat.cast_zero, Nat.cast_one]

end Verif
