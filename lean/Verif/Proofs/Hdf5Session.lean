import Verif.Proofs.Hdf5Log
/-!
# A session of a writer: open, prepare, append
-/

namespace Verif
namespace Writer

/-- The group a writer refers to is there. -/
def HasGroup (w : Writer) : Prop := (lookupKey w.storageKey w.root).isSome = true

theorem hasGroup_enter (w : Writer) : w.enter.HasGroup := by
  unfold HasGroup enter
  dsimp only
  split_ifs with h
  · exact h
  · have : ∀ l : List (Name × Estimates), lookupKey w.storageKey (l ++ [(w.storageKey, .empty)]) ≠ none := by
      intro l
      rw [Ne, lookupKey_none]
      simp
    exact Option.ne_none_iff_isSome.1 (this _)

theorem hasGroup_setGroup {w : Writer} (h : w.HasGroup) (e : Estimates) : (w.setGroup e).HasGroup := by
  obtain ⟨a, ha⟩ := Option.isSome_iff_exists.1 h
  unfold HasGroup setGroup
  dsimp only
  rw [lookupKey_setKey_self ha]
  rfl

theorem group_setGroup {w : Writer} (h : w.HasGroup) (e : Estimates) : (w.setGroup e).group = e := by
  obtain ⟨a, ha⟩ := Option.isSome_iff_exists.1 h
  unfold group setGroup
  dsimp only
  rw [lookupKey_setKey_self ha]
  rfl

/-- The dimensions announced to `prepare`. -/
noncomputable def proto (state : Gaussian) (nOut : Nat) : Step :=
  ⟨.fin 0, .fin 0, state, ⟨.zeros nOut, .zeros nOut nOut⟩⟩

theorem prepareAt_ok {chunkOf : List Nat → Nat} {rs : Bool} {state : Gaussian} {nOut : Nat} {e e' : Estimates} {what : OutputType}
    {wh : Where} {ex : Option Nat}
    (h : prepareAt chunkOf rs state ⟨.zeros nOut, .zeros nOut nOut⟩ e what wh ex = (e', none)) :
    (what = .none ∧ e' = e) ∨
      (what ≠ .none ∧ e.get wh = none ∧ e' = e.set wh (create chunkOf rs ex (entries what (proto state nOut)))) := by
  unfold prepareAt at h
  by_cases hw : what = .none
  · rw [if_pos hw] at h
    exact .inl ⟨hw, (Prod.mk.inj h).1.symm⟩
  · have this : toInsert (.fin 0) state ⟨.zeros nOut, .zeros nOut nOut⟩ what = .ok (entries what (proto state nOut)) :=
      entries_ok hw (proto state nOut)
    rw [if_neg hw, this] at h
    dsimp only at h
    split_ifs at h with hs
    · cases (Prod.mk.inj h).2
    · exact .inr ⟨hw, by simpa using hs, (Prod.mk.inj h).1.symm⟩

/-- What a successful `prepare` leaves behind. -/
structure Prepared (chunkOf : List Nat → Nat) (w w' : Writer) (state : Gaussian) (info : EstimatorInfo) (steps cycles : Option Nat) :
    Prop where
  hstate : info.state = .ok state
  storageKey : w'.storageKey = w.storageKey
  resizable : w'.resizable = w.resizable
  perTimestep : w'.perTimestep = w.perTimestep
  perCycle : w'.perCycle = w.perCycle
  ready : w'.ready = true
  position : w'.position = w.position
  sizes : w.resizable = true ∨ (steps.isSome ∧ cycles.isSome)
  hasGroup : w'.HasGroup
  settings : w'.group.settings = some (w.perTimestep, w.perCycle)
  distType : w'.group.distType = some "MultivariateGaussian".toList
  timestep : w.perTimestep ≠ .none →
    w'.group.get .timestep = some (create chunkOf w.resizable steps (entries w.perTimestep (proto state info.nOutputs)))
  cycle : w.perCycle ≠ .none →
    w'.group.get .cycle = some (create chunkOf w.resizable cycles (entries w.perCycle (proto state info.nOutputs)))

theorem prepare_ok {chunkOf : List Nat → Nat} {w w' : Writer} {info : EstimatorInfo} {steps cycles : Option Nat}
    (hg : w.HasGroup) (h : w.prepare chunkOf info steps cycles = (w', none)) :
    ∃ state, Prepared chunkOf w w' state info steps cycles := by
  unfold prepare at h
  by_cases hr : (!w.ready) = true
  · rw [if_pos hr] at h
    exact absurd (Prod.mk.inj h).2 (by simp)
  rw [if_neg hr] at h
  by_cases hs : (!w.resizable && (steps.isNone || cycles.isNone)) = true
  · rw [if_pos hs] at h
    exact absurd (Prod.mk.inj h).2 (by simp)
  rw [if_neg hs] at h
  dsimp only at h
  split at h
  · exact absurd (Prod.mk.inj h).2 (by simp)
  · next ns hns =>
    split at h
    · exact absurd (Prod.mk.inj h).2 (by simp)
    · next state hstate =>
      split at h
      · exact absurd (Prod.mk.inj h).2 (by simp)
      · next e1 h1 =>
        generalize hx : prepareAt chunkOf w.resizable state _ e1 w.perCycle .cycle cycles = x at h
        obtain ⟨ex, err⟩ := x
        obtain ⟨rfl, h2⟩ := Prod.mk.inj h
        dsimp only at h2
        subst h2
        have h2' := prepareAt_ok hx
        have h1' := prepareAt_ok h1
        have hgrp := group_setGroup hg ex
        refine ⟨state, hstate, rfl, rfl, rfl, rfl, by simpa [setGroup] using hr, rfl, ?_, hasGroup_setGroup hg _, ?_, ?_, ?_, ?_⟩
        · cases hrs : w.resizable <;> cases steps <;> cases cycles <;> simp_all
        · rw [hgrp]
          rcases h2' with ⟨_, e2⟩ | ⟨_, _, e2⟩ <;> rcases h1' with ⟨_, e1'⟩ | ⟨_, _, e1'⟩ <;> rw [e2, e1'] <;>
            simp only [set_settings]
        · rw [hgrp]
          rcases h2' with ⟨_, e2⟩ | ⟨_, _, e2⟩ <;> rcases h1' with ⟨_, e1'⟩ | ⟨_, _, e1'⟩ <;> rw [e2, e1'] <;>
            simp only [set_distType]
        · intro hw
          rw [hgrp]
          rcases h1' with ⟨hn, _⟩ | ⟨_, _, e1'⟩
          · exact absurd hn hw
          · rcases h2' with ⟨_, e2⟩ | ⟨_, _, e2⟩
            · rw [e2, e1', get_set_self]
            · rw [e2, e1', get_set_ne _ _ (by decide), get_set_self]
        · intro hw
          rw [hgrp]
          rcases h2' with ⟨hn, _⟩ | ⟨_, _, e2⟩
          · exact absurd hn hw
          · rw [e2, get_set_self]

/-! ## Appending -/

/-- What one successful `append_step` does. -/
structure Appended (w w' : Writer) (s : Step) (c : Int) (e : Estimates) : Prop where
  hc : s.cycle.toInt = .ok c
  timestep : appendAt s.time s.state s.output w.group w.position w.perTimestep .timestep = (e, none)
  cycle : appendAt s.time s.state s.output e c w.perCycle .cycle = (w'.group, none)
  storageKey : w'.storageKey = w.storageKey
  resizable : w'.resizable = w.resizable
  perTimestep : w'.perTimestep = w.perTimestep
  perCycle : w'.perCycle = w.perCycle
  ready : w'.ready = true
  position : w'.position = w.position + 1
  hasGroup : w'.HasGroup

theorem append_ok {w w' : Writer} {s : Step} (hg : w.HasGroup) (h : w.append s.time s.cycle s.state s.output = (w', none)) :
    ∃ c e, Appended w w' s c e := by
  unfold append at h
  by_cases hr : (!w.ready) = true
  · rw [if_pos hr] at h
    exact absurd (Prod.mk.inj h).2 (by simp)
  rw [if_neg hr] at h
  split at h
  · exact absurd (Prod.mk.inj h).2 (by simp)
  · next c hc =>
    split at h
    · exact absurd (Prod.mk.inj h).2 (by simp)
    · next e1 h1 =>
      split at h
      · exact absurd (Prod.mk.inj h).2 (by simp)
      · next e2 h2 =>
        obtain ⟨rfl, -⟩ := Prod.mk.inj h
        have e : ({ w.setGroup e2 with position := w.position + 1 } : Writer).group = e2 := group_setGroup hg e2
        exact ⟨c, e1, hc, h1, by rw [e]; exact h2, rfl, rfl, rfl, rfl, by simpa [setGroup] using hr, rfl, hasGroup_setGroup hg e2⟩

theorem appendAt_other {time : Num} {state output : Gaussian} {e : Estimates} {i : Int} {what : OutputType} {wh wh' : Where} (h : wh' ≠ wh) :
    (appendAt time state output e i what wh).1.get wh' = e.get wh' := by
  rcases appendAt_only (time := time) (state := state) (output := output) (e := e) (i := i) (what := what) (wh := wh) with
    h1 | ⟨g, g', -, h1, -⟩ <;> rw [h1]
  exact get_set_ne _ _ h

theorem appendAt_settings {time : Num} {state output : Gaussian} {e : Estimates} {i : Int} {what : OutputType} {wh : Where} :
    (appendAt time state output e i what wh).1.settings = e.settings := by
  rcases appendAt_only (time := time) (state := state) (output := output) (e := e) (i := i) (what := what) (wh := wh) with
    h1 | ⟨g, g', -, h1, -⟩ <;> rw [h1]
  exact set_settings _ _ _

theorem appendAt_distType {time : Num} {state output : Gaussian} {e : Estimates} {i : Int} {what : OutputType} {wh : Where} :
    (appendAt time state output e i what wh).1.distType = e.distType := by
  rcases appendAt_only (time := time) (state := state) (output := output) (e := e) (i := i) (what := what) (wh := wh) with
    h1 | ⟨g, g', -, h1, -⟩ <;> rw [h1]
  exact set_distType _ _ _

/-- What stays the same in a session. -/
structure Same (w w' : Writer) : Prop where
  storageKey : w'.storageKey = w.storageKey
  resizable : w'.resizable = w.resizable
  perTimestep : w'.perTimestep = w.perTimestep
  perCycle : w'.perCycle = w.perCycle
  ready : w'.ready = w.ready
  hasGroup : w'.HasGroup
  settings : w'.group.settings = w.group.settings
  distType : w'.group.distType = w.group.distType

theorem Appended.same {w w' : Writer} {s : Step} {c : Int} {e : Estimates} (h : Appended w w' s c e) (hr : w.ready = true) : Same w w' := by
  have h1 := congrArg Prod.fst h.timestep
  have h2 := congrArg Prod.fst h.cycle
  dsimp only at h1 h2
  refine ⟨h.storageKey, h.resizable, h.perTimestep, h.perCycle, by rw [h.ready, hr], h.hasGroup, ?_, ?_⟩
  · rw [← h2, appendAt_settings, ← h1, appendAt_settings]
  · rw [← h2, appendAt_distType, ← h1, appendAt_distType]

theorem recordAt_list (hist : List Step) (s : Step) :
    recordAt (fun i => hist[i]?) hist.length s = fun i => (hist ++ [s])[i]? := by
  funext i
  simp only [recordAt, List.getElem?_append]
  split_ifs with h1 h2 h2
  · omega
  · simp [h1]
  · rfl
  · rw [List.getElem?_eq_none (by omega), List.getElem?_eq_none (by simp; omega)]

theorem appendAll_timestep {p : Step} (ss : List Step) :
    ∀ {w w' : Writer} {hist : List Step}, w.HasGroup → w.ready = true → w.perTimestep ≠ .none → w.position = hist.length →
      Logs w.group .timestep w.perTimestep p (fun i => hist[i]?) → w.appendAll ss = (w', none) →
      Same w w' ∧ Logs w'.group .timestep w.perTimestep p (fun i => (hist ++ ss)[i]?) := by
  induction ss with
  | nil =>
    intro w w' hist hg hr hw hpos hl h
    obtain ⟨rfl, -⟩ := Prod.mk.inj h
    exact ⟨⟨rfl, rfl, rfl, rfl, rfl, hg, rfl, rfl⟩, by simpa using hl⟩
  | cons s ss ih =>
    intro w w' hist hg hr hw hpos hl h
    unfold appendAll at h
    split at h
    · exact absurd (Prod.mk.inj h).2 (by simp)
    · next w1 h1 =>
      obtain ⟨c, e, ha⟩ := append_ok hg h1
      have hs := ha.same hr
      have ht := ha.timestep
      rw [hpos] at ht
      have l1 := appendAt_timestep hw hl ht
      rw [recordAt_list] at l1
      have l2 : Logs w1.group .timestep w1.perTimestep p (fun i => (hist ++ [s])[i]?) := by
        obtain ⟨g, hgt, hst⟩ := l1
        rw [ha.perTimestep]
        refine ⟨g, ?_, hst⟩
        have := congrArg Prod.fst ha.cycle
        dsimp only at this
        rw [← this, appendAt_other (by decide), hgt]
      obtain ⟨i1, i2⟩ := ih (hist := hist ++ [s]) ha.hasGroup ha.ready (by rw [ha.perTimestep]; exact hw)
        (by rw [ha.position, hpos]; simp) l2 h
      refine ⟨⟨i1.storageKey.trans hs.storageKey, i1.resizable.trans hs.resizable, i1.perTimestep.trans hs.perTimestep,
        i1.perCycle.trans hs.perCycle, i1.ready.trans hs.ready, i1.hasGroup, i1.settings.trans hs.settings,
        i1.distType.trans hs.distType⟩, ?_⟩
      rw [ha.perTimestep] at i2
      simpa using i2

theorem appendAll_same (ss : List Step) :
    ∀ {w w' : Writer}, w.HasGroup → w.ready = true → w.appendAll ss = (w', none) → Same w w' := by
  induction ss with
  | nil =>
    intro w w' hg hr h
    obtain ⟨rfl, -⟩ := Prod.mk.inj h
    exact ⟨rfl, rfl, rfl, rfl, rfl, hg, rfl, rfl⟩
  | cons s ss ih =>
    intro w w' hg hr h
    unfold appendAll at h
    split at h
    · exact absurd (Prod.mk.inj h).2 (by simp)
    · next w1 h1 =>
      obtain ⟨c, e, ha⟩ := append_ok hg h1
      have hs := ha.same hr
      have i1 := ih ha.hasGroup ha.ready h
      exact ⟨i1.storageKey.trans hs.storageKey, i1.resizable.trans hs.resizable, i1.perTimestep.trans hs.perTimestep,
        i1.perCycle.trans hs.perCycle, i1.ready.trans hs.ready, i1.hasGroup, i1.settings.trans hs.settings,
        i1.distType.trans hs.distType⟩

theorem toInt_nat (c : Nat) : (Num.fin (c : ℝ)).toInt = .ok (c : Int) := by
  simp [Num.toInt]

theorem firstOfCycle_append (hist : List Step) (s : Step) (c : Nat) (hc : s.cycle = .fin (c : ℝ)) :
    (fun j => firstOfCycle j (hist ++ [s])) =
      if (firstOfCycle c hist).isSome then (fun j => firstOfCycle j hist) else recordAt (fun j => firstOfCycle j hist) c s := by
  funext j
  have key : firstOfCycle j (hist ++ [s]) = (firstOfCycle j hist).or (if j = c then some s else none) := by
    simp only [firstOfCycle, List.find?_append]
    congr 1
    by_cases h : j = c
    · subst h
      simp [List.find?, hc]
    · have : ¬ (c : ℝ) = j := by exact_mod_cast Ne.symm h
      simp [List.find?, hc, h, this]
  rw [key]
  by_cases hj : j = c
  · subst hj
    cases ha : firstOfCycle j hist with
    | some a => simp [ha]
    | none => simp [recordAt]
  · split_ifs
    · simp
    · simp [recordAt, hj]

theorem appendAll_cycle {p : Step} (ss : List Step) :
    ∀ {w w' : Writer} {hist : List Step}, w.HasGroup → w.ready = true → w.perCycle ≠ .none →
      (∀ s ∈ hist ++ ss, s.time ≠ .nan) → (∀ s ∈ ss, ∃ c : ℕ, s.cycle = .fin (c : ℝ)) →
      Logs w.group .cycle w.perCycle p (fun c => firstOfCycle c hist) → w.appendAll ss = (w', none) →
      Logs w'.group .cycle w.perCycle p (fun c => firstOfCycle c (hist ++ ss)) := by
  induction ss with
  | nil =>
    intro w w' hist hg hr hw ht hc hl h
    obtain ⟨rfl, -⟩ := Prod.mk.inj h
    simpa using hl
  | cons s ss ih =>
    intro w w' hist hg hr hw ht hc hl h
    unfold appendAll at h
    split at h
    · exact absurd (Prod.mk.inj h).2 (by simp)
    · next w1 h1 =>
      obtain ⟨c, e, ha⟩ := append_ok hg h1
      obtain ⟨cn, hcn⟩ := hc s (by simp)
      have hcc := ha.hc
      rw [hcn, toInt_nat] at hcc
      obtain rfl := Except.ok.inj hcc
      have le : Logs e .cycle w.perCycle p (fun c => firstOfCycle c hist) := by
        obtain ⟨g, hgt, hst⟩ := hl
        refine ⟨g, ?_, hst⟩
        have := congrArg Prod.fst ha.timestep
        dsimp only at this
        rw [← this, appendAt_other (by decide), hgt]
      have hnan : ∀ i s, firstOfCycle i hist = some s → s.time ≠ .nan := by
        intro i s hs
        exact ht s (List.mem_append_left _ (List.mem_of_find?_eq_some hs))
      have l1 := appendAt_cycle hw le hnan ha.cycle
      rw [← firstOfCycle_append hist s cn hcn] at l1
      have := ih (hist := hist ++ [s]) ha.hasGroup ha.ready (by rw [ha.perCycle]; exact hw)
        (by simpa using ht) (fun s' hs' => hc s' (by simp [hs'])) (by rw [ha.perCycle]; exact l1) h
      rw [ha.perCycle] at this
      simpa using this

end Writer
end Verif
