import Verif.Props.Hdf5
/-!
# The life of an HDF5 writer (C69)
-/

namespace Verif
namespace Writer

/-! ## Any append, successful or not, leaves the other rows alone -/

/-- Every dataset of `g` is still in `g'`, with the same values in all rows but row `i`. -/
def Keeps (g g' : Group) (i : Nat) : Prop :=
  ∀ k d, lookupKey k g = some d → ∃ d', lookupKey k g' = some d' ∧ ∀ j, j ≠ i → d'.val j = d.val j

theorem Keeps.refl (g : Group) (i : Nat) : Keeps g g i := fun _ d h => ⟨d, h, fun _ _ => rfl⟩

theorem Keeps.trans {g g' g'' : Group} {i : Nat} (h : Keeps g g' i) (h' : Keeps g' g'' i) : Keeps g g'' i := by
  intro k d hd
  obtain ⟨d', hd', e⟩ := h k d hd
  obtain ⟨d'', hd'', e'⟩ := h' k d' hd'
  exact ⟨d'', hd'', fun j hj => (e' j hj).trans (e j hj)⟩

theorem Keeps.set {g : Group} {i : Nat} {k : Name} {d d' : Dataset} (hd : lookupKey k g = some d)
    (h : ∀ j, j ≠ i → d'.val j = d.val j) : Keeps g (setKey k d' g) i := by
  intro k' e he
  by_cases hk : k' = k
  · subst hk
    rw [hd] at he
    obtain rfl := Option.some.inj he
    exact ⟨d', lookupKey_setKey_self hd, h⟩
  · exact ⟨e, by rw [lookupKey_setKey_ne hk, he], fun _ _ => rfl⟩

theorem insert1_keeps {g : Group} {i : Nat} {k : Name} {v : Payload} : Keeps g (insert1 g i k v).1 i := by
  unfold insert1
  split
  · exact .refl _ _
  · next d hd =>
    split
    · exact .refl _ _
    · next d1 h1 =>
      have hv : ∀ j, d1.val j = d.val j := by
        intro j
        split_ifs at h1
        · rw [Dataset.grow_ok h1, Dataset.val_append]
        · rw [Except.ok.inj h1]
      split
      · exact .set hd fun j _ => hv j
      · next d2 h2 => exact .set hd fun j hj => by rw [(write_ok h2).val, if_neg hj, hv]

theorem insertAll_keeps {i : Nat} {items : List (Name × Payload)} : ∀ {g : Group}, Keeps g (insertAll i g items).1 i := by
  induction items with
  | nil => exact .refl _ _
  | cons p items ih =>
    intro g
    obtain ⟨k, v⟩ := p
    have h1 := insert1_keeps (g := g) (i := i) (k := k) (v := v)
    unfold insertAll
    generalize insert1 g i k v = x at h1
    obtain ⟨g1, err⟩ := x
    cases err with
    | some e => exact h1
    | none => exact h1.trans ih

theorem appendAt_keeps {time : Num} {state output : Gaussian} {e : Estimates} {i : Nat} {what : OutputType} {g : Group}
    (hg : e.perTimestep = some g) :
    ∃ g', (appendAt time state output e i what .timestep).1.perTimestep = some g' ∧ Keeps g g' i := by
  rcases appendAt_only (time := time) (state := state) (output := output) (e := e) (i := i) (what := what) (wh := .timestep) with
    h1 | ⟨g0, g', hg0, h1, -, items, hi⟩
  · exact ⟨g, by rw [h1, hg], .refl _ _⟩
  · refine ⟨g', by rw [h1]; rfl, ?_⟩
    have : g0 = g := Option.some.inj (hg0.symm.trans hg)
    rw [← hi, ← this]
    exact insertAll_keeps

theorem append_fst (w : Writer) (s : Step) :
    ((w.append s.time s.cycle s.state s.output).1 = w ∨ ∃ c e1 o, s.cycle.toInt = .ok c ∧
      e1 = (appendAt s.time s.state s.output w.group w.position w.perTimestep .timestep).1 ∧
      o = (appendAt s.time s.state s.output e1 c w.perCycle .cycle).1 ∧
      ((w.append s.time s.cycle s.state s.output).1 = w.setGroup e1 ∨ (w.append s.time s.cycle s.state s.output).1 = w.setGroup o ∨
        (w.append s.time s.cycle s.state s.output).1 = { w.setGroup o with position := w.position + 1 })) := by
  unfold append
  by_cases hr : (!w.ready) = true
  · rw [if_pos hr]
    exact .inl rfl
  rw [if_neg hr]
  cases hc : s.cycle.toInt with
  | error e => exact .inl rfl
  | ok c =>
    refine .inr ⟨c, _, _, rfl, rfl, rfl, ?_⟩
    dsimp only
    generalize appendAt s.time s.state s.output w.group w.position w.perTimestep .timestep = x
    obtain ⟨e1, err⟩ := x
    cases err with
    | some err => exact .inl rfl
    | none =>
      dsimp only
      generalize appendAt s.time s.state s.output e1 c w.perCycle .cycle = y
      obtain ⟨e2, err⟩ := y
      cases err with
      | some err => exact .inr (.inl rfl)
      | none => exact .inr (.inr rfl)

theorem prepareAt_keeps {chunkOf : List Nat → Nat} {rs : Bool} {state output : Gaussian} {e : Estimates} {what : OutputType}
    {wh wh' : Where} {ex : Option Nat} {g : Group} (hg : e.get wh' = some g) :
    (prepareAt chunkOf rs state output e what wh ex).1.get wh' = some g := by
  unfold prepareAt
  by_cases hw : what = .none
  · rw [if_pos hw]
    exact hg
  · rw [if_neg hw]
    split
    · exact hg
    · split_ifs with hs
      · exact hg
      · by_cases hh : wh' = wh
        · subst hh
          rw [hg] at hs
          exact absurd rfl hs
        · rw [get_set_ne _ _ hh, hg]

theorem prepareAt_settings {chunkOf : List Nat → Nat} {rs : Bool} {state output : Gaussian} {e : Estimates} {what : OutputType}
    {wh : Where} {ex : Option Nat} : (prepareAt chunkOf rs state output e what wh ex).1.settings = e.settings := by
  unfold prepareAt
  by_cases hw : what = .none
  · rw [if_pos hw]
  · rw [if_neg hw]
    split
    · rfl
    · split_ifs with hs
      · rfl
      · exact set_settings _ _ _

/-- The group once its attributes are written. -/
def announced (w : Writer) (ns : List Name) (info : EstimatorInfo) : Estimates :=
  ⟨some (w.perTimestep, w.perCycle), some ns, some info.outputNames, some "MultivariateGaussian".toList, w.group.perTimestep,
    w.group.perCycle⟩

/-- Whatever `prepare` does, the sub-groups that exist stay, and either nothing changes or the settings are those of the writer. -/
theorem prepare_fst {chunkOf : List Nat → Nat} {w : Writer} {info : EstimatorInfo} {steps cycles : Option Nat} :
    (((!w.ready) = true ∨ (!w.resizable) = true) ∧ (w.prepare chunkOf info steps cycles).1 = w) ∨ ∃ e, (w.prepare chunkOf info steps cycles).1 = w.setGroup e ∧
      (∀ wh g, w.group.get wh = some g → e.get wh = some g) ∧ e.settings = some (w.perTimestep, w.perCycle) := by
  unfold prepare
  by_cases hr : (!w.ready) = true
  · rw [if_pos hr]
    exact .inl ⟨.inl hr, rfl⟩
  rw [if_neg hr]
  by_cases hs : (!w.resizable && (steps.isNone || cycles.isNone)) = true
  · rw [if_pos hs]
    exact .inl ⟨.inr (Bool.and_elim_left hs), rfl⟩
  rw [if_neg hs]
  refine .inr ?_
  dsimp only
  split
  · exact ⟨_, rfl, fun wh g h => by cases wh <;> exact h, rfl⟩
  · next ns _ =>
    split
    · exact ⟨_, rfl, fun wh g h => by cases wh <;> exact h, rfl⟩
    · next state _ =>
      have h1 : ∀ e wh g, e = announced w ns info →
          w.group.get wh = some g → e.get wh = some g := by
        rintro e wh g rfl h
        cases wh <;> exact h
      split
      · next e1 err he1 =>
        refine ⟨_, rfl, fun wh g h => ?_, ?_⟩
        · have := prepareAt_keeps (chunkOf := chunkOf) (rs := w.resizable) (state := state)
            (output := ⟨.zeros info.nOutputs, .zeros info.nOutputs info.nOutputs⟩) (what := w.perTimestep) (wh := .timestep) (ex := steps)
            (h1 _ wh g rfl h)
          unfold announced at this
          rw [he1] at this
          exact this
        · have := congrArg (fun x : Estimates × Option Err => x.1.settings) he1
          dsimp only at this
          rw [← this, prepareAt_settings]
      · next e1 he1 =>
        refine ⟨_, rfl, fun wh g h => ?_, ?_⟩
        · have := prepareAt_keeps (chunkOf := chunkOf) (rs := w.resizable) (state := state)
            (output := ⟨.zeros info.nOutputs, .zeros info.nOutputs info.nOutputs⟩) (what := w.perTimestep) (wh := .timestep) (ex := steps)
            (h1 _ wh g rfl h)
          unfold announced at this
          rw [he1] at this
          exact prepareAt_keeps this
        · have := congrArg (fun x : Estimates × Option Err => x.1.settings) he1
          dsimp only at this
          rw [prepareAt_settings, ← this, prepareAt_settings]

end Writer

open Writer

/-- C69.  A writer that is not open raises ValueError and touches nothing. -/
theorem C69_closed_raises (chunkOf : List Nat → Nat) (w : Writer) (h : w.ready = false) (info : EstimatorInfo) (steps cycles : Option Nat)
    (s : Step) :
    w.apply chunkOf (.prepare info steps cycles) = (w, some .valueError) ∧ w.apply chunkOf (.append s) = (w, some .valueError) := by
  simp [apply, prepare, append, h]

/-- C69.  Once closed, a writer stays closed and touches nothing, whatever is tried, until it is opened again. -/
theorem C69_closed_until_opened (chunkOf : List Nat → Nat) (w : Writer) (ops : List Op) (h : .enter ∉ ops) :
    w.exit.run chunkOf ops = w.exit ∧ w.exit.ready = false ∧ w.exit.root = w.root := by
  refine ⟨?_, rfl, rfl⟩
  induction ops with
  | nil => rfl
  | cons op ops ih =>
    have ih := ih fun hm => h (by simp [hm])
    have hop : (w.exit.apply chunkOf op).1 = w.exit := by
      cases op with
      | enter => simp at h
      | exit => rfl
      | prepare info steps cycles => rfl
      | append s => rfl
    unfold run
    rw [hop]
    exact ih

/-- C69.  Once opened, a writer is ready until it is closed, even if operations raise. -/
theorem C69_ready_until_closed (chunkOf : List Nat → Nat) (w : Writer) (ops : List Op) (h : .exit ∉ ops) :
    (w.enter.run chunkOf ops).ready = true := by
  have key : ∀ w : Writer, w.ready = true → (w.run chunkOf ops).ready = true := by
    induction ops with
    | nil => exact fun w hw => hw
    | cons op ops ih =>
      intro w hw
      unfold run
      refine ih (fun hm => h (by simp [hm])) _ ?_
      cases op with
      | enter => rfl
      | exit => simp at h
      | prepare info steps cycles =>
        rcases prepare_fst (chunkOf := chunkOf) (w := w) (info := info) (steps := steps) (cycles := cycles) with ⟨-, h1⟩ | ⟨e, h1, -⟩
        · exact (congrArg Writer.ready h1).trans hw
        · exact (congrArg Writer.ready h1).trans hw
      | append s =>
        rcases append_fst w s with h1 | ⟨c, e1, o, -, -, -, h1 | h1 | h1⟩
        all_goals exact (congrArg Writer.ready h1).trans hw
  exact key _ rfl

/-- C69.  A writer that cannot resize needs both sizes; otherwise it raises ValueError and touches nothing. -/
theorem C69_sizes_needed (chunkOf : List Nat → Nat) (w : Writer) (h : w.resizable = false) (info : EstimatorInfo) (steps cycles : Option Nat)
    (hs : steps = none ∨ cycles = none) : w.prepare chunkOf info steps cycles = (w, some .valueError) := by
  unfold prepare
  cases hr : w.ready
  · rfl
  · rcases hs with rfl | rfl <;> simp [h]

/-- C69.  Preparing is refused with ValueError if a group it would create exists (for an estimator whose names and state can be had). -/
theorem C69_refused_if_present (chunkOf : List Nat → Nat) (w : Writer) (info : EstimatorInfo) (steps cycles : Option Nat)
    (hn : ∃ ns, info.stateNames = .ok ns) (hst : ∃ g, info.state = .ok g)
    (hp : (w.perTimestep ≠ .none ∧ w.group.perTimestep.isSome) ∨ (w.perCycle ≠ .none ∧ w.group.perCycle.isSome)) :
    (w.prepare chunkOf info steps cycles).2 = some .valueError := by
  obtain ⟨ns, hn⟩ := hn
  obtain ⟨g, hst⟩ := hst
  unfold prepare
  by_cases hr : (!w.ready) = true
  · rw [if_pos hr]
  rw [if_neg hr]
  by_cases hs : (!w.resizable && (steps.isNone || cycles.isNone)) = true
  · rw [if_pos hs]
  rw [if_neg hs, hn, hst]
  dsimp only
  have key : ∀ (e : Estimates) what wh ex, what ≠ OutputType.none → (e.get wh).isSome = true →
      prepareAt chunkOf w.resizable g ⟨.zeros info.nOutputs, .zeros info.nOutputs info.nOutputs⟩ e what wh ex = (e, some .valueError) := by
    intro e what wh ex hw he
    have := entries_ok hw (proto g info.nOutputs)
    unfold prepareAt
    rw [if_neg hw]
    simp only [proto] at this
    rw [this]
    dsimp only
    rw [if_pos he]
  by_cases h1 : w.perTimestep ≠ .none ∧ w.group.perTimestep.isSome
  · rw [key ⟨some (w.perTimestep, w.perCycle), some ns, some info.outputNames, some "MultivariateGaussian".toList, w.group.perTimestep,
      w.group.perCycle⟩ _ .timestep _ h1.1 h1.2]
  · have h2 := hp.resolve_left h1
    generalize hx : prepareAt chunkOf w.resizable g _ _ w.perTimestep .timestep steps = x
    obtain ⟨e1, err⟩ := x
    cases err with
    | some err =>
      dsimp only
      unfold prepareAt at hx
      by_cases hw : w.perTimestep = .none
      · rw [if_pos hw] at hx
        cases (Prod.mk.inj hx).2
      · have hi := entries_ok hw (proto g info.nOutputs)
        simp only [proto] at hi
        rw [if_neg hw, hi] at hx
        dsimp only at hx
        split_ifs at hx
        · exact (Prod.mk.inj hx).2.symm
        · cases (Prod.mk.inj hx).2
    | none =>
      dsimp only
      obtain ⟨gc, hgc⟩ := Option.isSome_iff_exists.1 h2.2
      have := prepareAt_keeps (chunkOf := chunkOf) (rs := w.resizable) (state := g)
        (output := ⟨.zeros info.nOutputs, .zeros info.nOutputs info.nOutputs⟩) (what := w.perTimestep) (wh := .timestep) (wh' := .cycle)
        (ex := steps) (e := announced w ns info) (g := gc) hgc
      unfold announced at this
      rw [hx] at this
      rw [key e1 _ .cycle _ h2.1 (by rw [show e1.get .cycle = some gc from this]; rfl)]

/-- C69.  Preparing, refused or not, never changes estimates that are in the file.  Missing for the full claim: preparing again may
replace the settings that say which estimates are there (`C69_prepare_hides_timesteps`). -/
theorem C69_prepare_keeps_data_partial (chunkOf : List Nat → Nat) (w : Writer) (hg : w.HasGroup) (info : EstimatorInfo) (steps cycles : Option Nat) :
    (∀ g, w.group.perTimestep = some g → (w.prepare chunkOf info steps cycles).1.group.perTimestep = some g) ∧
      ∀ g, w.group.perCycle = some g → (w.prepare chunkOf info steps cycles).1.group.perCycle = some g := by
  rcases prepare_fst (chunkOf := chunkOf) (w := w) (info := info) (steps := steps) (cycles := cycles) with ⟨hno, h⟩ | ⟨e, h, h1, -⟩
  · rw [h]
    exact ⟨fun _ h => h, fun _ h => h⟩
  · rw [h, group_setGroup hg]
    exact ⟨fun g hgg => h1 .timestep g hgg, fun g hgg => h1 .cycle g hgg⟩

/-- C69.  As long as a writer is not opened anew, the rows it has appended successfully stay what they are, whatever else is tried.
Missing for the full claim: a writer opened anew appends over the stored rows (`C69_reopened_append_replaces`). -/
theorem C69_appended_rows_stay_partial (chunkOf : List Nat → Nat) (w : Writer) (hw : w.HasGroup) (ops : List Op) (hops : .enter ∉ ops)
    (g : Group) (hg : w.group.perTimestep = some g) :
    ∃ g', (w.run chunkOf ops).group.perTimestep = some g' ∧ ∀ k d, lookupKey k g = some d →
      ∃ d', lookupKey k g' = some d' ∧ ∀ i < w.position, (d'.rows[i]?).join = (d.rows[i]?).join := by
  induction ops generalizing w g with
  | nil => exact ⟨g, hg, fun k d h => ⟨d, h, fun _ _ => rfl⟩⟩
  | cons op ops ih =>
    have hops' : .enter ∉ ops := fun hm => hops (by simp [hm])
    unfold run
    have step : ∃ g1, (w.apply chunkOf op).1.HasGroup ∧ (w.apply chunkOf op).1.group.perTimestep = some g1 ∧
        w.position ≤ (w.apply chunkOf op).1.position ∧ Keeps g g1 w.position := by
      cases op with
      | enter => simp at hops
      | exit => exact ⟨g, hw, hg, le_refl _, .refl _ _⟩
      | prepare info steps cycles =>
        refine ⟨g, ?_, (C69_prepare_keeps_data_partial chunkOf w hw info steps cycles).1 g hg, ?_, .refl _ _⟩
        · rcases prepare_fst (chunkOf := chunkOf) (w := w) (info := info) (steps := steps) (cycles := cycles) with ⟨hno, h⟩ | ⟨e, h, -⟩ <;>
            (unfold apply; rw [h])
          · exact hw
          · exact hasGroup_setGroup hw e
        · rcases prepare_fst (chunkOf := chunkOf) (w := w) (info := info) (steps := steps) (cycles := cycles) with ⟨hno, h⟩ | ⟨e, h, -⟩ <;>
            (unfold apply; rw [h])
          exact le_refl _
      | append s =>
        obtain ⟨g1, e1h, hk⟩ := appendAt_keeps (time := s.time) (state := s.state) (output := s.output) (e := w.group)
          (i := w.position) (what := w.perTimestep) hg
        unfold apply
        rcases append_fst w s with h | ⟨c, e1, o, -, he1, ho, h⟩
        · rw [h]
          exact ⟨g, hw, hg, le_refl _, .refl _ _⟩
        · have h1 : e1.perTimestep = some g1 := by rw [he1]; exact e1h
          have h2 : o.perTimestep = some g1 := by
            have := appendAt_other (time := s.time) (state := s.state) (output := s.output) (e := e1) (i := c)
              (what := w.perCycle) (wh := .cycle) (wh' := .timestep) (by decide)
            rw [← ho] at this
            exact this.trans h1
          rcases h with h | h | h <;> dsimp only <;> rw [h]
          · exact ⟨g1, hasGroup_setGroup hw _, by rw [group_setGroup hw]; exact h1, le_refl _, hk⟩
          · exact ⟨g1, hasGroup_setGroup hw _, by rw [group_setGroup hw]; exact h2, le_refl _, hk⟩
          · refine ⟨g1, hasGroup_setGroup hw o, ?_, Nat.le_succ _, hk⟩
            have : ({ w.setGroup o with position := w.position + 1 } : Writer).group = o := group_setGroup hw o
            rw [this]
            exact h2
    obtain ⟨g1, a1, a2, a3, a4⟩ := step
    obtain ⟨g', b1, b2⟩ := ih _ a1 hops' g1 a2
    refine ⟨g', b1, fun k d hd => ?_⟩
    obtain ⟨d1, hd1, e1⟩ := a4 k d hd
    obtain ⟨d', hd', e'⟩ := b2 k d1 hd1
    exact ⟨d', hd', fun i hi => (e' i (by omega)).trans (e1 i (by omega))⟩

/-- C69 fails in what it says about files that hold estimates: an open writer that is set up not to store timesteps, and has its sizes,
replaces the settings of the file when it is prepared, refused or not; the timesteps in it can no longer be read. -/
theorem C69_prepare_hides_timesteps (chunkOf : List Nat → Nat) (w : Writer) (hg : w.HasGroup) (hr : w.ready = true)
    (hres : w.resizable = true) (hw : w.perTimestep = .none) (info : EstimatorInfo) (steps cycles : Option Nat) :
    (w.prepare chunkOf info steps cycles).1.group.read .timestep = .error .valueError := by
  have hset : (w.prepare chunkOf info steps cycles).1.group.settings = some (w.perTimestep, w.perCycle) := by
    rcases prepare_fst (chunkOf := chunkOf) (w := w) (info := info) (steps := steps) (cycles := cycles) with ⟨hno, h⟩ | ⟨e, h, -, h2⟩
    · simp [hr, hres] at hno
    · rw [h, group_setGroup hg, h2]
  unfold Estimates.read
  rw [hset, hw]
  rfl

namespace Writer

theorem Logs.again {e : Estimates} {what : OutputType} (hw : what ≠ .none) {p s1 s2 : Step} {steps : Nat → Option Step}
    (h : Logs e .timestep what p steps) {i : Nat} (h1 : steps i = some s1) (hs : SameDims s2 p) :
    ∃ e', appendAt s2.time s2.state s2.output e i what .timestep = (e', none) := by
  obtain ⟨g, hg, hst⟩ := h
  obtain ⟨g', hg'⟩ := insertAll_succeeds (i := i) (g := g) (entries_nodup what s2) (fun k v hv => by
    have hm : k ∈ g.map Prod.fst := by
      rw [hst.keys, ← entries_keys what s2 p]
      exact mem_keys_of_lookupKey hv
    have hm' : k ∈ (entries what p).map Prod.fst := by
      rw [← hst.keys]
      exact hm
    obtain ⟨d, hd⟩ := lookupKey_some_of_mem hm
    obtain ⟨v', hv'⟩ := lookupKey_some_of_mem hm'
    obtain ⟨v1, hv1⟩ := lookupKey_some_of_mem (by rw [entries_keys what s1 p]; exact hm' : k ∈ (entries what s1).map Prod.fst)
    have hval := hst.val k d hd i
    rw [h1, Option.map_some, Option.bind_some, hv1] at hval
    exact ⟨d, hd, by rw [hst.item k d v' hd hv', entries_shapes hs hv hv'], .inl (Dataset.val_lt hval)⟩)
  refine ⟨e.set .timestep g', ?_⟩
  unfold appendAt
  rw [if_neg hw, hg]
  dsimp only
  rw [entries_ok hw]
  dsimp only
  rw [hg']

end Writer

/-- C69 fails too if a file with estimates is opened again and a step is appended without preparing: it replaces the first one, silently. -/
theorem C69_reopened_append_replaces (chunkOf : List Nat → Nat) (w0 w w' : Writer) (info : EstimatorInfo) (g : Gaussian)
    (hg : info.state = .ok g) (hgp : g.Proper) (steps cycles : Option Nat) (hp : w0.enter.prepare chunkOf info steps cycles = (w, none))
    (hm : w0.perTimestep ≠ .none) (hm' : w0.perCycle = .none) (s1 s2 : Step) (ss : List Step) (ha : w.appendAll (s1 :: ss) = (w', none))
    (ht : ∀ s ∈ s2 :: ss, s.time ≠ .nan) (hd : ∀ s ∈ s2 :: ss, s.Matches g info.nOutputs)
    (hc : ∃ c : ℕ, s2.cycle = .fin (c : ℝ)) :
    ∃ w'', w'.exit.enter.append s2.time s2.cycle s2.state s2.output = (w'', none) ∧
      w''.exit.group.read .timestep =
        .ok ((s2 :: ss).map fun s => (s.time, asStored w0.perTimestep s.state, asStored w0.perTimestep s.output)) := by
  obtain ⟨state, h⟩ := prepare_ok (hasGroup_enter w0) hp
  obtain rfl : state = g := Except.ok.inj (h.hstate.symm.trans hg)
  obtain ⟨c, hc⟩ := hc
  have e : w.perTimestep = w0.perTimestep := h.perTimestep
  obtain ⟨hs, hl⟩ := appendAll_timestep (s1 :: ss) h.hasGroup h.ready (by rw [e]; exact hm) (hist := []) (by rw [h.position]; rfl)
    (h.logs.1 hm) ha
  have hw' : w'.exit.enter = { w' with ready := true, position := 0 } := by
    unfold enter exit
    dsimp only
    rw [if_pos (show (lookupKey w'.storageKey w'.root).isSome = true from hs.hasGroup)]
  have hgrp : w'.exit.enter.group = w'.group := by rw [hw']; rfl
  have hl' : Logs w'.exit.enter.group .timestep w0.perTimestep (proto state info.nOutputs) (fun i => (s1 :: ss)[i]?) := by
    rw [hgrp, ← e]
    exact hl
  obtain ⟨e', he'⟩ := hl'.again (i := 0) (s2 := s2) hm rfl ((hd s2 (by simp)).sameDims hgp)
  have l2 := appendAt_timestep hm hl' he'
  have pT : w'.exit.enter.perTimestep = w0.perTimestep := (hs.perTimestep.trans e : w'.perTimestep = _)
  have pC : w'.exit.enter.perCycle = .none := (hs.perCycle.trans (h.perCycle.trans hm') : w'.perCycle = _)
  have hap : w'.exit.enter.append s2.time s2.cycle s2.state s2.output = ({ w'.exit.enter.setGroup e' with position := 1 }, none) := by
    unfold append
    rw [show w'.exit.enter.ready = true from rfl, hc, toInt_nat, pT, pC, show w'.exit.enter.position = 0 from rfl]
    dsimp only [Bool.not_true]
    rw [if_neg (by decide)]
    rw [show ((0 : Nat) : Int) = ((0 : ℕ) : ℤ) from rfl, he']
    rfl
  refine ⟨_, hap, ?_⟩
  have hge : ({ w'.exit.enter.setGroup e' with position := 1 } : Writer).exit.group = e' := group_setGroup (hasGroup_enter w'.exit) e'
  rw [hge]
  have hset : e'.settings = some (w0.perTimestep, w0.perCycle) := by
    have := congrArg (fun x : Estimates × Option Err => x.1.settings) he'
    dsimp only at this
    rw [← this, appendAt_settings, hgrp, hs.settings, h.settings]
    rfl
  have hdist : e'.distType = some "MultivariateGaussian".toList := by
    have := congrArg (fun x : Estimates × Option Err => x.1.distType) he'
    dsimp only at this
    rw [← this, appendAt_distType, hgrp, hs.distType, h.distType]
  refine l2.read hm (ts := w0.perTimestep) (cy := w0.perCycle) hset rfl hdist (ss := s2 :: ss) (fun i _ => ?_) ht
    (fun s hs => ⟨(hd s hs).1, (hd s hs).2.1⟩)
  cases i <;> simp [recordAt]

/-! ## Cases -/

open Demo in
/-- A file with the estimates of two steps is opened by a writer that stores no timesteps: preparing is refused, as there are estimates per
cycle, and yet the timesteps can no longer be read. -/
example : ∃ w w', writer1.enter.prepare (fun _ => 128) info1 none none = (w, none) ∧
    w.appendAll [step1 0 0, step1 1 0] = (w', none) ∧
    w'.exit.group.read .timestep = .ok [(.fin 0, .delta ⟨⟨1, fun _ => 0⟩⟩, .delta ⟨⟨1, fun _ => 0 + 1⟩⟩),
      (.fin 1, .delta ⟨⟨1, fun _ => 1⟩⟩, .delta ⟨⟨1, fun _ => 1 + 1⟩⟩)] ∧
    let v : Writer := { w'.exit with perTimestep := .none }
    (v.enter.prepare (fun _ => 128) info1 none none).2 = some .valueError ∧
      (v.enter.prepare (fun _ => 128) info1 none none).1.group.read .timestep = .error .valueError := by
  obtain ⟨w, hw⟩ := writer1_prepares
  have hd : ∀ s ∈ [step1 0 0, step1 1 0], s.Matches (gauss1 3 4) 1 := by
    intro s hs
    simp only [List.mem_cons, List.not_mem_nil, or_false] at hs
    rcases hs with rfl | rfl <;> exact step1_matches _ _
  have ht : ∀ s ∈ [step1 0 0, step1 1 0], s.time ≠ .nan := by
    intro s hs
    simp only [List.mem_cons, List.not_mem_nil, or_false] at hs
    rcases hs with rfl | rfl <;> exact nofun
  have hc : ∀ s ∈ [step1 0 0, step1 1 0], ∃ c : ℕ, s.cycle = .fin (c : ℝ) ∧ c < 128 := by
    intro s hs
    simp only [List.mem_cons, List.not_mem_nil, or_false] at hs
    rcases hs with rfl | rfl
    exacts [⟨0, rfl, by decide⟩, ⟨0, rfl, by decide⟩]
  have hgr : Gradual [step1 0 0, step1 1 0] := by
    intro pre s post e c hs
    obtain ⟨c', hc', h⟩ := hc s (by rw [e]; simp)
    rw [hs] at hc'
    have : c = c' := by exact_mod_cast Num.fin.inj hc'
    exact .inl (by omega)
  obtain ⟨w', hw'⟩ := C68_appends_succeed_partial (fun _ => 128) (fun _ => by omega) writer1 w info1 (gauss1 3 4) rfl (gauss1_proper _ _)
    none none hw _ hd ht (fun s hs => let ⟨c, h, _⟩ := hc s hs; ⟨c, h⟩) (fun _ N h => by cases h) (fun _ => hgr)
  have hprep := prepare_ok (hasGroup_enter writer1) hw
  obtain ⟨state, h⟩ := hprep
  have hs := appendAll_same _ h.hasGroup h.ready hw'
  obtain ⟨g, hg, -⟩ := C67_first_steps_stored _ writer1 w w' info1 none none hw _ hw' ht
    (fun s hs => let ⟨c, h, _⟩ := hc s hs; ⟨c, h⟩) (by decide)
  refine ⟨w, w', hw, hw', ?_, ?_⟩
  · exact C66_timesteps_read_back _ writer1 w w' info1 none none hw _ hw' ht (fun s hs => ⟨(hd s hs).1, (hd s hs).2.1⟩) (by decide)
  · have hv : ({ w'.exit with perTimestep := .none } : Writer).enter = { w' with ready := true, position := 0, perTimestep := .none } := by
      unfold enter exit
      dsimp only
      rw [if_pos (show (lookupKey w'.storageKey w'.root).isSome = true from hs.hasGroup)]
    intro v
    refine ⟨C69_refused_if_present _ _ info1 none none ⟨_, rfl⟩ ⟨_, rfl⟩ (.inr ⟨?_, ?_⟩),
      C69_prepare_hides_timesteps _ _ (hasGroup_enter _) rfl ?_ rfl _ _ _⟩
    · show w'.perCycle ≠ .none
      rw [hs.perCycle, h.perCycle]
      decide
    · rw [show v.enter = _ from hv]
      show (w'.group.perCycle).isSome = true
      rw [show w'.group.perCycle = some g from hg]
      rfl
    · show w'.resizable = true
      rw [hs.resizable, h.resizable]
      rfl

open Demo in
/-- A file with the step at time 0 is opened again; the step at time 5 takes its place. -/
example : ∃ w w' w'', ({ writer1 with perCycle := .none } : Writer).enter.prepare (fun _ => 128) info1 none none = (w, none) ∧
    w.appendAll [step1 0 0] = (w', none) ∧
    w'.exit.enter.append (step1 5 0).time (step1 5 0).cycle (step1 5 0).state (step1 5 0).output = (w'', none) ∧
    w''.exit.group.read .timestep = .ok [(.fin 5, .delta ⟨⟨1, fun _ => 5⟩⟩, .delta ⟨⟨1, fun _ => 5 + 1⟩⟩)] := by
  obtain ⟨w, hw⟩ : ∃ w, ({ writer1 with perCycle := .none } : Writer).enter.prepare (fun _ => 128) info1 none none = (w, none) := ⟨_, rfl⟩
  obtain ⟨w', hw'⟩ := C68_appends_succeed_partial (fun _ => 128) (fun _ => by omega) { writer1 with perCycle := .none } w info1 (gauss1 3 4)
    rfl (gauss1_proper _ _) none none hw [step1 0 0] (fun s hs => by rw [List.mem_singleton.1 hs]; exact step1_matches _ _)
    (fun s hs => by rw [List.mem_singleton.1 hs]; exact nofun) (fun s hs => by rw [List.mem_singleton.1 hs]; exact ⟨0, rfl⟩)
    (fun _ N h => by cases h) (fun h => absurd rfl h)
  obtain ⟨w'', h1, h2⟩ := C69_reopened_append_replaces (fun _ => 128) { writer1 with perCycle := .none } w w' info1 (gauss1 3 4) rfl
    (gauss1_proper _ _) none none hw (by decide) rfl (step1 0 0) (step1 5 0) [] hw'
    (fun s hs => by rw [List.mem_singleton.1 hs]; exact nofun) (fun s hs => by rw [List.mem_singleton.1 hs]; exact step1_matches _ _) ⟨0, rfl⟩
  exact ⟨w, w', w'', hw, hw', h1, h2⟩

open Demo in
/-- Closed, the default writer refuses; opened and prepared it holds rows that stay. -/
example : writer1.apply (fun _ => 128) (.append (step1 0 0)) = (writer1, some .valueError) ∧
    ∃ w g, writer1.enter.prepare (fun _ => 128) info1 none none = (w, none) ∧ w.HasGroup ∧ w.group.perTimestep = some g := by
  refine ⟨(C69_closed_raises _ _ rfl info1 none none _).2, ?_⟩
  obtain ⟨w, hw⟩ := writer1_prepares
  obtain ⟨state, h⟩ := prepare_ok (hasGroup_enter writer1) hw
  exact ⟨w, _, hw, h.hasGroup, h.timestep (by decide)⟩

end Verif
