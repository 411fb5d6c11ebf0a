import Verif.Proofs.Hdf5Read
import Verif.Proofs.EcmRows
/-!
# The log a writer keeps in one of its two groups
-/

namespace Verif
namespace Writer

/-- The rows of the group `wh` hold, in mode `what`, the steps `steps i`; all have the dimensions of `proto`. -/
def Logs (e : Estimates) (wh : Where) (what : OutputType) (proto : Step) (steps : Nat → Option Step) : Prop :=
  ∃ g, e.get wh = some g ∧ Stores g (entries what proto) (fun i => (steps i).map (entries what))

theorem Num.isNan_false {x : Num} (h : x ≠ .nan) : x.isNan = false := by
  cases x <;> first | rfl | exact absurd rfl h

open Classical in
/-- The steps before the first one without a time. -/
noncomputable def timed (ss : List Step) : List Step := ss.takeWhile fun s => decide (s.time ≠ .nan)

theorem timed_all {ss : List Step} (h : ∀ s ∈ ss, s.time ≠ .nan) : timed ss = ss := by
  classical
  unfold timed
  induction ss with
  | nil => rfl
  | cons s ss ih =>
    rw [List.takeWhile_cons_of_pos (by simpa using h s (List.mem_cons_self ..)), ih fun s hs => h s (List.mem_cons_of_mem _ hs)]

theorem readRows_of {g : Group} {what : OutputType} (hw : what ≠ .none) {proto : Step} {steps : Nat → Option Step}
    (h : Stores g (entries what proto) (fun i => (steps i).map (entries what))) {d : Dataset} (hd : lookupKey "time".toList g = some d)
    {ss : List Step} (hs : ∀ i, i ≤ ss.length → steps i = ss[i]?)
    (hv : ∀ s ∈ ss, s.state.Proper ∧ s.output.Proper) (i : Nat) (hi : i ≤ ss.length) :
    readRows g what i (d.rows.drop i) =
      .ok ((timed (ss.drop i)).map fun s => (s.time, asStored what s.state, asStored what s.output)) := by
  have hval := h.val _ _ hd i
  rw [hs i hi] at hval
  rcases Nat.lt_or_ge i ss.length with hlt | hge
  · have hm : ss[i] ∈ ss := List.getElem_mem hlt
    rw [List.getElem?_eq_getElem hlt, Option.map_some, Option.bind_some, entries_time hw] at hval
    have hlen := Dataset.val_lt hval
    have hrow : d.rows[i] = some (.num ss[i].time) := by
      simpa [Dataset.val, List.getElem?_eq_getElem hlen] using hval
    rw [List.drop_eq_getElem_cons hlen, List.drop_eq_getElem_cons hlt, hrow]
    unfold readRows timed
    by_cases hnan : ss[i].time = .nan
    · rw [List.takeWhile_cons_of_neg (by simp [hnan])]
      simp only [hnan, Num.isNan, if_true, List.map_nil]
    rw [List.takeWhile_cons_of_pos (by simpa using hnan), List.map_cons]
    have hc : (fun i => (steps i).map (entries what)) i = some (entries what ss[i]) := by
      simp [hs i hi, List.getElem?_eq_getElem hlt]
    have hu := unpack_entries hw (h.row (entries_nodup what proto) hc) (hv _ hm).1 (hv _ hm).2
    simp only [Num.isNan_false hnan, Bool.false_eq_true, if_false]
    have ih := readRows_of hw h hd hs hv (i + 1) hlt
    obtain ⟨x, hx, hx'⟩ := bind_ok.1 hu.1
    obtain ⟨y, hy, hy'⟩ := bind_ok.1 hu.2
    rw [hx, ok_bind, hx', ok_bind, hy, ok_bind, hy', ok_bind, ih]
    rfl
  · rw [List.getElem?_eq_none hge, Option.map_none, Option.bind_none] at hval
    rw [List.drop_eq_nil_of_le hge, timed, List.takeWhile_nil, List.map_nil]
    rcases Nat.lt_or_ge i d.rows.length with hlt | hge'
    · have hrow : d.rows[i] = none := by
        simpa [Dataset.val, List.getElem?_eq_getElem hlt] using hval
      rw [List.drop_eq_getElem_cons hlt, hrow]
      rfl
    · rw [List.drop_eq_nil_of_le hge']
      rfl
termination_by ss.length - i

/-- The setting of one of the two places. -/
def pick {α : Type} (wh : Where) (ts cy : α) : α :=
  match wh with
  | .timestep => ts
  | .cycle => cy

theorem Logs.readTimed {e : Estimates} {wh : Where} {what : OutputType} {proto : Step} {steps : Nat → Option Step}
    (hw : what ≠ .none) (h : Logs e wh what proto steps) {ts cy : OutputType} (he : e.settings = some (ts, cy))
    (hwhat : what = pick wh ts cy) (hd : e.distType = some "MultivariateGaussian".toList)
    {ss : List Step} (hs : ∀ i, i ≤ ss.length → steps i = ss[i]?)
    (hv : ∀ s ∈ ss, s.state.Proper ∧ s.output.Proper) :
    e.read wh = .ok ((timed ss).map fun s => (s.time, asStored what s.state, asStored what s.output)) := by
  obtain ⟨g, hg, hst⟩ := h
  have hk : "time".toList ∈ g.map Prod.fst := by
    rw [hst.keys]
    exact mem_keys_of_lookupKey (entries_time hw proto)
  obtain ⟨d, hd'⟩ := lookupKey_some_of_mem hk
  have hr := readRows_of hw hst hd' hs hv 0 (Nat.zero_le _)
  rw [List.drop_zero, List.drop_zero] at hr
  unfold Estimates.read
  rw [he]
  cases wh
  · subst hwhat
    dsimp only [pick] at *
    simp only [hw, if_false, hd, hg, hd', hr, ne_eq, not_true_eq_false, pure_eq_ok, ok_bind, ite_self]
  · subst hwhat
    dsimp only [pick] at *
    simp only [hw, if_false, hd, hg, hd', hr, ne_eq, not_true_eq_false, pure_eq_ok, ok_bind, ite_self]

theorem Logs.read {e : Estimates} {wh : Where} {what : OutputType} {proto : Step} {steps : Nat → Option Step}
    (hw : what ≠ .none) (h : Logs e wh what proto steps) {ts cy : OutputType} (he : e.settings = some (ts, cy))
    (hwhat : what = pick wh ts cy) (hd : e.distType = some "MultivariateGaussian".toList)
    {ss : List Step} (hs : ∀ i, i ≤ ss.length → steps i = ss[i]?) (ht : ∀ s ∈ ss, s.time ≠ .nan)
    (hv : ∀ s ∈ ss, s.state.Proper ∧ s.output.Proper) :
    e.read wh = .ok (ss.map fun s => (s.time, asStored what s.state, asStored what s.output)) := by
  rw [h.readTimed hw he hwhat hd hs hv, timed_all ht]

/-! ## One append -/

theorem get_set_self (e : Estimates) (wh : Where) (g : Group) : (e.set wh g).get wh = some g := by cases wh <;> rfl

theorem get_set_ne (e : Estimates) {wh wh' : Where} (g : Group) (h : wh' ≠ wh) : (e.set wh g).get wh' = e.get wh' := by
  cases wh <;> cases wh' <;> first | rfl | exact absurd rfl h

theorem set_settings (e : Estimates) (wh : Where) (g : Group) : (e.set wh g).settings = e.settings := by cases wh <;> rfl

theorem set_distType (e : Estimates) (wh : Where) (g : Group) : (e.set wh g).distType = e.distType := by cases wh <;> rfl

/-- An append, successful or not, at most replaces the group it writes to. -/
theorem appendAt_only {time : Num} {state output : Gaussian} {e : Estimates} {i : Int} {what : OutputType} {wh : Where} :
    (appendAt time state output e i what wh).1 = e ∨ ∃ g g', e.get wh = some g ∧ (appendAt time state output e i what wh).1 = e.set wh g' ∧
      what ≠ .none ∧ ∃ items, (insertAll i g items).1 = g' := by
  unfold appendAt
  split_ifs with hw
  · exact .inl rfl
  · split
    · exact .inl rfl
    · next g hg =>
      dsimp only
      split
      · exact .inl rfl
      · exact .inl rfl
      · split
        · exact .inl rfl
        · exact .inr ⟨g, _, hg, rfl, hw, _, rfl⟩

/-- Which rows are known after one more step. -/
def recordAt (steps : Nat → Option Step) (i : Nat) (s : Step) : Nat → Option Step := fun j => if j = i then some s else steps j

theorem appendAt_timestep {s proto : Step} {e e' : Estimates} {i : Nat} {what : OutputType} (hw : what ≠ .none)
    {steps : Nat → Option Step} (h : Logs e .timestep what proto steps)
    (ha : appendAt s.time s.state s.output e i what .timestep = (e', none)) :
    Logs e' .timestep what proto (recordAt steps i s) := by
  obtain ⟨g, hg, hst⟩ := h
  unfold appendAt at ha
  rw [if_neg hw, hg] at ha
  dsimp only at ha
  rw [entries_ok hw] at ha
  dsimp only at ha
  obtain ⟨rfl, hn⟩ := Prod.mk.inj ha
  refine ⟨_, get_set_self _ _ _, ?_⟩
  have := hst.insertAll (entries_nodup what proto) (entries_keys what s proto) (Prod.ext rfl hn)
  have e : (fun j => (recordAt steps i s j).map (entries what)) =
      fun j => if j = i then some (entries what s) else (fun j => (steps j).map (entries what)) j := by
    funext j
    simp only [recordAt]
    split_ifs <;> rfl
  rw [e]
  exact this

theorem Logs.time {e : Estimates} {wh : Where} {what : OutputType} (hw : what ≠ .none) {proto : Step} {steps : Nat → Option Step}
    {g : Group} (hst : Stores g (entries what proto) (fun i => (steps i).map (entries what))) :
    ∃ d, lookupKey "time".toList g = some d ∧ ∀ i, d.val i = (steps i).map fun s => .num s.time := by
  have hk : "time".toList ∈ g.map Prod.fst := by
    rw [hst.keys]
    exact mem_keys_of_lookupKey (entries_time hw proto)
  obtain ⟨d, hd⟩ := lookupKey_some_of_mem hk
  refine ⟨d, hd, fun i => ?_⟩
  rw [hst.val _ _ hd i]
  cases steps i with
  | none => rfl
  | some s => simp only [Option.map_some, Option.bind_some]; exact entries_time hw s

theorem appendAt_cycle {s proto : Step} {e e' : Estimates} {i : Nat} {what : OutputType} (hw : what ≠ .none)
    {steps : Nat → Option Step} (h : Logs e .cycle what proto steps) (ht : ∀ i s, steps i = some s → s.time ≠ .nan)
    (ha : appendAt s.time s.state s.output e i what .cycle = (e', none)) :
    Logs e' .cycle what proto (if (steps i).isSome then steps else recordAt steps i s) := by
  obtain ⟨g, hg, hst⟩ := h
  obtain ⟨d, hd, hval⟩ := Logs.time (e := e) (wh := .cycle) hw hst
  unfold appendAt at ha
  rw [if_neg hw, hg] at ha
  dsimp only at ha
  rw [hd] at ha
  dsimp only at ha
  cases hs : steps i with
  | some s0 =>
    have hv := hval i
    rw [hs] at hv
    have hlt := Dataset.val_lt hv
    rw [if_pos (by omega)] at ha
    simp only [Dataset.isNanAt, Dataset.row_ofNat hlt, hv, Option.map_some, ok_bind, Num.isNan_false (ht i s0 hs), pure_eq_ok, Bool.not_false] at ha
    obtain ⟨rfl, -⟩ := Prod.mk.inj ha
    exact ⟨g, hg, hst⟩
  | none =>
    have hv := hval i
    rw [hs] at hv
    have hskip : (if (i : Int) < d.rows.length then do return !(← d.isNanAt i) else (.ok false : Except Err Bool)) = .ok false := by
      split_ifs with hlt
      · simp only [Dataset.isNanAt, Dataset.row_ofNat (Int.ofNat_lt.1 hlt), hv, Option.map_none, ok_bind, pure_eq_ok, Bool.not_true]
      · rfl
    rw [hskip] at ha
    dsimp only at ha
    rw [entries_ok hw] at ha
    dsimp only at ha
    obtain ⟨rfl, hn⟩ := Prod.mk.inj ha
    refine ⟨_, get_set_self _ _ _, ?_⟩
    have := hst.insertAll (entries_nodup what proto) (entries_keys what s proto) (Prod.ext rfl hn)
    have e : (fun j => ((if (none : Option Step).isSome then steps else recordAt steps i s) j).map (entries what)) =
        fun j => if j = i then some (entries what s) else (fun j => (steps j).map (entries what)) j := by
      funext j
      simp only [Option.isSome_none, Bool.false_eq_true, if_false, recordAt]
      split_ifs <;> rfl
    rw [e]
    exact this

end Writer
end Verif
