import Verif.Props.EcmPack
/-!
# C127: the RC elements of a circuit

Their order does not matter, and elements with equal time constants act as one.
-/

namespace Verif
open Ecm Cell Nd

/-! ## Specification -/

/-- The entries of `l` at the positions `order`. -/
def Spec.reorder {α : Type} (order : List Nat) (l : List α) : List α := order.filterMap (l[·]?)

example : Spec.reorder [2, 0, 1] ["a", "b", "c"] = ["c", "a", "b"] := rfl

/-- `z` is the RC element that `x` and `y` in series amount to: the resistances add up, the time constants of all three are the same. -/
def Spec.Merged (z x y : Cell.RC) : Prop :=
  ∀ s t, z.r s t = x.r s t + y.r s t ∧ z.r s t * z.c s = x.r s t * x.c s ∧ y.r s t * y.c s = x.r s t * x.c s

/-! ## Proofs -/

section
variable {beh : Behavior} {p : Par} {order : List Nat}

theorem zipWith_reorder {α β γ : Type} (f : α → β → γ) (l : List α) (m : List β) (h : l.length = m.length) :
    List.zipWith f (Spec.reorder order l) (Spec.reorder order m) = Spec.reorder order (List.zipWith f l m) := by
  induction order with
  | nil => rfl
  | cons k order ih =>
    simp only [Spec.reorder, List.filterMap_cons, List.getElem?_zipWith] at ih ⊢
    rcases lt_or_ge k l.length with hk | hk
    · have hk' : k < m.length := h ▸ hk
      simp only [List.getElem?_eq_getElem hk, List.getElem?_eq_getElem hk', List.zipWith_cons_cons, ih]
    · have hk' : m.length ≤ k := h ▸ hk
      simp only [List.getElem?_eq_none hk, List.getElem?_eq_none hk', ih]

theorem reorder_range {α : Type} (l : List α) : Spec.reorder (List.range l.length) l = l := by
  induction l using List.reverseRecOn with
  | nil => rfl
  | append_singleton l x ih =>
    have h1 : (List.range l.length).filterMap (fun k => (l ++ [x])[k]?) = (List.range l.length).filterMap (l[·]?) :=
      List.filterMap_congr fun k hk => by rw [List.getElem?_append_left (List.mem_range.1 hk)]
    simp only [Spec.reorder] at ih ⊢
    rw [List.length_append, List.length_singleton, List.range_succ, List.filterMap_append, h1, ih]
    simp

theorem reorder_perm {α : Type} (l : List α) (h : order.Perm (List.range l.length)) : (Spec.reorder order l).Perm l :=
  (h.filterMap _).trans (.of_eq (reorder_range l))

theorem run_reorder (inputs : List In) : ∀ (prev : In) (s : St), s.irc.length = p.rcs.length →
    (Cell.run beh p prev inputs s).irc.length = p.rcs.length ∧
    Cell.run beh { p with rcs := Spec.reorder order p.rcs } prev inputs { s with irc := Spec.reorder order s.irc } =
      { Cell.run beh p prev inputs s with irc := Spec.reorder order (Cell.run beh p prev inputs s).irc } := by
  induction inputs with
  | nil => intro prev s h; exact ⟨h, rfl⟩
  | cons new rest ih =>
    intro prev s h
    simp only [Cell.run]
    have e : step beh prev new { s with irc := Spec.reorder order s.irc } { p with rcs := Spec.reorder order p.rcs } =
        { step beh prev new s p with irc := Spec.reorder order (step beh prev new s p).irc } := by
      simp only [step, zipWith_reorder _ p.rcs s.irc h.symm]
      rfl
    rw [e]
    exact ih new _ (by simp [step, h])

theorem volt_reorder (new : In) (s : St) (h : s.irc.length = p.rcs.length) (ho : order.Perm (List.range p.rcs.length)) :
    volt new { s with irc := Spec.reorder order s.irc } { p with rcs := Spec.reorder order p.rcs } = volt new s p := by
  simp only [volt, zipWith_reorder _ s.irc p.rcs h]
  rw [(reorder_perm _ (by simpa [h] using ho)).sum_eq]

theorem run_merge {x y z : Cell.RC} {rest : List Cell.RC} (hp : p.rcs = x :: y :: rest) (hz : Spec.Merged z x y) (inputs : List In) :
    ∀ (prev : In) (s : St) (i : ℝ) (is : List ℝ), s.irc = i :: i :: is → ∃ j js, (Cell.run beh p prev inputs s).irc = j :: j :: js ∧
      Cell.run beh { p with rcs := z :: rest } prev inputs { s with irc := i :: is } = { Cell.run beh p prev inputs s with irc := j :: js } := by
  induction inputs with
  | nil => intro prev s i is h; exact ⟨i, is, h, rfl⟩
  | cons new more ih =>
    intro prev s i is h
    simp only [Cell.run]
    have e : (step beh prev new s p).irc = rcNext beh prev new s.soc x i :: rcNext beh prev new s.soc x i ::
        List.zipWith (rcNext beh prev new s.soc) rest is := by
      simp only [step, hp, h, List.zipWith_cons_cons, List.cons.injEq, true_and, and_true]
      simp only [rcNext, (hz s.soc prev.temp).2.2]
    have e' : step beh prev new { s with irc := i :: is } { p with rcs := z :: rest } =
        { step beh prev new s p with irc := rcNext beh prev new s.soc x i :: List.zipWith (rcNext beh prev new s.soc) rest is } := by
      simp only [step, St.mk.injEq, List.zipWith_cons_cons, List.cons.injEq, true_and, and_true]
      refine ⟨rfl, ?_, rfl⟩
      simp only [rcNext, (hz s.soc prev.temp).2.1]
    rw [e']
    exact ih new _ _ _ e

theorem volt_merge {x y z : Cell.RC} {rest : List Cell.RC} (hp : p.rcs = x :: y :: rest) (hz : Spec.Merged z x y) (new : In) (s : St) {i : ℝ} {is : List ℝ}
    (h : s.irc = i :: i :: is) : volt new { s with irc := i :: is } { p with rcs := z :: rest } = volt new s p := by
  simp only [volt, hp, h, List.zipWith_cons_cons, List.sum_cons, (hz s.soc new.temp).1]
  ring

end

theorem stAt_irc_length {B : Nat} {a : ASOH} {st : State} (hs : Sts B a st) (b : Nat) : (stAt st b).irc.length = (parAt a b).rcs.length := by
  rcases hs.irc with h | h <;> simp [stAt, parAt, h]

/-- C127: the order of the RC elements does not matter.  A circuit with the RC elements of another in a different order, in a state with the RC currents in
that order, goes through any inputs to the state with the RC currents in that order, and has the same voltage.  Member `b'` of one batch is compared with
member `b` of the other. -/
theorem C127_order {B B' : Nat} (hB : 0 < B) (hB' : 0 < B') {beh : Behavior} {a a' : ASOH} {u u' : Input} {us us' : List Input}
    {st st' out out' : State} {v v' : Nd ℝ} (ha : Pars B a) (hu : ∀ i ∈ u :: us, Ins B i) (hs : Sts B a st)
    (ha' : Pars B' a') (hu' : ∀ i ∈ u' :: us', Ins B' i) (hs' : Sts B' a' st') (b b' : Nat) (hb : b < B) (hb' : b' < B')
    (order : List Nat) (ho : order.Perm (List.range a.rcs.length))
    (hpar : parAt a' b' = { parAt a b with rcs := Spec.reorder order (parAt a b).rcs })
    (hin : (u' :: us').map (inAt · b') = (u :: us).map (inAt · b))
    (hst : stAt st' b' = { stAt st b with irc := Spec.reorder order (stAt st b).irc })
    (hrun : Ecm.run beh a u us st = .ok out) (hrun' : Ecm.run beh a' u' us' st' = .ok out')
    (hv : voltage (lastInput u us) out a = .ok v) (hv' : voltage (lastInput u' us') out' a' = .ok v') :
    stAt out' b' = { stAt out b with irc := Spec.reorder order (stAt out b).irc } ∧ at2 v' b' = at2 v b := by
  obtain ⟨g, e⟩ := run_rows hB ha (hu u (by simp)) (fun i hi => hu i (by simp [hi])) hs hrun
  obtain ⟨g', e'⟩ := run_rows hB' ha' (hu' u' (by simp)) (fun i hi => hu' i (by simp [hi])) hs' hrun'
  have hlast : inAt (lastInput u' us') b' = inAt (lastInput u us) b := by
    refine Option.some.inj ((inAt_last b' us' u').trans ?_)
    rw [hin, ← inAt_last]
  have hs1 : stAt out' b' = { stAt out b with irc := Spec.reorder order (stAt out b).irc } := by
    rw [e' b' hb', e b hb, hpar, hst]
    simp only [List.map_cons, List.cons.injEq] at hin
    rw [hin.1, hin.2]
    exact (run_reorder _ _ _ (stAt_irc_length hs b)).2
  refine ⟨hs1, ?_⟩
  rw [(voltage_rows hB' ha' (hu' _ (lastInput_mem us' u')) g' hv').2 b' hb', (voltage_rows hB ha (hu _ (lastInput_mem us u)) g hv).2 b hb, hpar, hlast, hs1,
    volt_reorder _ _ (stAt_irc_length g b) (by simpa [parAt] using ho)]

/-- C127: two RC elements with equal time constants that carry the same current act as one with the sum of their resistances: their currents stay the same,
and are that of the one element; the rest of the state and the voltage are the same. -/
theorem C127_merge {B B' : Nat} (hB : 0 < B) (hB' : 0 < B') {beh : Behavior} {a a' : ASOH} {u u' : Input} {us us' : List Input}
    {st st' out out' : State} {v v' : Nd ℝ} (ha : Pars B a) (hu : ∀ i ∈ u :: us, Ins B i) (hs : Sts B a st)
    (ha' : Pars B' a') (hu' : ∀ i ∈ u' :: us', Ins B' i) (hs' : Sts B' a' st') (b b' : Nat) (hb : b < B) (hb' : b' < B')
    {x y z : Cell.RC} {rest : List Cell.RC} {i : ℝ} {is : List ℝ} (hz : Spec.Merged z x y)
    (hrcs : (parAt a b).rcs = x :: y :: rest) (hpar : parAt a' b' = { parAt a b with rcs := z :: rest })
    (hin : (u' :: us').map (inAt · b') = (u :: us).map (inAt · b))
    (hirc : (stAt st b).irc = i :: i :: is) (hst : stAt st' b' = { stAt st b with irc := i :: is })
    (hrun : Ecm.run beh a u us st = .ok out) (hrun' : Ecm.run beh a' u' us' st' = .ok out')
    (hv : voltage (lastInput u us) out a = .ok v) (hv' : voltage (lastInput u' us') out' a' = .ok v')
    (_hτ : ∀ s t, x.r s t * x.c s ≠ 0) :
    (∃ j js, (stAt out b).irc = j :: j :: js ∧ stAt out' b' = { stAt out b with irc := j :: js }) ∧ at2 v' b' = at2 v b := by
  obtain ⟨g, e⟩ := run_rows hB ha (hu u (by simp)) (fun i hi => hu i (by simp [hi])) hs hrun
  obtain ⟨g', e'⟩ := run_rows hB' ha' (hu' u' (by simp)) (fun i hi => hu' i (by simp [hi])) hs' hrun'
  have hlast : inAt (lastInput u' us') b' = inAt (lastInput u us) b := by
    refine Option.some.inj ((inAt_last b' us' u').trans ?_)
    rw [hin, ← inAt_last]
  obtain ⟨j, js, hj, hrunz⟩ := run_merge (beh := beh) hrcs hz (us.map (inAt · b)) (inAt u b) (stAt st b) i is hirc
  rw [← e b hb] at hj hrunz
  have hs1 : stAt out' b' = { stAt out b with irc := j :: js } := by
    rw [e' b' hb', hpar, hst]
    simp only [List.map_cons, List.cons.injEq] at hin
    rw [hin.1, hin.2]
    exact hrunz
  refine ⟨⟨j, js, hj, hs1⟩, ?_⟩
  rw [(voltage_rows hB' ha' (hu' _ (lastInput_mem us' u')) g' hv').2 b' hb', (voltage_rows hB ha (hu _ (lastInput_mem us u)) g hv).2 b hb, hpar, hlast, hs1,
    volt_merge hrcs hz _ _ hj]

/-! ## Concrete cases -/

/-- The demonstration circuit with its RC elements swapped. -/
noncomputable def Demo.swapped : ASOH := Demo.like 10 12 3 4 0.005 0.05 1000 0.02 1000 900 0.01 2500 2600 0.01 0.02

/-- The demonstration state with other RC currents. -/
noncomputable def Demo.withCurrents (x y : ℝ) : State := { Demo.state with irc := ⟨[1, 2], fun i => if i.getD 1 0 = 0 then x else y⟩ }

theorem Demo.withCurrents_at (x y : ℝ) (b : Nat) : stAt (Demo.withCurrents x y) b = { stAt Demo.state b with irc := [x, y] } := by
  simp [stAt, Demo.withCurrents, List.range_succ]

theorem Demo.withCurrents_sts {x y qa qb o₀ o₁ ent r₀ c₀ r₁ ca₁ cb₁ r₂ ca₂ cb₂ h₀ h₁ : ℝ} :
    Sts 2 (Demo.like qa qb o₀ o₁ ent r₀ c₀ r₁ ca₁ cb₁ r₂ ca₂ cb₂ h₀ h₁) (Demo.withCurrents x y) := ⟨Demo.sts.1, Demo.sts.2, .inl rfl, .inl rfl⟩

-- The demonstration circuit, with RC currents of 0.1 A and -0.3 A, and the same with the elements swapped.
example (beh : Behavior) : ∃ out out' v v',
    Ecm.run beh Demo.circuit (Demo.input 0 2) [Demo.input 10 0, Demo.input 30 (-4)] (Demo.withCurrents 0.1 (-0.3)) = .ok out ∧
    Ecm.run beh Demo.swapped (Demo.input 0 2) [Demo.input 10 0, Demo.input 30 (-4)] (Demo.withCurrents (-0.3) 0.1) = .ok out' ∧
    voltage (Demo.input 30 (-4)) out Demo.circuit = .ok v ∧ voltage (Demo.input 30 (-4)) out' Demo.swapped = .ok v' ∧
    (stAt out' 1).irc = Spec.reorder [1, 0] (stAt out 1).irc ∧ at2 v' 1 = at2 v 1 := by
  have hs : ∀ x y z : ℝ, ∀ p ∈ steps ((0 : ℝ), x) [(10, y), (30, z)], p.2.1 ≠ p.1.1 := fun x y z => by simp [steps]
  obtain ⟨o, h, v, hv⟩ := Demo.like_runs (r₁ := 0.01) (ca₁ := 2500) (cb₁ := 2600) (r₂ := 0.02) (ca₂ := 1000) (cb₂ := 900) (qa := 10) (qb := 12) (o₀ := 3)
    (o₁ := 4) (ent := 0.005) (r₀ := 0.05) (c₀ := 1000) (h₀ := 0.01) (h₁ := 0.02) beh [(10, 0), (30, -4)] 0 2 (hs _ _ _)
    (Demo.withCurrents_sts (x := 0.1) (y := -0.3))
  obtain ⟨o', h', v', hv'⟩ := Demo.like_runs (r₁ := 0.02) (ca₁ := 1000) (cb₁ := 900) (r₂ := 0.01) (ca₂ := 2500) (cb₂ := 2600) (qa := 10) (qb := 12) (o₀ := 3)
    (o₁ := 4) (ent := 0.005) (r₀ := 0.05) (c₀ := 1000) (h₀ := 0.01) (h₁ := 0.02) beh [(10, 0), (30, -4)] 0 2 (hs _ _ _)
    (Demo.withCurrents_sts (x := -0.3) (y := 0.1))
  have hi : ∀ i ∈ Demo.input 0 2 :: [(10, 0), (30, -4)].map (fun p => Demo.input p.1 p.2), Ins 2 i := by simp [Demo.ins]
  obtain ⟨g1, g2⟩ := C127_order (by norm_num) (by norm_num) Demo.like_pars hi Demo.withCurrents_sts Demo.like_pars hi Demo.withCurrents_sts 1 1 (by norm_num)
    (by norm_num) [1, 0] (List.Perm.swap 0 1 []) (by rw [Demo.like_at, Demo.like_at]; rfl) rfl (by rw [Demo.withCurrents_at, Demo.withCurrents_at]; rfl) h h' hv hv'
  exact ⟨o, o', v, v', h, h', hv, hv', congrArg St.irc g1, g2⟩

/-- The demonstration circuit with two RC elements of equal time constants (25 s and 26 s). -/
noncomputable def Demo.doubled : ASOH := Demo.like 10 12 3 4 0.005 0.05 1000 0.01 2500 2600 0.02 1250 1300 0.01 0.02

/-- The same with one RC element in their place. -/
noncomputable def Demo.merged : ASOH := { Demo.doubled with rcs := [⟨Demo.res 0.03, ⟨Demo.two (2500 / 3) (2600 / 3), none, .linear⟩⟩] }

noncomputable def Demo.mergedState : State := { Demo.state with irc := ⟨[1, 1], fun _ => 0.1⟩ }

theorem Demo.merged_pars : Pars 2 Demo.merged := by
  have h : Pars 2 Demo.doubled := Demo.like_pars
  refine ⟨h.1, h.2, h.3, h.4, h.5, h.6, h.7, h.8, ?_, h.10⟩
  intro rc hrc
  obtain rfl := List.mem_singleton.1 hrc
  exact ⟨⟨.inl rfl, .inl rfl⟩, .inr rfl⟩

theorem Demo.merged_canRun (beh : Behavior) (l : List (ℝ × ℝ)) (t i : ℝ) (h : ∀ p ∈ steps (t, i) l, p.2.1 ≠ p.1.1) :
    CanRun beh Demo.merged (Demo.input t i) (l.map fun p => Demo.input p.1 p.2) := by
  obtain ⟨k1, k2, _, _, k5⟩ := Demo.like_canRun (r₁ := 0.01) (ca₁ := 2500) (cb₁ := 2600) (r₂ := 0.02) (ca₂ := 1250) (cb₂ := 1300) (qa := 10) (qb := 12)
    (o₀ := 3) (o₁ := 4) (ent := 0.005) (r₀ := 0.05) (c₀ := 1000) (h₀ := 0.01) (h₁ := 0.02) beh l t i h
  refine ⟨k1, k2, ?_, ?_, k5⟩
  · intro x hx rc hrc
    obtain rfl := List.mem_singleton.1 hrc
    exact ⟨Demo.usable_res _ _, .inl rfl⟩
  · refine ⟨2, fun rc hrc => ?_⟩
    obtain rfl := List.mem_singleton.1 hrc
    rfl

theorem Demo.merged_canVoltage (t i : ℝ) (st : State) : CanVoltage (Demo.input t i) st Demo.merged := by
  obtain ⟨k1, k2, k3, k4, k5, _, _⟩ := Demo.like_canVoltage (r₁ := 0.01) (ca₁ := 2500) (cb₁ := 2600) (r₂ := 0.02) (ca₂ := 1250) (cb₂ := 1300) (qa := 10) (qb := 12)
    (o₀ := 3) (o₁ := 4) (ent := 0.005) (r₀ := 0.05) (c₀ := 1000) (h₀ := 0.01) (h₁ := 0.02) t i st
  refine ⟨k1, k2, k3, k4, k5, ?_, 1, ?_⟩ <;> intro rc hrc <;> obtain rfl := List.mem_singleton.1 hrc
  · exact Demo.usable_res _ _
  · rfl

theorem Demo.merged_at (b : Nat) : parAt Demo.merged b = { parAt Demo.doubled b with rcs :=
    [⟨fun _ t => 0.03 * (match t with | none => 1 | some t => Real.exp (-0.0025 * (t - 25))), fun _ => if b = 0 then 2500 / 3 else 2600 / 3⟩] } := by
  have hr : resAt (Demo.res 0.03) b = fun _ t => 0.03 * (match t with | none => 1 | some t => Real.exp (-0.0025 * (t - 25))) := by
    funext s t
    cases t
    · simp [resAt, Demo.res, Demo.curve_flat]
    · simp only [resAt, Demo.res, Demo.curve_flat]; rfl
  simp only [parAt, Demo.merged, List.map_cons, List.map_nil, hr, Demo.curve_two]

-- The circuit with two RC elements of equal time constants and that with one.
example (beh : Behavior) : ∃ out out' v v',
    Ecm.run beh Demo.doubled (Demo.input 0 2) [Demo.input 10 0, Demo.input 30 (-4)] (Demo.withCurrents 0.1 0.1) = .ok out ∧
    Ecm.run beh Demo.merged (Demo.input 0 2) [Demo.input 10 0, Demo.input 30 (-4)] Demo.mergedState = .ok out' ∧
    voltage (Demo.input 30 (-4)) out Demo.doubled = .ok v ∧ voltage (Demo.input 30 (-4)) out' Demo.merged = .ok v' ∧ at2 v' 1 = at2 v 1 := by
  have hs : ∀ x y z : ℝ, ∀ p ∈ steps ((0 : ℝ), x) [(10, y), (30, z)], p.2.1 ≠ p.1.1 := fun x y z => by simp [steps]
  obtain ⟨o, h, v, hv⟩ := Demo.like_runs (r₁ := 0.01) (ca₁ := 2500) (cb₁ := 2600) (r₂ := 0.02) (ca₂ := 1250) (cb₂ := 1300) (qa := 10) (qb := 12) (o₀ := 3)
    (o₁ := 4) (ent := 0.005) (r₀ := 0.05) (c₀ := 1000) (h₀ := 0.01) (h₁ := 0.02) beh [(10, 0), (30, -4)] 0 2 (hs _ _ _)
    (Demo.withCurrents_sts (x := 0.1) (y := 0.1))
  have hi : ∀ i ∈ Demo.input 0 2 :: [(10, 0), (30, -4)].map (fun p => Demo.input p.1 p.2), Ins 2 i := by simp [Demo.ins]
  have hst : Sts 2 Demo.merged Demo.mergedState := ⟨Demo.sts.1, Demo.sts.2, .inl rfl, .inl rfl⟩
  obtain ⟨o', h'⟩ := run_ok (by norm_num) Demo.merged_pars (Demo.ins _ _) (fun i hi' => hi i (List.mem_cons_of_mem _ hi')) hst
    (Demo.merged_canRun beh [(10, 0), (30, -4)] 0 2 (hs _ _ _))
  have g := (run_rows (by norm_num) Demo.merged_pars (Demo.ins _ _) (fun i hi' => hi i (List.mem_cons_of_mem _ hi')) hst h').1
  obtain ⟨v', hv'⟩ := voltage_ok (by norm_num) Demo.merged_pars (Demo.ins 30 (-4)) g (Demo.merged_canVoltage _ _ _)
  have hrcs : (parAt Demo.doubled 1).rcs = _ := congrArg Par.rcs (Demo.like_at 1)
  have g2 := (C127_merge (by norm_num) (by norm_num) Demo.like_pars hi Demo.withCurrents_sts Demo.merged_pars hi hst 1 1 (by norm_num)
    (by norm_num) (by
      intro s t
      refine ⟨?_, ?_, ?_⟩ <;> cases t <;> simp <;> ring) hrcs (Demo.merged_at 1) rfl
    (congrArg St.irc (Demo.withCurrents_at 0.1 0.1 1)) (by rw [Demo.withCurrents_at]; simp [stAt, Demo.mergedState, List.range_succ]) h h' hv hv' (by
      intro s t
      cases t <;> simp only <;> norm_num)).2
  exact ⟨o, o', v, v', h, h', hv, hv', g2⟩

end Verif
