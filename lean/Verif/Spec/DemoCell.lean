import Verif.Proofs.EcmRun
/-!
# A concrete circuit for the examples

Two cells: batched capacity, RC capacitances, SOC and RC currents; everything else shared.  The open-circuit voltage and the
hysteresis depend on SOC, a temperature is measured, there are two RC elements and a series capacitor.
-/

namespace Verif.Cell.Demo
open Verif Nd Ecm

/-- A column of two values. -/
noncomputable def two (x y : ℝ) : Nd ℝ := ⟨[2, 1], fun i => if i.getD 0 0 = 0 then x else y⟩

/-- A constant parameter. -/
noncomputable def flat (x : ℝ) : Interp := ⟨num2 x, none, .linear⟩

/-- A parameter that is linear in SOC. -/
noncomputable def line (x y : ℝ) : Interp := ⟨⟨[1, 2], fun i => if i.getD 1 0 = 0 then x else y⟩, none, .linear⟩

noncomputable def res (x : ℝ) : Resistance := ⟨flat x, 25, num2 0.0025⟩

noncomputable def circuit : ASOH where
  qt := two 10 12
  ce := num2 0.99
  ocv := ⟨line 3 4, num2 25, flat 0.005⟩
  r0 := res 0.05
  c0 := some (flat 1000)
  rcs := [⟨res 0.01, ⟨two 2500 2600, none, .linear⟩⟩, ⟨res 0.02, ⟨two 1000 900, none, .linear⟩⟩]
  hyst := line 0.01 0.02
  gamma := num2 0.9

noncomputable def state : State where
  soc := two 0.5 0.6
  q0 := some (num2 0)
  irc := ⟨[2, 2], fun i => if i.getD 0 0 = 0 then 0.1 else 0.2⟩
  hyst := num2 0.001

/-- Input at `t` seconds with current `i`. -/
noncomputable def input (t i : ℝ) : Input := ⟨num2 t, num2 i, some (num2 30)⟩

theorem pars : Pars 2 circuit := by
  refine ⟨.inr rfl, .inl rfl, .inl rfl, .inl rfl, .inl rfl, .inl rfl, ⟨.inl rfl, .inl rfl⟩, ?_, ?_, .inl rfl⟩
  · intro c hc; cases hc; exact .inl rfl
  · intro rc hrc
    simp only [circuit, List.mem_cons, List.not_mem_nil, or_false] at hrc
    rcases hrc with rfl | rfl <;> exact ⟨⟨.inl rfl, .inl rfl⟩, .inr rfl⟩

theorem sts : Sts 2 circuit state :=
  ⟨.inr rfl, by intro q hq; cases hq; exact .inl rfl, .inr rfl, .inl rfl⟩

theorem ins (t i : ℝ) : Ins 2 (input t i) :=
  ⟨.inl rfl, .inl rfl, by intro q hq; cases hq; exact .inl rfl⟩

theorem usable_line (x y : ℝ) (o : List Nat) (h : ∀ k ∈ o, k = 1) : Usable (line x y) o := by
  right
  refine ⟨by simp [line, Interp.width], by simp [line, Interp.width, Interp.pinsUsed, linspace01], fun k hk => .inl (h k hk)⟩

theorem usable_res (x : ℝ) (t : Option (Nd ℝ)) : UsableRes (res x) t := ⟨.inl rfl, fun _ => rfl⟩

theorem canRun (beh : Behavior) (l : List (ℝ × ℝ)) (t i : ℝ) (h : ∀ p ∈ steps (t, i) l, p.2.1 ≠ p.1.1) :
    CanRun beh circuit (input t i) (l.map fun p => input p.1 p.2) := by
  have hall : ∀ x ∈ input t i :: l.map (fun p => input p.1 p.2), ∃ t i, x = input t i := by
    intro x hx
    rcases List.mem_cons.1 hx with rfl | hx
    · exact ⟨_, _, rfl⟩
    · obtain ⟨p, _, rfl⟩ := List.mem_map.1 hx; exact ⟨_, _, rfl⟩
  refine ⟨?_, ?_, ?_, ?_, ?_⟩
  · intro x hx
    obtain ⟨t, i, rfl⟩ := hall x hx
    exact ⟨rfl, rfl, by intro q hq; cases hq; rfl⟩
  · intro _ p hp
    have e : steps (input t i) (l.map fun p => input p.1 p.2) =
        (steps (t, i) l).map fun q => (input q.1.1 q.1.2, input q.2.1 q.2.2) := by
      clear h hall hp
      induction l generalizing t i with
      | nil => rfl
      | cons q l ih => rw [List.map_cons, steps_cons, ih q.1 q.2, steps_cons, List.map_cons]
    rw [e] at hp
    obtain ⟨q, hq, rfl⟩ := List.mem_map.1 hp
    exact h q hq
  · intro x hx rc hrc
    simp only [circuit, List.mem_cons, List.not_mem_nil, or_false] at hrc
    rcases hrc with rfl | rfl <;> exact ⟨usable_res _ _, .inl rfl⟩
  · refine ⟨2, fun rc hrc => ?_⟩
    simp only [circuit, List.mem_cons, List.not_mem_nil, or_false] at hrc
    rcases hrc with rfl | rfl <;> rfl
  · exact usable_line _ _ _ (by simp [circuit, rows, num2])

/-- Every sequence of inputs at increasing times runs. -/
theorem runs (beh : Behavior) (l : List (ℝ × ℝ)) (t i : ℝ) (h : ∀ p ∈ steps (t, i) l, p.2.1 ≠ p.1.1) :
    ∃ st', Ecm.run beh circuit (input t i) (l.map fun p => input p.1 p.2) state = .ok st' :=
  run_ok (by norm_num) pars (ins _ _) (by
    intro x hx; obtain ⟨p, _, rfl⟩ := List.mem_map.1 hx; exact ins _ _) sts (canRun beh l t i h)

/-- Every step to a different time runs. -/
theorem steps' (beh : Behavior) (t i t' i' : ℝ) (h : t' ≠ t) :
    ∃ st', update beh (input t i) (input t' i') state circuit = .ok st' := by
  obtain ⟨s, h⟩ := runs beh [(t', i')] t i (by simpa [steps] using h)
  refine ⟨s, ?_⟩
  simp only [List.map_cons, List.map_nil, Ecm.run, bind_ok] at h
  obtain ⟨s1, h1, h2⟩ := h
  cases h2
  exact h1

/-- Value of the linear parameter. -/
theorem curveAt_line (x y : ℝ) (b : Nat) (s : ℝ) : curveAt (line x y) b s = (y - x) * s + x := by
  have hw : (line x y).width = 2 := rfl
  unfold curveAt
  rw [hw]
  simp only [OfNat.ofNat_ne_one, if_false]
  show linInterp _ _ s = _
  have hp : (line x y).pinsUsed = [0, 1] := by
    simp [line, Interp.pinsUsed, Interp.width, linspace01, List.range_succ]
    norm_num
  have hr : (line x y).row (if (line x y).rows = 1 then 0 else b) = [x, y] := by
    unfold Interp.row
    rw [hw]
    simp [line, List.range_succ]
  rw [hp, hr]
  unfold linInterp
  have hm : ([(0, x), (1, y)] : List (ℝ × ℝ)).mergeSort (fun p r => decide (p.1 ≤ r.1)) = [(0, x), (1, y)] := by
    apply List.mergeSort_of_pairwise
    simp
  simp only [List.zip_cons_cons, List.zip_nil_right, hm]
  have hi : ∀ k : Nat, min (max k 1) (([(0, x), (1, y)] : List (ℝ × ℝ)).length - 1) = 1 := by
    intro k; simp only [List.length_cons, List.length_nil]; omega
  rw [hi]
  simp

end Verif.Cell.Demo
