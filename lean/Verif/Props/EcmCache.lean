import Verif.Model.InterpCache
import Verif.Props.EcmInterp
import Verif.Spec.DemoCell
/-!
# C31: does evaluating a parameter have a lasting effect?
-/

namespace Verif.Interp
open Nd

/-- The operations that are not evaluations. -/
def withoutEvals (ops : List Op) : List Op := ops.filter fun o => match o with | .eval .. => false | _ => true

/-- The result of one evaluation, now. -/
noncomputable def result (h : Interp) (others : List Nat) (soc : Nd ℝ) : Except Err (Nd ℝ) := (h.getValueM others soc).1

/-- The object as it would be without its cached pinpoints evaluates as the pure model does. -/
theorem getValueM_fst (h : Interp) (others : List Nat) (soc : Nd ℝ) : (h.getValueM others soc).1 = h.getValue others soc := by
  unfold getValueM getValue
  simp only
  by_cases h1 : soc.shape.length > 3
  · rw [if_pos h1, if_pos h1]
  · rw [if_neg h1, if_neg h1]
    cases batchLoop 1 (h.rows :: others) with
    | error e => rfl
    | ok ib =>
      simp only
      by_cases h2 : h.width = 1
      · simp only [if_pos h2]
        rfl
      · rw [if_neg h2, if_neg h2]
        have : (h.interpFuncM soc).1 = h.interpFunc soc := by
          unfold interpFuncM interpFunc pinsUsed
          cases hp : h.pins with
          | none =>
            simp only [Option.getD_some, Option.getD_none]
            rw [show ({ h with pins := some (linspace01 h.width) } : Interp).width = h.width from rfl]
            split
            · rfl
            · split <;> rfl
          | some p =>
            simp only [hp, Option.getD_some]
            split
            · rfl
            · split <;> rfl
        rw [this]
        cases h.interpFunc soc <;> rfl

theorem getValueM_snd (h : Interp) (others : List Nat) (soc : Nd ℝ) : (h.getValueM others soc).2 = h ∨
    (h.pins = none ∧ h.width ≠ 1 ∧ (h.getValueM others soc).2 = { h with pins := some (linspace01 h.width) }) := by
  have e : (h.interpFuncM soc).2 = h ∨ (h.pins = none ∧ (h.interpFuncM soc).2 = { h with pins := some (linspace01 h.width) }) := by
    unfold interpFuncM
    cases hp : h.pins with
    | none =>
      right
      refine ⟨rfl, ?_⟩
      simp only
      split
      · rfl
      · split <;> rfl
    | some p =>
      left
      simp only
      split
      · rfl
      · split <;> rfl
  unfold getValueM
  simp only
  by_cases h1 : soc.shape.length > 3
  · left; rw [if_pos h1]
  · rw [if_neg h1]
    cases batchLoop 1 (h.rows :: others) with
    | error e => left; rfl
    | ok ib =>
      simp only
      by_cases h2 : h.width = 1
      · left; rw [if_pos h2]
      · rw [if_neg h2]
        cases (h.interpFuncM soc).1 <;> simp only
        all_goals
          rcases e with e | ⟨e1, e2⟩
          · exact .inl e
          · exact .inr ⟨e1, h2, e2⟩

/-- C31 (the code violates the property): there is a parameter which, after it has been evaluated, can no longer be evaluated
with newly assigned values, although without the first evaluation it could. -/
theorem C31_evaluation_breaks_later_assignment : ∃ (h : Interp) (soc base y₁ y₂ : Nd ℝ),
    result h [] soc = .ok y₁ ∧
    result (after h (withoutEvals [.eval [] soc, .assignBase base])) [] soc = .ok y₂ ∧
    result (after h [.eval [] soc, .assignBase base]) [] soc = .error .valueError := by
  have p1 : Pinned (Cell.Demo.line 3 4) 1 2 (fun k => (k : ℝ) / ((2 : Nat) - 1 : ℝ)) :=
    ⟨rfl, rfl, le_refl _, .inr ⟨rfl, fun _ _ => rfl⟩, fun j _ k _ e => by
      have h2 : ((2 : Nat) - 1 : ℝ) = 1 := by norm_num
      simp only [h2, div_one] at e
      exact_mod_cast e⟩
  have p2 : Pinned ⟨⟨[1, 3], fun i => (i.getD 1 0 : ℝ)⟩, none, .linear⟩ 1 3 (fun k => (k : ℝ) / ((3 : Nat) - 1 : ℝ)) := by
    refine ⟨rfl, rfl, by norm_num, .inr ⟨rfl, fun _ _ => rfl⟩, fun j _ k _ e => ?_⟩
    have : (j : ℝ) = k := by
      have h2 : ((3 : Nat) - 1 : ℝ) = 2 := by norm_num
      simp only [h2] at e
      linarith
    exact_mod_cast this
  obtain ⟨y1, h1⟩ := C30_evaluates p1 (by norm_num) (n := 1) (soc := num2 0.5) (others := []) rfl (by simp)
  obtain ⟨y2, h2⟩ := C30_evaluates p2 (by norm_num) (n := 1) (soc := num2 0.5) (others := []) rfl (by simp)
  refine ⟨Cell.Demo.line 3 4, num2 0.5, ⟨[1, 3], fun i => (i.getD 1 0 : ℝ)⟩, y1, y2, ?_, ?_, ?_⟩
  · rw [result, getValueM_fst]; exact h1
  · rw [result, getValueM_fst]; exact h2
  · have e : after (Cell.Demo.line 3 4) [.eval [] (num2 0.5), .assignBase ⟨[1, 3], fun i => (i.getD 1 0 : ℝ)⟩] =
        ⟨⟨[1, 3], fun i => (i.getD 1 0 : ℝ)⟩, some (linspace01 2), .linear⟩ := by
      have e1 : ((Cell.Demo.line 3 4).getValueM [] (num2 0.5)).2 = { Cell.Demo.line 3 4 with pins := some (linspace01 2) } := by
        simp [getValueM, interpFuncM, Cell.Demo.line, width, rows, num2, batchLoop, linspace01]
      simp only [after, List.foldl_cons, List.foldl_nil, Op.act]
      rw [e1]
      rfl
    rw [e, result, getValueM_fst]
    simp [getValue, interpFunc, width, rows, num2, batchLoop, linspace01, pinsUsed]

/-- An evaluation sees the values, the style and the pinpoints used (these only with several values). -/
theorem getValue_congr {a b : Interp} (hb : a.base = b.base) (hs : a.style = b.style) (hp : a.width = 1 ∨ a.pinsUsed = b.pinsUsed)
    (others : List Nat) (soc : Nd ℝ) : a.getValue others soc = b.getValue others soc := by
  have hr : a.rows = b.rows := by rw [rows, rows, hb]
  have hw : a.width = b.width := by rw [width, width, hb]
  have hrow : a.row = b.row := by funext i; rw [row, row, hb, hw]
  unfold getValue interpFunc
  rcases hp with hp | hp
  · simp only [hr, hb, ← hw, hp, if_true]
  · simp only [hr, hb, hw, hp, hs, hrow]

/-- The objects with and without the evaluations differ at most in the cached pinpoints. -/
structure Same (w : Nat) (a b : Interp) : Prop where
  base : a.base = b.base
  style : a.style = b.style
  pins : a.pins = b.pins ∨ (b.pins = none ∧ a.pins = some (linspace01 w))

theorem Same.result {w : Nat} {a b : Interp} (h : Same w a b) (hw : a.width = 1 ∨ a.width = w) (others : List Nat) (soc : Nd ℝ) :
    result a others soc = result b others soc := by
  rw [Interp.result, Interp.result, getValueM_fst, getValueM_fst]
  refine getValue_congr h.base h.style ?_ others soc
  rcases hw with hw | hw
  · exact .inl hw
  · right
    rcases h.pins with e | ⟨e1, e2⟩
    · rw [pinsUsed, pinsUsed, e, width, width, h.base]
    · rw [pinsUsed, pinsUsed, e1, e2, ← hw, width, width, h.base]; rfl

/-- Widths of all values the object ever holds. -/
def widths (h : Interp) (ops : List Op) : List Nat :=
  h.width :: ops.filterMap fun o => match o with | .assignBase b => some (b.shape.getD 1 0) | _ => none

/-- C31, the part that holds: if the numbers of values assigned over time never change (single values aside), evaluations can be
left out of any sequence of operations without changing the result of any later evaluation.  Missing: assignments of a different
number of values while no pinpoints were given (`C31_evaluation_breaks_later_assignment`). -/
theorem C31_no_lasting_effect_partial (h : Interp) (ops : List Op) (w : Nat) (hw : ∀ v ∈ widths h ops, v = 1 ∨ v = w)
    (others : List Nat) (soc : Nd ℝ) :
    result (after h ops) others soc = result (after h (withoutEvals ops)) others soc := by
  have key : ∀ (ops : List Op) (a b : Interp), Same w a b → (∀ v ∈ widths a ops, v = 1 ∨ v = w) →
      Same w (after a ops) (after b (withoutEvals ops)) ∧ ((after a ops).width = 1 ∨ (after a ops).width = w) := by
    intro ops
    induction ops with
    | nil => intro a b hs hv; exact ⟨hs, hv _ List.mem_cons_self⟩
    | cons o ops ih =>
      intro a b hs hv
      cases o with
      | eval others soc =>
        have hb : ((a.getValueM others soc).2).base = a.base := by
          rcases getValueM_snd a others soc with e | ⟨_, _, e⟩ <;> rw [e]
        refine ih (a.getValueM others soc).2 b ?_ ?_
        · rcases getValueM_snd a others soc with e | ⟨e1, e2, e3⟩
          · rw [e]; exact hs
          · rw [e3]
            have hwa : a.width = w := (hv a.width List.mem_cons_self).resolve_left e2
            refine ⟨hs.base, hs.style, .inr ⟨?_, by rw [hwa]⟩⟩
            rcases hs.pins with e | ⟨e, _⟩
            · rw [← e]; exact e1
            · exact e
        · intro v hv'
          refine hv v ?_
          rw [widths, show ((a.getValueM others soc).2).width = a.width by rw [width, width, hb]] at hv'
          exact hv'
      | assignBase base =>
        refine ih { a with base := base } { b with base := base } ⟨rfl, hs.style, hs.pins⟩ ?_
        intro v hv'
        exact hv v (List.mem_cons_of_mem _ hv')
      | assignPins pins =>
        refine ih { a with pins := pins } { b with pins := pins } ⟨hs.base, hs.style, .inl rfl⟩ ?_
        intro v hv'
        exact hv v hv'
  obtain ⟨h1, h2⟩ := key ops h h ⟨rfl, rfl, .inl rfl⟩ hw
  exact h1.result h2 others soc

/-- C31, the part that holds: with pinpoints given (and never removed) evaluations have no lasting effect whatever is assigned. -/
theorem C31_no_lasting_effect_with_pinpoints_partial (h : Interp) (hp : h.pins ≠ none) (ops : List Op)
    (hops : ∀ o ∈ ops, ∀ p, o = .assignPins p → p ≠ none) (others : List Nat) (soc : Nd ℝ) :
    result (after h ops) others soc = result (after h (withoutEvals ops)) others soc := by
  have key : ∀ (ops : List Op) (a : Interp), a.pins ≠ none → (∀ o ∈ ops, ∀ p, o = .assignPins p → p ≠ none) →
      after a ops = after a (withoutEvals ops) := by
    intro ops
    induction ops with
    | nil => intro a _ _; rfl
    | cons o ops ih =>
      intro a ha ho
      have ho' : ∀ o ∈ ops, ∀ p, o = .assignPins p → p ≠ none := fun o h => ho o (List.mem_cons_of_mem _ h)
      cases o with
      | eval others soc =>
        have e : (a.getValueM others soc).2 = a := by
          rcases getValueM_snd a others soc with e | ⟨e1, _⟩
          · exact e
          · exact absurd e1 ha
        have := ih a ha ho'
        show after (a.getValueM others soc).2 ops = after a (withoutEvals ops)
        rw [e, this]
      | assignBase base => exact ih { a with base := base } ha ho'
      | assignPins pins => exact ih { a with pins := pins } (ho _ List.mem_cons_self _ rfl) ho'
  rw [key ops h hp hops]

/-- Non-vacuity: evaluate, assign two other values, evaluate, assign a single value. -/
example : ∀ v ∈ widths (Cell.Demo.line 3 4) [.eval [] (num2 0.5), .assignBase (Cell.Demo.line 5 6).base, .eval [] (num2 0.1),
    .assignBase (num2 3)], v = 1 ∨ v = 2 := by
  simp [widths, Cell.Demo.line, width, num2]

/-- Non-vacuity: pinpoints given, the number of values changes and changes back. -/
example : demoCurve.pins ≠ none ∧ ∀ o ∈ [Op.eval [] (num2 0.5), .assignBase (Cell.Demo.line 5 6).base, .eval [] (num2 0.1),
    .assignBase demoCurve.base], ∀ p, o = .assignPins p → p ≠ none := by
  simp [demoCurve]

end Verif.Interp
