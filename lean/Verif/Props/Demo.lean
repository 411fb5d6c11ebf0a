import Verif.Proofs.HealthMark
/-!
# A concrete object used in the non-vacuity examples
-/

namespace Verif.Demo

/-- `RCComponent`-like sub-model with one parameter `r` of width 2, marked. -/
def rc (x y : Int) : HV Int := .mk [['r']] [(['r'], .arr (.ofRow [x, y]))]

/-- Sub-model with a marked parameter `p` and an unmarked one `q`. -/
def inner : HV Int := .mk [['p']] [(['p'], .arr (.ofRow [2, 3])), (['q'], .arr (.ofRow [4]))]

/-- An object with a scalar, a nested model, a tuple, a dictionary and a field that is no parameter. -/
def obj : HV Int := .mk [['x'], ['a'], ['t']]
  [(['x'], .arr (.ofRow [1])),
   (['a'], .sub inner),
   (['t'], .tup [rc 5 6, rc 7 8]),
   (['d'], .dict [(['k'], rc 9 10)]),
   (['o'], .other)]

theorem rc_wf (x y : Int) : (rc x y).WF := by
  rw [rc, WF_iff]
  refine ⟨by simp, ?_, ?_⟩
  · intro k f h; simp at h; simp [h.1]
  · intro k f h; simp at h; rw [h.2]; trivial

theorem inner_wf : inner.WF := by
  rw [inner, WF_iff]
  refine ⟨by decide, ?_, ?_⟩
  · intro k f h; simp at h; rcases h with ⟨rfl, _⟩ | ⟨rfl, _⟩ <;> decide
  · intro k f h; simp at h; rcases h with ⟨_, rfl⟩ | ⟨_, rfl⟩ <;> trivial

theorem obj_wf : obj.WF := by
  rw [obj, WF_iff]
  refine ⟨by decide, ?_, ?_⟩
  · intro k f h; simp at h
    rcases h with ⟨rfl, _⟩ | ⟨rfl, _⟩ | ⟨rfl, _⟩ | ⟨rfl, _⟩ | ⟨rfl, _⟩ <;> decide
  · intro k f h; simp at h
    rcases h with ⟨_, rfl⟩ | ⟨_, rfl⟩ | ⟨_, rfl⟩ | ⟨_, rfl⟩ | ⟨_, rfl⟩
    · trivial
    · exact inner_wf
    · intro c hc; simp at hc; rcases hc with rfl | rfl <;> exact rc_wf _ _
    · refine ⟨by simp, ?_, ?_⟩
      · intro j c hc; simp at hc; rw [hc.1]; decide
      · intro j c hc; simp at hc; rw [hc.2]; exact rc_wf _ _
    · trivial

/-- Names, in declaration order: `x`, `a.p`, `a.q`, `t.0.r`, `t.1.r`, `d.k.r`. -/
example : obj.allNames =
    [['x'], ['a', '.', 'p'], ['a', '.', 'q'], ['t', '.', '0', '.', 'r'], ['t', '.', '1', '.', 'r'],
     ['d', '.', 'k', '.', 'r']] := by decide

example : obj.updatableNames = [['x'], ['a', '.', 'p'], ['t', '.', '0', '.', 'r'], ['t', '.', '1', '.', 'r']] := by
  decide

end Verif.Demo
