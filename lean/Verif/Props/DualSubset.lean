import Verif.Props.DualRuns
/-!
# Concrete dual estimators of some of the parameters: C59
-/

namespace Verif
open Matrix

namespace Demo

/-- Two updatable numbers `q` and `r`. -/
def health2 : HV ℝ := .mk [['q'], ['r']] [(['q'], .arr (.ofRow [5])), (['r'], .arr (.ofRow [1]))]

theorem health2_wf : health2.WF := by
  rw [health2, WF_iff]
  refine ⟨by decide, ?_, ?_⟩
  · intro k f h; simp at h; rcases h with ⟨rfl, _⟩ | ⟨rfl, _⟩ <;> decide
  · intro k f h; simp at h; rcases h with ⟨_, rfl⟩ | ⟨_, rfl⟩ <;> trivial

theorem health2_single : Spec.Unbatched health2 := by
  intro p a h
  have := mem_iterParams_false.2 ⟨p, h, rfl⟩
  have hd : iterParams false health2 = [(['q'], .ofRow [5]), (['r'], .ofRow [1])] := rfl
  rw [hd] at this
  simp at this
  rcases this with ⟨_, rfl⟩ | ⟨_, rfl⟩ <;> rfl

noncomputable def twoCellW : CellWrapper := ⟨⟨sumCell, health2, trans, inp, .identity, .identity, .identity, 1⟩, 1⟩

/-- The wrapper estimating the parameters `ns`, `k` numbers. -/
noncomputable def twoAsohW (ns : List Name) (k : Nat) : DegradationWrapper :=
  ⟨⟨sumCell, health2, trans, inp, .identity, .identity, .identity, 1⟩, ns, 1, k, NoDegradation _ _ _ _⟩

theorem two_made : CellWrapper.make sumCell health2 trans inp .identity .identity .identity = .ok twoCellW ∧
    DegradationWrapper.make sumCell health2 trans inp (some [['q']]) (NoDegradation _ _ _ _) .identity .identity .identity =
      .ok (twoAsohW [['q']] 1) ∧
    DegradationWrapper.make sumCell health2 trans inp (some [['r'], ['q']]) (NoDegradation _ _ _ _) .identity .identity .identity =
      .ok (twoAsohW [['r'], ['q']] 2) :=
  ⟨rfl, rfl, rfl⟩

end Demo

/-- C59 fails: an estimator of `q` alone out of `q` and `r` can be built, but every step raises. -/
example : ∃ E, Dual.fromWrappers Demo.twoCellW (Demo.twoAsohW [['q']] 1) ⟨1, 1, 1⟩ ⟨1, 1, 1⟩ none (some ⟨1, 1, 1⟩) (some ⟨1, 1, 1⟩)
      (some ⟨1, 1, 1⟩) ⟨1, none, 2⟩ ⟨1, none, 2⟩ = .ok E ∧
    (∃ err, E.getEstimatedState = .error err) ∧ ∀ svd inputs meas, ∃ err, E.step svd inputs meas = .error err := by
  have hb : ∃ base, Online.make Demo.sumCell Demo.health2 Demo.trans Demo.inp [['q']] = .ok base := ⟨_, rfl⟩
  obtain ⟨base, hb⟩ := hb
  obtain ⟨ft, fa, h1, -⟩ := Dual.built_plain (cw := Demo.twoCellW) (aw := Demo.twoAsohW [['q']] 1) rfl rfl rfl rfl rfl rfl rfl
    (I := .ofRow [1]) (T := .ofRow [3]) (A := .ofRow [5]) rfl rfl rfl (nT := 1) (nA := 1) (o := 1) le_rfl le_rfl (μT := fun _ => 3)
    (μA := fun _ => 5) (Demo.flat_one 3) (Demo.flat_one 5) rfl rfl rfl rfl (by decide) (by decide) hb 1 1 1 1 1
  exact ⟨_, h1, C59_strict_subset_raises _ _ _ _ _ _ _ _ _ _ _ h1 Demo.health2_wf Demo.health2_single (by simp [Demo.twoAsohW])
    (by intro n hn; simp [Demo.twoAsohW] at hn; subst hn; exact List.mem_cons_self ..) [['r']] (.ofRow [1]) (.arr (by simp) (by simp))
    (by simp [Demo.twoAsohW, pathName, Py.joinDots]) le_rfl (fun _ => one_ne_zero) (identity_rescales 1) (.ofRow [5]) rfl rfl⟩

/-- C59 fails for all parameters in another order as well: the values of `r` and `q`, estimated in this order, are exchanged (here right after
construction, before any step). -/
theorem C59_reordered_parameters_misplaced : ∃ E, Dual.fromWrappers Demo.twoCellW (Demo.twoAsohW [['r'], ['q']] 2) ⟨1, 1, 1⟩ ⟨2, 2, 1⟩ none
      (some ⟨1, 1, 1⟩) (some ⟨2, 2, 1⟩) (some ⟨1, 1, 1⟩) ⟨1, none, 2⟩ ⟨1, none, 2⟩ = .ok E ∧
    Demo.health2.getParameters (some [['q']]) = .ok (.ofRow [5]) ∧ Demo.health2.getParameters (some [['r']]) = .ok (.ofRow [1]) ∧
    ∃ tr a, E.getEstimatedState = .ok (tr, a) ∧ a.getParameters (some [['q']]) = .ok (.ofRow [1]) ∧
      a.getParameters (some [['r']]) = .ok (.ofRow [5]) := by
  have hb : ∃ base, Online.make Demo.sumCell Demo.health2 Demo.trans Demo.inp [['r'], ['q']] = .ok base := ⟨_, rfl⟩
  obtain ⟨base, hb⟩ := hb
  have hflat : (Arr2.ofRow [(1 : ℝ), 5]).flat = ⟨2, ![1, 5]⟩ := by
    refine Vec.ext_at rfl fun i hi => ?_
    have h1 : i < 2 := hi
    interval_cases i <;> rfl
  obtain ⟨ft, fa, h1, h2, h3, -⟩ := Dual.built_plain (cw := Demo.twoCellW) (aw := Demo.twoAsohW [['r'], ['q']] 2) rfl rfl rfl rfl rfl rfl rfl
    (I := .ofRow [1]) (T := .ofRow [3]) (A := .ofRow [1, 5]) rfl rfl rfl (nT := 1) (nA := 2) (o := 1) le_rfl (by decide) (μT := fun _ => 3)
    (μA := ![1, 5]) (Demo.flat_one 3) hflat rfl rfl rfl rfl (by decide) (by decide) hb 1 1 1 1 1
  obtain ⟨_, b2, _⟩ := Online.make_ok hb
  refine ⟨_, h1, rfl, rfl, ?_⟩
  have e1 : ft.hidden.convert Demo.twoCellW.hiddenConv = .ok ⟨⟨1, fun _ => 3⟩, ⟨1, 1, 1⟩⟩ := by
    rw [h2.hidden]; exact Gaussian.convert_ok le_rfl rfl rfl
  have e2 : fa.hidden.convert (Demo.twoAsohW [['r'], ['q']] 2).hiddenConv = .ok ⟨⟨2, ![1, 5]⟩, ⟨2, 2, 1⟩⟩ := by
    rw [h3.hidden]; exact Gaussian.convert_ok (by decide) rfl rfl
  have e3 : Vec.vals ⟨2, ![1, 5]⟩ = .d1 [1, 5] := by simp [Vec.vals]
  simp only [Dual.getEstimatedState, Dual.converted, e1, e2, ok_bind, pure_eq_ok, b2, e3]
  exact ⟨_, _, rfl, rfl, rfl⟩

/-- The hypotheses of `C59_all_parameters_partial` are met by an estimator of both parameters in their own order. -/
example : ∃ E tr a, Dual.fromWrappers Demo.twoCellW (Demo.twoAsohW [['q'], ['r']] 2) ⟨1, 1, 1⟩ ⟨2, 2, 1⟩ none (some ⟨1, 1, 1⟩)
      (some ⟨2, 2, 1⟩) (some ⟨1, 1, 1⟩) ⟨1, none, 2⟩ ⟨1, none, 2⟩ = .ok E ∧ E.getEstimatedState = .ok (tr, a) ∧
    a.getParameters (some [['q'], ['r']]) = .ok (.ofRow [5, 1]) := by
  have hb : ∃ base, Online.make Demo.sumCell Demo.health2 Demo.trans Demo.inp [['q'], ['r']] = .ok base := ⟨_, rfl⟩
  obtain ⟨base, hb⟩ := hb
  have hflat : (Arr2.ofRow [(5 : ℝ), 1]).flat = ⟨2, ![5, 1]⟩ := by
    refine Vec.ext_at rfl fun i hi => ?_
    have h1 : i < 2 := hi
    interval_cases i <;> rfl
  obtain ⟨ft, fa, h1, h2, h3, -⟩ := Dual.built_plain (cw := Demo.twoCellW) (aw := Demo.twoAsohW [['q'], ['r']] 2) rfl rfl rfl rfl rfl rfl rfl
    (I := .ofRow [1]) (T := .ofRow [3]) (A := .ofRow [5, 1]) rfl rfl rfl (nT := 1) (nA := 2) (o := 1) le_rfl (by decide) (μT := fun _ => 3)
    (μA := ![5, 1]) (Demo.flat_one 3) hflat rfl rfl rfl rfl (by decide) (by decide) hb 1 1 1 1 1
  obtain ⟨_, b2, b3, _⟩ := Online.make_ok hb
  have e1 : ft.hidden.convert Demo.twoCellW.hiddenConv = .ok ⟨⟨1, fun _ => 3⟩, ⟨1, 1, 1⟩⟩ := by
    rw [h2.hidden]; exact Gaussian.convert_ok le_rfl rfl rfl
  have e2 : fa.hidden.convert (Demo.twoAsohW [['q'], ['r']] 2).hiddenConv = .ok ⟨⟨2, ![5, 1]⟩, ⟨2, 2, 1⟩⟩ := by
    rw [h3.hidden]; exact Gaussian.convert_ok (by decide) rfl rfl
  obtain ⟨tr, a, k1, _, _, k2, _⟩ := C59_all_parameters_partial ⟨base, Demo.twoCellW, Demo.twoAsohW [['q'], ['r']] 2, ft, fa⟩
    (by rw [b2]; exact Demo.health2_wf) (by rw [b2]; exact Demo.health2_single) (by rw [b3]; exact Demo.trans_wf)
    (by rw [b3]; simp [Demo.trans, Spec.held]) _ _ e1 e2 (by rw [b3]; rfl) (.ofRow [5, 1]) (by rw [b2]; rfl) rfl
  refine ⟨_, tr, a, h1, k1, ?_⟩
  simp only [b2] at k2
  refine (show a.getParameters (some [['q'], ['r']]) = _ from k2).trans ?_
  simp [Vec.toList]

end Verif
