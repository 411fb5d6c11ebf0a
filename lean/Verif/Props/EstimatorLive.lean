import Verif.Props.EstimatorIsolation
import Verif.Props.EcmEstimator

namespace Verif.EstObjects
open Verif SimObjects Spec Matrix

namespace Demo
open Verif.Demo

/-- The first number of the parameter `q`. -/
def firstQ (a : HV ℝ) : ℝ := ((valueAt a ['q']).rows.headD []).headD 0

/-- A cell at rest showing the sum of its transient number and of its parameter `q`. -/
noncomputable def liveCell : Cell where
  update _ _ tr _ := .ok tr
  output _ tr a := do
    let t ← tr.toNumpy
    return ⟨[(['v'], some (t.toMat.map (· + firstQ a)).toArr2)]⟩

/-- Two updatable numbers `q` and `r`. -/
def liveHealth (c : ℝ) : HV ℝ := .mk [['q'], ['r']] [(['q'], .arr (.ofRow [c])), (['r'], .arr (.ofRow [1]))]

theorem liveHealth_wf (c : ℝ) : (liveHealth c).WF := by
  rw [liveHealth, WF_iff]
  refine ⟨?_, ?_, ?_⟩
  · show [['q'], ['r']].Nodup
    decide
  · intro k f h; simp at h; rcases h with ⟨rfl, _⟩ | ⟨rfl, _⟩ <;> decide
  · intro k f h; simp at h; rcases h with ⟨_, rfl⟩ | ⟨_, rfl⟩ <;> trivial

theorem liveHealth_single (c : ℝ) : Spec.Unbatched (liveHealth c) := by
  intro p a h
  have := mem_iterParams_false.2 ⟨p, h, rfl⟩
  have hd : iterParams false (liveHealth c) = [(['q'], .ofRow [c]), (['r'], .ofRow [1])] := rfl
  rw [hd] at this
  simp at this
  rcases this with ⟨_, rfl⟩ | ⟨_, rfl⟩ <;> rfl

/-- The wrapper of the estimator of `r`. -/
noncomputable def live (c : ℝ) : JointWrapper :=
  ⟨⟨liveCell, liveHealth c, trans, inp, .identity, .identity, .identity, 1⟩, [['r']], 1, 1, NoDegradation _ _ _ _⟩

theorem live_made (c : ℝ) : JointWrapper.make liveCell (liveHealth c) trans inp (some [['r']]) (NoDegradation _ _ _ _) .identity .identity .identity =
    .ok (live c) := rfl

theorem live_ready (c : ℝ) : (live c).Ready :=
  ready_of_make (live_made c) (liveHealth_wf c) (fun p a h => (liveHealth_single c p a h).ge)
    (by rintro ns ⟨⟩; exact ⟨by simp, by intro n hn; simp at hn; subst hn; exact List.mem_cons_of_mem _ (List.mem_cons_self ..)⟩) trans_wf (by simp [Verif.Demo.trans, Spec.held])

theorem live_output (c : ℝ) {K : Nat} (hK : 1 ≤ K) (X : Matrix (Fin K) (Fin 2) ℝ) (i : Container ℝ) : ∃ a tr,
    (live c).createInputs ⟨K, 2, X⟩ = .ok (a, tr) ∧ tr.toNumpy = .ok ((Mat.toArr2 ⟨K, 2, X⟩).cols 0 1) ∧
    a.getParameters (some [['r']]) = .ok ((Mat.toArr2 ⟨K, 2, X⟩).cols 1 2) ∧
    liveCell.output i tr a = .ok ⟨[(['v'], some (Mat.toArr2 ⟨K, 1, fun i _ => X i 0 + c⟩))]⟩ := by
  obtain ⟨a, h1, h2, h3, h4⟩ := createInputs_parts (live c) (live_ready c) (h := ⟨K, 2, X⟩) (Y := ⟨K, 2, X⟩) rfl rfl hK (.inl (by simp [live]))
  refine ⟨a, _, h1, h2, h4, ?_⟩
  have hq : firstQ a = c := by
    obtain ⟨a', g1, g2, -, -, -, -, g7, -⟩ := makeCopy_writes (liveHealth_wf c) (liveHealth_single c) (ns := [['r']]) (by simp)
      (by intro n hn; simp at hn; subst hn; exact List.mem_cons_of_mem _ (List.mem_cons_self ..)) (v := (Mat.toArr2 ⟨K, 2, X⟩).cols 1 2) rfl
      (by rw [Arr2.cols_nrow, Mat.toArr2_nrow]; exact hK)
    have h3' : (liveHealth c).makeCopy (.d2 ((Mat.toArr2 ⟨K, 2, X⟩).cols 1 2)) (some [['r']]) = .ok a := h3
    cases g1.symm.trans h3'
    have : valueAt a ['q'] = .ofRow [c] :=
      valueAt_isParam g2 (p := [['q']]) ((g7 [['q']] (.ofRow [c]) (by simp [pathName, Py.joinDots])).2 (.arr (by simp)))
    rw [firstQ, this]
    rfl
  show (do
    let t ← ((live c).transients.makeCopy (.d2 ((Mat.toArr2 ⟨K, 2, X⟩).cols 0 1))).toNumpy
    return ⟨[(['v'], some (t.toMat.map (· + firstQ a)).toArr2)]⟩ : Except Err (Container ℝ)) = _
  rw [hq]
  refine (congrArg (· >>= _) h2).trans ?_
  rw [ok_bind]
  show Except.ok _ = _
  have e := Mat.cols_toMat X (lo := 0) (hi := 1) (Nat.le_of_ble_eq_true rfl)
  have e' : (Mat.map (· + c) ((Mat.toArr2 ⟨K, 2, X⟩).cols 0 1).toMat) = ⟨K, 1, fun i _ => X i 0 + c⟩ := by
    rw [e]
    refine congrArg (Mat.mk K 1) ?_
    funext i j
    refine congrArg (X i · + c) (Fin.ext ?_)
    have : j.1 < 1 := j.2
    show 0 + j.1 = 0
    omega
  exact congrArg (fun M : Mat => Except.ok (⟨[(['v'], some M.toArr2)]⟩ : Container ℝ)) e'

theorem live_update (c : ℝ) {K : Nat} (hK : 1 ≤ K) (X : Matrix (Fin K) (Fin 2) ℝ) (u u' : Vec) : (live c).update ⟨K, 2, X⟩ u u' = .ok ⟨K, 2, X⟩ := by
  obtain ⟨a, tr, h1, h2, h3, h4⟩ := live_output c hK X ((live c).inputs.makeCopy u.vals)
  have hin : ∀ v, (live c).toInputs v = .ok ((live c).inputs.makeCopy v.vals) := fun _ => rfl
  have hs : (live c).hiddenConv.samples2 ⟨K, 2, X⟩ = .ok ⟨K, 2, X⟩ := rfl
  have hi : (live c).hiddenConv.invSamples2 ⟨K, 2, X⟩ = .ok ⟨K, 2, X⟩ := rfl
  have hc : (live c).cell.update ((live c).inputs.makeCopy u.vals) ((live c).inputs.makeCopy u'.vals) tr a = .ok tr := rfl
  have ho : (live c).cell.output ((live c).inputs.makeCopy u.vals) tr a = _ := h4
  have hd : (live c).deg = NoDegradation _ _ _ _ := rfl
  have hn : (live c).names = [['r']] := rfl
  have hT : (live c).nTransients = 1 := rfl
  simp only [JointWrapper.update, hin, h1, hs, hc, ho, hd, NoDegradation, hn, h2, h3, hT, ok_bind, pure_eq_ok]
  rw [Mat.setCols_self X (Nat.zero_le _) (by omega), ok_bind, Mat.setCols_self X (by omega) (le_refl 2), ok_bind, hi]

theorem live_predict (c : ℝ) {K : Nat} (hK : 1 ≤ K) (X : Matrix (Fin K) (Fin 2) ℝ) (u : Vec) :
    (live c).predict ⟨K, 2, X⟩ u = .ok ⟨K, 1, fun i _ => X i 0 + c⟩ := by
  obtain ⟨a, tr, h1, h2, h3, h4⟩ := live_output c hK X ((live c).inputs.makeCopy u.vals)
  have hin : (live c).toInputs u = .ok ((live c).inputs.makeCopy u.vals) := rfl
  have ho : (live c).cell.output ((live c).inputs.makeCopy u.vals) tr a = _ := h4
  simp only [JointWrapper.predict, hin, h1, ho, ok_bind, BaseWrapper.fromOutputs, one_field, Mat.toMat_toArr2]
  rfl

/-- One step of the filter: the predicted output has the fixed parameter in it. -/
theorem live_step (c : ℝ) {f : Ukf Unit} (hf : f.model = (live c).toWrapper) {μ : Fin 2 → ℝ} {P Q : Matrix (Fin 2) (Fin 2) ℝ}
    {R : Matrix (Fin 1) (Fin 1) ℝ} (h : f.Holds 2 1 μ P Q R) (hP : P.PosDef) (hQ : Q.PosDef) (hR : R.PosDef) (svd : Mat → Vec × Mat)
    (new meas : Dist) (z : Fin 1 → ℝ) (hz : meas.mean = ⟨1, z⟩) : ∃ f' x' P' S, f.step svd new meas =
      .ok (f', (⟨⟨2, x'⟩, ⟨2, 2, P'⟩⟩, ⟨⟨1, fun _ => μ 0 + c⟩, ⟨1, 1, S⟩⟩)) := by
  have := h.step_affine (F := 1) (c := 0) (H := !![1, 0]) (d := fun _ => c) hP hQ hR le_rfl svd new meas z hz f.mem (fun K hK X => by
      rw [hf]
      show (do return (← (live c).update ⟨K, 2, X⟩ _ _, ()) : Except Err (Mat × Unit)) = _
      rw [live_update c hK X]
      simp only [Matrix.one_mulVec, add_zero]
      rfl) (fun K hK X => by
      rw [hf]
      show (live c).predict ⟨K, 2, X⟩ _ = _
      rw [live_predict c hK X]
      refine congrArg (fun M => Except.ok (Mat.mk K 1 M)) ?_
      funext i j
      fin_cases j
      simp [Matrix.mulVec, dotProduct, Fin.sum_univ_two])
  have hy : !![1, 0] *ᵥ ((1 : Matrix (Fin 2) (Fin 2) ℝ) *ᵥ μ + 0) + (fun _ : Fin 1 => c) = fun _ => μ 0 + c := by
    funext j
    fin_cases j
    simp [Matrix.mulVec, dotProduct, Fin.sum_univ_two]
  dsimp only at this
  rw [hy] at this
  exact ⟨_, _, _, _, this.1⟩

/-- The objects of a caller. -/
noncomputable def liveHeap : Heap :=
  ⟨⟨1, fun _ => liveHealth 5⟩, ⟨2, fun l => if l = 0 then Verif.Demo.trans else inp⟩, ⟨0, fun _ => ⟨⟨1, 0⟩, ⟨1, 1, 1⟩⟩⟩, ⟨0, fun _ => .delta ⟨⟨1, 0⟩⟩⟩,
    ⟨2, fun l => if l = 0 then ⟨2, 2, 1⟩ else ⟨1, 1, 1⟩⟩⟩

theorem live_built : ∃ E, Joint.fromWrapper (live 5) (.inl ⟨2, 2, 1⟩) none (some ⟨2, 2, 1⟩) none none (some ⟨1, 1, 1⟩) ⟨1, none, 2⟩ = .ok E :=
  joint_built_of (live 5) (live_ready 5) (by
      intro q hq
      have : q = (['x'], Arr2.ofRow [3]) := by simpa [live, Verif.Demo.trans, Spec.held] using hq
      rw [this]; rfl) (o := 1) (nu := 1) rfl (by decide) (fun _ => one_ne_zero) (fun _ => one_ne_zero) (identity_rescales _)
    (identity_rescales _) (fun v _ => ⟨v, rfl, rfl⟩) .one .one .one ⟨1, none, 2⟩ (by norm_num) (by norm_num) nofun ⟨.ofRow [1], rfl, rfl⟩ ⟨_, rfl⟩


theorem live_call {E : Joint}
    (hE : Joint.fromWrapper (live 5) (.inl ⟨2, 2, 1⟩) none (some ⟨2, 2, 1⟩) none none (some ⟨1, 1, 1⟩) ⟨1, none, 2⟩ = .ok E) (c : ℝ)
    (svd : Mat → Vec × Mat) (y : Container ℝ) {z : Arr2 ℝ} (hz : y.toNumpy = .ok z) (hz' : z.flat.n = 1) :
    ∃ e est out, callJoint svd (putJoint E ⟨liveHealth c, Verif.Demo.trans, inp⟩) (.step inp y) = .ok (e, .step est out) ∧ out.mean = ⟨1, fun _ => 3 + c⟩ := by
  obtain ⟨u0, T, A, g0, g, u', q, r, f, a1, a2, a3, a4, a5, a6, a7, a8, a9, hw, hf⟩ := Joint.fromWrapper_ok hE
  have hT : T = .ofRow [3] := (Except.ok.inj a2).symm
  have hA : A = .ofRow [1] := (Except.ok.inj a3).symm
  have hmean : Vec.append T.flat A.flat = ⟨2, ![3, 1]⟩ := by
    rw [hT, hA]
    refine Vec.ext_at rfl fun i hi => ?_
    have : i < 2 := hi
    interval_cases i <;> rfl
  rw [hmean, Gaussian.make_of (by decide)] at a4
  cases a4
  have a5' : Gaussian.convert ⟨⟨2, ![3, 1]⟩, ⟨2, 2, 1⟩⟩ .identity true = .ok g := a5
  rw [Gaussian.unconvert_ok (by decide) rfl rfl] at a5'
  cases a5'
  cases a7
  cases a8
  have hh := Ukf.holds_of_make _ _ _ _ _ _ (by decide) a9
  let f' : Ukf Unit := { f with model := (live c).toWrapper }
  have hh' : f'.Holds 2 1 ![3, 1] 1 1 1 := ⟨rfl, rfl, hh.n_pos, hh.hidden, hh.covW, hh.covV, hh.augLen, hh.alpha_pos, hh.alpha_le, hh.beta_nonneg, hh.spread⟩
  obtain ⟨zv, hzv⟩ := Vec.eta_of hz'
  obtain ⟨f2, x', P', S, hstep⟩ := live_step c (f := f') rfl hh' .one .one .one svd (.delta ⟨(Arr2.ofRow [(1 : ℝ)]).flat⟩) (.delta ⟨z.flat⟩) zv hzv
  refine ⟨⟨E.base, live c, f2⟩, ⟨⟨2, x'⟩, ⟨2, 2, P'⟩⟩, ⟨⟨1, fun _ => 3 + c⟩, ⟨1, 1, S⟩⟩, ?_, rfl⟩
  have e : putJoint E ⟨liveHealth c, Verif.Demo.trans, inp⟩ = ⟨E.base, live c, f'⟩ := by
    unfold putJoint
    rw [hw, hf]
    rfl
  have c1 : convertVals inp none = .ok (.delta ⟨(Arr2.ofRow [(1 : ℝ)]).flat⟩) := rfl
  have c2 : convertVals y none = .ok (.delta ⟨z.flat⟩) := by simp only [convertVals, hz, ok_bind, pure_eq_ok]
  have c3 : ∀ v : Vec, Dist.convert (.delta ⟨v⟩) (live c).controlConv true = .ok (.delta ⟨v⟩) := fun _ => rfl
  have c4 : ∀ v : Vec, Dist.convert (.delta ⟨v⟩) (live c).outputConv true = .ok (.delta ⟨v⟩) := fun _ => rfl
  have c5 : Gaussian.convert ⟨⟨2, x'⟩, ⟨2, 2, P'⟩⟩ (live c).hiddenConv = .ok ⟨⟨2, x'⟩, ⟨2, 2, P'⟩⟩ := Gaussian.convert_ok (by decide) rfl rfl
  have c6 : Gaussian.convert ⟨⟨1, fun _ => ![3, 1] 0 + c⟩, ⟨1, 1, S⟩⟩ (live c).outputConv = .ok ⟨⟨1, fun _ => 3 + c⟩, ⟨1, 1, S⟩⟩ :=
    Gaussian.convert_ok (by decide) rfl rfl
  rw [e]
  simp only [callJoint, Joint.step, c1, c2, c3, c4, hstep, c5, c6, ok_bind, pure_eq_ok]

theorem live_started : ∃ w, startJoint liveHeap liveCell (some [['r']]) (NoDegradation _ _ _ _) .identity .identity .identity 0 0 1 0 none (some 0)
    (some 1) ⟨1, none, 2⟩ = .ok w := by
  obtain ⟨E, hE⟩ := live_built
  unfold startJoint
  have e1 : JointWrapper.make liveCell (liveHeap.asohs.val 0) (liveHeap.containers.val 0) (liveHeap.containers.val 1) (some [['r']])
    (NoDegradation _ _ _ _) .identity .identity .identity = .ok (live 5) := live_made 5
  have e2 : Joint.fromWrapper (live 5) (.inl (liveHeap.arrays.val 0)) (Option.map liveHeap.arrays.val none) (Option.map liveHeap.arrays.val (some 0))
    none none (Option.map liveHeap.arrays.val (some 1)) ⟨1, none, 2⟩ = .ok E := hE
  rw [e1, ok_bind, e2, ok_bind]
  exact ⟨_, rfl⟩

/-- The objects of the caller of a dual estimator. -/
noncomputable def sumHeap : Heap :=
  ⟨⟨1, fun _ => health⟩, ⟨2, fun l => if l = 0 then Verif.Demo.trans else inp⟩, ⟨0, fun _ => ⟨⟨1, 0⟩, ⟨1, 1, 1⟩⟩⟩, ⟨0, fun _ => .delta ⟨⟨1, 0⟩⟩⟩,
    ⟨1, fun _ => ⟨1, 1, 1⟩⟩⟩

theorem sum_started : ∃ w, startDual sumHeap sumCell none (NoDegradation _ _ _ _) .identity .identity .identity .identity .identity .identity 0 0 1 0 0
    none (some 0) (some 0) (some 0) ⟨1, none, 2⟩ ⟨1, none, 2⟩ = .ok w := by
  obtain ⟨E, hE, -⟩ := sum_healthy
  unfold startDual
  have e1 : CellWrapper.make sumCell (sumHeap.asohs.val 0) (sumHeap.containers.val 0) (sumHeap.containers.val 1) .identity .identity .identity
    = .ok sumCellW := sumCell_made.1
  have e2 : DegradationWrapper.make sumCell (sumHeap.asohs.val 0) (sumHeap.containers.val 0) (sumHeap.containers.val 1) none (NoDegradation _ _ _ _)
    .identity .identity .identity = .ok sumAsohW := sumCell_made.2
  have e3 : Dual.fromWrappers sumCellW sumAsohW (sumHeap.arrays.val 0) (sumHeap.arrays.val 0) (Option.map sumHeap.arrays.val none)
    (Option.map sumHeap.arrays.val (some 0)) (Option.map sumHeap.arrays.val (some 0)) (Option.map sumHeap.arrays.val (some 0)) ⟨1, none, 2⟩ ⟨1, none, 2⟩
    = .ok E := hE
  rw [e1, ok_bind, e2, ok_bind, e3, ok_bind]
  exact ⟨_, rfl⟩

end Demo

open Demo in
/-- A caller who overwrites the estimated parameter, the transient state and the inputs the estimator was built from. -/
example : ∃ w v, startJoint liveHeap liveCell (some [['r']]) (NoDegradation _ _ _ _) .identity .identity .identity 0 0 1 0 none (some 0) (some 1)
      ⟨1, none, 2⟩ = .ok w ∧ ∀ svd y, ∃ m, (liveHealth 5).makeCopy (.d1 [7]) (some [['r']]) = .ok m ∧
      (exec (joint svd) w [.make y, .setAsoh m, .setTransients ⟨[(['x'], some (.ofRow [8])), (['h'], none)]⟩, .setMine 0 ⟨[(['i'], some (.ofRow [9]))]⟩,
        .step 0 1, .setArray 0 ⟨0, 0, 0⟩, .estimated]).map (·.seen) =
      Spec.undisturbed (callJoint svd) v [.step ⟨[(['i'], some (.ofRow [9]))]⟩ y, .estimated] := by
  obtain ⟨w, hw⟩ := live_started
  obtain ⟨W, v, -, -, h3⟩ := C143_joint_isolated_partial hw (by decide) (by decide) (by decide) (by decide) (by decide)
    (by intro o ho l hl; subst hl; simp at ho; rcases ho with rfl | rfl <;> decide) (ns := [['r']]) rfl (liveHealth_wf 5)
    (by intro n hn; simp at hn; subst hn; exact List.mem_cons_of_mem _ (List.mem_cons_self ..)) (by simp)
  refine ⟨w, v, hw, fun svd y => ?_⟩
  obtain ⟨m, hm⟩ : ∃ m, (liveHealth 5).makeCopy (.d1 [7]) (some [['r']]) = .ok m := ⟨_, rfl⟩
  refine ⟨m, hm, h3 svd _ fun op hop => ?_⟩
  simp only [List.mem_cons, List.not_mem_nil, or_false] at hop
  rcases hop with rfl | rfl | rfl | rfl | rfl | rfl | rfl
  · trivial
  · exact ⟨_, hm⟩
  · show SameLayout _ _
    simp [SameLayout, liveHeap, Verif.Demo.trans, Arr2.ofRow]
  · show SameLayout _ _
    simp [SameLayout, liveHeap, inp, Arr2.ofRow]
  all_goals trivial

open Demo in
example : ∃ w v, startDual sumHeap Verif.Demo.sumCell none (NoDegradation _ _ _ _) .identity .identity .identity .identity .identity .identity 0 0 1 0 0
    none (some 0) (some 0) (some 0) ⟨1, none, 2⟩ ⟨1, none, 2⟩ = .ok w ∧ ∀ svd y x, SameLayout x Verif.Demo.trans →
      (exec (dual svd) w [.make y, .setTransients x, .step 0 1, .setMine 1 x, .state]).map (·.seen) =
      Spec.undisturbed (callDual svd) v [.step inp y, .state] := by
  obtain ⟨w, hw⟩ := sum_started
  obtain ⟨cw, aw, v, -, -, -, h3⟩ := C143_dual_isolated_partial hw (by decide) (by decide) (by decide) (by decide) (by decide) (by decide)
    (by intro o ho l hl; subst hl; simp at ho; subst ho; decide) (ns := [['q']]) rfl health_wf
    (by intro n hn; simp at hn; subst hn; exact List.mem_cons_self ..) (by simp)
  refine ⟨w, v, hw, fun svd y x hx => h3 svd _ fun op hop => ?_⟩
  simp only [List.mem_cons, List.not_mem_nil, or_false] at hop
  rcases hop with rfl | rfl | rfl | rfl | rfl
  · trivial
  · exact hx
  all_goals trivial

open Demo in
/-- C143 fails for parameters that are not estimated.  An estimator of `r` is built from a state of health with `q = 5`, and called with the inputs it
was built from.  Its prediction contains the caller's value of `q` at the time of the call, with the same arguments of all calls. -/
theorem C143_fixed_parameter_is_live : ∃ (h : Heap) (w : World JointRefs),
    startJoint h liveCell (some [['r']]) (NoDegradation _ _ _ _) .identity .identity .identity 0 0 1 0 none (some 0) (some 1) ⟨1, none, 2⟩ = .ok w ∧
    h.asohs.val 0 = liveHealth 5 ∧ ∀ svd (y : Container ℝ) z, y.toNumpy = .ok z → z.flat.n = 1 → ∃ est out est' out',
      (exec (joint svd) w [.make y, .step 0 1]).map (·.seen) = .ok [.step est out] ∧ out.mean = ⟨1, fun _ => 8⟩ ∧
      (exec (joint svd) w [.make y, .setAsoh (liveHealth 6), .step 0 1]).map (·.seen) = .ok [.step est' out'] ∧ out'.mean = ⟨1, fun _ => 9⟩ := by
  obtain ⟨E, hE⟩ := live_built
  obtain ⟨w, hw⟩ := live_started
  refine ⟨liveHeap, w, hw, rfl, fun svd y z hz hz' => ?_⟩
  obtain ⟨W, v, h1, h2, h3⟩ := C143_joint_follows hw (by decide) (by decide) (by decide) (by decide) (by decide)
    (by intro o ho l hl; subst hl; simp at ho; rcases ho with rfl | rfl <;> decide)
  cases (live_made 5).symm.trans h1
  cases hE.symm.trans h2
  obtain ⟨e, est, out, k1, k2⟩ := live_call hE 5 svd y hz hz'
  obtain ⟨e', est', out', k1', k2'⟩ := live_call hE 6 svd y hz hz'
  refine ⟨est, out, est', out', ?_, ?_, ?_, ?_⟩
  · rw [h3]
    show (do
      let r ← callJoint svd (putJoint E ⟨liveHealth 5, Verif.Demo.trans, inp⟩) (.step inp y)
      let rs ← following (callJoint svd) putJoint r.1 []
      return r.2 :: rs) = _
    rw [k1]
    rfl
  · rw [k2]; norm_num
  · rw [h3]
    show (do
      let r ← callJoint svd (putJoint E ⟨liveHealth 6, Verif.Demo.trans, inp⟩) (.step inp y)
      let rs ← following (callJoint svd) putJoint r.1 []
      return r.2 :: rs) = _
    rw [k1']
    rfl
  · rw [k2']; norm_num

end Verif.EstObjects
