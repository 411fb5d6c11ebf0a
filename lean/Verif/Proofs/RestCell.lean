import Verif.Props.Wrappers
import Verif.Props.Ukf
/-!
# The concrete wrapper of Verif/Props/Wrappers.lean seen by a filter
-/

namespace Verif
open Matrix

/-- Reading a container depends on its values only. -/
theorem toNumpy_congr {c d : Container ℝ} (h : (Spec.held c).map (·.2) = (Spec.held d).map (·.2)) : c.toNumpy = d.toNumpy := by
  have e : ∀ f : Container ℝ, f.toNumpy = (do
      let b ← batchLoop 1 (((Spec.held f).map (·.2)).map Arr2.nrow)
      Arr2.hcat (((Spec.held f).map (·.2)).map fun a => if b > 1 ∧ a.nrow = 1 then a.repeatRows b else a)) := by
    intro f
    unfold Container.toNumpy Container.batchSize
    rw [present_eq]
    simp only [List.map_map, Function.comp_def]
  rw [e, e, h]

theorem Mat.cols_toMat {m n : Nat} (Y : Matrix (Fin m) (Fin n) ℝ) {lo hi : Nat} (h : hi ≤ n) :
    ((Mat.toArr2 ⟨m, n, Y⟩).cols lo hi).toMat = ⟨m, hi - lo, fun i j => Y i ⟨lo + j.1, by omega⟩⟩ := by
  have hm : ((Mat.toArr2 ⟨m, n, Y⟩).cols lo hi).nrow = m := by simp
  have hn : ((Mat.toArr2 ⟨m, n, Y⟩).cols lo hi).ncol = hi - lo := Arr2.cols_ncol _ (by simpa using h)
  refine Mat.ext_at hm hn fun i hi' j hj => ?_
  have hi2 : i < m := hm ▸ hi'
  have hj2 : j < hi - lo := hn ▸ hj
  rw [Mat.at_lt hi' hj, Mat.at_lt hi2 hj2]
  have h3 : lo + j < n := by omega
  simp [Arr2.toMat, Mat.toArr2, Arr2.cols, List.getD_eq_getElem?_getD, hi2, List.getElem?_take, hj2, h3]

/-- Writing the columns of a matrix into it changes nothing. -/
theorem Mat.setCols_self {m n : Nat} (Y : Matrix (Fin m) (Fin n) ℝ) {lo hi : Nat} (hlo : lo ≤ hi) (h : hi ≤ n) :
    Mat.setCols ⟨m, n, Y⟩ lo hi ((Mat.toArr2 ⟨m, n, Y⟩).cols lo hi).toMat = .ok ⟨m, n, Y⟩ := by
  rw [cols_toMat Y h, Mat.setCols, if_pos ⟨.inl rfl, .inl (by simp only; omega)⟩]
  refine congrArg (fun M => Except.ok (Mat.mk m n M)) ?_
  funext i j
  have hi' : i.1 < m := i.2
  have hj' : j.1 < n := j.2
  by_cases hc : lo ≤ j.1 ∧ j.1 < hi
  · rw [if_pos hc]
    have e1 : (if m = 1 then 0 else i.1) = i.1 := by split <;> omega
    have e2 : (if hi - lo = 1 then 0 else j.1 - lo) = j.1 - lo := by split <;> omega
    simp only [e1, e2]
    refine (Mat.at_lt (A := ⟨m, hi - lo, _⟩) hi' (show j.1 - lo < hi - lo by omega)).trans ?_
    simp only
    congr 1
    apply Fin.ext
    simp only
    omega
  · rw [if_neg hc]

/-- What a filter state becomes. -/
theorem createInputs_parts (w : JointWrapper) (hw : w.Ready) {h Y : Mat} (hY : w.hiddenConv.samples2 h = .ok Y)
    (hYn : Y.n = w.nTransients + w.nAsoh) (hm : 1 ≤ Y.m) (hsome : w.names ≠ [] ∨ Y.m = 1) :
    ∃ asoh, w.createInputs h = .ok (asoh, w.transients.makeCopy (.d2 (Y.toArr2.cols 0 w.nTransients))) ∧
      (w.transients.makeCopy (.d2 (Y.toArr2.cols 0 w.nTransients))).toNumpy = .ok (Y.toArr2.cols 0 w.nTransients) ∧
      w.asoh.makeCopy (.d2 (Y.toArr2.cols w.nTransients Y.n)) (some w.names) = .ok asoh ∧
      asoh.getParameters (some w.names) = .ok (Y.toArr2.cols w.nTransients Y.n) := by
  obtain ⟨T0, hT0, hT0n⟩ := hw.nTransients_eq
  obtain ⟨A0, hA0, hA0n⟩ := hw.nAsoh_eq
  have hup : ∀ n ∈ w.names, n ∈ w.asoh.allNames := fun n hn => updatable_subset (hw.names_updatable n hn)
  have htot : totalSize w.asoh w.names = w.nAsoh := by rw [width_eq hw.asoh_wf hw.asoh_single hup hA0, hA0n]
  have hlen : w.transients.len = w.nTransients := by rw [← toNumpy_len hw.transients_wf.1 hT0, hT0n]
  have hw1 : (Y.toArr2.cols 0 w.nTransients).ncol = w.nTransients := by
    rw [Arr2.cols_ncol _ (by rw [Mat.toArr2_ncol]; omega)]; omega
  have hw2 : (Y.toArr2.cols w.nTransients Y.n).ncol = w.nAsoh := by
    rw [Arr2.cols_ncol _ (by rw [Mat.toArr2_ncol])]; omega
  have hr2 : (Y.toArr2.cols w.nTransients Y.n).nrow = Y.m := by rw [Arr2.cols_nrow, Mat.toArr2_nrow]
  obtain ⟨a', m1, _, _, _, _, _, _, m8⟩ := makeCopy_writes hw.asoh_wf hw.asoh_single hw.names_distinct hw.names_updatable
    (v := Y.toArr2.cols w.nTransients Y.n) (by rw [htot, hw2]) (by omega)
  refine ⟨a', ?_, C14_from_numpy_then_to_numpy _ hw.transients_wf hw.transients_held (.d2 _) (hw1.trans hlen.symm), m1,
    (m8 (by rw [hr2]; exact hsome)).2⟩
  simp only [JointWrapper.createInputs, hY, ok_bind, Mat.toArr2_ncol, pure_eq_ok, m1]

/-- A cell at rest whose state of health does not degrade keeps every filter state. -/
theorem update_rest (w : JointWrapper) (hw : w.Ready) (hcell : ∀ p n tr a, w.cell.update p n tr a = .ok tr)
    (hout : ∀ i tr a, ∃ y, w.cell.output i tr a = .ok y) (hdeg : w.deg = NoDegradation _ _ _ _) {h Y : Mat}
    (hY : w.hiddenConv.samples2 h = .ok Y) (hback : w.hiddenConv.invSamples2 Y = .ok h)
    (hYn : Y.n = w.nTransients + w.nAsoh) (hm : 1 ≤ Y.m) (hsome : w.names ≠ [] ∨ Y.m = 1) {u u' v v' : Vec}
    (hv : w.controlConv.samples1 u = .ok v) (hv' : w.controlConv.samples1 u' = .ok v') : w.update h u u' = .ok h := by
  obtain ⟨a, h1, h2, _, h3⟩ := createInputs_parts w hw hY hYn hm hsome
  obtain ⟨m, n, Y⟩ := Y
  simp only at hYn hm hsome
  obtain ⟨y, hy⟩ := hout (w.inputs.makeCopy v.vals) (w.transients.makeCopy (.d2 ((Mat.toArr2 ⟨m, n, Y⟩).cols 0 w.nTransients))) a
  simp only [JointWrapper.update, BaseWrapper.toInputs, hv, hv', h1, hY, hcell, hy, hdeg, NoDegradation, h2, h3, ok_bind, pure_eq_ok]
  rw [Mat.setCols_self Y (Nat.zero_le _) (by omega), ok_bind, Mat.setCols_self Y (by omega) (le_refl n), ok_bind, hback]

namespace Demo

theorem held_shown (l : List (Name × Arr2 ℝ)) :
    (Spec.held ⟨l.map fun p => (['v'], some p.2)⟩).map (·.2) = l.map (·.2) := by
  induction l with
  | nil => rfl
  | cons p l ih => simpa [Spec.held] using ih

/-- The filter sees a static state of two numbers, of which the first is measured, in whatever coordinates. -/
theorem joint_rowWise' {op : Operator} (r : (Fin 2 → ℝ) → Fin 2 → ℝ)
    (hs : ∀ m (X : Matrix (Fin m) (Fin 2) ℝ), op.samples2 ⟨m, 2, X⟩ = .ok ⟨m, 2, fun i => r (X i)⟩)
    (hi : ∀ m (X : Matrix (Fin m) (Fin 2) ℝ), op.invSamples2 ⟨m, 2, fun i => r (X i)⟩ = .ok ⟨m, 2, X⟩) :
    RowWise (joint op).toWrapper 2 1 (fun _ => True) (fun _ => True) := by
  intro s u u' _ _ _
  refine ⟨fun x => x, fun x _ => r x 0, (), trivial, fun K hK X => ?_, fun K hK X => ?_⟩
  · show (do return (← (joint op).update ⟨K, 2, X⟩ u u', ()) : Except Err (Mat × Unit)) = _
    rw [update_rest (joint op) (joint_ready _) (fun _ _ _ _ => rfl) (fun _ _ _ => ⟨_, rfl⟩) rfl (hs K X) (hi K X) rfl hK
      (.inl (by simp [joint])) (v := u) (v' := u') rfl rfl]
    rfl
  · show (joint op).predict ⟨K, 2, X⟩ u' = _
    obtain ⟨a, h1, h2, _, _⟩ := createInputs_parts (joint op) (joint_ready _) (hs K X) rfl hK (.inl (by simp [joint]))
    have hu : (joint op).controlConv.samples1 u' = .ok u' := rfl
    simp only [JointWrapper.predict, BaseWrapper.toInputs, h1, hu, ok_bind, pure_eq_ok]
    show (joint op).fromOutputs ⟨(Spec.held ((joint op).transients.makeCopy
      (.d2 ((Mat.toArr2 ⟨K, 2, fun i => r (X i)⟩).cols 0 (joint op).nTransients)))).map fun p => (['v'], some p.2)⟩ = _
    rw [BaseWrapper.fromOutputs, toNumpy_congr (d := (joint op).transients.makeCopy
      (.d2 ((Mat.toArr2 ⟨K, 2, fun i => r (X i)⟩).cols 0 (joint op).nTransients))) (held_shown _), h2, ok_bind,
      Mat.cols_toMat (fun i => r (X i)) (Nat.le_of_ble_eq_true rfl)]
    refine congrArg (fun M => Except.ok (Mat.mk K 1 M)) ?_
    funext i j
    refine congrArg (r (X i)) (Fin.ext ?_)
    have : j.1 < 1 := j.2
    show 0 + j.1 = 0
    omega

/-- The filter sees a static state of two numbers, of which the first is measured. -/
theorem joint_rowWise : RowWise (joint .identity).toWrapper 2 1 (fun _ => True) (fun _ => True) :=
  joint_rowWise' (fun x => x) (fun _ _ => rfl) (fun _ _ => rfl)

end Demo
end Verif
