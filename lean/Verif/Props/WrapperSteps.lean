import Verif.Proofs.RestCell
import Verif.Props.UkfScale
/-!
# Wrappers evolve and measure hidden states as the simulator does: C92, C93
-/

namespace Verif
open Matrix

/-! ## Specification -/

/-- Transient states with the layout of `c` and `B` rows in every value. -/
def Spec.Fills (c : Container ℝ) (B : Nat) (x : Container ℝ) : Prop := Spec.SameLayout x c ∧ ∀ q ∈ Spec.held x, q.2.nrow = B

/-- Evolving hidden states through controls: the last hidden states and the predictions after each update. -/
noncomputable def JointWrapper.follow (w : JointWrapper) (h : Mat) (u : Vec) : List Vec → Except Err (Mat × List Mat)
  | [] => .ok (h, [])
  | u' :: us => do
    let h' ← w.update h u u'
    let y ← w.predict h' u'
    let r ← w.follow h' u' us
    return (r.1, y :: r.2)

/-! ## Arrays -/

/-- Writing both blocks of a matrix. -/
theorem Mat.setCols_blocks {m n : Nat} (X Z : Matrix (Fin m) (Fin n) ℝ) {k : Nat} (hk : k ≤ n) :
    ∃ out, Mat.setCols ⟨m, n, X⟩ 0 k ((Mat.toArr2 ⟨m, n, Z⟩).cols 0 k).toMat = .ok out ∧
      Mat.setCols out k out.n ((Mat.toArr2 ⟨m, n, Z⟩).cols k n).toMat = .ok ⟨m, n, Z⟩ := by
  have hc : ∀ (W : Matrix (Fin m) (Fin n) ℝ) lo hi, lo ≤ hi → hi ≤ n →
      Mat.setCols ⟨m, n, W⟩ lo hi ((Mat.toArr2 ⟨m, n, Z⟩).cols lo hi).toMat =
        .ok ⟨m, n, fun i j => if lo ≤ j.1 ∧ j.1 < hi then Z i j else W i j⟩ := by
    intro W lo hi hlo h
    rw [cols_toMat Z h, Mat.setCols, if_pos ⟨.inl rfl, .inl (by simp only; omega)⟩]
    refine congrArg (fun M => Except.ok (Mat.mk m n M)) ?_
    funext i j
    have hi' : i.1 < m := i.2
    have hj' : j.1 < n := j.2
    by_cases hc : lo ≤ j.1 ∧ j.1 < hi
    · rw [if_pos hc, if_pos hc]
      have e1 : (if m = 1 then 0 else i.1) = i.1 := by split <;> omega
      have e2 : (if hi - lo = 1 then 0 else j.1 - lo) = j.1 - lo := by split <;> omega
      simp only [e1, e2]
      refine (Mat.at_lt (A := ⟨m, hi - lo, _⟩) hi' (show j.1 - lo < hi - lo by omega)).trans ?_
      simp only
      congr 1
      apply Fin.ext
      simp only
      omega
    · rw [if_neg hc, if_neg hc]
  refine ⟨_, hc X 0 k (Nat.zero_le _) hk, (hc _ k n hk (le_refl n)).trans ?_⟩
  refine congrArg (fun M => Except.ok (Mat.mk m n M)) ?_
  funext i j
  have hj' : j.1 < n := j.2
  by_cases h : k ≤ j.1
  · rw [if_pos ⟨h, hj'⟩]
  · rw [if_neg (by omega), if_pos ⟨Nat.zero_le _, by omega⟩]

/-- Transient states filling the batch are read as such, and made of what was read. -/
theorem Spec.Fills.read {c x : Container ℝ} {B : Nat} (hc : c.WF) (hne : Spec.held c ≠ []) (hB : 1 ≤ B) (hx : Spec.Fills c B x) :
    ∃ T, x.toNumpy = .ok T ∧ T.nrow = B ∧ T.ncol = c.len ∧ c.makeCopy (.d2 T) = x := by
  obtain ⟨hlay, hrow⟩ := hx
  have hnd : (x.fields.map (·.1)).Nodup := by
    have h := congrArg (List.map Prod.fst) hlay
    simp only [List.map_map, Function.comp_def] at h
    rw [h]; exact hc.1
  have hheld : Spec.held x ≠ [] := by
    have h := held_layout hlay
    intro h0
    have h0' : Spec.held ⟨x.fields⟩ = [] := h0
    rw [h0'] at h
    exact hne (by simpa using h.symm)
  have hpos : ∀ q ∈ Spec.held x, 1 ≤ q.2.nrow := fun q hq => by rw [hrow q hq]; exact hB
  have hb : x.batchSize = .ok B := by
    unfold Container.batchSize
    rw [present_eq, batchLoop_ok (by omega) (by
      intro n hn
      obtain ⟨q, hq, rfl⟩ := List.mem_map.1 hn
      exact hpos q hq)]
    refine ⟨fun n hn => ?_, ?_⟩
    · rcases List.mem_cons.1 hn with rfl | hn
      · exact .inl rfl
      · obtain ⟨q, hq, rfl⟩ := List.mem_map.1 hn
        exact .inr (hrow q hq)
    · obtain ⟨q, hq⟩ := List.exists_mem_of_ne_nil _ hheld
      exact List.mem_cons_of_mem _ (List.mem_map.2 ⟨q, hq, hrow q hq⟩)
  obtain ⟨T, hT, hTr⟩ := toNumpy_nrow hheld hpos hb
  refine ⟨T, hT, hTr, by rw [toNumpy_len hnd hT, len_layout hnd hlay], ?_⟩
  rw [← makeCopy_layout hlay]
  have h := C14_to_numpy_then_from_numpy x T B hb hT
  have e : x.makeCopy (.d2 T) = ⟨(x.fromNumpy (.d2 T)).fields⟩ := rfl
  rw [e, h]
  obtain ⟨fs⟩ := x
  simp only [Container.mk.injEq]
  conv_rhs => rw [← List.map_id fs]
  apply List.map_congr_left
  rintro ⟨k, a⟩ hk
  cases a with
  | none => rfl
  | some a =>
    have ha : a.nrow = B := hrow (k, a) (by
      simp only [Spec.held, List.mem_filterMap]
      exact ⟨(k, some a), hk, rfl⟩)
    simp only [Option.map_some, id_eq, Prod.mk.injEq, Option.some.injEq, true_and]
    rw [← expandTo_eq_broadcast hB, expandTo, if_neg (by omega)]

/-- What `make_copy` makes of an array wide enough fills as many rows as the array has. -/
theorem fills_makeCopy {c : Container ℝ} (hc : c.WF) (v : Arr2 ℝ) (hv : c.len ≤ v.ncol) : Spec.Fills c v.nrow (c.makeCopy (.d2 v)) := by
  rw [len_eq hc.1] at hv
  have key : ∀ (fs : List (Name × Option (Arr2 ℝ))) pos, pos + ((Spec.held ⟨fs⟩).map fun p => p.2.ncol).sum ≤ v.ncol →
      (Container.fillFrom v pos fs).map (fun p => (p.1, p.2.map Arr2.ncol)) = fs.map (fun p => (p.1, p.2.map Arr2.ncol)) ∧
      ∀ q ∈ Spec.held ⟨Container.fillFrom v pos fs⟩, q.2.nrow = v.nrow := by
    intro fs
    induction fs with
    | nil => exact fun _ _ => ⟨rfl, fun q hq => by cases hq⟩
    | cons f fs ih =>
      obtain ⟨k, a⟩ := f
      intro pos hp
      cases a with
      | none =>
        obtain ⟨h1, h2⟩ := ih pos hp
        exact ⟨by rw [Container.fillFrom, List.map_cons, h1, List.map_cons], h2⟩
      | some a =>
        rw [held_cons_some, List.map_cons, List.sum_cons] at hp
        simp only at hp
        obtain ⟨h1, h2⟩ := ih (pos + a.ncol) (by omega)
        refine ⟨?_, ?_⟩
        · rw [Container.fillFrom, List.map_cons, h1, List.map_cons]
          simp only [Option.map_some]
          rw [Arr2.cols_ncol _ (by omega), Nat.add_sub_cancel_left]
        · intro q hq
          rw [Container.fillFrom, held_cons_some] at hq
          rcases List.mem_cons.1 hq with rfl | hq
          · exact Arr2.cols_nrow _ _ _
          · exact h2 q hq
  exact key c.fields 0 (by rw [Nat.zero_add]; exact hv)

/-! ## C92 -/

/-- One update of the joint wrapper, with any degradation model. -/
theorem joint_update (w : JointWrapper) (hw : w.Ready) (hop : w.hiddenConv.Invertible (w.nTransients + w.nAsoh)) {h : Mat}
    (hn : h.n = w.nTransients + w.nAsoh) (hm : 1 ≤ h.m) {asoh asoh1 : HV ℝ} {tr x y : Container ℝ}
    (hin : w.createInputs h = .ok (asoh, tr)) {u u' : Vec} {i i' : Container ℝ} (hu : w.toInputs u = .ok i) (hu' : w.toInputs u' = .ok i')
    (hx : w.cell.update i i' tr asoh = .ok x) (hy : w.cell.output i tr asoh = .ok y) (hd : w.deg.update asoh i tr y = .ok asoh1)
    (hf : Spec.Fills w.transients h.m x) {A : Arr2 ℝ} (hA : asoh1.getParameters (some w.names) = .ok A) (hAr : A.nrow = h.m)
    (hAn : A.ncol = w.nAsoh) :
    ∃ h', w.update h u u' = .ok h' ∧ w.createHidden asoh1 x = .ok h' ∧ h'.m = h.m ∧ h'.n = h.n ∧
      ∃ Y, w.hiddenConv.samples2 h' = .ok Y ∧ Y.m = h.m ∧ Y.n = h.n ∧ Y.toArr2.cols w.nTransients Y.n = A ∧
        w.transients.makeCopy (.d2 (Y.toArr2.cols 0 w.nTransients)) = x := by
  obtain ⟨T, hT, hTr, hTn, hTx⟩ := hf.read hw.transients_wf hw.transients_held hm
  obtain ⟨T0, hT0, hT0n⟩ := hw.nTransients_eq
  rw [← toNumpy_len hw.transients_wf.1 hT0, hT0n] at hTn
  obtain ⟨j, hj, hjr, hjn, hj1, hj2⟩ := Arr2.hcat_pair (a := T) (b := A) (by rw [hTr, hAr])
  obtain ⟨Y0, hY0, hY0m, hY0n, _⟩ := hop.there h hn
  obtain ⟨h', hh', hh'm, hh'n, hback⟩ := hop.back j.toMat (by rw [Arr2.toMat_n, hjn, hTn, hAn])
  have hout : ∃ out, Y0.setCols 0 w.nTransients T.toMat = .ok out ∧
      out.setCols w.nTransients out.n A.toMat = .ok j.toMat := by
    obtain ⟨m, n, X⟩ := Y0
    simp only at hY0m hY0n
    have e : ∃ Z, j.toMat = ⟨m, n, Z⟩ := by
      have e1 : j.toMat.m = m := by rw [Arr2.toMat_m, hjr, hTr, hY0m]
      have e2 : j.toMat.n = n := by rw [Arr2.toMat_n, hjn, hTn, hAn, hY0n]
      revert e1 e2
      generalize j.toMat = J
      obtain ⟨a, b, J⟩ := J
      rintro rfl rfl
      exact ⟨J, rfl⟩
    obtain ⟨Z, hZ⟩ := e
    have e3 := Mat.setCols_blocks X Z (k := w.nTransients) (by omega)
    have e4 : Mat.toArr2 ⟨m, n, Z⟩ = j := by rw [← hZ, Arr2.toArr2_toMat]
    have e5 : j.cols w.nTransients n = A := by rw [hY0n, ← hAn, ← hTn, ← hjn, hj2]
    rw [e4, e5, ← hTn, hj1] at e3
    rw [hZ, ← hTn]
    exact e3
  obtain ⟨out, hout1, hout2⟩ := hout
  refine ⟨h', ?_, ?_, by rw [hh'm, Arr2.toMat_m, hjr, hTr], by rw [hh'n, hn], j.toMat, hback, by rw [Arr2.toMat_m, hjr, hTr],
    by rw [Arr2.toMat_n, hjn, hTn, hAn, hn], ?_, ?_⟩
  · simp only [JointWrapper.update, hu, hu', hin, hY0, hx, hy, hd, hT, hA, ok_bind]
    rw [hout1, ok_bind, hout2, ok_bind, hh']
  · simp only [JointWrapper.createHidden, hT, hA, hj, ok_bind]; exact hh'
  · rw [Arr2.toArr2_toMat, Arr2.toMat_n, ← hTn, hj2]
  · rw [Arr2.toArr2_toMat, ← hTn, hj1, hTx]

/-- What a filter state becomes, and what the state of health made of it holds. -/
theorem createInputs_kept (w : JointWrapper) (hw : w.Ready) (hop : w.hiddenConv.Invertible (w.nTransients + w.nAsoh)) {h : Mat}
    (hn : h.n = w.nTransients + w.nAsoh) (hm : 1 ≤ h.m) (hsome : w.names ≠ [] ∨ h.m = 1) {asoh : HV ℝ} {tr : Container ℝ}
    (hin : w.createInputs h = .ok (asoh, tr)) :
    ∃ A, asoh.getParameters (some w.names) = .ok A ∧ A.nrow = h.m ∧ A.ncol = w.nAsoh ∧
      w.asoh.makeCopy (.d2 A) (some w.names) = .ok asoh := by
  obtain ⟨Y, hY, hYm, hYn, _⟩ := hop.there h hn
  obtain ⟨a, h1, _, h3, h4⟩ := createInputs_parts w hw hY hYn (by omega) (by rw [hYm]; exact hsome)
  rw [hin] at h1
  cases h1
  refine ⟨_, h4, by rw [Arr2.cols_nrow, Mat.toArr2_nrow, hYm], ?_, h3⟩
  rw [Arr2.cols_ncol _ (by rw [Mat.toArr2_ncol])]
  omega

/-- The simulator has just made or followed the given state of health, transient states and inputs. -/
structure JointWrapper.At (w : JointWrapper) (s : Simulator (Container ℝ) (Container ℝ) (HV ℝ) (Container ℝ)) (asoh : HV ℝ)
    (tr i : Container ℝ) : Prop where
  measurement : w.cell.output i tr asoh = .ok s.measurement
  model : s.model = w.cell
  degradation : s.degradation = w.deg
  asoh : s.asoh = asoh
  transient : s.transient = tr
  input : s.input = i

theorem at_init {w : JointWrapper} {s : Simulator (Container ℝ) (Container ℝ) (HV ℝ) (Container ℝ)} {asoh : HV ℝ} {tr i : Container ℝ}
    {keep : Bool} (h : Simulator.init w.cell w.deg asoh tr i keep = .ok s) : w.At s asoh tr i := by
  unfold Simulator.init at h
  split at h
  · cases h
  · rename_i y hy
    cases h
    exact ⟨hy, rfl, rfl, rfl, rfl, rfl⟩

theorem step_at (w : JointWrapper) (hw : w.Ready) (hop : w.hiddenConv.Invertible (w.nTransients + w.nAsoh))
    (hdeg : w.deg = NoDegradation _ _ _ _) {h : Mat} (hn : h.n = w.nTransients + w.nAsoh) (hm : 1 ≤ h.m)
    (hsome : w.names ≠ [] ∨ h.m = 1) {asoh : HV ℝ} {tr : Container ℝ} (hin : w.createInputs h = .ok (asoh, tr)) {u u' : Vec}
    {i i' : Container ℝ} (hu : w.toInputs u = .ok i) (hu' : w.toInputs u' = .ok i')
    {s s' : Simulator (Container ℝ) (Container ℝ) (HV ℝ) (Container ℝ)} (hs : w.At s asoh tr i) {x y : Container ℝ}
    (hst : s.step i' = (s', .ok (x, y))) (hf : Spec.Fills w.transients h.m x) :
    w.At s' asoh x i' ∧ s'.measurement = y ∧ ∃ h', w.update h u u' = .ok h' ∧ w.createInputs h' = .ok (asoh, x) ∧
      w.predict h' u' = w.fromOutputs y ∧ h'.m = h.m ∧ h'.n = h.n := by
  obtain ⟨a6, a1, a2, a3, a4, a5⟩ := hs
  simp only [Simulator.step, a1, a2, a3, a4, a5, hdeg, NoDegradation] at hst
  split at hst
  · cases hst
  rename_i x' hx
  split at hst
  · cases hst
  rename_i y' hy
  cases hst
  obtain ⟨A, hA, hAr, hAn, hcopy⟩ := createInputs_kept w hw hop hn hm hsome hin
  obtain ⟨h', e1, _, e3, e4, Y, f1, f2, f3, f4, f5⟩ := joint_update w hw hop hn hm hin hu hu' hx a6 (by rw [hdeg]; rfl) hf hA hAr hAn
  have hin' : w.createInputs h' = .ok (asoh, x) := by
    simp only [JointWrapper.createInputs, f1, ok_bind, Mat.toArr2_ncol, f4, f5, hcopy, pure_eq_ok]
  refine ⟨⟨hy, rfl, hdeg.symm, rfl, rfl, rfl⟩, rfl, h', e1, hin', ?_, e3, e4⟩
  simp only [JointWrapper.predict, hu', hin', ok_bind, hy]

/-- C92, one step.  Let hidden states stand for a state of health and transient states, from which a simulator of the same cell
starts.  If the simulator's step with the next inputs succeeds, so does the wrapper's update; the new hidden states stand for exactly
the simulator's new state of health and transient states, and the wrapper's prediction from them is the simulator's measurement.  For
any number of hidden states at once.  Missing: models that degrade (`C92_degrades_before_the_step`, `C92_degradation_lags`). -/
theorem C92_step_partial (w : JointWrapper) (hw : w.Ready) (hop : w.hiddenConv.Invertible (w.nTransients + w.nAsoh))
    (hdeg : w.deg = NoDegradation _ _ _ _) (h : Mat) (hn : h.n = w.nTransients + w.nAsoh) (hm : 1 ≤ h.m)
    (hsome : w.names ≠ [] ∨ h.m = 1) (asoh : HV ℝ) (tr : Container ℝ) (hin : w.createInputs h = .ok (asoh, tr)) (u u' : Vec)
    (i i' : Container ℝ) (hu : w.toInputs u = .ok i) (hu' : w.toInputs u' = .ok i') (keep : Bool)
    (s s' : Simulator (Container ℝ) (Container ℝ) (HV ℝ) (Container ℝ)) (hs : Simulator.init w.cell w.deg asoh tr i keep = .ok s)
    (x y : Container ℝ) (hst : s.step i' = (s', .ok (x, y))) (hf : Spec.Fills w.transients h.m x) :
    ∃ h', w.update h u u' = .ok h' ∧ w.createInputs h' = .ok (s'.asoh, s'.transient) ∧
      w.predict h' u' = w.fromOutputs s'.measurement ∧ h'.m = h.m ∧ h'.n = h.n := by
  obtain ⟨ha, hy, h', e1, e2, e3, e4, e5⟩ := step_at w hw hop hdeg hn hm hsome hin hu hu' (at_init hs) hst hf
  exact ⟨h', e1, by rw [ha.asoh, ha.transient, e2], by rw [hy, e3], e4, e5⟩

theorem follow_at (w : JointWrapper) (hw : w.Ready) (hop : w.hiddenConv.Invertible (w.nTransients + w.nAsoh))
    (hdeg : w.deg = NoDegradation _ _ _ _) (B : Nat) (hB : 1 ≤ B) (hsome : w.names ≠ [] ∨ B = 1) (asoh : HV ℝ)
    (hcell : ∀ i i' tr x, Spec.Fills w.transients B tr → w.cell.update i i' tr asoh = .ok x → Spec.Fills w.transients B x)
    (us : List Vec) : ∀ (h : Mat) (_ : h.n = w.nTransients + w.nAsoh) (_ : h.m = B) (tr : Container ℝ)
    (_ : w.createInputs h = .ok (asoh, tr)) (_ : Spec.Fills w.transients B tr) (u : Vec) (i : Container ℝ) (_ : w.toInputs u = .ok i)
    (is : List (Container ℝ)) (_ : us.mapM w.toInputs = .ok is)
    (s s' : Simulator (Container ℝ) (Container ℝ) (HV ℝ) (Container ℝ)) (_ : w.At s asoh tr i) (ys : List (Container ℝ))
    (_ : s.evolve is = (s', .ok ys)) (zs : List Mat) (_ : ys.mapM w.fromOutputs = .ok zs),
    ∃ h', w.follow h u us = .ok (h', zs) ∧ w.createInputs h' = .ok (s'.asoh, s'.transient) := by
  induction us with
  | nil =>
    intro h hn hm tr hin hf u i hu is his s s' hs ys hev zs hzs
    rw [List.mapM_nil] at his
    cases his
    simp only [Simulator.evolve, Prod.mk.injEq, Except.ok.injEq] at hev
    obtain ⟨rfl, rfl⟩ := hev
    rw [List.mapM_nil] at hzs
    cases hzs
    exact ⟨h, rfl, by rw [hs.asoh, hs.transient, hin]⟩
  | cons u' us ih =>
    intro h hn hm tr hin hf u i hu is his s s' hs ys hev zs hzs
    rw [List.mapM_cons] at his
    simp only [bind_eq_ok_iff, pure_eq_ok, Except.ok.injEq] at his
    obtain ⟨i', hi', is', his', rfl⟩ := his
    rw [Simulator.evolve] at hev
    rcases hst : s.step i' with ⟨s1, r⟩
    rw [hst] at hev
    cases r with
    | error e => simp only [Prod.mk.injEq, reduceCtorEq, and_false] at hev
    | ok r =>
    obtain ⟨x, y⟩ := r
    simp only at hev
    rcases hev2 : s1.evolve is' with ⟨s2, r2⟩
    rw [hev2] at hev
    cases r2 with
    | error e => simp only [Prod.mk.injEq, reduceCtorEq, and_false] at hev
    | ok ys' =>
    simp only [Prod.mk.injEq, Except.ok.injEq] at hev
    obtain ⟨rfl, rfl⟩ := hev
    rw [List.mapM_cons] at hzs
    simp only [bind_eq_ok_iff, pure_eq_ok, Except.ok.injEq] at hzs
    obtain ⟨z, hz, zs', hzs', rfl⟩ := hzs
    have hx : w.cell.update i i' tr asoh = .ok x := by
      have := hst
      simp only [Simulator.step, hs.model, hs.asoh, hs.transient, hs.input] at this
      split at this
      · cases this
      rename_i x' hx'
      split at this
      · cases this
      split at this
      · cases this
      cases this
      exact hx'
    have hfx := hcell i i' tr x hf hx
    obtain ⟨ha, hy, h', e1, e2, e3, e4, e5⟩ := step_at w hw hop hdeg hn (by omega) (by rw [hm]; exact hsome) hin hu hi' hs hst
      (by rw [hm]; exact hfx)
    obtain ⟨h2, g1, g2⟩ := ih h' (by rw [e5, hn]) (by rw [e4, hm]) x e2 hfx u' i' hi' is' his' s1 s2 ha ys' hev2 zs' hzs'
    exact ⟨h2, by simp only [JointWrapper.follow, e1, e3, hz, g1, ok_bind, pure_eq_ok], g2⟩

/-- C92, histories.  Following a list of controls of any length, the wrapper's predictions are the measurements of the simulator
evolving through the same inputs, and the last hidden states stand for the simulator's final state of health and transient states.  The
cell is assumed to keep the layout and the batch of the transient states.  Missing: models that degrade. -/
theorem C92_history_partial (w : JointWrapper) (hw : w.Ready) (hop : w.hiddenConv.Invertible (w.nTransients + w.nAsoh))
    (hdeg : w.deg = NoDegradation _ _ _ _) (h : Mat) (hn : h.n = w.nTransients + w.nAsoh) (hm : 1 ≤ h.m)
    (hsome : w.names ≠ [] ∨ h.m = 1) (asoh : HV ℝ) (tr : Container ℝ) (hin : w.createInputs h = .ok (asoh, tr))
    (hcell : ∀ i i' tr x, Spec.Fills w.transients h.m tr → w.cell.update i i' tr asoh = .ok x → Spec.Fills w.transients h.m x)
    (u : Vec) (us : List Vec) (i : Container ℝ) (is : List (Container ℝ))
    (hu : w.toInputs u = .ok i) (hus : us.mapM w.toInputs = .ok is) (keep : Bool)
    (s s' : Simulator (Container ℝ) (Container ℝ) (HV ℝ) (Container ℝ)) (hs : Simulator.init w.cell w.deg asoh tr i keep = .ok s)
    (ys : List (Container ℝ)) (hev : s.evolve is = (s', .ok ys)) (zs : List Mat) (hzs : ys.mapM w.fromOutputs = .ok zs) :
    ∃ h', w.follow h u us = .ok (h', zs) ∧ w.createInputs h' = .ok (s'.asoh, s'.transient) := by
  have hf : Spec.Fills w.transients h.m tr := by
    obtain ⟨Y, hY, hYm, hYn, _⟩ := hop.there h hn
    obtain ⟨a, h1, _, _, _⟩ := createInputs_parts w hw hY hYn (by omega) (by rw [hYm]; exact hsome)
    rw [hin] at h1
    cases h1
    obtain ⟨T0, hT0, hT0n⟩ := hw.nTransients_eq
    have hlen : w.transients.len = w.nTransients := by rw [← toNumpy_len hw.transients_wf.1 hT0, hT0n]
    have := fills_makeCopy hw.transients_wf (Y.toArr2.cols 0 w.nTransients) (by
      rw [Arr2.cols_ncol _ (by rw [Mat.toArr2_ncol]; omega)]; omega)
    rwa [Arr2.cols_nrow, Mat.toArr2_nrow, hYm] at this
  exact follow_at w hw hop hdeg h.m hm hsome asoh hcell us h hn rfl tr hin hf u i hu is hus s s' (at_init hs) ys hev zs hzs

/-- C92, what happens with degradation: the wrapper degrades the state of health with the previous inputs, the transient states before
the update and the measurement belonging to them (those of the simulator *before* its step), not with the new ones. -/
theorem C92_degrades_before_the_step_partial (w : JointWrapper) (hw : w.Ready)
    (hop : w.hiddenConv.Invertible (w.nTransients + w.nAsoh)) (h : Mat) (hn : h.n = w.nTransients + w.nAsoh) (hm : 1 ≤ h.m)
    (asoh asoh1 : HV ℝ) (tr x : Container ℝ) (hin : w.createInputs h = .ok (asoh, tr)) (u u' : Vec)
    (i i' : Container ℝ) (hu : w.toInputs u = .ok i) (hu' : w.toInputs u' = .ok i') (keep : Bool)
    (s : Simulator (Container ℝ) (Container ℝ) (HV ℝ) (Container ℝ)) (hs : Simulator.init w.cell w.deg asoh tr i keep = .ok s)
    (hx : w.cell.update i i' tr asoh = .ok x) (hf : Spec.Fills w.transients h.m x)
    (hd : w.deg.update s.asoh s.input s.transient s.measurement = .ok asoh1) (A : Arr2 ℝ)
    (hA : asoh1.getParameters (some w.names) = .ok A) (hAr : A.nrow = h.m) (hAn : A.ncol = w.nAsoh) :
    ∃ h', w.update h u u' = .ok h' ∧ w.createHidden asoh1 x = .ok h' := by
  obtain ⟨a6, _, _, a3, a4, a5⟩ := at_init hs
  rw [a3, a4, a5] at hd
  obtain ⟨h', e1, e2, _⟩ := joint_update w hw hop hn hm hin hu hu' hx a6 hd hf hA hAr hAn
  exact ⟨h', e1, e2⟩

namespace Demo

/-- A cell that counts its current: `x` grows by the new input; measured as `v`. -/
def countCell : Cell where
  update _ new tr _ := do
    let i ← new.toNumpy
    let x ← tr.toNumpy
    return tr.makeCopy (.d2 ⟨x.ncol, x.rows.map (List.map (· + (i.rows.flatten.headD 0))), by
      intro r hr
      obtain ⟨r', hr', rfl⟩ := List.mem_map.1 hr
      rw [List.length_map]; exact x.wf r' hr'⟩)
  output _ tr _ := .ok ⟨(Spec.held tr).map fun p => (['v'], some p.2)⟩

/-- A degradation model that sets `q` to the input. -/
def setsQ : Degradation := ⟨fun a i _ _ => do a.makeCopy (.d2 (← i.toNumpy)) (some [['q']])⟩

/-- The joint wrapper of the counting cell. -/
def counting (deg : Degradation) : JointWrapper :=
  ⟨⟨countCell, health, trans, inp, .identity, .identity, .identity, 1⟩, [['q']], 1, 1, deg⟩

theorem counting_ready (deg : Degradation) : (counting deg).Ready :=
  ready_of_make (cell := countCell) (asoh := health) (transients := trans) (inputs := inp) (names := none) (deg := deg)
    (ch := .identity) (cc := .identity) (co := .identity) rfl health_wf (fun p a h => (health_single p a h).ge) nofun trans_wf
    (by simp [trans, Spec.held])

/-- The initial hidden state: `x = 3`, `q = 5`. -/
def hidden0 : Mat := ⟨1, 2, ![![3, 5]]⟩

end Demo

/-- C92 fails with degradation: the wrapper's health after a step is not the simulator's.  With a health parameter that follows the
input, starting at input 1 and stepping to input 2, the simulator's parameter is 2, the wrapper's is 1. -/
theorem C92_degradation_lags : ∃ (w : JointWrapper) (h h' h'' : Mat) (asoh : HV ℝ) (tr i i' x y : Container ℝ) (u u' : Vec)
    (s s' : Simulator (Container ℝ) (Container ℝ) (HV ℝ) (Container ℝ)),
    w.Ready ∧ w.createInputs h = .ok (asoh, tr) ∧ w.toInputs u = .ok i ∧ w.toInputs u' = .ok i' ∧
    Simulator.init w.cell w.deg asoh tr i true = .ok s ∧ s.step i' = (s', .ok (x, y)) ∧ Spec.Fills w.transients h.m x ∧
    w.update h u u' = .ok h' ∧ w.createHidden s'.asoh s'.transient = .ok h'' ∧ h'.at' 0 0 = h''.at' 0 0 ∧ h'.at' 0 1 = 1 ∧
    h''.at' 0 1 = 2 := by
  have hin : (Demo.counting Demo.setsQ).createInputs Demo.hidden0 =
      .ok (.mk [['q']] [(['q'], .arr (.ofRow [5])), (['r'], .arr (.ofRow [1, 2]))], ⟨[(['x'], some (.ofRow [3])), (['h'], none)]⟩) := rfl
  have h2 : Simulator.init (Demo.counting Demo.setsQ).cell (Demo.counting Demo.setsQ).deg
      (.mk [['q']] [(['q'], .arr (.ofRow [5])), (['r'], .arr (.ofRow [1, 2]))]) ⟨[(['x'], some (.ofRow [3])), (['h'], none)]⟩
      ⟨[(['i'], some (.ofRow [1]))]⟩ true = .ok _ := rfl
  refine ⟨Demo.counting Demo.setsQ, Demo.hidden0, _, _, _, _, _, _, _, _, ⟨1, ![1]⟩, ⟨1, ![2]⟩, _, _, Demo.counting_ready _, hin, rfl, rfl,
    h2, rfl, ?_, rfl, rfl, ?_, ?_, ?_⟩
  · refine ⟨rfl, fun q hq => ?_⟩
    have : Spec.held (⟨[(['x'], some (.ofRow [3 + 2])), (['h'], none)]⟩ : Container ℝ) = [(['x'], .ofRow [3 + 2])] := rfl
    have hq' : q ∈ [((['x'] : Name), (.ofRow [3 + 2] : Arr2 ℝ))] := hq
    rw [List.mem_singleton.1 hq']
    rfl
  · rfl
  · rfl
  · rfl

-- The counting cell whose `q` follows the input meets the hypotheses of the theorem on degradation.
example : ∃ h', (Demo.counting Demo.setsQ).update Demo.hidden0 ⟨1, ![1]⟩ ⟨1, ![2]⟩ = .ok h' ∧
    (Demo.counting Demo.setsQ).createHidden (.mk [['q']] [(['q'], .arr (.ofRow [1])), (['r'], .arr (.ofRow [1, 2]))])
      ⟨[(['x'], some (.ofRow [3 + 2])), (['h'], none)]⟩ = .ok h' :=
  C92_degrades_before_the_step_partial (Demo.counting Demo.setsQ) (Demo.counting_ready _) (identity_invertible _) Demo.hidden0 rfl
    (le_refl 1) (.mk [['q']] [(['q'], .arr (.ofRow [5])), (['r'], .arr (.ofRow [1, 2]))]) _ ⟨[(['x'], some (.ofRow [3])), (['h'], none)]⟩ _
    rfl ⟨1, ![1]⟩ ⟨1, ![2]⟩ _ _ rfl rfl true _ rfl rfl ⟨rfl, fun q hq => by
      have hq' : q ∈ [((['x'] : Name), (.ofRow [3 + 2] : Arr2 ℝ))] := hq
      rw [List.mem_singleton.1 hq']
      rfl⟩ rfl (.ofRow [1]) rfl rfl rfl

-- The counting cell without degradation meets the hypotheses of C92: two steps.
example : ∃ (h' : Mat) (zs : List Mat) (s' : Simulator (Container ℝ) (Container ℝ) (HV ℝ) (Container ℝ)),
    (Demo.counting (NoDegradation _ _ _ _)).follow Demo.hidden0 ⟨1, ![1]⟩ [⟨1, ![2]⟩, ⟨1, ![-4]⟩] = .ok (h', zs) ∧ zs.length = 2 ∧
      (Demo.counting (NoDegradation _ _ _ _)).createInputs h' = .ok (s'.asoh, s'.transient) ∧
      s'.transient = ⟨[(['x'], some (.ofRow [3 + 2 + -4])), (['h'], none)]⟩ := by
  have hin : (Demo.counting (NoDegradation _ _ _ _)).createInputs Demo.hidden0 =
      .ok (.mk [['q']] [(['q'], .arr (.ofRow [5])), (['r'], .arr (.ofRow [1, 2]))], ⟨[(['x'], some (.ofRow [3])), (['h'], none)]⟩) := rfl
  obtain ⟨h', e1, e2⟩ := C92_history_partial (Demo.counting (NoDegradation _ _ _ _)) (Demo.counting_ready _) (identity_invertible _) rfl
    Demo.hidden0 rfl (le_refl 1) (.inl (by simp [Demo.counting])) _ _ hin (by
      intro i i' tr x hf hx
      have hx' : (do
        let i ← i'.toNumpy
        let x ← tr.toNumpy
        return tr.makeCopy (.d2 ⟨x.ncol, x.rows.map (List.map (· + (i.rows.flatten.headD 0))), by
          intro r hr
          obtain ⟨r', hr', rfl⟩ := List.mem_map.1 hr
          rw [List.length_map]; exact x.wf r' hr'⟩) : Except Err (Container ℝ)) = .ok x := hx
      simp only [bind_eq_ok_iff, pure_eq_ok, Except.ok.injEq] at hx'
      obtain ⟨j, _, X, hX, rfl⟩ := hx'
      obtain ⟨T, hT, hTr, hTn, _⟩ := hf.read Demo.trans_wf (by simp [Demo.counting, Demo.trans, Spec.held]) (le_refl 1)
      rw [hX] at hT
      cases hT
      rw [makeCopy_layout hf.1]
      have := fills_makeCopy (c := Demo.trans) Demo.trans_wf ⟨X.ncol, X.rows.map (List.map (· + (j.rows.flatten.headD 0))), by
          intro r hr
          obtain ⟨r', hr', rfl⟩ := List.mem_map.1 hr
          rw [List.length_map]; exact X.wf r' hr'⟩ hTn.ge
      have e : ∀ B, Arr2.nrow ⟨X.ncol, X.rows.map (List.map (· + (j.rows.flatten.headD 0))), B⟩ = 1 := fun B => by
        rw [← hTr]; simp only [Arr2.nrow, List.length_map]
      rwa [e] at this)
    ⟨1, ![1]⟩ [⟨1, ![2]⟩, ⟨1, ![-4]⟩] _ _ rfl rfl true _ _ rfl _ rfl _ rfl
  exact ⟨h', _, _, e1, rfl, e2, rfl⟩

/-! ## C93 -/

/-- C93, the filter of the transient states.  Let hidden states stand for transient states from which a simulator with the wrapper's
current state of health starts.  If the simulator's step succeeds, so does the wrapper's update; the new hidden states stand for the
simulator's new transient states, and the prediction from them is the simulator's measurement – whatever the simulator's degradation
model and the number of hidden states. -/
theorem C93_transients_step (w : CellWrapper) (hwf : w.transients.WF) (hheld : Spec.held w.transients ≠ [])
    (hop : w.hiddenConv.Invertible w.transients.len) (asoh : HV ℝ) (deg : Degradation) (h X : Mat) (hn : h.n = w.transients.len)
    (hm : 1 ≤ h.m) (hX : w.hiddenConv.samples2 h = .ok X) (u u' : Vec) (i i' : Container ℝ) (hu : w.toInputs u = .ok i)
    (hu' : w.toInputs u' = .ok i') (keep : Bool) (s s' : Simulator (Container ℝ) (Container ℝ) (HV ℝ) (Container ℝ))
    (hs : Simulator.init w.cell deg asoh (w.transients.makeCopy (.d2 X.toArr2)) i keep = .ok s) (x y : Container ℝ)
    (hst : s.step i' = (s', .ok (x, y))) (hf : Spec.Fills w.transients h.m x) :
    ∃ h' X', w.update asoh h u u' = .ok h' ∧ w.hiddenConv.samples2 h' = .ok X' ∧
      w.transients.makeCopy (.d2 X'.toArr2) = s'.transient ∧ w.predict asoh h' u' = w.fromOutputs s'.measurement ∧
      h'.m = h.m ∧ h'.n = h.n := by
  unfold Simulator.init at hs
  split at hs
  · cases hs
  cases hs
  simp only [Simulator.step] at hst
  split at hst
  · cases hst
  rename_i x' hx
  split at hst
  · cases hst
  rename_i y' hy
  split at hst
  · cases hst
  cases hst
  obtain ⟨T, hT, hTr, hTn, hTx⟩ := hf.read hwf hheld hm
  obtain ⟨h', e1, e2, e3, e4⟩ := hop.back T.toMat (by rw [Arr2.toMat_n, hTn])
  refine ⟨h', T.toMat, ?_, e4, by rw [Arr2.toArr2_toMat, hTx], ?_, by rw [e2, Arr2.toMat_m, hTr], by rw [e3, hn]⟩
  · simp only [CellWrapper.update, hX, hu, hu', hx, hT, ok_bind]
    exact e1
  · simp only [CellWrapper.predict, e4, hu', ok_bind, Arr2.toArr2_toMat, hTx, hy]

/-- C93, the filter of the state of health.  Hidden states stand for a state of health; the wrapper's prediction is the measurement of a
simulator with that state of health which starts from the wrapper's transient states and previous inputs and makes one step –
whatever the simulator's degradation model and the number of hidden states. -/
theorem C93_health_prediction (w : DegradationWrapper) (deg : Degradation) (tr i : Container ℝ) (h : Mat) (asoh : HV ℝ)
    (hin : w.toAsoh h = .ok asoh) (u' : Vec) (i' : Container ℝ) (hu' : w.toInputs u' = .ok i') (keep : Bool)
    (s s' : Simulator (Container ℝ) (Container ℝ) (HV ℝ) (Container ℝ)) (hs : Simulator.init w.cell deg asoh tr i keep = .ok s)
    (x y : Container ℝ) (hst : s.step i' = (s', .ok (x, y))) :
    w.predict tr i h u' = w.fromOutputs s'.measurement := by
  unfold Simulator.init at hs
  split at hs
  · cases hs
  cases hs
  simp only [Simulator.step] at hst
  split at hst
  · cases hst
  rename_i x' hx
  split at hst
  · cases hst
  rename_i y' hy
  split at hst
  · cases hst
  cases hst
  simp only [DegradationWrapper.predict, hu', hin, hx, hy, ok_bind]

/-- C93, the update of the filter of the state of health: it remembers the inputs the transient states belong to, so that the prediction
after it starts from them, and without degradation it keeps every hidden state. -/
theorem C93_health_update (w : DegradationWrapper) (hwf : w.asoh.WF) (hsingle : Spec.Unbatched w.asoh) (hnd : w.names.Nodup)
    (hup : ∀ n ∈ w.names, n ∈ w.asoh.updatableNames) (A0 : Arr2 ℝ) (hA0 : w.asoh.getParameters (some w.names) = .ok A0)
    (hnA : A0.ncol = w.nAsoh) (hop : w.hiddenConv.Invertible w.nAsoh) (hdeg : w.deg = NoDegradation _ _ _ _)
    (tr : Container ℝ) (h : Mat) (hn : h.n = w.nAsoh) (hm : 1 ≤ h.m) (hsome : w.names ≠ [] ∨ h.m = 1) (u u' : Vec) (i i' : Container ℝ)
    (hu : w.toInputs u = .ok i) (hu' : w.toInputs u' = .ok i') :
    ∃ asoh, w.toAsoh h = .ok asoh ∧ ∀ y, w.cell.output i' tr asoh = .ok y → w.update tr h u u' = .ok (h, i) := by
  obtain ⟨Y, hY, hYm, hYn, hback⟩ := hop.there h hn
  have hall : ∀ n ∈ w.names, n ∈ w.asoh.allNames := fun n hn => updatable_subset (hup n hn)
  have htot : totalSize w.asoh w.names = w.nAsoh := by rw [width_eq hwf hsingle hall hA0, hnA]
  obtain ⟨a', m1, _, _, _, _, _, _, m8⟩ := makeCopy_writes hwf hsingle hnd hup (v := Y.toArr2) (by rw [htot, Mat.toArr2_ncol, hYn])
    (by rw [Mat.toArr2_nrow]; omega)
  have m9 := (m8 (by rw [Mat.toArr2_nrow, hYm]; exact hsome)).2
  have hA : w.toAsoh h = .ok a' := by simp only [DegradationWrapper.toAsoh, hY, ok_bind, m1]
  refine ⟨a', hA, fun y hy => ?_⟩
  simp only [DegradationWrapper.update, hu, hu', hA, hy, hdeg, NoDegradation, m9, ok_bind, Mat.toMat_toArr2, hback, pure_eq_ok]

namespace Demo

/-- The wrappers of the dual estimator for the counting cell. -/
def countingCell : CellWrapper := ⟨⟨countCell, health, trans, inp, .identity, .identity, .identity, 1⟩, 1⟩
def countingHealth : DegradationWrapper :=
  ⟨⟨countCell, health, trans, inp, .identity, .identity, .identity, 1⟩, [['q']], 1, 1, NoDegradation _ _ _ _⟩

end Demo

-- The counting cell meets the hypotheses of the C93 theorems.
example : ∃ h' X', Demo.countingCell.update Demo.health ⟨1, 1, ![![3]]⟩ ⟨1, ![1]⟩ ⟨1, ![2]⟩ = .ok h' ∧
    Demo.countingCell.hiddenConv.samples2 h' = .ok X' ∧
    Demo.countingCell.transients.makeCopy (.d2 X'.toArr2) = ⟨[(['x'], some (.ofRow [3 + 2])), (['h'], none)]⟩ := by
  obtain ⟨h', X', e1, e2, e3, _⟩ := C93_transients_step Demo.countingCell Demo.trans_wf (by simp [Demo.countingCell, Demo.trans, Spec.held])
    (identity_invertible _) Demo.health Demo.setsQ ⟨1, 1, ![![3]]⟩ _ rfl (le_refl 1) rfl ⟨1, ![1]⟩ ⟨1, ![2]⟩ _ _ rfl rfl true _ _ rfl _ _ rfl
    ⟨rfl, fun q hq => by
      have hq' : q ∈ [((['x'] : Name), (.ofRow [3 + 2] : Arr2 ℝ))] := hq
      rw [List.mem_singleton.1 hq']
      rfl⟩
  exact ⟨h', X', e1, e2, e3⟩

example : ∃ Z, Demo.countingHealth.predict Demo.trans Demo.inp ⟨1, 1, ![![7]]⟩ ⟨1, ![2]⟩ = .ok Z ∧ Z.at' 0 0 = 3 + 2 :=
  ⟨_, C93_health_prediction Demo.countingHealth Demo.setsQ Demo.trans Demo.inp ⟨1, 1, ![![7]]⟩ _ rfl ⟨1, ![2]⟩ _ rfl true _ _ rfl _ _ rfl, rfl⟩

example : Demo.countingHealth.update Demo.trans ⟨1, 1, ![![7]]⟩ ⟨1, ![1]⟩ ⟨1, ![2]⟩ = .ok (⟨1, 1, ![![7]]⟩, Demo.inp) := by
  obtain ⟨a, _, h2⟩ := C93_health_update Demo.countingHealth Demo.health_wf Demo.health_single (by simp [Demo.countingHealth])
    (Demo.counting_ready (NoDegradation _ _ _ _)).names_updatable (.ofRow [5]) rfl rfl (identity_invertible _) rfl Demo.trans ⟨1, 1, ![![7]]⟩ rfl
    (le_refl 1) (.inr rfl) ⟨1, ![1]⟩ ⟨1, ![2]⟩ _ _ rfl rfl
  exact h2 _ rfl

end Verif
