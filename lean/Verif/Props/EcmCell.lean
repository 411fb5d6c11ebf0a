import Verif.Proofs.EcmHidden
import Verif.Proofs.DemoCircuit
import Verif.Props.UkfScale
import Verif.Props.JointRuns
import Verif.Props.WrapperSteps
/-!
# Hidden states of an equivalent circuit are cells (C102)
-/

namespace Verif
open Ecm Cell Spec

variable {w : JointWrapper} {beh : Behavior} {x : Fixed} {measured series : Bool} {a : ASOH}

/-! ## Proofs -/

theorem toArr2_getD {K n : Nat} (Y : Matrix (Fin K) (Fin n) ℝ) (i : Fin K) : (Mat.toArr2 ⟨K, n, Y⟩).rows.getD i [] = List.ofFn (Y i) := by
  simp [Mat.toArr2, List.getD_eq_getElem?_getD]

theorem circuit_width (hc : EstimatesCircuit w beh x measured series a) :
    w.nTransients = (1 + (if series then 1 else 0)) + a.rcs.length + 1 := by
  obtain ⟨T0, hT0, hT0n⟩ := hc.ready.nTransients_eq
  rw [← hT0n, toNumpy_len hc.ready.transients_wf.1 hT0, len_layout hc.ready.transients_wf.1 hc.transients]
  cases series <;>
    simp [Container.len, Container.allFields, Container.lengthField, circuitState, assoc, kSoc, kQ0, kIrc, kHyst, Arr2.scalar, Arr2.ofRow] <;>
    omega

theorem plain_ready (hw : w.Ready) : w.plain.Ready := ⟨hw.1, hw.2, hw.3, hw.4, hw.5, hw.6, hw.7, hw.8⟩

/-- Everything the circuit is given for a batch of hidden states. -/
theorem circuit_parts (hc : EstimatesCircuit w beh x measured series a) {K : Nat} (hK : 1 ≤ K)
    (Y : Matrix (Fin K) (Fin (w.nTransients + w.nAsoh)) ℝ) :
    ∃ m b st, w.plain.createInputs ⟨K, _, Y⟩ = .ok (m, w.transients.makeCopy (.d2 ((Mat.toArr2 ⟨K, _, Y⟩).cols 0 w.nTransients))) ∧
      readState (w.transients.makeCopy (.d2 ((Mat.toArr2 ⟨K, _, Y⟩).cols 0 w.nTransients))) = .ok st ∧
      m.getParameters (some w.names) = .ok ((Mat.toArr2 ⟨K, _, Y⟩).cols w.nTransients (w.nTransients + w.nAsoh)) ∧
      readASOH x m = .ok b ∧ ASOHRel (batchRel w.names K) a b ∧ Pars K b ∧ Sts K b st ∧ rows st.soc = K ∧ rows st.hyst = K ∧
      st.q0.isSome = series ∧ (∀ i : Fin K, stAt st i = St.ofVec series a.rcs.length (List.ofFn (Y i))) ∧
      ∀ i : Fin K, CellWith w x ((List.ofFn (Y i)).drop w.nTransients) (parAt b i) := by
  obtain ⟨m, h1, _, h3, h4⟩ := createInputs_parts w.plain (plain_ready hc.ready) (h := ⟨K, _, Y⟩) (Y := ⟨K, _, Y⟩) rfl rfl hK
    (.inl hc.estimates)
  replace h3 : w.asoh.makeCopy (.d2 ((Mat.toArr2 ⟨K, _, Y⟩).cols w.nTransients (w.nTransients + w.nAsoh))) (some w.names) = .ok m := h3
  have hw1 : ((Mat.toArr2 ⟨K, _, Y⟩).cols 0 w.nTransients).ncol = w.nTransients := by
    rw [Arr2.cols_ncol _ (by rw [Mat.toArr2_ncol]; simp)]; omega
  have hr1 : ((Mat.toArr2 ⟨K, _, Y⟩).cols 0 w.nTransients).nrow = K := by rw [Arr2.cols_nrow, Mat.toArr2_nrow]
  have hw2 : ((Mat.toArr2 ⟨K, _, Y⟩).cols w.nTransients (w.nTransients + w.nAsoh)).ncol = w.nAsoh := by
    rw [Arr2.cols_ncol _ (by rw [Mat.toArr2_ncol])]; omega
  have hr2 : ((Mat.toArr2 ⟨K, _, Y⟩).cols w.nTransients (w.nTransients + w.nAsoh)).nrow = K := by rw [Arr2.cols_nrow, Mat.toArr2_nrow]
  have htot : totalSize w.asoh w.names = w.nAsoh := by
    obtain ⟨A0, hA0, hA0n⟩ := hc.ready.nAsoh_eq
    rw [width_eq hc.ready.asoh_wf hc.ready.asoh_single (fun n hn => updatable_subset (hc.ready.names_updatable n hn)) hA0, hA0n]
  obtain ⟨-, k2⟩ := copy_alike hc.ready.asoh_wf hc.ready.asoh_single hc.ready.names_distinct hc.ready.names_updatable
    (by rw [hw2, htot]) (by rw [hr2]; exact hK) h3
  obtain ⟨b, k3, k4⟩ := readASOH_alike k2 hc.read
  have k4' : ASOHRel (batchRel w.names K) a b := by
    rw [← hr2]; exact k4
  obtain ⟨st, s1, s2, s3, s4, s5, s6⟩ := readState_copy series a.rcs.length ((Mat.toArr2 ⟨K, _, Y⟩).cols 0 w.nTransients)
    (by rw [hw1, circuit_width hc])
  rw [hr1] at s2 s3 s5 s6
  rw [← makeCopy_layout hc.transients] at s1
  have hrow : ∀ i : Fin K, ((Mat.toArr2 ⟨K, _, Y⟩).cols 0 w.nTransients).rows.getD i [] = (List.ofFn (Y i)).take w.nTransients := by
    intro i
    have := toArr2_getD Y i
    have hi : (i : Nat) < (Mat.toArr2 ⟨K, _, Y⟩).rows.length := by
      have := Mat.toArr2_nrow ⟨K, _, Y⟩
      simp only [Arr2.nrow] at this
      rw [this]; exact i.2
    rw [List.getD_eq_getElem?_getD, List.getElem?_eq_getElem hi, Option.getD_some] at this
    simp only [Arr2.cols, List.getD_eq_getElem?_getD, List.getElem?_map, List.getElem?_eq_getElem hi, Option.map_some, Option.getD_some,
      this, Nat.sub_zero, List.drop_zero]
  refine ⟨m, b, st, h1, s1, h4, k3, k4', pars_batch k4' hc.single, s5 b ?_, s2, s3, s4, fun i => ?_, fun i => ?_⟩
  · exact k4'.rcs.1
  · rw [s6 i i.2, hrow i]
    have hn := circuit_width hc
    unfold St.ofVec
    simp only [List.getD_eq_getElem?_getD, List.getElem?_take, List.drop_take, List.take_take]
    congr 1
    · rw [if_pos (by omega)]
    · cases series
      · rfl
      · simp only [if_true] at hn ⊢
        rw [if_pos (by omega)]
    · congr 1
      omega
    · rw [if_pos (by omega)]
  · have hv : Arr2.RowOf i ((Mat.toArr2 ⟨K, _, Y⟩).cols w.nTransients (w.nTransients + w.nAsoh))
        (.ofRow ((List.ofFn (Y i)).drop w.nTransients)) := by
      have := toArr2_getD Y i
      have hi : (i : Nat) < (Mat.toArr2 ⟨K, _, Y⟩).rows.length := by
        have := Mat.toArr2_nrow ⟨K, _, Y⟩
        simp only [Arr2.nrow] at this
        rw [this]; exact i.2
      rw [List.getD_eq_getElem?_getD, List.getElem?_eq_getElem hi, Option.getD_some] at this
      refine ⟨by rw [hw2]; simp [Arr2.ofRow], ?_⟩
      have e : (if ((Mat.toArr2 ⟨K, _, Y⟩).cols w.nTransients (w.nTransients + w.nAsoh)).nrow = 1 then 0 else (i : Nat)) = i := by
        rw [hr2]; split <;> omega
      rw [e]
      simp only [Arr2.ofRow, Arr2.cols, List.getD_eq_getElem?_getD, List.getElem?_map, List.getElem?_eq_getElem hi, Option.map_some,
        Option.getD_some, this]
      rw [List.take_of_length_le (by simp)]
    obtain ⟨mi, g1, g2⟩ := copy_row hc.ready.asoh_wf hc.ready.asoh_single hc.ready.names_distinct hc.ready.names_updatable
      (by rw [hw2, htot]) (by rw [hr2]; exact hK) h3 hv
    obtain ⟨bi, g3, g4⟩ := readASOH_alike g2 k3
    exact ⟨mi, bi, g1, g3, (parAt_row g4).symm⟩

theorem cols_getD {A : Arr2 ℝ} {lo hi i : Nat} (h : i < A.nrow) :
    (A.cols lo hi).rows.getD i [] = ((A.rows.getD i []).drop lo).take (hi - lo) := by
  have h' : i < A.rows.length := h
  simp only [Arr2.cols, List.getD_eq_getElem?_getD, List.getElem?_map, List.getElem?_eq_getElem h', Option.map_some, Option.getD_some]

/-- Writing the transient states into a matrix of hidden states and its own parameters back. -/
theorem setCols_rows {K k n : Nat} (Y : Matrix (Fin K) (Fin (k + n)) ℝ) {T : Arr2 ℝ} (hr : T.nrow = K) (hn : T.ncol = k) :
    ∃ out Z, Mat.setCols ⟨K, _, Y⟩ 0 k T.toMat = .ok out ∧
      out.setCols k out.n ((Mat.toArr2 ⟨K, _, Y⟩).cols k (k + n)).toMat = .ok ⟨K, k + n, Z⟩ ∧
      ∀ i : Fin K, List.ofFn (Z i) = T.rows.getD i [] ++ (List.ofFn (Y i)).drop k := by
  have hAr : ((Mat.toArr2 ⟨K, _, Y⟩).cols k (k + n)).nrow = K := by rw [Arr2.cols_nrow, Mat.toArr2_nrow]
  have hAn : ((Mat.toArr2 ⟨K, _, Y⟩).cols k (k + n)).ncol = n := by
    rw [Arr2.cols_ncol _ (by rw [Mat.toArr2_ncol])]; omega
  obtain ⟨j, hj, hjr, hjn, hj1, hj2⟩ := Arr2.hcat_pair (a := T) (b := (Mat.toArr2 ⟨K, _, Y⟩).cols k (k + n)) (by rw [hr, hAr])
  have e : ∃ Z, j.toMat = ⟨K, k + n, Z⟩ := by
    have e1 : j.toMat.m = K := by rw [Arr2.toMat_m, hjr, hr]
    have e2 : j.toMat.n = k + n := by rw [Arr2.toMat_n, hjn, hn, hAn]
    revert e1 e2
    generalize j.toMat = J
    obtain ⟨a, b, J⟩ := J
    rintro rfl h
    simp only at h
    subst h
    exact ⟨J, rfl⟩
  obtain ⟨Z, hZ⟩ := e
  obtain ⟨out, e3, e3'⟩ := Mat.setCols_blocks Y Z (k := k) (by omega)
  have e4 : Mat.toArr2 ⟨K, k + n, Z⟩ = j := by rw [← hZ, Arr2.toArr2_toMat]
  have hjn' : j.ncol = k + n := by rw [hjn, hn, hAn]
  rw [hn, hjn'] at hj2
  rw [hn] at hj1
  rw [e4, hj1] at e3
  rw [e4, hj2] at e3'
  refine ⟨out, Z, e3, e3', fun i => ?_⟩
  have hi : (i : Nat) < j.nrow := by rw [hjr, hr]; exact i.2
  have hi' : (i : Nat) < (Mat.toArr2 ⟨K, k + n, Y⟩).nrow := by rw [Mat.toArr2_nrow]; exact i.2
  have r0 : List.ofFn (Z i) = j.rows.getD i [] := by rw [← toArr2_getD, e4]
  have hlen : (j.rows.getD i []).length = k + n := by rw [← r0]; simp
  have r1 : (j.rows.getD i []).take k = T.rows.getD i [] := by rw [← hj1, cols_getD hi]; simp
  have r2 : (j.rows.getD i []).drop k = (List.ofFn (Y i)).drop k := by
    have h : (j.cols k (k + n)).rows.getD i [] = ((Mat.toArr2 ⟨K, k + n, Y⟩).cols k (k + n)).rows.getD i [] := by rw [hj2]
    rw [cols_getD hi, cols_getD hi', toArr2_getD, List.take_of_length_le (by rw [List.length_drop, hlen]),
      List.take_of_length_le (by simp)] at h
    exact h
  rw [r0, ← r1, ← r2, List.take_append_drop]

/-- The update of a batch of hidden states in the coordinates of the model: what is needed for it to return, and its rows. -/
theorem circuit_update (hc : EstimatesCircuit w beh x measured series a) {K : Nat} (hK : 1 ≤ K)
    (Y : Matrix (Fin K) (Fin (w.nTransients + w.nAsoh)) ℝ) {v v' : Vec} (hv : v.n = 2 + (if measured then 1 else 0))
    (hv' : v'.n = 2 + (if measured then 1 else 0)) :
    (∀ H, w.plain.update ⟨K, _, Y⟩ v v' = .ok H → ∃ Z, H = ⟨K, w.nTransients + w.nAsoh, Z⟩ ∧ ∀ i : Fin K,
      ∃ p, CellWith w x ((List.ofFn (Y i)).drop w.nTransients) p ∧
        List.ofFn (Z i) = (step beh (In.ofVec measured (List.ofFn v.get)) (In.ofVec measured (List.ofFn v'.get))
          (St.ofVec series a.rcs.length (List.ofFn (Y i))) p).toVec ++ (List.ofFn (Y i)).drop w.nTransients) ∧
    ((beh = .linear → (List.ofFn v'.get).getD 0 0 ≠ (List.ofFn v.get).getD 0 0) → Estimable w.names measured series a →
      ∃ H, w.plain.update ⟨K, _, Y⟩ v v' = .ok H) ∧
    (2 ≤ K → (beh = .linear → (List.ofFn v'.get).getD 0 0 ≠ (List.ofFn v.get).getD 0 0) →
      (∃ H, w.plain.update ⟨K, _, Y⟩ v v' = .ok H) → Estimable w.names measured series a) := by
  obtain ⟨m, b, st, c1, c2, c3, c4, c5, c6, c7, c8, c9, c10, c11, c12⟩ := circuit_parts hc hK Y
  obtain ⟨i, i1, i2, i3, i4⟩ := readInput_copy measured (List.ofFn v.get) (by rw [List.length_ofFn, hv])
  obtain ⟨i', j1, j2, j3, j4⟩ := readInput_copy measured (List.ofFn v'.get) (by rw [List.length_ofFn, hv'])
  rw [← makeCopy_layout hc.inputs] at i1 j1
  have t0 : ∀ {q : Input}, Ins 1 q → q.time.get [0, 0] = (inAt q 0).time := by
    intro q hq
    have : q.time.shape = [1, 1] := hq.time.elim id id
    simp only [inAt, at2, rows, this]
    rfl
  have tt : i.time.get [0, 0] = (List.ofFn v.get).getD 0 0 := by rw [t0 (i2 1), i4]; rfl
  have tt' : i'.time.get [0, 0] = (List.ofFn v'.get).getD 0 0 := by rw [t0 (j2 1), j4]; rfl
  have heq : w.plain.update ⟨K, _, Y⟩ v v' = (do
      let st' ← Ecm.update beh i i' st b
      let _ ← voltage i st b
      let out ← Mat.setCols ⟨K, _, Y⟩ 0 w.nTransients (← st'.toContainer.toNumpy).toMat
      out.setCols w.nTransients out.n ((Mat.toArr2 ⟨K, _, Y⟩).cols w.nTransients (w.nTransients + w.nAsoh)).toMat) := by
    have e1 : w.plain.toInputs v = .ok (w.inputs.makeCopy (.d1 (List.ofFn v.get))) := rfl
    have e2 : w.plain.toInputs v' = .ok (w.inputs.makeCopy (.d1 (List.ofFn v'.get))) := rfl
    have e3 : w.plain.cell = Ecm.cell beh x := hc.cell
    have e4 : w.plain.deg = NoDegradation _ _ _ _ := hc.deg
    have e5 : w.plain.names = w.names := rfl
    have e6 : w.plain.nTransients = w.nTransients := rfl
    have e7 : ∀ M : Mat, w.plain.hiddenConv.samples2 M = .ok M := fun _ => rfl
    have e8 : w.plain.hiddenConv.invSamples2 = fun M => .ok M := rfl
    unfold JointWrapper.update
    rw [e1, e2, c1, e3, e4, e7]
    simp only [ok_bind, Ecm.cell, i1, j1, c2, c4, NoDegradation, pure_eq_ok, bind_assoc, c3, e5, e6, e8]
    refine congrArg _ (funext fun st' => ?_)
    refine congrArg _ (funext fun y => ?_)
    refine congrArg _ (funext fun T => ?_)
    refine congrArg _ (funext fun out => ?_)
    cases out.setCols w.nTransients out.n ((Mat.toArr2 ⟨K, _, Y⟩).cols w.nTransients (w.nTransients + w.nAsoh)).toMat <;> rfl
  have fwd : ∀ st' y, Ecm.update beh i i' st b = .ok st' → voltage i st b = .ok y → ∃ Z,
      w.plain.update ⟨K, _, Y⟩ v v' = .ok ⟨K, w.nTransients + w.nAsoh, Z⟩ ∧ ∀ k : Fin K,
        List.ofFn (Z k) = (step beh (In.ofVec measured (List.ofFn v.get)) (In.ofVec measured (List.ofFn v'.get))
          (St.ofVec series a.rcs.length (List.ofFn (Y k))) (parAt b k)).toVec ++ (List.ofFn (Y k)).drop w.nTransients := by
    intro st' y hu hy
    obtain ⟨hs', hst⟩ := update_rows hK c6 (i2 K) (j2 K) c7 hu
    have hr' := update_soc_rows hK c6 (i2 K) (j2 K) c7 c8 hu
    obtain ⟨T, hT, hTr, hTn, hTi⟩ := state_toNumpy hK hs' hr'
    have hq' : st'.q0.isSome = series := by
      have := congrArg (fun s : St => s.q0.isSome) (hst 0 hK)
      simp only [stAt, step, Option.isSome_map] at this
      rw [this, c10]
    have hTn' : T.ncol = w.nTransients := by
      rw [hTn, circuit_width hc, hq', c5.rcs.1]
    obtain ⟨out, Z, h1, h2, h3⟩ := setCols_rows Y hTr hTn'
    refine ⟨Z, ?_, fun k => by rw [h3, hTi k k.2, hst k k.2, c11, i4, j4]⟩
    rw [heq, hu, ok_bind, hy, ok_bind, hT, ok_bind, h1, ok_bind, h2]
  refine ⟨fun H hH => ?_, fun hm he => ?_, fun hK2 hm hH => ?_⟩
  · have hH' := hH
    rw [heq] at hH'
    obtain ⟨st', hu, hH'⟩ := bind_ok.1 hH'
    obtain ⟨y, hy, _⟩ := bind_ok.1 hH'
    obtain ⟨Z, h1, h2⟩ := fwd st' y hu hy
    rw [h1] at hH
    cases hH
    exact ⟨Z, rfl, fun k => ⟨_, c12 k, h2 k⟩⟩
  · obtain ⟨k1, k2⟩ := can_of_estimable c5 hc.single hK he (beh := beh) (i2 1) (j2 1) i3 j3 c7 c10 (fun _ _ => c8)
    obtain ⟨_, k3⟩ := can_of_estimable c5 hc.single hK he (beh := beh) (i2 1) (i2 1) i3 i3 c7 c10 (fun _ _ => c8)
    obtain ⟨st', hu⟩ := (C28_update_returns_iff_partial hK c6 (i2 K) (j2 K) c7 (by rw [tt, tt']; exact hm)).2
      (k1 (by rw [tt, tt']; exact hm))
    obtain ⟨y, hy⟩ := (C29_voltage_returns_iff_partial hK c6 (i2 K) c7).2 k3
    obtain ⟨Z, h1, _⟩ := fwd st' y hu hy
    exact ⟨_, h1⟩
  · obtain ⟨H, hH⟩ := hH
    rw [heq] at hH
    obtain ⟨st', hu, hH⟩ := bind_ok.1 hH
    obtain ⟨y, hy, _⟩ := bind_ok.1 hH
    exact estimable_of_can c5 hc.single hK2 i3 i3 c10
      ((C28_update_returns_iff_partial hK c6 (i2 K) (j2 K) c7 (by rw [tt, tt']; exact hm)).1 ⟨_, hu⟩)
      ((C29_voltage_returns_iff_partial hK c6 (i2 K) c7).1 ⟨_, hy⟩)

/-- The predicted measurement of a batch of hidden states in the coordinates of the model. -/
theorem circuit_predict (hc : EstimatesCircuit w beh x measured series a) {K : Nat} (hK : 1 ≤ K)
    (Y : Matrix (Fin K) (Fin (w.nTransients + w.nAsoh)) ℝ) {v : Vec} (hv : v.n = 2 + (if measured then 1 else 0)) :
    (∀ H, w.plain.predict ⟨K, _, Y⟩ v = .ok H → ∃ Z, H = ⟨K, 1, Z⟩ ∧ ∀ i : Fin K,
      ∃ p, CellWith w x ((List.ofFn (Y i)).drop w.nTransients) p ∧
        Z i 0 = volt (In.ofVec measured (List.ofFn v.get)) (St.ofVec series a.rcs.length (List.ofFn (Y i))) p) ∧
    (Estimable w.names measured series a → ∃ H, w.plain.predict ⟨K, _, Y⟩ v = .ok H) := by
  obtain ⟨m, b, st, c1, c2, c3, c4, c5, c6, c7, c8, c9, c10, c11, c12⟩ := circuit_parts hc hK Y
  obtain ⟨i, i1, i2, i3, i4⟩ := readInput_copy measured (List.ofFn v.get) (by rw [List.length_ofFn, hv])
  rw [← makeCopy_layout hc.inputs] at i1
  have heq : w.plain.predict ⟨K, _, Y⟩ v = (do
      let y ← voltage i st b
      return (← (voltageContainer y).toNumpy).toMat) := by
    have e1 : w.plain.toInputs v = .ok (w.inputs.makeCopy (.d1 (List.ofFn v.get))) := rfl
    have e3 : w.plain.cell = Ecm.cell beh x := hc.cell
    have e4 : ∀ y, w.plain.fromOutputs y = (do return (← y.toNumpy).toMat) := fun _ => rfl
    unfold JointWrapper.predict
    rw [e1, c1, e3]
    simp only [ok_bind, Ecm.cell, i1, c2, c4, pure_eq_ok, bind_assoc, e4]
  have fwd : ∀ y, voltage i st b = .ok y → ∃ Z, w.plain.predict ⟨K, _, Y⟩ v = .ok ⟨K, 1, Z⟩ ∧ ∀ k : Fin K,
      Z k 0 = volt (In.ofVec measured (List.ofFn v.get)) (St.ofVec series a.rcs.length (List.ofFn (Y k))) (parAt b k) := by
    intro y hy
    obtain ⟨_, hvolt⟩ := voltage_rows hK c6 (i2 K) c7 hy
    have hsh := voltage_full hK c6 (i2 K) c7 c9 hy
    obtain ⟨T, hT, hTr, hTn, hTi⟩ := voltage_toNumpy hK hsh
    have e : T.toMat = ⟨K, 1, fun k _ => at2 y k⟩ := by
      have : ∀ k : Nat, k < K → (T.rows.getD k []).getD 0 0 = at2 y k := fun k hk => by rw [hTi k hk]; rfl
      unfold Arr2.toMat
      rw [hTr, hTn]
      refine congrArg (Mat.mk K 1) ?_
      funext k j
      obtain rfl : j = 0 := Subsingleton.elim _ _
      exact this k k.2
    exact ⟨fun k _ => at2 y k, by rw [heq, hy, ok_bind, hT, ok_bind, pure_eq_ok, e], fun k => (hvolt k k.2).trans (by rw [i4, c11])⟩
  refine ⟨fun H hH => ?_, fun he => ?_⟩
  · have hH' := hH
    rw [heq] at hH'
    obtain ⟨y, hy, _⟩ := bind_ok.1 hH'
    obtain ⟨Z, h1, h2⟩ := fwd y hy
    rw [h1] at hH
    cases hH
    exact ⟨Z, rfl, fun k => ⟨_, c12 k, h2 k⟩⟩
  · obtain ⟨_, k2⟩ := can_of_estimable c5 hc.single hK he (beh := beh) (i2 1) (i2 1) i3 i3 c7 c10 (fun _ _ => c8)
    obtain ⟨y, hy⟩ := (C29_voltage_returns_iff_partial hK c6 (i2 K) c7).2 k2
    obtain ⟨Z, h1, _⟩ := fwd y hy
    exact ⟨_, h1⟩

/-! ## C102 -/

/-- C102, updates.  `K` hidden states stand for `Y` in the coordinates of the model.  Whatever parameters are estimated: if the update of
the wrapper returns, every new hidden state is the one of the cell which the old one describes – its transient states advanced with its own
parameters as a single cell's, its parameters as before. -/
theorem C102_update (hc : EstimatesCircuit w beh x measured series a) {K : Nat} (hK : 1 ≤ K) {X H : Mat}
    {Y : Matrix (Fin K) (Fin (w.nTransients + w.nAsoh)) ℝ} (hY : w.hiddenConv.samples2 X = .ok ⟨K, _, Y⟩) {u u' v v' : Vec}
    (hu : w.controlConv.samples1 u = .ok v) (hu' : w.controlConv.samples1 u' = .ok v') (hv : v.n = 2 + (if measured then 1 else 0))
    (hv' : v'.n = 2 + (if measured then 1 else 0)) (h : w.update X u u' = .ok H) :
    ∃ Z : Matrix (Fin K) (Fin (w.nTransients + w.nAsoh)) ℝ, w.hiddenConv.invSamples2 ⟨K, _, Z⟩ = .ok H ∧ ∀ i : Fin K,
      ∃ p, CellWith w x ((List.ofFn (Y i)).drop w.nTransients) p ∧
        List.ofFn (Z i) = (step beh (In.ofVec measured (List.ofFn v.get)) (In.ofVec measured (List.ofFn v'.get))
          (St.ofVec series a.rcs.length (List.ofFn (Y i))) p).toVec ++ (List.ofFn (Y i)).drop w.nTransients := by
  rw [(C56_joint w X _ hY u u' v v' hu hu').1] at h
  obtain ⟨H', h1, h2⟩ := bind_ok.1 h
  obtain ⟨Z, rfl, h3⟩ := (circuit_update hc hK Y hv hv').1 H' h1
  exact ⟨Z, h2, h3⟩

/-- C102, predictions: likewise, every predicted measurement is the terminal voltage of the cell which the hidden state describes. -/
theorem C102_predict (hc : EstimatesCircuit w beh x measured series a) {K : Nat} (hK : 1 ≤ K) {X H : Mat}
    {Y : Matrix (Fin K) (Fin (w.nTransients + w.nAsoh)) ℝ} (hY : w.hiddenConv.samples2 X = .ok ⟨K, _, Y⟩) {u v : Vec}
    (hu : w.controlConv.samples1 u = .ok v) (hv : v.n = 2 + (if measured then 1 else 0)) (h : w.predict X u = .ok H) :
    ∃ Z : Matrix (Fin K) (Fin 1) ℝ, w.outputConv.invSamples2 ⟨K, 1, Z⟩ = .ok H ∧ ∀ i : Fin K,
      ∃ p, CellWith w x ((List.ofFn (Y i)).drop w.nTransients) p ∧
        Z i 0 = volt (In.ofVec measured (List.ofFn v.get)) (St.ofVec series a.rcs.length (List.ofFn (Y i))) p := by
  rw [(C56_joint w X _ hY u u v v hu hu).2] at h
  obtain ⟨H', h1, h2⟩ := bind_ok.1 h
  obtain ⟨Z, rfl, h3⟩ := (circuit_predict hc hK Y hv).1 H' h1
  exact ⟨Z, h2, h3⟩

/-- C102, when hidden states can be handled together.  With two or more of them – a filter always has more – the update returns exactly if
the choice of parameters is `Estimable`, whatever their values and those of the states; then predictions return too.  Under linear behaviour
the two times must differ. -/
theorem C102_returns_iff (hc : EstimatesCircuit w beh x measured series a) (hop : w.hiddenConv.Invertible (w.nTransients + w.nAsoh))
    (hout : w.outputConv.Invertible 1) {X : Mat} (hn : X.n = w.nTransients + w.nAsoh) (hm : 2 ≤ X.m) {u u' v v' : Vec}
    (hu : w.controlConv.samples1 u = .ok v) (hu' : w.controlConv.samples1 u' = .ok v') (hv : v.n = 2 + (if measured then 1 else 0))
    (hv' : v'.n = 2 + (if measured then 1 else 0))
    (hmoves : beh = .linear → (In.ofVec measured (List.ofFn v'.get)).time ≠ (In.ofVec measured (List.ofFn v.get)).time) :
    ((∃ H, w.update X u u' = .ok H) ↔ Estimable w.names measured series a) ∧
    (Estimable w.names measured series a → ∃ H, w.predict X u' = .ok H) := by
  obtain ⟨Y, hY, hYm, hYn, -⟩ := hop.there X hn
  obtain ⟨K, n, Y⟩ := Y
  simp only at hYm hYn
  subst hYn
  obtain ⟨e1, -⟩ := C56_joint w X _ hY u u' v v' hu hu'
  obtain ⟨-, e2⟩ := C56_joint w X _ hY u' u' v' v' hu' hu'
  obtain ⟨-, k2, k3⟩ := circuit_update hc (by omega) Y hv hv'
  refine ⟨⟨fun ⟨H, h⟩ => ?_, fun he => ?_⟩, fun he => ?_⟩
  · rw [e1] at h
    obtain ⟨H', h1, -⟩ := bind_ok.1 h
    exact k3 (by omega) hmoves ⟨H', h1⟩
  · obtain ⟨H, hH⟩ := k2 hmoves he
    obtain ⟨Z, rfl, -⟩ := (circuit_update hc (by omega) Y hv hv').1 H hH
    obtain ⟨X', h1, -⟩ := hop.back ⟨K, _, Z⟩ rfl
    exact ⟨X', by rw [e1, hH, ok_bind, h1]⟩
  · obtain ⟨H, hH⟩ := (circuit_predict hc (by omega) Y hv').2 he
    obtain ⟨Z, rfl, -⟩ := (circuit_predict hc (by omega) Y hv').1 H hH
    obtain ⟨X', h1, -⟩ := hout.back ⟨K, _, Z⟩ rfl
    exact ⟨X', by rw [e2, hH, ok_bind, h1]⟩

-- The concrete circuit with its open-circuit voltage and R0 estimated: the update returns for any two hidden states, and is row by row that
-- of the two cells; so is the prediction.
example (beh : Behavior) (X : Matrix (Fin 2) (Fin 6) ℝ) : ∃ H Y, (Demo.estimating beh .identity).update ⟨2, 6, X⟩ ⟨3, ![0, 1, 30]⟩ ⟨3, ![1, 2, 30]⟩ = .ok H ∧
    (Demo.estimating beh .identity).predict ⟨2, 6, X⟩ ⟨3, ![1, 2, 30]⟩ = .ok Y ∧
    (∃ Z : Matrix (Fin 2) (Fin 6) ℝ, H = ⟨2, 6, Z⟩ ∧ ∀ i, ∃ p, CellWith (Demo.estimating beh .identity) Demo.fixed ((List.ofFn (X i)).drop 3) p ∧
      List.ofFn (Z i) = (step beh ⟨0, 1, some 30⟩ ⟨1, 2, some 30⟩ (St.ofVec false 1 (List.ofFn (X i))) p).toVec ++ (List.ofFn (X i)).drop 3) ∧
    ∃ Z : Matrix (Fin 2) (Fin 1) ℝ, Y = ⟨2, 1, Z⟩ ∧ ∀ i, ∃ p, CellWith (Demo.estimating beh .identity) Demo.fixed ((List.ofFn (X i)).drop 3) p ∧
      Z i 0 = volt ⟨1, 2, some 30⟩ (St.ofVec false 1 (List.ofFn (X i))) p := by
  obtain ⟨h1, h2⟩ := C102_returns_iff (Demo.estimating_circuit beh .identity) (identity_invertible _) (identity_invertible _)
    (X := ⟨2, 6, X⟩) rfl le_rfl (u := ⟨3, ![0, 1, 30]⟩) (u' := ⟨3, ![1, 2, 30]⟩) rfl rfl rfl rfl (fun _ => by
      show (1 : ℝ) ≠ 0
      norm_num)
  obtain ⟨H, hH⟩ := h1.2 (Demo.estimating_estimable beh .identity)
  obtain ⟨Y, hY⟩ := h2 (Demo.estimating_estimable beh .identity)
  obtain ⟨Z, hZ, k⟩ := C102_update (Demo.estimating_circuit beh .identity) (by decide) (K := 2) (X := ⟨2, 6, X⟩) (Y := X) rfl rfl rfl rfl rfl hH
  obtain ⟨Z', hZ', k'⟩ := C102_predict (Demo.estimating_circuit beh .identity) (by decide) (K := 2) (X := ⟨2, 6, X⟩) (Y := X) rfl rfl rfl hY
  exact ⟨H, Y, hH, hY, ⟨Z, (Except.ok.inj hZ).symm, k⟩, ⟨Z', (Except.ok.inj hZ').symm, k'⟩⟩

/-- C102, a choice that is not `Estimable`: with measured temperatures, the temperature factor of R0 cannot be estimated.  Whatever two or more
hidden states the filter hands over, the update raises. -/
theorem C102_not_estimable (K : Nat) (hK : 2 ≤ K) (X : Matrix (Fin K) (Fin 4) ℝ) (u u' : Fin 3 → ℝ) :
    EstimatesCircuit (Demo.estimatingTdf .constant .identity) .constant Demo.fixed true false Demo.arrays ∧
    (Demo.estimatingTdf .constant .identity).names = ["r0.temperature_dependence_factor".toList] ∧
    ∃ e, (Demo.estimatingTdf .constant .identity).update ⟨K, 4, X⟩ ⟨3, u⟩ ⟨3, u'⟩ = .error e := by
  refine ⟨Demo.estimatingTdf_circuit _ _, rfl, ?_⟩
  obtain ⟨h1, -⟩ := C102_returns_iff (Demo.estimatingTdf_circuit .constant .identity) (identity_invertible _) (identity_invertible _)
    (X := ⟨K, 4, X⟩) rfl hK (u := ⟨3, u⟩) (u' := ⟨3, u'⟩) rfl rfl rfl rfl nofun
  cases h : (Demo.estimatingTdf .constant .identity).update ⟨K, 4, X⟩ ⟨3, u⟩ ⟨3, u'⟩ with
  | error e => exact ⟨e, rfl⟩
  | ok H => exact absurd (h1.1 ⟨H, h⟩) (Demo.estimatingTdf_not _ _)

end Verif
