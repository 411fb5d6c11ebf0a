import Verif.Spec.EcmDual
import Verif.Proofs.EcmRowCount
import Verif.Proofs.DemoDual
import Verif.Props.EcmEstimator
/-!
# The two halves of dual estimation of an equivalent circuit (C104, C105)
-/

namespace Verif
open Ecm Cell Spec

variable {beh : Behavior} {x : Fixed} {measured series : Bool} {a : ASOH}

/-! ## Proofs: a state of health without batch -/

theorem alike_self {R : ArrRel} {m : HV ℝ} (hw : m.WF) (h : ∀ p y, IsParam m p y → R p y y) : HV.Alike R m m :=
  ⟨rfl, fun p y z hy hz => by
    obtain rfl := hy.unique hz hw
    exact h p y hy⟩

theorem Spec.HoldsCircuit.batch {m : HV ℝ} (h : HoldsCircuit x m a) (K : Nat) : ASOHRel (batchRel [] K) a a := by
  obtain ⟨b, h1, h2⟩ := readASOH_alike (alike_self (R := batchRel [] K) h.wf fun p y hy =>
    ⟨rfl, h.unbatched p y hy, by rw [if_neg (by simp)]; exact h.unbatched p y hy, fun _ => rfl⟩) h.read
  cases h.read.symm.trans h1
  exact h2

theorem Spec.HoldsCircuit.row {m : HV ℝ} (h : HoldsCircuit x m a) (i : Nat) : parAt a i = parAt a 0 := by
  obtain ⟨b, h1, h2⟩ := readASOH_alike (alike_self (R := rowRel i) h.wf fun p y hy => Arr2.rowOf_self (h.unbatched p y hy)) h.read
  cases h.read.symm.trans h1
  exact (parAt_row h2).symm

/-- The number of values of an `ECMTransientVector`. -/
theorem state_len {c : Container ℝ} {n : Nat} (h : SameLayout c (circuitState series n)) {T : Arr2 ℝ} (hT : c.toNumpy = .ok T) :
    T.ncol = (1 + (if series then 1 else 0)) + n + 1 := by
  have hk : (c.fields.map (·.1)).Nodup := by
    have := congrArg (List.map Prod.fst) h
    simp only [List.map_map, Function.comp_def] at this
    rw [show c.fields.map (·.1) = _ from this]
    cases series <;> simp [circuitState, kSoc, kQ0, kIrc, kHyst]
  rw [toNumpy_len hk hT, len_layout hk h]
  cases series <;>
    simp [Container.len, Container.allFields, Container.lengthField, circuitState, assoc, kSoc, kQ0, kIrc, kHyst, Arr2.scalar, Arr2.ofRow] <;>
    omega

theorem input_time {q : Input} (hq : Ins 1 q) : q.time.get [0, 0] = (inAt q 0).time := by
  have : q.time.shape = [1, 1] := hq.time.elim id id
  simp only [inAt, at2, rows, this]
  rfl

theorem input_current {q : Input} (hq : Ins 1 q) : q.current.get [0, 0] = (inAt q 0).current := by
  have : q.current.shape = [1, 1] := hq.current.elim id id
  simp only [inAt, at2, rows, this]
  rfl

theorem column_toMat {T : Arr2 ℝ} {K : Nat} {f : Nat → ℝ} (hr : T.nrow = K) (hn : T.ncol = 1) (h : ∀ i < K, T.rows.getD i [] = [f i]) :
    T.toMat = ⟨K, 1, fun k _ => f k⟩ := by
  have : ∀ k : Nat, k < K → (T.rows.getD k []).getD 0 0 = f k := fun k hk => by rw [h k hk]; rfl
  unfold Arr2.toMat
  rw [hr, hn]
  refine congrArg (Mat.mk K 1) ?_
  funext k j
  obtain rfl : j = 0 := Subsingleton.elim _ _
  exact this k k.2

theorem rows_toMat {T : Arr2 ℝ} {K n : Nat} (hr : T.nrow = K) (hn : T.ncol = n) : ∃ Z : Matrix (Fin K) (Fin n) ℝ,
    T.toMat = ⟨K, n, Z⟩ ∧ ∀ i : Fin K, List.ofFn (Z i) = T.rows.getD i [] := by
  subst hr hn
  refine ⟨_, rfl, fun i => ?_⟩
  have h := congrArg (fun A : Arr2 ℝ => A.rows.getD i []) (Arr2.toArr2_toMat T)
  exact (toArr2_getD (K := T.nrow) (n := T.ncol) _ i).symm.trans h

/-! ## Proofs: transient states as hidden states -/

section
variable {w : CellWrapper} {m : HV ℝ}

theorem tracks_width (hw : TracksCircuit w beh x measured series a.rcs.length) :
    w.nTransients = (1 + (if series then 1 else 0)) + a.rcs.length + 1 := by
  obtain ⟨T, hT, hn⟩ := hw.nTransients_eq
  rw [← hn, state_len hw.transients hT]

theorem tracks_parts (hw : TracksCircuit w beh x measured series a.rcs.length) (hm : HoldsCircuit x m a) {K : Nat}
    (Y : Matrix (Fin K) (Fin w.nTransients) ℝ) :
    ∃ st, readState (w.transients.makeCopy (.d2 (Mat.toArr2 ⟨K, _, Y⟩))) = .ok st ∧ Pars K a ∧ Sts K a st ∧ rows st.soc = K ∧
      rows st.hyst = K ∧ st.q0.isSome = series ∧ ∀ i : Fin K, stAt st i = St.ofVec series a.rcs.length (List.ofFn (Y i)) := by
  obtain ⟨st, s1, s2, s3, s4, s5, s6⟩ := readState_copy series a.rcs.length (Mat.toArr2 ⟨K, _, Y⟩)
    ((Mat.toArr2_ncol _).trans (tracks_width hw))
  rw [Mat.toArr2_nrow] at s2 s3 s5 s6
  refine ⟨st, by rw [makeCopy_layout hw.transients]; exact s1, pars_batch (hm.batch K) hm.single, s5 a rfl, s2, s3, s4, fun i => ?_⟩
  rw [s6 i i.2, toArr2_getD]

theorem tracks_update (hw : TracksCircuit w beh x measured series a.rcs.length) (hm : HoldsCircuit x m a) {K : Nat} (hK : 1 ≤ K)
    (Y : Matrix (Fin K) (Fin w.nTransients) ℝ) {v v' : Vec} (hv : v.n = 2 + (if measured then 1 else 0))
    (hv' : v'.n = 2 + (if measured then 1 else 0)) :
    (∀ H, w.plain.update m ⟨K, _, Y⟩ v v' = .ok H → ∃ Z, H = ⟨K, w.nTransients, Z⟩ ∧ ∀ i : Fin K,
      List.ofFn (Z i) = (step beh (In.ofVec measured (List.ofFn v.get)) (In.ofVec measured (List.ofFn v'.get))
        (St.ofVec series a.rcs.length (List.ofFn (Y i))) (parAt a 0)).toVec) ∧
    ((beh = .linear → (List.ofFn v'.get).getD 0 0 ≠ (List.ofFn v.get).getD 0 0) → Estimable [] measured series a →
      ∃ H, w.plain.update m ⟨K, _, Y⟩ v v' = .ok H) ∧
    ((beh = .linear → (List.ofFn v'.get).getD 0 0 ≠ (List.ofFn v.get).getD 0 0) → ∀ {v'' : Vec}, v''.n = 2 + (if measured then 1 else 0) →
      (∃ H, w.plain.update m ⟨K, _, Y⟩ v v' = .ok H) → (∃ H, w.plain.predict m ⟨K, _, Y⟩ v'' = .ok H) → Estimable [] measured series a) ∧
    (∀ H, w.plain.predict m ⟨K, _, Y⟩ v = .ok H → ∃ Z, H = ⟨K, 1, Z⟩ ∧ ∀ i : Fin K,
      Z i 0 = volt (In.ofVec measured (List.ofFn v.get)) (St.ofVec series a.rcs.length (List.ofFn (Y i))) (parAt a 0)) ∧
    (Estimable [] measured series a → ∃ H, w.plain.predict m ⟨K, _, Y⟩ v = .ok H) := by
  obtain ⟨st, c1, c2, c3, c4, c5, c6, c7⟩ := tracks_parts hw hm Y
  obtain ⟨i, i1, i2, i3, i4⟩ := readInput_copy measured (List.ofFn v.get) (by rw [List.length_ofFn, hv])
  obtain ⟨i', j1, j2, j3, j4⟩ := readInput_copy measured (List.ofFn v'.get) (by rw [List.length_ofFn, hv'])
  rw [← makeCopy_layout hw.inputs] at i1 j1
  have tt : i.time.get [0, 0] = (List.ofFn v.get).getD 0 0 := by rw [input_time (i2 1), i4]; rfl
  have tt' : i'.time.get [0, 0] = (List.ofFn v'.get).getD 0 0 := by rw [input_time (j2 1), j4]; rfl
  have hu : w.plain.update m ⟨K, _, Y⟩ v v' = (do
      let st' ← Ecm.update beh i i' st a
      return (← st'.toContainer.toNumpy).toMat) := by
    have e1 : w.plain.toInputs v = .ok (w.inputs.makeCopy (.d1 (List.ofFn v.get))) := rfl
    have e2 : w.plain.toInputs v' = .ok (w.inputs.makeCopy (.d1 (List.ofFn v'.get))) := rfl
    have e3 : w.plain.cell = Ecm.cell beh x := hw.cell
    have e4 : w.plain.transients = w.transients := rfl
    have e7 : ∀ M : Mat, w.plain.hiddenConv.samples2 M = .ok M := fun _ => rfl
    have e8 : w.plain.hiddenConv.invSamples2 = fun M => .ok M := rfl
    unfold CellWrapper.update
    rw [e1, e2, e3, e4, e7]
    simp only [ok_bind, Ecm.cell, i1, j1, c1, hm.read, pure_eq_ok, bind_assoc, e8]
  have hp : ∀ {z : Vec} {q : Input}, readInput (w.inputs.makeCopy (.d1 (List.ofFn z.get))) = .ok q →
      w.plain.predict m ⟨K, _, Y⟩ z = (do
        let y ← voltage q st a
        return (← (voltageContainer y).toNumpy).toMat) := by
    intro z q hq
    have e1 : w.plain.toInputs z = .ok (w.inputs.makeCopy (.d1 (List.ofFn z.get))) := rfl
    have e3 : w.plain.cell = Ecm.cell beh x := hw.cell
    have e4 : w.plain.transients = w.transients := rfl
    have e5 : ∀ y, w.plain.fromOutputs y = (do return (← y.toNumpy).toMat) := fun _ => rfl
    have e7 : ∀ M : Mat, w.plain.hiddenConv.samples2 M = .ok M := fun _ => rfl
    unfold CellWrapper.predict
    rw [e1, e3, e4, e7]
    simp only [ok_bind, Ecm.cell, hq, c1, hm.read, pure_eq_ok, bind_assoc, e5]
  have fu : ∀ st', Ecm.update beh i i' st a = .ok st' → ∃ Z, w.plain.update m ⟨K, _, Y⟩ v v' = .ok ⟨K, w.nTransients, Z⟩ ∧ ∀ k : Fin K,
      List.ofFn (Z k) = (step beh (In.ofVec measured (List.ofFn v.get)) (In.ofVec measured (List.ofFn v'.get))
        (St.ofVec series a.rcs.length (List.ofFn (Y k))) (parAt a 0)).toVec := by
    intro st' h
    obtain ⟨hs', hst⟩ := update_rows hK c2 (i2 K) (j2 K) c3 h
    have hr' := update_soc_rows hK c2 (i2 K) (j2 K) c3 c4 h
    obtain ⟨T, hT, hTr, hTn, hTi⟩ := state_toNumpy hK hs' hr'
    have hq' : st'.q0.isSome = series := by
      have := congrArg (fun s : St => s.q0.isSome) (hst 0 hK)
      simp only [stAt, step, Option.isSome_map] at this
      rw [this, c6]
    obtain ⟨Z, z1, z2⟩ := rows_toMat hTr (show T.ncol = w.nTransients by rw [hTn, tracks_width hw, hq'])
    refine ⟨Z, ?_, fun k => by rw [z2, hTi k k.2, hst k k.2, c7, i4, j4, hm.row]⟩
    rw [hu, h, ok_bind, hT, ok_bind, z1, pure_eq_ok]
  have fp : ∀ y, voltage i st a = .ok y → ∃ Z, w.plain.predict m ⟨K, _, Y⟩ v = .ok ⟨K, 1, Z⟩ ∧ ∀ k : Fin K,
      Z k 0 = volt (In.ofVec measured (List.ofFn v.get)) (St.ofVec series a.rcs.length (List.ofFn (Y k))) (parAt a 0) := by
    intro y hy
    obtain ⟨_, hvolt⟩ := voltage_rows hK c2 (i2 K) c3 hy
    obtain ⟨T, hT, hTr, hTn, hTi⟩ := voltage_toNumpy hK (voltage_full hK c2 (i2 K) c3 c5 hy)
    exact ⟨fun k _ => at2 y k, by rw [hp i1, hy, ok_bind, hT, ok_bind, pure_eq_ok, column_toMat hTr hTn hTi],
      fun k => (hvolt k k.2).trans (by rw [i4, c7, hm.row])⟩
  refine ⟨fun H hH => ?_, fun hmv he => ?_, fun hmv v'' hv'' hH hH' => ?_, fun H hH => ?_, fun he => ?_⟩
  · have hH' := hH
    rw [hu] at hH'
    obtain ⟨st', h, _⟩ := bind_ok.1 hH'
    obtain ⟨Z, h1, h2⟩ := fu st' h
    cases h1.symm.trans hH
    exact ⟨Z, rfl, h2⟩
  · obtain ⟨k1, -⟩ := can_of_estimable (hm.batch K) hm.single hK he (beh := beh) (i2 1) (j2 1) i3 j3 c3 c6 (fun _ _ => c4)
    obtain ⟨st', h⟩ := (C28_update_returns_iff_partial hK c2 (i2 K) (j2 K) c3 (by rw [tt, tt']; exact hmv)).2
      (k1 (by rw [tt, tt']; exact hmv))
    obtain ⟨Z, h1, _⟩ := fu st' h
    exact ⟨_, h1⟩
  · obtain ⟨H, hH⟩ := hH
    obtain ⟨H', hH'⟩ := hH'
    obtain ⟨i'', l1, l2, l3, l4⟩ := readInput_copy measured (List.ofFn v''.get) (by rw [List.length_ofFn, hv''])
    rw [← makeCopy_layout hw.inputs] at l1
    rw [hu] at hH
    rw [hp l1] at hH'
    obtain ⟨st', h, _⟩ := bind_ok.1 hH
    obtain ⟨y, hy, _⟩ := bind_ok.1 hH'
    exact estimable_of_can (hm.batch 2) hm.single le_rfl i3 l3 c6
      ((C28_update_returns_iff_partial hK c2 (i2 K) (j2 K) c3 (by rw [tt, tt']; exact hmv)).1 ⟨_, h⟩)
      ((C29_voltage_returns_iff_partial hK c2 (l2 K) c3).1 ⟨_, hy⟩)
  · have hH' := hH
    rw [hp i1] at hH'
    obtain ⟨y, hy, _⟩ := bind_ok.1 hH'
    obtain ⟨Z, h1, h2⟩ := fp y hy
    cases h1.symm.trans hH
    exact ⟨Z, rfl, h2⟩
  · obtain ⟨-, k2⟩ := can_of_estimable (hm.batch K) hm.single hK he (beh := beh) (i2 1) (i2 1) i3 i3 c3 c6 (fun _ _ => c4)
    obtain ⟨y, hy⟩ := (C29_voltage_returns_iff_partial hK c2 (i2 K) c3).2 k2
    obtain ⟨Z, h1, _⟩ := fp y hy
    exact ⟨_, h1⟩

/-! ## C104 -/

/-- C104, updates.  `K` hidden states stand for the transient states `Y` in the coordinates of the model, and the wrapper holds the state of
health of one cell.  If the update returns, every new hidden state is the old one advanced as the state of this cell. -/
theorem C104_update (hw : TracksCircuit w beh x measured series a.rcs.length) (hm : HoldsCircuit x m a) {K : Nat} (hK : 1 ≤ K) {X H : Mat}
    {Y : Matrix (Fin K) (Fin w.nTransients) ℝ} (hY : w.hiddenConv.samples2 X = .ok ⟨K, _, Y⟩) {u u' v v' : Vec}
    (hu : w.controlConv.samples1 u = .ok v) (hu' : w.controlConv.samples1 u' = .ok v') (hv : v.n = 2 + (if measured then 1 else 0))
    (hv' : v'.n = 2 + (if measured then 1 else 0)) (h : w.update m X u u' = .ok H) :
    ∃ Z : Matrix (Fin K) (Fin w.nTransients) ℝ, w.hiddenConv.invSamples2 ⟨K, _, Z⟩ = .ok H ∧ ∀ i : Fin K,
      List.ofFn (Z i) = (step beh (In.ofVec measured (List.ofFn v.get)) (In.ofVec measured (List.ofFn v'.get))
        (St.ofVec series a.rcs.length (List.ofFn (Y i))) (parAt a 0)).toVec := by
  rw [(C56_cell w m X _ hY u u' v v' hu hu').1] at h
  obtain ⟨H', h1, h2⟩ := bind_ok.1 h
  obtain ⟨Z, rfl, h3⟩ := (tracks_update hw hm hK Y hv hv').1 H' h1
  exact ⟨Z, h2, h3⟩

/-- C104, predictions: likewise, every predicted measurement is the terminal voltage of this cell in the transient state. -/
theorem C104_predict (hw : TracksCircuit w beh x measured series a.rcs.length) (hm : HoldsCircuit x m a) {K : Nat} (hK : 1 ≤ K) {X H : Mat}
    {Y : Matrix (Fin K) (Fin w.nTransients) ℝ} (hY : w.hiddenConv.samples2 X = .ok ⟨K, _, Y⟩) {u v : Vec}
    (hu : w.controlConv.samples1 u = .ok v) (hv : v.n = 2 + (if measured then 1 else 0)) (h : w.predict m X u = .ok H) :
    ∃ Z : Matrix (Fin K) (Fin 1) ℝ, w.outputConv.invSamples2 ⟨K, 1, Z⟩ = .ok H ∧ ∀ i : Fin K,
      Z i 0 = volt (In.ofVec measured (List.ofFn v.get)) (St.ofVec series a.rcs.length (List.ofFn (Y i))) (parAt a 0) := by
  rw [(C56_cell w m X _ hY u u v v hu hu).2] at h
  obtain ⟨H', h1, h2⟩ := bind_ok.1 h
  obtain ⟨Z, rfl, h3⟩ := (tracks_update hw hm hK Y hv hv).2.2.2.1 H' h1
  exact ⟨Z, h2, h3⟩

/-- C104, when hidden states can be handled: updates and predictions return exactly if the curves of the cell that are used have one value
or one per pinpoint, whatever the number of hidden states, their values and those of the parameters.  Under linear behaviour the two times
must differ. -/
theorem C104_returns_iff (hw : TracksCircuit w beh x measured series a.rcs.length) (hm : HoldsCircuit x m a)
    (hop : w.hiddenConv.Invertible w.nTransients) (hout : w.outputConv.Invertible 1) {X : Mat} (hn : X.n = w.nTransients) (hX : 1 ≤ X.m)
    {u u' v v' : Vec} (hu : w.controlConv.samples1 u = .ok v) (hu' : w.controlConv.samples1 u' = .ok v')
    (hv : v.n = 2 + (if measured then 1 else 0)) (hv' : v'.n = 2 + (if measured then 1 else 0))
    (hmoves : beh = .linear → (In.ofVec measured (List.ofFn v'.get)).time ≠ (In.ofVec measured (List.ofFn v.get)).time) :
    ((∃ H, w.update m X u u' = .ok H) ∧ ∃ H, w.predict m X u' = .ok H) ↔
      Evaluable a.ocv.ref ∧ (measured → Evaluable a.ocv.ent) ∧ Evaluable a.r0.interp ∧ (series → ∃ c, a.c0 = some c ∧ Evaluable c) ∧
      (∀ rc ∈ a.rcs, Evaluable rc.r.interp ∧ Evaluable rc.c) ∧ Evaluable a.hyst := by
  have hiff : Estimable [] measured series a ↔
      Evaluable a.ocv.ref ∧ (measured → Evaluable a.ocv.ent) ∧ Evaluable a.r0.interp ∧ (series → ∃ c, a.c0 = some c ∧ Evaluable c) ∧
      (∀ rc ∈ a.rcs, Evaluable rc.r.interp ∧ Evaluable rc.c) ∧ Evaluable a.hyst :=
    ⟨fun h => ⟨h.ocv, h.ent, h.r0, h.c0, h.rcs, h.hyst⟩,
      fun ⟨h1, h2, h3, h4, h5, h6⟩ => ⟨h1, h2, h3, h4, h5, h6, nofun, nofun, nofun, fun _ _ _ => nofun, fun _ => nofun, fun _ _ _ => nofun,
        fun _ => nofun, fun _ _ _ _ => nofun, fun _ _ _ _ h => by rcases h with h | h <;> cases h⟩⟩
  rw [← hiff]
  obtain ⟨Y, hY, hYm, hYn, -⟩ := hop.there X hn
  obtain ⟨K, n, Y⟩ := Y
  simp only at hYm hYn
  subst hYn
  obtain ⟨e1, -⟩ := C56_cell w m X _ hY u u' v v' hu hu'
  obtain ⟨-, e2⟩ := C56_cell w m X _ hY u' u' v' v' hu' hu'
  obtain ⟨k1, k2, k3, -, -⟩ := tracks_update hw hm (by omega) Y hv hv'
  obtain ⟨-, -, -, k4, k5⟩ := tracks_update hw hm (by omega) Y hv' hv'
  refine ⟨fun ⟨⟨H, h⟩, H', h'⟩ => ?_, fun he => ⟨?_, ?_⟩⟩
  · rw [e1] at h
    rw [e2] at h'
    obtain ⟨G, h1, -⟩ := bind_ok.1 h
    obtain ⟨G', h1', -⟩ := bind_ok.1 h'
    exact k3 hmoves hv' ⟨G, h1⟩ ⟨G', h1'⟩
  · obtain ⟨H, hH⟩ := k2 hmoves he
    obtain ⟨Z, rfl, -⟩ := k1 H hH
    obtain ⟨X', h1, -⟩ := hop.back ⟨K, _, Z⟩ rfl
    exact ⟨X', by rw [e1, hH, ok_bind, h1]⟩
  · obtain ⟨H, hH⟩ := k5 he
    obtain ⟨Z, rfl, -⟩ := k4 H hH
    obtain ⟨X', h1, -⟩ := hout.back ⟨K, _, Z⟩ rfl
    exact ⟨X', by rw [e2, hH, ok_bind, h1]⟩

end

-- The concrete circuit: for any two transient states, the update and the prediction return and are row by row those of the cell.
example (beh : Behavior) (X : Matrix (Fin 2) (Fin 3) ℝ) : ∃ H Y,
    (Demo.tracking beh .identity [] []).update (Demo.hvUpdating [] []) ⟨2, 3, X⟩ ⟨3, ![0, 1, 30]⟩ ⟨3, ![1, 2, 30]⟩ = .ok H ∧
    (Demo.tracking beh .identity [] []).predict (Demo.hvUpdating [] []) ⟨2, 3, X⟩ ⟨3, ![1, 2, 30]⟩ = .ok Y ∧
    (∃ Z : Matrix (Fin 2) (Fin 3) ℝ, H = ⟨2, 3, Z⟩ ∧ ∀ i,
      List.ofFn (Z i) = (step beh ⟨0, 1, some 30⟩ ⟨1, 2, some 30⟩ (St.ofVec false 1 (List.ofFn (X i))) (parAt Demo.arrays 0)).toVec) ∧
    ∃ Z : Matrix (Fin 2) (Fin 1) ℝ, Y = ⟨2, 1, Z⟩ ∧ ∀ i,
      Z i 0 = volt ⟨1, 2, some 30⟩ (St.ofVec false 1 (List.ofFn (X i))) (parAt Demo.arrays 0) := by
  have hw := Demo.tracking_circuit beh .identity [] []
  have hm := Demo.hv_holds [] []
  have he := Demo.estimating_estimable beh .identity
  obtain ⟨⟨H, hH⟩, Y, hY⟩ := (C104_returns_iff hw hm (identity_invertible _) (identity_invertible _) (X := ⟨2, 3, X⟩) rfl one_le_two
    (u := ⟨3, ![0, 1, 30]⟩) (u' := ⟨3, ![1, 2, 30]⟩) rfl rfl rfl rfl (fun _ => by
      show (1 : ℝ) ≠ 0
      norm_num)).2 ⟨he.ocv, he.ent, he.r0, he.c0, he.rcs, he.hyst⟩
  obtain ⟨Z, hZ, k⟩ := C104_update hw hm (by decide) (K := 2) (X := ⟨2, 3, X⟩) (Y := X) rfl rfl rfl rfl rfl hH
  obtain ⟨Z', hZ', k'⟩ := C104_predict hw hm (by decide) (K := 2) (X := ⟨2, 3, X⟩) (Y := X) rfl rfl rfl hY
  exact ⟨H, Y, hH, hY, ⟨Z, (Except.ok.inj hZ).symm, k⟩, ⟨Z', (Except.ok.inj hZ').symm, k'⟩⟩

/-! ## Proofs: parameters as hidden states -/

theorem singleOutput_iff {ns : List Name} {K : Nat} {b : ASOH} (h : ASOHRel (batchRel ns K) a b) (hK : 2 ≤ K) {prev : In}
    (hser : series → ∃ c, b.c0 = some c) :
    SingleOutput (decide (¬ prev.current < 0)) b series ↔ ¬ Reaches ns prev series a.rcs.length := by
  have hone : ∀ p : List Name, (if pathName p ∈ ns then K else 1) = 1 ↔ ¬ Named ns p := by
    intro p
    unfold Named
    split <;> simp_all
    omega
  obtain ⟨_, _, _, _, e1⟩ := curve_batch h.ref
  obtain ⟨_, _, _, _, e2⟩ := curve_batch h.r0.1
  obtain ⟨_, _, _, _, e3⟩ := curve_batch h.hyst
  have e4 : (∀ rc ∈ b.rcs, rc.r.interp.rows = 1 ∧ rc.c.rows = 1) ↔
      ¬ ∃ j < a.rcs.length, Named ns [kRcs, Py.natStr j, kR, kBase] ∨ Named ns [kRcs, Py.natStr j, kC, kBase] := by
    have key : ∀ (j : Nat) (hj : j < b.rcs.length), (b.rcs[j].r.interp.rows = 1 ∧ b.rcs[j].c.rows = 1) ↔
        ¬ (Named ns [kRcs, Py.natStr j, kR, kBase] ∨ Named ns [kRcs, Py.natStr j, kC, kBase]) := by
      intro j hj
      have hj' : j < a.rcs.length := by rw [← h.rcs.1]; exact hj
      have e := h.rcs.2 j _ _ (List.getElem?_eq_getElem hj') (List.getElem?_eq_getElem hj)
      obtain ⟨_, _, _, _, c5⟩ := curve_batch (R := [kRcs, Py.natStr j] ++ [kR]) e.1.1
      obtain ⟨_, _, _, _, d5⟩ := curve_batch (R := [kRcs, Py.natStr j] ++ [kC]) e.2
      rw [c5, d5, hone, hone, not_or]
      rfl
    constructor
    · rintro h1 ⟨j, hj, h2⟩
      have hj' : j < b.rcs.length := by rw [h.rcs.1]; exact hj
      exact (key j hj').1 (h1 _ (List.getElem_mem hj')) h2
    · intro h1 rc hrc
      obtain ⟨j, hj, rfl⟩ := List.mem_iff_getElem.1 hrc
      exact (key j hj).2 fun h2 => h1 ⟨j, by rw [← h.rcs.1]; exact hj, h2⟩
  have e5 : (series = true → ∀ c ∈ b.c0, c.rows = 1) ↔ ¬ (series = true ∧ Named ns [kC0, kBase]) := by
    rcases h.c0 with ⟨_, h2⟩ | ⟨c, c', _, h2, h3⟩
    · constructor
      · rintro - ⟨h4, -⟩
        obtain ⟨c, hc⟩ := hser h4
        rw [h2] at hc; cases hc
      · intro _ _ c hc
        rw [h2] at hc; cases hc
    · obtain ⟨_, _, _, _, c5⟩ := curve_batch h3
      rw [h2]
      simp only [Option.mem_some_iff, forall_eq']
      rw [c5, hone, not_and]
      rfl
  unfold SingleOutput Reaches
  rw [rows_batch h.qt, rows_batch h.ce, e1, e2, e3, rows_batch h.gamma, e4, e5, hone, hone, hone, hone, hone, hone]
  simp only [not_or, not_and, decide_eq_true_eq, not_lt, List.cons_append, List.nil_append]

theorem Spec.HoldsState.parts {tr : Container ℝ} {n : Nat} {s : St} (h : HoldsState tr series n s) {b : ASOH} (hb : b.rcs.length = n) (K : Nat) :
    ∃ st, readState tr = .ok st ∧ Sts K b st ∧ rows st.soc = 1 ∧ rows st.hyst = 1 ∧ rows st.irc = 1 ∧ (∀ q ∈ st.q0, rows q = 1) ∧
      st.q0.isSome = series ∧ ∀ i, stAt st i = s := by
  obtain ⟨t, ht, rfl⟩ := h.value
  have hcopy : tr = (circuitState series n).makeCopy (.d2 (.ofRow t)) := by
    rw [← makeCopy_layout h.layout, h.single.makeCopy ht]
  obtain ⟨st, s1, s2, s3, s4, s5, s6⟩ := readState_copy series n (.ofRow t) (state_len h.layout ht)
  have hS : Sts 1 b st := s5 b hb
  have single : ∀ {y : Nd ℝ}, Scalar 1 y → y.shape = [1, 1] := fun h => h.elim id id
  have one : ∀ {y : Nd ℝ}, Scalar 1 y → rows y = 1 := fun h => by rw [rows, single h]; rfl
  have hirc : st.irc.shape = [1, b.rcs.length] := hS.irc.elim id id
  refine ⟨st, by rw [hcopy]; exact s1, ⟨.inl (single hS.soc), fun q hq => .inl (single (hS.q0 q hq)), .inl hirc, .inl (single hS.hyst)⟩,
    one hS.soc, one hS.hyst, by rw [rows, hirc]; rfl, fun q hq => one (hS.q0 q hq), s4, fun i => ?_⟩
  rw [← show stAt st 0 = St.ofVec series n t from s6 0 Nat.one_pos]
  have hat : ∀ {y : Nd ℝ}, Scalar 1 y → at2 y i = at2 y 0 := fun h => by unfold at2; rw [one h]; rfl
  have hir : rows st.irc = 1 := by rw [rows, hirc]; rfl
  unfold stAt
  rw [hat hS.soc, hat hS.hyst, hir, if_pos rfl, if_pos rfl]
  congr 1
  cases hq : st.q0 with
  | none => rfl
  | some q => simp only [Option.map_some, hat (hS.q0 q hq)]

section
variable {w : DegradationWrapper} {tr : Container ℝ} {s : St}

theorem health_parts (hc : TracksHealth w beh x measured a) {K : Nat} (hK : 1 ≤ K) (Y : Matrix (Fin K) (Fin w.nAsoh) ℝ) :
    ∃ m b, w.plain.toAsoh ⟨K, _, Y⟩ = .ok m ∧ m.getParameters (some w.names) = .ok (Mat.toArr2 ⟨K, _, Y⟩) ∧ readASOH x m = .ok b ∧
      ASOHRel (batchRel w.names K) a b ∧ Pars K b ∧ ∀ i : Fin K, CircuitWith w.asoh w.names x (List.ofFn (Y i)) (parAt b i) := by
  have htot : totalSize w.asoh w.names = w.nAsoh := by
    obtain ⟨A0, hA0, hA0n⟩ := hc.nAsoh_eq
    rw [width_eq hc.asoh.wf hc.asoh.unbatched (fun n hn => updatable_subset (hc.names_updatable n hn)) hA0, hA0n]
  have hw : totalSize w.asoh w.names = (Mat.toArr2 ⟨K, _, Y⟩).ncol := by rw [htot, Mat.toArr2_ncol]
  have hr : (Mat.toArr2 ⟨K, _, Y⟩).nrow = K := Mat.toArr2_nrow _
  obtain ⟨m, m1, _, _, _, _, _, _, m8⟩ := makeCopy_writes hc.asoh.wf hc.asoh.unbatched hc.names_distinct hc.names_updatable hw (by rw [hr]; exact hK)
  obtain ⟨-, k2⟩ := copy_alike hc.asoh.wf hc.asoh.unbatched hc.names_distinct hc.names_updatable hw (by rw [hr]; exact hK) m1
  obtain ⟨b, k3, k4⟩ := readASOH_alike k2 hc.asoh.read
  have k4' : ASOHRel (batchRel w.names K) a b := by
    rw [← hr]; exact k4
  refine ⟨m, b, m1, (m8 (.inl hc.estimates)).2, k3, k4', pars_batch k4' hc.asoh.single, fun i => ?_⟩
  have hv : Arr2.RowOf i (Mat.toArr2 ⟨K, _, Y⟩) (.ofRow (List.ofFn (Y i))) := by
    refine ⟨by simp [Arr2.ofRow, Mat.toArr2], ?_⟩
    have e : (if (Mat.toArr2 ⟨K, _, Y⟩).nrow = 1 then 0 else (i : Nat)) = i := by
      rw [hr]; split <;> omega
    rw [e, toArr2_getD]
    rfl
  obtain ⟨mi, g1, g2⟩ := copy_row hc.asoh.wf hc.asoh.unbatched hc.names_distinct hc.names_updatable hw (by rw [hr]; exact hK) m1 hv
  obtain ⟨bi, g3, g4⟩ := readASOH_alike g2 k3
  exact ⟨mi, bi, g1, g3, (parAt_row g4).symm⟩

theorem toMat_toArr2 {K n : Nat} (Y : Matrix (Fin K) (Fin n) ℝ) : (Mat.toArr2 ⟨K, n, Y⟩).toMat = ⟨K, n, Y⟩ := by
  obtain ⟨Z, h1, h2⟩ := rows_toMat (T := Mat.toArr2 ⟨K, n, Y⟩) (Mat.toArr2_nrow _) (Mat.toArr2_ncol _)
  rw [h1]
  have : Z = Y := by
    funext i
    exact List.ofFn_injective ((h2 i).trans (toArr2_getD Y i))
  rw [this]

theorem health_step (hc : TracksHealth w beh x measured a) (hs : HoldsState tr series a.rcs.length s) {K : Nat} (hK : 1 ≤ K)
    (Y : Matrix (Fin K) (Fin w.nAsoh) ℝ) {v v' : Vec} (hv : v.n = 2 + (if measured then 1 else 0))
    (hv' : v'.n = 2 + (if measured then 1 else 0)) (hm : beh = .linear → (List.ofFn v'.get).getD 0 0 ≠ (List.ofFn v.get).getD 0 0) :
    (∀ r, w.plain.update tr ⟨K, _, Y⟩ v v' = .ok r → r = (⟨K, _, Y⟩, w.inputs.makeCopy (.d1 (List.ofFn v.get)))) ∧
    (∀ P, w.plain.predict tr (w.inputs.makeCopy (.d1 (List.ofFn v.get))) ⟨K, _, Y⟩ v' = .ok P → ∃ y : Fin K → ℝ,
      (∀ i, ∃ p, CircuitWith w.asoh w.names x (List.ofFn (Y i)) p ∧
        y i = volt (In.ofVec measured (List.ofFn v'.get))
          (step beh (In.ofVec measured (List.ofFn v.get)) (In.ofVec measured (List.ofFn v'.get)) s p) p) ∧
      (Reaches w.names (In.ofVec measured (List.ofFn v.get)) series a.rcs.length → P = ⟨K, 1, fun i _ => y i⟩) ∧
      (¬ Reaches w.names (In.ofVec measured (List.ofFn v.get)) series a.rcs.length →
        (∀ i j, y i = y j) ∧ P = ⟨1, 1, fun _ _ => y ⟨0, hK⟩⟩)) ∧
    (DualEstimable w.names measured series a → (∃ r, w.plain.update tr ⟨K, _, Y⟩ v v' = .ok r) ∧
      ∃ P, w.plain.predict tr (w.inputs.makeCopy (.d1 (List.ofFn v.get))) ⟨K, _, Y⟩ v' = .ok P) ∧
    (2 ≤ K → (∃ r, w.plain.update tr ⟨K, _, Y⟩ v v' = .ok r) →
      (∃ P, w.plain.predict tr (w.inputs.makeCopy (.d1 (List.ofFn v.get))) ⟨K, _, Y⟩ v' = .ok P) → DualEstimable w.names measured series a) := by
  obtain ⟨m, b, c1, c2, c3, c4, c5, c6⟩ := health_parts hc hK Y
  obtain ⟨st, d1, d2, d3, d4, d5, d6, d7, d8⟩ := hs.parts c4.rcs.1 K
  obtain ⟨i, i1, i2, i3, i4⟩ := readInput_copy measured (List.ofFn v.get) (by rw [List.length_ofFn, hv])
  obtain ⟨i', j1, j2, j3, j4⟩ := readInput_copy measured (List.ofFn v'.get) (by rw [List.length_ofFn, hv'])
  rw [← makeCopy_layout hc.inputs] at i1 j1
  have tt : i.time.get [0, 0] = (List.ofFn v.get).getD 0 0 := by rw [input_time (i2 1), i4]; rfl
  have tt' : i'.time.get [0, 0] = (List.ofFn v'.get).getD 0 0 := by rw [input_time (j2 1), j4]; rfl
  have tc : i.current.get [0, 0] = (In.ofVec measured (List.ofFn v.get)).current := by rw [input_current (i2 1), i4]
  have hm' : beh = .linear → i'.time.get [0, 0] ≠ i.time.get [0, 0] := by rw [tt, tt']; exact hm
  have one : ∀ {y : Nd ℝ}, Scalar 1 y → rows y = 1 := fun h => by rw [rows, h.elim id id]; rfl
  have e1 : w.plain.toInputs v = .ok (w.inputs.makeCopy (.d1 (List.ofFn v.get))) := rfl
  have e2 : w.plain.toInputs v' = .ok (w.inputs.makeCopy (.d1 (List.ofFn v'.get))) := rfl
  have e3 : w.plain.cell = Ecm.cell beh x := hc.cell
  have e4 : w.plain.deg = NoDegradation _ _ _ _ := hc.deg
  have e5 : ∀ y, w.plain.fromOutputs y = (do return (← y.toNumpy).toMat) := fun _ => rfl
  have e6 : w.plain.names = w.names := rfl
  have e8 : w.plain.hiddenConv.invSamples2 = fun M => .ok M := rfl
  have hu : w.plain.update tr ⟨K, _, Y⟩ v v' = (do
      let _ ← voltage i' st b
      return (⟨K, _, Y⟩, w.inputs.makeCopy (.d1 (List.ofFn v.get)))) := by
    unfold DegradationWrapper.update
    rw [e1, e2, c1, e3, e4]
    simp only [ok_bind, Ecm.cell, j1, d1, c3, NoDegradation, pure_eq_ok, bind_assoc, e6, c2, e8, toMat_toArr2]
  have hp : w.plain.predict tr (w.inputs.makeCopy (.d1 (List.ofFn v.get))) ⟨K, _, Y⟩ v' = (do
      let st' ← Ecm.update beh i i' st b
      let y ← voltage i' st'.stored b
      return (← (voltageContainer y).toNumpy).toMat) := by
    unfold DegradationWrapper.predict
    rw [e2, c1, e3]
    simp only [ok_bind, Ecm.cell, i1, j1, d1, c3, pure_eq_ok, bind_assoc, e5, readState_stored]
  have fp : ∀ st' y, Ecm.update beh i i' st b = .ok st' → voltage i' st'.stored b = .ok y → ∃ T,
      (voltageContainer y).toNumpy = .ok T ∧
      (Reaches w.names (In.ofVec measured (List.ofFn v.get)) series a.rcs.length → T.toMat = ⟨K, 1, fun k _ => at2 y k⟩) ∧
      (¬ Reaches w.names (In.ofVec measured (List.ofFn v.get)) series a.rcs.length →
        (∀ i j : Fin K, at2 y i = at2 y j) ∧ T.toMat = ⟨1, 1, fun _ _ => at2 y 0⟩) ∧
      ∀ k : Fin K, at2 y k = volt (In.ofVec measured (List.ofFn v'.get)) (step beh (In.ofVec measured (List.ofFn v.get))
        (In.ofVec measured (List.ofFn v'.get)) s (parAt b k)) (parAt b k) := by
    intro st' y h h'
    obtain ⟨hs', hst⟩ := update_rows hK c5 (i2 K) (j2 K) d2 h
    obtain ⟨p1, -, -, -, -, p6, p7⟩ := stored_same hs'
    obtain ⟨_, hvolt⟩ := voltage_rows hK c5 (j2 K) p1 h'
    obtain ⟨o1, o2⟩ := step_voltage_one hK c5 (i2 K) (j2 K) d2 d3 d4 d6 hm' d5 (one (j2 1).current)
      (fun t ht => one ((i2 1).temp t ht)) (fun t ht => one ((j2 1).temp t ht)) h h'
    have hq' : st'.q0.isSome = series := by
      have := congrArg (fun s : St => s.q0.isSome) (hst 0 hK)
      simp only [stAt, step, Option.isSome_map] at this
      rw [this, d7]
    have hser : series → ∃ c, b.c0 = some c := by
      intro h1
      obtain ⟨c, hc, -⟩ := ((C29_voltage_returns_iff_partial hK c5 (j2 K) p1).1 ⟨_, h'⟩).c0 (by rw [p6, hq']; exact h1)
      exact ⟨c, hc⟩
    have hval : ∀ k : Fin K, at2 y k = volt (In.ofVec measured (List.ofFn v'.get)) (step beh (In.ofVec measured (List.ofFn v.get))
        (In.ofVec measured (List.ofFn v'.get)) s (parAt b k)) (parAt b k) := fun k =>
      (hvolt k k.2).trans (by rw [p7 k k.2, hst k k.2, i4, j4, d8])
    by_cases hK1 : K = 1
    · subst hK1
      obtain ⟨T, hT, hTr, hTn, hTi⟩ := voltage_toNumpy le_rfl (o2.elim id id)
      have := column_toMat hTr hTn hTi
      exact ⟨T, hT, fun _ => this, fun _ => ⟨fun i j => by rw [Subsingleton.elim i j],
        by rw [this]; congr 1; funext k _; rw [show (k : Nat) = 0 by omega]⟩, hval⟩
    · have hiff := singleOutput_iff (prev := In.ofVec measured (List.ofFn v.get)) c4 (by omega : 2 ≤ K) hser
      rw [tc, d7] at o1
      rw [hiff] at o1
      by_cases hr : Reaches w.names (In.ofVec measured (List.ofFn v.get)) series a.rcs.length
      · have hsh : y.shape = [K, 1] := by
          rcases o2 with o2 | o2
          · exact absurd (by rw [rows, o2]; rfl) (fun h => o1.1 h hr)
          · exact o2
        obtain ⟨T, hT, hTr, hTn, hTi⟩ := voltage_toNumpy hK hsh
        exact ⟨T, hT, fun _ => column_toMat hTr hTn hTi, fun h => absurd hr h, hval⟩
      · have hsh : y.shape = [1, 1] := by
          rcases o2 with o2 | o2
          · exact o2
          · have := o1.2 hr
            rw [rows, o2] at this
            exact absurd this hK1
        obtain ⟨T, hT, hTr, hTn, hTi⟩ := voltage_toNumpy le_rfl hsh
        have h1 : rows y = 1 := by rw [rows, hsh]; rfl
        refine ⟨T, hT, fun h => absurd h hr, fun _ => ⟨fun i j => by simp only [at2, if_pos h1], ?_⟩, hval⟩
        rw [column_toMat hTr hTn hTi]
        congr 1
        funext k _
        rw [show (k : Nat) = 0 by omega]
  refine ⟨fun r hr => ?_, fun P hP => ?_, fun he => ?_, fun hK2 hU hP => ?_⟩
  · rw [hu] at hr
    obtain ⟨y, -, hr⟩ := bind_ok.1 hr
    cases hr
    rfl
  · rw [hp] at hP
    obtain ⟨st', h, hP⟩ := bind_ok.1 hP
    obtain ⟨y, h', hP⟩ := bind_ok.1 hP
    obtain ⟨T, hT, f1, f2, f3⟩ := fp st' y h h'
    rw [hT, ok_bind, pure_eq_ok, Except.ok.injEq] at hP
    subst hP
    exact ⟨fun k => at2 y k, fun k => ⟨_, c6 k, f3 k⟩, f1, f2⟩
  · obtain ⟨he1, he2⟩ := he
    have hno : measured = true → Named w.names [kOcv, kOcvRef, kRefTemp] → rows st.soc = K := fun h1 h2 => absurd h2 (he2 h1)
    obtain ⟨k1, k2⟩ := can_of_estimable c4 hc.asoh.single hK he1 (beh := beh) (i2 1) (j2 1) i3 j3 d2 d7 hno
    obtain ⟨y0, hy0⟩ := (C29_voltage_returns_iff_partial hK c5 (j2 K) d2).2 k2
    obtain ⟨st', h⟩ := (C28_update_returns_iff_partial hK c5 (i2 K) (j2 K) d2 hm').2 (k1 hm')
    obtain ⟨hs', hst⟩ := update_rows hK c5 (i2 K) (j2 K) d2 h
    obtain ⟨p1, -, -, -, -, p6, -⟩ := stored_same hs'
    have hq' : st'.q0.isSome = series := by
      have := congrArg (fun s : St => s.q0.isSome) (hst 0 hK)
      simp only [stAt, step, Option.isSome_map] at this
      rw [this, d7]
    obtain ⟨-, k3⟩ := can_of_estimable c4 hc.asoh.single hK he1 (beh := beh) (i2 1) (j2 1) i3 j3 p1 (p6.trans hq')
      (fun h1 h2 => absurd h2 (he2 h1))
    obtain ⟨y, h'⟩ := (C29_voltage_returns_iff_partial hK c5 (j2 K) p1).2 k3
    obtain ⟨T, hT, -⟩ := fp st' y h h'
    exact ⟨⟨_, by rw [hu, hy0, ok_bind]; rfl⟩, _, by rw [hp, h, ok_bind, h', ok_bind, hT, ok_bind]; rfl⟩
  · obtain ⟨r, hr⟩ := hU
    obtain ⟨P, hP⟩ := hP
    rw [hu] at hr
    rw [hp] at hP
    obtain ⟨y0, hy0, -⟩ := bind_ok.1 hr
    obtain ⟨st', h, -⟩ := bind_ok.1 hP
    have hv0 := (C29_voltage_returns_iff_partial hK c5 (j2 K) d2).1 ⟨_, hy0⟩
    refine ⟨estimable_of_can c4 hc.asoh.single hK2 i3 j3 d7
      ((C28_update_returns_iff_partial hK c5 (i2 K) (j2 K) d2 hm').1 ⟨_, h⟩) hv0, fun h1 h2 => ?_⟩
    obtain ⟨t, ht⟩ := Option.isSome_iff_exists.1 (j3.trans h1)
    have := (hv0.entFits t ht).2.2
    rw [d3, rows_batch c4.refTemp, if_pos h2] at this
    omega

/-! ## C105 -/

/-- C105, updates leave the hidden states as they are. -/
theorem C105_update (hc : TracksHealth w beh x measured a) (hs : HoldsState tr series a.rcs.length s) {X : Mat} (hX : 1 ≤ X.m)
    (hn : X.n = w.nAsoh) (hop : w.hiddenConv.Invertible w.nAsoh) {u u' v v' : Vec} (hu : w.controlConv.samples1 u = .ok v)
    (hu' : w.controlConv.samples1 u' = .ok v') (hv : v.n = 2 + (if measured then 1 else 0)) (hv' : v'.n = 2 + (if measured then 1 else 0))
    (hmoves : beh = .linear → (In.ofVec measured (List.ofFn v'.get)).time ≠ (In.ofVec measured (List.ofFn v.get)).time)
    {r : Mat × Container ℝ} (h : w.update tr X u u' = .ok r) : r.1 = X ∧ w.toInputs u = .ok r.2 := by
  obtain ⟨Y, hY, hYm, hYn, hYX⟩ := hop.there X hn
  obtain ⟨K, n, Y⟩ := Y
  simp only at hYm hYn
  subst hYn
  rw [(C56_degradation w tr tr X _ hY u u' v v' hu hu').1] at h
  obtain ⟨r', h1, h2⟩ := bind_ok.1 h
  obtain rfl := (health_step hc hs (by omega) Y hv hv' hmoves).1 r' h1
  rw [hYX] at h2
  cases h2
  refine ⟨rfl, ?_⟩
  unfold BaseWrapper.toInputs
  rw [hu]
  rfl

/-- C105, predictions.  `K` hidden states stand for the values `Y` of the named parameters, the wrapper holds the transient state `s` and
remembers the inputs from `u` (as the update with `u` leaves it, see `C105_update`).  If the prediction returns, it is made of the voltages
that the cells with these parameters show one step after `s`.  There is one row for every hidden state exactly if one of the parameters
takes part; otherwise the single row is the voltage that all of them show. -/
theorem C105_predict (hc : TracksHealth w beh x measured a) (hs : HoldsState tr series a.rcs.length s) {K : Nat} (hK : 1 ≤ K) {X P : Mat}
    {Y : Matrix (Fin K) (Fin w.nAsoh) ℝ} (hY : w.hiddenConv.samples2 X = .ok ⟨K, _, Y⟩) {u u' v v' : Vec} {prevIn : Container ℝ}
    (hu : w.controlConv.samples1 u = .ok v) (hu' : w.controlConv.samples1 u' = .ok v') (hv : v.n = 2 + (if measured then 1 else 0))
    (hv' : v'.n = 2 + (if measured then 1 else 0)) (hprev : w.toInputs u = .ok prevIn)
    (hmoves : beh = .linear → (In.ofVec measured (List.ofFn v'.get)).time ≠ (In.ofVec measured (List.ofFn v.get)).time)
    (h : w.predict tr prevIn X u' = .ok P) :
    ∃ y : Fin K → ℝ,
      (∀ i, ∃ p, CircuitWith w.asoh w.names x (List.ofFn (Y i)) p ∧
        y i = volt (In.ofVec measured (List.ofFn v'.get))
          (step beh (In.ofVec measured (List.ofFn v.get)) (In.ofVec measured (List.ofFn v'.get)) s p) p) ∧
      (Reaches w.names (In.ofVec measured (List.ofFn v.get)) series a.rcs.length →
        w.outputConv.invSamples2 ⟨K, 1, fun i _ => y i⟩ = .ok P) ∧
      (¬ Reaches w.names (In.ofVec measured (List.ofFn v.get)) series a.rcs.length →
        (∀ i j, y i = y j) ∧ w.outputConv.invSamples2 ⟨1, 1, fun _ _ => y ⟨0, hK⟩⟩ = .ok P) := by
  unfold BaseWrapper.toInputs at hprev
  rw [hu] at hprev
  cases hprev
  rw [(C56_degradation w tr _ X _ hY u' u' v' v' hu' hu').2] at h
  obtain ⟨P', h1, h2⟩ := bind_ok.1 h
  obtain ⟨y, k1, k2, k3⟩ := (health_step hc hs hK Y hv hv' hmoves).2.1 P' h1
  refine ⟨y, k1, fun hr => ?_, fun hr => ?_⟩
  · rw [← k2 hr]; exact h2
  · rw [← (k3 hr).2]; exact ⟨(k3 hr).1, h2⟩

/-- C105, when batches can be handled.  With two or more hidden states – a filter always has more – the update and the prediction after it
return exactly if the choice of parameters is `DualEstimable`, whatever their values and those of the state. -/
theorem C105_returns_iff (hc : TracksHealth w beh x measured a) (hs : HoldsState tr series a.rcs.length s)
    (hop : w.hiddenConv.Invertible w.nAsoh) (hout : w.outputConv.Invertible 1) {X : Mat} (hn : X.n = w.nAsoh) (hX : 2 ≤ X.m)
    {u u' v v' : Vec} (hu : w.controlConv.samples1 u = .ok v) (hu' : w.controlConv.samples1 u' = .ok v')
    (hv : v.n = 2 + (if measured then 1 else 0)) (hv' : v'.n = 2 + (if measured then 1 else 0))
    (hmoves : beh = .linear → (In.ofVec measured (List.ofFn v'.get)).time ≠ (In.ofVec measured (List.ofFn v.get)).time) :
    (∃ r P, w.update tr X u u' = .ok r ∧ w.predict tr r.2 r.1 u' = .ok P) ↔ DualEstimable w.names measured series a := by
  obtain ⟨Y, hY, hYm, hYn, hYX⟩ := hop.there X hn
  obtain ⟨K, n, Y⟩ := Y
  simp only at hYm hYn
  subst hYn
  obtain ⟨e1, -⟩ := C56_degradation w tr tr X _ hY u u' v v' hu hu'
  obtain ⟨k1, k2, k3, k4⟩ := health_step hc hs (by omega : 1 ≤ K) Y hv hv' hmoves
  have e2 := fun prevIn => (C56_degradation w tr prevIn X _ hY u' u' v' v' hu' hu').2
  constructor
  · rintro ⟨r, P, h, h'⟩
    rw [e1] at h
    obtain ⟨r', h1, h2⟩ := bind_ok.1 h
    obtain rfl := k1 r' h1
    rw [hYX] at h2
    cases h2
    rw [e2] at h'
    obtain ⟨P', h3, -⟩ := bind_ok.1 h'
    exact k4 (by omega) ⟨_, h1⟩ ⟨_, h3⟩
  · intro he
    obtain ⟨⟨r, hr⟩, P, hP⟩ := k3 he
    obtain rfl := k1 r hr
    have hP1 : P.n = 1 := by
      obtain ⟨y, -, y1, y2⟩ := k2 P hP
      by_cases hre : Reaches w.names (In.ofVec measured (List.ofFn v.get)) series a.rcs.length
      · rw [y1 hre]
      · rw [(y2 hre).2]
    obtain ⟨P', h1, -⟩ := hout.back P hP1
    refine ⟨(X, w.inputs.makeCopy (.d1 (List.ofFn v.get))), P', ?_, ?_⟩
    · rw [e1, hr, ok_bind, hYX, ok_bind]
      rfl
    · rw [e2, hP, ok_bind, h1]

end

-- The concrete circuit with its open-circuit voltage and R0 as hidden states: any two of them are kept, and their predictions are the
-- voltages of the two cells.
example (beh : Behavior) (X : Matrix (Fin 2) (Fin 3) ℝ) : ∃ prevIn P,
    (Demo.trackingHealth beh .identity).update Demo.hvState ⟨2, 3, X⟩ ⟨3, ![0, 1, 30]⟩ ⟨3, ![1, 2, 30]⟩ = .ok (⟨2, 3, X⟩, prevIn) ∧
    (Demo.trackingHealth beh .identity).predict Demo.hvState prevIn ⟨2, 3, X⟩ ⟨3, ![1, 2, 30]⟩ = .ok P ∧
    ∃ y : Fin 2 → ℝ, P = ⟨2, 1, fun i _ => y i⟩ ∧ ∀ i, ∃ p, CircuitWith (Demo.hvUpdating [kOcv, kR0] [kBase]) [Demo.nOcv, Demo.nR0] Demo.fixed
      (List.ofFn (X i)) p ∧ y i = volt ⟨1, 2, some 30⟩ (step beh ⟨0, 1, some 30⟩ ⟨1, 2, some 30⟩ (St.ofVec false 1 [0.5, 0, 0]) p) p := by
  have hc := Demo.trackingHealth_circuit beh .identity
  have hs := Demo.hvState_holds
  have hmv : beh = .linear → (1 : ℝ) ≠ 0 := fun _ => by norm_num
  obtain ⟨r, P, h1, h2⟩ := (C105_returns_iff hc hs (identity_invertible _) (identity_invertible _) (X := ⟨2, 3, X⟩) rfl le_rfl
    (u := ⟨3, ![0, 1, 30]⟩) (u' := ⟨3, ![1, 2, 30]⟩) rfl rfl rfl rfl hmv).2 (Demo.trackingHealth_estimable _ _)
  obtain ⟨k1, k2⟩ := C105_update hc hs (X := ⟨2, 3, X⟩) one_le_two rfl (identity_invertible _) (u := ⟨3, ![0, 1, 30]⟩)
    (u' := ⟨3, ![1, 2, 30]⟩) rfl rfl rfl rfl hmv h1
  rw [k1] at h2
  obtain ⟨y, y1, y2, -⟩ := C105_predict hc hs (by decide) (K := 2) (X := ⟨2, 3, X⟩) (Y := X) rfl (u := ⟨3, ![0, 1, 30]⟩)
    (u' := ⟨3, ![1, 2, 30]⟩) rfl rfl rfl rfl k2 hmv h2
  exact ⟨r.2, P, by rw [h1, ← k1], h2, y, (Except.ok.inj (y2 (Demo.trackingHealth_reaches _ _ _))).symm, y1⟩

-- Its Coulombic efficiency alone: after a discharge there is one prediction for all hidden states, after a charge one for each.
example (beh : Behavior) (K : Nat) (hK : 2 ≤ K) (X : Matrix (Fin K) (Fin 1) ℝ) (c : ℝ) : ∃ prevIn P,
    (Demo.trackingCe beh .identity).update Demo.hvState ⟨K, 1, X⟩ ⟨3, ![0, c, 30]⟩ ⟨3, ![1, 2, 30]⟩ = .ok (⟨K, 1, X⟩, prevIn) ∧
    (Demo.trackingCe beh .identity).predict Demo.hvState prevIn ⟨K, 1, X⟩ ⟨3, ![1, 2, 30]⟩ = .ok P ∧
    P.m = if 0 ≤ c then K else 1 := by
  have hc := Demo.trackingCe_circuit beh .identity
  have hs := Demo.hvState_holds
  have hmv : beh = .linear → (1 : ℝ) ≠ 0 := fun _ => by norm_num
  obtain ⟨r, P, h1, h2⟩ := (C105_returns_iff hc hs (identity_invertible _) (identity_invertible _) (X := ⟨K, 1, X⟩) rfl hK
    (u := ⟨3, ![0, c, 30]⟩) (u' := ⟨3, ![1, 2, 30]⟩) rfl rfl rfl rfl hmv).2 (Demo.trackingCe_estimable _ _)
  obtain ⟨k1, k2⟩ := C105_update hc hs (X := ⟨K, 1, X⟩) (by show 1 ≤ K; omega) rfl (identity_invertible _) (u := ⟨3, ![0, c, 30]⟩)
    (u' := ⟨3, ![1, 2, 30]⟩) rfl rfl rfl rfl hmv h1
  rw [k1] at h2
  obtain ⟨y, -, y1, y2⟩ := C105_predict hc hs (by omega) (K := K) (X := ⟨K, 1, X⟩) (Y := X) rfl (u := ⟨3, ![0, c, 30]⟩)
    (u' := ⟨3, ![1, 2, 30]⟩) rfl rfl rfl rfl k2 hmv h2
  refine ⟨r.2, P, by rw [h1, ← k1], h2, ?_⟩
  rw [Demo.trackingCe_reaches] at y1 y2
  by_cases h : 0 ≤ c
  · rw [if_pos h, ← Except.ok.inj (y1 h)]
  · rw [if_neg h, ← Except.ok.inj (y2 h).2]

end Verif
