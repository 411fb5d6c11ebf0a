import Verif.Spec.EcmSimulate
import Verif.Props.EcmTruth
import Verif.Props.Simulator
/-!
# C115: simulating circuits, and estimating what was simulated
-/

namespace Verif
open Ecm Cell Matrix Spec

variable {beh : Behavior} {x : Fixed} {measured series : Bool} {a : ASOH}

abbrev CircuitSimulator := Simulator (Container ℝ) (Container ℝ) (HV ℝ) (Container ℝ)

/-! ## Batches -/

theorem cell_update_ok {c c' tr tr' : Container ℝ} {m : HV ℝ} {u u' : Input} {st : State} (hu : readInput c = .ok u) (hu' : readInput c' = .ok u')
    (hs : readState tr = .ok st) (hm : readASOH x m = .ok a) :
    (Ecm.cell beh x).update c c' tr m = .ok tr' ↔ ∃ st', Ecm.update beh u u' st a = .ok st' ∧ tr' = st'.toContainer := by
  simp only [Ecm.cell, hu, hu', hs, hm, ok_bind, bind_eq_ok_iff, pure_eq_ok, Except.ok.injEq, eq_comm (b := tr')]

theorem cell_output_ok {c tr y : Container ℝ} {m : HV ℝ} {u : Input} {st : State} (hu : readInput c = .ok u)
    (hs : readState tr = .ok st) (hm : readASOH x m = .ok a) :
    (Ecm.cell beh x).output c tr m = .ok y ↔ ∃ v, Ecm.voltage u st a = .ok v ∧ y = voltageContainer v := by
  simp only [Ecm.cell, hu, hs, hm, ok_bind, bind_eq_ok_iff, pure_eq_ok, Except.ok.injEq, eq_comm (b := y)]

/-- C115, simulations act cell by cell, by the circuit equations: if `evolve` returns, every member of the batch has run through its own states, and the
measurements are its voltages. -/
theorem C115_evolve {B : Nat} (hB : 0 < B) {cs : List (Container ℝ)} : ∀ {s s' : CircuitSimulator} {us : List Input} {u : Input} {st : State}
    {ys : List (Container ℝ)}, SimulatesCircuits s beh x B a u st → List.Forall₂ (fun c i => readInput c = .ok i ∧ Ins B i) cs us →
    s.evolve cs = (s', .ok ys) →
    ∃ st', SimulatesCircuits s' beh x B a (us.getLastD u) st' ∧ ∀ b < B,
      stAt st' b = run beh (parAt a b) (inAt u b) (us.map (inAt · b)) (stAt st b) ∧
      ys.map (voltageAt · b) = (cellVolts beh (parAt a b) (inAt u b) (us.map (inAt · b)) (stAt st b)).map some := by
  induction cs with
  | nil =>
    intro s s' us u st ys hs hus h
    cases hus
    cases h
    exact ⟨st, hs, fun b _ => ⟨rfl, rfl⟩⟩
  | cons c cs ih =>
    intro s s' us u st ys hs hus h
    cases hus with
    | @cons _ u' _ us hu' hus =>
    rw [Simulator.evolve] at h
    rcases hstep : s.step c with ⟨s1, e | ⟨t, y⟩⟩
    · rw [hstep] at h; simp at h
    · rw [hstep] at h
      simp only at h
      rcases hev : s1.evolve cs with ⟨s2, e | zs⟩
      · rw [hev] at h; simp at h
      · rw [hev] at h
        simp only [Prod.mk.injEq, Except.ok.injEq] at h
        obtain ⟨rfl, rfl⟩ := h
        obtain ⟨b, h1, h2, h3, rfl⟩ := Simulator.step_ok hstep
        rw [hs.model] at h1 h2
        rw [hs.degradation] at h3
        cases h3
        obtain ⟨st1, k1, rfl⟩ := (cell_update_ok hs.input hu'.1 hs.state hs.health).1 h1
        obtain ⟨v, k2, rfl⟩ := (cell_output_ok hu'.1 (readState_stored st1) hs.health).1 h2
        obtain ⟨g1, g2⟩ := update_rows hB hs.pars hs.ins hu'.2 hs.sts k1
        obtain ⟨p1, -, -, -, -, -, p2⟩ := stored_same g1
        obtain ⟨q1, q2⟩ := voltage_rows hB hs.pars hu'.2 p1 k2
        have hs1 : SimulatesCircuits ⟨s.model, s.degradation, s.asoh, st1.toContainer, c, voltageContainer v,
            s.history.map fun h => Simulator.push h c st1.toContainer s.asoh (voltageContainer v)⟩ beh x B a u' st1.stored :=
          ⟨hs.model, hs.degradation, hs.health, hs.pars, hu'.1, hu'.2, readState_stored st1, p1⟩
        obtain ⟨st', r1, r2⟩ := ih hs1 hus hev
        refine ⟨st', by rw [List.getLastD_cons]; exact r1, fun b hb => ?_⟩
        obtain ⟨r3, r4⟩ := r2 b hb
        have e : stAt st1.stored b = step beh (inAt u b) (inAt u' b) (stAt st b) (parAt a b) := (p2 b hb).trans (g2 b hb)
        rw [e] at r3 r4
        refine ⟨r3, ?_⟩
        show voltageAt (voltageContainer v) b :: zs.map (voltageAt · b) = some _ :: _
        rw [r4]
        refine congrArg (· :: _) ?_
        show some (at2 v.toArr2.toNd b) = _
        rw [(stored_scalar q1).2.2 b hb, q2 b hb, e]

/-! ## Returning -/

theorem Spec.HoldsInput.parts {c : Container ℝ} {v : Fin (2 + (if measured then 1 else 0)) → ℝ} (h : HoldsInput c measured v) :
    ∃ i, readInput c = .ok i ∧ (∀ K, Ins K i) ∧ i.temp.isSome = measured ∧ ∀ b, inAt i b = In.ofVec measured (List.ofFn v) := by
  obtain ⟨i, h1, h2⟩ := readInput_copy measured (List.ofFn v) (List.length_ofFn)
  refine ⟨i, ?_, h2⟩
  rw [← h1, ← makeCopy_layout h.layout]
  exact congrArg readInput (h.single.makeCopy h.value).symm

/-- C115, returning: several transient states of one circuit are simulated together, however many and in which shapes, over inputs of the right form
(under linear behaviour with changing times). -/
theorem C115_returns {B : Nat} (hB : 0 < B) {cs : List (Container ℝ)} : ∀ {s : CircuitSimulator} {u : Input} {st : State}
    {v : Fin (2 + (if measured then 1 else 0)) → ℝ} {us : List (Fin (2 + (if measured then 1 else 0)) → ℝ)},
    SimulatesCircuits s beh x B a u st → HoldsCircuit x s.asoh a → Estimable [] measured series a → st.q0.isSome = series → HoldsInput s.input measured v →
    List.Forall₂ (HoldsInput · measured ·) cs us →
    (beh = .linear → ((v :: us).map fun u => (In.ofVec measured (List.ofFn u)).time).IsChain (· ≠ ·)) →
    ∃ s' ys, s.evolve cs = (s', .ok ys) := by
  induction cs with
  | nil => intro s u st v us _ _ _ _ _ _ _; exact ⟨s, [], rfl⟩
  | cons c cs ih =>
    intro s u st v us hs hm he hq hv hus hmoves
    cases hus with
    | @cons _ v' _ us hv' hus =>
    have hch := fun hb => List.isChain_cons_cons.1 (hmoves hb)
    obtain ⟨i, i1, i2, i3, i4⟩ := hv.parts
    obtain ⟨i', j1, j2, j3, j4⟩ := hv'.parts
    have hmv : beh = .linear → i'.time.get [0, 0] ≠ i.time.get [0, 0] := by
      rw [input_time (i2 1), input_time (j2 1), i4, j4]; exact fun hb => (hch hb).1.symm
    have none : ∀ p, ¬ Named [] p := fun p => List.not_mem_nil
    obtain ⟨k1, -⟩ := can_of_estimable (hm.batch B) hm.single hB he (beh := beh) (i2 1) (j2 1) i3 j3 hs.sts hq (fun _ h => absurd h (none _))
    obtain ⟨st', h⟩ := (C28_update_returns_iff_partial hB hs.pars (i2 B) (j2 B) hs.sts hmv).2 (k1 hmv)
    obtain ⟨g1, g2⟩ := update_rows hB hs.pars (i2 B) (j2 B) hs.sts h
    have hq' : st'.stored.q0.isSome = series := by
      have := congrArg (fun s : St => s.q0.isSome) (g2 0 hB)
      simp only [stAt, step, Option.isSome_map] at this
      rw [(stored_same g1).2.2.2.2.2.1, this, hq]
    have p1 := (stored_same g1).1
    obtain ⟨-, k2⟩ := can_of_estimable (hm.batch B) hm.single hB he (beh := beh) (i2 1) (j2 1) i3 j3 p1 hq' (fun _ h => absurd h (none _))
    obtain ⟨w, hw⟩ := (C29_voltage_returns_iff_partial hB hs.pars (j2 B) p1).2 k2
    have t1 := (cell_update_ok (beh := beh) i1 j1 hs.state hm.read).2 ⟨st', h, rfl⟩
    have y1 := (cell_output_ok (beh := beh) j1 (readState_stored st') hm.read).2 ⟨w, hw, rfl⟩
    have hstep : s.step c = (⟨s.model, s.degradation, s.asoh, st'.toContainer, c, voltageContainer w,
        s.history.map fun h => Simulator.push h c st'.toContainer s.asoh (voltageContainer w)⟩, .ok (st'.toContainer, voltageContainer w)) := by
      simp only [Simulator.step, hs.model, hs.degradation, t1, y1, NoDegradation]
    obtain ⟨s', ys, h'⟩ := ih (s := ⟨s.model, s.degradation, s.asoh, st'.toContainer, c, voltageContainer w,
        s.history.map fun h => Simulator.push h c st'.toContainer s.asoh (voltageContainer w)⟩)
      ⟨hs.model, hs.degradation, hs.health, hs.pars, j1, j2 B, readState_stored st', p1⟩ hm he hq' hv' hus fun hb => (hch hb).2
    refine ⟨s', voltageContainer w :: ys, ?_⟩
    rw [Simulator.evolve, hstep]
    simp only [h']

/-! ## Single cells -/

theorem row_of {T : Arr2 ℝ} {l : List ℝ} (hr : T.nrow = 1) (h : T.rows.getD 0 [] = l) (hn : T.ncol = l.length) : T = .ofRow l := by
  obtain ⟨r, hr⟩ := List.length_eq_one_iff.1 hr
  apply Arr2.ext'
  · exact hn
  · rw [hr] at h ⊢
    rw [← h]
    rfl

theorem voltageContainer_single {w : Nd ℝ} (h : w.shape = [1, 1]) : voltageContainer w = voltageOf (at2 w 0) := by
  obtain ⟨T, h1, h2, h3, h4⟩ := voltage_toNumpy le_rfl h
  obtain ⟨e1, e2⟩ := toArr2_shape h
  have e : w.toArr2 = .ofRow [at2 w 0] := by
    refine row_of e1 ?_ e2
    simp [Nd.toArr2, h, at2, rows]
  rw [voltageContainer, e]
  rfl

theorem stored_layout {n : Nat} {st : State} (hs : Sts 1 a st) (hq : st.q0.isSome = series) (hn : a.rcs.length = n) :
    SameLayout st.toContainer (circuitState series n) ∧ st.toContainer.Single := by
  have single : ∀ {y : Nd ℝ}, Scalar 1 y → y.shape = [1, 1] := fun h => h.elim id id
  have hirc : st.irc.shape = [1, n] := by rw [← hn]; exact hs.irc.elim id id
  subst hq
  constructor
  · have e1 := (toArr2_shape (single hs.soc)).2
    have e2 := (toArr2_shape (single hs.hyst)).2
    have e3 := (toArr2_shape hirc).2
    cases hq : st.q0 with
    | none => simp [SameLayout, State.toContainer, circuitState_keys, hq, e1, e2, e3, Arr2.scalar, Arr2.ofRow]
    | some q =>
      have e4 := (toArr2_shape (single (hs.q0 q hq))).2
      simp [SameLayout, State.toContainer, circuitState_keys, hq, e1, e2, e3, e4, Arr2.scalar, Arr2.ofRow]
  · have e1 := (toArr2_shape (single hs.soc)).1
    have e2 := (toArr2_shape (single hs.hyst)).1
    have e3 := (toArr2_shape hirc).1
    intro q hq
    simp only [held, State.toContainer] at hq
    cases hq' : st.q0 with
    | none =>
      simp [hq'] at hq
      rcases hq with rfl | rfl | rfl <;> assumption
    | some q0 =>
      have e4 := (toArr2_shape (single (hs.q0 q0 hq'))).1
      simp [hq'] at hq
      rcases hq with rfl | rfl | rfl | rfl <;> assumption

theorem cellStep_list {p : Par} {N : Nat} (hN : N = 1 + (if series then 1 else 0) + p.rcs.length + 1) (prev new : In) (y : Fin N → ℝ) :
    List.ofFn (cellStep beh p series prev new y) = (step beh prev new (St.ofVec series p.rcs.length (List.ofFn y)) p).toVec := by
  have hl : (step beh prev new (St.ofVec series p.rcs.length (List.ofFn y)) p).toVec.length = N := by
    cases series <;> simp [step, St.toVec, St.ofVec] <;> simp at hN <;> omega
  refine List.ext_getElem (by rw [List.length_ofFn, hl]) fun i h1 h2 => ?_
  rw [List.getElem_ofFn]
  show List.getD _ i 0 = _
  rw [List.getD_eq_getElem?_getD, List.getElem?_eq_getElem h2, Option.getD_some]

section
variable {m : HV ℝ} (hm : HoldsCircuit x m a) (he : Estimable [] measured series a) {N : Nat} {y : Fin N → ℝ} {tr c c' : Container ℝ}
  (ht : HoldsTransients tr series a.rcs.length y) {v v' : Fin (2 + (if measured then 1 else 0)) → ℝ} (hc : HoldsInput c measured v)
include hm he ht hc

theorem circuit_simulates (hc' : HoldsInput c' measured v')
    (hmoves : beh = .linear → (In.ofVec measured (List.ofFn v')).time ≠ (In.ofVec measured (List.ofFn v)).time) :
    ∃ tr', (Ecm.cell beh x).update c c' tr m = .ok tr' ∧ HoldsTransients tr' series a.rcs.length
      (cellStep beh (parAt a 0) series (In.ofVec measured (List.ofFn v)) (In.ofVec measured (List.ofFn v')) y) := by
  obtain ⟨st, s1, s2, s3, s4, s5, s6, s7, s8⟩ := HoldsState.parts (s := St.ofVec series a.rcs.length (List.ofFn y)) ⟨ht.layout, ht.single, _, ht.value, rfl⟩
    (b := a) rfl 1
  obtain ⟨i, i1, i2, i3, i4⟩ := hc.parts
  obtain ⟨i', j1, j2, j3, j4⟩ := hc'.parts
  have hmv : beh = .linear → i'.time.get [0, 0] ≠ i.time.get [0, 0] := by
    rw [input_time (i2 1), input_time (j2 1), i4, j4]; exact hmoves
  obtain ⟨k1, -⟩ := can_of_estimable (hm.batch 1) hm.single le_rfl he (beh := beh) (i2 1) (j2 1) i3 j3 s2 s7 (fun _ _ => s3)
  obtain ⟨st', h⟩ := (C28_update_returns_iff_partial one_pos hm.single (i2 1) (j2 1) s2 hmv).2 (k1 hmv)
  obtain ⟨hs', hst⟩ := update_rows one_pos hm.single (i2 1) (j2 1) s2 h
  have hq' : st'.q0.isSome = series := by
    have := congrArg (fun s : St => s.q0.isSome) (hst 0 one_pos)
    simp only [stAt, step, Option.isSome_map] at this
    rw [this, s7]
  have hr' := update_soc_rows le_rfl hm.single (i2 1) (j2 1) s2 s3 h
  obtain ⟨T, hT, hTr, hTn, hTi⟩ := state_toNumpy le_rfl hs' hr'
  obtain ⟨g1, g2⟩ := stored_layout hs' hq' rfl
  have hlen : (parAt a 0).rcs.length = a.rcs.length := by simp [parAt]
  have hN : N = 1 + (if series then 1 else 0) + a.rcs.length + 1 := by
    rw [← state_len ht.layout ht.value]; exact (List.length_ofFn).symm
  have e : T.rows.getD 0 [] = List.ofFn (cellStep beh (parAt a 0) series (In.ofVec measured (List.ofFn v)) (In.ofVec measured (List.ofFn v')) y) := by
    rw [cellStep_list (by rw [hlen]; exact hN), hTi 0 one_pos, hst 0 one_pos, s8, i4, j4, hlen]
  refine ⟨_, (cell_update_ok i1 j1 s1 hm.read).2 ⟨st', h, rfl⟩, g1, g2, ?_⟩
  rw [hT, row_of hTr e (by rw [hTn, hq', List.length_ofFn, hN])]

theorem circuit_shows : (Ecm.cell beh x).output c tr m = .ok (voltageOf (cellVolt (parAt a 0) series (In.ofVec measured (List.ofFn v)) y 0)) := by
  obtain ⟨st, s1, s2, s3, s4, s5, s6, s7, s8⟩ := HoldsState.parts (s := St.ofVec series a.rcs.length (List.ofFn y)) ⟨ht.layout, ht.single, _, ht.value, rfl⟩
    (b := a) rfl 1
  obtain ⟨i, i1, i2, i3, i4⟩ := hc.parts
  obtain ⟨-, k2⟩ := can_of_estimable (hm.batch 1) hm.single le_rfl he (beh := beh) (i2 1) (i2 1) i3 i3 s2 s7 (fun _ _ => s3)
  obtain ⟨w, hw⟩ := (C29_voltage_returns_iff_partial one_pos hm.single (i2 1) s2).2 k2
  obtain ⟨-, hvolt⟩ := voltage_rows one_pos hm.single (i2 1) s2 hw
  have hsh := voltage_full le_rfl hm.single (i2 1) s2 s4 hw
  have hlen : (parAt a 0).rcs.length = a.rcs.length := by simp [parAt]
  refine (cell_output_ok i1 s1 hm.read).2 ⟨w, hw, ?_⟩
  rw [voltageContainer_single hsh, hvolt 0 one_pos, i4, s8]
  simp only [cellVolt, hlen]

end

/-- C115, one cell: over inputs of the right form (under linear behaviour with changing times) `evolve` returns, the states of the simulator run through
those of the cell, and the measurements are its voltages.  All are appended to the history, if it is kept. -/
theorem C115_single {cs : List (Container ℝ)} : ∀ {s : CircuitSimulator} {u : Fin (2 + (if measured then 1 else 0)) → ℝ}
    {us : List (Fin (2 + (if measured then 1 else 0)) → ℝ)} {N : Nat} {y : Fin N → ℝ}, SimulatesCircuit s beh x measured series a u y →
    Estimable [] measured series a → List.Forall₂ (HoldsInput · measured ·) cs us →
    (beh = .linear → ((u :: us).map fun u => (In.ofVec measured (List.ofFn u)).time).IsChain (· ≠ ·)) →
    ∃ s' xs ys, s.evolve cs = (s', .ok ys) ∧
      List.Forall₂ (fun r t => HoldsTransients r.1 series a.rcs.length t.1 ∧ r.2 = voltageOf (t.2 0)) (xs.zip ys)
        (cellRun beh (parAt a 0) series (In.ofVec measured (List.ofFn u)) y (us.map fun u => In.ofVec measured (List.ofFn u))) ∧
      xs.length = cs.length ∧ ys.length = cs.length ∧ s'.measurement = ys.getLastD s.measurement ∧
      s'.history = s.history.map fun h => ⟨h.inputs ++ cs, h.transients ++ xs, h.asohs ++ List.replicate cs.length s.asoh, h.measurements ++ ys⟩ := by
  induction cs with
  | nil =>
    intro s u us N y hs he hus hmoves
    cases hus
    refine ⟨s, [], [], rfl, .nil, rfl, rfl, rfl, ?_⟩
    cases s.history <;> simp
  | cons c cs ih =>
    intro s u us N y hs he hus hmoves
    cases hus with
    | @cons _ v _ us hv hus =>
    have hch := fun hb => List.isChain_cons_cons.1 (hmoves hb)
    obtain ⟨t, t1, t2⟩ := circuit_simulates (beh := beh) hs.health he hs.state hs.input hv fun hb => (hch hb).1.symm
    have y2 := circuit_shows (beh := beh) hs.health he t2 hv
    generalize y1 : voltageOf _ = Y at y2
    have hstep : s.step c = (⟨s.model, s.degradation, s.asoh, t, c, Y, s.history.map fun h => Simulator.push h c t s.asoh Y⟩, .ok (t, Y)) := by
      simp only [Simulator.step, hs.model, hs.degradation, t1, y2, NoDegradation]
    obtain ⟨s', xs, ys, k1, k2, k3, k4, k6, k5⟩ := ih (s := ⟨s.model, s.degradation, s.asoh, t, c, Y, s.history.map fun h => Simulator.push h c t s.asoh Y⟩)
      ⟨hs.model, hs.degradation, hs.health, hv, t2⟩ he hus fun hb => (hch hb).2
    refine ⟨s', t :: xs, Y :: ys, ?_, .cons ⟨t2, y1.symm⟩ k2, congrArg Nat.succ k3, congrArg Nat.succ k4, ?_, ?_⟩
    · rw [Simulator.evolve, hstep]
      simp only [k1]
    · rw [k6, List.getLastD_cons]
    · rw [k5]
      cases s.history <;> simp [Simulator.push, List.replicate_succ]

/-! ## Simulating and estimating -/

theorem voltageOf_toNumpy (V : Fin 1 → ℝ) : (voltageOf (V 0)).toNumpy = .ok (.ofRow (List.ofFn V)) := by
  simp [List.ofFn_succ]; rfl


theorem flat_ofRow {n : Nat} (v : Fin n → ℝ) : (Arr2.ofRow (List.ofFn v)).flat = ⟨n, v⟩ := by
  have : ∀ l : List ℝ, l = List.ofFn v → (⟨l.length, fun i => l.get i⟩ : Vec) = ⟨n, v⟩ := by
    rintro l rfl
    have hl : (List.ofFn v).length = n := List.length_ofFn
    have : ∀ (k : Nat) (g : Fin k → ℝ), (h : k = n) → (∀ i : Fin k, g i = v (i.cast h)) → (⟨k, g⟩ : Vec) = ⟨n, v⟩ := by
      rintro k g rfl hg
      exact congrArg (Vec.mk k) (funext hg)
    exact this _ _ hl fun i => by rw [List.get_ofFn]
  exact this _ (by simp [Arr2.ofRow])

theorem forall2_join {α β γ : Type} {R : α → γ → Prop} {S : β → γ → Prop} {T : α → β → Prop} (h : ∀ a b c, R a c → S b c → T a b) {l : List α} {k : List β}
    {n : List γ} (h1 : List.Forall₂ R l n) (h2 : List.Forall₂ S k n) : List.Forall₂ T l k := by
  induction h1 generalizing k with
  | nil => cases h2; exact .nil
  | cons hr _ ih => cases h2 with | cons hs h2 => exact .cons (h _ _ _ hr hs) (ih h2)

theorem forall2_snd {α β γ : Type} {S : β → γ → Prop} {xs : List α} {ys : List β} {n : List γ} (hl : xs.length = ys.length)
    (h : List.Forall₂ (fun r c => True ∧ S r.2 c) (xs.zip ys) n) : List.Forall₂ S ys n := by
  rw [show ys = (xs.zip ys).map Prod.snd from (List.map_snd_zip hl.ge).symm, List.forall₂_map_left_iff]
  exact h.imp fun _ _ h => h.2

theorem noiseless_of {N : Nat} {cs : List (Container ℝ)} {us : List (Fin (2 + (if measured then 1 else 0)) → ℝ)}
    (hcs : List.Forall₂ (HoldsInput · measured ·) cs us) {ys : List (Container ℝ)} {truth : List ((Fin N → ℝ) × (Fin 1 → ℝ))}
    (hys : List.Forall₂ (fun y t => y.toNumpy = .ok (.ofRow (List.ofFn t.2))) ys truth) {hist : List (Dist × Dist)}
    (hh : List.Forall₂ (fun h r => ∃ U Y, r.1.toNumpy = .ok U ∧ h.1.mean = U.flat ∧ r.2.toNumpy = .ok Y ∧ h.2.mean = Y.flat) hist (cs.zip ys)) :
    Measures hist us truth := by
  induction hcs generalizing ys truth hist with
  | nil => cases hh; exact .nil
  | @cons c u cs us hc _ ih =>
    cases hys with
    | nil => cases hh; exact .nil
    | @cons y t ys truth hy hys =>
      cases hh with
      | cons hd hh =>
        obtain ⟨U, Y, k1, k2, k3, k4⟩ := hd
        cases k1.symm.trans hc.value
        cases k3.symm.trans hy
        exact .cons ⟨k2.trans (flat_ofRow _), k4.trans (flat_ofRow _)⟩ (ih hys hh)

/-- C115, estimating what was simulated: the filter of the transient states of a circuit with straight curves starts at the state of a simulator of this
circuit, and observes the inputs of the simulator and its measurements.  Then its estimates are the states of the simulator, and its predictions the measurements. -/
theorem C115_recovers {w : CellWrapper} (hw : TracksCircuit w beh x measured series a.rcs.length) (he : Estimable [] measured series a)
    (hp : Straight (parAt a 0)) {P Q : Matrix (Fin w.nTransients) (Fin w.nTransients) ℝ} {R : Matrix (Fin 1) (Fin 1) ℝ}
    (hP : P.PosDef) (hQ : Q.PosDef) (hR : R.PosDef) (svd : Mat → Vec × Mat) {y : Fin w.nTransients → ℝ} {u : Fin (2 + (if measured then 1 else 0)) → ℝ}
    {s : CircuitSimulator} (hs : SimulatesCircuit s beh x measured series a u y) {f : Ukf (HV ℝ)} (hf : f.model = w.plain.toWrapper)
    (hm : HoldsCircuit x f.mem a) (h : f.Holds w.nTransients 1 y P Q R) (hu : f.controls.mean = ⟨_, u⟩)
    {cs : List (Container ℝ)} {us : List (Fin (2 + (if measured then 1 else 0)) → ℝ)} (hcs : List.Forall₂ (HoldsInput · measured ·) cs us)
    (hmoves : beh = .linear → ((u :: us).map fun u => (In.ofVec measured (List.ofFn u)).time).IsChain (· ≠ ·))
    {past : History (Container ℝ) (Container ℝ) (HV ℝ) (Container ℝ)} (hpast : s.history = some past) :
    ∃ s' xs ys, s.evolve cs = (s', .ok ys) ∧ (∃ now, s'.history = some now ∧ now.transients = past.transients ++ xs) ∧
      ∀ hist, List.Forall₂ (fun h r => ∃ U Y, r.1.toNumpy = .ok U ∧ h.1.mean = U.flat ∧ r.2.toNumpy = .ok Y ∧ h.2.mean = Y.flat) hist (cs.zip ys) →
      ∃ f' out, f.run svd hist = .ok (f', out) ∧
        List.Forall₂ (fun r t => ∃ X Y, t.1.toNumpy = .ok X ∧ r.1.mean = X.flat ∧ t.2.toNumpy = .ok Y ∧ r.2.mean = Y.flat) out (xs.zip ys) := by
  obtain ⟨s', xs, ys, h1, h2, h3, h4, -, h5⟩ := C115_single hs he hcs hmoves
  refine ⟨s', xs, ys, h1, ⟨_, by rw [h5, hpast]; rfl, rfl⟩, fun hist hh => ?_⟩
  have hn := noiseless_of hcs (forall2_snd (by rw [h3, h4]) (h2.imp fun _ t h => ⟨trivial, h.2 ▸ voltageOf_toNumpy t.2⟩)) hh
  obtain ⟨f', out, r1, r2⟩ := C114_stays_at_truth hw he hp hQ hR svd hf hm h hP hu hmoves hist hn
  refine ⟨f', out, r1, ?_⟩
  rw [← List.forall₂_eq_eq_eq, List.forall₂_map_left_iff, List.forall₂_map_right_iff] at r2
  refine forall2_join (fun r q t e k => ?_) r2 h2
  rw [Prod.mk.injEq] at e
  exact ⟨_, _, k.1.value, e.1.trans (flat_ofRow _).symm, k.2 ▸ voltageOf_toNumpy t.2, e.2.trans (flat_ofRow _).symm⟩

/-! ## Examples -/

/-- Inputs from times, currents and temperatures. -/
def Demo.inputs (us : List (Fin 3 → ℝ)) : List (Container ℝ) :=
  us.map fun u => ⟨[(kTime, some (.ofRow [u 0])), (kCurrent, some (.ofRow [u 1])), (kTemp, some (.ofRow [u 2]))]⟩

theorem Demo.inputs_hold (us : List (Fin 3 → ℝ)) : List.Forall₂ (HoldsInput · true ·) (Demo.inputs us) us := by
  unfold Demo.inputs
  rw [List.forall₂_map_left_iff, List.forall₂_same]
  refine fun u _ => ⟨rfl, ?_, ?_⟩
  · intro q hq
    have hq : q ∈ [(kTime, Arr2.ofRow [u 0]), (kCurrent, Arr2.ofRow [u 1]), (kTemp, Arr2.ofRow [u 2])] := hq
    simp only [List.mem_cons, List.not_mem_nil, or_false] at hq
    rcases hq with rfl | rfl | rfl <;> rfl
  · rw [show List.ofFn u = [u 0, u 1, u 2] by simp [List.ofFn_succ]]
    rfl

theorem Demo.state_holds : HoldsTransients Demo.hvState false Demo.arrays.rcs.length ![0.5, 0, 0] := ⟨rfl, Demo.hvState_single, by
  rw [show List.ofFn ![(0.5 : ℝ), 0, 0] = [0.5, 0, 0] by simp [List.ofFn_succ]]; rfl⟩

theorem Demo.input_holds : HoldsInput Demo.hvInput true ![0, 1, 30] := ⟨rfl, Demo.hvInput_single, by
  rw [show List.ofFn ![(0 : ℝ), 1, 30] = [0, 1, 30] by simp [List.ofFn_succ]]; rfl⟩

-- A simulator of the concrete circuit is built; it simulates every sequence of times, currents and temperatures in which the time always changes, and the
-- filter of its transient states that starts where the simulator does finds the simulated states.
example (beh : Behavior) (svd : Mat → Vec × Mat) (us : List (Fin 3 → ℝ)) (ht : (0 :: us.map (· 0)).IsChain (· ≠ ·)) :
    ∃ s s' xs ys, Simulator.init (Ecm.cell beh Demo.fixed) (NoDegradation _ _ _ _) (Demo.hvUpdating [] []) Demo.hvState Demo.hvInput true = .ok s ∧
      s.evolve (Demo.inputs us) = (s', .ok ys) ∧ (∃ now, s'.history = some now ∧ now.transients = Demo.hvState :: xs) ∧
      ∀ hist, List.Forall₂ (fun h r => ∃ U Y, r.1.toNumpy = .ok U ∧ h.1.mean = U.flat ∧ r.2.toNumpy = .ok Y ∧ h.2.mean = Y.flat) hist
        ((Demo.inputs us).zip ys) →
      ∃ f' out, (Demo.tracker beh).run svd hist = .ok (f', out) ∧
        List.Forall₂ (fun r t => ∃ X Y, t.1.toNumpy = .ok X ∧ r.1.mean = X.flat ∧ t.2.toNumpy = .ok Y ∧ r.2.mean = Y.flat) out (xs.zip ys) := by
  have he := estimable_nil (Demo.estimating_estimable beh .identity)
  have ei : ∀ u : Fin 3 → ℝ, In.ofVec true (List.ofFn u) = ⟨u 0, u 1, some (u 2)⟩ := fun u => by simp [In.ofVec, List.ofFn_succ]
  obtain ⟨Y, hY⟩ := (⟨_, circuit_shows (beh := beh) (Demo.hv_holds [] []) he Demo.state_holds Demo.input_holds⟩ : ∃ Y, _ = Except.ok Y)
  obtain ⟨s', xs, ys, h1, h2, h3⟩ := C115_recovers (Demo.tracking_circuit beh .identity [] []) he Demo.arrays_straight .one .one .one svd
    (s := ⟨_, NoDegradation _ _ _ _, Demo.hvUpdating [] [], Demo.hvState, Demo.hvInput, Y, some ⟨[_], [_], [_], [_]⟩⟩)
    ⟨rfl, rfl, Demo.hv_holds [] [], Demo.input_holds, Demo.state_holds⟩ (f := Demo.tracker beh) rfl (Demo.hv_holds [] []) (Demo.tracker_holds beh)
    (u := ![0, 1, 30]) rfl (Demo.inputs_hold us) (fun _ => by simp only [ei, List.map_cons]; exact ht) rfl
  refine ⟨_, s', xs, ys, ?_, h1, h2, h3⟩
  simp only [Simulator.init, hY]
  rfl

/-- Three SOCs, and no overpotential or hysteresis. -/
noncomputable def Demo.threeSocs : Container ℝ :=
  ⟨[(kSoc, some ⟨1, [[0.2], [0.5], [0.8]], by simp⟩), (kQ0, none), (kIrc, some (.ofRow [0])), (kHyst, some (.ofRow [0]))]⟩

-- Three cells of this circuit at different SOCs are simulated together; the third voltage is always that of the cell that started at SOC 0.8.
example (beh : Behavior) (us : List (Fin 3 → ℝ)) (ht : (0 :: us.map (· 0)).IsChain (· ≠ ·)) (Y : Container ℝ) :
    let s : CircuitSimulator := ⟨Ecm.cell beh Demo.fixed, NoDegradation _ _ _ _, Demo.hvUpdating [] [], Demo.threeSocs, Demo.hvInput, Y, none⟩
    ∃ s' ys, s.evolve (Demo.inputs us) = (s', .ok ys) ∧ ys.map (voltageAt · 2) =
      (cellVolts beh (parAt Demo.arrays 0) ⟨0, 1, some 30⟩ (us.map fun u => ⟨u 0, u 1, some (u 2)⟩) ⟨0.8, none, [0], 0⟩).map some := by
  intro s
  have he := estimable_nil (Demo.estimating_estimable beh .identity)
  have ei : ∀ u : Fin 3 → ℝ, In.ofVec true (List.ofFn u) = ⟨u 0, u 1, some (u 2)⟩ := fun u => by simp [In.ofVec, List.ofFn_succ]
  have hm := Demo.hv_holds [] []
  obtain ⟨i, i1, i2, -, i4⟩ := Demo.input_holds.parts
  have hs : SimulatesCircuits s beh Demo.fixed 3 Demo.arrays i _ := ⟨rfl, rfl, hm.read, pars_batch (hm.batch 3) hm.single, i1, i2 3, rfl,
    ⟨.inr rfl, nofun, .inl rfl, .inl rfl⟩⟩
  obtain ⟨s', ys, h⟩ := C115_returns (by norm_num) hs hm he rfl Demo.input_holds (Demo.inputs_hold us) (fun _ => by simp only [ei, List.map_cons]; exact ht)
  have hus : ∀ {cs : List (Container ℝ)}, List.Forall₂ (HoldsInput · true ·) cs us →
      ∃ is, List.Forall₂ (fun c i => readInput c = .ok i ∧ Ins 3 i) cs is ∧ is.map (inAt · 2) = us.map fun u => ⟨u 0, u 1, some (u 2)⟩ := by
    clear h hs ht
    induction us with
    | nil => intro cs h; cases h; exact ⟨[], .nil, rfl⟩
    | cons u us ih =>
      intro cs h
      cases h with
      | cons hc h =>
        obtain ⟨is, k1, k2⟩ := ih h
        obtain ⟨j, j1, j2, -, j4⟩ := hc.parts
        exact ⟨j :: is, .cons ⟨j1, j2 3⟩ k1, congrArg₂ List.cons ((j4 2).trans (ei u)) k2⟩
  obtain ⟨is, k1, k2⟩ := hus (Demo.inputs_hold us)
  obtain ⟨st', -, r⟩ := C115_evolve (by norm_num) hs k1 h
  refine ⟨s', ys, h, ?_⟩
  have := (r 2 (by norm_num)).2
  rw [k2, i4 2, ei, hm.row 2] at this
  exact this

end Verif
