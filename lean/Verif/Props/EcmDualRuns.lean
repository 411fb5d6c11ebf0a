import Verif.Props.EcmDual
import Verif.Props.DualRuns
/-!
# A dual estimator of an equivalent circuit can be built and runs (C106)
-/

namespace Verif
open Ecm Cell Spec

variable {x : Fixed} {measured series : Bool} {a : ASOH}

/-! ## Proofs: models in other units -/

/-- A model that acts on every hidden state by itself does so in all units. -/
theorem rowWise_units {σ : Type} {w₀ w : Wrapper σ} {hid out ctl : Operator} {n o : Nat} {d b : Fin n → ℝ} {e c : Fin o → ℝ}
    (hd : ∀ i, d i ≠ 0) (he : ∀ i, e i ≠ 0) (hh : hid.Rescales n d b) (hout : out.Rescales o e c) {I : σ → Prop} {U : Vec → Prop}
    (hupd : ∀ s X Y u u' v v', hid.samples2 X = .ok Y → ctl.samples1 u = .ok v → ctl.samples1 u' = .ok v' →
      w.update s X u u' = (do
        let r ← w₀.update s Y v v'
        return (← hid.invSamples2 r.1, r.2)))
    (hpred : ∀ s X Y u v, hid.samples2 X = .ok Y → ctl.samples1 u = .ok v →
      w.predict s X u = (w₀.predict s Y v >>= out.invSamples2))
    (hrow : RowWise w₀ n o I U) : RowWise w n o I fun u => ∃ v, ctl.samples1 u = .ok v ∧ U v := by
  rintro s u u' hs ⟨v, hv, hvU⟩ ⟨v', hv', hvU'⟩
  obtain ⟨g, k, t, ht, hY, hZ⟩ := hrow s v v' hs hvU hvU'
  have inv : ∀ {m : Nat} {a r : Fin m → ℝ}, (∀ i, a i ≠ 0) → ∀ x, rescale a r (fun i => (x i - r i) / a i) = x := by
    intro m a r ha x
    funext i
    have := ha i
    simp only [rescale]
    field_simp
    ring
  refine ⟨fun x i => (g (rescale d b x) i - b i) / d i, fun x i => (k (rescale d b x) i - c i) / e i, t, ht, fun K hK X => ?_,
    fun K hK X => ?_⟩
  · rw [hupd s _ _ _ _ _ _ (hh.samples2 K X) hv hv', hY K hK fun i => rescale d b (X i), ok_bind]
    have h4 := hh.invSamples2 K fun i j => (g (rescale d b (X i)) j - b j) / d j
    have h5 : (fun i => rescale d b fun j => (g (rescale d b (X i)) j - b j) / d j) = fun i => g (rescale d b (X i)) :=
      funext fun i => inv hd _
    rw [h5] at h4
    rw [h4]
    rfl
  · rw [hpred t _ _ _ _ (hh.samples2 K X) hv', hZ K hK fun i => rescale d b (X i), ok_bind]
    have h4 := hout.invSamples2 K fun i j => (k (rescale d b (X i)) j - c j) / e j
    have h5 : (fun i => rescale e c fun j => (k (rescale d b (X i)) j - c j) / e j) = fun i => k (rescale d b (X i)) :=
      funext fun i => inv he _
    rw [h5] at h4
    exact h4

theorem cell_units {w : CellWrapper} {n o : Nat} {d b : Fin n → ℝ} {e c : Fin o → ℝ}
    (hd : ∀ i, d i ≠ 0) (he : ∀ i, e i ≠ 0) (hh : w.hiddenConv.Rescales n d b) (hout : w.outputConv.Rescales o e c) {I : HV ℝ → Prop}
    {U : Vec → Prop} (hrow : RowWise w.plain.toWrapper n o I U) :
    RowWise w.toWrapper n o I fun u => ∃ v, w.controlConv.samples1 u = .ok v ∧ U v := by
  refine rowWise_units hd he hh hout (fun s X Y u u' v v' hY hv hv' => ?_) (fun s X Y u v hY hv => ?_) hrow
  · show (do return (← w.update s X u u', s) : Except Err (Mat × HV ℝ)) = (do
      let r ← (do return (← w.plain.update s Y v v', s) : Except Err (Mat × HV ℝ))
      return (← w.hiddenConv.invSamples2 r.1, r.2))
    rw [(C56_cell w s X Y hY u u' v v' hv hv').1]
    simp only [bind_assoc, pure_eq_ok, ok_bind]
  · exact (C56_cell w s X Y hY u u v v hv hv).2

theorem health_units {w : DegradationWrapper} {n o : Nat} {d b : Fin n → ℝ} {e c : Fin o → ℝ}
    (hd : ∀ i, d i ≠ 0) (he : ∀ i, e i ≠ 0) (hh : w.hiddenConv.Rescales n d b) (hout : w.outputConv.Rescales o e c)
    {I : Container ℝ × Container ℝ → Prop} {U : Vec → Prop} (hrow : RowWise w.plain.toWrapper n o I U) :
    RowWise w.toWrapper n o I fun u => ∃ v, w.controlConv.samples1 u = .ok v ∧ U v := by
  refine rowWise_units hd he hh hout (fun s X Y u u' v v' hY hv hv' => ?_) (fun s X Y u v hY hv => ?_) hrow
  · show (do
      let r ← w.update s.1 X u u'
      return (r.1, (s.1, r.2)) : Except Err (Mat × Container ℝ × Container ℝ)) = (do
      let r ← (do
        let r ← w.plain.update s.1 Y v v'
        return (r.1, (s.1, r.2)) : Except Err (Mat × Container ℝ × Container ℝ))
      return (← w.hiddenConv.invSamples2 r.1, r.2))
    rw [(C56_degradation w s.1 s.2 X Y hY u u' v v' hv hv').1]
    simp only [bind_assoc, pure_eq_ok, ok_bind]
  · exact (C56_degradation w s.1 s.2 X Y hY u u v v hv hv).2

/-! ## Proofs: both models act on every hidden state by itself -/

theorem tracks_rowWise {w : CellWrapper} {n : Nat} (hw : TracksCircuit w .constant x measured series n) :
    RowWise w.plain.toWrapper w.nTransients 1 (fun m => ∃ a, HoldsCircuit x m a ∧ a.rcs.length = n ∧ Estimable [] measured series a)
      (fun u => u.n = 2 + (if measured then 1 else 0)) := by
  rintro m u u' ⟨a, hm, rfl, he⟩ hu hu'
  refine ⟨fun y j => (step .constant (In.ofVec measured (List.ofFn u.get)) (In.ofVec measured (List.ofFn u'.get))
      (St.ofVec series a.rcs.length (List.ofFn y)) (parAt a 0)).toVec.getD j.val 0,
    fun y _ => volt (In.ofVec measured (List.ofFn u'.get)) (St.ofVec series a.rcs.length (List.ofFn y)) (parAt a 0), m,
    ⟨a, hm, rfl, he⟩, fun K hK X => ?_, fun K hK X => ?_⟩
  · obtain ⟨k1, k2, -⟩ := tracks_update hw hm hK X hu hu'
    obtain ⟨H, hH⟩ := k2 nofun he
    obtain ⟨Z, rfl, h⟩ := k1 H hH
    show (do return (← w.plain.update m ⟨K, _, X⟩ u u', m) : Except Err (Mat × HV ℝ)) = _
    rw [hH, ok_bind, show Z = _ from funext fun i => list_of_ofFn (h i)]
    rfl
  · obtain ⟨-, -, -, k1, k2⟩ := tracks_update hw hm hK X hu' hu'
    obtain ⟨H, hH⟩ := k2 he
    obtain ⟨Z, rfl, h⟩ := k1 H hH
    have e : Z = fun i _ => volt (In.ofVec measured (List.ofFn u'.get)) (St.ofVec series a.rcs.length (List.ofFn (X i))) (parAt a 0) := by
      funext i j
      obtain rfl : j = 0 := Subsingleton.elim _ _
      exact h i
    show w.plain.predict m ⟨K, _, X⟩ u' = _
    rw [hH, e]

theorem circuitWith_unique {m : HV ℝ} {ns : List Name} {z : List ℝ} {p q : Par} (h : CircuitWith m ns x z p) (h' : CircuitWith m ns x z q) :
    p = q := by
  obtain ⟨m, b, h1, h2, rfl⟩ := h
  obtain ⟨m', b', h1', h2', rfl⟩ := h'
  cases h1.symm.trans h1'
  cases h2.symm.trans h2'
  rfl

theorem health_rowWise {w : DegradationWrapper} (hc : TracksHealth w .constant x measured a) (he : DualEstimable w.names measured series a)
    (hr : ∀ prev, Reaches w.names prev series a.rcs.length) :
    RowWise w.plain.toWrapper w.nAsoh 1 (fun m => ∃ s, HoldsState m.1 series a.rcs.length s)
      (fun u => u.n = 2 + (if measured then 1 else 0)) := by
  rintro ⟨tr, pi⟩ u u' ⟨s, hs⟩ hu hu'
  have hex : ∀ y : Fin w.nAsoh → ℝ, ∃ p, CircuitWith w.asoh w.names x (List.ofFn y) p := by
    intro y
    obtain ⟨_, b, _, _, _, _, _, h⟩ := health_parts hc le_rfl (fun _ : Fin 1 => y)
    exact ⟨_, h 0⟩
  choose par hpar using hex
  refine ⟨fun y => y, fun y _ => volt (In.ofVec measured (List.ofFn u'.get)) (step .constant (In.ofVec measured (List.ofFn u.get))
      (In.ofVec measured (List.ofFn u'.get)) s (par y)) (par y), (tr, w.inputs.makeCopy (.d1 (List.ofFn u.get))), ⟨s, hs⟩,
    fun K hK X => ?_, fun K hK X => ?_⟩
  · obtain ⟨k1, -, k3, -⟩ := health_step hc hs hK X hu hu' nofun
    obtain ⟨⟨r, h⟩, -⟩ := k3 he
    obtain rfl := k1 r h
    show (do
      let r ← w.plain.update tr ⟨K, _, X⟩ u u'
      return (r.1, (tr, r.2)) : Except Err (Mat × Container ℝ × Container ℝ)) = _
    rw [h]
    rfl
  · obtain ⟨-, k2, k3, -⟩ := health_step hc hs hK X hu hu' nofun
    obtain ⟨-, P, h⟩ := k3 he
    obtain ⟨y, y1, y2, -⟩ := k2 P h
    show w.plain.predict tr (w.inputs.makeCopy (.d1 (List.ofFn u.get))) ⟨K, _, X⟩ u' = _
    rw [h, y2 (hr _)]
    congr 2
    funext i j
    obtain ⟨p, hp, h1⟩ := y1 i
    obtain rfl := circuitWith_unique hp (hpar (X i))
    exact h1

/-! ## Proofs: what one filter gives to the other -/

/-- Parameters of one cell read from the template, with other values, are again parameters of one cell, with curves of the same form. -/
theorem estimable_copy {w : DegradationWrapper} {beh : Behavior} (hc : TracksHealth w beh x measured a) {ns : List Name} (he : Estimable ns measured series a)
    (y : Fin w.nAsoh → ℝ) : ∃ m b, w.asoh.makeCopy (.d1 (List.ofFn y)) (some w.names) = .ok m ∧ HoldsCircuit x m b ∧
      b.rcs.length = a.rcs.length ∧ Estimable [] measured series b := by
  obtain ⟨m, b, h1, -, h3, h4, h5, -⟩ := health_parts hc le_rfl (fun _ : Fin 1 => y)
  have hcopy : w.asoh.makeCopy (.d2 (Mat.toArr2 ⟨1, _, fun _ => y⟩)) (some w.names) = .ok m := h1
  have htot : totalSize w.asoh w.names = (Mat.toArr2 ⟨1, _, fun _ : Fin 1 => y⟩).ncol := by
    obtain ⟨A0, hA0, hA0n⟩ := hc.nAsoh_eq
    rw [width_eq hc.asoh.wf hc.asoh.unbatched (fun n hn => updatable_subset (hc.names_updatable n hn)) hA0, hA0n, Mat.toArr2_ncol]
  obtain ⟨k1, k2⟩ := copy_alike hc.asoh.wf hc.asoh.unbatched hc.names_distinct hc.names_updatable htot (by rw [Mat.toArr2_nrow]) hcopy
  refine ⟨m, b, ?_, ⟨k1, ?_, h3, h5⟩, h4.rcs.1, ?_⟩
  · rw [makeCopy_d1, ← hcopy, show (⟨1, _, fun _ => y⟩ : Mat) = Mat.ofRow ⟨_, y⟩ from rfl, toArr2_ofRow]
    rfl
  · obtain ⟨m', g1, g2, -, -, g5, -, g7, -⟩ := makeCopy_writes hc.asoh.wf hc.asoh.unbatched hc.names_distinct hc.names_updatable htot
      (by rw [Mat.toArr2_nrow])
    cases hcopy.symm.trans g1
    intro p z hz
    by_cases hp : pathName p ∈ w.names
    · have := slices_nrow _ (g5 _ hp)
      rw [valueAt_isParam g2 hz, Mat.toArr2_nrow] at this
      exact this
    · exact hc.asoh.unbatched p z ((g7 p z hp).1 hz)
  · have ev : ∀ {h h' : Interp}, h'.width = h.width → h'.pinsUsed = h.pinsUsed → Evaluable h → Evaluable h' := by
      intro h h' e1 e2 h3
      unfold Evaluable at h3 ⊢
      rw [e1, e2]
      exact h3
    refine ⟨?_, fun hm => ?_, ?_, fun hse => ?_, fun rc hrc => ?_, ?_, nofun, nofun, nofun, fun _ _ _ => nofun, fun _ => nofun,
      fun _ _ _ => nofun, fun _ => nofun, fun _ _ _ _ => nofun, fun _ _ _ _ h => by rcases h with h | h <;> cases h⟩
    · obtain ⟨_, e1, e2, _⟩ := curve_batch h4.ref
      exact ev e1 e2 he.ocv
    · obtain ⟨_, e1, e2, _⟩ := curve_batch h4.ent
      exact ev e1 e2 (he.ent hm)
    · obtain ⟨_, e1, e2, _⟩ := curve_batch h4.r0.1
      exact ev e1 e2 he.r0
    · obtain ⟨c, hc1, hc2⟩ := he.c0 hse
      rcases h4.c0 with ⟨h6, _⟩ | ⟨c', c'', h6, h7, h8⟩
      · rw [h6] at hc1; cases hc1
      · rw [h6] at hc1
        cases hc1
        obtain ⟨_, e1, e2, _⟩ := curve_batch h8
        exact ⟨_, h7, ev e1 e2 hc2⟩
    · obtain ⟨j, hj, rfl⟩ := List.mem_iff_getElem.1 hrc
      have hj' : j < a.rcs.length := by rw [← h4.rcs.1]; exact hj
      have e := h4.rcs.2 j _ _ (List.getElem?_eq_getElem hj') (List.getElem?_eq_getElem hj)
      obtain ⟨_, e1, e2, _⟩ := curve_batch (R := [kRcs, Py.natStr j] ++ [kR]) e.1.1
      obtain ⟨_, e3, e4, _⟩ := curve_batch (R := [kRcs, Py.natStr j] ++ [kC]) e.2
      exact ⟨ev e1 e2 (he.rcs _ (List.getElem_mem hj')).1, ev e3 e4 (he.rcs _ (List.getElem_mem hj')).2⟩
    · obtain ⟨_, e1, e2, _⟩ := curve_batch h4.hyst
      exact ev e1 e2 he.hyst

/-- A copy of the transient states of one cell holds one state. -/
theorem holds_copy {tr : Container ℝ} {n : Nat} (h : SameLayout tr (circuitState series n)) {t : List ℝ}
    (hlen : t.length = (1 + (if series then 1 else 0)) + n + 1) : HoldsState (tr.makeCopy (.d1 t)) series n (St.ofVec series n t) := by
  have hk : ((circuitState series n).fields.map (·.1)).Nodup := by
    cases series <;> simp [circuitState, kSoc, kQ0, kIrc, kHyst]
  have hl : (circuitState series n).len = t.length := by
    rw [hlen]
    cases series <;>
      simp [Container.len, Container.allFields, Container.lengthField, circuitState, assoc, kSoc, kQ0, kIrc, kHyst, Arr2.scalar, Arr2.ofRow] <;>
      omega
  have hv : (Arr2.ofRow t).ncol = t.length := rfl
  rw [makeCopy_layout h]
  refine ⟨fillFrom_keeps _ 0 ((Nat.zero_add _).le.trans ((len_eq hk).symm.le.trans (hl.trans hv.symm).le)), ?_, t, ?_, rfl⟩
  · intro q hq
    have : ∀ lo hi, ((Arr2.ofRow t).cols lo hi).nrow = 1 := fun _ _ => rfl
    have key : ∀ (fs : List (Name × Option (Arr2 ℝ))) pos, ∀ q ∈ held ⟨Container.fillFrom (.ofRow t) pos fs⟩, q.2.nrow = 1 := by
      intro fs
      induction fs with
      | nil => intro pos q hq; cases hq
      | cons f fs ih =>
        intro pos q hq
        obtain ⟨k, _ | y⟩ := f
        · exact ih pos q hq
        · rw [Container.fillFrom] at hq
          rcases List.mem_cons.1 hq with rfl | hq
          · exact this _ _
          · exact ih _ q hq
    exact key _ 0 q hq
  · have := toNumpy_fromNumpy (c := circuitState series n) hk (by cases series <;> simp [held, circuitState]) (v := .d1 t) (hl.trans hv.symm).le
    rw [hl] at this
    exact this.trans (congrArg _ (Arr2.cols_full _))

/-- The inputs of a circuit as a vector, and back. -/
theorem input_back {c : Container ℝ} (hc : SameLayout c (circuitInput measured)) (hi : c.Single) : ∃ V, c.toNumpy = .ok V ∧
    V.flat.n = 2 + (if measured then 1 else 0) ∧ c.makeCopy (.d1 V.flat.toList) = c := by
  have hk : (c.fields.map (·.1)).Nodup := by
    have := congrArg (List.map Prod.fst) hc
    simp only [List.map_map, Function.comp_def] at this
    rw [show c.fields.map (·.1) = _ from this]
    cases measured <;> decide
  have hne : held c ≠ [] := by
    intro h
    have h2 : c.fields.map (fun p => (p.1, p.2.map Arr2.ncol)) = (kTime, some 1) :: (circuitInput measured).fields.tail.map (fun p => (p.1, p.2.map Arr2.ncol)) := hc
    cases hf : c.fields with
    | nil => rw [hf] at h2; cases h2
    | cons p ps =>
      rw [hf, List.map_cons, List.cons.injEq] at h2
      obtain ⟨k, _ | v⟩ := p
      · simp at h2
      · unfold held at h
        rw [hf] at h
        cases h
  obtain ⟨V, hV, hVr⟩ := toNumpy_nrow hne (fun q hq => (hi q hq).ge) hi.batchSize
  obtain ⟨l, h1, h2, h3⟩ := Arr2.flat_single hVr
  have hn : V.ncol = 2 + (if measured then 1 else 0) := by
    rw [toNumpy_len hk hV, len_layout hk hc]
    cases measured <;> rfl
  refine ⟨V, hV, by rw [h3, hn], ?_⟩
  show c.makeCopy (.d2 (.ofRow V.flat.toList)) = c
  rw [h2, ← h1, hi.makeCopy hV]

/-- The transient states of a circuit as a vector, and back. -/
theorem state_back {c : Container ℝ} {n : Nat} (hc : SameLayout c (circuitState series n)) (ht : c.Single) : ∃ T, c.toNumpy = .ok T ∧
    T.flat.n = (1 + (if series then 1 else 0)) + n + 1 ∧ T.nrow = 1 ∧ c.makeCopy (.d1 T.flat.toList) = c := by
  have hne : held c ≠ [] := by
    intro h
    have h2 : c.fields.map (fun p => (p.1, p.2.map Arr2.ncol)) = (kSoc, some 1) :: (circuitState series n).fields.tail.map (fun p => (p.1, p.2.map Arr2.ncol)) := hc
    cases hf : c.fields with
    | nil => rw [hf] at h2; cases h2
    | cons p ps =>
      rw [hf, List.map_cons, List.cons.injEq] at h2
      obtain ⟨k, _ | v⟩ := p
      · simp at h2
      · unfold held at h
        rw [hf] at h
        cases h
  obtain ⟨T, hT, hTr⟩ := toNumpy_nrow hne (fun q hq => (ht q hq).ge) ht.batchSize
  obtain ⟨l, h1, h2, h3⟩ := Arr2.flat_single hTr
  refine ⟨T, hT, by rw [h3, state_len hc hT], hTr, ?_⟩
  show c.makeCopy (.d2 (.ofRow T.flat.toList)) = c
  rw [h2, ← h1, ht.makeCopy hT]

/-- The common part of the estimators accepts a circuit. -/
theorem dual_online {cw : CellWrapper} {m : HV ℝ} {beh : Behavior} (hT : TracksCircuit cw beh x measured series a.rcs.length)
    (hm : HoldsCircuit x m a) (he : Estimable [] measured series a) (ht : cw.transients.Single) (hi : cw.inputs.Single) (ns : List Name) :
    ∃ o, Online.make cw.cell m cw.transients cw.inputs ns = .ok o := by
  obtain ⟨T, -, hTn, -, h1⟩ := state_back hT.transients ht
  obtain ⟨V, -, hVn, h2⟩ := input_back hT.inputs hi
  obtain ⟨y, hy⟩ := Vec.eta_of (hTn.trans (tracks_width hT).symm)
  obtain ⟨H, hH⟩ := (tracks_update hT hm le_rfl (fun _ : Fin 1 => y) hVn hVn).2.2.2.2 he
  unfold CellWrapper.predict at hH
  have e1 : cw.plain.toInputs V.flat = .ok (cw.inputs.makeCopy (.d1 V.flat.toList)) := rfl
  have e2 : cw.plain.transients.makeCopy (.d2 (Mat.toArr2 ⟨1, _, fun _ : Fin 1 => y⟩)) = cw.transients := by
    rw [show (⟨1, _, fun _ => y⟩ : Mat) = Mat.ofRow ⟨_, y⟩ from rfl, toArr2_ofRow, ← hy]
    exact h1
  have e3 : cw.plain.hiddenConv.samples2 ⟨1, _, fun _ : Fin 1 => y⟩ = .ok ⟨1, _, fun _ => y⟩ := rfl
  rw [e3, ok_bind, e1, h2, ok_bind] at hH
  simp only [e2] at hH
  obtain ⟨Y, hY, -⟩ := bind_ok.1 hH
  have hY1 : cw.cell.output cw.inputs cw.transients m = .ok Y := hY
  have hYn : ∃ yn, Y.allNames = .ok yn := by
    rw [hT.cell] at hY1
    simp only [Ecm.cell, bind_eq_ok_iff, pure_eq_ok, Except.ok.injEq] at hY1
    obtain ⟨_, _, _, _, _, _, v, _, rfl⟩ := hY1
    exact ⟨_, rfl⟩
  obtain ⟨yn, hyn⟩ := hYn
  have hb : m.batchSize = .ok 1 :=
    ((C12_batch_size m fun p a hp => by rw [hm.unbatched p a hp]).1 1).2 ⟨fun p a hp => .inl (hm.unbatched p a hp), .inl rfl⟩
  unfold Online.make
  rw [hY1, ok_bind, hyn, ok_bind, ht.batchSize, ok_bind, if_neg (by simp), hb, ok_bind, if_neg (by simp)]
  exact ⟨_, rfl⟩

/-! ## Proofs: building the filters -/

/-- A filter of any model can be built in any units. -/
theorem filter_built {σ : Type} (w : Wrapper σ) (mem : σ) {n o : Nat} (hwn : w.nHidden = n) (hwo : w.nOut = o) (hn : 1 ≤ n)
    {hid out : Operator} {d b : Fin n → ℝ} {e c : Fin o → ℝ} (hd : ∀ i, d i ≠ 0) (he : ∀ i, e i ≠ 0) (hh : hid.Rescales n d b)
    (hout : out.Rescales o e c) (y : Fin n → ℝ) {P Q : Matrix (Fin n) (Fin n) ℝ} {R : Matrix (Fin o) (Fin o) ℝ}
    (hP : P.PosDef) (hQ : Q.PosDef) (hR : R.PosDef) (tune : Tuning) (ha : 1 / 1000 ≤ tune.alpha ∧ tune.alpha ≤ 1) (hb : 0 ≤ tune.beta)
    (hk : ∀ k, tune.kappa = some k → -((2 * n + o : Nat) : ℝ) < k) :
    ∃ g q r, Gaussian.convert ⟨⟨n, y⟩, ⟨n, n, P⟩⟩ hid true = .ok g ∧ noiseToFilter hid (some ⟨n, n, Q⟩) = .ok q ∧
      noiseToFilter out (some ⟨o, o, R⟩) = .ok r ∧ ∀ u, ∃ f, Ukf.make w mem g u q r tune.alpha tune.kappa tune.beta = .ok f ∧
        (∃ μ P Q R, f.Holds n o μ P Q R ∧ P.PosDef ∧ Q.PosDef ∧ R.PosDef) ∧ f.model = w ∧ f.mem = mem ∧ f.controls = u := by
  subst hwn hwo
  obtain ⟨μ', rfl⟩ := rescale_surj (r := b) hd y
  obtain ⟨P', hP', rfl⟩ := rescaleCov_surj hd hP
  obtain ⟨Q', hQ', rfl⟩ := rescaleCov_surj hd hQ
  obtain ⟨R', hR', rfl⟩ := rescaleCov_surj he hR
  refine ⟨⟨⟨_, μ'⟩, ⟨_, _, P'⟩⟩, some ⟨_, _, Q'⟩, some ⟨_, _, R'⟩, ?_, ?_, ?_, fun u => ?_⟩
  · exact Gaussian.unconvert_ok hn (hh.invSamples1 μ') (hh.invCovariance P' _)
  · show (do return some (← hid.invCovariance _ _) : Except Err (Option Mat)) = _
    rw [hh.invCovariance Q' _]
    rfl
  · show (do return some (← out.invCovariance _ _) : Except Err (Option Mat)) = _
    rw [hout.invCovariance R' _]
    rfl
  · obtain ⟨f, hf⟩ : ∃ f, Ukf.make w mem ⟨⟨_, μ'⟩, ⟨_, _, P'⟩⟩ u (some ⟨_, _, Q'⟩) (some ⟨_, _, R'⟩) tune.alpha
        tune.kappa tune.beta = .ok f := by
      rcases Ukf.make_eq w mem ⟨⟨_, μ'⟩, ⟨_, _, P'⟩⟩ u (some ⟨_, _, Q'⟩) (some ⟨_, _, R'⟩) tune.alpha tune.kappa
        tune.beta with ⟨_, W, V, h, _⟩ | ⟨hc, _⟩
      · exact ⟨_, h⟩
      · refine absurd ⟨rfl, ha.1, ha.2, hb, hk, ?_, ?_⟩ hc
        · rintro _ ⟨⟩; exact ⟨rfl, rfl⟩
        · rintro _ ⟨⟩; exact ⟨rfl, rfl⟩
    obtain ⟨p1, p2, -, p4, -⟩ := Ukf.C53_constructed _ _ _ _ _ _ _ _ _ hf
    exact ⟨f, hf, ⟨_, _, _, _, Ukf.holds_of_make _ _ _ _ _ _ hn hf, hP', hQ', hR'⟩, p1, p2, p4⟩

/-! ## C106 -/

section
variable {cw : CellWrapper} {aw : DegradationWrapper}

/-- The estimator that `initialize_ukf_from_wrappers` builds of two wrappers around one circuit. -/
theorem dual_built {beh : Behavior} (hT : TracksCircuit cw beh x measured series a.rcs.length) (hA : TracksHealth aw beh x measured a)
    (he : Estimable aw.names measured series a) (hin : aw.inputs = cw.inputs)
    (ht : cw.transients.Single) (hi : cw.inputs.Single) (hoT : cw.nOut = 1) (hoA : aw.nOut = 1)
    {dT bT : Fin cw.nTransients → ℝ} {dA bA : Fin aw.nAsoh → ℝ} {eT cT eA cA : Fin 1 → ℝ} (hnA : 1 ≤ aw.nAsoh)
    (hdT : ∀ i, dT i ≠ 0) (hdA : ∀ i, dA i ≠ 0) (heT : ∀ i, eT i ≠ 0) (heA : ∀ i, eA i ≠ 0)
    (hhT : cw.hiddenConv.Rescales cw.nTransients dT bT) (hhA : aw.hiddenConv.Rescales aw.nAsoh dA bA)
    (houtT : cw.outputConv.Rescales 1 eT cT) (houtA : aw.outputConv.Rescales 1 eA cA)
    (hcT : ∀ v : Vec, v.n = 2 + (if measured then 1 else 0) → ∃ v', cw.controlConv.invSamples1 v = .ok v' ∧ cw.controlConv.samples1 v' = .ok v)
    (hcA : ∀ v : Vec, v.n = 2 + (if measured then 1 else 0) → ∃ v', aw.controlConv.invSamples1 v = .ok v' ∧ aw.controlConv.samples1 v' = .ok v)
    {PT QT : Matrix (Fin cw.nTransients) (Fin cw.nTransients) ℝ} {PA QA : Matrix (Fin aw.nAsoh) (Fin aw.nAsoh) ℝ}
    {R : Matrix (Fin 1) (Fin 1) ℝ} (hPT : PT.PosDef) (hQT : QT.PosDef) (hPA : PA.PosDef) (hQA : QA.PosDef) (hR : R.PosDef)
    (tT tA : Tuning) (haT : 1 / 1000 ≤ tT.alpha ∧ tT.alpha ≤ 1) (haA : 1 / 1000 ≤ tA.alpha ∧ tA.alpha ≤ 1) (hbT : 0 ≤ tT.beta)
    (hbA : 0 ≤ tA.beta) (hkT : ∀ k, tT.kappa = some k → -((2 * cw.nTransients + 1 : Nat) : ℝ) < k)
    (hkA : ∀ k, tA.kappa = some k → -((2 * aw.nAsoh + 1 : Nat) : ℝ) < k) :
    ∃ base ft fa vT vA V, Dual.fromWrappers cw aw ⟨_, _, PT⟩ ⟨_, _, PA⟩ none (some ⟨_, _, QT⟩) (some ⟨_, _, QA⟩) (some ⟨1, 1, R⟩) tT tA =
        .ok ⟨base, cw, aw, ft, fa⟩ ∧
      (∃ μ P Q R, ft.Holds cw.nTransients 1 μ P Q R ∧ P.PosDef ∧ Q.PosDef ∧ R.PosDef) ∧
      (∃ μ P Q R, fa.Holds aw.nAsoh 1 μ P Q R ∧ P.PosDef ∧ Q.PosDef ∧ R.PosDef) ∧
      ft.model = cw.toWrapper ∧ fa.model = aw.toWrapper ∧ fa.mem = (aw.transients, aw.inputs) ∧
      base.asoh = aw.asoh ∧ base.transients = cw.transients ∧ ft.controls = .delta ⟨vT⟩ ∧ fa.controls = .delta ⟨vA⟩ ∧
      cw.controlConv.samples1 vT = .ok V ∧ aw.controlConv.samples1 vA = .ok V ∧ V.n = 2 + (if measured then 1 else 0) ∧
      ∃ M, cw.inputs.toNumpy = .ok M ∧ V = M.flat := by
  obtain ⟨V, hV, hVn, hVb⟩ := input_back hT.inputs hi
  obtain ⟨T, hTn, hTl, -, -⟩ := state_back hT.transients ht
  obtain ⟨A, hAn, hAl⟩ := hA.nAsoh_eq
  have hAr : A.nrow = 1 := unbatched_nrow hA.asoh.wf hA.asoh.unbatched (fun n hn => updatable_subset (hA.names_updatable n hn)) hAn
  obtain ⟨_, -, -, hAf⟩ := Arr2.flat_single hAr
  obtain ⟨yT, hyT⟩ := Vec.eta_of (hTl.trans (tracks_width hT).symm)
  obtain ⟨yA, hyA⟩ := Vec.eta_of (hAf.trans hAl)
  have hnT : 1 ≤ cw.nTransients := by rw [tracks_width hT]; omega
  have he0 : Estimable [] measured series a := ⟨he.ocv, he.ent, he.r0, he.c0, he.rcs, he.hyst, nofun, nofun, nofun, fun _ _ _ => nofun,
    fun _ => nofun, fun _ _ _ => nofun, fun _ => nofun, fun _ _ _ _ => nofun, fun _ _ _ _ h => by rcases h with h | h <;> cases h⟩
  obtain ⟨base, hbase⟩ := dual_online hT hA.asoh he0 ht hi aw.names
  obtain ⟨-, o2, o3, -, -⟩ := Online.make_ok hbase
  obtain ⟨gT, qT, rT, t1, t2, t3, t4⟩ := filter_built cw.toWrapper cw.asoh (n := cw.nTransients) rfl hoT hnT hdT heT hhT houtT yT hPT hQT hR tT haT hbT hkT
  obtain ⟨gA, qA, rA, a1, a2, a3, a4⟩ := filter_built aw.toWrapper (aw.transients, aw.inputs) (n := aw.nAsoh) rfl hoA hnA hdA heA hhA houtA yA hPA hQA hR
    tA haA hbA hkA
  obtain ⟨vT, vT1, vT2⟩ := hcT _ hVn
  obtain ⟨vA, vA1, vA2⟩ := hcA _ hVn
  obtain ⟨ft, t5, t6, t7, -, t8⟩ := t4 (.delta ⟨vT⟩)
  obtain ⟨fa, a5, a6, a7, a9, a8⟩ := a4 (.delta ⟨vA⟩)
  refine ⟨base, ft, fa, vT, vA, V.flat, ?_, t6, a6, t7, a7, a9, o2, o3, t8, a8, vT2, vA2, hVn, V, hV, rfl⟩
  have e1 : convertVals cw.inputs none = .ok (.delta ⟨V.flat⟩) := by simp only [convertVals, hV, ok_bind, pure_eq_ok]
  have e2 : ∀ {op : Operator} {v'}, op.invSamples1 V.flat = .ok v' → (Dist.delta ⟨V.flat⟩).convert op true = .ok (.delta ⟨v'⟩) := by
    intro op v' h
    show (do return ⟨← op.invSamples1 V.flat⟩ : Except Err Delta).map Dist.delta = _
    rw [h]
    rfl
  unfold Dual.fromWrappers Dual.make
  rw [hin, hV, ok_bind, ok_bind, Dual.allClose_self, ok_bind]
  simp only [Bool.not_true, Bool.false_eq_true, if_false]
  rw [e1, ok_bind, hTn, ok_bind, hyT, Gaussian.make_of hnT, ok_bind, hAn, ok_bind, hyA, Gaussian.make_of hnA, ok_bind, t1, ok_bind, e2 vT1, ok_bind,
    t2, ok_bind, t3, ok_bind, t5, ok_bind, a1, ok_bind, e2 vA1, ok_bind, a2, ok_bind, a3, ok_bind, ← hin, a5, ok_bind, hin, hbase]
  rfl

/-- A filter step raises if the model predicts a single output for all its points. -/
theorem step_raises {σ : Type} {f : Ukf σ} {n o : Nat} {μ : Fin n → ℝ} {P Q : Matrix (Fin n) (Fin n) ℝ} {R : Matrix (Fin o) (Fin o) ℝ}
    (h : f.Holds n o μ P Q R) (hP : P.PosDef) (hQ : Q.PosDef) (hR : R.PosDef) (svd : Mat → Vec × Mat) (new meas : Dist)
    (hmodel : ∀ K, 2 ≤ K → ∀ (X : Matrix (Fin K) (Fin n) ℝ) r, f.model.update f.mem ⟨K, n, X⟩ f.controls.mean new.mean = .ok r →
      r.1.m = K ∧ r.1.n = n ∧ ∀ (Y : Matrix (Fin K) (Fin n) ℝ) y, f.model.predict r.2 ⟨K, n, Y⟩ new.mean = .ok y → y.m = 1) :
    ∃ err, f.step svd new meas = .error err := by
  rcases hr : f.step svd new meas with err | r
  · exact ⟨err, rfl⟩
  exfalso
  obtain ⟨L, hL⟩ := exists_isCholesky (Ukf.augCov_posDef hP hQ hR)
  have hs := h.buildSigma_of svd (ensurePsd_posDef svd (Ukf.augCov_posDef hP hQ hR)) hL
  generalize hX : sigmaPts (Ukf.augMean o μ) f.gamma L.transpose = X at hs
  unfold Ukf.step at hr
  rw [hs, ok_bind] at hr
  obtain ⟨p, hp, -⟩ := bind_ok.1 hr
  have c1 : Mat.cols ⟨_, _, X⟩ 0 n = ⟨_, n, Ukf.xPart X⟩ := Mat.cols_left X
  have c2 : Mat.cols ⟨_, _, X⟩ n (2 * n) = ⟨_, n, Ukf.wPart X⟩ := by rw [Nat.two_mul]; exact Mat.cols_mid X
  have c3 : Mat.cols ⟨_, _, X⟩ (2 * n) (n + (n + o)) = ⟨_, o, Ukf.vPart X⟩ := by rw [Nat.two_mul]; exact Mat.cols_last X
  have hK : 2 ≤ 1 + (n + (n + o)) + (n + (n + o)) := by have := h.n_pos; omega
  unfold Ukf.estimationUpdate at hp
  simp only [h.nHidden, c1, c2, c3] at hp
  obtain ⟨⟨Y, m⟩, hY, hp⟩ := bind_ok.1 hp
  obtain ⟨h1, h2, h3⟩ := hmodel _ hK _ _ hY
  obtain ⟨K, w, Y⟩ := Y
  obtain rfl : w = n := h2
  simp only at h1
  subst h1
  have b1 : Mat.bopInto (· + ·) ⟨_, _, Y⟩ ⟨_, _, Ukf.wPart X⟩ = .ok ⟨_, _, Ukf.noisy Y (Ukf.wPart X)⟩ := Mat.bopInto_of _ _ _
  simp only [b1, ok_bind] at hp
  obtain ⟨_, -, hp⟩ := bind_ok.1 hp
  obtain ⟨_, -, hp⟩ := bind_ok.1 hp
  obtain ⟨y, hy, hp⟩ := bind_ok.1 hp
  obtain ⟨z, hz, -⟩ := bind_ok.1 hp
  have hy1 := h3 _ _ hy
  unfold Mat.bopInto at hz
  split at hz
  · cases hz
  · rename_i C hC
    split at hz
    · rename_i hc
      unfold Mat.bop at hC
      split at hC
      · rename_i m' _ e1 _
        cases hC
        have hm : m' = 1 := hc.1.trans hy1
        rw [hy1, hm] at e1
        have e3 : Nd.bdim 1 (1 + (w + (w + o)) + (w + (w + o))) = some 1 := e1
        unfold Nd.bdim at e3
        rw [if_neg (by omega), if_pos rfl] at e3
        have := Option.some.inj e3
        omega
      · cases hC
    · cases hz

/-- The estimator of two wrappers around one circuit can run. -/
theorem dual_healthy (hT : TracksCircuit cw .constant x measured series a.rcs.length) (hA : TracksHealth aw .constant x measured a)
    (hall : aw.names = aw.asoh.updatableNames) (he : DualEstimable aw.names measured series a)
    (hr : ∀ prev, Reaches aw.names prev series a.rcs.length)
    (htr : aw.transients = cw.transients) (hin : aw.inputs = cw.inputs)
    (ht : cw.transients.Single) (hi : cw.inputs.Single) (hoT : cw.nOut = 1) (hoA : aw.nOut = 1)
    {nT nA : Nat} (hnT : cw.nTransients = nT) (hnA' : aw.nAsoh = nA) (hnA : 1 ≤ nA)
    {dT bT : Fin nT → ℝ} {dA bA : Fin nA → ℝ} {eT cT eA cA : Fin 1 → ℝ}
    (hdT : ∀ i, dT i ≠ 0) (hdA : ∀ i, dA i ≠ 0) (heT : ∀ i, eT i ≠ 0) (heA : ∀ i, eA i ≠ 0)
    (hhT : cw.hiddenConv.Rescales nT dT bT) (hhA : aw.hiddenConv.Rescales nA dA bA)
    (houtT : cw.outputConv.Rescales 1 eT cT) (houtA : aw.outputConv.Rescales 1 eA cA)
    (hcT : ∀ v : Vec, v.n = 2 + (if measured then 1 else 0) → ∃ v', cw.controlConv.invSamples1 v = .ok v' ∧ cw.controlConv.samples1 v' = .ok v)
    (hcA : ∀ v : Vec, v.n = 2 + (if measured then 1 else 0) → ∃ v', aw.controlConv.invSamples1 v = .ok v' ∧ aw.controlConv.samples1 v' = .ok v)
    {PT QT : Matrix (Fin nT) (Fin nT) ℝ} {PA QA : Matrix (Fin nA) (Fin nA) ℝ}
    {R : Matrix (Fin 1) (Fin 1) ℝ} (hPT : PT.PosDef) (hQT : QT.PosDef) (hPA : PA.PosDef) (hQA : QA.PosDef) (hR : R.PosDef)
    (tT tA : Tuning) (haT : 1 / 1000 ≤ tT.alpha ∧ tT.alpha ≤ 1) (haA : 1 / 1000 ≤ tA.alpha ∧ tA.alpha ≤ 1) (hbT : 0 ≤ tT.beta)
    (hbA : 0 ≤ tA.beta) (hkT : ∀ k, tT.kappa = some k → -((2 * nT + 1 : Nat) : ℝ) < k)
    (hkA : ∀ k, tA.kappa = some k → -((2 * nA + 1 : Nat) : ℝ) < k) :
    ∃ E, Dual.fromWrappers cw aw ⟨nT, nT, PT⟩ ⟨nA, nA, PA⟩ none (some ⟨nT, nT, QT⟩) (some ⟨nA, nA, QA⟩) (some ⟨1, 1, R⟩) tT tA = .ok E ∧
      ((∀ i, 0 ≤ E.trans.covWeights.get i) → (∀ i, 0 ≤ E.asoh.covWeights.get i) →
        ∃ UT UA IT IA, E.Healthy nT nA 1 (2 + (if measured then 1 else 0)) UT UA IT IA) := by
  subst hnT hnA'
  obtain ⟨base, ft, fa, vT, vA, V, hE, hft, hfa, hmT, hmA, hmem, hba, hbt, huT, huA, hVT, hVA, hVn, -⟩ :=
    dual_built hT hA he.1 hin ht hi hoT hoA hnA hdT hdA heT heA hhT hhA houtT houtA hcT hcA hPT hQT hPA hQA hR tT tA haT haA hbT hbA hkT hkA
  have hw := tracks_width hT
  refine ⟨_, hE, fun hwT hwA => ?_⟩
  have hH : Dual.Healthy ⟨base, cw, aw, ft, fa⟩ cw.nTransients aw.nAsoh 1 (2 + (if measured then 1 else 0))
      (fun u => ∃ v, cw.controlConv.samples1 u = .ok v ∧ v.n = 2 + (if measured then 1 else 0))
      (fun u => ∃ v, aw.controlConv.samples1 u = .ok v ∧ v.n = 2 + (if measured then 1 else 0))
      (fun m => ∃ b, HoldsCircuit x m b ∧ b.rcs.length = a.rcs.length ∧ Estimable [] measured series b)
      (fun m => ∃ s, HoldsState m.1 series a.rcs.length s) := by
    refine ⟨hft, hfa, hwT, hwA, ?_, ?_, ⟨dT, bT, hdT, hhT⟩, ⟨dA, bA, hdA, hhA⟩, ⟨eT, cT, heT, houtT⟩, ⟨eA, cA, heA, houtA⟩, ?_, ?_, ?_, ?_, ?_, ?_, ?_⟩
    · show RowWise ft.model _ _ _ _
      rw [hmT]
      exact cell_units hdT heT hhT houtT (tracks_rowWise hT)
    · show RowWise fa.model _ _ _ _
      rw [hmA]
      exact health_units hdA heA hhA houtA (health_rowWise hA he hr)
    · intro v hv
      obtain ⟨v', h1, h2⟩ := hcT v hv
      exact ⟨v', h1, v, h2, hv⟩
    · intro v hv
      obtain ⟨v', h1, h2⟩ := hcA v hv
      exact ⟨v', h1, v, h2, hv⟩
    · show ∃ v, cw.controlConv.samples1 ft.controls.mean = .ok v ∧ _
      rw [huT]
      exact ⟨V, hVT, hVn⟩
    · show ∃ v, aw.controlConv.samples1 fa.controls.mean = .ok v ∧ _
      rw [huA]
      exact ⟨V, hVA, hVn⟩
    · intro y
      obtain ⟨m, b, h1, h2, h3, h4⟩ := estimable_copy hA he.1 y
      refine ⟨m, ?_, b, h2, h3, h4⟩
      show base.asoh.makeCopy (.d1 (List.ofFn y)) none = _
      rw [hba, makeCopy_none, ← hall]
      exact h1
    · intro t m _
      refine ⟨St.ofVec series a.rcs.length (List.ofFn t), ?_⟩
      show HoldsState (base.transients.makeCopy (.d1 (List.ofFn t))) _ _ _
      rw [hbt]
      exact holds_copy hT.transients (by rw [List.length_ofFn, hw])
    · show ∃ s, HoldsState fa.mem.1 _ _ s
      rw [hmem, htr]
      obtain ⟨T, -, h2, -, h4⟩ := state_back hT.transients ht
      have := holds_copy hT.transients (t := T.flat.toList) (by rw [Vec.toList, List.length_ofFn, h2])
      rw [h4] at this
      exact ⟨_, this⟩
  exact ⟨_, _, _, _, hH⟩

/-- C106, where it works.  Dual estimation of an equivalent circuit under constant currents: if all updatable parameters are estimated, their choice
is `DualEstimable` and one of them takes part in the voltage whatever the inputs, positive definite covariances give an estimator, in any units;
and if the weights of its filters are not negative, it runs through every history of inputs and voltages, all its estimates and predictions
having positive definite covariances.

`hnz`: no quantity the circuit divides by – the capacity, the RC resistances and capacitances, the series capacitance – vanishes for any
values of the estimated parameters.  (The proof does not use it; where it fails, the code computes infinities or NaN with a warning, which the
model does not represent.)

Missing: parameters that do not always take part in the voltage, see `C106_unreached_raises`. -/
theorem C106_dual_circuit_runs_partial (hT : TracksCircuit cw .constant x measured series a.rcs.length) (hA : TracksHealth aw .constant x measured a)
    (hall : aw.names = aw.asoh.updatableNames) (he : DualEstimable aw.names measured series a)
    (hr : ∀ prev, Reaches aw.names prev series a.rcs.length)
    (_hnz : ∀ z, z.length = aw.nAsoh → ∀ p, CircuitWith aw.asoh aw.names x z p →
      p.qt ≠ 0 ∧ (∀ rc ∈ p.rcs, ∀ s t, rc.r s t ≠ 0 ∧ rc.c s ≠ 0) ∧ ∀ c ∈ p.c0, ∀ s, c s ≠ 0)
    (htr : aw.transients = cw.transients) (hin : aw.inputs = cw.inputs)
    (ht : cw.transients.Single) (hi : cw.inputs.Single) (hoT : cw.nOut = 1) (hoA : aw.nOut = 1)
    {nT nA : Nat} (hnT : cw.nTransients = nT) (hnA' : aw.nAsoh = nA) (hnA : 1 ≤ nA)
    {dT bT : Fin nT → ℝ} {dA bA : Fin nA → ℝ} {eT cT eA cA : Fin 1 → ℝ}
    (hdT : ∀ i, dT i ≠ 0) (hdA : ∀ i, dA i ≠ 0) (heT : ∀ i, eT i ≠ 0) (heA : ∀ i, eA i ≠ 0)
    (hhT : cw.hiddenConv.Rescales nT dT bT) (hhA : aw.hiddenConv.Rescales nA dA bA)
    (houtT : cw.outputConv.Rescales 1 eT cT) (houtA : aw.outputConv.Rescales 1 eA cA)
    (hcT : ∀ v : Vec, v.n = 2 + (if measured then 1 else 0) → ∃ v', cw.controlConv.invSamples1 v = .ok v' ∧ cw.controlConv.samples1 v' = .ok v)
    (hcA : ∀ v : Vec, v.n = 2 + (if measured then 1 else 0) → ∃ v', aw.controlConv.invSamples1 v = .ok v' ∧ aw.controlConv.samples1 v' = .ok v)
    {PT QT : Matrix (Fin nT) (Fin nT) ℝ} {PA QA : Matrix (Fin nA) (Fin nA) ℝ}
    {R : Matrix (Fin 1) (Fin 1) ℝ} (hPT : PT.PosDef) (hQT : QT.PosDef) (hPA : PA.PosDef) (hQA : QA.PosDef) (hR : R.PosDef)
    (tT tA : Tuning) (haT : 1 / 1000 ≤ tT.alpha ∧ tT.alpha ≤ 1) (haA : 1 / 1000 ≤ tA.alpha ∧ tA.alpha ≤ 1) (hbT : 0 ≤ tT.beta)
    (hbA : 0 ≤ tA.beta) (hkT : ∀ k, tT.kappa = some k → -((2 * nT + 1 : Nat) : ℝ) < k)
    (hkA : ∀ k, tA.kappa = some k → -((2 * nA + 1 : Nat) : ℝ) < k) :
    ∃ E, Dual.fromWrappers cw aw ⟨nT, nT, PT⟩ ⟨nA, nA, PA⟩ none (some ⟨nT, nT, QT⟩) (some ⟨nA, nA, QA⟩) (some ⟨1, 1, R⟩) tT tA = .ok E ∧
      ((∀ i, 0 ≤ E.trans.covWeights.get i) → (∀ i, 0 ≤ E.asoh.covWeights.get i) →
        ∀ (svd : Mat → Vec × Mat) (hist : List (Container ℝ × Container ℝ)),
        (∀ m ∈ hist, (∃ v, m.1.toNumpy = .ok v ∧ v.flat.n = 2 + (if measured then 1 else 0)) ∧ ∃ y, m.2.toNumpy = .ok y ∧ y.flat.n = 1) →
        ∃ fin outs, E.run svd hist = .ok (fin, outs) ∧ outs.length = hist.length ∧
          ∀ m ∈ outs, (∃ μ C, m.1 = ⟨⟨nT + nA, μ⟩, ⟨nT + nA, nT + nA, C⟩⟩ ∧ C.PosDef) ∧ ∃ μ C, m.2 = ⟨⟨1, μ⟩, ⟨1, 1, C⟩⟩ ∧ C.PosDef) := by
  obtain ⟨E, hE, h⟩ := dual_healthy hT hA hall he hr htr hin ht hi hoT hoA hnT hnA' hnA hdT hdA heT heA hhT hhA houtT houtA hcT hcA hPT hQT hPA hQA hR tT tA
    haT haA hbT hbA hkT hkA
  refine ⟨E, hE, fun hwT hwA svd hist hhist => ?_⟩
  obtain ⟨UT, UA, IT, IA, hH⟩ := h hwT hwA
  exact C76_dual_runs hH le_rfl svd hist hhist

/-- C106 fails where no estimated parameter takes part in the voltage, for instance when the Coulombic efficiency is estimated alone and the cell
was discharged: the estimator is built, but its first step raises, whatever the new inputs and the measurement (and, under linear behaviour, if the
time is another one than before: at the same time the code divides by zero, which the model does not represent). -/
theorem C106_unreached_raises {beh : Behavior} (hT : TracksCircuit cw beh x measured series a.rcs.length) (hA : TracksHealth aw beh x measured a)
    (he : Estimable aw.names measured series a) (hin : aw.inputs = cw.inputs)
    (ht : cw.transients.Single) (hi : cw.inputs.Single) (hoT : cw.nOut = 1) (hoA : aw.nOut = 1)
    {first : List ℝ} (hfirst : cw.inputs.toNumpy = .ok (.ofRow first))
    (hr : ¬ Reaches aw.names (In.ofVec measured first) series a.rcs.length)
    {nT nA : Nat} (hnT : cw.nTransients = nT) (hnA' : aw.nAsoh = nA) (hnA : 1 ≤ nA)
    {dT bT : Fin nT → ℝ} {dA bA : Fin nA → ℝ} {eT cT eA cA : Fin 1 → ℝ}
    (hdT : ∀ i, dT i ≠ 0) (hdA : ∀ i, dA i ≠ 0) (heT : ∀ i, eT i ≠ 0) (heA : ∀ i, eA i ≠ 0)
    (hhT : cw.hiddenConv.Rescales nT dT bT) (hhA : aw.hiddenConv.Rescales nA dA bA)
    (houtT : cw.outputConv.Rescales 1 eT cT) (houtA : aw.outputConv.Rescales 1 eA cA)
    (hcT : ∀ v : Vec, v.n = 2 + (if measured then 1 else 0) → ∃ v', cw.controlConv.invSamples1 v = .ok v' ∧ cw.controlConv.samples1 v' = .ok v)
    (hcA : ∀ v : Vec, v.n = 2 + (if measured then 1 else 0) → ∃ v', aw.controlConv.invSamples1 v = .ok v' ∧ aw.controlConv.samples1 v' = .ok v)
    {PT QT : Matrix (Fin nT) (Fin nT) ℝ} {PA QA : Matrix (Fin nA) (Fin nA) ℝ}
    {R : Matrix (Fin 1) (Fin 1) ℝ} (hPT : PT.PosDef) (hQT : QT.PosDef) (hPA : PA.PosDef) (hQA : QA.PosDef) (hR : R.PosDef)
    (tT tA : Tuning) (haT : 1 / 1000 ≤ tT.alpha ∧ tT.alpha ≤ 1) (haA : 1 / 1000 ≤ tA.alpha ∧ tA.alpha ≤ 1) (hbT : 0 ≤ tT.beta)
    (hbA : 0 ≤ tA.beta) (hkT : ∀ k, tT.kappa = some k → -((2 * nT + 1 : Nat) : ℝ) < k)
    (hkA : ∀ k, tA.kappa = some k → -((2 * nA + 1 : Nat) : ℝ) < k) :
    ∃ E, Dual.fromWrappers cw aw ⟨nT, nT, PT⟩ ⟨nA, nA, PA⟩ none (some ⟨nT, nT, QT⟩) (some ⟨nA, nA, QA⟩) (some ⟨1, 1, R⟩) tT tA = .ok E ∧
      ∀ (svd : Mat → Vec × Mat) (inputs meas : Container ℝ), (∃ v, inputs.toNumpy = .ok v ∧ v.flat.n = 2 + (if measured then 1 else 0) ∧
          (beh = .linear → (List.ofFn v.flat.get).getD 0 0 ≠ first.getD 0 0)) → ∃ err, E.step svd inputs meas = .error err := by
  subst hnT hnA'
  obtain ⟨base, ft, fa, vT, vA, V, hE, hft, hfa, hmT, hmA, hmem, hba, hbt, huT, huA, hVT, hVA, hVn, M, hM, hVM⟩ :=
    dual_built hT hA he hin ht hi hoT hoA hnA hdT hdA heT heA hhT hhA houtT houtA hcT hcA hPT hQT hPA hQA hR tT tA haT haA hbT hbA hkT hkA
  have hw := tracks_width hT
  refine ⟨_, hE, fun svd inputs meas ⟨N, hN, hNn, hNt⟩ => ?_⟩
  rcases hstep : Dual.step svd ⟨base, cw, aw, ft, fa⟩ inputs meas with err | ⟨e', est, out⟩
  · exact ⟨err, rfl⟩
  exfalso
  obtain ⟨u, y, prevT, prevA, uT, yT, uA, yA, rt, ra, t, b, outA, h1, -, h3, -, -, -, h7, -, h9, -⟩ := Dual.step_ok hstep
  have hfv : List.ofFn V.get = first := by
    cases hfirst.symm.trans hM
    obtain ⟨l, f1, f2, -⟩ := Arr2.flat_single (a := .ofRow first) rfl
    have f3 : [first] = [l] := congrArg Arr2.rows f1
    rw [hVM]
    exact f2.trans (List.head_eq_of_cons_eq f3).symm
  obtain ⟨μT, PT', _, _, hT', -⟩ := hft
  obtain ⟨μA, PA', QA', RA', hA', pA, qA, rA⟩ := hfa
  have hs : HoldsState prevT series a.rcs.length (St.ofVec series a.rcs.length (List.ofFn (rescale dT bT μT))) := by
    simp only [Dual.getEstimatedState, Dual.converted, hT'.hidden, hhT.convert hT'.n_pos μT PT', hA'.hidden, hhA.convert hA'.n_pos μA PA',
      ok_bind, pure_eq_ok, bind_eq_ok_iff, Except.ok.injEq, Prod.mk.injEq] at h3
    obtain ⟨_, -, rfl, -⟩ := h3
    show HoldsState (base.transients.makeCopy (.d1 (List.ofFn (rescale dT bT μT)))) _ _ _
    rw [hbt]
    exact holds_copy hT.transients ((List.length_ofFn ..).trans hw)
  obtain ⟨v', hv1, hv2⟩ := hcA N.flat hNn
  have hu : u = .delta ⟨N.flat⟩ := by
    simp only [convertVals, hN, ok_bind, pure_eq_ok, Except.ok.injEq] at h1
    exact h1.symm
  have huA' : uA.mean = v' := by
    rw [hu] at h7
    simp only [Dist.convert, Delta.convert, if_true, hv1] at h7
    cases h7
    rfl
  have hA'' : Ukf.Holds { fa with mem := (prevT, fa.mem.2) } aw.nAsoh 1 μA PA' QA' RA' :=
    ⟨hA'.nHidden, hA'.nOut, hA'.n_pos, hA'.hidden, hA'.covW, hA'.covV, hA'.augLen, hA'.alpha_pos, hA'.alpha_le, hA'.beta_nonneg, hA'.spread⟩
  obtain ⟨err, herr⟩ := step_raises hA'' pA qA rA svd uA yA (by
    intro K hK X r hr'
    replace hr' : fa.model.update (prevT, fa.mem.2) ⟨K, _, X⟩ fa.controls.mean uA.mean = .ok r := hr'
    rw [hmA, huA, huA'] at hr'
    replace hr' : (do
      let r ← aw.update prevT ⟨K, _, X⟩ vA v'
      return (r.1, (prevT, r.2)) : Except Err (Mat × Container ℝ × Container ℝ)) = .ok r := hr'
    rw [(C56_degradation aw prevT prevT _ _ (hhA.samples2 K X) vA v' V N.flat hVA hv2).1] at hr'
    obtain ⟨r1, g1, g2⟩ := bind_ok.1 hr'
    obtain ⟨r2, g3, g4⟩ := bind_ok.1 g1
    obtain rfl := (health_step hA hs (by omega) _ hVn hNn (hfv ▸ hNt)).1 r2 g3
    simp only [hhA.invSamples2 K X, ok_bind, pure_eq_ok, Except.ok.injEq] at g4
    subst g4
    cases g2
    refine ⟨rfl, rfl, fun Y y hy => ?_⟩
    replace hy : fa.model.predict (prevT, aw.inputs.makeCopy (.d1 (List.ofFn V.get))) ⟨K, _, Y⟩ uA.mean = .ok y := hy
    rw [hmA, huA'] at hy
    replace hy : aw.predict prevT (aw.inputs.makeCopy (.d1 (List.ofFn V.get))) ⟨K, _, Y⟩ v' = .ok y := hy
    rw [(C56_degradation aw prevT _ _ _ (hhA.samples2 K Y) v' v' N.flat N.flat hv2 hv2).2] at hy
    obtain ⟨P', g5, g6⟩ := bind_ok.1 hy
    obtain ⟨z, -, -, g7⟩ := (health_step hA hs (by omega) _ hVn hNn (hfv ▸ hNt)).2.1 P' g5
    rw [hfv] at g7
    rw [(g7 hr).2] at g6
    obtain ⟨z', hz'⟩ := rescale_surj (r := cA) heA fun _ => z ⟨0, by omega⟩
    have g8 := houtA.invSamples2 1 fun _ => z'
    rw [hz'] at g8
    cases g6.symm.trans g8
    rfl)
  cases herr.symm.trans h9

-- Dual estimation of the concrete circuit with its open-circuit voltage and R0, in units of 2 of all hidden states, is built and runs through
-- every history of times, currents, temperatures and voltages.
example (svd : Mat → Vec × Mat) (hist : List (ℝ × ℝ × ℝ × ℝ)) : ∃ E fin outs,
    Dual.fromWrappers (Demo.tracking .constant (.linearScalar 2 ⟨1, ![0]⟩) [kOcv, kR0] [kBase])
      (Demo.trackingHealth .constant (.linearScalar 2 ⟨1, ![0]⟩)) ⟨3, 3, 1⟩ ⟨3, 3, 1⟩ none (some ⟨3, 3, 1⟩) (some ⟨3, 3, 1⟩) (some ⟨1, 1, 1⟩)
      ⟨1, some 0, 2⟩ ⟨1, some 0, 2⟩ = .ok E ∧
    E.run svd (hist.map fun m => (⟨[(kTime, some (.ofRow [m.1])), (kCurrent, some (.ofRow [m.2.1])), (kTemp, some (.ofRow [m.2.2.1]))]⟩,
      ⟨[(kVoltage, some (.ofRow [m.2.2.2]))]⟩)) = .ok (fin, outs) ∧ outs.length = hist.length := by
  obtain ⟨b, hb⟩ := scalar_rescales (k := 3) 2 two_ne_zero ⟨1, ![0]⟩ (.inr rfl)
  obtain ⟨E, hE, hrun⟩ := C106_dual_circuit_runs_partial (Demo.tracking_circuit .constant (.linearScalar 2 ⟨1, ![0]⟩) [kOcv, kR0] [kBase])
    (Demo.trackingHealth_circuit .constant (.linearScalar 2 ⟨1, ![0]⟩)) (by show _ = [Demo.nOcv, Demo.nR0]; rfl)
    (Demo.trackingHealth_estimable _ _) (Demo.trackingHealth_reaches _ _) (fun z hz p => Demo.trackingHealth_divisors _ _ z hz p) rfl rfl
    Demo.hvState_single Demo.hvInput_single rfl rfl (nT := 3) (nA := 3) rfl rfl (by norm_num)
    (fun _ => two_ne_zero) (fun _ => two_ne_zero) (fun _ => one_ne_zero) (fun _ => one_ne_zero) hb hb (identity_rescales 1) (identity_rescales 1)
    (fun v _ => ⟨v, rfl, rfl⟩) (fun v _ => ⟨v, rfl, rfl⟩) .one .one .one .one .one ⟨1, some 0, 2⟩ ⟨1, some 0, 2⟩
    ⟨by norm_num, by norm_num⟩ ⟨by norm_num, by norm_num⟩ (by norm_num) (by norm_num) (by rintro _ ⟨⟩; norm_num) (by rintro _ ⟨⟩; norm_num)
  have hw : (∀ i, 0 ≤ E.trans.covWeights.get i) ∧ ∀ i, 0 ≤ E.asoh.covWeights.get i := by
    simp only [Dual.fromWrappers, bind_eq_ok_iff, Dual.make, pure_eq_ok] at hE
    obtain ⟨it, h1, ia, h2, c, h3, h⟩ := hE
    cases c with
    | false => cases h
    | true =>
      simp only [Bool.not_true, Bool.false_eq_true, if_false, bind_eq_ok_iff, Except.ok.injEq] at h
      obtain ⟨u, _, T, hT, t, ht, A, hA, a, ha, gt, hgt, ut, _, qt, _, rt, _, ft, hft, ga, hga, ua, _, qa, _, ra, _, fa, hfa, o, ho, rfl⟩ := h
      constructor
      · rcases Ukf.make_eq _ _ _ _ _ _ _ _ _ with ⟨_, W, V, h, _⟩ | ⟨hc, h⟩
        rotate_left
        · cases h.symm.trans hft
        cases h.symm.trans hft
        intro i
        simp only [Ukf.covWeights, Ukf.meanWeights, Ukf.lambda, Option.getD_some]
        split <;> norm_num <;> positivity
      · rcases Ukf.make_eq _ _ _ _ _ _ _ _ _ with ⟨_, W, V, h, _⟩ | ⟨hc, h⟩
        rotate_left
        · cases h.symm.trans hfa
        cases h.symm.trans hfa
        intro i
        simp only [Ukf.covWeights, Ukf.meanWeights, Ukf.lambda, Option.getD_some]
        split <;> norm_num <;> positivity
  obtain ⟨fin, outs, h1, h2, -⟩ := hrun hw.1 hw.2 svd (hist.map fun m =>
    (⟨[(kTime, some (.ofRow [m.1])), (kCurrent, some (.ofRow [m.2.1])), (kTemp, some (.ofRow [m.2.2.1]))]⟩,
      ⟨[(kVoltage, some (.ofRow [m.2.2.2]))]⟩)) (by
    intro m hm
    obtain ⟨y, _, rfl⟩ := List.mem_map.1 hm
    exact ⟨⟨.ofRow [y.1, y.2.1, y.2.2.1], rfl, rfl⟩, .ofRow [y.2.2.2], rfl, rfl⟩)
  exact ⟨E, fin, outs, hE, h1, by rw [h2, List.length_map]⟩

-- Estimating the Coulombic efficiency of a cell that is being discharged: the estimator is built, and no first step returns.
example (svd : Mat → Vec × Mat) (t i T v : ℝ) : ∃ E err,
    Dual.fromWrappers { Demo.tracking .constant .identity [kCe] [] with inputs := Demo.hvDischarge }
      { Demo.trackingCe .constant .identity with inputs := Demo.hvDischarge } ⟨3, 3, 1⟩ ⟨1, 1, 1⟩ none (some ⟨3, 3, 1⟩) (some ⟨1, 1, 1⟩)
      (some ⟨1, 1, 1⟩) ⟨1, some 0, 2⟩ ⟨1, some 0, 2⟩ = .ok E ∧
    E.step svd ⟨[(kTime, some (.ofRow [t])), (kCurrent, some (.ofRow [i])), (kTemp, some (.ofRow [T]))]⟩ ⟨[(kVoltage, some (.ofRow [v]))]⟩ =
      .error err := by
  have h := Demo.trackingCe_circuit .constant .identity
  obtain ⟨E, hE, herr⟩ := C106_unreached_raises (cw := { Demo.tracking .constant .identity [kCe] [] with inputs := Demo.hvDischarge })
    (aw := { Demo.trackingCe .constant .identity with inputs := Demo.hvDischarge }) (x := Demo.fixed) (measured := true) (series := false) (a := Demo.arrays) (first := [0, -1, 30])
    ⟨rfl, rfl, rfl, _, rfl, rfl⟩ ⟨rfl, h.asoh, rfl, h.names_updatable, h.names_distinct, h.nAsoh_eq, h.estimates, h.deg⟩
    (Demo.trackingCe_estimable .constant .identity).1 rfl
    Demo.hvState_single Demo.hvDischarge_single rfl rfl rfl
    (fun h => by
      have := (Demo.trackingCe_reaches .constant .identity _).1 h
      replace this : (0 : ℝ) ≤ -1 := this
      norm_num at this)
    (nT := 3) (nA := 1) rfl rfl le_rfl
    (fun _ => one_ne_zero) (fun _ => one_ne_zero) (fun _ => one_ne_zero) (fun _ => one_ne_zero) (identity_rescales _) (identity_rescales _)
    (identity_rescales 1) (identity_rescales 1)
    (fun v _ => ⟨v, rfl, rfl⟩) (fun v _ => ⟨v, rfl, rfl⟩) .one .one .one .one .one ⟨1, some 0, 2⟩ ⟨1, some 0, 2⟩
    ⟨by norm_num, by norm_num⟩ ⟨by norm_num, by norm_num⟩ (by norm_num) (by norm_num) (by rintro _ ⟨⟩; norm_num) (by rintro _ ⟨⟩; norm_num)
  obtain ⟨err, h1⟩ := herr svd ⟨[(kTime, some (.ofRow [t])), (kCurrent, some (.ofRow [i])), (kTemp, some (.ofRow [T]))]⟩
    ⟨[(kVoltage, some (.ofRow [v]))]⟩ ⟨.ofRow [t, i, T], rfl, rfl, nofun⟩
  exact ⟨E, err, hE, h1⟩

end

end Verif
