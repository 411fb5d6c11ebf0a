import Verif.Spec.EcmPipeline
import Verif.Props.EcmDualRuns
import Verif.Props.InterfaceRuns
import Verif.Props.StateNames
/-!
# Estimating a circuit from a dataset (C107)
-/

namespace Verif
open Ecm Cell Spec

variable {x : Fixed} {measured series : Bool} {a : ASOH}

/-! ## Proofs: filters with given or default noises -/

theorem tuned_default {L : Nat} (hL : 1 ≤ L) : Tuned ⟨1, some 0, 2⟩ L := by
  have : (0 : ℝ) < L := by exact_mod_cast hL
  refine ⟨⟨by norm_num, by norm_num⟩, by norm_num, ?_, ?_⟩
  · rintro _ ⟨⟩
    linarith
  · simp only [centreWeight, Option.getD_some, one_pow, one_mul, add_zero, div_self this.ne']
    norm_num

theorem posDef_default (n : Nat) : ((1 / 10 ^ 8 : ℝ) • (1 : Matrix (Fin n) (Fin n) ℝ)).PosDef :=
  Matrix.PosDef.one.smul (by norm_num)

/-- A noise given in model coordinates, or none, in filter coordinates. -/
theorem noise_in_filter {op : Operator} {n : Nat} {d b : Fin n → ℝ} (hd : ∀ i, d i ≠ 0) (h : op.Rescales n d b) {q : Option Mat}
    (hq : ∀ c, q = some c → PosDefMat c n) : ∃ q', noiseToFilter op q = .ok q' ∧ ∀ c, q' = some c → PosDefMat c n := by
  cases q with
  | none => exact ⟨none, rfl, nofun⟩
  | some c =>
    obtain ⟨C, rfl, hC⟩ := hq c rfl
    obtain ⟨C', hC', rfl⟩ := rescaleCov_surj hd hC
    refine ⟨some ⟨n, n, C'⟩, ?_, ?_⟩
    · show (do return some (← op.invCovariance _ _) : Except Err (Option Mat)) = _
      rw [h.invCovariance C' _]
      rfl
    · rintro _ ⟨⟩
      exact ⟨C', rfl, hC'⟩

/-- The weights of a filter tuned like that are not negative. -/
theorem weights_nonneg {σ : Type} {f : Ukf σ} {t : Tuning} {L : Nat} (ht : Tuned t L) (hL : f.augLen = L) (ha : f.alpha = t.alpha)
    (hb : f.beta = t.beta) (hk : f.kappa = t.kappa.getD (3 - L)) : ∀ i, 0 ≤ f.covWeights.get i := by
  have ha0 : 0 < t.alpha := lt_of_lt_of_le (by norm_num) ht.alpha.1
  have hs : 0 < (L : ℝ) + t.kappa.getD (3 - L) := by
    cases hκ : t.kappa with
    | none => rw [Option.getD_none]; linarith
    | some k => have := ht.kappa k hκ; rw [Option.getD_some]; linarith
  have hp : 0 < t.alpha * t.alpha * ((L : ℝ) + t.kappa.getD (3 - L)) := by positivity
  intro i
  have hc := ht.centre
  unfold centreWeight at hc
  simp only [Ukf.covWeights, Ukf.meanWeights, Ukf.lambda, hL, ha, hb, hk]
  split
  · refine hc.trans_eq ?_
    rw [sub_div, div_self hp.ne']
    ring
  · positivity

/-- A filter of any model can be built in any units, with given or default noises. -/
theorem filter_ready {σ : Type} (w : Wrapper σ) (mem : σ) {n o : Nat} (hwn : w.nHidden = n) (hwo : w.nOut = o) (hn : 1 ≤ n)
    {hid out : Operator} {d b : Fin n → ℝ} {e c : Fin o → ℝ} (hd : ∀ i, d i ≠ 0) (he : ∀ i, e i ≠ 0) (hh : hid.Rescales n d b)
    (hout : out.Rescales o e c) (y : Fin n → ℝ) {P : Matrix (Fin n) (Fin n) ℝ} (hP : P.PosDef) {q r : Option Mat}
    (hq : ∀ c, q = some c → PosDefMat c n) (hr : ∀ c, r = some c → PosDefMat c o) (tune : Tuning) (ht : Tuned tune (2 * n + o)) :
    ∃ g q' r', Gaussian.convert ⟨⟨n, y⟩, ⟨n, n, P⟩⟩ hid true = .ok g ∧ noiseToFilter hid q = .ok q' ∧
      noiseToFilter out r = .ok r' ∧ ∀ u, ∃ f, Ukf.make w mem g u q' r' tune.alpha tune.kappa tune.beta = .ok f ∧
        (∃ μ P Q R, f.Holds n o μ P Q R ∧ P.PosDef ∧ Q.PosDef ∧ R.PosDef) ∧ (∀ i, 0 ≤ f.covWeights.get i) ∧
        f.model = w ∧ f.mem = mem ∧ f.controls = u := by
  subst hwn hwo
  obtain ⟨μ', rfl⟩ := rescale_surj (r := b) hd y
  obtain ⟨P', hP', rfl⟩ := rescaleCov_surj hd hP
  obtain ⟨q', h1, h2⟩ := noise_in_filter hd hh hq
  obtain ⟨r', h3, h4⟩ := noise_in_filter he hout hr
  refine ⟨⟨⟨_, μ'⟩, ⟨_, _, P'⟩⟩, q', r', Gaussian.unconvert_ok hn (hh.invSamples1 μ') (hh.invCovariance P' _), h1, h3, fun u => ?_⟩
  rcases Ukf.make_eq w mem ⟨⟨_, μ'⟩, ⟨_, _, P'⟩⟩ u q' r' tune.alpha tune.kappa tune.beta with ⟨_, W, V, h, _⟩ | ⟨hc, _⟩
  rotate_left
  · refine absurd ⟨rfl, ht.alpha.1, ht.alpha.2, ht.beta, ht.kappa, fun W hW => ?_, fun V hV => ?_⟩ hc
    · obtain ⟨_, rfl, _⟩ := h2 W hW
      exact ⟨rfl, rfl⟩
    · obtain ⟨_, rfl, _⟩ := h4 V hV
      exact ⟨rfl, rfl⟩
  obtain ⟨n1, n2⟩ := Ukf.noises h
  have hQ : PosDefMat W w.nHidden := by
    replace n1 : W = _ := n1
    rw [n1]
    cases q' with
    | none => exact ⟨_, rfl, posDef_default _⟩
    | some c => exact h2 c rfl
  have hR : PosDefMat V w.nOut := by
    replace n2 : V = _ := n2
    rw [n2]
    cases r' with
    | none => exact ⟨_, rfl, posDef_default _⟩
    | some c => exact h4 c rfl
  obtain ⟨Q, rfl, hQ⟩ := hQ
  obtain ⟨R, rfl, hR⟩ := hR
  have hs : 0 < ((2 * w.nHidden + w.nOut : Nat) : ℝ) + tune.kappa.getD (3 - (2 * w.nHidden + w.nOut : Nat)) := by
    cases hκ : tune.kappa with
    | none => rw [Option.getD_none]; linarith
    | some k => have := ht.kappa k hκ; rw [Option.getD_some]; linarith
  exact ⟨_, h, ⟨μ', P', Q, R, ⟨rfl, rfl, hn, rfl, rfl, rfl, rfl, ht.alpha.1, ht.alpha.2, ht.beta, hs⟩, hP', hQ, hR⟩,
    weights_nonneg ht rfl rfl rfl rfl, rfl, rfl, rfl⟩

/-! ## Proofs: controls with more values than the model's inputs -/

/-- The first values of a vector. -/
def Vec.first (v : Vec) (k : Nat) : Vec := ⟨min k v.n, fun i => v.get ⟨i.1, lt_of_lt_of_le i.2 (min_le_right _ _)⟩⟩

theorem Vec.first_toList (v : Vec) (k : Nat) : List.ofFn (v.first k).get = (List.ofFn v.get).take k := by
  apply List.ext_getElem
  · simp [Vec.first]
  · intro i h1 h2
    simp [Vec.first]

/-- A model that looks at the first `k` values of its controls only. -/
theorem rowWise_longer {σ : Type} {W : Wrapper σ} {n o k : Nat} {I : σ → Prop} (hrow : RowWise W n o I (fun u => u.n = k))
    (hupd : ∀ s X u u', k ≤ u.n → k ≤ u'.n → W.update s X u u' = W.update s X (u.first k) (u'.first k))
    (hpred : ∀ s X u, k ≤ u.n → W.predict s X u = W.predict s X (u.first k)) : RowWise W n o I (fun u => k ≤ u.n) := by
  intro s u u' hs hu hu'
  obtain ⟨g, g', t, ht, h1, h2⟩ := hrow s (u.first k) (u'.first k) hs (min_eq_left hu) (min_eq_left hu')
  exact ⟨g, g', t, ht, fun K hK X => by rw [hupd _ _ _ _ hu hu', h1 K hK X], fun K hK X => by rw [hpred _ _ _ hu', h2 K hK X]⟩

/-- Values beyond the fields are not looked at. -/
theorem fillFrom_take {l : List ℝ} {k : Nat} : ∀ (fs : List (Name × Option (Arr2 ℝ))) (pos : Nat),
    pos + ((held ⟨fs⟩).map fun p => p.2.ncol).sum ≤ k →
    Container.fillFrom (.ofRow l) pos fs = Container.fillFrom (.ofRow (l.take k)) pos fs
  | [], _, _ => rfl
  | (_, none) :: fs, pos, h => by
    rw [Container.fillFrom, Container.fillFrom, fillFrom_take fs pos h]
  | (_, some y) :: fs, pos, h => by
    have h' : pos + (y.ncol + ((held ⟨fs⟩).map fun p => p.2.ncol).sum) ≤ k := h
    rw [Container.fillFrom, Container.fillFrom, fillFrom_take (k := k) fs (pos + y.ncol) (by omega)]
    have : (Arr2.ofRow l).cols pos (pos + y.ncol) = (Arr2.ofRow (l.take k)).cols pos (pos + y.ncol) := by
      have e : (l.drop pos).take y.ncol = ((l.take k).drop pos).take y.ncol := by
        rw [List.drop_take, List.take_take, min_eq_left (by omega)]
      refine Arr2.ext' ?_ ?_
      · simp [Arr2.cols, Arr2.ofRow]
        omega
      · simp [Arr2.cols, Arr2.ofRow, e]
    rw [this]

theorem input_first {c : Container ℝ} (hc : SameLayout c (circuitInput measured)) (u : Vec) :
    c.makeCopy u.vals = c.makeCopy (u.first (2 + (if measured then 1 else 0))).vals := by
  show Container.mk (Container.fillFrom (.ofRow (List.ofFn u.get)) 0 c.fields) = ⟨Container.fillFrom (.ofRow (List.ofFn (u.first _).get)) 0 c.fields⟩
  rw [Vec.first_toList, fillFrom_take]
  have hk : (c.fields.map (·.1)).Nodup := by
    have := congrArg (List.map Prod.fst) hc
    simp only [List.map_map, Function.comp_def] at this
    rw [show c.fields.map (·.1) = _ from this]
    cases measured <;> decide
  rw [Nat.zero_add, ← len_eq hk, len_layout hk hc]
  cases measured <;> exact le_rfl

theorem joint_longer {w : JointWrapper} (hi : SameLayout w.inputs (circuitInput measured)) {n o : Nat}
    (hrow : RowWise w.plain.toWrapper n o (fun _ => True) (fun u => u.n = 2 + (if measured then 1 else 0))) :
    RowWise w.plain.toWrapper n o (fun _ => True) (fun u => 2 + (if measured then 1 else 0) ≤ u.n) := by
  have e : ∀ u, w.plain.toInputs u = w.plain.toInputs (u.first (2 + (if measured then 1 else 0))) := fun u =>
    congrArg Except.ok (input_first hi u)
  refine rowWise_longer hrow (fun s X u u' _ _ => ?_) fun s X u _ => ?_
  · show (do return (← w.plain.update X u u', ()) : Except Err (Mat × Unit)) = (do return (← w.plain.update X _ _, ()))
    unfold JointWrapper.update
    rw [e u, e u']
  · show w.plain.predict X u = w.plain.predict X _
    unfold JointWrapper.predict
    rw [e u]

theorem cell_longer {w : CellWrapper} (hi : SameLayout w.inputs (circuitInput measured)) {n o : Nat} {I}
    (hrow : RowWise w.plain.toWrapper n o I (fun u => u.n = 2 + (if measured then 1 else 0))) :
    RowWise w.plain.toWrapper n o I (fun u => 2 + (if measured then 1 else 0) ≤ u.n) := by
  have e : ∀ u, w.plain.toInputs u = w.plain.toInputs (u.first (2 + (if measured then 1 else 0))) := fun u =>
    congrArg Except.ok (input_first hi u)
  refine rowWise_longer hrow (fun s X u u' _ _ => ?_) fun s X u _ => ?_
  · show (do return (← w.plain.update s X u u', s) : Except Err (Mat × HV ℝ)) = (do return (← w.plain.update s X _ _, s))
    unfold CellWrapper.update
    rw [e u, e u']
  · show w.plain.predict s X u = w.plain.predict s X _
    unfold CellWrapper.predict
    rw [e u]

theorem health_longer {w : DegradationWrapper} (hi : SameLayout w.inputs (circuitInput measured)) {n o : Nat} {I}
    (hrow : RowWise w.plain.toWrapper n o I (fun u => u.n = 2 + (if measured then 1 else 0))) :
    RowWise w.plain.toWrapper n o I (fun u => 2 + (if measured then 1 else 0) ≤ u.n) := by
  have e : ∀ u, w.plain.toInputs u = w.plain.toInputs (u.first (2 + (if measured then 1 else 0))) := fun u =>
    congrArg Except.ok (input_first hi u)
  refine rowWise_longer hrow (fun s X u u' _ _ => ?_) fun s X u _ => ?_
  · show (do
      let r ← w.plain.update s.1 X u u'
      return (r.1, (s.1, r.2)) : Except Err (Mat × Container ℝ × Container ℝ)) = (do
      let r ← w.plain.update s.1 X _ _
      return (r.1, (s.1, r.2)))
    unfold DegradationWrapper.update
    rw [e u, e u']
  · show w.plain.predict s.1 s.2 X u = w.plain.predict s.1 s.2 X _
    unfold DegradationWrapper.predict
    rw [e u]

theorem joint_units {w : JointWrapper} {n o : Nat} {d b : Fin n → ℝ} {e c : Fin o → ℝ}
    (hd : ∀ i, d i ≠ 0) (he : ∀ i, e i ≠ 0) (hh : w.hiddenConv.Rescales n d b) (hout : w.outputConv.Rescales o e c) {I : Unit → Prop}
    {U : Vec → Prop} (hrow : RowWise w.plain.toWrapper n o I U) :
    RowWise w.toWrapper n o I fun u => ∃ v, w.controlConv.samples1 u = .ok v ∧ U v := by
  refine rowWise_units hd he hh hout (fun s X Y u u' v v' hY hv hv' => ?_) (fun s X Y u v hY hv => ?_) hrow
  · show (do return (← w.update X u u', ()) : Except Err (Mat × Unit)) = (do
      let r ← (do return (← w.plain.update Y v v', ()) : Except Err (Mat × Unit))
      return (← w.hiddenConv.invSamples2 r.1, r.2))
    rw [(C56_joint w X Y hY u u' v v' hv hv').1]
    simp only [bind_assoc, pure_eq_ok, ok_bind]
  · exact (C56_joint w X Y hY u u v v hv hv).2

/-! ## Proofs: the estimators accept a circuit -/

section
variable {asoh : HV ℝ} {tr inp : Container ℝ}

theorem estimable_none {ns : List Name} (he : Estimable ns measured series a) : Estimable [] measured series a :=
  ⟨he.ocv, he.ent, he.r0, he.c0, he.rcs, he.hyst, nofun, nofun, nofun, fun _ _ _ => nofun,
    fun _ => nofun, fun _ _ _ => nofun, fun _ => nofun, fun _ _ _ _ => nofun, fun _ _ _ _ h => by rcases h with h | h <;> cases h⟩

/-- The voltage of the templates, one number with one name. -/
theorem circuit_output (beh : Behavior) (hm : HoldsCircuit x asoh a) (he : Estimable [] measured series a) (htl : SameLayout tr (circuitState series a.rcs.length))
    (ht : tr.Single) (hil : SameLayout inp (circuitInput measured)) (hi : inp.Single) :
    ∃ Y v yn, (Ecm.cell beh x).output inp tr asoh = .ok Y ∧ Y.toNumpy = .ok v ∧ v.ncol = 1 ∧ Y.len = 1 ∧ Y.allNames = .ok yn ∧
      yn.length = 1 := by
  obtain ⟨T, hT0, hTn, -, h1⟩ := state_back htl ht
  obtain ⟨V, -, hVn, h2⟩ := input_back hil hi
  let cw : CellWrapper := ⟨⟨Ecm.cell .constant x, asoh, tr, inp, .identity, .identity, .identity, 1⟩, T.ncol⟩
  have hT : TracksCircuit cw .constant x measured series a.rcs.length := ⟨rfl, htl, hil, T, hT0, rfl⟩
  obtain ⟨y, hy⟩ := Vec.eta_of (hTn.trans (tracks_width hT).symm)
  obtain ⟨-, -, -, k1, k2⟩ := tracks_update hT hm le_rfl (fun _ : Fin 1 => y) hVn hVn
  obtain ⟨H, hH⟩ := k2 he
  obtain ⟨Z, rfl, -⟩ := k1 H hH
  unfold CellWrapper.predict at hH
  have e1 : cw.plain.toInputs V.flat = .ok (inp.makeCopy (.d1 V.flat.toList)) := rfl
  have e2 : cw.plain.transients.makeCopy (.d2 (Mat.toArr2 ⟨1, _, fun _ : Fin 1 => y⟩)) = tr := by
    rw [show (⟨1, _, fun _ => y⟩ : Mat) = Mat.ofRow ⟨_, y⟩ from rfl, toArr2_ofRow, ← hy]
    exact h1
  have e3 : cw.plain.hiddenConv.samples2 ⟨1, _, fun _ : Fin 1 => y⟩ = .ok ⟨1, _, fun _ => y⟩ := rfl
  rw [e3, ok_bind, e1, h2, ok_bind] at hH
  simp only [e2] at hH
  obtain ⟨Y, hY, hY2⟩ := bind_ok.1 hH
  replace hY : (Ecm.cell .constant x).output inp tr asoh = .ok Y := hY
  obtain ⟨v, hv, hv2⟩ := bind_ok.1 hY2
  have hvn : v.ncol = 1 := by
    have := Except.ok.inj hv2
    exact congrArg Mat.n this
  have hY' := hY
  simp only [Ecm.cell, bind_eq_ok_iff, pure_eq_ok, Except.ok.injEq] at hY'
  obtain ⟨_, _, _, _, _, _, z, _, rfl⟩ := hY'
  refine ⟨voltageContainer z, v, _, hY, hv, hvn, ?_, rfl, ?_⟩
  · rw [← toNumpy_len (c := voltageContainer z) (List.nodup_singleton _) hv, hvn]
  · have := toNumpy_len (c := voltageContainer z) (List.nodup_singleton _) hv
    rw [hvn] at this
    replace this : 1 = z.toArr2.ncol + 0 := this
    show (expandLabel _ z.toArr2.ncol ++ []).length = 1
    rw [List.append_nil, expandLabel_length]
    omega

theorem task_base {beh : Behavior} (h : CircuitTask x asoh tr inp measured series a) (he : Estimable [] measured series a) (hid c o : Operator) :
    BaseWrapper.make (Ecm.cell beh x) asoh tr inp hid c o = .ok ⟨Ecm.cell beh x, asoh, tr, inp, hid, c, o, 1⟩ := by
  obtain ⟨Y, v, yn, h1, h2, h3, -⟩ := circuit_output beh h.asoh he h.transients h.transients_single h.inputs h.inputs_single
  have hb : asoh.batchSize = .ok 1 :=
    ((C12_batch_size asoh fun p a hp => by rw [h.asoh.unbatched p a hp]).1 1).2 ⟨fun p a hp => .inl (h.asoh.unbatched p a hp), .inl rfl⟩
  unfold BaseWrapper.make
  rw [hb, ok_bind, if_neg (by simp), h.transients_single.batchSize, ok_bind, if_neg (by simp), h1, ok_bind, h2, ok_bind, h3]
  rfl

theorem task_online {beh : Behavior} (h : CircuitTask x asoh tr inp measured series a) (he : Estimable [] measured series a) (ns : List Name) :
    ∃ yn, yn.length = 1 ∧ Online.make (Ecm.cell beh x) asoh tr inp ns = .ok ⟨Ecm.cell beh x, asoh, tr, inp, 1, yn, ns⟩ := by
  obtain ⟨Y, v, yn, h1, h2, h3, h4, h5, h6⟩ := circuit_output beh h.asoh he h.transients h.transients_single h.inputs h.inputs_single
  have hb : asoh.batchSize = .ok 1 :=
    ((C12_batch_size asoh fun p a hp => by rw [h.asoh.unbatched p a hp]).1 1).2 ⟨fun p a hp => .inl (h.asoh.unbatched p a hp), .inl rfl⟩
  refine ⟨yn, h6, ?_⟩
  unfold Online.make
  rw [h1, ok_bind, h5, ok_bind, h.transients_single.batchSize, ok_bind, if_neg (by simp), hb, ok_bind, if_neg (by simp), h4]
  rfl

theorem circuitState_wf {n : Nat} (h : SameLayout tr (circuitState series n)) : tr.WF := by
  have h1 : tr.fields.map (·.1) = (circuitState series n).fields.map (·.1) := by
    have := congrArg (List.map Prod.fst) h
    simpa only [List.map_map, Function.comp_def] using this
  have h2 : (circuitState series n).fields.map (·.1) = [kSoc, kQ0, kIrc, kHyst] := by cases series <;> rfl
  refine ⟨by rw [h1, h2]; decide, fun k f hk => ?_⟩
  have : k ∈ tr.fields.map (·.1) := List.mem_map.2 ⟨_, hk, rfl⟩
  rw [h1, h2] at this
  revert k
  simp only [List.mem_cons, List.not_mem_nil, or_false]
  rintro k - (rfl | rfl | rfl | rfl) <;> decide

theorem circuitState_held {n : Nat} (h : SameLayout tr (circuitState series n)) : held tr ≠ [] := by
  intro h0
  have h2 : tr.fields.map (fun p => (p.1, p.2.map Arr2.ncol)) = (kSoc, some 1) :: (circuitState series n).fields.tail.map (fun p => (p.1, p.2.map Arr2.ncol)) := h
  cases hf : tr.fields with
  | nil => rw [hf] at h2; cases h2
  | cons p ps =>
    rw [hf, List.map_cons, List.cons.injEq] at h2
    obtain ⟨k, _ | v⟩ := p
    · simp at h2
    · unfold held at h0
      rw [hf] at h0
      cases h0

/-- There is a name for every number of the state. -/
theorem task_names (h : CircuitTask x asoh tr inp measured series a) {o : Online} (ho : o.asoh = asoh) (ho' : o.transients = tr)
    (hn : o.names = asoh.updatableNames) {T A : Arr2 ℝ} (hT : tr.toNumpy = .ok T) (hA : asoh.getParameters none = .ok A) :
    ∃ names, o.stateNames = .ok names ∧ names.length = T.ncol + A.ncol := by
  subst ho ho'
  obtain ⟨t1, t2, -, t4, -⟩ := C15_length_width_names o.transients (circuitState_wf h.transients)
  have hex : ∀ ns : List Name, (∀ n ∈ ns, n ∈ o.asoh.updatableNames) → ∃ l, Params o.asoh l ∧ Spec.names l = ns := by
    intro ns
    induction ns with
    | nil => exact fun _ => ⟨[], nofun, rfl⟩
    | cons n ns ih =>
      intro hns
      obtain ⟨l, h1, h2⟩ := ih fun m hm => hns m (List.mem_cons_of_mem _ hm)
      obtain ⟨p, v, h3, h4⟩ := mem_updatableNames.1 (hns n List.mem_cons_self)
      refine ⟨(p, v) :: l, ?_, ?_⟩
      · intro q hq
        rcases List.mem_cons.1 hq with rfl | hq
        · exact h3.isParam
        · exact h1 q hq
      · show pathName p :: Spec.names l = _
        rw [h2, h4]
  obtain ⟨l, hl, hl'⟩ := hex _ fun n hn => hn
  obtain ⟨a1, a2, -⟩ := C11_one_label_per_column o.asoh h.asoh.wf l hl
  obtain ⟨b1, -⟩ := a2 A (by rw [hl']; exact hA)
  refine ⟨((held o.transients).flatMap fun p => labels p.1 p.2.ncol) ++ l.flatMap fun q => labels (pathName q.1) q.2.ncol, ?_, ?_⟩
  · unfold Online.stateNames
    rw [t1, ok_bind, hn, ← hl', a1, ok_bind]
    rfl
  · rw [List.length_append, t2, b1, t4 T hT]

theorem posDefCov_joint {nT nA : Nat} {cov : Mat ⊕ (Mat × Mat)} (h : PosDefCov nT nA cov) : PosDefMat (Joint.jointCov cov) (nT + nA) := by
  cases h with
  | whole h => exact h
  | parts h1 h2 =>
    obtain ⟨T, rfl, hT⟩ := h1
    obtain ⟨A, rfl, hA⟩ := h2
    refine ⟨blk2 T A, ?_, blk2_posDef hT hA⟩
    show Mat.blockDiag _ = _
    rw [Mat.blockDiag_cons, Mat.blockDiag, Mat.block2_of]

theorem noise_joint {nT nA : Nat} {q qT qA : Option Mat} (h : NoiseFor q (nT + nA)) (hT : NoiseFor qT nT) (hA : NoiseFor qA nA) :
    NoiseFor (Joint.jointNoise q qT qA) (nT + nA) := by
  intro c hc
  cases q with
  | some q => exact h c hc
  | none =>
    cases qT with
    | none => cases hc
    | some qT =>
      cases qA with
      | none => cases hc
      | some qA =>
        cases hc
        exact posDefCov_joint (.parts (hT _ rfl) (hA _ rfl))

theorem converter_total (pinv : Mat → Mat) {T A : Arr2 ℝ} (hT : tr.toNumpy = .ok T) (hA : asoh.getParameters none = .ok A) (normalize : Bool) :
    (∃ c, Joint.converter pinv asoh tr normalize = .ok c) ∧ ∃ c, Dual.converter pinv asoh normalize = .ok c := by
  cases normalize
  · exact ⟨⟨_, rfl⟩, _, rfl⟩
  · simp only [Joint.converter, Dual.converter, normalizer, hA, hT, ok_bind, pure_eq_ok]
    exact ⟨⟨_, rfl⟩, _, rfl⟩

theorem controls_identity {nu k : Nat} (h : k ≤ nu) :
    Operator.identity.TakesControls nu fun u => ∃ v, Operator.identity.samples1 u = .ok v ∧ k ≤ v.n :=
  fun v hv => ⟨v, rfl, v, rfl, by omega⟩

/-! ## C107 -/

/-- The joint estimator of a circuit is built. -/
theorem joint_task_parts (beh : Behavior) (h : CircuitTask x asoh tr inp measured series a) (he : Estimable asoh.updatableNames measured series a)
    {T A : Arr2 ℝ} (hT : tr.toNumpy = .ok T) (hA : asoh.getParameters none = .ok A) {cov : Mat ⊕ (Mat × Mat)} (hcov : PosDefCov T.ncol A.ncol cov)
    {noise noiseT noiseA sensor : Option Mat} (hq : NoiseFor noise (T.ncol + A.ncol)) (hqT : NoiseFor noiseT T.ncol) (hqA : NoiseFor noiseA A.ncol)
    (hr : NoiseFor sensor 1) {pinv : Mat → Mat} (hpinv : IsPinv pinv) (normalize : Bool) {tune : Tuning}
    (ht : Tuned tune (2 * (T.ncol + A.ncol) + 1)) :
    ∃ E names V, Joint.initializeUkf pinv (Ecm.cell beh x) asoh tr inp cov none noise noiseT noiseA sensor normalize tune = .ok E ∧
      EstimatesCircuit E.wrapper beh x measured series a ∧ E.wrapper.names = asoh.updatableNames ∧ E.wrapper.nTransients = T.ncol ∧
      E.wrapper.nAsoh = A.ncol ∧ E.wrapper.controlConv = .identity ∧ E.wrapper.outputConv = .identity ∧
      (∃ d b, (∀ i, d i ≠ 0) ∧ E.wrapper.hiddenConv.Rescales (T.ncol + A.ncol) d b) ∧
      (∃ μ P Q R, E.filter.Holds (T.ncol + A.ncol) 1 μ P Q R ∧ P.PosDef ∧ Q.PosDef ∧ R.PosDef) ∧ (∀ i, 0 ≤ E.filter.covWeights.get i) ∧
      E.filter.model = E.wrapper.toWrapper ∧ inp.toNumpy = .ok V ∧ V.flat.n = 2 + (if measured then 1 else 0) ∧
      E.filter.controls = .delta ⟨V.flat⟩ ∧ E.base.stateNames = .ok names ∧ names.length = T.ncol + A.ncol ∧ E.base.nOutputs = 1 ∧
      E.base.outputNames.length = 1 := by
  obtain ⟨conv, hconv⟩ := (converter_total pinv hT hA normalize).1
  obtain ⟨d, b, hd, hh⟩ := Joint.converter_rescales hpinv h.asoh.wf h.asoh.unbatched hT hA normalize hconv
  have hA' : asoh.getParameters (some asoh.updatableNames) = .ok A := hA
  let w : JointWrapper := ⟨⟨Ecm.cell beh x, asoh, tr, inp, conv, .identity, .identity, 1⟩, asoh.updatableNames, T.ncol, A.ncol, NoDegradation _ _ _ _⟩
  have hw : JointWrapper.make (Ecm.cell beh x) asoh tr inp none (NoDegradation _ _ _ _) conv .identity .identity = .ok w := by
    unfold JointWrapper.make
    rw [task_base h (estimable_none he), ok_bind, hT, ok_bind]
    simp only [Option.getD_none]
    rw [hA', ok_bind]
    rfl
  have hready : w.Ready := ⟨h.asoh.wf, h.asoh.unbatched, fun n hn => hn, (C02_names_distinct asoh h.asoh.wf).2, circuitState_wf h.transients,
    circuitState_held h.transients, ⟨T, hT, rfl⟩, A, hA', rfl⟩
  have hc : EstimatesCircuit w beh x measured series a :=
    ⟨hready, rfl, h.asoh.read, h.asoh.single, h.transients, h.inputs, h.estimates, rfl⟩
  have hn : 1 ≤ T.ncol + A.ncol := by
    have := circuit_width hc
    have e : w.nTransients = T.ncol := rfl
    omega
  obtain ⟨T', A', y, h1, h2, h3, -⟩ := createInputs_own w hready h.transients_single
  cases hT.symm.trans h1
  cases hA'.symm.trans h2
  replace h3 : T.flat.append A.flat = ⟨T.ncol + A.ncol, y⟩ := h3
  obtain ⟨V, hV, hVn, -⟩ := input_back h.inputs h.inputs_single
  obtain ⟨P, hPe, hP⟩ := posDefCov_joint hcov
  obtain ⟨yn, hyn, hon⟩ := task_online h (estimable_none he) asoh.updatableNames
  obtain ⟨g, q', r', g1, g2, g3, g4⟩ := filter_ready w.toWrapper () (n := T.ncol + A.ncol) (o := 1) rfl rfl hn hd (fun _ => one_ne_zero) hh
    (identity_rescales 1) y hP (noise_joint hq hqT hqA) hr tune ht
  obtain ⟨f, f1, f2, f3, f4, -, f5⟩ := g4 (.delta ⟨V.flat⟩)
  have e1 : convertVals inp none = .ok (.delta ⟨V.flat⟩) := by simp only [convertVals, hV, ok_bind, pure_eq_ok]
  obtain ⟨names, n1, n2⟩ := task_names h (o := ⟨Ecm.cell beh x, asoh, tr, inp, 1, yn, asoh.updatableNames⟩) rfl rfl rfl hT hA
  refine ⟨⟨_, w, f⟩, names, V, ?_, hc, rfl, rfl, rfl, rfl, rfl, ⟨d, b, hd, hh⟩, f2, f3, f4, hV, hVn, f5, n1, n2, rfl, hyn⟩
  have e2 : (Dist.delta ⟨V.flat⟩).convert w.controlConv true = .ok (.delta ⟨V.flat⟩) := rfl
  have e3 : Joint.make w f = .ok ⟨⟨Ecm.cell beh x, asoh, tr, inp, 1, yn, asoh.updatableNames⟩, w, f⟩ := by
    unfold Joint.make
    show (do
      let o ← Online.make (Ecm.cell beh x) asoh tr inp asoh.updatableNames
      return ⟨o, w, f⟩ : Except Err Joint) = _
    rw [hon]
    rfl
  unfold Joint.initializeUkf
  rw [hconv, ok_bind, hw, ok_bind]
  unfold Joint.fromWrapper
  rw [show w.inputs = inp from rfl, show w.transients = tr from rfl, show w.asoh = asoh from rfl, show w.names = asoh.updatableNames from rfl,
    e1, ok_bind, hT, ok_bind, hA', ok_bind, h3, hPe, Gaussian.make_of hn, ok_bind, show w.hiddenConv = conv from rfl, g1, ok_bind, e2, ok_bind,
    g2, ok_bind, show w.outputConv = .identity from rfl, g3, ok_bind, f1, ok_bind, e3]

/-- The joint estimator of a circuit is built and can take rows of data. -/
theorem joint_task (h : CircuitTask x asoh tr inp measured series a) (he : Estimable asoh.updatableNames measured series a)
    {T A : Arr2 ℝ} (hT : tr.toNumpy = .ok T) (hA : asoh.getParameters none = .ok A) {cov : Mat ⊕ (Mat × Mat)} (hcov : PosDefCov T.ncol A.ncol cov)
    {noise noiseT noiseA sensor : Option Mat} (hq : NoiseFor noise (T.ncol + A.ncol)) (hqT : NoiseFor noiseT T.ncol) (hqA : NoiseFor noiseA A.ncol)
    (hr : NoiseFor sensor 1) {pinv : Mat → Mat} (hpinv : IsPinv pinv) (normalize : Bool) {tune : Tuning}
    (ht : Tuned tune (2 * (T.ncol + A.ncol) + 1)) :
    ∃ E U names, Joint.initializeUkf pinv (Ecm.cell .constant x) asoh tr inp cov none noise noiseT noiseA sensor normalize tune = .ok E ∧
      E.Healthy (T.ncol + A.ncol) 1 3 U ∧ E.base.stateNames = .ok names ∧ names.length = T.ncol + A.ncol ∧ E.base.nOutputs = 1 ∧
      E.base.outputNames.length = 1 := by
  obtain ⟨E, names, V, hE, hc, wn, wT, wA, wc, wo, ⟨d, b, hd, hh⟩, hf, hwt, hmod, hV, hVn, hu, n1, n2, n3, n4⟩ :=
    joint_task_parts .constant h he hT hA hcov hq hqT hqA hr hpinv normalize ht
  refine ⟨E, fun u => ∃ v, Operator.identity.samples1 u = .ok v ∧ 2 + (if measured then 1 else 0) ≤ v.n, names, hE, ?_, n1, n2, n3, n4⟩
  have hrow := circuit_rowWise hc (wn ▸ he)
  rw [wT, wA] at hrow
  refine ⟨hf, hwt, ?_, ⟨d, b, hd, hh⟩, ⟨_, _, fun _ => one_ne_zero, by rw [wo]; exact identity_rescales 1⟩, ?_, ?_⟩
  · have := joint_units (w := E.wrapper) hd (fun _ => one_ne_zero) hh (by rw [wo]; exact identity_rescales 1) (joint_longer hc.inputs hrow)
    rw [wc] at this
    rw [hmod]
    exact this
  · rw [wc]
    exact controls_identity (by split <;> omega)
  · rw [hu]
    exact ⟨V.flat, rfl, hVn.ge⟩

/-- C107 for joint estimation.  Whoever hands an equivalent circuit with some updatable parameters to `initialize_unscented_kalman_filter` of the
joint estimator, with positive definite covariances (of the whole state or of its two parts), noises or none, any normalization and a tuning without
negative weights, gets an estimator, and `run_online_estimate` runs it through every dataset: no step fails and there is one line for every row of
data.  The choice of parameters must be `Estimable` (C102 and C103 show where it fails otherwise). -/
theorem C107_joint_from_data (h : CircuitTask x asoh tr inp measured series a) (he : Estimable asoh.updatableNames measured series a)
    {T A : Arr2 ℝ} (hT : tr.toNumpy = .ok T) (hA : asoh.getParameters none = .ok A) {cov : Mat ⊕ (Mat × Mat)} (hcov : PosDefCov T.ncol A.ncol cov)
    {noise noiseT noiseA sensor : Option Mat} (hq : NoiseFor noise (T.ncol + A.ncol)) (hqT : NoiseFor noiseT T.ncol) (hqA : NoiseFor noiseA A.ncol)
    (hr : NoiseFor sensor 1) {pinv : Mat → Mat} (hpinv : IsPinv pinv) (normalize : Bool) {tune : Tuning}
    (ht : Tuned tune (2 * (T.ncol + A.ncol) + 1)) (svd : Mat → Vec × Mat) (chunkOf : List Nat → Nat)
    (data : Data) (rows : List Row) (hrows : data.rows = .ok rows) (hne : rows ≠ []) (hf : ∀ r ∈ rows, r.Finite) :
    ∃ E table E' u, Joint.initializeUkf pinv (Ecm.cell .constant x) asoh tr inp cov none noise noiseT noiseA sensor normalize tune = .ok E ∧
      runOnline chunkOf (Joint.ops svd) data E true none = .ok (some table, E', u, none) ∧ table.rows.length = rows.length := by
  obtain ⟨E, U, names, h1, h2, h3, h4, h5, h6⟩ := joint_task h he hT hA hcov hq hqT hqA hr hpinv normalize ht
  obtain ⟨table, E', u, k1, k2⟩ := C79_joint_run_succeeds chunkOf svd E h2 names h3 h4 h5 h6 data rows hrows hne hf
  exact ⟨E, table, E', u, h1, k1, k2⟩

/-- C107 for joint estimation with a writer: the estimates from every dataset in memory with cycle numbers can be stored in a file without estimates.
Missing: datasets in files, for which the number of cycles is guessed (C80), see `C107_joint_stored_from_file_partial`. -/
theorem C107_joint_stored_partial (h : CircuitTask x asoh tr inp measured series a) (he : Estimable asoh.updatableNames measured series a)
    {T A : Arr2 ℝ} (hT : tr.toNumpy = .ok T) (hA : asoh.getParameters none = .ok A) {cov : Mat ⊕ (Mat × Mat)} (hcov : PosDefCov T.ncol A.ncol cov)
    {noise noiseT noiseA sensor : Option Mat} (hq : NoiseFor noise (T.ncol + A.ncol)) (hqT : NoiseFor noiseT T.ncol) (hqA : NoiseFor noiseA A.ncol)
    (hr : NoiseFor sensor 1) {pinv : Mat → Mat} (hpinv : IsPinv pinv) (normalize : Bool) {tune : Tuning}
    (ht : Tuned tune (2 * (T.ncol + A.ncol) + 1)) (svd : Mat → Vec × Mat) (chunkOf : List Nat → Nat) (hchunk : ∀ l, 1 ≤ chunkOf l)
    (cols : List Name) (raw : List (List Num)) (hne : raw ≠ []) (hf : ∀ r ∈ raw, Row.Finite (cols.zip r))
    (hcyc : ∀ r ∈ raw, ∃ c : ℕ, lookupKey "cycle_number".toList (cols.zip r) = some (.fin (c : ℝ)))
    (w : Writer) (hfresh : lookupKey w.storageKey w.root = none) :
    ∃ E table E' u w', Joint.initializeUkf pinv (Ecm.cell .constant x) asoh tr inp cov none noise noiseT noiseA sensor normalize tune = .ok E ∧
      runOnline chunkOf (Joint.ops svd) (.memory (some (cols, raw))) E true (some w) = .ok (some table, E', u, some w') ∧
      table.rows.length = raw.length := by
  obtain ⟨E, U, names, h1, h2, h3, h4, h5, h6⟩ := joint_task h he hT hA hcov hq hqT hqA hr hpinv normalize ht
  obtain ⟨table, E', u, w', k1, k2⟩ := C80_joint_stored_partial chunkOf hchunk svd E h2 names h3 h4 h5 h6 cols raw hne hf hcyc w hfresh
  exact ⟨E, table, E', u, w', h1, k1, k2⟩

/-- C107 for joint estimation from a file with a writer that can grow.  Missing: writers that cannot, and cycle numbers from 128 that follow after a
gap (C80). -/
theorem C107_joint_stored_from_file_partial (h : CircuitTask x asoh tr inp measured series a) (he : Estimable asoh.updatableNames measured series a)
    {T A : Arr2 ℝ} (hT : tr.toNumpy = .ok T) (hA : asoh.getParameters none = .ok A) {cov : Mat ⊕ (Mat × Mat)} (hcov : PosDefCov T.ncol A.ncol cov)
    {noise noiseT noiseA sensor : Option Mat} (hq : NoiseFor noise (T.ncol + A.ncol)) (hqT : NoiseFor noiseT T.ncol) (hqA : NoiseFor noiseA A.ncol)
    (hr : NoiseFor sensor 1) {pinv : Mat → Mat} (hpinv : IsPinv pinv) (normalize : Bool) {tune : Tuning}
    (ht : Tuned tune (2 * (T.ncol + A.ncol) + 1)) (svd : Mat → Vec × Mat) (chunkOf : List Nat → Nat) (hchunk : ∀ l, 1 ≤ chunkOf l)
    (first : Row) (rest : List Row) (hf : ∀ r ∈ first :: rest, r.Finite)
    (hcyc : ∀ r ∈ first :: rest, ∃ c : ℕ, lookupKey "cycle_number".toList r = some (.fin (c : ℝ)))
    (hgr : ∀ pre row post, rest = pre ++ row :: post → ∀ c : ℕ, lookupKey "cycle_number".toList row = some (.fin (c : ℝ)) →
      c < 128 ∨ ∃ row' ∈ pre, ∃ c' : ℕ, lookupKey "cycle_number".toList row' = some (.fin (c' : ℝ)) ∧ c ≤ c' + 1)
    (w : Writer) (hfresh : lookupKey w.storageKey w.root = none) (hres : w.resizable = true) :
    ∃ E table E' u w', Joint.initializeUkf pinv (Ecm.cell .constant x) asoh tr inp cov none noise noiseT noiseA sensor normalize tune = .ok E ∧
      runOnline chunkOf (Joint.ops svd) (.file (first :: rest)) E true (some w) = .ok (some table, E', u, some w') ∧
      table.rows.length = rest.length + 1 := by
  obtain ⟨E, U, names, h1, h2, h3, h4, h5, h6⟩ := joint_task h he hT hA hcov hq hqT hqA hr hpinv normalize ht
  obtain ⟨table, E', u, w', k1, k2⟩ := C80_joint_stored_from_file_partial chunkOf hchunk svd E h2 names h3 h4 h5 h6 first rest hf hcyc hgr w hfresh hres
  exact ⟨E, table, E', u, w', h1, k1, k2⟩

/-- The dual estimator of a circuit is built. -/
theorem dual_task_parts (beh : Behavior) (h : CircuitTask x asoh tr inp measured series a) (he : DualEstimable asoh.updatableNames measured series a)
    {T A : Arr2 ℝ} (hT : tr.toNumpy = .ok T) (hA : asoh.getParameters none = .ok A) (hn : 1 ≤ A.ncol) {covT covA : Mat}
    (hcT : PosDefMat covT T.ncol) (hcA : PosDefMat covA A.ncol)
    {noiseT noiseA sensor : Option Mat} (hqT : NoiseFor noiseT T.ncol) (hqA : NoiseFor noiseA A.ncol)
    (hr : NoiseFor sensor 1) {pinv : Mat → Mat} (hpinv : IsPinv pinv) (normalize : Bool) {tT tA : Tuning}
    (htT : Tuned tT (2 * T.ncol + 1)) (htA : Tuned tA (2 * A.ncol + 1)) :
    ∃ E names V, Dual.initializeUkf pinv (Ecm.cell beh x) asoh tr inp covT covA none noiseT noiseA sensor normalize tT tA = .ok E ∧
      TracksCircuit E.cellW beh x measured series a.rcs.length ∧ TracksHealth E.asohW beh x measured a ∧ E.asohW.names = asoh.updatableNames ∧
      E.cellW.nTransients = T.ncol ∧ E.asohW.nAsoh = A.ncol ∧ E.cellW.hiddenConv = .identity ∧ E.cellW.controlConv = .identity ∧
      E.cellW.outputConv = .identity ∧ E.asohW.controlConv = .identity ∧ E.asohW.outputConv = .identity ∧
      (∃ d b, (∀ i, d i ≠ 0) ∧ E.asohW.hiddenConv.Rescales A.ncol d b) ∧
      (∃ μ P Q R, E.trans.Holds T.ncol 1 μ P Q R ∧ P.PosDef ∧ Q.PosDef ∧ R.PosDef) ∧
      (∃ μ P Q R, E.asoh.Holds A.ncol 1 μ P Q R ∧ P.PosDef ∧ Q.PosDef ∧ R.PosDef) ∧
      (∀ i, 0 ≤ E.trans.covWeights.get i) ∧ (∀ i, 0 ≤ E.asoh.covWeights.get i) ∧
      E.trans.model = E.cellW.toWrapper ∧ E.asoh.model = E.asohW.toWrapper ∧ inp.toNumpy = .ok V ∧ V.flat.n = 2 + (if measured then 1 else 0) ∧
      E.trans.controls = .delta ⟨V.flat⟩ ∧ E.asoh.controls = .delta ⟨V.flat⟩ ∧
      (∀ y : Fin A.ncol → ℝ, ∃ m, E.base.asoh.makeCopy (Vec.vals ⟨A.ncol, y⟩) none = .ok m ∧
        ∃ b, HoldsCircuit x m b ∧ b.rcs.length = a.rcs.length ∧ Estimable [] measured series b) ∧
      (∀ t : Fin T.ncol → ℝ, ∃ s, HoldsState (E.base.transients.makeCopy (Vec.vals ⟨T.ncol, t⟩)) series a.rcs.length s) ∧
      (∃ s, HoldsState E.asoh.mem.1 series a.rcs.length s) ∧
      E.base.stateNames = .ok names ∧ names.length = T.ncol + A.ncol ∧ E.base.nOutputs = 1 ∧ E.base.outputNames.length = 1 := by
  have he0 := estimable_none he.1
  obtain ⟨conv, hconv⟩ := (converter_total pinv hT hA normalize).2
  obtain ⟨d, b, hd, hh⟩ := Dual.converter_rescales hpinv h.asoh.wf h.asoh.unbatched hA normalize hconv
  have hA' : asoh.getParameters (some asoh.updatableNames) = .ok A := hA
  let cw : CellWrapper := ⟨⟨Ecm.cell beh x, asoh, tr, inp, .identity, .identity, .identity, 1⟩, T.ncol⟩
  let aw : DegradationWrapper :=
    ⟨⟨Ecm.cell beh x, asoh, tr, inp, conv, .identity, .identity, 1⟩, asoh.updatableNames, T.ncol, A.ncol, NoDegradation _ _ _ _⟩
  have hcw : CellWrapper.make (Ecm.cell beh x) asoh tr inp .identity .identity .identity = .ok cw := by
    unfold CellWrapper.make
    rw [task_base h he0, ok_bind, hT, ok_bind]
    rfl
  have haw : DegradationWrapper.make (Ecm.cell beh x) asoh tr inp none (NoDegradation _ _ _ _) conv .identity .identity = .ok aw := by
    unfold DegradationWrapper.make
    rw [task_base h he0, ok_bind, hT, ok_bind]
    simp only [Option.getD_none]
    rw [hA', ok_bind]
    rfl
  have hTc : TracksCircuit cw beh x measured series a.rcs.length := ⟨rfl, h.transients, h.inputs, T, hT, rfl⟩
  have hTh : TracksHealth aw beh x measured a :=
    ⟨rfl, h.asoh, h.inputs, fun n hn => hn, (C02_names_distinct asoh h.asoh.wf).2, ⟨A, hA', rfl⟩, h.estimates, rfl⟩
  have hw : T.ncol = (1 + (if series then 1 else 0)) + a.rcs.length + 1 := tracks_width hTc
  have hnT : 1 ≤ T.ncol := by omega
  obtain ⟨V, hV, hVn, -⟩ := input_back h.inputs h.inputs_single
  obtain ⟨T', hT', hTl, -, hTb⟩ := state_back h.transients h.transients_single
  cases hT.symm.trans hT'
  have hAr : A.nrow = 1 := unbatched_nrow h.asoh.wf h.asoh.unbatched (fun n hn => updatable_subset hn) hA'
  obtain ⟨_, -, -, hAf⟩ := Arr2.flat_single hAr
  obtain ⟨yT, hyT⟩ := Vec.eta_of (hTl.trans hw.symm)
  obtain ⟨yA, hyA⟩ := Vec.eta_of hAf
  obtain ⟨PT, rfl, hPT⟩ := hcT
  obtain ⟨PA, rfl, hPA⟩ := hcA
  obtain ⟨yn, hyn, hon⟩ := task_online h he0 asoh.updatableNames
  obtain ⟨gT, qT, rT, t1, t2, t3, t4⟩ := filter_ready cw.toWrapper asoh (n := T.ncol) (o := 1) rfl rfl hnT (fun _ => one_ne_zero)
    (fun _ => one_ne_zero) (identity_rescales _) (identity_rescales 1) yT hPT hqT hr tT htT
  obtain ⟨gA, qA, rA, a1, a2, a3, a4⟩ := filter_ready aw.toWrapper (tr, inp) (n := A.ncol) (o := 1) rfl rfl hn hd
    (fun _ => one_ne_zero) hh (identity_rescales 1) yA hPA hqA hr tA htA
  obtain rfl : rT = rA := Except.ok.inj (t3.symm.trans a3)
  obtain ⟨ft, t5, t6, t7, t8, -, t9⟩ := t4 (.delta ⟨V.flat⟩)
  obtain ⟨fa, a5, a6, a7, a8, a9, a10⟩ := a4 (.delta ⟨V.flat⟩)
  have e1 : convertVals inp none = .ok (.delta ⟨V.flat⟩) := by simp only [convertVals, hV, ok_bind, pure_eq_ok]
  obtain ⟨names, n1, n2⟩ := task_names h (o := ⟨Ecm.cell beh x, asoh, tr, inp, 1, yn, asoh.updatableNames⟩) rfl rfl rfl hT hA
  refine ⟨⟨_, cw, aw, ft, fa⟩, names, V, ?_, hTc, hTh, rfl, rfl, rfl, rfl, rfl, rfl, rfl, rfl, ⟨d, b, hd, hh⟩, t6, a6, t7, a7, t8, a8, hV, hVn, t9, a10,
    ?_, ?_, ?_, n1, n2, rfl, hyn⟩
  · have e2 : (Dist.delta ⟨V.flat⟩).convert .identity true = .ok (.delta ⟨V.flat⟩) := rfl
    have e3 : Dual.make cw aw ft fa = .ok ⟨⟨Ecm.cell beh x, asoh, tr, inp, 1, yn, asoh.updatableNames⟩, cw, aw, ft, fa⟩ := by
      unfold Dual.make
      show (do
        let o ← Online.make (Ecm.cell beh x) asoh tr inp asoh.updatableNames
        return ⟨o, cw, aw, ft, fa⟩ : Except Err Dual) = _
      rw [hon]
      rfl
    unfold Dual.initializeUkf
    rw [hconv, ok_bind, hcw, ok_bind, haw, ok_bind]
    unfold Dual.fromWrappers
    simp only [show cw.inputs = inp from rfl, show cw.transients = tr from rfl, show aw.asoh = asoh from rfl, show cw.asoh = asoh from rfl,
      show aw.names = asoh.updatableNames from rfl, show aw.inputs = inp from rfl, show aw.transients = tr from rfl,
      show cw.hiddenConv = .identity from rfl, show cw.outputConv = .identity from rfl, show cw.controlConv = .identity from rfl,
      show aw.hiddenConv = conv from rfl, show aw.outputConv = .identity from rfl, show aw.controlConv = .identity from rfl]
    rw [hV, ok_bind, ok_bind, Dual.allClose_self, ok_bind]
    simp only [Bool.not_true, Bool.false_eq_true, if_false]
    rw [e1, ok_bind, hT, ok_bind, hyT, Gaussian.make_of hnT, ok_bind, hA', ok_bind, hyA, Gaussian.make_of hn, ok_bind, t1, ok_bind, e2, ok_bind,
      t2, ok_bind, t3, ok_bind, t5, ok_bind, a1, ok_bind, ok_bind, a2, ok_bind, ok_bind, a5, ok_bind, e3]
  · intro y
    obtain ⟨m, b, h1, h2, h3, h4⟩ := estimable_copy hTh he.1 y
    refine ⟨m, ?_, b, h2, h3, h4⟩
    show asoh.makeCopy (.d1 (List.ofFn y)) none = _
    rw [makeCopy_none]
    exact h1
  · intro t
    exact ⟨St.ofVec series a.rcs.length (List.ofFn t), holds_copy h.transients ((List.length_ofFn ..).trans hw)⟩
  · show ∃ s, HoldsState fa.mem.1 _ _ s
    rw [a9]
    have := holds_copy h.transients (t := T.flat.toList) (by rw [Vec.toList, List.length_ofFn, hTl])
    rw [hTb] at this
    exact ⟨_, this⟩

/-- The dual estimator of a circuit is built and can take rows of data. -/
theorem dual_task (h : CircuitTask x asoh tr inp measured series a) (he : DualEstimable asoh.updatableNames measured series a)
    (hre : ∀ prev, Reaches asoh.updatableNames prev series a.rcs.length)
    {T A : Arr2 ℝ} (hT : tr.toNumpy = .ok T) (hA : asoh.getParameters none = .ok A) (hn : 1 ≤ A.ncol) {covT covA : Mat}
    (hcT : PosDefMat covT T.ncol) (hcA : PosDefMat covA A.ncol)
    {noiseT noiseA sensor : Option Mat} (hqT : NoiseFor noiseT T.ncol) (hqA : NoiseFor noiseA A.ncol)
    (hr : NoiseFor sensor 1) {pinv : Mat → Mat} (hpinv : IsPinv pinv) (normalize : Bool) {tT tA : Tuning}
    (htT : Tuned tT (2 * T.ncol + 1)) (htA : Tuned tA (2 * A.ncol + 1)) :
    ∃ E UT UA IT IA names, Dual.initializeUkf pinv (Ecm.cell .constant x) asoh tr inp covT covA none noiseT noiseA sensor normalize tT tA = .ok E ∧
      E.Healthy T.ncol A.ncol 1 3 UT UA IT IA ∧ E.base.stateNames = .ok names ∧ names.length = T.ncol + A.ncol ∧ E.base.nOutputs = 1 ∧
      E.base.outputNames.length = 1 := by
  obtain ⟨E, names, V, hE, hTc, hTh, wn, wT, wA, c1, c2, c3, c4, c5, ⟨d, b, hd, hh⟩, fT, fA, gT, gA, mT, mA, -, hVn, uT, uA, lT, lA, lm, n1, n2, n3, n4⟩ :=
    dual_task_parts .constant h he hT hA hn hcT hcA hqT hqA hr hpinv normalize htT htA
  have rT := tracks_rowWise hTc
  have rA := health_rowWise hTh (wn ▸ he) (wn ▸ hre)
  rw [wT] at rT
  rw [wA] at rA
  refine ⟨E, fun u => ∃ v, Operator.identity.samples1 u = .ok v ∧ 2 + (if measured then 1 else 0) ≤ v.n,
    fun u => ∃ v, Operator.identity.samples1 u = .ok v ∧ 2 + (if measured then 1 else 0) ≤ v.n,
    fun m => ∃ b, HoldsCircuit x m b ∧ b.rcs.length = a.rcs.length ∧ Estimable [] measured series b,
    fun m => ∃ s, HoldsState m.1 series a.rcs.length s, names, hE, ?_, n1, n2, n3, n4⟩
  refine ⟨fT, fA, gT, gA, ?_, ?_, ⟨_, _, fun _ => one_ne_zero, c1 ▸ identity_rescales _⟩, ⟨d, b, hd, hh⟩,
    ⟨_, _, fun _ => one_ne_zero, c3 ▸ identity_rescales 1⟩, ⟨_, _, fun _ => one_ne_zero, c5 ▸ identity_rescales 1⟩,
    c2 ▸ controls_identity (by split <;> omega), c4 ▸ controls_identity (by split <;> omega), ?_, ?_, lT, fun t _ _ => lA t, lm⟩
  · have := cell_units (w := E.cellW) (fun _ => one_ne_zero) (fun _ => one_ne_zero) (c1 ▸ identity_rescales _) (c3 ▸ identity_rescales 1)
      (cell_longer hTc.inputs rT)
    rw [c2] at this
    rw [mT]
    exact this
  · have := health_units (w := E.asohW) hd (fun _ => one_ne_zero) hh (c5 ▸ identity_rescales 1) (health_longer hTh.inputs rA)
    rw [c4] at this
    rw [mA]
    exact this
  · rw [uT]
    exact ⟨V.flat, rfl, hVn.ge⟩
  · rw [uA]
    exact ⟨V.flat, rfl, hVn.ge⟩

/-- C107 for dual estimation, where it works: as `C107_joint_from_data`, if the choice of parameters is `DualEstimable` and one of them takes part
in the voltage whatever the inputs.  Missing: parameters that do not always take part in the voltage, with which a step raises
(`C106_unreached_raises`). -/
theorem C107_dual_from_data_partial (h : CircuitTask x asoh tr inp measured series a) (he : DualEstimable asoh.updatableNames measured series a)
    (hre : ∀ prev, Reaches asoh.updatableNames prev series a.rcs.length)
    {T A : Arr2 ℝ} (hT : tr.toNumpy = .ok T) (hA : asoh.getParameters none = .ok A) (hn : 1 ≤ A.ncol) {covT covA : Mat}
    (hcT : PosDefMat covT T.ncol) (hcA : PosDefMat covA A.ncol)
    {noiseT noiseA sensor : Option Mat} (hqT : NoiseFor noiseT T.ncol) (hqA : NoiseFor noiseA A.ncol)
    (hr : NoiseFor sensor 1) {pinv : Mat → Mat} (hpinv : IsPinv pinv) (normalize : Bool) {tT tA : Tuning}
    (htT : Tuned tT (2 * T.ncol + 1)) (htA : Tuned tA (2 * A.ncol + 1)) (svd : Mat → Vec × Mat) (chunkOf : List Nat → Nat)
    (data : Data) (rows : List Row) (hrows : data.rows = .ok rows) (hne : rows ≠ []) (hf : ∀ r ∈ rows, r.Finite) :
    ∃ E table E' u, Dual.initializeUkf pinv (Ecm.cell .constant x) asoh tr inp covT covA none noiseT noiseA sensor normalize tT tA = .ok E ∧
      runOnline chunkOf (Dual.ops svd) data E true none = .ok (some table, E', u, none) ∧ table.rows.length = rows.length := by
  obtain ⟨E, UT, UA, IT, IA, names, h1, h2, h3, h4, h5, h6⟩ := dual_task h he hre hT hA hn hcT hcA hqT hqA hr hpinv normalize htT htA
  obtain ⟨table, E', u, k1, k2⟩ := C79_dual_run_succeeds chunkOf svd E h2 names h3 h4 h5 h6 data rows hrows hne hf
  exact ⟨E, table, E', u, h1, k1, k2⟩

end

/-! ## The concrete circuit -/

namespace Cell.Demo

/-- The template of inputs as the package makes it, without a temperature. -/
noncomputable def coldInput : Container ℝ := ⟨[(kTime, some (.ofRow [0])), (kCurrent, some (.ofRow [1])), (kTemp, none)]⟩

theorem coldInput_single : coldInput.Single := by
  intro q hq
  rcases List.mem_cons.1 hq with rfl | hq
  · rfl
  rcases List.mem_cons.1 hq with rfl | hq
  · rfl
  · cases hq

theorem hv_divisors (A : Arr2 ℝ) (hA : (hvUpdating [kOcv, kR0] [kBase]).getParameters none = .ok A) (z : List ℝ) (hz : z.length = A.ncol) (p : Par)
    (h : CircuitWith (hvUpdating [kOcv, kR0] [kBase]) (hvUpdating [kOcv, kR0] [kBase]).updatableNames fixed z p) :
    p.qt ≠ 0 ∧ (∀ rc ∈ p.rcs, ∀ s t, rc.r s t ≠ 0 ∧ rc.c s ≠ 0) ∧ ∀ c ∈ p.c0, ∀ s, c s ≠ 0 := by
  cases (Except.ok.inj hA)
  exact trackingHealth_divisors .constant .identity z hz p h

theorem cold_task : CircuitTask fixed (hvUpdating [kOcv, kR0] [kBase]) hvState coldInput false false arrays :=
  ⟨hv_holds _ _, by show [nOcv, nR0] ≠ []; exact nofun, hv_divisors, rfl, hvState_single, rfl, coldInput_single⟩

theorem warm_task : CircuitTask fixed (hvUpdating [kOcv, kR0] [kBase]) hvState hvInput true false arrays :=
  ⟨hv_holds _ _, by show [nOcv, nR0] ≠ []; exact nofun, hv_divisors, rfl, hvState_single, rfl, hvInput_single⟩

theorem warm_estimable : DualEstimable (hvUpdating [kOcv, kR0] [kBase]).updatableNames true false arrays :=
  trackingHealth_estimable .constant .identity

theorem cold_estimable : DualEstimable (hvUpdating [kOcv, kR0] [kBase]).updatableNames false false arrays := by
  have h := warm_estimable.1
  exact ⟨⟨h.ocv, nofun, h.r0, h.c0, h.rcs, h.hyst, h.gamma_with, h.refTemp_with, h.r0_with, h.rcs_with, nofun, nofun, nofun, h.rcs_r, h.rcs_tau⟩, nofun⟩

theorem none_fits (n : Nat) : NoiseFor none n := nofun

theorem one_posDef (n : Nat) : PosDefMat ⟨n, n, 1⟩ n := ⟨1, rfl, .one⟩

end Cell.Demo

-- The open-circuit voltage and R0 of the concrete circuit, estimated with all defaults from any dataset in memory, jointly and dually, the template of the
-- inputs being without a temperature; and jointly with a temperature and two covariances.
example (svd : Mat → Vec × Mat) (chunkOf : List Nat → Nat) (normalize : Bool) (xs : List (ℝ × ℝ × ℝ × ℕ)) (hne : xs ≠ []) :
    ∃ pinv, IsPinv pinv ∧
      (∃ E table E' u, Joint.initializeUkf pinv (Ecm.cell .constant Demo.fixed) (Demo.hvUpdating [kOcv, kR0] [kBase]) Demo.hvState Demo.coldInput
          (.inl ⟨6, 6, 1⟩) none none none none none normalize ⟨1, some 0, 2⟩ = .ok E ∧
        runOnline chunkOf (Joint.ops svd) (Verif.Demo.dataset xs) E true none = .ok (some table, E', u, none) ∧ table.rows.length = xs.length) ∧
      (∃ E table E' u, Joint.initializeUkf pinv (Ecm.cell .constant Demo.fixed) (Demo.hvUpdating [kOcv, kR0] [kBase]) Demo.hvState Demo.hvInput
          (.inr (⟨3, 3, 1⟩, ⟨3, 3, 1⟩)) none none (some ⟨3, 3, 1⟩) (some ⟨3, 3, 1⟩) (some ⟨1, 1, 1⟩) normalize ⟨1, some 0, 2⟩ = .ok E ∧
        runOnline chunkOf (Joint.ops svd) (Verif.Demo.dataset xs) E true none = .ok (some table, E', u, none) ∧ table.rows.length = xs.length) ∧
      ∃ E table E' u, Dual.initializeUkf pinv (Ecm.cell .constant Demo.fixed) (Demo.hvUpdating [kOcv, kR0] [kBase]) Demo.hvState Demo.coldInput
          ⟨3, 3, 1⟩ ⟨3, 3, 1⟩ none none none none normalize ⟨1, some 0, 2⟩ ⟨1, some 0, 2⟩ = .ok E ∧
        runOnline chunkOf (Dual.ops svd) (Verif.Demo.dataset xs) E true none = .ok (some table, E', u, none) ∧ table.rows.length = xs.length := by
  obtain ⟨pinv, hp⟩ := exists_pinv
  have hrows := Verif.Demo.dataset_rows xs
  have hne' : xs.map (fun x => Verif.Demo.readingCols.zip (Verif.Demo.reading x)) ≠ [] := by simpa using hne
  have hf : ∀ r ∈ xs.map (fun x => Verif.Demo.readingCols.zip (Verif.Demo.reading x)), Row.Finite r := by
    intro r hr
    obtain ⟨y, -, rfl⟩ := List.mem_map.1 hr
    exact Verif.Demo.reading_finite y
  have hn := Demo.none_fits
  have h1 : ∀ n, NoiseFor (some ⟨n, n, 1⟩) n := by
    rintro n _ ⟨⟩
    exact Demo.one_posDef n
  refine ⟨pinv, hp, ?_, ?_, ?_⟩
  · obtain ⟨E, table, E', u, k1, k2, k3⟩ := C107_joint_from_data Demo.cold_task Demo.cold_estimable.1 rfl rfl (.whole (Demo.one_posDef 6)) (hn _) (hn _)
      (hn _) (hn _) hp normalize (tuned_default (by omega)) svd chunkOf _ _ hrows hne' hf
    exact ⟨E, table, E', u, k1, k2, by rw [k3, List.length_map]⟩
  · obtain ⟨E, table, E', u, k1, k2, k3⟩ := C107_joint_from_data Demo.warm_task Demo.warm_estimable.1 rfl rfl
      (.parts (Demo.one_posDef 3) (Demo.one_posDef 3)) (hn _) (h1 3) (h1 3) (h1 1) hp normalize (tuned_default (by omega)) svd chunkOf _ _ hrows hne' hf
    exact ⟨E, table, E', u, k1, k2, by rw [k3, List.length_map]⟩
  · obtain ⟨E, table, E', u, k1, k2, k3⟩ := C107_dual_from_data_partial Demo.cold_task Demo.cold_estimable
      (Demo.trackingHealth_reaches .constant .identity) rfl rfl (by show 1 ≤ 3; decide) (Demo.one_posDef 3) (Demo.one_posDef 3) (hn _) (hn _) (hn _) hp
      normalize (tuned_default (by omega)) (tuned_default (by omega)) svd chunkOf _ _ hrows hne' hf
    exact ⟨E, table, E', u, k1, k2, by rw [k3, List.length_map]⟩

-- The same estimator with a writer on an empty file.
example (svd : Mat → Vec × Mat) (chunkOf : List Nat → Nat) (hchunk : ∀ l, 1 ≤ chunkOf l) (xs : List (ℝ × ℝ × ℝ × ℕ)) (hne : xs ≠ [])
    (w : Writer) (hw : lookupKey w.storageKey w.root = none) :
    ∃ pinv E table E' u w', Joint.initializeUkf pinv (Ecm.cell .constant Demo.fixed) (Demo.hvUpdating [kOcv, kR0] [kBase]) Demo.hvState Demo.coldInput
        (.inl ⟨6, 6, 1⟩) none none none none none true ⟨1, some 0, 2⟩ = .ok E ∧
      runOnline chunkOf (Joint.ops svd) (Verif.Demo.dataset xs) E true (some w) = .ok (some table, E', u, some w') ∧ table.rows.length = xs.length := by
  obtain ⟨pinv, hp⟩ := exists_pinv
  have hn := Demo.none_fits
  obtain ⟨E, table, E', u, w', k1, k2, k3⟩ := C107_joint_stored_partial Demo.cold_task Demo.cold_estimable.1 rfl rfl (.whole (Demo.one_posDef 6)) (hn _) (hn _)
    (hn _) (hn _) hp true (tuned_default (by omega)) svd chunkOf hchunk Verif.Demo.readingCols (xs.map Verif.Demo.reading) (by simpa using hne) (by
      intro r hr
      obtain ⟨y, -, rfl⟩ := List.mem_map.1 hr
      exact Verif.Demo.reading_finite y) (by
      intro r hr
      obtain ⟨y, -, rfl⟩ := List.mem_map.1 hr
      exact ⟨_, Verif.Demo.reading_cycle y⟩) w hw
  exact ⟨pinv, E, table, E', u, w', k1, k2, by rw [k3, List.length_map]⟩

-- The same with a file of readings of cycles before the 128th.
example (svd : Mat → Vec × Mat) (chunkOf : List Nat → Nat) (hchunk : ∀ l, 1 ≤ chunkOf l) (y : ℝ × ℝ × ℝ × ℕ) (xs : List (ℝ × ℝ × ℝ × ℕ))
    (hxs : ∀ x ∈ xs, x.2.2.2 < 128) (w : Writer) (hw : lookupKey w.storageKey w.root = none) (hres : w.resizable = true) :
    ∃ pinv E table E' u w', Joint.initializeUkf pinv (Ecm.cell .constant Demo.fixed) (Demo.hvUpdating [kOcv, kR0] [kBase]) Demo.hvState Demo.coldInput
        (.inl ⟨6, 6, 1⟩) none none none none none true ⟨1, some 0, 2⟩ = .ok E ∧
      runOnline chunkOf (Joint.ops svd) (Verif.Demo.datafile (y :: xs)) E true (some w) = .ok (some table, E', u, some w') ∧
      table.rows.length = xs.length + 1 := by
  obtain ⟨pinv, hp⟩ := exists_pinv
  have hn := Demo.none_fits
  obtain ⟨E, table, E', u, w', k1, k2, k3⟩ := C107_joint_stored_from_file_partial Demo.cold_task Demo.cold_estimable.1 rfl rfl
    (.whole (Demo.one_posDef 6)) (hn _) (hn _) (hn _) (hn _) hp true (tuned_default (by omega)) svd chunkOf hchunk
    (Verif.Demo.readingCols.zip (Verif.Demo.reading y)) (xs.map fun x => Verif.Demo.readingCols.zip (Verif.Demo.reading x)) (by
      intro r hr
      obtain ⟨z, -, rfl⟩ := List.mem_map.1 (show r ∈ (y :: xs).map fun x => Verif.Demo.readingCols.zip (Verif.Demo.reading x) from hr)
      exact Verif.Demo.reading_finite z) (by
      intro r hr
      obtain ⟨z, -, rfl⟩ := List.mem_map.1 (show r ∈ (y :: xs).map fun x => Verif.Demo.readingCols.zip (Verif.Demo.reading x) from hr)
      exact ⟨_, Verif.Demo.reading_cycle z⟩) (by
      intro pre row post hpre c hc
      obtain ⟨z, hz, rfl⟩ := List.mem_map.1 (show row ∈ xs.map fun x => Verif.Demo.readingCols.zip (Verif.Demo.reading x) by rw [hpre]; simp)
      rw [Verif.Demo.reading_cycle z] at hc
      have : (z.2.2.2 : ℝ) = c := by injection hc with h; injection h
      exact .inl (Nat.cast_inj.1 this ▸ hxs z hz)) w hw hres
  exact ⟨pinv, E, table, E', u, w', k1, k2, by rw [k3, List.length_map]⟩

end Verif
