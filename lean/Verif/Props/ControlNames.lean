import Verif.Props.Temperature
import Verif.Props.FreshControls
/-!
# Names of outputs and controls (C109)
-/

namespace Verif
open Ecm Cell Spec

/-! ## Proofs -/

theorem Online.make_inv {cell : Cell} {asoh : HV ℝ} {tr inp : Container ℝ} {ns : List Name} {o : Online} (h : Online.make cell asoh tr inp ns = .ok o) :
    ∃ y, cell.output inp tr asoh = .ok y ∧ y.allNames = .ok o.outputNames ∧ o.nOutputs = y.len ∧ o.inputs = inp := by
  simp only [Online.make, bind_eq_ok_iff] at h
  obtain ⟨y, h1, yn, h2, bt, _, h⟩ := h
  refine ⟨y, h1, ?_⟩
  split at h
  · cases h
  · simp only [bind_eq_ok_iff] at h
    obtain ⟨ba, _, h⟩ := h
    split at h
    · cases h
    · cases h; exact ⟨h2, rfl, rfl⟩

theorem Dist.convert_len {op : Operator} {k : Nat} {d b : Fin k → ℝ} (h : op.Rescales k d b) (hd : ∀ i, d i ≠ 0) {v : Vec} (hv : v.n = k) {u : Dist}
    (hu : Dist.convert (.delta ⟨v⟩) op true = .ok u) : u.mean.n = k := by
  obtain ⟨v, rfl⟩ := Vec.eta_of hv
  obtain ⟨x, hx⟩ := rescale_surj (r := b) hd v
  have e : Dist.convert (.delta ⟨⟨k, v⟩⟩) op true = .ok (.delta ⟨⟨k, x⟩⟩) := by
    have := h.invSamples1 x
    rw [hx] at this
    simp only [Dist.convert, Delta.convert, if_true, this]
    rfl
  cases e.symm.trans hu
  rfl

theorem BaseWrapper.make_outputs {cell : Cell} {asoh : HV ℝ} {transients inputs : Container ℝ} {conv c o : Operator} {bw : BaseWrapper}
    (hb : BaseWrapper.make cell asoh transients inputs conv c o = .ok bw) :
    ∃ y v, cell.output inputs transients asoh = .ok y ∧ y.toNumpy = .ok v ∧ bw = ⟨cell, asoh, transients, inputs, conv, c, o, v.ncol⟩ := by
  simp only [BaseWrapper.make, bind_eq_ok_iff] at hb
  obtain ⟨_, _, hb⟩ := hb
  split at hb
  · cases hb
  · simp only [bind_eq_ok_iff] at hb
    obtain ⟨_, _, hb⟩ := hb
    split at hb
    · cases hb
    · simp only [bind_eq_ok_iff, pure_eq_ok, Except.ok.injEq] at hb
      obtain ⟨y, h1, v, h2, rfl⟩ := hb
      exact ⟨y, v, h1, h2, rfl⟩

/-- The number of the controls in a filter. -/
theorem convertVals_len {op : Operator} {k : Nat} {d b : Fin k → ℝ} (h : op.Rescales k d b) (hd : ∀ i, d i ≠ 0) {c : Container ℝ} {V : Arr2 ℝ}
    (hV : c.toNumpy = .ok V) (hk : V.flat.n = k) {ic : Option Mat} {u u' : Dist} (hu : convertVals c ic = .ok u)
    (hu' : u.convert op true = .ok u') : u'.mean.n = k := by
  obtain ⟨V', hV', hg, hval⟩ := convertVals_given hu
  cases hV'.symm.trans hV
  cases hg with
  | certain => exact Dist.convert_len h hd hk hu'
  | uncertain C =>
    obtain ⟨_, ⟨⟩, hvv⟩ := hval C rfl
    simp only [Dist.convert] at hu'
    cases hc : Gaussian.convert ⟨V.flat, C⟩ op true with
    | error err => rw [hc] at hu'; cases hu'
    | ok g' =>
      rw [hc] at hu'
      cases hu'
      exact (h.back hd hk hvv hc).2.1

theorem reading_names {c : Container ℝ} (hc : SameLayout c (circuitInput false)) : c.allNames = .ok ["time".toList, "current".toList] := by
  obtain ⟨fs⟩ := c
  have h : fs.map (fun p => (p.1, p.2.map Arr2.ncol)) = [(kTime, some 1), (kCurrent, some 1), (kTemp, none)] := hc
  rcases fs with _ | ⟨⟨k1, _ | a⟩, _ | ⟨⟨k2, _ | b⟩, _ | ⟨⟨k3, _ | c⟩, _ | ⟨_, _⟩⟩⟩⟩ <;>
    simp only [List.map_cons, List.map_nil, Option.map_some, Option.map_none, List.cons.injEq, Prod.mk.injEq, Option.some.injEq, and_true, reduceCtorEq,
      and_false, false_and] at h
  obtain ⟨⟨rfl, ha⟩, ⟨rfl, hb⟩, rfl⟩ := h
  rcases a with ⟨ra, _, ga⟩
  rcases b with ⟨rb, _, gb⟩
  cases ha
  cases hb
  rfl

theorem reading_len {u : CellInput} {c : Container ℝ} (hc : u.container = .ok c) {op : Operator} (ho : op = .identity) {q q' : Dist}
    (hq : convertVals c none = .ok q) (hq' : q.convert op true = .ok q') : q'.mean.n = 3 := by
  subst ho
  obtain ⟨t, i, T⟩ := u
  cases t with
  | fin x =>
    cases i with
    | fin y =>
      cases T with
      | fin z =>
        cases hc
        cases (container_readingVec x y z).symm.trans hq
        exact Dist.convert_len (identity_rescales 3) (fun _ => one_ne_zero) rfl hq'
      | _ => cases hc
    | _ => cases hc
  | _ => cases hc

/-! ## C109 -/

/-- C109 for outputs.  The names of the outputs of every estimator are those of the columns of the cell model's output for the initial values: one per
column, pairwise distinct, the columns at the labels of a field holding its value. -/
theorem C109_output_names {cell : Cell} {asoh : HV ℝ} {tr inp : Container ℝ} {ns : List Name} {o : Online}
    (ho : Online.make cell asoh tr inp ns = .ok o) (hwf : ∀ y, cell.output inp tr asoh = .ok y → y.WF) :
    ∃ y, cell.output inp tr asoh = .ok y ∧ o.outputNames = (held y).flatMap (fun p => labels p.1 p.2.ncol) ∧ o.outputNames.Nodup ∧
      o.outputNames.length = o.nOutputs ∧ ∀ v, y.toNumpy = .ok v → v.ncol = o.nOutputs ∧
        ∀ b l₁ p l₂, y.batchSize = .ok b → held y = l₁ ++ p :: l₂ →
          let start := (l₁.flatMap fun p => labels p.1 p.2.ncol).length
          v.cols start (start + p.2.ncol) = broadcast b p.2 := by
  obtain ⟨y, h1, h2, h3, -⟩ := Online.make_inv ho
  obtain ⟨k1, k2, k3, k4, k5⟩ := C15_length_width_names y (hwf y h1)
  have e := Except.ok.inj (h2.symm.trans k1)
  exact ⟨y, h1, e, e ▸ k3, by rw [e, k2, h3], fun v hv => ⟨by rw [k4 v hv, h3], fun b l₁ p l₂ hb hh => k5 v b l₁ p l₂ hv hb hh⟩⟩

/-- C109 for the outputs of joint estimators: the filter predicts one output per name. -/
theorem C109_joint_outputs {pinv : Mat → Mat} {cell : Cell} {asoh : HV ℝ} {tr inp : Container ℝ} {cov : Mat ⊕ (Mat × Mat)}
    {inputsCov noise noiseT noiseA sensor : Option Mat} {normalize : Bool} {tune : Tuning} {E : Joint}
    (hE : Joint.initializeUkf pinv cell asoh tr inp cov inputsCov noise noiseT noiseA sensor normalize tune = .ok E)
    (hwf : ∀ y, cell.output inp tr asoh = .ok y → y.WF) : E.filter.model.nOut = E.base.outputNames.length ∧ E.filter.model.nOut = E.base.nOutputs := by
  simp only [Joint.initializeUkf, bind_eq_ok_iff, JointWrapper.make, pure_eq_ok, Except.ok.injEq] at hE
  obtain ⟨conv, _, w, ⟨b, hb, V, _, P, _, rfl⟩, hE⟩ := hE
  obtain ⟨y, v, hy, hv, rfl⟩ := BaseWrapper.make_outputs hb
  obtain ⟨_, _, _, _, _, _, _, _, f, _, _, _, _, _, _, _, _, h9, _, h11, h12⟩ := Joint.fromWrapper_inv hE
  obtain ⟨y', hy', -, -, n1, n2⟩ := C109_output_names h12 hwf
  cases hy.symm.trans hy'
  obtain ⟨f1, _⟩ := Ukf.C53_constructed _ _ _ _ _ _ _ _ _ h9
  have e : E.filter.model.nOut = E.base.nOutputs := by
    rw [h11, f1]
    exact (n2 v hv).1
  exact ⟨e.trans n1.symm, e⟩

/-- C109 for the outputs of dual estimators: both filters predict one output per name. -/
theorem C109_dual_outputs {pinv : Mat → Mat} {cell : Cell} {asoh : HV ℝ} {tr inp : Container ℝ} {covT covA : Mat}
    {inputsCov noiseT noiseA sensor : Option Mat} {normalize : Bool} {tT tA : Tuning} {E : Dual}
    (hE : Dual.initializeUkf pinv cell asoh tr inp covT covA inputsCov noiseT noiseA sensor normalize tT tA = .ok E)
    (hwf : ∀ y, cell.output inp tr asoh = .ok y → y.WF) :
    E.trans.model.nOut = E.base.outputNames.length ∧ E.asoh.model.nOut = E.base.outputNames.length ∧ E.base.nOutputs = E.base.outputNames.length := by
  simp only [Dual.initializeUkf, bind_eq_ok_iff, CellWrapper.make, DegradationWrapper.make, pure_eq_ok, Except.ok.injEq] at hE
  obtain ⟨conv, _, cw, ⟨b, hb, V, _, rfl⟩, aw, ⟨b', hb', _, _, P, _, rfl⟩, hE⟩ := hE
  obtain ⟨y, v, hy, hv, rfl⟩ := BaseWrapper.make_outputs hb
  obtain ⟨y₂, v₂, hy₂, hv₂, rfl⟩ := BaseWrapper.make_outputs hb'
  cases hy.symm.trans hy₂
  cases hv.symm.trans hv₂
  obtain ⟨T, A, t, a, gt, ga, _, _, _, _, _, _, _, _, h1, h2, h3, h4, _, _, h5⟩ := Dual.fromWrappers_ok hE
  obtain ⟨y', hy', -, -, n1, n2⟩ := C109_output_names h5 hwf
  cases hy.symm.trans hy'
  rw [h3, h4, n1]
  exact ⟨(n2 v hv).1, (n2 v hv).1, rfl⟩

/-- C109 for the controls of joint estimators, as long as all inputs have as many values as the initial ones.  Missing: other inputs, which the estimators
accept (`C109_joint_controls_outnumber_names`).  The names of the controls are those of the values of the initial inputs, pairwise distinct, and the filter
has one control per name, at the start and after every history. -/
theorem C109_control_names_partial (w : JointWrapper) (hwf : w.inputs.WF) {k : Nat} {d b : Fin k → ℝ} (hd : ∀ i, d i ≠ 0)
    (hop : w.controlConv.Rescales k d b) (V : Arr2 ℝ) (hV : w.inputs.toNumpy = .ok V) (hVr : V.nrow = 1) (hk : V.ncol = k)
    (cov : Mat ⊕ (Mat × Mat)) (ic n nT nA s : Option Mat) (tune : Tuning) (E : Joint) (hE : Joint.fromWrapper w cov ic n nT nA s tune = .ok E)
    (svd : Mat → Vec × Mat) (hist : List (Container ℝ × Container ℝ))
    (hh : ∀ x ∈ hist, ∃ U, x.1.toNumpy = .ok U ∧ U.flat.n = k) (fin : Joint) (outs : List (Gaussian × Gaussian))
    (hrun : E.run svd hist = .ok (fin, outs)) :
    ∃ names, fin.base.controlNames = .ok names ∧ names = (held w.inputs).flatMap (fun p => labels p.1 p.2.ncol) ∧ names.Nodup ∧
      fin.filter.controls.mean.n = names.length := by
  obtain ⟨k1, k2, k3, k4, -⟩ := C15_length_width_names w.inputs hwf
  obtain ⟨-, -, -, hVn⟩ := Arr2.flat_single hVr
  obtain ⟨u, _, _, _, _, u', _, _, f, h1, _, _, _, _, h6, _, _, h9, h10, h11, h12⟩ := Joint.fromWrapper_inv hE
  obtain ⟨_, _, _, ho⟩ := Online.make_inv h12
  obtain ⟨r1, r2, fh, fouts, r3, r4, -⟩ := Joint.run_inv svd hist E fin outs hrun
  have hstart : E.filter.controls.mean.n = k := by
    obtain ⟨_, _, _, f4, _⟩ := Ukf.C53_constructed _ _ _ _ _ _ _ _ _ h9
    rw [h11, f4]
    exact convertVals_len hop hd hV (by omega) h1 h6
  have hfin : fin.filter.controls.mean.n = k := by
    clear hrun r1 r2 h9 h12 hE
    have : ∀ (hist : List (Container ℝ × Container ℝ)) (fh : List (Dist × Dist)) (f0 f1 : Ukf Unit) (fouts : List (Gaussian × Gaussian)),
        f0.controls.mean.n = k → (∀ x ∈ hist, ∃ U, x.1.toNumpy = .ok U ∧ U.flat.n = k) → f0.run svd fh = .ok (f1, fouts) →
        List.Forall₂ (fun x x' => ∃ u y, convertVals x.1 none = .ok u ∧ convertVals x.2 none = .ok y ∧
          u.convert E.wrapper.controlConv true = .ok x'.1 ∧ y.convert E.wrapper.outputConv true = .ok x'.2) hist fh → f1.controls.mean.n = k := by
      intro hist fh f0 f1 fouts h0 hh hr hrel
      induction hrel generalizing f0 fouts with
      | nil => cases hr; exact h0
      | @cons x x' hist fh hx _ ih =>
        obtain ⟨u, y, e1, e2, e3, e4⟩ := hx
        obtain ⟨a, b⟩ := x'
        simp only [Ukf.run, bind_eq_ok_iff, pure_eq_ok, Except.ok.injEq, Prod.mk.injEq] at hr
        obtain ⟨⟨f', g1, g2⟩, q1, ⟨f'', rest⟩, q2, rfl, -⟩ := hr
        refine ih f' rest ?_ (fun z hz => hh z (List.mem_cons_of_mem _ hz)) q2
        rw [(Ukf.step_keeps q1).2]
        obtain ⟨U, hU, hUn⟩ := hh _ List.mem_cons_self
        rw [h10] at e3
        exact convertVals_len hop hd hU hUn e1 e3
    exact this hist fh E.filter fin.filter fouts hstart hh r3 r4
  refine ⟨_, ?_, rfl, k3, ?_⟩
  · rw [r2, Online.controlNames, ho.2]
    exact k1
  · rw [hfin, k2, ← k4 V hV, hk]

/-- C109 for the controls of dual estimators, as long as all inputs have as many values as the initial ones.  Missing: other inputs
(`C109_dual_controls_outnumber_names`).  Both filters have one control per name. -/
theorem C109_dual_control_names_partial (cw : CellWrapper) (aw : DegradationWrapper) (hwf : cw.inputs.WF) {k : Nat} {dT bT dA bA : Fin k → ℝ}
    (hdT : ∀ i, dT i ≠ 0) (hdA : ∀ i, dA i ≠ 0) (hT : cw.controlConv.Rescales k dT bT) (hA : aw.controlConv.Rescales k dA bA)
    (V : Arr2 ℝ) (hV : cw.inputs.toNumpy = .ok V) (hVr : V.nrow = 1) (hk : V.ncol = k) (covT covA : Mat) (ic qT qA s : Option Mat) (tT tA : Tuning)
    (E : Dual) (hE : Dual.fromWrappers cw aw covT covA ic qT qA s tT tA = .ok E)
    (svd : Mat → Vec × Mat) (hist : List (Container ℝ × Container ℝ))
    (hh : ∀ x ∈ hist, ∃ U, x.1.toNumpy = .ok U ∧ U.flat.n = k) (fin : Dual) (outs : List (Gaussian × Gaussian))
    (hrun : E.run svd hist = .ok (fin, outs)) :
    ∃ names, fin.base.controlNames = .ok names ∧ names = (held cw.inputs).flatMap (fun p => labels p.1 p.2.ncol) ∧ names.Nodup ∧
      fin.trans.controls.mean.n = names.length ∧ fin.asoh.controls.mean.n = names.length := by
  obtain ⟨k1, k2, k3, k4, -⟩ := C15_length_width_names cw.inputs hwf
  obtain ⟨-, -, -, hVn⟩ := Arr2.flat_single hVr
  have hin : E.base.inputs = cw.inputs := by
    obtain ⟨_, _, _, _, _, _, _, _, _, _, _, _, _, _, _, _, _, _, _, _, ho⟩ := Dual.fromWrappers_ok hE
    exact (Online.make_ok ho).2.2.2.1
  have hstart : E.cellW = cw ∧ E.asohW = aw ∧ E.trans.controls.mean.n = k ∧ E.asoh.controls.mean.n = k := by
    simp only [Dual.fromWrappers, bind_eq_ok_iff, Dual.make, pure_eq_ok] at hE
    obtain ⟨it, h1, ia, h2, c, h3, h⟩ := hE
    cases c with
    | false => cases h
    | true =>
      simp only [Bool.not_true, Bool.false_eq_true, if_false, bind_eq_ok_iff, Except.ok.injEq] at h
      obtain ⟨u, hu, T, _, t, _, A, _, a, _, gt, _, ut, hut, qt, _, rt, _, ft, hft, ga, _, ua, hua, qa, _, ra, _, fa, hfa, o, ho, rfl⟩ := h
      obtain ⟨_, _, _, b4, _⟩ := Ukf.C53_constructed _ _ _ _ _ _ _ _ _ hft
      obtain ⟨_, _, _, c4, _⟩ := Ukf.C53_constructed _ _ _ _ _ _ _ _ _ hfa
      refine ⟨rfl, rfl, ?_, ?_⟩
      · show ft.controls.mean.n = k
        rw [b4]
        exact convertVals_len hT hdT hV (by omega) hu hut
      · show fa.controls.mean.n = k
        rw [c4]
        exact convertVals_len hA hdA hV (by omega) hu hua
  have hfin : fin.base = E.base ∧ fin.trans.controls.mean.n = k ∧ fin.asoh.controls.mean.n = k := by
    clear hE hin
    induction hist generalizing E outs with
    | nil => cases hrun; exact ⟨rfl, hstart.2.2⟩
    | cons x hist ih =>
      obtain ⟨u, y⟩ := x
      simp only [Dual.run, bind_eq_ok_iff, pure_eq_ok, Except.ok.injEq, Prod.mk.injEq] at hrun
      obtain ⟨⟨E', est, out⟩, h1, ⟨f', rest⟩, h2, rfl, -⟩ := hrun
      obtain ⟨u', y', pT, pA, uT, yT, uA, yA, ⟨ft, gt⟩, ⟨fa, ga⟩, t, a, oA, e1, e2, e3, e4, e5, e6, e7, e8, e9, -, -, -, -, -, rfl⟩ := Dual.step_ok h1
      obtain ⟨U, hU, hUn⟩ := hh _ List.mem_cons_self
      rw [hstart.1] at e4
      rw [hstart.2.1] at e7
      refine ih { E with trans := ft, asoh := fa } (fun z hz => hh z (List.mem_cons_of_mem _ hz)) rest h2 ⟨hstart.1, hstart.2.1, ?_, ?_⟩
      · show ft.controls.mean.n = k
        rw [(Ukf.step_keeps e6).2]
        exact convertVals_len hT hdT hU hUn e1 e4
      · show fa.controls.mean.n = k
        rw [(Ukf.step_keeps e9).2]
        exact convertVals_len hA hdA hU hUn e1 e7
  refine ⟨_, ?_, rfl, k3, ?_, ?_⟩
  · rw [hfin.1, Online.controlNames, hin]
    exact k1
  · rw [hfin.2.1, k2, ← k4 V hV, hk]
  · rw [hfin.2.2, k2, ← k4 V hV, hk]

/-- C109 fails: after every reading of a dataset the filter of a joint estimator whose initial inputs have no temperature holds three controls, but
`control_names` has the two names of the initial inputs. -/
theorem C109_joint_controls_outnumber_names {pinv : Mat → Mat} {cell : Cell} {asoh : HV ℝ} {tr inp : Container ℝ}
    (hinp : SameLayout inp (circuitInput false)) {cov : Mat ⊕ (Mat × Mat)} {inputsCov noise noiseT noiseA sensor : Option Mat} {normalize : Bool}
    {tune : Tuning} {E : Joint}
    (hE : Joint.initializeUkf pinv cell asoh tr inp cov inputsCov noise noiseT noiseA sensor normalize tune = .ok E)
    (svd : Mat → Vec × Mat) (u : CellInput) (y : CellMeasurement) (E' : Joint) (r : Gaussian × Gaussian) (hs : (Joint.ops svd).step E u y = .ok (E', r)) :
    E'.base.controlNames = .ok ["time".toList, "current".toList] ∧ E'.filter.controls.mean.n = 3 := by
  obtain ⟨h1, h2, h3⟩ := Joint.initialize_parts hE
  have hbase : E.base.inputs = inp := by
    simp only [Joint.initializeUkf, bind_eq_ok_iff, JointWrapper.make, pure_eq_ok, Except.ok.injEq] at hE
    obtain ⟨conv, _, w, ⟨b, hb, V, _, P, _, rfl⟩, hE⟩ := hE
    obtain ⟨_, _, _, _, _, _, _, _, _, _, _, _, _, _, _, _, _, _, _, _, k⟩ := Joint.fromWrapper_inv hE
    obtain ⟨_, _, _, ho⟩ := Online.make_inv k
    rw [ho.2]
    exact (BaseWrapper.make_rest hb).1
  simp only [Joint.ops, Joint.step, bind_eq_ok_iff, pure_eq_ok, Except.ok.injEq, Prod.mk.injEq] at hs
  obtain ⟨c, hc, m, hm, q, hq, z, hz, q', hq', z', hz', ⟨f', g1, g2⟩, hf, est, _, out, _, rfl, -⟩ := hs
  refine ⟨?_, ?_⟩
  · show E.base.controlNames = _
    rw [Online.controlNames, hbase]
    exact reading_names hinp
  · show f'.controls.mean.n = 3
    rw [(Ukf.step_keeps hf).2]
    exact reading_len hc h2 hq hq'

/-- C109 fails for dual estimators as well. -/
theorem C109_dual_controls_outnumber_names {pinv : Mat → Mat} {cell : Cell} {asoh : HV ℝ} {tr inp : Container ℝ}
    (hinp : SameLayout inp (circuitInput false)) {covT covA : Mat} {inputsCov noiseT noiseA sensor : Option Mat} {normalize : Bool}
    {tT tA : Tuning} {E : Dual}
    (hE : Dual.initializeUkf pinv cell asoh tr inp covT covA inputsCov noiseT noiseA sensor normalize tT tA = .ok E)
    (svd : Mat → Vec × Mat) (u : CellInput) (y : CellMeasurement) (E' : Dual) (r : Gaussian × Gaussian) (hs : (Dual.ops svd).step E u y = .ok (E', r)) :
    E'.base.controlNames = .ok ["time".toList, "current".toList] ∧ E'.trans.controls.mean.n = 3 ∧ E'.asoh.controls.mean.n = 3 := by
  obtain ⟨⟨-, h2, h3⟩, -, h5, h6⟩ := Dual.initialize_parts hE
  have hbase : E.base.inputs = inp := by
    simp only [Dual.initializeUkf, bind_eq_ok_iff] at hE
    obtain ⟨_, _, cw, _, aw, _, hE⟩ := hE
    obtain ⟨_, _, _, _, _, _, _, _, _, _, _, _, _, _, e, _, _, _, _, _, ho⟩ := Dual.fromWrappers_ok hE
    rw [(Online.make_ok ho).2.2.2.1, ← e, h3]
  simp only [Dual.ops, bind_eq_ok_iff] at hs
  obtain ⟨c, hc, m, hm, hs⟩ := hs
  obtain ⟨u', y', pT, pA, uT, yT, uA, yA, ⟨ft, gt⟩, ⟨fa, ga⟩, t, a, oA, e1, e2, e3, e4, e5, e6, e7, e8, e9, -, -, -, -, -, rfl⟩ := Dual.step_ok hs
  refine ⟨?_, ?_, ?_⟩
  · show E.base.controlNames = _
    rw [Online.controlNames, hbase]
    exact reading_names hinp
  · show ft.controls.mean.n = 3
    rw [(Ukf.step_keeps e6).2]
    exact reading_len hc h2 e1 e4
  · show fa.controls.mean.n = 3
    rw [(Ukf.step_keeps e9).2]
    exact reading_len hc h5 e1 e7

theorem Demo.inp_wf : Demo.inp.WF := by
  refine ⟨by decide, fun k f h => ?_⟩
  obtain ⟨rfl, -⟩ := Prod.mk.inj (List.mem_singleton.1 h)
  decide

theorem Demo.volts_wf (y : Container ℝ) (h : Demo.restCell.output Demo.inp Demo.trans Demo.health = .ok y) : y.WF := by
  have : Demo.restCell.output Demo.inp Demo.trans Demo.health = .ok ⟨[(['v'], some (.ofRow [3]))]⟩ := rfl
  cases this.symm.trans h
  refine ⟨by decide, fun k f h => ?_⟩
  obtain ⟨rfl, -⟩ := Prod.mk.inj (List.mem_singleton.1 h)
  decide

-- The concrete cell has one output `v`.
example (op : Operator) : ∃ o, Online.make (Demo.joint op).cell (Demo.joint op).asoh (Demo.joint op).transients (Demo.joint op).inputs [['q']] = .ok o ∧
    o.outputNames.length = o.nOutputs ∧ o.outputNames = [['v']] := by
  refine ⟨_, rfl, ?_, rfl⟩
  obtain ⟨y, -, -, -, h, -⟩ := C109_output_names (cell := Demo.restCell) (asoh := Demo.health) (tr := Demo.trans) (inp := Demo.inp) (ns := [['q']]) rfl
    Demo.volts_wf
  exact h

theorem circuit_volts_wf {beh : Behavior} {x : Fixed} {asoh : HV ℝ} {tr inp y : Container ℝ} (h : (Ecm.cell beh x).output inp tr asoh = .ok y) : y.WF := by
  simp only [Ecm.cell, bind_eq_ok_iff, pure_eq_ok, Except.ok.injEq] at h
  obtain ⟨_, _, _, _, _, _, v, _, rfl⟩ := h
  refine ⟨List.nodup_singleton _, fun k f h => ?_⟩
  obtain ⟨rfl, -⟩ := Prod.mk.inj (List.mem_singleton.1 h)
  decide

-- Circuits: the hypothesis on the output is met by all of them.
example : ∃ pinv E E',
    Joint.initializeUkf pinv (Ecm.cell .constant Demo.fixed) (Demo.hvUpdating [kOcv, kR0] [kBase]) Demo.hvState Demo.coldInput
      (.inl ⟨6, 6, 1⟩) none none none none none true ⟨1, some 0, 2⟩ = .ok E ∧ E.filter.model.nOut = E.base.outputNames.length ∧
    Dual.initializeUkf pinv (Ecm.cell .constant Demo.fixed) (Demo.hvUpdating [kOcv, kR0] [kBase]) Demo.hvState Demo.coldInput
      ⟨3, 3, 1⟩ ⟨3, 3, 1⟩ none none none none true ⟨1, some 0, 2⟩ ⟨1, some 0, 2⟩ = .ok E' ∧ E'.trans.model.nOut = E'.base.outputNames.length := by
  obtain ⟨pinv, hp⟩ := exists_pinv
  have hn := Demo.none_fits
  obtain ⟨E, _, _, k1, -⟩ := joint_task Demo.cold_task Demo.cold_estimable.1 rfl rfl (.whole (Demo.one_posDef 6)) (hn _) (hn _)
    (hn _) (hn _) hp true (tuned_default (by omega))
  obtain ⟨E', _, _, _, _, _, k2, -⟩ := dual_task Demo.cold_task Demo.cold_estimable (Demo.trackingHealth_reaches .constant .identity) rfl rfl
    (by show 1 ≤ 3; decide) (Demo.one_posDef 3) (Demo.one_posDef 3) (hn _) (hn _) (hn _) hp true (tuned_default (by omega)) (tuned_default (by omega))
  exact ⟨pinv, E, E', k1, (C109_joint_outputs k1 fun _ => circuit_volts_wf).1, k2, (C109_dual_outputs k2 fun _ => circuit_volts_wf).1⟩

-- The concrete joint estimator in units of 1/4 and -3: one control named after its one input, through every history of currents and voltages.
example (svd : Mat → Vec × Mat) (hist : List (ℝ × ℝ)) : ∃ op b E fin outs, op.Rescales 2 ![1 / 4, -3] b ∧
    Joint.fromWrapper (Demo.joint op) (.inl ⟨2, 2, 1⟩) none (some ⟨2, 2, 1⟩) none none (some ⟨1, 1, 1⟩) ⟨1, none, 2⟩ = .ok E ∧
    E.run svd (Demo.readings hist) = .ok (fin, outs) ∧ ∃ names, fin.base.controlNames = .ok names ∧ fin.filter.controls.mean.n = names.length := by
  obtain ⟨pinv, hpinv⟩ := exists_pinv
  have hd : ∀ i, (![1 / 4, -3] : Fin 2 → ℝ) i ≠ 0 := by intro i; fin_cases i <;> norm_num
  obtain ⟨b', hb'⟩ := factors_rescales hpinv ![1 / 4, -3] hd ⟨1, ![1]⟩ (.inr rfl)
  obtain ⟨E, h1, -, h2⟩ := Demo.joint_healthy hd hb'
  have hin : ∀ x ∈ Demo.readings hist, (∃ v, x.1.toNumpy = .ok v ∧ v.flat.n = 1) ∧ ∃ y, x.2.toNumpy = .ok y ∧ y.flat.n = 1 := by
    intro x hx
    obtain ⟨y, _, rfl⟩ := List.mem_map.1 hx
    exact ⟨⟨.ofRow [y.1], rfl, rfl⟩, .ofRow [y.2], rfl, rfl⟩
  obtain ⟨fin, outs, h3, -, -⟩ := C78_joint_runs (h2 1) le_rfl svd (Demo.readings hist) hin
  obtain ⟨names, n1, -, -, n4⟩ := C109_control_names_partial (Demo.joint _) Demo.inp_wf (fun _ => one_ne_zero) (identity_rescales 1)
    (.ofRow [1]) rfl rfl rfl _ none _ _ _ _ _ E h1 svd _ (fun x hx => (hin x hx).1) fin outs h3
  exact ⟨_, b', E, fin, outs, hb', h1, h3, names, n1, n4⟩

-- The same for the concrete dual estimator.
example (svd : Mat → Vec × Mat) (hist : List (ℝ × ℝ)) : ∃ E fin outs,
    Dual.fromWrappers Demo.sumCellW Demo.sumAsohW ⟨1, 1, 1⟩ ⟨1, 1, 1⟩ none (some ⟨1, 1, 1⟩) (some ⟨1, 1, 1⟩) (some ⟨1, 1, 1⟩)
      ⟨1, none, 2⟩ ⟨1, none, 2⟩ = .ok E ∧
    E.run svd (Demo.readings hist) = .ok (fin, outs) ∧ ∃ names, fin.base.controlNames = .ok names ∧ fin.trans.controls.mean.n = names.length := by
  obtain ⟨E, h1, h2⟩ := Demo.sum_healthy
  have hin : ∀ x ∈ Demo.readings hist, (∃ v, x.1.toNumpy = .ok v ∧ v.flat.n = 1) ∧ ∃ y, x.2.toNumpy = .ok y ∧ y.flat.n = 1 := by
    intro x hx
    obtain ⟨y, _, rfl⟩ := List.mem_map.1 hx
    exact ⟨⟨.ofRow [y.1], rfl, rfl⟩, .ofRow [y.2], rfl, rfl⟩
  obtain ⟨fin, outs, h3, -, -⟩ := C76_dual_runs (h2 1) le_rfl svd (Demo.readings hist) hin
  obtain ⟨names, n1, -, -, n4, -⟩ := C109_dual_control_names_partial Demo.sumCellW Demo.sumAsohW Demo.inp_wf (fun _ => one_ne_zero) (fun _ => one_ne_zero)
    (identity_rescales 1) (identity_rescales 1) (.ofRow [1]) rfl rfl rfl _ _ none _ _ _ _ _ E h1 svd _ (fun x hx => (hin x hx).1) fin outs h3
  exact ⟨E, fin, outs, h1, h3, names, n1, n4⟩

-- The concrete circuit without a temperature in its initial inputs: every reading can be processed, and afterwards there are more controls than names.
example (svd : Mat → Vec × Mat) (t i T v : ℝ) : ∃ pinv E E' r,
    Joint.initializeUkf pinv (Ecm.cell .constant Demo.fixed) (Demo.hvUpdating [kOcv, kR0] [kBase]) Demo.hvState Demo.coldInput
      (.inl ⟨6, 6, 1⟩) none none none none none true ⟨1, some 0, 2⟩ = .ok E ∧
    (Joint.ops svd).step E ⟨.fin t, .fin i, .fin T⟩ ⟨.fin v⟩ = .ok (E', r) ∧ E'.base.controlNames = .ok ["time".toList, "current".toList] ∧
    E'.filter.controls.mean.n = 3 := by
  obtain ⟨pinv, hp⟩ := exists_pinv
  have hn := Demo.none_fits
  obtain ⟨E, U, _, k1, k2, -⟩ := joint_task Demo.cold_task Demo.cold_estimable.1 rfl rfl (.whole (Demo.one_posDef 6)) (hn _) (hn _)
    (hn _) (hn _) hp true (tuned_default (by omega))
  obtain ⟨E', est, out, h, -⟩ := k2.step le_rfl svd ⟨[("time".toList, some (.ofRow [t])), ("current".toList, some (.ofRow [i])),
    ("temperature".toList, some (.ofRow [T]))]⟩ ⟨[("terminal_voltage".toList, some (.ofRow [v]))]⟩ ⟨_, rfl, rfl⟩ ⟨_, rfl, rfl⟩
  exact ⟨pinv, E, E', (est, out), k1, h, C109_joint_controls_outnumber_names (inp := Demo.coldInput) rfl k1 svd ⟨.fin t, .fin i, .fin T⟩ ⟨.fin v⟩ E' _ h⟩

example (svd : Mat → Vec × Mat) (t i T v : ℝ) : ∃ pinv E E' r,
    Dual.initializeUkf pinv (Ecm.cell .constant Demo.fixed) (Demo.hvUpdating [kOcv, kR0] [kBase]) Demo.hvState Demo.coldInput
      ⟨3, 3, 1⟩ ⟨3, 3, 1⟩ none none none none true ⟨1, some 0, 2⟩ ⟨1, some 0, 2⟩ = .ok E ∧
    (Dual.ops svd).step E ⟨.fin t, .fin i, .fin T⟩ ⟨.fin v⟩ = .ok (E', r) ∧ E'.base.controlNames = .ok ["time".toList, "current".toList] ∧
    E'.trans.controls.mean.n = 3 ∧ E'.asoh.controls.mean.n = 3 := by
  obtain ⟨pinv, hp⟩ := exists_pinv
  have hn := Demo.none_fits
  obtain ⟨E, _, _, _, _, _, k1, k2, -⟩ := dual_task Demo.cold_task Demo.cold_estimable (Demo.trackingHealth_reaches .constant .identity) rfl rfl
    (by show 1 ≤ 3; decide) (Demo.one_posDef 3) (Demo.one_posDef 3) (hn _) (hn _) (hn _) hp true (tuned_default (by omega)) (tuned_default (by omega))
  obtain ⟨E', est, out, h, -⟩ := k2.step le_rfl svd ⟨[("time".toList, some (.ofRow [t])), ("current".toList, some (.ofRow [i])),
    ("temperature".toList, some (.ofRow [T]))]⟩ ⟨[("terminal_voltage".toList, some (.ofRow [v]))]⟩ ⟨_, rfl, rfl⟩ ⟨_, rfl, rfl⟩
  exact ⟨pinv, E, E', (est, out), k1, h, C109_dual_controls_outnumber_names (inp := Demo.coldInput) rfl k1 svd ⟨.fin t, .fin i, .fin T⟩ ⟨.fin v⟩ E' _ h⟩

end Verif
