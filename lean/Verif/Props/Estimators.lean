import Verif.Props.UkfScale
/-!
# Online estimators: C57, C58, C61
-/

namespace Verif
open Matrix

/-! ## Specification -/

/-- The converter treats a vector and the array with that vector as its only row alike. -/
def Operator.RowConsistent (op : Operator) (k : Nat) : Prop :=
  ∀ v : Fin k → ℝ, ∀ w, op.samples1 ⟨k, v⟩ = .ok w → op.samples2 (.ofRow ⟨k, v⟩) = .ok (.ofRow w)

theorem identity_rowConsistent (k : Nat) : Operator.identity.RowConsistent k := by
  rintro v w ⟨⟩
  rfl

theorem Operator.Rescales.rowConsistent {op : Operator} {k : Nat} {d b : Fin k → ℝ} (h : op.Rescales k d b) : op.RowConsistent k := by
  intro v w hw
  rw [h.samples1] at hw
  cases hw
  exact h.samples2 1 fun _ => v

theorem matrix_rowConsistent {pinv : Mat → Mat} (hpinv : IsPinv pinv) {n k : Nat} (M : Matrix (Fin n) (Fin k) ℝ) {b : Vec}
    (hb : Fits b k) : (Operator.linear pinv ⟨n, k, M⟩ b).RowConsistent n := by
  obtain ⟨P, hP, _⟩ := hpinv n k M
  obtain ⟨b', f1, f2, _⟩ := linear_acts hP hb
  intro v w hw
  rw [f1] at hw
  cases hw
  exact f2 1 fun _ => v

/-! ## Joint estimators and their filters -/

theorem Ukf.run_last {σ : Type} (svd : Mat → Vec × Mat) (hist : List (Dist × Dist)) : ∀ (f f' : Ukf σ) (outs : List (Gaussian × Gaussian)),
    f.run svd hist = .ok (f', outs) → ∀ x, outs.getLast? = some x → f'.hidden = x.1 := by
  induction hist with
  | nil => intro f f' outs h; cases h; nofun
  | cons y hist ih =>
    intro f f' outs h x hx
    simp only [Ukf.run, bind_eq_ok_iff, pure_eq_ok, Except.ok.injEq, Prod.mk.injEq] at h
    obtain ⟨r, h1, s, h2, rfl, rfl⟩ := h
    cases hist with
    | nil =>
      cases h2
      simp only [List.getLast?_singleton, Option.some.injEq] at hx
      subst hx
      simp only [Ukf.step, bind_eq_ok_iff, pure_eq_ok, Except.ok.injEq] at h1
      obtain ⟨_, _, p, _, g, _, rfl⟩ := h1
      rfl
    | cons z hist =>
      have hne : s.2 ≠ [] := by
        have := Ukf.run_length svd _ _ _ _ h2
        intro h0
        rw [h0] at this
        simp at this
      refine ih r.1 s.1 s.2 h2 x ?_
      rw [← hx]
      obtain ⟨a, l, hl⟩ := List.exists_cons_of_ne_nil hne
      rw [hl, List.getLast?_cons_cons]

/-- A run of the estimator is a run of its filter between conversions. -/
theorem Joint.run_inv (svd : Mat → Vec × Mat) (hist : List (Container ℝ × Container ℝ)) : ∀ (E fin : Joint) (outs : List (Gaussian × Gaussian)),
    E.run svd hist = .ok (fin, outs) → fin.wrapper = E.wrapper ∧ fin.base = E.base ∧
    ∃ fh fouts, E.filter.run svd fh = .ok (fin.filter, fouts) ∧
      List.Forall₂ (fun x x' => ∃ u y, convertVals x.1 none = .ok u ∧ convertVals x.2 none = .ok y ∧
        u.convert E.wrapper.controlConv true = .ok x'.1 ∧ y.convert E.wrapper.outputConv true = .ok x'.2) hist fh ∧
      List.Forall₂ (fun o c => o.1.convert E.wrapper.hiddenConv = .ok c.1 ∧ o.2.convert E.wrapper.outputConv = .ok c.2) fouts outs := by
  induction hist with
  | nil =>
    intro E fin outs h
    cases h
    exact ⟨rfl, rfl, [], [], rfl, .nil, .nil⟩
  | cons x hist ih =>
    intro E fin outs h
    simp only [Joint.run, Joint.step, bind_eq_ok_iff, pure_eq_ok, Except.ok.injEq, Prod.mk.injEq] at h
    obtain ⟨_, ⟨u, h1, y, h2, u', h3, y', h4, r, h5, est, h6, out, h7, rfl⟩, s, h8, rfl, rfl⟩ := h
    obtain ⟨i1, i2, fh, fouts, i3, i4, i5⟩ := ih _ _ _ h8
    refine ⟨i1, i2, (u', y') :: fh, r.2 :: fouts, ?_, .cons ⟨u, y, h1, h2, h3, h4⟩ i4, .cons ⟨h6, h7⟩ i5⟩
    simp only at i3
    simp only [Ukf.run, h5, ok_bind, i3, pure_eq_ok]

theorem forall₂_getLast? {α β : Type} {r : α → β → Prop} {l : List α} {l' : List β} (h : List.Forall₂ r l l') {y : β}
    (hy : l'.getLast? = some y) : ∃ x, l.getLast? = some x ∧ r x y := by
  induction h with
  | nil => cases hy
  | cons h t ih =>
    cases t with
    | nil =>
      simp only [List.getLast?_singleton, Option.some.injEq] at hy
      subst hy
      exact ⟨_, rfl, h⟩
    | cons h' t' =>
      rw [List.getLast?_cons_cons] at hy ⊢
      exact ih hy

/-! ## C57 -/

/-- C57.  After any history `state`, converted to model coordinates, is the last estimate returned by `step`.  Missing: `state` itself is
in filter coordinates, see `C57_state_not_converted`. -/
theorem C57_state_converted_partial (svd : Mat → Vec × Mat) (E fin : Joint) (hist : List (Container ℝ × Container ℝ))
    (outs : List (Gaussian × Gaussian)) (hrun : E.run svd hist = .ok (fin, outs)) (est out : Gaussian)
    (hlast : outs.getLast? = some (est, out)) : fin.state.convert fin.wrapper.hiddenConv = .ok est := by
  obtain ⟨h1, _, fh, fouts, h2, _, h3⟩ := Joint.run_inv svd hist E fin outs hrun
  obtain ⟨x, hx, hc, _⟩ := forall₂_getLast? h3 hlast
  rw [h1, Joint.state, Ukf.run_last svd fh _ _ _ h2 x hx, hc]

/-- C57.  Without conversion of the hidden state the two are equal. -/
theorem C57_state_without_conversion_partial (svd : Mat → Vec × Mat) (E fin : Joint) (hid : E.wrapper.hiddenConv = .identity)
    (hist : List (Container ℝ × Container ℝ)) (outs : List (Gaussian × Gaussian)) (hrun : E.run svd hist = .ok (fin, outs))
    (est out : Gaussian) (hlast : outs.getLast? = some (est, out)) : fin.state = est := by
  have h := C57_state_converted_partial svd E fin hist outs hrun est out hlast
  rw [(Joint.run_inv svd hist E fin outs hrun).1, hid] at h
  have h : Gaussian.make fin.state.mean fin.state.cov = .ok est := h
  unfold Gaussian.make at h
  split at h
  · cases h; rfl
  · cases h

/-- C57 for `get_estimated_state`.  Whatever the conversion: the objects it returns hold the mean of the last estimate, transient values
first and then the estimated parameters. -/
theorem C57_objects_hold_the_estimate_partial (svd : Mat → Vec × Mat) (E fin : Joint) (hw : E.wrapper.Ready) {k : Nat}
    (hop : E.wrapper.hiddenConv.RowConsistent k) (hist : List (Container ℝ × Container ℝ)) (outs : List (Gaussian × Gaussian))
    (hrun : E.run svd hist = .ok (fin, outs)) (est out : Gaussian) (hlast : outs.getLast? = some (est, out))
    (hk : fin.state.mean.n = k) (hdim : est.mean.n = E.wrapper.nTransients + E.wrapper.nAsoh) :
    ∃ transients asoh T A, fin.getEstimatedState = .ok (transients, asoh) ∧ transients.toNumpy = .ok T ∧
      asoh.getParameters (some E.wrapper.names) = .ok A ∧ Arr2.hcat [T, A] = .ok (.ofRow est.mean.toList) ∧
      T.ncol = E.wrapper.nTransients ∧ ∀ p x, pathName p ∉ E.wrapper.names → (IsParam asoh p x ↔ IsParam E.wrapper.asoh p x) := by
  have h := C57_state_converted_partial svd E fin hist outs hrun est out hlast
  rw [(Joint.run_inv svd hist E fin outs hrun).1] at h
  have hs : E.wrapper.hiddenConv.samples1 fin.state.mean = .ok est.mean := by
    simp only [Gaussian.convert, bind_eq_ok_iff, Bool.false_eq_true, if_false] at h
    obtain ⟨m, h1, c, _, h2⟩ := h
    unfold Gaussian.make at h2
    split at h2
    · cases h2; exact h1
    · cases h2
  obtain ⟨v, hv⟩ := Vec.eta_of hk
  rw [hv] at hs
  have hs2 := hop v _ hs
  obtain ⟨asoh, p1, p2, p3, p4⟩ := createInputs_parts E.wrapper hw hs2 hdim le_rfl (.inr rfl)
  have hup : ∀ n ∈ E.wrapper.names, n ∈ E.wrapper.asoh.allNames := fun n hn => updatable_subset (hw.names_updatable n hn)
  obtain ⟨A0, hA0, hA0n⟩ := hw.nAsoh_eq
  have htot : totalSize E.wrapper.asoh E.wrapper.names = E.wrapper.nAsoh := by rw [width_eq hw.asoh_wf hw.asoh_single hup hA0, hA0n]
  have hcol : ((Mat.ofRow est.mean).toArr2.cols E.wrapper.nTransients (Mat.ofRow est.mean).n).ncol = E.wrapper.nAsoh := by
    rw [Arr2.cols_ncol _ (by rw [Mat.toArr2_ncol])]
    show est.mean.n - _ = _
    omega
  obtain ⟨a', m1, _, _, _, _, _, m7, _⟩ := makeCopy_writes hw.asoh_wf hw.asoh_single hw.names_distinct hw.names_updatable
    (v := (Mat.ofRow est.mean).toArr2.cols E.wrapper.nTransients (Mat.ofRow est.mean).n) (by rw [htot, hcol])
    (by rw [Arr2.cols_nrow, Mat.toArr2_nrow]; exact le_rfl)
  cases p3.symm.trans m1
  refine ⟨_, asoh, _, _, ?_, p2, p4, ?_, ?_, m7⟩
  · rw [Joint.getEstimatedState, (Joint.run_inv svd hist E fin outs hrun).1, hv, p1]
    rfl
  · have := Arr2.hcat_cut (Mat.ofRow est.mean).toArr2 (k := E.wrapper.nTransients) (by rw [Mat.toArr2_ncol]; show _ ≤ est.mean.n; omega)
    refine this.trans (congrArg Except.ok ?_)
    apply Arr2.ext'
    · simp [Mat.toArr2, Mat.ofRow, Arr2.ofRow, Vec.toList]
    · simp [Mat.toArr2, Mat.ofRow, Arr2.ofRow, Vec.toList]
  · rw [Arr2.cols_ncol _ (by rw [Mat.toArr2_ncol]; show _ ≤ est.mean.n; omega)]
    rfl

namespace Demo

/-- Currents and voltages as the containers given to `step`. -/
def readings (hist : List (ℝ × ℝ)) : List (Container ℝ × Container ℝ) :=
  hist.map fun x => (⟨[(['i'], some (.ofRow [x.1]))]⟩, ⟨[(['v'], some (.ofRow [x.2]))]⟩)

/-- The estimator of the concrete wrapper runs through every history in any units, with positive definite covariances. -/
theorem joint_runs {op : Operator} {d b : Fin 2 → ℝ} (hd : ∀ i, d i ≠ 0) (hop : op.Rescales 2 d b) (svd : Mat → Vec × Mat)
    (hist : List (ℝ × ℝ)) (hne : hist ≠ []) : ∃ E fin outs est out,
    Joint.fromWrapper (joint op) (.inl ⟨2, 2, 1⟩) none (some ⟨2, 2, 1⟩) none none (some ⟨1, 1, 1⟩) ⟨1, none, 2⟩ = .ok E ∧
    E.run svd (readings hist) = .ok (fin, outs) ∧ outs.length = hist.length ∧ outs.getLast? = some (est, out) ∧
    E.wrapper = joint op ∧ ∃ m C, fin.state = ⟨⟨2, m⟩, ⟨2, 2, C⟩⟩ ∧ C.PosDef := by
  obtain ⟨E, hE, hwt⟩ := joint_built hd hop 1 1 1
  obtain ⟨E₀, hE₀, hw⟩ := joint_built (fun _ => one_ne_zero) (identity_rescales 2) 1 1 1
  obtain ⟨fin, fin₀, outs, h1, h2, h3⟩ := C56_joint_estimates_in_any_units (joint op) hd (fun _ => one_ne_zero) hop
    (identity_rescales 1) (nu := 1) (fun v _ => ⟨v, rfl, rfl⟩) (fun s u u' a _ _ => joint_rowWise s u u' a trivial trivial) le_rfl
    .one .one .one ⟨1, none, 2⟩ hE hE₀ hw ⟨.ofRow [1], rfl, rfl⟩ svd (readings hist) (by
      intro x hx
      obtain ⟨y, _, rfl⟩ := List.mem_map.1 hx
      exact ⟨⟨.ofRow [y.1], rfl, rfl⟩, .ofRow [y.2], rfl, rfl⟩)
  have hlen : outs.length = hist.length := by rw [h3, readings, List.length_map]
  obtain ⟨⟨est, out⟩, hlast⟩ : ∃ x, outs.getLast? = some x := by
    cases h : outs.getLast? with
    | some x => exact ⟨x, rfl⟩
    | none =>
      rw [List.getLast?_eq_none_iff] at h
      rw [h] at hlen
      exact absurd (List.length_eq_zero_iff.1 hlen.symm) hne
  refine ⟨E, fin, outs, est, out, hE, h1, hlen, hlast, ?_⟩
  obtain ⟨u, T, A, g0, g, u', q, r, f, a1, a2, a3, a4, a5, a6, a7, a8, a9, hw, hf⟩ := Joint.fromWrapper_ok hE
  refine ⟨hw, ?_⟩
  -- the filter and its run
  obtain ⟨μ, hμ⟩ := rescale_surj (r := b) hd ![3, 5]
  have hT : T = .ofRow [3] := (Except.ok.inj a2).symm
  have hA : A = .ofRow [5] := (Except.ok.inj a3).symm
  subst hT hA
  have hmean : Vec.append (Arr2.ofRow [(3 : ℝ)]).flat (Arr2.ofRow [(5 : ℝ)]).flat = ⟨2, ![3, 5]⟩ := by
    refine Vec.ext_at rfl fun i hi => ?_
    have : i < 2 := hi
    interval_cases i <;> rfl
  rw [hmean, Gaussian.make_of (by decide)] at a4
  cases a4
  obtain ⟨C, hC, hC1⟩ := rescaleCov_surj hd (C := (1 : Matrix (Fin 2) (Fin 2) ℝ)) .one
  have e1 : op.invCovariance ⟨2, 2, 1⟩ ⟨2, ![3, 5]⟩ = .ok ⟨2, 2, C⟩ := by rw [← hC1]; exact hop.invCovariance C _
  have e2 : op.invCovariance ⟨2, 2, 1⟩ (.zeros 2) = .ok ⟨2, 2, C⟩ := by rw [← hC1]; exact hop.invCovariance C _
  have e3 : op.invSamples1 ⟨2, ![3, 5]⟩ = .ok ⟨2, μ⟩ := by rw [← hμ]; exact hop.invSamples1 μ
  cases (Gaussian.unconvert_ok (g := ⟨⟨2, ![3, 5]⟩, ⟨2, 2, 1⟩⟩) (by decide) e3 e1).symm.trans a5
  cases e2.symm.trans a7
  have e4 : r = ⟨1, 1, 1⟩ := (Except.ok.inj a8).symm
  subst e4
  have hF := Ukf.holds_of_make _ _ _ _ _ _ (by decide) a9
  obtain ⟨p1, -⟩ := Ukf.C53_constructed _ _ _ _ _ _ _ _ _ a9
  obtain ⟨_, _, fh, fouts, r1, r2, r3⟩ := Joint.run_inv svd _ _ _ _ h1
  rw [hf] at r1 hwt
  have hro : E.wrapper.outputConv = .identity := by rw [hw]; rfl
  rw [readings, List.forall₂_map_left_iff, hro] at r2
  obtain ⟨f', outs', s1, s2, s3⟩ := Ukf.history_rowwise (joint_rowWise' (rescale d b) hop.samples2 hop.invSamples2) hC .one le_rfl svd fh
    (fun _ _ => trivial) (by
      intro x hx
      obtain ⟨y, u, z, _, hz1, _, hz2⟩ := forall₂_left r2.flip x hx
      cases hz1
      have hz2 : Except.ok (Dist.delta ⟨(Arr2.ofRow [y.2]).flat⟩) = .ok x.2 := hz2
      rw [← Except.ok.inj hz2]
      rfl) f μ C p1 hF hC hwt trivial trivial
  cases s1.symm.trans r1
  obtain ⟨x, hx, _⟩ := forall₂_getLast? r3 hlast
  obtain ⟨m, P', _, S, t1, t2, _⟩ := s3 x (List.mem_of_getLast? hx)
  exact ⟨m, P', (Ukf.run_last svd fh _ _ _ r1 x hx).trans t1, t2⟩

end Demo

/-- The hypotheses of the three theorems above are met after every history of the concrete estimator, here in units of 1/4 and -3. -/
example (svd : Mat → Vec × Mat) (hist : List (ℝ × ℝ)) (hne : hist ≠ []) : ∃ op b E fin outs est out, op.Rescales 2 ![1 / 4, -3] b ∧
    Joint.fromWrapper (Demo.joint op) (.inl ⟨2, 2, 1⟩) none (some ⟨2, 2, 1⟩) none none (some ⟨1, 1, 1⟩) ⟨1, none, 2⟩ = .ok E ∧
    E.run svd (Demo.readings hist) = .ok (fin, outs) ∧ outs.getLast? = some (est, out) ∧ E.wrapper.Ready ∧
    E.wrapper.hiddenConv.RowConsistent 2 ∧ fin.state.mean.n = 2 ∧ est.mean.n = E.wrapper.nTransients + E.wrapper.nAsoh := by
  obtain ⟨pinv, hpinv⟩ := exists_pinv
  have hd : ∀ i, (![1 / 4, -3] : Fin 2 → ℝ) i ≠ 0 := by intro i; fin_cases i <;> norm_num
  obtain ⟨b', hb'⟩ := factors_rescales hpinv ![1 / 4, -3] hd ⟨1, ![1]⟩ (.inr rfl)
  obtain ⟨E, fin, outs, est, out, h1, h2, _, h3, h4, m, C, h5, hC⟩ := Demo.joint_runs hd hb' svd hist hne
  have h := C57_state_converted_partial svd E fin _ outs h2 est out h3
  rw [(Joint.run_inv svd _ E fin outs h2).1, h4, h5, Gaussian.convert_ok (by decide) (hb'.samples1 m) (hb'.covariance C _)] at h
  cases h
  exact ⟨_, b', E, fin, outs, _, out, hb', h1, h2, h3, h4 ▸ Demo.joint_ready _, h4 ▸ hb'.rowConsistent, by rw [h5], by rw [h4]; rfl⟩

/-- `state` is not the estimate that `step` returned: with a factor of 2 on the hidden state they differ after every history. -/
theorem C57_state_not_converted (svd : Mat → Vec × Mat) (hist : List (ℝ × ℝ)) (hne : hist ≠ []) : ∃ E fin outs est out,
    Joint.fromWrapper (Demo.joint (.linearScalar 2 ⟨1, ![0]⟩)) (.inl ⟨2, 2, 1⟩) none (some ⟨2, 2, 1⟩) none none (some ⟨1, 1, 1⟩)
      ⟨1, none, 2⟩ = .ok E ∧
    E.run svd (Demo.readings hist) = .ok (fin, outs) ∧ outs.getLast? = some (est, out) ∧ fin.state ≠ est := by
  obtain ⟨b, hb⟩ := scalar_rescales (k := 2) 2 two_ne_zero ⟨1, ![0]⟩ (.inr rfl)
  obtain ⟨E, fin, outs, est, out, h1, h2, _, h3, h4, m, C, h5, hC⟩ := Demo.joint_runs (fun _ => two_ne_zero) hb svd hist hne
  refine ⟨E, fin, outs, est, out, h1, h2, h3, fun heq => ?_⟩
  have h := C57_state_converted_partial svd E fin _ outs h2 est out h3
  rw [(Joint.run_inv svd _ E fin outs h2).1, h4, ← heq, h5, Gaussian.convert_ok (by decide) (hb.samples1 m) (hb.covariance C _)] at h
  have h := congrArg (fun g => match g with | .ok (g : Gaussian) => g.cov.at' 0 0 | .error (_ : Err) => 0) h
  simp only at h
  have e1 : ∀ A : Matrix (Fin 2) (Fin 2) ℝ, Mat.at' ⟨2, 2, A⟩ 0 0 = A 0 0 := fun A => Mat.at_fin A 0 0
  rw [e1, e1] at h
  have hpos := hC.diag_pos (i := 0)
  simp only [rescaleCov] at h
  linarith

/-! ## Dual estimators and their filters -/

theorem Gaussian.make_ok {m : Vec} {c : Mat} {g : Gaussian} (h : Gaussian.make m c = .ok g) : g.Valid ∧ g.mean = m ∧ g.cov = c := by
  unfold Gaussian.make at h
  split at h
  · cases h
    rename_i hc
    exact ⟨⟨hc.1, by simp only; omega, by simp only; omega⟩, rfl, rfl⟩
  · cases h

theorem Gaussian.convert_valid {g r : Gaussian} {op : Operator} {inv : Bool} (h : g.convert op inv = .ok r) : r.Valid := by
  unfold Gaussian.convert at h
  cases inv
  all_goals
    simp only [bind_eq_ok_iff, Bool.false_eq_true, if_false, if_true] at h
    obtain ⟨_, _, _, _, h⟩ := h
    exact (Gaussian.make_ok h).1

/-- What one successful step of the dual estimator consists of. -/
theorem Dual.step_ok {svd : Mat → Vec × Mat} {e e' : Dual} {inputs meas : Container ℝ} {est out : Gaussian}
    (h : e.step svd inputs meas = .ok (e', est, out)) : ∃ u y prevT prevA uT yT uA yA rt ra t a outA,
    convertVals inputs none = .ok u ∧ convertVals meas none = .ok y ∧ e.getEstimatedState = .ok (prevT, prevA) ∧
    u.convert e.cellW.controlConv true = .ok uT ∧ y.convert e.cellW.outputConv true = .ok yT ∧
    Ukf.step svd { e.trans with mem := prevA } uT yT = .ok rt ∧
    u.convert e.asohW.controlConv true = .ok uA ∧ y.convert e.asohW.outputConv true = .ok yA ∧
    Ukf.step svd { e.asoh with mem := (prevT, e.asoh.mem.2) } uA yA = .ok ra ∧
    rt.2.1.convert e.cellW.hiddenConv = .ok t ∧ ra.2.1.convert e.asohW.hiddenConv = .ok a ∧ rt.2.2.convert e.cellW.outputConv = .ok out ∧
    ra.2.2.convert e.asohW.outputConv = .ok outA ∧ t.combine [a] = .ok est ∧ e' = { e with trans := rt.1, asoh := ra.1 } := by
  simp only [Dual.step, bind_eq_ok_iff, pure_eq_ok, Except.ok.injEq, Prod.mk.injEq] at h
  obtain ⟨u, h1, y, h2, ⟨pT, pA⟩, h3, uT, h4, yT, h5, rt, h6, uA, h7, yA, h8, ra, h9, t, h10, a, h11, o, h12, oA, h13, g, h14, rfl, rfl, rfl⟩ := h
  exact ⟨u, y, pT, pA, uT, yT, uA, yA, rt, ra, t, a, oA, h1, h2, h3, h4, h5, h6, h7, h8, h9, h10, h11, h12, h13, h14, rfl⟩

theorem Ukf.step_hidden {σ : Type} {svd : Mat → Vec × Mat} {f : Ukf σ} {new meas : Dist} {r} (h : f.step svd new meas = .ok r) :
    r.1.hidden = r.2.1 ∧ r.1.controls = new ∧ r.1.model = f.model := by
  simp only [Ukf.step, bind_eq_ok_iff, pure_eq_ok, Except.ok.injEq] at h
  obtain ⟨_, _, p, _, g, _, rfl⟩ := h
  exact ⟨rfl, rfl, rfl⟩

/-! ## C58 -/

/-- C58 fails: `state` raises for every dual estimator, at any time (AttributeError when the conversions themselves do not raise). -/
theorem C58_state_always_raises (e : Dual) : (∃ err, e.state = .error err) ∧ ∀ c, e.converted = .ok c → e.state = .error .attributeError := by
  have h : ∀ c, e.converted = .ok c → e.state = .error .attributeError := by
    intro c hc
    simp only [Dual.state, hc, ok_bind]
    rfl
  refine ⟨?_, h⟩
  cases hc : e.converted with
  | ok c => exact ⟨_, h c hc⟩
  | error err => exact ⟨err, by simp only [Dual.state, hc, error_bind]⟩

/-- C58, for what `step` returns: the transient estimate followed by the estimate of the state of health, both in model coordinates, and
without correlation between the two.  Missing: `state` does not return it. -/
theorem C58_returned_estimate_partial (svd : Mat → Vec × Mat) (e e' : Dual) (inputs meas : Container ℝ) (est out : Gaussian)
    (h : e.step svd inputs meas = .ok (e', est, out)) : ∃ t a,
    e'.trans.hidden.convert e'.cellW.hiddenConv = .ok t ∧ e'.asoh.hidden.convert e'.asohW.hiddenConv = .ok a ∧
    est.mean.toList = t.mean.toList ++ a.mean.toList ∧ est.cov.m = t.mean.n + a.mean.n ∧ est.cov.n = t.mean.n + a.mean.n ∧
    (∀ p q, p < t.mean.n → q < t.mean.n → est.cov.at' p q = t.cov.at' p q) ∧
    (∀ p q, p < a.mean.n → q < a.mean.n → est.cov.at' (t.mean.n + p) (t.mean.n + q) = a.cov.at' p q) ∧
    ∀ p q, p < t.mean.n → q < a.mean.n → est.cov.at' p (t.mean.n + q) = 0 ∧ est.cov.at' (t.mean.n + q) p = 0 := by
  obtain ⟨u, y, pT, pA, uT, yT, uA, yA, rt, ra, t, a, oA, h1, h2, h3, h4, h5, h6, h7, h8, h9, h10, h11, h12, h13, h14, rfl⟩ := Dual.step_ok h
  obtain ⟨g, hg, hv, hd, hm, hc⟩ := C44_combine_gaussians t [a] (by
    intro x hx
    simp only [List.mem_cons, List.not_mem_nil, or_false] at hx
    rcases hx with rfl | rfl
    · exact Gaussian.convert_valid h10
    · exact Gaussian.convert_valid h11)
  cases hg.symm.trans h14
  have hd' : est.mean.n = t.mean.n + a.mean.n := by simpa [Gaussian.dim] using hd
  refine ⟨t, a, ?_, ?_, by simpa using hm, hv.rows.trans hd', hv.cols.trans hd', ?_, ?_, ?_⟩
  · rw [(Ukf.step_hidden h6).1]; exact h10
  · rw [(Ukf.step_hidden h9).1]; exact h11
  · intro p q hp hq
    simpa [offset, Gaussian.dim] using hc 0 0 (by simp) (by simp) p q hp hq
  · intro p q hp hq
    simpa [offset, Gaussian.dim] using hc 1 1 (by simp) (by simp) p q hp hq
  · intro p q hp hq
    refine ⟨?_, ?_⟩
    · simpa [offset, Gaussian.dim] using hc 0 1 (by simp) (by simp) p q hp hq
    · simpa [offset, Gaussian.dim] using hc 1 0 (by simp) (by simp) q p hq hp

/-! ## C61 -/

/-- One step of dual estimation in the other order: the state of health first, and then the transient states, both with the estimates from
before the step. -/
noncomputable def Spec.otherOrder (svd : Mat → Vec × Mat) (e : Dual) (inputs meas : Container ℝ) : Except Err (Dual × Gaussian × Gaussian) := do
  let u ← convertVals inputs none
  let y ← convertVals meas none
  let prev ← e.getEstimatedState
  let ra ← Ukf.step svd { e.asoh with mem := (prev.1, e.asoh.mem.2) } (← u.convert e.asohW.controlConv true)
    (← y.convert e.asohW.outputConv true)
  let rt ← Ukf.step svd { e.trans with mem := prev.2 } (← u.convert e.cellW.controlConv true) (← y.convert e.cellW.outputConv true)
  let _ ← ra.2.2.convert e.asohW.outputConv
  let out ← rt.2.2.convert e.cellW.outputConv
  let a ← ra.2.1.convert e.asohW.hiddenConv
  let t ← rt.2.1.convert e.cellW.hiddenConv
  return ({ e with trans := rt.1, asoh := ra.1 }, ← t.combine [a], out)

/-- Any number of steps in the other order. -/
noncomputable def Spec.otherOrderRun (svd : Mat → Vec × Mat) (e : Dual) :
    List (Container ℝ × Container ℝ) → Except Err (Dual × List (Gaussian × Gaussian))
  | [] => .ok (e, [])
  | (u, y) :: rest => do
    let r ← Spec.otherOrder svd e u y
    let s ← Spec.otherOrderRun svd r.1 rest
    return (s.1, r.2 :: s.2)

/-- C61.  The order of the two filters does not matter: a step succeeds in one order exactly when it succeeds in the other, with the same
estimator afterwards and the same returned values. -/
theorem C61_order_irrelevant (svd : Mat → Vec × Mat) (e : Dual) (inputs meas : Container ℝ) (r : Dual × Gaussian × Gaussian) :
    e.step svd inputs meas = .ok r ↔ Spec.otherOrder svd e inputs meas = .ok r := by
  obtain ⟨e', est, out⟩ := r
  constructor
  · intro h
    obtain ⟨u, y, pT, pA, uT, yT, uA, yA, rt, ra, t, a, oA, h1, h2, h3, h4, h5, h6, h7, h8, h9, h10, h11, h12, h13, h14, rfl⟩ := Dual.step_ok h
    simp only [Spec.otherOrder, h1, h2, h3, h4, h5, h6, h7, h8, h9, h10, h11, h12, h13, h14, ok_bind, pure_eq_ok]
  · intro h
    simp only [Spec.otherOrder, bind_eq_ok_iff, pure_eq_ok, Except.ok.injEq, Prod.mk.injEq] at h
    obtain ⟨u, h1, y, h2, prev, h3, uA, h4, yA, h5, ra, h6, uT, h7, yT, h8, rt, h9, oA, h10, o, h11, a, h12, t, h13, g, h14, rfl, rfl, rfl⟩ := h
    have h15 : t.combineWith [.dist a] = .ok g := h14
    simp only [Dual.step, h1, h2, h3, h4, h5, h6, h7, h8, h9, h10, h11, h12, h13, h15, ok_bind, pure_eq_ok]

/-- C61 over histories. -/
theorem C61_order_irrelevant_history (svd : Mat → Vec × Mat) (hist : List (Container ℝ × Container ℝ)) :
    ∀ (e : Dual) (r : Dual × List (Gaussian × Gaussian)), e.run svd hist = .ok r ↔ Spec.otherOrderRun svd e hist = .ok r := by
  induction hist with
  | nil => intro e r; rfl
  | cons x hist ih =>
    intro e r
    simp only [Dual.run, Spec.otherOrderRun, bind_eq_ok_iff]
    constructor
    · rintro ⟨s, h1, t, h2, h3⟩
      exact ⟨s, (C61_order_irrelevant ..).1 h1, t, (ih ..).1 h2, h3⟩
    · rintro ⟨s, h1, t, h2, h3⟩
      exact ⟨s, (C61_order_irrelevant ..).2 h1, t, (ih ..).2 h2, h3⟩

/-- C61.  What the filters see during a step: the transient filter's cell model has the state of health estimated before the step, the
filter of the state of health has the transient states estimated before the step; both are given the inputs and the measurement, each in
its own coordinates; otherwise neither depends on the other. -/
theorem C61_previous_posteriors (svd : Mat → Vec × Mat) (e e' : Dual) (inputs meas : Container ℝ) (est out : Gaussian)
    (h : e.step svd inputs meas = .ok (e', est, out)) : ∃ t a prevT prevA,
    e.trans.hidden.convert e.cellW.hiddenConv = .ok t ∧ e.asoh.hidden.convert e.asohW.hiddenConv = .ok a ∧
    prevT = e.base.transients.makeCopy t.mean.vals ∧ e.base.asoh.makeCopy a.mean.vals none = .ok prevA ∧
    ∃ u y uT yT uA yA outT outA, convertVals inputs none = .ok u ∧ convertVals meas none = .ok y ∧
      u.convert e.cellW.controlConv true = .ok uT ∧ y.convert e.cellW.outputConv true = .ok yT ∧
      u.convert e.asohW.controlConv true = .ok uA ∧ y.convert e.asohW.outputConv true = .ok yA ∧
      Ukf.step svd { e.trans with mem := prevA } uT yT = .ok (e'.trans, outT) ∧
      Ukf.step svd { e.asoh with mem := (prevT, e.asoh.mem.2) } uA yA = .ok (e'.asoh, outA) := by
  obtain ⟨u, y, pT, pA, uT, yT, uA, yA, rt, ra, t, a, oA, h1, h2, h3, h4, h5, h6, h7, h8, h9, h10, h11, h12, h13, h14, rfl⟩ := Dual.step_ok h
  simp only [Dual.getEstimatedState, Dual.converted, bind_eq_ok_iff, pure_eq_ok, Except.ok.injEq, Prod.mk.injEq] at h3
  obtain ⟨_, ⟨t0, k1, a0, k2, rfl⟩, pA', k3, rfl, rfl⟩ := h3
  exact ⟨t0, a0, _, _, k1, k2, rfl, k3, u, y, uT, yT, uA, yA, rt.2, ra.2, h1, h2, h4, h5, h7, h8, h6, h9⟩

/-- C61.  The returned estimate combines both new posteriors. -/
theorem C61_combines_new_posteriors (svd : Mat → Vec × Mat) (e e' : Dual) (inputs meas : Container ℝ) (est out : Gaussian)
    (h : e.step svd inputs meas = .ok (e', est, out)) : ∃ t a, e'.trans.hidden.convert e.cellW.hiddenConv = .ok t ∧
    e'.asoh.hidden.convert e.asohW.hiddenConv = .ok a ∧ t.combine [a] = .ok est := by
  obtain ⟨u, y, pT, pA, uT, yT, uA, yA, rt, ra, t, a, oA, h1, h2, h3, h4, h5, h6, h7, h8, h9, h10, h11, h12, h13, h14, rfl⟩ := Dual.step_ok h
  exact ⟨t, a, by rw [(Ukf.step_hidden h6).1]; exact h10, by rw [(Ukf.step_hidden h9).1]; exact h11, h14⟩

end Verif
