import Verif.Props.Estimators
/-!
# Dual estimators and the parameters they estimate: C59
-/

namespace Verif
open Matrix

/-! ## Lemmas -/

theorem makeCopy_d1 (m : HV ℝ) (l : List ℝ) (ns : Option (List Name)) : m.makeCopy (.d1 l) ns = m.makeCopy (.d2 (.ofRow l)) ns := rfl

theorem makeCopy_none (m : HV ℝ) (v : Vals ℝ) : m.makeCopy v none = m.makeCopy v (some m.updatableNames) := rfl

/-- Copies take values for all updatable parameters only. -/
theorem makeCopy_width {m m' : HV ℝ} (hw : m.WF) {v : Vals ℝ} (h : m.makeCopy v none = .ok m') :
    totalSize m m.updatableNames = v.to2d.ncol := by
  obtain ⟨k, _, _, _, _, h4⟩ := update_spec (v := v) hw (fun n hn => updatable_subset hn) (C02_names_distinct m hw).2
  rcases h4 with ⟨_, a1, _⟩ | ⟨_, a1⟩
  · exact a1
  · rw [makeCopy_none] at h
    unfold HV.makeCopy at h
    rcases hr : m.updateParameters v (some m.updatableNames) with ⟨x, e | _⟩
    · rw [hr] at h; cases h
    · rw [hr] at a1; cases a1

theorem totalSize_lt {m : HV ℝ} {ns : List Name} (hnd : ns.Nodup) (hsub : ∀ n ∈ ns, n ∈ m.updatableNames) {n : Name}
    (hn : n ∈ m.updatableNames) (hmiss : n ∉ ns) (hpos : 1 ≤ sizeAt m n) : totalSize m ns < totalSize m m.updatableNames := by
  have hsp : (n :: ns).Subperm m.updatableNames := List.subperm_of_subset (List.nodup_cons.2 ⟨hmiss, hnd⟩) (by
    intro x hx
    rcases List.mem_cons.1 hx with rfl | hx
    · exact hn
    · exact hsub x hx)
  obtain ⟨l, hl1, hl2⟩ := hsp
  have h1 : totalSize m l = totalSize m (n :: ns) := (hl1.map (sizeAt m)).sum_eq
  have h2 : totalSize m l ≤ totalSize m m.updatableNames := (hl2.map (sizeAt m)).sum_le_sum (fun _ _ => Nat.zero_le _)
  have h3 : totalSize m (n :: ns) = sizeAt m n + totalSize m ns := by simp [totalSize]
  omega

theorem fillFrom_keeps {fs : List (Name × Option (Arr2 ℝ))} (v : Arr2 ℝ) : ∀ pos, pos + ((Spec.held ⟨fs⟩).map fun p => p.2.ncol).sum ≤ v.ncol →
    (Container.fillFrom v pos fs).map (fun p => (p.1, p.2.map Arr2.ncol)) = fs.map fun p => (p.1, p.2.map Arr2.ncol) := by
  induction fs with
  | nil => intro pos _; rfl
  | cons f fs ih =>
    intro pos h
    obtain ⟨k, _ | a⟩ := f
    · have h' : pos + ((Spec.held ⟨fs⟩).map fun p => p.2.ncol).sum ≤ v.ncol := h
      rw [Container.fillFrom, List.map_cons, List.map_cons, ih pos h']
    · have h' : pos + (a.ncol + ((Spec.held ⟨fs⟩).map fun p => p.2.ncol).sum) ≤ v.ncol := h
      rw [Container.fillFrom, List.map_cons, List.map_cons, ih _ (by omega), Option.map_some, Option.map_some, Arr2.cols_ncol _ (by omega)]
      simp

/-- Copies with values for every column have the layout of the original. -/
theorem makeCopy_sameLayout {c : Container ℝ} (hc : c.WF) {v : Vals ℝ} (h : v.to2d.ncol = c.len) : Spec.SameLayout (c.makeCopy v) c :=
  fillFrom_keeps _ 0 ((Nat.zero_add _).le.trans ((len_eq hc.1).symm.le.trans h.ge))

theorem Dual.allClose_self (A : Mat) : Dual.allClose A A = .ok true := by
  obtain ⟨m, n, A⟩ := A
  unfold Dual.allClose
  rw [Mat.bop_of, ok_bind, pure_eq_ok]
  refine congrArg Except.ok (decide_eq_true fun i j => if_pos ?_)
  have h : |A i j - A i j| = 0 := by rw [sub_self, abs_zero]
  have h' : (0 : ℝ) ≤ 1 / 10 ^ 8 + 1 / 10 ^ 5 * |A i j| := by positivity
  exact h.le.trans h'

/-- What `initialize_ukf_from_wrappers` produces. -/
theorem Dual.fromWrappers_ok {cw : CellWrapper} {aw : DegradationWrapper} {covT covA : Mat} {ic nT nA s : Option Mat} {tT tA : Tuning} {E : Dual}
    (h : Dual.fromWrappers cw aw covT covA ic nT nA s tT tA = .ok E) : ∃ T A t a gt ga,
    cw.transients.toNumpy = .ok T ∧ aw.asoh.getParameters (some aw.names) = .ok A ∧ Gaussian.make T.flat covT = .ok t ∧
    Gaussian.make A.flat covA = .ok a ∧ t.convert cw.hiddenConv true = .ok gt ∧ a.convert aw.hiddenConv true = .ok ga ∧
    E.trans.hidden = gt ∧ E.asoh.hidden = ga ∧ E.cellW = cw ∧ E.asohW = aw ∧ E.trans.model = cw.toWrapper ∧ E.asoh.model = aw.toWrapper ∧
    E.trans.mem = cw.asoh ∧ E.asoh.mem = (aw.transients, aw.inputs) ∧
    Online.make cw.cell aw.asoh cw.transients cw.inputs aw.names = .ok E.base := by
  simp only [Dual.fromWrappers, bind_eq_ok_iff, Dual.make, pure_eq_ok] at h
  obtain ⟨it, h1, ia, h2, c, h3, h⟩ := h
  cases c with
  | false => cases h
  | true =>
    simp only [Bool.not_true, Bool.false_eq_true, if_false, bind_eq_ok_iff, Except.ok.injEq] at h
    obtain ⟨u, _, T, hT, t, ht, A, hA, a, ha, gt, hgt, ut, _, qt, _, rt, _, ft, hft, ga, hga, ua, _, qa, _, ra, _, fa, hfa, o, ho, rfl⟩ := h
    obtain ⟨b1, b2, b3, _⟩ := Ukf.C53_constructed _ _ _ _ _ _ _ _ _ hft
    obtain ⟨c1, c2, c3, _⟩ := Ukf.C53_constructed _ _ _ _ _ _ _ _ _ hfa
    exact ⟨T, A, t, a, gt, ga, hT, hA, ht, ha, hgt, hga, b3, c3, rfl, rfl, b1, c1, b2, c2, ho⟩

theorem Online.make_ok {cell : Cell} {asoh : HV ℝ} {tr inp : Container ℝ} {ns : List Name} {o : Online} (h : Online.make cell asoh tr inp ns = .ok o) :
    o.cell = cell ∧ o.asoh = asoh ∧ o.transients = tr ∧ o.inputs = inp ∧ o.names = ns := by
  simp only [Online.make, bind_eq_ok_iff] at h
  obtain ⟨y, _, yn, _, bt, _, h⟩ := h
  split at h
  · cases h
  · simp only [bind_eq_ok_iff] at h
    obtain ⟨ba, _, h⟩ := h
    split at h
    · cases h
    · cases h; exact ⟨rfl, rfl, rfl, rfl, rfl⟩

/-! ## C59 -/

/-- C59 fails: if some updatable parameter with at least one value is not estimated, the estimator can be built, but its estimates cannot be
read and no step succeeds. -/
theorem C59_strict_subset_raises (cw : CellWrapper) (aw : DegradationWrapper) (covT covA : Mat) (ic nT nA s : Option Mat) (tT tA : Tuning)
    (E : Dual) (hE : Dual.fromWrappers cw aw covT covA ic nT nA s tT tA = .ok E) (hwf : aw.asoh.WF) (hu : Spec.Unbatched aw.asoh)
    (hnd : aw.names.Nodup) (hup : ∀ n ∈ aw.names, n ∈ aw.asoh.updatableNames) (p : List Name) (x : Arr2 ℝ) (hp : IsMarked aw.asoh p x)
    (hmiss : pathName p ∉ aw.names) (hcol : 1 ≤ x.ncol) {k : Nat} {d b : Fin k → ℝ} (hd : ∀ i, d i ≠ 0) (hconv : aw.hiddenConv.Rescales k d b)
    (A : Arr2 ℝ) (hA : aw.asoh.getParameters (some aw.names) = .ok A) (hk : A.ncol = k) :
    (∃ err, E.getEstimatedState = .error err) ∧ ∀ svd inputs meas, ∃ err, E.step svd inputs meas = .error err := by
  have key : ∀ r, E.getEstimatedState ≠ .ok r := by
    rintro ⟨tr, asoh⟩ h
    obtain ⟨T, A', t, a, gt, ga, e1, e2, e3, e4, e5, e6, e7, e8, e9, e10, e11, e12, e13, e14, e15⟩ := Dual.fromWrappers_ok hE
    cases e2.symm.trans hA
    obtain ⟨_, o2, _, _, _⟩ := Online.make_ok e15
    simp only [Dual.getEstimatedState, Dual.converted, bind_eq_ok_iff, pure_eq_ok, Except.ok.injEq, Prod.mk.injEq] at h
    obtain ⟨_, ⟨t', _, a', h1, rfl⟩, _, h2, _, rfl⟩ := h
    rw [o2] at h2
    have hwid : totalSize aw.asoh aw.asoh.updatableNames = a'.mean.vals.to2d.ncol := makeCopy_width hwf h2
    -- the estimate has as many values as parameters were selected
    have hall : ∀ n ∈ aw.names, n ∈ aw.asoh.allNames := fun n hn => updatable_subset (hup n hn)
    have hb : aw.asoh.batchSize = .ok 1 := ((C12_batch_size aw.asoh fun p a hp => by rw [hu p a hp]).1 1).2
      ⟨fun p a hp => .inl (hu p a hp), .inl rfl⟩
    have hrow : A.nrow = 1 := by
      obtain ⟨A'', hA'', hr⟩ := C12_vector_has_batch_rows aw.asoh hwf (fun p a hp => by rw [hu p a hp]) 1 hb aw.names hall
      cases hA''.symm.trans hA
      exact hr
    have hflat : A.flat.n = k := by
      obtain ⟨r, hr⟩ := List.length_eq_one_iff.1 hrow
      have := A.wf r (by rw [hr]; simp)
      simp [Arr2.flat, hr, this, hk]
    obtain ⟨_, m1, m2⟩ := Gaussian.make_ok e4
    obtain ⟨v, hv⟩ := Vec.eta_of hflat
    obtain ⟨v', hv'⟩ := rescale_surj (r := b) hd v
    have hga : ga.mean = ⟨k, v'⟩ := by
      simp only [Gaussian.convert, if_true, bind_eq_ok_iff] at e6
      obtain ⟨m, q1, c, _, q2⟩ := e6
      rw [m1, hv, ← hv', hconv.invSamples1] at q1
      cases q1
      exact (Gaussian.make_ok q2).2.1
    have ha' : a'.mean.n = k := by
      simp only [Gaussian.convert, Bool.false_eq_true, if_false, bind_eq_ok_iff] at h1
      obtain ⟨m, q1, c, _, q2⟩ := h1
      rw [e8, hga, e10, hconv.samples1] at q1
      cases q1
      rw [(Gaussian.make_ok q2).2.1]
    have hc : (a'.mean.vals.to2d).ncol = k := by simp [Vec.vals, Vals.to2d, Arr2.ofRow, ha']
    have hlt := totalSize_lt (m := aw.asoh) hnd hup (mem_updatableNames.2 ⟨p, x, hp, rfl⟩) hmiss (by
      rw [sizeAt_unbatched hwf hu hp.isParam]; exact hcol)
    rw [width_eq hwf hu hall hA] at hlt
    omega
  have hg : ∃ err, E.getEstimatedState = .error err := by
    cases h : E.getEstimatedState with
    | ok r => exact absurd h (key r)
    | error e => exact ⟨e, rfl⟩
  refine ⟨hg, fun svd inputs meas => ?_⟩
  cases h : E.step svd inputs meas with
  | error e => exact ⟨e, rfl⟩
  | ok r =>
    obtain ⟨e', est, out⟩ := r
    obtain ⟨_, _, pT, pA, _, _, _, _, _, _, _, _, _, _, _, h3, _⟩ := Dual.step_ok h
    exact absurd h3 (key _)

/-- C59 when all updatable parameters are estimated in their own order: the estimates are placed in exactly those parameters.  Missing: any
other selection. -/
theorem C59_all_parameters_partial (e : Dual) (hwf : e.base.asoh.WF) (hu : Spec.Unbatched e.base.asoh) (htr : e.base.transients.WF)
    (hheld : Spec.held e.base.transients ≠ []) (t a : Gaussian) (ht : e.trans.hidden.convert e.cellW.hiddenConv = .ok t)
    (ha : e.asoh.hidden.convert e.asohW.hiddenConv = .ok a) (hlen : t.mean.n = e.base.transients.len)
    (A : Arr2 ℝ) (hA : e.base.asoh.getParameters none = .ok A) (hwid : a.mean.n = A.ncol) :
    ∃ transients asoh, e.getEstimatedState = .ok (transients, asoh) ∧ transients.toNumpy = .ok (.ofRow t.mean.toList) ∧
      Spec.SameLayout transients e.base.transients ∧
      asoh.getParameters (some e.base.asoh.updatableNames) = .ok (.ofRow a.mean.toList) ∧
      ∀ p x, pathName p ∉ e.base.asoh.updatableNames → (IsParam asoh p x ↔ IsParam e.base.asoh p x) := by
  have hb : e.base.asoh.batchSize = .ok 1 := ((C12_batch_size e.base.asoh fun p a hp => by rw [hu p a hp]).1 1).2
    ⟨fun p a hp => .inl (hu p a hp), .inl rfl⟩
  have hA' : e.base.asoh.getParameters (some e.base.asoh.updatableNames) = .ok A := hA
  have hlist : ∀ v : Vec, v.vals.to2d = .ofRow v.toList := fun v => rfl
  have hl1 : ∀ v : Vec, (Arr2.ofRow v.toList).ncol = v.n := fun v => by simp [Arr2.ofRow, Vec.toList]
  obtain ⟨asoh, m1, m2, m3, _, m5, m6, m7, m8⟩ := makeCopy_writes hwf hu (C02_names_distinct _ hwf).2 (fun n hn => hn)
    (v := .ofRow a.mean.toList) (by rw [width_eq hwf hu (fun n hn => updatable_subset hn) hA', hl1, hwid]) le_rfl
  refine ⟨e.base.transients.makeCopy t.mean.vals, asoh, ?_, ?_, ?_, (m8 (.inr rfl)).2, m7⟩
  · have : e.base.asoh.makeCopy a.mean.vals none = .ok asoh := m1
    simp only [Dual.getEstimatedState, Dual.converted, ht, ha, this, ok_bind, pure_eq_ok]
  · exact C14_from_numpy_then_to_numpy _ htr hheld t.mean.vals (by rw [hlist, hl1, hlen])
  · exact makeCopy_sameLayout htr (by rw [hlist, hl1, hlen])

/-! ## Concrete estimators -/

/-- A dual estimator without conversions can be built from a cell wrapper and a degradation wrapper of fitting sizes. -/
theorem Dual.built_plain {cw : CellWrapper} {aw : DegradationWrapper} (c1 : cw.hiddenConv = .identity) (c2 : cw.controlConv = .identity)
    (c3 : cw.outputConv = .identity) (c4 : aw.hiddenConv = .identity) (c5 : aw.controlConv = .identity) (c6 : aw.outputConv = .identity)
    (hin : aw.inputs = cw.inputs) {I T A : Arr2 ℝ} (hI : cw.inputs.toNumpy = .ok I) (hT : cw.transients.toNumpy = .ok T)
    (hA : aw.asoh.getParameters (some aw.names) = .ok A) {nT nA o : Nat} (hnT : 1 ≤ nT) (hnA : 1 ≤ nA) {μT : Fin nT → ℝ} {μA : Fin nA → ℝ}
    (hTf : T.flat = ⟨nT, μT⟩) (hAf : A.flat = ⟨nA, μA⟩) (hwT : cw.nTransients = nT) (hwA : aw.nAsoh = nA) (hoT : cw.nOut = o)
    (hoA : aw.nOut = o) (hsT : 2 * nT + o ≤ 9) (hsA : 2 * nA + o ≤ 9) {base : Online}
    (hbase : Online.make cw.cell aw.asoh cw.transients cw.inputs aw.names = .ok base) (PT QT : Matrix (Fin nT) (Fin nT) ℝ)
    (PA QA : Matrix (Fin nA) (Fin nA) ℝ) (R : Matrix (Fin o) (Fin o) ℝ) :
    ∃ ft fa, Dual.fromWrappers cw aw ⟨nT, nT, PT⟩ ⟨nA, nA, PA⟩ none (some ⟨nT, nT, QT⟩) (some ⟨nA, nA, QA⟩) (some ⟨o, o, R⟩) ⟨1, none, 2⟩
        ⟨1, none, 2⟩ = .ok ⟨base, cw, aw, ft, fa⟩ ∧
      ft.Holds nT o μT PT QT R ∧ fa.Holds nA o μA PA QA R ∧ ft.model = cw.toWrapper ∧ fa.model = aw.toWrapper ∧ ft.mem = cw.asoh ∧
      fa.mem = (aw.transients, aw.inputs) ∧ ft.controls = .delta ⟨I.flat⟩ ∧ fa.controls = .delta ⟨I.flat⟩ ∧
      (∀ i, 0 ≤ ft.covWeights.get i) ∧ ∀ i, 0 ≤ fa.covWeights.get i := by
  have build : ∀ {σ : Type} (w : Wrapper σ) (mem : σ) {n : Nat} (_ : 1 ≤ n) (μ : Fin n → ℝ) (P Q : Matrix (Fin n) (Fin n) ℝ),
      w.nHidden = n → w.nOut = o → 2 * n + o ≤ 9 → ∃ f, Ukf.make w mem ⟨⟨n, μ⟩, ⟨n, n, P⟩⟩ (.delta ⟨I.flat⟩) (some ⟨n, n, Q⟩)
        (some ⟨o, o, R⟩) 1 none 2 = .ok f ∧ f.Holds n o μ P Q R ∧ f.model = w ∧ f.mem = mem ∧ f.controls = .delta ⟨I.flat⟩ ∧
        ∀ i, 0 ≤ f.covWeights.get i := by
    intro σ w mem n hn μ P Q h1 h2 h3
    subst h1 h2
    rcases Ukf.make_eq w mem ⟨⟨_, μ⟩, ⟨_, _, P⟩⟩ (.delta ⟨I.flat⟩) (some ⟨_, _, Q⟩) (some ⟨_, _, R⟩) 1 none 2 with ⟨_, W, V, h, _⟩ | ⟨hc, _⟩
    · have hh := Ukf.holds_of_make _ _ _ _ _ _ hn h
      obtain ⟨b1, b2, b3, b4, _⟩ := Ukf.C53_constructed _ _ _ _ _ _ _ _ _ h
      refine ⟨_, h, hh, b1, b2, b4, fun i => ?_⟩
      have hL : ((2 * w.nHidden + w.nOut : Nat) : ℝ) ≤ 9 := by exact_mod_cast h3
      simp only [Ukf.covWeights, Ukf.meanWeights, Ukf.lambda, Option.getD_none]
      have e : (1 : ℝ) * 1 * ((2 * w.nHidden + w.nOut : Nat) + (3 - (2 * w.nHidden + w.nOut : Nat))) = 3 := by ring
      rw [e]
      split
      · have : (3 - ((2 * w.nHidden + w.nOut : Nat) : ℝ)) / 3 + (1 - 1 * 1 + 2) = (9 - ((2 * w.nHidden + w.nOut : Nat) : ℝ)) / 3 := by ring
        rw [this]
        exact div_nonneg (by linarith) (by norm_num)
      · norm_num
    · refine absurd ⟨rfl, by norm_num, by norm_num, by norm_num, nofun, ?_, ?_⟩ hc
      · rintro _ ⟨⟩; exact ⟨rfl, rfl⟩
      · rintro _ ⟨⟩; exact ⟨rfl, rfl⟩
  obtain ⟨ft, t1, t2, t3, t4, t5, t6⟩ := build cw.toWrapper cw.asoh hnT μT PT QT hwT hoT hsT
  obtain ⟨fa, a1, a2, a3, a4, a5, a6⟩ := build aw.toWrapper (aw.transients, aw.inputs) hnA μA PA QA hwA hoA hsA
  refine ⟨ft, fa, ?_, t2, a2, t3, a3, t4, a4, t5, a5, t6, a6⟩
  have cv : convertVals cw.inputs none = .ok (.delta ⟨I.flat⟩) := by simp only [convertVals, hI, ok_bind, pure_eq_ok]
  have ci : ∀ d : Dist, d = .delta ⟨I.flat⟩ → d.convert .identity true = .ok d := by rintro _ rfl; rfl
  have cg : ∀ {n : Nat} (_ : 1 ≤ n) (μ : Fin n → ℝ) (P : Matrix (Fin n) (Fin n) ℝ),
      Gaussian.convert ⟨⟨n, μ⟩, ⟨n, n, P⟩⟩ .identity true = .ok ⟨⟨n, μ⟩, ⟨n, n, P⟩⟩ :=
    fun hn μ P => Gaussian.unconvert_ok hn rfl rfl
  have cn : ∀ M : Mat, noiseToFilter .identity (some M) = .ok (some M) := fun _ => rfl
  simp only [Dual.fromWrappers, hin, hI, hT, hA, Dual.allClose_self, cv, c1, c2, c3, c4, c5, c6, ci, hTf, hAf, Gaussian.make_of hnT,
    Gaussian.make_of hnA, cg hnT, cg hnA, cn, t1, a1, ok_bind, Dual.make, hbase, pure_eq_ok, Bool.not_true, Bool.false_eq_true, if_false]
  rw [hin] at a1
  simp only [a1, ok_bind]

end Verif
