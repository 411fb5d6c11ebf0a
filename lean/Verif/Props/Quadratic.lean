import Verif.Proofs.Quadratic
import Verif.Props.StatisticsPossible
/-!
# Predicted outputs are the ones to be expected, also where they are quadratic (C147)
-/

namespace Verif
open Ecm Cell Spec Matrix MeasureTheory

/-! ## Proofs -/

theorem quadratic_after {n o : Nat} {next : (Fin n → ℝ) → Fin n → ℝ} {out : (Fin n → ℝ) → Fin o → ℝ} (hn : ∀ i, AffineFn fun y => next y i)
    (ho : ∀ i, Quadratic fun y => out y i) (i : Fin o) :
    Quadratic fun z : Fin (n + n) → ℝ => out (next (fun j => z (Fin.castAdd n j)) + fun j => z (Fin.natAdd n j)) i :=
  (ho i).comp (G := fun z => next (fun j => z (Fin.castAdd n j)) + fun j => z (Fin.natAdd n j)) fun j =>
    ((hn j).comp fun k => .coord (Fin.castAdd n k)).add (.coord (Fin.natAdd n j))

theorem quadratic_before {n o : Nat} {next : (Fin n → ℝ) → Fin n → ℝ} {out : (Fin n → ℝ) → Fin o → ℝ} (hn : ∀ i, Quadratic fun y => next y i)
    (ho : ∀ i, AffineFn fun y => out y i) (i : Fin o) :
    Quadratic fun z : Fin (n + n) → ℝ => out (next (fun j => z (Fin.castAdd n j)) + fun j => z (Fin.natAdd n j)) i := by
  obtain ⟨L, c, e⟩ := ho i
  have hg : ∀ j, Quadratic fun z : Fin (n + n) → ℝ => next (fun j => z (Fin.castAdd n j)) j + z (Fin.natAdd n j) := fun j =>
    ((hn j).comp (G := fun z j => z (Fin.castAdd n j)) fun k => .coord (Fin.castAdd n k)).add (.of_affine (.coord (Fin.natAdd n j)))
  refine ((Quadratic.sum Finset.univ fun j => (hg j).mul (L j)).add (.of_affine (.const c))).congr fun z => ?_
  exact e _

/-- One whole step. -/
theorem Ukf.Holds.expected_step {σ : Type} {f : Ukf σ} {n o : Nat} {μ : Fin n → ℝ} {P Q : Matrix (Fin n) (Fin n) ℝ} {R : Matrix (Fin o) (Fin o) ℝ}
    (h : f.Holds n o μ P Q R) (hP : P.PosDef) (hQ : Q.PosDef) (hR : R.PosDef) (ho : 1 ≤ o) (hw : ∀ i, 0 ≤ f.covWeights.get i) (svd : Mat → Vec × Mat)
    (new meas : Dist) {z : Fin o → ℝ} (hz : meas.mean = ⟨o, z⟩) {g : (Fin n → ℝ) → Fin n → ℝ} {k : (Fin n → ℝ) → Fin o → ℝ} {m : σ}
    (hY : ∀ K, 1 ≤ K → ∀ X : Matrix (Fin K) (Fin n) ℝ, f.model.update f.mem ⟨K, n, X⟩ f.controls.mean new.mean = .ok (⟨K, n, fun i => g (X i)⟩, m))
    (hZ : ∀ K, 1 ≤ K → ∀ X : Matrix (Fin K) (Fin n) ℝ, f.model.predict m ⟨K, n, X⟩ new.mean = .ok ⟨K, o, fun i => k (X i)⟩)
    (hq : ∀ i, Quadratic fun z : Fin (n + n) → ℝ => k (g (fun j => z (Fin.castAdd n j)) + fun j => z (Fin.natAdd n j)) i) :
    ∃ (b : Belief n) (y : Belief o), f.step svd new meas = .ok ({ f with hidden := b.gaussian, mem := m, controls := new }, (b.gaussian, y.gaussian)) ∧
      b.cov.PosDef ∧ y.cov.PosDef ∧ ExpectedOutput g k Q ⟨μ, P⟩ y.mean := by
  obtain ⟨L, hL⟩ := exists_isCholesky (augCov_posDef hP hQ hR)
  have hJ := h.rowwise_joint (h.wc0_nonneg hw) hL g k
  obtain ⟨hs, hpd⟩ := h.step_of hP hQ hR ho svd hL new meas z hz (hY _ (by omega) _) (hZ _ (by omega) _) _ _ _ _ _ rfl rfl rfl rfl rfl hJ
  obtain ⟨sigma, p, y, e1, e2, e3, e4⟩ := h.expected hP hQ hR ho svd new hY hZ hq
  cases (h.buildSigma_of svd (ensurePsd_posDef svd (augCov_posDef hP hQ hR)) hL).symm.trans e1
  cases (h.estimation_of ho (sigmaPts (augMean o μ) f.gamma Lᵀ) new (hY _ (by omega) _) (hZ _ (by omega) _)).symm.trans e2
  cases e3
  exact ⟨⟨_, _⟩, ⟨_, _⟩, hs, hpd, (posDef_blocks hJ).2, e4⟩

section
variable {w : JointWrapper} {beh : Behavior} {x : Fixed} {measured series : Bool} {a : ASOH}

section
variable {m : HV ℝ} {ns : List Name} {N d : Nat}

/-- The value of a curve at an SOC, both among the numbers of the cell. -/
theorem curve_quadratic {k : List Name} {h : Interp} {c : (Fin N → ℝ) → Interp}
    (hr : ∀ y, CurveRel (Ecm.below (valueRel m ns ((List.ofFn y).drop d)) k) h (c y)) (hc : Curve 1 h)
    (hs : Curved ns (k ++ [kBase]) h) {s : (Fin N → ℝ) → ℝ} (hsoc : AffineFn s) :
    Quadratic fun y => curveAt (c y) 0 (s y) := by
  rcases hs with ⟨hp, α, β, γ, e⟩ | h1 | ⟨hst, hwd, hlen, hnd⟩
  · refine (((Quadratic.of_affine (.const α)).add ((Quadratic.of_affine hsoc).mul β)).add ((Quadratic.prod hsoc hsoc).mul γ)).congr fun y => ?_
    rw [curve_same (hr y) hp, e]
    ring
  · exact .of_affine (curve_joint hr hc (.inr h1) hsoc)
  · obtain ⟨p0, p1, hpins⟩ := List.length_eq_two.1 hlen
    rw [hpins] at hnd
    have hne : p1 - p0 ≠ 0 := sub_ne_zero.2 fun e => by simp [e] at hnd
    by_cases hp : pathName (k ++ [kBase]) ∈ ns
    · let i := d + (firstOf m ns (pathName (k ++ [kBase])) + 0)
      let j := d + (firstOf m ns (pathName (k ++ [kBase])) + 1)
      have hd : AffineFn fun y : Fin N → ℝ => (List.ofFn y).getD j 0 + -1 * (List.ofFn y).getD i 0 := (AffineFn.entry j).add ((AffineFn.entry i).mul (-1))
      have hq : AffineFn fun y : Fin N → ℝ => (1 / (p1 - p0)) * (s y + -p0) := (hsoc.add (.const _)).mul _
      refine ((Quadratic.of_affine (.entry i)).add (.prod hd hq)).congr fun y => ?_
      obtain ⟨⟨y1, y2, e1, e2, g1, -, -, -, g5⟩, q1, q2⟩ := hr y
      have hw : y1.ncol = 2 := by
        rw [← hwd]
        simp only [Interp.width, e1, Arr2.toNd, List.getD_cons_succ, List.getD_cons_zero]
      have wd : (c y).width = 2 := by
        simp only [Interp.width, e2, Arr2.toNd, g1, List.getD_cons_succ, List.getD_cons_zero, hw]
      have hpin : (c y).pinsUsed = [p0, p1] := by rw [← hpins, Interp.pinsUsed, Interp.pinsUsed, q1, wd, hwd]
      have v0 : (c y).base.get [0, 0] = (List.ofFn y).getD i 0 := by
        rw [e2]
        refine (g5 hp 0 (by rw [hw]; decide)).trans ?_
        simp [i, List.getD_eq_getElem?_getD, List.getElem?_drop]
      have v1 : (c y).base.get [0, 1] = (List.ofFn y).getD j 0 := by
        rw [e2]
        refine (g5 hp 1 (by rw [hw]; decide)).trans ?_
        simp [j, List.getD_eq_getElem?_getD, List.getElem?_drop]
      have hrow : (c y).row 0 = [(List.ofFn y).getD i 0, (List.ofFn y).getD j 0] := by
        rw [Interp.row, wd, ← v0, ← v1]
        rfl
      have := linInterp_line (xs := [p0, p1]) (ys := [(List.ofFn y).getD i 0, (List.ofFn y).getD j 0])
        (α := (List.ofFn y).getD i 0 - ((List.ofFn y).getD j 0 - (List.ofFn y).getD i 0) / (p1 - p0) * p0)
        (β := ((List.ofFn y).getD j 0 - (List.ofFn y).getD i 0) / (p1 - p0)) rfl hnd (le_refl 2) (fun p hp => by
          simp only [List.zip_cons_cons, List.zip_nil_right, List.mem_cons, List.not_mem_nil, or_false] at hp
          rcases hp with rfl | rfl
          · show _ = _ - _ * p0 + _ * p0
            ring
          · show _ = _ - _ * p0 + _ * p1
            field_simp
            ring) (s y)
      have e : curveAt (c y) 0 (s y) = linInterp [p0, p1] [(List.ofFn y).getD i 0, (List.ofFn y).getD j 0] (s y) := by
        simp only [curveAt, ite_self]
        rw [if_neg (by rw [wd]; decide), q2, hst, hpin, hrow]
        rfl
      rw [e, this]
      ring
    · have hl : OnLine h := .inr ⟨hst, hwd.ge, hlen.trans hwd.symm, hpins ▸ hnd,
        h.base.get [0, 0] - (h.base.get [0, 1] - h.base.get [0, 0]) / (p1 - p0) * p0, (h.base.get [0, 1] - h.base.get [0, 0]) / (p1 - p0), fun p hp => by
          have hrow : h.row 0 = [h.base.get [0, 0], h.base.get [0, 1]] := by rw [Interp.row, hwd]; rfl
          rw [hpins, hrow] at hp
          simp only [List.zip_cons_cons, List.zip_nil_right, List.mem_cons, List.not_mem_nil, or_false] at hp
          rcases hp with rfl | rfl
          · show _ = _ - _ * p0 + _ * p0
            ring
          · show _ = _ - _ * p0 + _ * p1
            field_simp
            ring⟩
      exact .of_affine (curve_joint hr hc (.inl ⟨hl, hp⟩) hsoc)

theorem joint_volt_quadratic {P : (Fin N → ℝ) → Par} {p : Par} (hp : Straight p) (hc0 : ∀ y, (P y).c0 = p.c0) (hrcs : ∀ y, (P y).rcs = p.rcs) {new : In}
    (hz : p.ocv = fun _ _ => 0) (hz' : p.r0 = fun _ _ => 0)
    (hocv : Quadratic fun y => (P y).ocv ((List.ofFn y).getD 0 0) new.temp) (hr0 : Quadratic fun y => (P y).r0 ((List.ofFn y).getD 0 0) new.temp) :
    Quadratic fun y : Fin N → ℝ => volt new (St.ofVec series p.rcs.length (List.ofFn y)) (P y) := by
  refine ((hocv.add (hr0.mul new.current)).add (.of_affine (cellVolt_affine (series := series) hp new 0))).congr fun y => ?_
  simp only [cellVolt, volt, hc0, hrcs, hz, hz']
  show (P y).ocv ((List.ofFn y).getD 0 0) new.temp + _ * (P y).r0 ((List.ofFn y).getD 0 0) new.temp + _ + _ + _ = _
  ring

end

theorem joint_quadratic (hc : EstimatesCircuit w beh x measured series a) (hs : JointlyCurved w.names a) (prev new : In) :
    (∀ i, AffineFn fun y : Fin (w.nTransients + w.nAsoh) → ℝ => jointStep w x beh series a.rcs.length prev new y i) ∧
    ∀ i, Quadratic fun y : Fin (w.nTransients + w.nAsoh) → ℝ => jointVolt w x series a.rcs.length new y i := by
  choose m b h1 h2 h3 using joint_values hc
  choose o1 o2 o3 o4 o5 o6 o7 using fun y => par_others (h3 y) hs.only
  have hex : ∀ y : Fin (w.nTransients + w.nAsoh) → ℝ, ∃ p, CellWith w x ((List.ofFn y).drop w.nTransients) p := fun y => ⟨_, m y, b y, h1 y, h2 y, rfl⟩
  have hch : ∀ y, (hex y).choose = parAt (b y) 0 := fun y => CellWith.unique (hex y).choose_spec ⟨m y, b y, h1 y, h2 y, rfl⟩
  let p : Par := { parAt a 0 with ocv := fun _ _ => 0, r0 := fun _ _ => 0, hystMax := fun _ => 0 }
  have hlen : p.rcs.length = a.rcs.length := by simp [p, parAt]
  have flat : ∀ {h : Interp}, h.width = 1 → ∀ s, curveAt h 0 s = curveAt h 0 0 := fun hw s => by simp [curveAt, hw]
  have hp : Straight p := by
    refine ⟨fun t => ⟨0, fun s => by simp [p]⟩, fun t => ⟨0, fun s => by simp [p]⟩, ⟨0, fun s => by simp [p]⟩, fun c hc' s => ?_, fun rc hrc s => ?_,
      ⟨hs.divisors.qt, hs.divisors.rcs, hs.divisors.c0⟩⟩
    · obtain ⟨c', hc'', rfl⟩ := Option.mem_map.1 hc'
      exact flat (hs.c0 c' hc'') s
    · obtain ⟨rc', hrc', rfl⟩ := List.mem_map.1 hrc
      refine ⟨fun t => ?_, flat (hs.rcs rc' hrc').2 s⟩
      cases t with
      | none => exact flat (hs.rcs rc' hrc').1 s
      | some t => simp only [resAt]; rw [flat (hs.rcs rc' hrc').1 s]
  have hT : w.nTransients = 1 + (if series then 1 else 0) + p.rcs.length + 1 := by rw [hlen]; exact circuit_width hc
  have hsoc : AffineFn fun y : Fin (w.nTransients + w.nAsoh) → ℝ => (List.ofFn y).getD 0 0 := .entry 0
  constructor
  · intro i
    refine (joint_step_affine (beh := beh) (series := series) (P := fun y => parAt (b y) 0) hp o1 o2 o4 o5
      (curve_joint (fun y => (h3 y).hyst) hc.single.hyst hs.hyst hsoc) (by omega) prev new i).congr fun y => ?_
    simp only [jointStep, dif_pos (hex y), hch]
    rw [← hT, hlen]
  · intro i
    have hr := curve_quadratic (fun y => (h3 y).ref) hc.single.ref hs.ref hsoc
    have hn := curve_quadratic (fun y => (h3 y).ent) hc.single.ent hs.ent hsoc
    have h0 := curve_quadratic (fun y => (h3 y).r0.1) hc.single.r0.1 hs.r0 hsoc
    refine (joint_volt_quadratic (series := series) (P := fun y => parAt (b y) 0) (new := new) hp o3 o4 rfl rfl ?_ ?_).congr fun y => ?_
    · cases hT : new.temp with
      | none => exact hr
      | some t =>
        refine (hr.add (hn.mul (t - at2 a.ocv.refTemp 0))).congr fun z => ?_
        show curveAt (b z).ocv.ref 0 _ + (t - at2 (b z).ocv.refTemp 0) * curveAt (b z).ocv.ent 0 _ = _
        rw [o6]
    · cases hT : new.temp with
      | none => exact h0
      | some t =>
        refine (h0.mul (Real.exp (-at2 a.r0.tdf 0 * (t - a.r0.refTemp)))).congr fun z => ?_
        show curveAt (b z).r0.interp 0 _ * Real.exp (-at2 (b z).r0.tdf 0 * (t - (b z).r0.refTemp)) = _
        rw [o7, (h3 z).r0.2.1, mul_comm]
    · simp only [jointVolt, dif_pos (hex y), hch]
      rw [hlen]

/-- What the wrapper computes for the sigma points. -/
theorem joint_rows (hc : EstimatesCircuit w beh x measured series a) (he : Estimable w.names measured series a)
    (u u' : Fin (2 + (if measured then 1 else 0)) → ℝ)
    (hmoves : beh = .linear → (In.ofVec measured (List.ofFn u')).time ≠ (In.ofVec measured (List.ofFn u)).time) {K : Nat} (hK : 1 ≤ K)
    (X : Matrix (Fin K) (Fin (w.nTransients + w.nAsoh)) ℝ) :
    w.plain.update ⟨K, _, X⟩ ⟨_, u⟩ ⟨_, u'⟩ =
      .ok ⟨K, _, fun i => jointStep w x beh series a.rcs.length (In.ofVec measured (List.ofFn u)) (In.ofVec measured (List.ofFn u')) (X i)⟩ ∧
    w.plain.predict ⟨K, _, X⟩ ⟨_, u'⟩ = .ok ⟨K, 1, fun i => jointVolt w x series a.rcs.length (In.ofVec measured (List.ofFn u')) (X i)⟩ := by
  constructor
  · obtain ⟨k1, k2, -⟩ := circuit_update hc hK X (v := ⟨_, u⟩) (v' := ⟨_, u'⟩) rfl rfl
    obtain ⟨H, hH⟩ := k2 hmoves he
    obtain ⟨Z, rfl, hZ⟩ := k1 H hH
    rw [hH]
    refine congrArg (fun Z => Except.ok (Mat.mk K (w.nTransients + w.nAsoh) Z)) (funext fun i => ?_)
    obtain ⟨p, hp, e⟩ := hZ i
    exact List.ofFn_injective (e.trans ((joint_cell hc _ _ (X i)).2 p hp).1.symm)
  · obtain ⟨k1, k2⟩ := circuit_predict hc hK X (v := ⟨_, u'⟩) rfl
    obtain ⟨H, hH⟩ := k2 he
    obtain ⟨Z, rfl, hZ⟩ := k1 H hH
    rw [hH]
    refine congrArg (fun Z => Except.ok (Mat.mk K 1 Z)) (funext fun i => ?_)
    obtain ⟨p, hp, e⟩ := hZ i
    funext j
    obtain rfl : j = 0 := Subsingleton.elim _ _
    exact e.trans ((joint_cell (beh := beh) hc ⟨0, 0, none⟩ _ (X i)).2 p hp).2.symm

/-! ## C147 -/

/-- C147, the hypotheses on random states can be met: for every estimate with a positive definite covariance and every noise with one there are such a
state and such a noise. -/
theorem C147_possible {n : Nat} {Q : Matrix (Fin n) (Fin n) ℝ} {b : Belief n} (hP : b.cov.PosDef) (hQ : Q.PosDef) :
    ∃ (Ω : Type) (_ : MeasurableSpace Ω) (ℙ : Measure Ω) (X W : Ω → Fin n → ℝ), IsProbabilityMeasure ℙ ∧
      Spread ℙ (fun ω => X ω - b.mean) b.cov ∧ Spread ℙ W Q ∧ Uncorrelated ℙ (fun ω => X ω - b.mean) W := by
  obtain ⟨Ω, i, ℙ, e, ds, h1, h2, h3⟩ := C144_possible (o := n) hP hQ hQ [()]
  obtain ⟨d, rfl⟩ : ∃ d, ds = [d] := List.length_eq_one_iff.1 (by simpa using congrArg List.length h2)
  refine ⟨Ω, i, ℙ, fun ω => b.mean + e ω, d.2.1, h1, ?_, h3.state d (by simp), ?_⟩
  · simpa only [add_sub_cancel_left] using h3.first
  · simpa only [add_sub_cancel_left] using (h3.apart d (by simp)).1

/-- C147, for any model that acts on every state by itself, with states one step later that are affine and outputs that are quadratic functions, or the
other way round: the filter predicts the output to be expected from its estimate, and this is what a step returns. -/
theorem C147_predicts {σ : Type} {f : Ukf σ} {n o : Nat} {μ : Fin n → ℝ} {P Q : Matrix (Fin n) (Fin n) ℝ} {R : Matrix (Fin o) (Fin o) ℝ}
    (h : f.Holds n o μ P Q R) (hP : P.PosDef) (hQ : Q.PosDef) (hR : R.PosDef) (ho : 1 ≤ o) (svd : Mat → Vec × Mat) (new : Dist)
    {next : (Fin n → ℝ) → Fin n → ℝ} {out : (Fin n → ℝ) → Fin o → ℝ} {m : σ}
    (hY : ∀ K, 1 ≤ K → ∀ X : Matrix (Fin K) (Fin n) ℝ, f.model.update f.mem ⟨K, n, X⟩ f.controls.mean new.mean = .ok (⟨K, n, fun i => next (X i)⟩, m))
    (hZ : ∀ K, 1 ≤ K → ∀ X : Matrix (Fin K) (Fin n) ℝ, f.model.predict m ⟨K, n, X⟩ new.mean = .ok ⟨K, o, fun i => out (X i)⟩)
    (hq : ((∀ i, AffineFn fun y => next y i) ∧ ∀ i, Quadratic fun y => out y i) ∨ ((∀ i, Quadratic fun y => next y i) ∧ ∀ i, AffineFn fun y => out y i)) :
    ∃ sigma p y, f.buildSigma svd = .ok sigma ∧ f.estimationUpdate sigma new = .ok p ∧ p.y.mean = ⟨o, y⟩ ∧ ExpectedOutput next out Q ⟨μ, P⟩ y ∧
      ∀ meas f' b r, f.step svd new meas = .ok (f', (b, r)) → r.mean = ⟨o, y⟩ := by
  obtain ⟨sigma, p, y, h1, h2, h3, h4⟩ := h.expected hP hQ hR ho svd new hY hZ (hq.elim (fun h => quadratic_after h.1 h.2) fun h => quadratic_before h.1 h.2)
  refine ⟨sigma, p, y, h1, h2, h3, h4, fun meas f' b r hs => ?_⟩
  rw [Ukf.step, h1, ok_bind, h2, ok_bind] at hs
  obtain ⟨q, -, hs⟩ := bind_eq_ok_iff.1 hs
  cases hs
  exact h3

-- The output is the square of the only hidden number, which stays: mean 1 and variance 1, with noise of variance 1, make it 3 on average.
example {f : Ukf Unit} (h : f.Holds 1 1 ![1] 1 1 1) (svd : Mat → Vec × Mat) (new meas : Dist) (hY : ∀ K, 1 ≤ K → ∀ X : Matrix (Fin K) (Fin 1) ℝ,
    f.model.update f.mem ⟨K, 1, X⟩ f.controls.mean new.mean = .ok (⟨K, 1, fun i => X i⟩, ()))
    (hZ : ∀ K, 1 ≤ K → ∀ X : Matrix (Fin K) (Fin 1) ℝ, f.model.predict () ⟨K, 1, X⟩ new.mean = .ok ⟨K, 1, fun i => ![X i 0 ^ 2]⟩)
    {f' b r} (hs : f.step svd new meas = .ok (f', (b, r))) : r.mean = ⟨1, ![3]⟩ := by
  obtain ⟨_, _, y, -, -, -, h1, h2⟩ := C147_predicts h .one .one .one le_rfl svd new (next := fun x => x) (out := fun x => ![x 0 ^ 2]) hY hZ
    (.inl ⟨fun i => .coord i, fun i => (Quadratic.prod (.coord 0) (.coord 0)).congr fun y => by fin_cases i; simp [sq]⟩)
  rw [h2 meas f' b r hs]
  obtain ⟨Ω, _, ℙ, X, W, _, k1, k2, k3⟩ := C147_possible (b := ⟨![1], 1⟩) (Q := 1) .one .one
  have e := (h1 Ω ℙ X W k1 k2 k3 0).2
  refine congrArg (Vec.mk 1) (funext fun i => ?_)
  obtain rfl : i = 0 := Subsingleton.elim _ _
  rw [← e]
  have i1 : Integrable (fun ω => (X ω 0 - 1) * (X ω 0 - 1)) ℙ := (k1.square 0).integrable_mul (k1.square 0)
  have i2 : Integrable (fun ω => W ω 0 * W ω 0) ℙ := (k2.square 0).integrable_mul (k2.square 0)
  have i3 : Integrable (fun ω => (X ω 0 - 1) * W ω 0) ℙ := (k1.square 0).integrable_mul (k2.square 0)
  have i4 : Integrable (fun ω => X ω 0 - 1) ℙ := (k1.square 0).integrable (by norm_num)
  have i5 : Integrable (fun ω => W ω 0) ℙ := (k2.square 0).integrable (by norm_num)
  have c1 : ∫ ω, (X ω 0 - 1) * (X ω 0 - 1) ∂ℙ = 1 := k1.cov 0 0
  have c2 : ∫ ω, W ω 0 * W ω 0 ∂ℙ = 1 := k2.cov 0 0
  have c3 : ∫ ω, (X ω 0 - 1) * W ω 0 ∂ℙ = 0 := k3 0 0
  have c4 : ∫ ω, X ω 0 - 1 ∂ℙ = 0 := k1.mean 0
  have c5 : ∫ ω, W ω 0 ∂ℙ = 0 := k2.mean 0
  have eq : (fun ω => ![(X ω + W ω) 0 ^ 2] (0 : Fin 1)) = fun ω => (X ω 0 - 1) * (X ω 0 - 1) + (W ω 0 * W ω 0 + (2 * ((X ω 0 - 1) * W ω 0) +
      (2 * (X ω 0 - 1) + (2 * W ω 0 + 1)))) := funext fun ω => by
    show (X ω 0 + W ω 0) ^ 2 = _
    ring
  rw [eq]
  have j5 : Integrable (fun ω => 2 * W ω 0 + 1) ℙ := (i5.const_mul 2).add (integrable_const (μ := ℙ) (1 : ℝ))
  have j4 : Integrable (fun ω => 2 * (X ω 0 - 1) + (2 * W ω 0 + 1)) ℙ := (i4.const_mul 2).add j5
  have j3 : Integrable (fun ω => 2 * ((X ω 0 - 1) * W ω 0) + (2 * (X ω 0 - 1) + (2 * W ω 0 + 1))) ℙ := (i3.const_mul 2).add j4
  have j2 : Integrable (fun ω => W ω 0 * W ω 0 + (2 * ((X ω 0 - 1) * W ω 0) + (2 * (X ω 0 - 1) + (2 * W ω 0 + 1)))) ℙ := i2.add j3
  rw [integral_add i1 j2, integral_add i2 j3, integral_add (i3.const_mul 2) j4, integral_add (i4.const_mul 2) j5,
    integral_add (i5.const_mul 2) (integrable_const _), integral_const_mul, integral_const_mul, integral_const_mul, c1, c2, c3, c4, c5]
  simp
  norm_num

/-- C147, circuits of which values of the open-circuit voltage, of R0 and of the maximum hysteresis are estimated: states one step later are affine and
voltages quadratic functions of the numbers of the cell.  Every list of numbers stands for exactly one cell, whose state one step later and whose
voltage these are. -/
theorem C147_quadratic (hc : EstimatesCircuit w beh x measured series a) (hs : JointlyCurved w.names a) (prev new : In) :
    (∀ y : Fin (w.nTransients + w.nAsoh) → ℝ, (∃ p, CellWith w x ((List.ofFn y).drop w.nTransients) p) ∧
      ∀ p, CellWith w x ((List.ofFn y).drop w.nTransients) p →
        List.ofFn (jointStep w x beh series a.rcs.length prev new y) =
          (step beh prev new (St.ofVec series a.rcs.length (List.ofFn y)) p).toVec ++ (List.ofFn y).drop w.nTransients ∧
        jointVolt w x series a.rcs.length new y 0 = volt new (St.ofVec series a.rcs.length (List.ofFn y)) p) ∧
    (∀ i, AffineFn fun y : Fin (w.nTransients + w.nAsoh) → ℝ => jointStep w x beh series a.rcs.length prev new y i) ∧
    ∀ i, Quadratic fun y : Fin (w.nTransients + w.nAsoh) → ℝ => jointVolt w x series a.rcs.length new y i :=
  ⟨joint_cell hc prev new, joint_quadratic hc hs prev new⟩

/-- C147, histories: the filter runs through every history, and every predicted voltage is the one to be expected from the estimate before. -/
theorem C147_history (hc : EstimatesCircuit w beh x measured series a) (he : Estimable w.names measured series a) (hs : JointlyCurved w.names a)
    {Q : Matrix (Fin (w.nTransients + w.nAsoh)) (Fin (w.nTransients + w.nAsoh)) ℝ} {R : Matrix (Fin 1) (Fin 1) ℝ}
    (hQ : Q.PosDef) (hR : R.PosDef) (svd : Mat → Vec × Mat) (hist : List (Dist × Dist)) :
    ∀ (zs : List ((Fin (2 + (if measured then 1 else 0)) → ℝ) × (Fin 1 → ℝ))) (f : Ukf Unit) (u : Fin (2 + (if measured then 1 else 0)) → ℝ)
      (b : Belief (w.nTransients + w.nAsoh)),
      f.model = w.plain.toWrapper → f.Holds (w.nTransients + w.nAsoh) 1 b.mean b.cov Q R → b.cov.PosDef → (∀ i, 0 ≤ f.covWeights.get i) →
      f.controls.mean = ⟨_, u⟩ → HasMeans hist (zs.map fun z => (⟨_, z.1⟩, z.2)) →
      (beh = .linear → ((In.ofVec measured (List.ofFn u)).time :: zs.map fun z => (In.ofVec measured (List.ofFn z.1)).time).IsChain (· ≠ ·)) →
      ∃ f' outs, f.run svd hist = .ok (f', outs.map fun r => (r.1.gaussian, r.2.gaussian)) ∧ (∀ r ∈ outs, r.1.cov.PosDef ∧ r.2.cov.PosDef) ∧
        ExpectedOutputs (fun prev new => jointStep w x beh series a.rcs.length prev new) (fun new => jointVolt w x series a.rcs.length new) Q
          (In.ofVec measured (List.ofFn u)) b (zs.map fun z => In.ofVec measured (List.ofFn z.1)) outs := by
  induction hist with
  | nil =>
    intro zs f u b hf h hP hwt hu hmeans hmoves
    cases zs with
    | nil => exact ⟨f, [], rfl, nofun, trivial⟩
    | cons z zs => cases hmeans
  | cons d hist ih =>
    intro zs f u b hf h hP hwt hu hmeans hmoves
    cases zs with
    | nil => cases hmeans
    | cons z zs =>
      obtain ⟨new, meas⟩ := d
      obtain ⟨u', z⟩ := z
      cases hmeans with
      | cons hd hrest =>
      have rows := fun {K} (hK : 1 ≤ K) X => joint_rows (x := x) hc he u u' (fun hb => (List.isChain_cons_cons.1 (hmoves hb)).1.symm) (K := K) hK X
      obtain ⟨q1, q2⟩ := joint_quadratic hc hs (In.ofVec measured (List.ofFn u)) (In.ofVec measured (List.ofFn u'))
      obtain ⟨b', y, hstep, p1, p2, p3⟩ := h.expected_step hP hQ hR le_rfl hwt svd new meas hd.2 (m := f.mem)
        (g := jointStep w x beh series a.rcs.length (In.ofVec measured (List.ofFn u)) (In.ofVec measured (List.ofFn u')))
        (k := jointVolt w x series a.rcs.length (In.ofVec measured (List.ofFn u')))
        (fun K hK X => by
          rw [hf, hu, hd.1]
          show (do return (← w.plain.update ⟨K, _, X⟩ ⟨_, u⟩ ⟨_, u'⟩, ()) : Except Err (Mat × Unit)) = _
          rw [(rows hK X).1]
          rfl)
        (fun K hK X => by
          rw [hf, hd.1]
          exact (rows hK X).2)
        (quadratic_after q1 q2)
      obtain ⟨f', outs, r1, r2, r3⟩ := ih zs { f with hidden := b'.gaussian, controls := new } u' b' hf (h.after _ _ _ new) p1 hwt hd.1 hrest
        fun hb => (List.isChain_cons_cons.1 (hmoves hb)).2
      refine ⟨f', (b', y) :: outs, ?_, ?_, p3, r3⟩
      · rw [Ukf.run, hstep, ok_bind]
        simp only []
        rw [r1, ok_bind]
        rfl
      · intro r hr
        rcases List.mem_cons.1 hr with rfl | hr
        · exact ⟨p1, p2⟩
        · exact r2 r hr

/-- The weights of an estimator that has been built. -/
theorem joint_weights {E : Joint} {P Q R : Mat} {tune : Tuning} (ho : w.nOut = 1) (htune : Tuned tune (2 * (w.nTransients + w.nAsoh) + 1))
    (h : Joint.fromWrapper w (.inl P) none (some Q) none none (some R) tune = .ok E) : ∀ i, 0 ≤ E.filter.covWeights.get i := by
  obtain ⟨_, _, _, _, _, _, _, _, f, -, -, -, -, -, -, -, -, a9, -, hf⟩ := Joint.fromWrapper_ok h
  obtain ⟨-, -, -, -, q5, q6, q7, q8, q9, -⟩ := Ukf.C53_constructed _ _ _ _ _ _ _ _ _ a9
  rw [hf]
  have hL : f.augLen = 2 * (w.nTransients + w.nAsoh) + 1 := by
    rw [q7]
    show 2 * (w.nTransients + w.nAsoh) + w.nOut = _
    rw [ho]
  refine weights_nonneg htune hL q5 q6 ?_
  cases hk : tune.kappa with
  | none =>
    have := q9 hk
    rw [hL] at this
    rw [Option.getD_none]
    linarith
  | some k => rw [q8 k hk, Option.getD_some]

/-- C147, from construction: the estimator that `initialize_ukf_from_wrapper` builds, with any positive definite covariances and any tuning that makes no
weight negative, starts from the values of the templates and runs through every history; every predicted voltage is the one to be expected from
the estimate before, the first from that it is built with. -/
theorem C147_runs (hc : EstimatesCircuit w beh x measured series a) (he : Estimable w.names measured series a) (hs : JointlyCurved w.names a)
    (hid : w.plain = w) (ht : w.transients.Single) (hi : w.inputs.Single) (ho : w.nOut = 1)
    {P Q : Matrix (Fin (w.nTransients + w.nAsoh)) (Fin (w.nTransients + w.nAsoh)) ℝ} {R : Matrix (Fin 1) (Fin 1) ℝ}
    (hP : P.PosDef) (hQ : Q.PosDef) (hR : R.PosDef) {tune : Tuning} (htune : Tuned tune (2 * (w.nTransients + w.nAsoh) + 1)) :
    ∃ (E : Joint) (u : Fin (2 + (if measured then 1 else 0)) → ℝ) (y : Fin (w.nTransients + w.nAsoh) → ℝ) (U T A : Arr2 ℝ),
      Joint.fromWrapper w (.inl ⟨_, _, P⟩) none (some ⟨_, _, Q⟩) none none (some ⟨1, 1, R⟩) tune = .ok E ∧
      (w.inputs.toNumpy = .ok U ∧ U.flat = ⟨_, u⟩) ∧
      (w.transients.toNumpy = .ok T ∧ w.asoh.getParameters (some w.names) = .ok A ∧ T.flat.append A.flat = ⟨_, y⟩) ∧
      ∀ (svd : Mat → Vec × Mat) (hist : List (Container ℝ × Container ℝ)) (zs : List ((Fin (2 + (if measured then 1 else 0)) → ℝ) × (Fin 1 → ℝ))),
        List.Forall₂ (fun m h => (∃ v, m.1.toNumpy = .ok v ∧ v.flat = ⟨_, h.1⟩) ∧ ∃ y, m.2.toNumpy = .ok y ∧ y.flat = ⟨1, h.2⟩) hist zs →
        (beh = .linear → ((In.ofVec measured (List.ofFn u)).time :: zs.map fun z => (In.ofVec measured (List.ofFn z.1)).time).IsChain (· ≠ ·)) →
        ∃ fin outs, E.run svd hist = .ok (fin, outs.map fun r => (r.1.gaussian, r.2.gaussian)) ∧ (∀ r ∈ outs, r.1.cov.PosDef ∧ r.2.cov.PosDef) ∧
          ExpectedOutputs (fun prev new => jointStep w x beh series a.rcs.length prev new) (fun new => jointVolt w x series a.rcs.length new) Q
            (In.ofVec measured (List.ofFn u)) ⟨y, P⟩ (zs.map fun z => In.ofVec measured (List.ofFn z.1)) outs := by
  have hcc : w.controlConv = .identity := by rw [← hid]; rfl
  have hoc : w.outputConv = .identity := by rw [← hid]; rfl
  have hhc : w.hiddenConv = .identity := by rw [← hid]; rfl
  have hn : 1 ≤ w.nTransients + w.nAsoh := by have := circuit_width hc; omega
  obtain ⟨V, hV, hVn, -⟩ := circuit_inputs hc hi
  obtain ⟨u, hu⟩ := Vec.eta_of hVn
  obtain ⟨T, A, y, hT, hA, hy, -⟩ := createInputs_own w hc.ready ht
  obtain ⟨E, hE⟩ := joint_built_of w hc.ready ht ho hn (fun _ => one_ne_zero) (fun _ => one_ne_zero) (by rw [hhc]; exact identity_rescales _)
    (by rw [hoc]; exact identity_rescales _) (fun v _ => ⟨v, by rw [hcc]; rfl, by rw [hcc]; rfl⟩) hP hQ hR tune htune.alpha htune.beta htune.kappa
    ⟨V, hV, hVn⟩ (circuit_online hc he ht hi)
  refine ⟨E, u, y, V, T, A, hE, ⟨hV, hu⟩, ⟨hT, hA, hy⟩, fun svd hist zs hh hmoves => ?_⟩
  have hwt := joint_weights ho htune hE
  obtain ⟨u0, T0, A0, g0, g, u', q, r, f, a1, a2, a3, a4, a5, a6, a7, a8, a9, hw, hf⟩ := Joint.fromWrapper_ok hE
  cases hT.symm.trans a2
  cases hA.symm.trans a3
  rw [hy, Gaussian.make_of hn] at a4
  cases a4
  rw [hhc] at a5 a7
  rw [hoc] at a8
  rw [hcc] at a6
  rw [Gaussian.unconvert_ok hn rfl rfl] at a5
  cases a5
  cases a7
  cases a8
  have e0 : convertVals w.inputs none = .ok (.delta ⟨V.flat⟩) := by simp only [convertVals, hV, ok_bind, pure_eq_ok]
  cases e0.symm.trans a1
  have e1 : u' = .delta ⟨V.flat⟩ := (Except.ok.inj a6).symm
  subst e1
  obtain ⟨p1, -, -, p4, -⟩ := Ukf.C53_constructed _ _ _ _ _ _ _ _ _ a9
  let fh : List (Dist × Dist) := zs.map fun h => (.delta ⟨⟨_, h.1⟩⟩, .delta ⟨⟨1, h.2⟩⟩)
  have hmeans : HasMeans fh (zs.map fun z => (⟨_, z.1⟩, z.2)) := by
    clear hh hmoves
    induction zs with
    | nil => exact .nil
    | cons z zs ih => exact .cons ⟨rfl, rfl⟩ ih
  obtain ⟨fin, outs, hrun, hpd, hexp⟩ := C147_history hc he hs hQ hR svd fh zs f u ⟨y, P⟩ (by rw [p1, hid]) (Ukf.holds_of_make _ _ _ _ _ _ hn a9) hP
    (by rw [← hf]; exact hwt) (by rw [p4]; exact hu) hmeans hmoves
  refine ⟨_, outs, Joint.run_of svd w (fh := fh) ?_ E fin _ _ hw (by rw [hf]; exact hrun) ?_, hpd, hexp⟩
  · clear hmoves hmeans hrun hexp
    induction hh with
    | nil => exact .nil
    | cons h _ ih =>
      obtain ⟨⟨v, v1, v2⟩, y', y1, y2⟩ := h
      refine .cons ⟨.delta ⟨v.flat⟩, .delta ⟨y'.flat⟩, by simp only [convertVals, v1, ok_bind, pure_eq_ok],
        by simp only [convertVals, y1, ok_bind, pure_eq_ok], ?_, ?_⟩ ih
      · rw [hcc, v2]; rfl
      · rw [hoc, y2]; rfl
  · rw [hhc, hoc]
    refine List.forall₂_same.2 fun o ho => ?_
    obtain ⟨r, -, rfl⟩ := List.mem_map.1 ho
    exact ⟨Gaussian.convert_ok hn rfl rfl, Gaussian.convert_ok le_rfl rfl rfl⟩

/-- C147, in any units: under constant currents the same holds for estimators that work in other units of the hidden states and outputs (as with
`normalize_asoh`). -/
theorem C147_any_units (hc : EstimatesCircuit w .constant x measured series a) (he : Estimable w.names measured series a)
    (hs : JointlyCurved w.names a) (ht : w.transients.Single) (hi : w.inputs.Single) (ho : w.nOut = 1)
    {d b : Fin (w.nTransients + w.nAsoh) → ℝ} {e c : Fin 1 → ℝ} (hd : ∀ i, d i ≠ 0) (he' : ∀ i, e i ≠ 0)
    (hh : w.hiddenConv.Rescales (w.nTransients + w.nAsoh) d b) (hout : w.outputConv.Rescales 1 e c)
    (hctl : ∀ v : Vec, v.n = 2 + (if measured then 1 else 0) → ∃ v', w.controlConv.invSamples1 v = .ok v' ∧ w.controlConv.samples1 v' = .ok v)
    {P Q : Matrix (Fin (w.nTransients + w.nAsoh)) (Fin (w.nTransients + w.nAsoh)) ℝ} {R : Matrix (Fin 1) (Fin 1) ℝ}
    (hP : P.PosDef) (hQ : Q.PosDef) (hR : R.PosDef) {tune : Tuning} (htune : Tuned tune (2 * (w.nTransients + w.nAsoh) + 1)) :
    ∃ (E : Joint) (u : Fin (2 + (if measured then 1 else 0)) → ℝ) (y : Fin (w.nTransients + w.nAsoh) → ℝ) (U T A : Arr2 ℝ),
      Joint.fromWrapper w (.inl ⟨_, _, P⟩) none (some ⟨_, _, Q⟩) none none (some ⟨1, 1, R⟩) tune = .ok E ∧
      (w.inputs.toNumpy = .ok U ∧ U.flat = ⟨_, u⟩) ∧
      (w.transients.toNumpy = .ok T ∧ w.asoh.getParameters (some w.names) = .ok A ∧ T.flat.append A.flat = ⟨_, y⟩) ∧
      ∀ (svd : Mat → Vec × Mat) (hist : List (Container ℝ × Container ℝ)) (zs : List ((Fin (2 + (if measured then 1 else 0)) → ℝ) × (Fin 1 → ℝ))),
        List.Forall₂ (fun m h => (∃ v, m.1.toNumpy = .ok v ∧ v.flat = ⟨_, h.1⟩) ∧ ∃ y, m.2.toNumpy = .ok y ∧ y.flat = ⟨1, h.2⟩) hist zs →
        ∃ fin outs, E.run svd hist = .ok (fin, outs.map fun r => (r.1.gaussian, r.2.gaussian)) ∧ (∀ r ∈ outs, r.1.cov.PosDef ∧ r.2.cov.PosDef) ∧
          ExpectedOutputs (fun prev new => jointStep w x .constant series a.rcs.length prev new) (fun new => jointVolt w x series a.rcs.length new) Q
            (In.ofVec measured (List.ofFn u)) ⟨y, P⟩ (zs.map fun z => In.ofVec measured (List.ofFn z.1)) outs := by
  have hc' : EstimatesCircuit w.plain .constant x measured series a :=
    ⟨plain_ready hc.ready, hc.cell, hc.read, hc.single, hc.transients, hc.inputs, hc.estimates, hc.deg⟩
  have hn1 : 1 ≤ w.nTransients + w.nAsoh := by have := circuit_width hc; omega
  obtain ⟨E₀, u, y, U, T, A, k1, k2, k3, k4⟩ := C147_runs hc' he hs rfl ht hi ho hP hQ hR htune
  have hUn : ∃ v, w.inputs.toNumpy = .ok v ∧ v.flat.n = 2 + (if measured then 1 else 0) := ⟨U, k2.1, by rw [k2.2]⟩
  obtain ⟨E, hE⟩ := joint_built_of w hc.ready ht ho hn1 hd he' hh hout hctl hP hQ hR tune htune.alpha htune.beta htune.kappa hUn
    (circuit_online hc he ht hi)
  refine ⟨E, u, y, U, T, A, hE, k2, k3, fun svd hist zs hist' => ?_⟩
  obtain ⟨fin₀, outs₀, hr, hpd, hexp⟩ := k4 svd hist zs hist' nofun
  obtain ⟨fin, fin₀', outs, r1, r2, -⟩ := C56_joint_estimates_in_any_units w hd he' hh hout hctl (circuit_rowWise hc he) le_rfl hP hQ hR tune hE k1
    (joint_weights (w := w.plain) ho htune k1)
    hUn svd hist (fun m hm => by
      clear hr k4 hexp
      induction hist' with
      | nil => cases hm
      | cons h _ ih =>
        rcases List.mem_cons.1 hm with rfl | hm
        · obtain ⟨⟨v, v1, v2⟩, y', y1, y2⟩ := h
          exact ⟨⟨v, v1, by rw [v2]⟩, y', y1, by rw [y2]⟩
        · exact ih hm)
  cases hr.symm.trans r2
  exact ⟨fin, outs₀, r1, hpd, hexp⟩

end

/-! ## The concrete circuit -/

theorem Demo.estimating_curved (beh : Behavior) (op : Operator) : JointlyCurved (Demo.estimating beh op).names Demo.arrays where
  only := by show ∀ n ∈ [Demo.nOcv, Demo.nR0], n ∈ _; decide
  ref := .inr (.inr ⟨rfl, rfl, by
    show (Interp.pinsUsed ⟨(Arr2.ofRow [3, 4]).toNd, none, .linear⟩).length = 2
    simp [Interp.width, Interp.pinsUsed, linspace01, Arr2.toNd, Arr2.ofRow], by
    show (Interp.pinsUsed ⟨(Arr2.ofRow [3, 4]).toNd, none, .linear⟩).Nodup
    rcases two_onLine 3 4 with h | h
    · exact absurd h (by show (2 : Nat) ≠ 1; decide)
    · exact h.2.2.2.1⟩)
  ent := .inr (.inl rfl)
  r0 := .inr (.inl rfl)
  hyst := .inr rfl
  c0 := nofun
  rcs rc hrc := by rw [List.mem_singleton.1 hrc]; exact ⟨rfl, rfl⟩
  divisors := Demo.arrays_divisors

-- Joint estimation of both values of the open-circuit voltage and of R0, so that the voltage contains products of estimated numbers: it runs through every
-- history (with times that change, under linear behaviour), with predicted voltages that are those to be expected.
example (beh : Behavior) {P Q : Matrix (Fin 6) (Fin 6) ℝ} (hP : P.PosDef) (hQ : Q.PosDef)
    (svd : Mat → Vec × Mat) (hist : List (ℝ × ℝ × ℝ × ℝ)) (hmoves : beh = .linear → (0 :: hist.map (·.1)).IsChain (· ≠ ·)) : ∃ E fin outs,
    Joint.fromWrapper (Demo.estimating beh .identity) (.inl ⟨6, 6, P⟩) none (some ⟨6, 6, Q⟩) none none (some ⟨1, 1, 1⟩) ⟨1, some 0, 2⟩ = .ok E ∧
    E.run svd (hist.map fun m => (⟨[(kTime, some (.ofRow [m.1])), (kCurrent, some (.ofRow [m.2.1])), (kTemp, some (.ofRow [m.2.2.1]))]⟩,
      ⟨[(kVoltage, some (.ofRow [m.2.2.2]))]⟩)) = .ok (fin, outs.map fun r => (r.1.gaussian, r.2.gaussian)) ∧
    ExpectedOutputs (fun prev new => jointStep (Demo.estimating beh .identity) Demo.fixed beh false 1 prev new)
      (fun new => jointVolt (Demo.estimating beh .identity) Demo.fixed false 1 new) Q ⟨0, 1, some 30⟩ ⟨![0.5, 0, 0, 3, 4, 0.05], P⟩
      (hist.map fun m => ⟨m.1, m.2.1, some m.2.2.1⟩) outs := by
  have htune : Tuned ⟨1, some 0, 2⟩ 13 := ⟨by norm_num, by norm_num, fun k hk => by cases hk; norm_num, by norm_num [centreWeight]⟩
  obtain ⟨E, u, y, U, T, A, hE, ⟨hU, hu⟩, ⟨hT, hA, hy⟩, hrun⟩ :=
    C147_runs (Demo.estimating_circuit beh .identity) (Demo.estimating_estimable _ _) (Demo.estimating_curved _ _) rfl Demo.hvState_single
      Demo.hvInput_single rfl hP hQ .one (tune := ⟨1, some 0, 2⟩) htune
  cases (Except.ok.inj hU)
  cases (Except.ok.inj hT)
  cases (Except.ok.inj hA)
  obtain rfl : ![0, 1, 30] = u := Vec.mk.inj hu |>.2 |> eq_of_heq |> fun h => by rw [← h]; funext k; fin_cases k <;> rfl
  obtain rfl : ![0.5, 0, 0, 3, 4, 0.05] = y := Vec.mk.inj hy |>.2 |> eq_of_heq |> fun h => by rw [← h]; funext k; fin_cases k <;> rfl
  obtain ⟨fin, outs, h1, -, h2⟩ := hrun svd (hist.map fun m =>
    (⟨[(kTime, some (.ofRow [m.1])), (kCurrent, some (.ofRow [m.2.1])), (kTemp, some (.ofRow [m.2.2.1]))]⟩,
      ⟨[(kVoltage, some (.ofRow [m.2.2.2]))]⟩)) (hist.map fun m => (![m.1, m.2.1, m.2.2.1], ![m.2.2.2])) (by
    clear hrun hmoves
    induction hist with
    | nil => exact .nil
    | cons y hist ih =>
      exact .cons ⟨⟨.ofRow [y.1, y.2.1, y.2.2.1], rfl, congrArg (Vec.mk 3) (funext fun k => by fin_cases k <;> rfl)⟩, .ofRow [y.2.2.2], rfl,
        congrArg (Vec.mk 1) (funext fun k => by fin_cases k; rfl)⟩ ih) (fun hb => by rw [List.map_map]; exact hmoves hb)
  refine ⟨E, fin, outs, hE, h1, ?_⟩
  rw [List.map_map] at h2
  exact h2

end Verif
