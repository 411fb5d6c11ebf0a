import Verif.Spec.EcmCell
import Verif.Proofs.EcmRead
import Verif.Props.EcmReturns
import Verif.Props.SimulatorFrame
/-!
# Batches of hidden states of an equivalent circuit (lemmas)
-/

namespace Verif.Ecm
open Verif Cell Spec

/-! ## Parameters -/

/-- Row `i`, or the only row. -/
abbrev rowRel (i : Nat) : ArrRel := fun _ => Arr2.RowOf i

/-- `K` rows for the named parameters, the only row for the others. -/
abbrev batchRel (ns : List Name) (K : Nat) : ArrRel := fun p x y =>
  y.ncol = x.ncol ∧ x.nrow = 1 ∧ y.nrow = (if pathName p ∈ ns then K else 1) ∧ (pathName p ∉ ns → y = x)

theorem rows_toNd (x : Arr2 ℝ) : Ecm.rows x.toNd = x.nrow := rfl

theorem rowOf_get {i : Nat} {x y : Arr2 ℝ} (h : Arr2.RowOf i x y) (k : Nat) :
    y.toNd.get [0, k] = x.toNd.get [if x.nrow = 1 then 0 else i, k] := by
  simp only [Arr2.toNd, List.getD_cons_zero, List.getD_cons_succ, h.2]

theorem at2_row {i : Nat} {p : List Name} {a b : Nd ℝ} (h : Lift (rowRel i) p a b) : at2 b 0 = at2 a i := by
  obtain ⟨x, y, rfl, rfl, h⟩ := h
  unfold at2
  rw [rows_toNd, rows_toNd, if_pos (show y.nrow = 1 by rw [Arr2.nrow, h.2]; rfl), rowOf_get h]

theorem curveAt_row {i : Nat} {h h' : Interp} (hr : CurveRel (rowRel i) h h') : curveAt h' 0 = curveAt h i := by
  obtain ⟨⟨x, y, e1, e2, e⟩, hp, hs⟩ := hr
  have hw : h'.width = h.width := by simp only [Interp.width, e1, e2, Arr2.toNd, e.1]; rfl
  have hr' : h'.rows = 1 := by simp only [Interp.rows, e2, Arr2.toNd, Arr2.nrow, e.2]; rfl
  have hr : h.rows = x.nrow := by simp only [Interp.rows, e1, Arr2.toNd]; rfl
  have hpin : h'.pinsUsed = h.pinsUsed := by simp only [Interp.pinsUsed, hp, hw]
  have hrow : h'.row 0 = h.row (if x.nrow = 1 then 0 else i) := by
    simp only [Interp.row, hw, e1, e2]
    exact List.map_congr_left fun k _ => rowOf_get e k
  funext soc
  simp only [curveAt, hw, hr', hr, hpin, hs, hrow, if_true]
  congr 1
  rw [e1, e2, rowOf_get e]

theorem resAt_row {i : Nat} {r r' : Resistance} (h : ResRel (rowRel i) r r') : resAt r' 0 = resAt r i := by
  obtain ⟨h1, h2, h3⟩ := h
  funext soc temp
  cases temp <;> simp only [resAt, curveAt_row h1, at2_row h3, h2]

theorem parAt_row {i : Nat} {a b : ASOH} (h : ASOHRel (rowRel i) a b) : parAt b 0 = parAt a i := by
  have ho : ocvAt b.ocv 0 = ocvAt a.ocv i := by
    funext soc temp
    cases temp <;> simp only [ocvAt, curveAt_row h.ref, at2_row h.refTemp, curveAt_row h.ent]
  have hc : b.c0.map (fun c => curveAt c 0) = a.c0.map fun c => curveAt c i := by
    rcases h.c0 with ⟨h1, h2⟩ | ⟨c, c', h1, h2, h3⟩
    · rw [h1, h2]; rfl
    · rw [h1, h2, Option.map_some, Option.map_some, curveAt_row h3]
  have hr : b.rcs.map (fun rc => (⟨resAt rc.r 0, curveAt rc.c 0⟩ : Cell.RC)) = a.rcs.map fun rc => ⟨resAt rc.r i, curveAt rc.c i⟩ := by
    refine List.ext_getElem? fun j => ?_
    rw [List.getElem?_map, List.getElem?_map]
    by_cases hj : j < a.rcs.length
    · have hj' : j < b.rcs.length := by rw [h.rcs.1]; exact hj
      have := h.rcs.2 j _ _ (List.getElem?_eq_getElem hj) (List.getElem?_eq_getElem hj')
      rw [List.getElem?_eq_getElem hj, List.getElem?_eq_getElem hj', Option.map_some, Option.map_some, resAt_row this.1, curveAt_row this.2]
    · have := h.rcs.1
      rw [List.getElem?_eq_none (by omega), List.getElem?_eq_none (by omega)]; rfl
  simp only [parAt, at2_row h.qt, at2_row h.ce, ho, resAt_row h.r0, hc, hr, curveAt_row h.hyst, at2_row h.gamma]

variable {ns : List Name} {K : Nat}

theorem rows_batch {p : List Name} {a b : Nd ℝ} (h : Lift (batchRel ns K) p a b) : Ecm.rows b = if pathName p ∈ ns then K else 1 := by
  obtain ⟨x, y, rfl, rfl, h⟩ := h
  exact h.2.2.1

theorem scalar_batch {p : List Name} {a b : Nd ℝ} (h : Lift (batchRel ns K) p a b) (ha : Scalar 1 a) : Scalar K b := by
  obtain ⟨x, y, rfl, rfl, h⟩ := h
  have hc : x.ncol = 1 := by
    rcases ha with e | e <;> · simp only [Arr2.toNd, List.cons.injEq] at e; exact e.2.1
  unfold Scalar Arr2.toNd
  simp only [h.1, hc, h.2.2.1]
  split
  · exact .inr rfl
  · exact .inl rfl

theorem curve_batch {R : List Name} {h h' : Interp} (hr : CurveRel (below (batchRel ns K) R) h h') :
    Curve K h' ∧ h'.width = h.width ∧ h'.pinsUsed = h.pinsUsed ∧ h'.style = h.style ∧
      h'.rows = if pathName (R ++ [kBase]) ∈ ns then K else 1 := by
  obtain ⟨⟨x, y, e1, e2, e⟩, hp, hs⟩ := hr
  have hw : h'.width = h.width := by simp only [Interp.width, e1, e2, Arr2.toNd, e.1]; rfl
  have hr : h'.rows = if pathName (R ++ [kBase]) ∈ ns then K else 1 := by simp only [Interp.rows, e2]; exact e.2.2.1
  refine ⟨?_, hw, by simp only [Interp.pinsUsed, hp, hw], hs, hr⟩
  have hsh : h'.base.shape = [h'.rows, h'.width] := by simp only [Interp.rows, Interp.width, e2, Arr2.toNd]; rfl
  unfold Curve
  rw [hsh, hr]
  split
  · exact .inr rfl
  · exact .inl rfl

theorem res_batch {R : List Name} {r r' : Resistance} (h : ResRel (below (batchRel ns K) R) r r') (hr : Res 1 r) : Res K r' := by
  obtain ⟨h1, _, h3⟩ := h
  refine ⟨(curve_batch h1).1, ?_⟩
  exact scalar_batch (p := R ++ [kTdf]) (ns := ns) h3 hr.2

theorem pars_batch {a b : ASOH} (h : ASOHRel (batchRel ns K) a b) (ha : Pars 1 a) : Pars K b where
  qt := scalar_batch h.qt ha.qt
  ce := scalar_batch h.ce ha.ce
  gamma := scalar_batch h.gamma ha.gamma
  ref := (curve_batch h.ref).1
  refTemp := scalar_batch h.refTemp ha.refTemp
  ent := (curve_batch h.ent).1
  r0 := res_batch h.r0 ha.r0
  c0 c hc := by
    rcases h.c0 with ⟨_, h2⟩ | ⟨c1, c', _, h2, h3⟩
    · rw [h2] at hc; cases hc
    · rw [h2] at hc
      cases hc
      exact (curve_batch h3).1
  rcs rc hrc := by
    obtain ⟨j, hj, rfl⟩ := List.mem_iff_getElem.1 hrc
    have hj' : j < a.rcs.length := by rw [← h.rcs.1]; exact hj
    have e := h.rcs.2 j _ _ (List.getElem?_eq_getElem hj') (List.getElem?_eq_getElem hj)
    exact ⟨res_batch (R := [kRcs, Py.natStr j] ++ [kR]) e.1 (ha.rcs _ (List.getElem_mem hj')).1,
      (curve_batch (R := [kRcs, Py.natStr j] ++ [kC]) e.2).1⟩
  hyst := (curve_batch h.hyst).1

/-! ## When batches can be computed -/

theorem usable_batch {h h' : Interp} {o K : Nat} {number base : List Name} (hw : h'.width = h.width) (hp : h'.pinsUsed = h.pinsUsed)
    (hr : h'.rows = if pathName base ∈ ns then K else 1) (ho : o = if pathName number ∈ ns then K else 1) :
    (Evaluable h ∧ With ns h number base → Usable h' [o]) ∧ (2 ≤ K → Usable h' [o] → Evaluable h ∧ With ns h number base) := by
  unfold Evaluable With Usable Named
  rw [hw, hp, hr, ho]
  constructor
  · rintro ⟨h1 | h1, h2⟩
    · exact .inl h1
    · by_cases h1' : h.width = 1
      · exact .inl h1'
      · refine .inr ⟨h1.1, h1.2, ?_⟩
        intro n hn
        rw [List.mem_singleton] at hn
        subst hn
        by_cases h3 : pathName number ∈ ns
        · rw [if_pos h3, if_pos ((h2 h3).resolve_left h1')]
          exact .inr rfl
        · rw [if_neg h3]; exact .inl rfl
  · rintro hK (h1 | ⟨h1, h2, h3⟩)
    · exact ⟨.inl h1, fun _ => .inl h1⟩
    · refine ⟨.inr ⟨h1, h2⟩, fun h4 => .inr ?_⟩
      have := h3 _ (List.mem_singleton.2 rfl)
      rw [if_pos h4] at this
      by_contra h5
      rw [if_neg h5] at this
      omega

theorem usable_alone {h h' : Interp} (hw : h'.width = h.width) (hp : h'.pinsUsed = h.pinsUsed) : Usable h' [] ↔ Evaluable h := by
  unfold Evaluable Usable
  rw [hw, hp]
  simp

theorem single_batch {p : List Name} {a b : Nd ℝ} (h : Lift (batchRel ns K) p a b) (ha : Scalar 1 a) :
    (¬ Named ns p → Single b) ∧ (2 ≤ K → Single b → ¬ Named ns p) := by
  have hr := rows_batch h
  have hs := scalar_batch h ha
  constructor
  · intro hn
    rw [if_neg hn] at hr
    unfold Single
    rcases hs with e | e
    · exact e
    · have : K = 1 := by rw [Ecm.rows, e] at hr; exact hr
      rw [e, this]
  · intro hK h1 hn
    rw [if_pos hn, Ecm.rows, h1] at hr
    simp only [List.getD_cons_zero] at hr
    omega

theorem usableRes_batch {R : List Name} {r r' : Resistance} (h : ResRel (below (batchRel ns K) R) r r') (hr : Res 1 r) (temp : Option (Nd ℝ)) :
    (Evaluable r.interp ∧ With ns r.interp (R ++ [kTdf]) (R ++ [kBase]) ∧ (temp.isSome → ¬ Named ns (R ++ [kTdf])) → UsableRes r' temp) ∧
    (2 ≤ K → UsableRes r' temp →
      Evaluable r.interp ∧ With ns r.interp (R ++ [kTdf]) (R ++ [kBase]) ∧ (temp.isSome → ¬ Named ns (R ++ [kTdf]))) := by
  obtain ⟨h1, _, h3⟩ := h
  obtain ⟨_, c2, c3, _, c5⟩ := curve_batch h1
  have h3' : Lift (batchRel ns K) (R ++ [kTdf]) r.tdf r'.tdf := h3
  obtain ⟨u1, u2⟩ := usable_batch (number := R ++ [kTdf]) c2 c3 c5 (rows_batch h3')
  obtain ⟨s1, s2⟩ := single_batch h3' hr.2
  exact ⟨fun ⟨a1, a2, a3⟩ => ⟨u1 ⟨a1, a2⟩, fun ht => s1 (a3 ht)⟩,
    fun hK ⟨a1, a2⟩ => ⟨(u2 hK a1).1, (u2 hK a1).2, fun ht => s2 hK (a2 ht)⟩⟩

/-- The parameters of a batch, of one circuit and the inputs: what `CanUpdate` and `CanVoltage` ask for is `Estimable`. -/
theorem can_of_estimable {a b : ASOH} (h : ASOHRel (batchRel ns K) a b) (ha : Pars 1 a) (hK : 1 ≤ K) {measured series : Bool}
    (he : Estimable ns measured series a) {beh : Behavior} {prev new : Input} {st : State} (hp : Ins 1 prev) (hn : Ins 1 new)
    (tp : prev.temp.isSome = measured) (tn : new.temp.isSome = measured) (hs : Sts K b st) (hq : st.q0.isSome = series)
    (hsoc : measured = true → Named ns [kOcv, kOcvRef, kRefTemp] → Ecm.rows st.soc = K) :
    ((beh = .linear → new.time.get [0, 0] ≠ prev.time.get [0, 0]) → CanUpdate beh prev new st b) ∧ CanVoltage new st b := by
  have single : ∀ {x : Nd ℝ}, Scalar 1 x → Single x := fun h => h.elim id id
  have rcAt : ∀ rc' ∈ b.rcs, ∃ (j : Nat) (hj : j < a.rcs.length), RCRel (below (batchRel ns K) [kRcs, Py.natStr j]) a.rcs[j] rc' := by
    intro rc' hrc
    obtain ⟨j, hj, rfl⟩ := List.mem_iff_getElem.1 hrc
    have hj' : j < a.rcs.length := by rw [← h.rcs.1]; exact hj
    exact ⟨j, hj', h.rcs.2 j _ _ (List.getElem?_eq_getElem hj') (List.getElem?_eq_getElem hj)⟩
  have hrcs : ∀ temp : Option (Nd ℝ), temp.isSome = measured → ∀ rc ∈ b.rcs, UsableRes rc.r temp ∧ Usable rc.c [] := by
    intro temp ht rc hrc
    obtain ⟨j, hj, e⟩ := rcAt rc hrc
    have hmem := List.getElem_mem hj
    obtain ⟨u1, _⟩ := usableRes_batch (R := [kRcs, Py.natStr j] ++ [kR]) e.1 (ha.rcs _ hmem).1 temp
    obtain ⟨_, c2, c3, _⟩ := curve_batch (R := [kRcs, Py.natStr j] ++ [kC]) e.2
    exact ⟨u1 ⟨(he.rcs _ hmem).1, he.rcs_with j _ (List.getElem?_eq_getElem hj), fun h' => he.rcs_tdf (by rw [← ht]; exact h') j hj⟩,
      (usable_alone c2 c3).2 (he.rcs _ hmem).2⟩
  have hhy : Usable b.hyst [Ecm.rows b.gamma] := by
    obtain ⟨_, c2, c3, _, c5⟩ := curve_batch h.hyst
    exact (usable_batch (number := [kH0, kGamma]) c2 c3 c5 (rows_batch h.gamma)).1 ⟨he.hyst, he.gamma_with⟩
  constructor
  · intro hm
    refine ⟨⟨single hp.time, single hn.time⟩, ⟨single hp.current, single hn.current⟩, hm, hrcs prev.temp tp, ?_, hhy⟩
    by_cases hne : a.rcs = []
    · refine ⟨0, 0, fun rc hrc => ?_⟩
      obtain ⟨j, hj, _⟩ := rcAt rc hrc
      rw [hne] at hj
      exact absurd hj (by simp)
    · have hpos : 0 < a.rcs.length := List.length_pos_iff.2 hne
      refine ⟨if Named ns [kRcs, Py.natStr 0, kR, kBase] ∨ Named ns [kRcs, Py.natStr 0, kC, kBase] then K else 1,
        Ecm.rows st.soc, fun rc hrc => ?_⟩
      obtain ⟨j, hj, e⟩ := rcAt rc hrc
      obtain ⟨_, _, _, _, c5⟩ := curve_batch (R := [kRcs, Py.natStr j] ++ [kR]) e.1.1
      obtain ⟨_, _, _, _, d5⟩ := curve_batch (R := [kRcs, Py.natStr j] ++ [kC]) e.2
      constructor
      · have e1 := he.rcs_tau j hj 0 hpos
        have e2 := he.rcs_tau 0 hpos j hj
        unfold rcRows
        rw [c5, d5]
        unfold Named at e1 e2 ⊢
        simp only [List.cons_append, List.nil_append] at e1 e2 ⊢
        by_cases k1 : pathName [kRcs, Py.natStr j, kR, kBase] ∈ ns <;> by_cases k2 : pathName [kRcs, Py.natStr j, kC, kBase] ∈ ns <;>
          by_cases k3 : (pathName [kRcs, Py.natStr 0, kR, kBase] ∈ ns ∨ pathName [kRcs, Py.natStr 0, kC, kBase] ∈ ns)
        all_goals first
          | (exfalso; revert e1 e2; simp_all; done)
          | (simp only [k1, k2, k3, if_true, if_false, ite_self]; try (split <;> simp_all))
      · have ht : ∀ t ∈ prev.temp, Ecm.rows t = 1 ∨ Ecm.rows t = Ecm.rows st.soc := by
          intro t ht
          have := single (hp.temp t ht)
          left
          rw [Ecm.rows, this]; rfl
        rw [stateRows_soc ht]
  · obtain ⟨_, c2, c3, _, c5⟩ := curve_batch h.ref
    obtain ⟨_, d2, d3, _, d5⟩ := curve_batch h.ent
    refine ⟨(usable_batch (number := [kOcv, kOcvRef, kRefTemp]) c2 c3 c5 (rows_batch h.refTemp)).1 ⟨he.ocv, he.refTemp_with⟩,
      fun ht => (usable_alone d2 d3).2 (he.ent (by rw [← tn]; exact ht)), ?_, ?_, ?_, fun rc hrc => (hrcs new.temp tn rc hrc).1, ?_⟩
    · intro t ht
      have hm : measured = true := by rw [← tn, Option.isSome_iff_exists]; exact ⟨t, ht⟩
      refine ⟨?_, ?_, ?_⟩
      · rw [c5, d5]
        have := he.ent_with hm
        unfold Named at this
        simp only [List.cons_append, List.nil_append]
        by_cases h1 : pathName [kOcv, kOcvEnt, kBase] ∈ ns
        · rw [if_pos h1, if_pos (this h1)]; exact .inr rfl
        · rw [if_neg h1]; exact .inl rfl
      · left
        rw [Ecm.rows, single (hn.temp t ht)]; rfl
      · rw [rows_batch h.refTemp]
        by_cases h1 : pathName [kOcv, kOcvRef, kRefTemp] ∈ ns
        · rw [if_pos h1, hsoc hm h1]; exact .inr rfl
        · rw [if_neg h1]; exact .inl rfl
    · obtain ⟨u1, _⟩ := usableRes_batch (R := [kR0]) h.r0 ha.r0 new.temp
      exact u1 ⟨he.r0, he.r0_with, fun ht => he.r0_tdf (by rw [← tn]; exact ht)⟩
    · intro h1
      obtain ⟨c, hc, hc'⟩ := he.c0 (by rw [← hq]; exact h1)
      rcases h.c0 with ⟨h2, _⟩ | ⟨x, x', h2, h3, h4⟩
      · rw [h2] at hc; cases hc
      · rw [hc] at h2
        cases h2
        obtain ⟨_, c2, c3, _⟩ := curve_batch h4
        exact ⟨x', h3, (usable_alone c2 c3).2 hc'⟩
    · by_cases hne : a.rcs = []
      · refine ⟨0, fun rc hrc => ?_⟩
        obtain ⟨j, hj, _⟩ := rcAt rc hrc
        rw [hne] at hj
        exact absurd hj (by simp)
      · have hpos : 0 < a.rcs.length := List.length_pos_iff.2 hne
        refine ⟨if Named ns [kRcs, Py.natStr 0, kR, kBase] then K else 1, fun rc hrc => ?_⟩
        obtain ⟨j, hj, e⟩ := rcAt rc hrc
        obtain ⟨_, _, _, _, c5⟩ := curve_batch (R := [kRcs, Py.natStr j] ++ [kR]) e.1.1
        have e1 := he.rcs_r j hj 0 hpos
        have e2 := he.rcs_r 0 hpos j hj
        rw [c5]
        simp only [List.cons_append, List.nil_append]
        exact if_congr ⟨e1, e2⟩ rfl rfl

theorem estimable_of_can {a b : ASOH} (h : ASOHRel (batchRel ns K) a b) (ha : Pars 1 a) (hK : 2 ≤ K) {measured series : Bool}
    {beh : Behavior} {prev new new' : Input} {st st' : State}
    (tp : prev.temp.isSome = measured) (tn : new'.temp.isSome = measured) (hq : st'.q0.isSome = series)
    (hu : CanUpdate beh prev new st b) (hv : CanVoltage new' st' b) : Estimable ns measured series a := by
  have rcAt : ∀ (j : Nat) (hj : j < a.rcs.length), ∃ rc' ∈ b.rcs, RCRel (below (batchRel ns K) [kRcs, Py.natStr j]) a.rcs[j] rc' := by
    intro j hj
    have hj' : j < b.rcs.length := by rw [h.rcs.1]; exact hj
    exact ⟨_, List.getElem_mem hj', h.rcs.2 j _ _ (List.getElem?_eq_getElem hj) (List.getElem?_eq_getElem hj')⟩
  have hrc : ∀ (j : Nat) (hj : j < a.rcs.length), Evaluable a.rcs[j].r.interp ∧ Evaluable a.rcs[j].c ∧
      With ns a.rcs[j].r.interp [kRcs, Py.natStr j, kR, kTdf] [kRcs, Py.natStr j, kR, kBase] ∧
      (measured → ¬ Named ns [kRcs, Py.natStr j, kR, kTdf]) := by
    intro j hj
    obtain ⟨rc', hm, e⟩ := rcAt j hj
    obtain ⟨_, u2⟩ := usableRes_batch (R := [kRcs, Py.natStr j] ++ [kR]) e.1 (ha.rcs _ (List.getElem_mem hj)).1 prev.temp
    obtain ⟨_, c2, c3, _⟩ := curve_batch (R := [kRcs, Py.natStr j] ++ [kC]) e.2
    obtain ⟨v1, v2, v3⟩ := u2 hK (hu.rcs rc' hm).1
    exact ⟨v1, (usable_alone c2 c3).1 (hu.rcs rc' hm).2, v2, fun ht => v3 (by rw [tp]; exact ht)⟩
  obtain ⟨_, c2, c3, _, c5⟩ := curve_batch h.ref
  obtain ⟨_, d2, d3, _, d5⟩ := curve_batch h.ent
  obtain ⟨_, f2, f3, _, f5⟩ := curve_batch h.hyst
  obtain ⟨o1, o2⟩ := (usable_batch (number := [kOcv, kOcvRef, kRefTemp]) c2 c3 c5 (rows_batch h.refTemp)).2 hK hv.ocvRef
  obtain ⟨g1, g2⟩ := (usable_batch (number := [kH0, kGamma]) f2 f3 f5 (rows_batch h.gamma)).2 hK hu.hyst
  obtain ⟨r1, r2, r3⟩ := (usableRes_batch (R := [kR0]) h.r0 ha.r0 new'.temp).2 hK hv.r0
  refine ⟨o1, fun hm => (usable_alone d2 d3).1 (hv.ocvEnt (by rw [tn]; exact hm)), r1, ?_, ?_, g1, g2, o2, r2, ?_,
    fun hm => r3 (by rw [tn]; exact hm), fun hm j hj => (hrc j hj).2.2.2 hm, ?_, ?_, ?_⟩
  · intro hser
    obtain ⟨c', hc', hc''⟩ := hv.c0 (by rw [hq]; exact hser)
    rcases h.c0 with ⟨_, h2⟩ | ⟨x, x', h2, h3, h4⟩
    · rw [h2] at hc'; cases hc'
    · rw [hc'] at h3
      cases h3
      obtain ⟨_, c2, c3, _⟩ := curve_batch h4
      exact ⟨x, h2, (usable_alone c2 c3).1 hc''⟩
  · intro rc hm
    obtain ⟨j, hj, rfl⟩ := List.mem_iff_getElem.1 hm
    exact ⟨(hrc j hj).1, (hrc j hj).2.1⟩
  · intro j rc hj
    obtain ⟨hj', rfl⟩ := List.getElem?_eq_some_iff.1 hj
    exact (hrc j hj').2.2.1
  · intro hm hn
    obtain ⟨t, ht⟩ := Option.isSome_iff_exists.1 (tn.trans hm)
    have := (hv.entFits t ht).1
    have hn' : pathName ([kOcv, kOcvEnt] ++ [kBase]) ∈ ns := hn
    rw [c5, d5, if_pos hn'] at this
    by_contra h1
    have h1' : ¬ pathName ([kOcv, kOcvRef] ++ [kBase]) ∈ ns := h1
    rw [if_neg h1'] at this
    omega
  · intro j hj k hk hn
    obtain ⟨P, hP⟩ := hv.sameBatch
    obtain ⟨rj, mj, ej⟩ := rcAt j hj
    obtain ⟨rk, mk, ek⟩ := rcAt k hk
    obtain ⟨_, _, _, _, cj⟩ := curve_batch (R := [kRcs, Py.natStr j] ++ [kR]) ej.1.1
    obtain ⟨_, _, _, _, ck⟩ := curve_batch (R := [kRcs, Py.natStr k] ++ [kR]) ek.1.1
    simp only [List.cons_append, List.nil_append] at cj ck
    rw [hP _ mj, if_pos hn] at cj
    rw [hP _ mk] at ck
    by_contra h1
    rw [if_neg h1] at ck
    omega
  · intro j hj k hk hn
    obtain ⟨P, Q, hP⟩ := hu.sameShape
    obtain ⟨rj, mj, ej⟩ := rcAt j hj
    obtain ⟨rk, mk, ek⟩ := rcAt k hk
    obtain ⟨_, _, _, _, cj⟩ := curve_batch (R := [kRcs, Py.natStr j] ++ [kR]) ej.1.1
    obtain ⟨_, _, _, _, ck⟩ := curve_batch (R := [kRcs, Py.natStr k] ++ [kR]) ek.1.1
    obtain ⟨_, _, _, _, dj⟩ := curve_batch (R := [kRcs, Py.natStr j] ++ [kC]) ej.2
    obtain ⟨_, _, _, _, dk⟩ := curve_batch (R := [kRcs, Py.natStr k] ++ [kC]) ek.2
    have e1 := (hP _ mj).1
    have e2 := (hP _ mk).1
    unfold rcRows at e1 e2
    rw [cj, dj] at e1
    rw [ck, dk] at e2
    simp only [List.cons_append, List.nil_append] at e1 e2
    unfold Named at hn ⊢
    by_contra h1
    rw [not_or] at h1
    rw [if_neg h1.1, if_neg h1.2, if_pos rfl] at e2
    have : K = P := by
      rcases hn with hn | hn
      · rw [if_pos hn, if_neg (by omega)] at e1
        exact e1
      · by_cases hr : pathName [kRcs, Py.natStr j, kR, kBase] ∈ ns
        · rw [if_pos hr, if_neg (by omega)] at e1
          exact e1
        · rw [if_neg hr, if_pos rfl, if_pos hn] at e1
          exact e1
    omega

end Verif.Ecm
