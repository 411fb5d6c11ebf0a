import Verif.Proofs.EcmCell
/-!
# Containers of the equivalent circuit: reading hidden states and writing results back
-/

namespace Verif.Ecm
open Nd Cell Spec

/-! ## Results have one row per hidden state -/

theorem bdim_dim {K q m : Nat} (hq : Dim K q) (hm : Dim K m) : bdim q m = some (if q = 1 then m else q) := by
  unfold bdim
  rcases hq with rfl | rfl <;> rcases hm with rfl | rfl <;> (repeat' split) <;> simp_all

theorem rows_add {K : Nat} {a c r : Nd ℝ} (h : add a c = .ok r) (ha : Scalar K a) (hc : Scalar K c) (hr : rows a = K) :
    r.shape = [K, 1] := by
  obtain ⟨d1, e1⟩ := dim_rows ha
  obtain ⟨d2, e2⟩ := dim_rows hc
  have hs := shape_map2_22 h e1 e2 d1 d2
  rw [hs]
  by_cases h1 : rows a = 1
  · rw [if_pos h1]
    rcases d2 with h2 | h2
    · rw [h2, ← hr, h1]
    · rw [h2]
  · rw [if_neg h1, hr]

theorem enforce0_rows {K : Nat} {a r : Nd ℝ} (h : enforce0 a = .ok r) (ha : a.shape = [K, 1]) : r.shape = [K, 1] := by
  unfold enforce0 at h
  split at h
  · cases h
  · unfold reshape at h
    split at h
    · cases h; simp [size, ha]
    · cases h

theorem update_soc_rows {K : Nat} (hK : 1 ≤ K) {beh : Behavior} {prev new : Input} {st st' : State} {a : ASOH} (ha : Pars K a)
    (hp : Ins K prev) (hn : Ins K new) (hs : Sts K a st) (hr : rows st.soc = K) (h : update beh prev new st a = .ok st') :
    rows st'.soc = K := by
  classical
  unfold update at h
  simp only [bind_ok] at h
  obtain ⟨dt, a1, slp, a2, neg, a3, sd, a4, cd, a5, ch, a6, cq, a7, ec, a8, soc, a9, q0', a10, irc, a11, hy, a12,
    soc', a14, hy', a15, h⟩ := h
  simp only [pure_ok] at h
  subst h
  obtain ⟨t1, u1⟩ := rel_scalar hp.time
  obtain ⟨t2, u2⟩ := rel_scalar hn.time
  obtain ⟨t3, u3⟩ := rel_scalar hp.current
  obtain ⟨t6, u6⟩ := rel_scalar ha.qt
  obtain ⟨t7, u7⟩ := rel_scalar ha.ce
  obtain ⟨b1, c1⟩ := rel_map2' a1 t2 t1
  obtain ⟨b2, c2⟩ := slope_rel hp hn a1 a2
  obtain ⟨b4, c4⟩ := rel_map2' a4 b2 b1
  have hsd := rel_map (· / 2) b4
  obtain ⟨b5, c5⟩ := rel_map2' a5 t3 hsd
  obtain ⟨b6, c6⟩ := rel_map2' a6 b1 b5
  have hqt : Rel K (capacityValue a.qt) (fun b => 3600 * at2 a.qt b) := rel_map (3600 * ·) t6
  obtain ⟨b7, c7⟩ := rel_map2' a7 b6 hqt
  have heff : ∃ f, Rel K (if neg then num2 1 else a.ce) f ∧ (if neg then num2 1 else a.ce).shape.length = 2 := by
    cases neg with
    | true => exact ⟨_, rel_num2 K 1, rfl⟩
    | false => exact ⟨_, t7, u7⟩
  obtain ⟨f, hf, lf⟩ := heff
  obtain ⟨b8, c8⟩ := rel_map2' a8 hf b7
  have l1 : dt.shape.length = 2 := by rw [c1, u1, u2]; rfl
  have l4 : sd.shape.length = 2 := by rw [c4, c2, l1]; rfl
  have l5 : cd.shape.length = 2 := by
    have : (sd.map (· / 2)).shape.length = 2 := l4
    rw [c5, u3, this]; rfl
  have l6 : ch.shape.length = 2 := by rw [c6, l1, l5]; rfl
  have l7 : cq.shape.length = 2 := by
    have : (capacityValue a.qt).shape.length = 2 := u6
    rw [c7, l6, this]; rfl
  have l8 : ec.shape.length = 2 := by rw [c8, lf, l7]; rfl
  have hs' := enforce0_rows a14 (rows_add a9 hs.soc (scalar_of_rel b8 l8).1 hr)
  simp [rows, hs']

theorem flattenVt_full {K : Nat} {h y : Nd ℝ} {p : Nat} (hp : Dim K p) (hs : h.shape = [p, K, 1])
    (hy : flattenVt h = .ok y) : y.shape = [K, 1] := by
  unfold flattenVt at hy
  simp only [bind_ok, diag01, hs, List.getD_cons_zero, List.getD_cons_succ] at hy
  obtain ⟨h', hd, h3⟩ := hy
  by_cases hpq : p = K
  · subst hpq
    simp only [if_true, diagonal01, hs, Except.map, Except.ok.injEq] at hd
    subst hd
    rw [show min p p = p by omega] at h3
    simp [swapaxes, swapAt, size, reshape] at h3
    subst h3
    rfl
  · simp only [if_neg hpq, Except.ok.injEq] at hd
    subst hd
    have h1 : p = 1 := by
      rcases hp with h | h
      · exact h
      · exact absurd h hpq
    simp only [hs, List.getD_cons_zero, List.getD_cons_succ, if_pos (Or.inl h1)] at h3
    simp [size, reshape, hs] at h3
    subst h3
    simp [h1]

theorem voltage_full {K : Nat} (hK : 1 ≤ K) {new : Input} {st : State} {a : ASOH} {v : Nd ℝ} (ha : Pars K a)
    (hn : Ins K new) (hs : Sts K a st) (hr : rows st.hyst = K) (h : voltage new st a = .ok v) : v.shape = [K, 1] := by
  unfold voltage at h
  simp only [bind_ok] at h
  obtain ⟨v1, a1, r0, a2, ir, a3, v2, a4, v3, a5, v4, a6, v5, a7, v6, a8, a9⟩ := h
  obtain ⟨t1, u1⟩ := rel_scalar hn.current
  obtain ⟨t2, u2⟩ := rel_scalar hs.soc
  obtain ⟨t3, u3⟩ := rel_scalar hs.hyst
  have ht := tempRel hn.temp
  obtain ⟨b1, c1⟩ := ocv_rel hK ha.ref ha.refTemp ha.ent t2 u2 ht a1
  obtain ⟨b2, c2⟩ := resistance_rel hK ha.r0 t2 u2 ht a2
  obtain ⟨b3, c3⟩ := rel_map2' a3 t1 b2
  obtain ⟨b4, c4⟩ := rel_map2' a4 b1 b3
  have l4 : v2.shape.length = 3 := by rw [c4, c3, c1, c2, u1]; rfl
  have h5 : ∃ f, Rel K v3 f ∧ v3.shape.length = 3 := by
    unfold addC0 at a5
    cases hq : st.q0 with
    | none =>
      rw [hq] at a5
      cases a5
      exact ⟨_, b4, l4⟩
    | some q =>
      rw [hq] at a5
      cases hc : a.c0 with
      | none => rw [hc] at a5; cases a5
      | some c =>
        rw [hc] at a5
        simp only [bind_ok] at a5
        obtain ⟨cv, d1, qc, d2, d3⟩ := a5
        obtain ⟨tq, uq⟩ := rel_scalar (hs.q0 q (by rw [hq]; rfl))
        obtain ⟨e1, f1⟩ := getValue_rel hK (ha.c0 c (by rw [hc]; rfl)) t2 u2 d1
        obtain ⟨e2, f2⟩ := rel_map2' d2 tq e1
        obtain ⟨e3, f3⟩ := rel_map2' d3 b4 e2
        exact ⟨_, e3, by rw [f3, f2, f1, uq, l4]; rfl⟩
  obtain ⟨f, b5, l5⟩ := h5
  obtain ⟨b6, l6⟩ := addRC_rel hK (fun rc hrc => (ha.rcs rc hrc).1) b5 l5 t2 u2 ht (wide_irc hs.irc) a6
  obtain ⟨p, q, hp, hq, hs4, _⟩ := b6.shape3 l6
  obtain ⟨d3, e3⟩ := dim_rows hs.hyst
  have h5 : v5.shape = [p, K, 1] := by
    have hb : bdims [1, q, p] [1, K] = some [1, K, p] := by
      have : bdim q K = some K := by rw [bdim_dim hq (.inr rfl)]; rcases hq with h | h <;> simp [h]
      have h1 : bdim 1 1 = some 1 := rfl
      simp [bdims, this, h1]
    have hsh : bshape v4.shape st.hyst.shape = some [p, K, 1] := by
      rw [hs4, e3, hr]; simp [bshape, hb]
    unfold add map2 at a7
    rw [hsh] at a7
    cases a7
    rfl
  exact enforce0_rows a9 (flattenVt_full hp h5 a8)

/-! ## Reading containers -/

theorem cols_shape {A : Arr2 ℝ} {lo w : Nat} (h : lo + w ≤ A.ncol) : (A.cols lo (lo + w)).toNd.shape = [A.nrow, w] := by
  simp only [Arr2.toNd, Arr2.cols, Arr2.nrow, List.length_map]
  congr 2
  omega

theorem cols_get {A : Arr2 ℝ} {lo w i j : Nat} (hi : i < A.nrow) (hj : j < w) :
    (A.cols lo (lo + w)).toNd.get [i, j] = (A.rows.getD i []).getD (lo + j) 0 := by
  have hi' : i < A.rows.length := hi
  simp only [Arr2.toNd, Arr2.cols, List.getD_cons_zero, List.getD_cons_succ]
  simp only [List.getD_eq_getElem?_getD, List.getElem?_map, List.getElem?_eq_getElem hi', Option.map_some, Option.getD_some]
  rw [show lo + w - lo = w by omega, List.getElem?_take, if_pos hj, List.getElem?_drop]

theorem cols_at2 {A : Arr2 ℝ} {lo i : Nat} (h : lo + 1 ≤ A.ncol) (hi : i < A.nrow) :
    at2 (A.cols lo (lo + 1)).toNd i = (A.rows.getD i []).getD lo 0 := by
  unfold at2
  rw [rows, cols_shape h, List.getD_cons_zero]
  have : (if A.nrow = 1 then 0 else i) = i := by split <;> omega
  rw [this, cols_get hi (by omega), Nat.add_zero]

/-- The state of charge, RC currents and hysteresis voltage read from a matrix of `K` hidden states. -/
theorem circuitState_keys (series : Bool) (n : Nat) : circuitState series n =
    ⟨[(kSoc, some (.scalar 0)), (kQ0, if series then some (.scalar 0) else none), (kIrc, some (.ofRow (List.replicate n 0))),
      (kHyst, some (.scalar 0))]⟩ := rfl

theorem circuitInput_keys (measured : Bool) : circuitInput measured =
    ⟨[(kTime, some (.scalar 0)), (kCurrent, some (.scalar 0)), (kTemp, if measured then some (.scalar 0) else none)]⟩ := rfl

theorem readState_copy (series : Bool) (n : Nat) (A : Arr2 ℝ) (hA : A.ncol = (1 + (if series then 1 else 0)) + n + 1) :
    ∃ st, readState ((circuitState series n).makeCopy (.d2 A)) = .ok st ∧ rows st.soc = A.nrow ∧ rows st.hyst = A.nrow ∧
      st.q0.isSome = series ∧ (∀ a : ASOH, a.rcs.length = n → Sts A.nrow a st) ∧
      ∀ i < A.nrow, stAt st i = St.ofVec series n (A.rows.getD i []) := by
  have hrow : ∀ i < A.nrow, (A.rows.getD i []).length = A.ncol := by
    intro i hi
    have hi' : i < A.rows.length := hi
    rw [List.getD_eq_getElem?_getD, List.getElem?_eq_getElem hi', Option.getD_some]
    exact A.wf _ (List.getElem_mem hi')
  have hirc : ∀ lo i, i < A.nrow → lo + n ≤ A.ncol →
      ((List.range ((A.cols lo (lo + n)).toNd.shape.getD 1 0)).map fun j =>
        (A.cols lo (lo + n)).toNd.get [if rows (A.cols lo (lo + n)).toNd = 1 then 0 else i, j]) =
      ((A.rows.getD i []).drop lo).take n := by
    intro lo i hi h
    have e : (if rows (A.cols lo (lo + n)).toNd = 1 then 0 else i) = i := by
      rw [rows, cols_shape h, List.getD_cons_zero]; split <;> omega
    rw [e, cols_shape h]
    apply List.ext_getElem
    · have := hrow i hi
      rw [List.length_take, List.length_drop, this]
      simp
      omega
    · intro j h1 h2
      have hj : j < n := by simpa using h1
      have h3 := hrow i hi
      simp only [List.getElem_map, List.getElem_range, cols_get hi hj, List.getElem_take, List.getElem_drop]
      rw [List.getD_eq_getElem?_getD, List.getElem?_eq_getElem (by omega), Option.getD_some]
  cases series with
  | false =>
    simp only [Bool.false_eq_true, if_false, Nat.add_zero] at hA
    have hfill : (circuitState false n).makeCopy (.d2 A) = ⟨[(kSoc, some (A.cols 0 (0 + 1))), (kQ0, none),
        (kIrc, some (A.cols 1 (1 + n))), (kHyst, some (A.cols (1 + n) ((1 + n) + 1)))]⟩ := by
      simp [circuitState_keys, Container.makeCopy, Container.fromNumpy, Container.fillFrom, Vals.to2d, Arr2.scalar, Arr2.ofRow]
    refine ⟨⟨(A.cols 0 (0 + 1)).toNd, none, (A.cols 1 (1 + n)).toNd, (A.cols (1 + n) ((1 + n) + 1)).toNd⟩, ?_, ?_, ?_, rfl, ?_, ?_⟩
    · rw [hfill]
      rfl
    · rw [rows, cols_shape (by omega)]; rfl
    · rw [rows, cols_shape (by omega)]; rfl
    · rintro a rfl
      exact ⟨.inr (cols_shape (by omega)), by simp, .inr (cols_shape (by omega)), .inr (cols_shape (by omega))⟩
    · intro i hi
      unfold stAt St.ofVec
      simp only [Option.map_none, Bool.false_eq_true, if_false]
      rw [cols_at2 (by omega) hi, hirc 1 i hi (by omega), cols_at2 (by omega) hi]
  | true =>
    simp only [if_true] at hA
    have hfill : (circuitState true n).makeCopy (.d2 A) = ⟨[(kSoc, some (A.cols 0 (0 + 1))), (kQ0, some (A.cols 1 (1 + 1))),
        (kIrc, some (A.cols 2 (2 + n))), (kHyst, some (A.cols (2 + n) ((2 + n) + 1)))]⟩ := by
      simp [circuitState_keys, Container.makeCopy, Container.fromNumpy, Container.fillFrom, Vals.to2d, Arr2.scalar, Arr2.ofRow]
    refine ⟨⟨(A.cols 0 (0 + 1)).toNd, some (A.cols 1 (1 + 1)).toNd, (A.cols 2 (2 + n)).toNd, (A.cols (2 + n) ((2 + n) + 1)).toNd⟩,
      ?_, ?_, ?_, rfl, ?_, ?_⟩
    · rw [hfill]
      rfl
    · rw [rows, cols_shape (by omega)]; rfl
    · rw [rows, cols_shape (by omega)]; rfl
    · rintro a rfl
      refine ⟨.inr (cols_shape (by omega)), ?_, .inr (cols_shape (by omega)), .inr (cols_shape (by omega))⟩
      intro q hq
      cases hq
      exact .inr (cols_shape (by omega))
    · intro i hi
      unfold stAt St.ofVec
      simp only [Option.map_some, if_true]
      rw [cols_at2 (by omega) hi, cols_at2 (by omega) hi, hirc 2 i hi (by omega), cols_at2 (by omega) hi]

theorem readInput_copy (measured : Bool) (l : List ℝ) (hl : l.length = 2 + (if measured then 1 else 0)) :
    ∃ i, readInput ((circuitInput measured).makeCopy (.d1 l)) = .ok i ∧ (∀ K, Ins K i) ∧ i.temp.isSome = measured ∧
      ∀ b, inAt i b = In.ofVec measured l := by
  have hn : (Arr2.ofRow l).nrow = 1 := rfl
  have hc : (Arr2.ofRow l).ncol = l.length := rfl
  have at0 : ∀ lo b, lo + 1 ≤ l.length → at2 ((Arr2.ofRow l).cols lo (lo + 1)).toNd b = l.getD lo 0 := by
    intro lo b h
    have e : at2 ((Arr2.ofRow l).cols lo (lo + 1)).toNd b = at2 ((Arr2.ofRow l).cols lo (lo + 1)).toNd 0 := by
      unfold at2; rw [rows, cols_shape (by rw [hc]; exact h), List.getD_cons_zero, hn]; simp
    rw [e, cols_at2 (by rw [hc]; exact h) (by rw [hn]; omega)]
    rfl
  have sc : ∀ K lo, lo + 1 ≤ l.length → Scalar K ((Arr2.ofRow l).cols lo (lo + 1)).toNd := by
    intro K lo h
    exact .inl (cols_shape (by rw [hc]; exact h))
  cases measured with
  | false =>
    simp only [Bool.false_eq_true, if_false, Nat.add_zero] at hl
    have hfill : (circuitInput false).makeCopy (.d1 l) = ⟨[(kTime, some ((Arr2.ofRow l).cols 0 (0 + 1))),
        (kCurrent, some ((Arr2.ofRow l).cols 1 (1 + 1))), (kTemp, none)]⟩ := by
      simp [circuitInput_keys, Container.makeCopy, Container.fromNumpy, Container.fillFrom, Vals.to2d, Arr2.scalar, Arr2.ofRow]
    refine ⟨⟨((Arr2.ofRow l).cols 0 (0 + 1)).toNd, ((Arr2.ofRow l).cols 1 (1 + 1)).toNd, none⟩, ?_, fun K => ⟨?_, ?_, by simp⟩, rfl, ?_⟩
    · rw [hfill]; rfl
    · exact sc K 0 (by omega)
    · exact sc K 1 (by omega)
    · intro b
      unfold inAt In.ofVec
      simp only [Option.map_none, Bool.false_eq_true, if_false]
      rw [at0 0 b (by omega), at0 1 b (by omega)]
  | true =>
    simp only [if_true] at hl
    have hfill : (circuitInput true).makeCopy (.d1 l) = ⟨[(kTime, some ((Arr2.ofRow l).cols 0 (0 + 1))),
        (kCurrent, some ((Arr2.ofRow l).cols 1 (1 + 1))), (kTemp, some ((Arr2.ofRow l).cols 2 (2 + 1)))]⟩ := by
      simp [circuitInput_keys, Container.makeCopy, Container.fromNumpy, Container.fillFrom, Vals.to2d, Arr2.scalar, Arr2.ofRow]
    refine ⟨⟨((Arr2.ofRow l).cols 0 (0 + 1)).toNd, ((Arr2.ofRow l).cols 1 (1 + 1)).toNd, some ((Arr2.ofRow l).cols 2 (2 + 1)).toNd⟩,
      ?_, fun K => ⟨?_, ?_, ?_⟩, rfl, ?_⟩
    · rw [hfill]; rfl
    · exact sc K 0 (by omega)
    · exact sc K 1 (by omega)
    · intro t ht
      cases ht
      exact sc K 2 (by omega)
    · intro b
      unfold inAt In.ofVec
      simp only [Option.map_some, if_true]
      rw [at0 0 b (by omega), at0 1 b (by omega), at0 2 b (by omega)]

/-! ## Writing containers -/

theorem toArr2_shape {a : Nd ℝ} {r w : Nat} (h : a.shape = [r, w]) : a.toArr2.nrow = r ∧ a.toArr2.ncol = w := by
  simp [Nd.toArr2, Arr2.nrow, h]

theorem toArr2_row {a : Nd ℝ} {r w i : Nat} (h : a.shape = [r, w]) (hi : i < r) :
    a.toArr2.rows.getD i [] = (List.range w).map fun j => a.get [i, j] := by
  simp [Nd.toArr2, h, List.getD_eq_getElem?_getD, hi]

theorem toArr2_at2 {a : Nd ℝ} {K i : Nat} (h : Scalar K a) (hi : i < K) :
    a.toArr2.rows.getD (if a.toArr2.nrow = 1 then 0 else i) [] = [at2 a i] := by
  obtain ⟨d, e⟩ := dim_rows h
  rw [(toArr2_shape e).1]
  rw [toArr2_row e (by split <;> rcases d with d | d <;> omega)]
  rfl

theorem toArr2_irc {a : Nd ℝ} {K n i : Nat} (h : a.shape = [1, n] ∨ a.shape = [K, n]) (hi : i < K) :
    a.toArr2.rows.getD (if a.toArr2.nrow = 1 then 0 else i) [] =
      (List.range (a.shape.getD 1 0)).map fun j => a.get [if rows a = 1 then 0 else i, j] := by
  rcases h with h | h
  · rw [(toArr2_shape h).1, if_pos rfl, toArr2_row h (by omega), rows, h]; rfl
  · rw [(toArr2_shape h).1, toArr2_row h (by split <;> omega), rows, h]; rfl

/-- The matrix of a batch of states has the vector of cell `i` in row `i`. -/
theorem state_toNumpy {K : Nat} (hK : 1 ≤ K) {a : ASOH} {st : State} (hs : Sts K a st) (hr : rows st.soc = K) :
    ∃ T, st.toContainer.toNumpy = .ok T ∧ T.nrow = K ∧ T.ncol = 1 + (if st.q0.isSome then 1 else 0) + a.rcs.length + 1 ∧
      ∀ i < K, T.rows.getD i [] = (stAt st i).toVec := by
  have hheld : Spec.held st.toContainer = (kSoc, st.soc.toArr2) :: ((st.q0.toList.map fun q => (kQ0, q.toArr2)) ++
      [(kIrc, st.irc.toArr2), (kHyst, st.hyst.toArr2)]) := by
    unfold State.toContainer Spec.held
    cases st.q0 <;> rfl
  have hdim : ∀ {q : Nd ℝ}, Scalar K q → (q.toArr2.nrow = 1 ∨ q.toArr2.nrow = K) ∧ q.toArr2.ncol = 1 := by
    intro q hq
    rcases hq with h | h <;> simp [toArr2_shape h]
  have hi2 : (st.irc.toArr2.nrow = 1 ∨ st.irc.toArr2.nrow = K) ∧ st.irc.toArr2.ncol = a.rcs.length := by
    rcases hs.irc with h | h <;> simp [toArr2_shape h]
  have hall : ∀ p ∈ Spec.held st.toContainer, p.2.nrow = 1 ∨ p.2.nrow = K := by
    intro p hp
    rw [hheld] at hp
    simp only [List.mem_cons, List.mem_append, List.mem_map, Option.mem_toList, List.not_mem_nil, or_false] at hp
    rcases hp with rfl | ⟨q, hq, rfl⟩ | rfl | rfl
    · exact (hdim hs.soc).1
    · exact (hdim (hs.q0 q hq)).1
    · exact hi2.1
    · exact (hdim hs.hyst).1
  have hsoc : st.soc.toArr2.nrow = K := by
    obtain ⟨_, e⟩ := dim_rows hs.soc
    rw [(toArr2_shape e).1, hr]
  have hb : st.toContainer.batchSize = .ok K := by
    rcases container_batch hK hall with h | ⟨h, h1⟩
    · exact h
    · have := h1 (kSoc, st.soc.toArr2) (by rw [hheld]; simp)
      rw [h, ← hsoc, this]
  obtain ⟨T, h1, h2, h3⟩ := hcat_rows (l := (Spec.held st.toContainer).map fun p => expandTo K p.2) (r := K)
    (by rw [hheld]; simp) (by
      intro x hx
      obtain ⟨p, hp, rfl⟩ := List.mem_map.1 hx
      exact (expandTo_rows hK (hall p hp)).1)
  refine ⟨T, by rw [toNumpy_eq hb, h1], by simp [Arr2.nrow, h3], ?_, ?_⟩
  · rw [h2]
    have hcol : ∀ x : Arr2 ℝ, (expandTo K x).ncol = x.ncol := by
      intro x; unfold expandTo; split <;> rfl
    rw [hheld]
    simp only [List.map_cons, List.map_append, List.map_map, List.sum_cons, List.sum_append, List.map_nil, List.sum_nil, hcol,
      (hdim hs.soc).2, (hdim hs.hyst).2, hi2.2]
    cases hq : st.q0 with
    | none => simp; omega
    | some q => simp [hcol, (hdim (hs.q0 q hq)).2]; omega
  · intro i hi
    rw [h3]
    simp only [List.getD_eq_getElem?_getD, List.getElem?_map, List.getElem?_range hi, Option.map_some, Option.getD_some]
    rw [List.flatMap_map]
    have : ∀ p ∈ Spec.held st.toContainer, (expandTo K p.2).rows[i]?.getD [] = p.2.rows.getD (if p.2.nrow = 1 then 0 else i) [] := by
      intro p hp
      rw [← List.getD_eq_getElem?_getD]
      exact (expandTo_rows hK (hall p hp)).2 i hi
    rw [flatMap_congr' this, hheld]
    simp only [List.flatMap_cons, List.flatMap_append, List.flatMap_nil, List.append_nil]
    rw [toArr2_at2 hs.soc hi, toArr2_at2 hs.hyst hi, toArr2_irc hs.irc hi]
    unfold St.toVec stAt
    simp only [List.singleton_append, List.cons.injEq, true_and]
    cases hq : st.q0 with
    | none => rfl
    | some q =>
      simp only [Option.toList_some, List.map_cons, List.map_nil, List.flatMap_cons, List.flatMap_nil, List.append_nil, Option.map_some]
      rw [toArr2_at2 (hs.q0 q hq) hi]

theorem voltage_toNumpy {K : Nat} (hK : 1 ≤ K) {v : Nd ℝ} (h : v.shape = [K, 1]) :
    ∃ T, (voltageContainer v).toNumpy = .ok T ∧ T.nrow = K ∧ T.ncol = 1 ∧ ∀ i < K, T.rows.getD i [] = [at2 v i] := by
  have hheld : Spec.held (voltageContainer v) = [(kVoltage, v.toArr2)] := rfl
  obtain ⟨e1, e2⟩ := toArr2_shape h
  have hb : (voltageContainer v).batchSize = .ok K := by
    rcases container_batch (c := voltageContainer v) hK (by rw [hheld]; simp [e1]) with h | ⟨h, h1⟩
    · exact h
    · have := h1 _ (by rw [hheld]; simp; rfl)
      rw [h, ← e1, this]
  have hex : expandTo K v.toArr2 = v.toArr2 := by
    unfold expandTo
    rw [if_neg (by rw [e1]; omega)]
  refine ⟨v.toArr2, ?_, e1, e2, fun i hi => ?_⟩
  · rw [toNumpy_eq hb, hheld]
    simp only [List.map_cons, List.map_nil, hex]
    rfl
  · have := toArr2_at2 (.inr h : Scalar K v) hi
    rw [e1] at this
    rw [← this]
    congr 1
    split <;> omega

end Verif.Ecm
