import Verif.Proofs.EcmHidden
import Verif.Props.EcmReturns
/-!
# How many rows the results of the equivalent-circuit code have
-/

namespace Verif.Cell
open Verif Nd Ecm

/-! ## Broadcasting -/

theorem bdim_one {a b d : Nat} (h : bdim a b = some d) : d = 1 ↔ a = 1 ∧ b = 1 := by
  unfold bdim at h
  repeat' split at h
  all_goals first | cases h | skip
  all_goals simp_all

theorem bdims_one : ∀ {s t r : List Nat}, bdims s t = some r → ((∀ d ∈ r, d = 1) ↔ (∀ d ∈ s, d = 1) ∧ ∀ d ∈ t, d = 1)
  | [], t, r, h => by
    simp only [bdims, Option.some.injEq] at h
    subst h
    simp
  | a :: s, [], r, h => by
    simp only [bdims, Option.some.injEq] at h
    subst h
    simp
  | a :: s, b :: t, r, h => by
    rw [bdims] at h
    split at h
    · rename_i d r' h1 h2
      cases h
      have e1 := bdim_one h1
      have e2 := bdims_one h2
      simp only [List.forall_mem_cons, e1, e2]
      constructor
      · rintro ⟨⟨x1, x2⟩, x3, x4⟩; exact ⟨⟨x1, x3⟩, x2, x4⟩
      · rintro ⟨⟨x1, x2⟩, x3, x4⟩; exact ⟨⟨x1, x3⟩, x2, x4⟩
    · cases h

theorem allOne_map2_iff {α β γ : Type} {a : Nd α} {c : Nd β} {r : Nd γ} {f : α → β → γ} (h : map2 f a c = .ok r) :
    AllOne r ↔ AllOne a ∧ AllOne c := by
  unfold map2 at h
  split at h
  · cases h
  · rename_i s hs
    cases h
    unfold bshape at hs
    rw [Option.map_eq_some_iff] at hs
    obtain ⟨r, h1, rfl⟩ := hs
    have := bdims_one h1
    simp only [List.mem_reverse] at this
    unfold AllOne
    simp only [List.mem_reverse, this]

theorem allOne_map {α β : Type} {a : Nd α} {f : α → β} : AllOne (a.map f) ↔ AllOne a := Iff.rfl

theorem rows_map {α β : Type} {a : Nd α} {f : α → β} : rows (a.map f) = rows a := rfl

theorem rows_map2 {a c r : Nd ℝ} {f : ℝ → ℝ → ℝ} (h : map2 f a c = .ok r) (ha : a.shape.length = 2) (hc : c.shape.length = 2) :
    (rows r = 1 ↔ rows a = 1 ∧ rows c = 1) ∧ r.shape.length = 2 := by
  obtain ⟨sa, ga⟩ := a
  obtain ⟨sc, gc⟩ := c
  match sa, ha, sc, hc with
  | [n, m], _, [n', m'], _ =>
    unfold map2 at h
    split at h
    · cases h
    · rename_i s hs
      cases h
      simp only [bshape, List.reverse_cons, List.reverse_nil, List.nil_append, List.cons_append, bdims, Option.map_eq_some_iff] at hs
      obtain ⟨r, h1, rfl⟩ := hs
      cases e1 : bdim m m' with
      | none => rw [e1] at h1; simp at h1
      | some d1 =>
        cases e2 : bdim n n' with
        | none => rw [e1, e2] at h1; simp at h1
        | some d2 =>
          rw [e1, e2] at h1
          simp only [Option.some.injEq] at h1
          subst h1
          exact ⟨bdim_one e2, rfl⟩

/-- For scalars: one row. -/
theorem allOne_scalar {K : Nat} {a : Nd ℝ} (h : Scalar K a) : AllOne a ↔ rows a = 1 := by
  rcases h with h | h <;> simp [AllOne, rows, h]

theorem allOne_shape3 {a : Nd ℝ} {p q : Nat} (h : a.shape = [p, q, 1]) : AllOne a ↔ p = 1 ∧ q = 1 := by
  simp [AllOne, h]

theorem enforce0_one {a r : Nd ℝ} (h : enforce0 a = .ok r) (hl : ∃ n, a.shape = [n, 1]) : rows r = 1 ↔ rows a = 1 := by
  obtain ⟨n, hs⟩ := hl
  unfold enforce0 at h
  split at h
  · cases h
  · unfold reshape at h
    split at h
    · cases h; simp [rows, size, hs]
    · cases h

theorem flattenVt_one {K p q : Nat} (_hK : 1 ≤ K) {h y : Nd ℝ} (hp : Dim K p) (hq : Dim K q) (hs : h.shape = [p, q, 1]) (hy : flattenVt h = .ok y) :
    (rows y = 1 ↔ AllOne h) ∧ ∃ n, y.shape = [n, 1] := by
  rw [allOne_shape3 hs]
  unfold flattenVt at hy
  simp only [bind_ok, diag01, hs, List.getD_cons_zero, List.getD_cons_succ] at hy
  obtain ⟨h', hd, h3⟩ := hy
  by_cases hpq : p = q
  · subst hpq
    simp only [if_true, diagonal01, hs, Except.map, Except.ok.injEq] at hd
    subst hd
    rw [show min p p = p by omega] at h3
    simp [swapaxes, swapAt, size, reshape] at h3
    subst h3
    exact ⟨by simp [rows], _, rfl⟩
  · simp only [if_neg hpq, Except.ok.injEq] at hd
    subst hd
    have h1 : p = 1 ∨ q = 1 := by
      rcases hp with h | h
      · exact .inl h
      · rcases hq with h' | h'
        · exact .inr h'
        · exact absurd (h.trans h'.symm) hpq
    simp only [hs, List.getD_cons_zero, List.getD_cons_succ, if_pos h1] at h3
    simp [size, reshape, hs] at h3
    subst h3
    exact ⟨by simp [rows], _, rfl⟩

theorem flattenHyst_one {K p q : Nat} (_hK : 1 ≤ K) {h y : Nd ℝ} (hp : Dim K p) (hq : Dim K q) (hs : h.shape = [p, q, 1]) (hy : flattenHyst h = .ok y) :
    (rows y = 1 ↔ AllOne h) ∧ ∃ n, y.shape = [n, 1] := by
  rw [allOne_shape3 hs]
  unfold flattenHyst at hy
  rw [if_neg (by simp [hs])] at hy
  simp only [bind_ok, diag01, hs, List.getD_cons_zero, List.getD_cons_succ] at hy
  obtain ⟨h', hd, h3⟩ := hy
  unfold reshape at h3
  split at h3
  swap
  · cases h3
  cases h3
  refine ⟨?_, _, rfl⟩
  have fl : ∀ (l : List Nat), (l.filter (· ≠ 1)).foldr (· * ·) 1 = l.foldr (· * ·) 1 := by
    intro l
    induction l with
    | nil => rfl
    | cons a l ih =>
      rw [List.filter_cons]
      split
      · rw [List.foldr_cons, List.foldr_cons, ih]
      · rename_i h
        simp only [ne_eq, decide_not, Bool.not_eq_true, Bool.not_eq_false', decide_eq_true_eq] at h
        rw [List.foldr_cons, ih, h, one_mul]
  have hsz : h'.squeeze.size = h'.size := by simp only [squeeze, size]; exact fl _
  simp only [rows, List.getD_cons_zero, hsz]
  by_cases hpq : p = q
  · subst hpq
    simp only [if_true, diagonal01, hs, Except.map, Except.ok.injEq] at hd
    subst hd
    simp [swapaxes, swapAt, size]
  · simp only [if_neg hpq, Except.ok.injEq] at hd
    subst hd
    simp [size, hs]

/-! ## The terminal voltage -/

theorem ocv_shape {K : Nat} (hK : 1 ≤ K) {o : OCV} (h1 : Curve K o.ref) {soc : Nd ℝ} (hs : Scalar K soc) {temp : Option (Nd ℝ)} {y : Nd ℝ}
    (hy : o.getValue soc temp = .ok y) : y.shape = [o.ref.rows, rows soc, 1] := by
  obtain ⟨rs, ls⟩ := rel_scalar hs
  unfold OCV.getValue at hy
  simp only [bind_ok] at hy
  obtain ⟨v, a1, hy⟩ := hy
  obtain ⟨-, g2⟩ := getValue_rel hK h1 rs ls a1
  cases temp with
  | none => cases hy; exact g2
  | some t =>
    simp only [bind_ok] at hy
    obtain ⟨d, -, e, -, c, -, hy⟩ := hy
    unfold inplace at hy
    split at hy
    · cases hy
    · split at hy
      · rename_i hsh
        cases hy
        rw [hsh, g2]
      · cases hy

theorem addRC_one {K : Nat} (hK : 1 ≤ K) {vt soc irc y : Nd ℝ} {rcs : List Ecm.RC} {temp : Option (Nd ℝ)}
    (hrcs : ∀ rc ∈ rcs, Res K rc.r) (hsoc : Scalar K soc) (ht : ∀ t ∈ temp, Scalar K t) (hi : irc.shape = [1, rcs.length] ∨ irc.shape = [K, rcs.length])
    (hu : ∀ rc ∈ rcs, UsableRes rc.r temp) (htr : ∀ t ∈ temp, rows t = 1 ∨ rows t = rows soc) (h : addRC vt soc irc temp rcs = .ok y) :
    AllOne y ↔ AllOne vt ∧ (rcs ≠ [] → rows irc = 1 ∧ rows soc = 1 ∧ ∀ rc ∈ rcs, rc.r.interp.rows = 1) := by
  unfold addRC at h
  obtain ⟨N, hN, hsi⟩ : ∃ N, Dim K N ∧ irc.shape = [N, rcs.length] := by
    rcases hi with h | h
    · exact ⟨1, .inl rfl, h⟩
    · exact ⟨K, .inr rfl, h⟩
  rw [hsi] at h
  simp only [List.getD_cons_zero, List.getD_cons_succ] at h
  by_cases h0 : rcs.length = 0
  · rw [if_pos h0] at h
    cases h
    have : rcs = [] := List.length_eq_zero_iff.1 h0
    simp [this]
  · rw [if_neg h0] at h
    simp only [bind_ok] at h
    obtain ⟨l, a1, st, a2, dr, a3, sm, a4, a5⟩ := h
    have hf := mapM_ok a1
    have hlen : l.length = rcs.length := hf.length_eq.symm
    have hshape : ∀ (j : Nat) (hj : j < rcs.length) (hj' : j < l.length), l[j].shape = [rcs[j].r.interp.rows, rows soc, 1] := by
      intro j hj hj'
      have := hf.get hj hj'
      have hm : rcs[j] ∈ rcs := List.getElem_mem hj
      obtain ⟨y, e1, e2⟩ := resistance_ok hK (hrcs _ hm) hsoc ht (hu _ hm)
      have e3 : rcs[j].r.getValue soc temp = .ok l[j] := this
      cases e1.symm.trans e3
      rw [e2, stateRows_soc htr]
    cases l with
    | nil => exact absurd hlen.symm h0
    | cons x l =>
      have hx := hshape 0 (by omega) (by simp)
      simp only [List.getElem_cons_zero] at hx
      rw [stack] at a2
      split at a2
      swap
      · cases a2
      rename_i hall
      cases a2
      have hP : ∀ rc ∈ rcs, rc.r.interp.rows = (rcs[0]'(by omega)).r.interp.rows := by
        intro rc hrc
        obtain ⟨j, hj, rfl⟩ := List.mem_iff_getElem.1 hrc
        have e := hshape j hj (by omega)
        have e' : ((x :: l)[j]'(by omega)).shape = x.shape := by
          rcases List.mem_cons.1 (List.getElem_mem (l := x :: l) (n := j) (by omega)) with h' | h'
          · rw [h']
          · exact hall _ h'
        rw [e', hx] at e
        simp only [List.cons.injEq] at e
        exact e.1.symm
      obtain ⟨P, hPd⟩ : ∃ P, P = (rcs[0]'(by omega)).r.interp.rows := ⟨_, rfl⟩
      rw [← hPd] at hx hP
      obtain ⟨B, e1, e2, -⟩ := Cell.bdim_dim hN (dim_rows hsoc).1
      have hll : l.length + 1 = rcs.length := by simpa using hlen
      have hsw : ∀ g : List Nat → ℝ, (Nd.swapaxes ⟨(l.length + 1) :: x.shape, g⟩ 0 1).shape = [P, rcs.length, rows soc, 1] := by
        intro g; simp [swapaxes, swapAt, hx, hll]
      have htrs : (transposeNew irc).shape = [rcs.length, N, 1] := by simp [transposeNew, hsi]
      have self : ∀ n, bdim n n = some n := fun n => by simp [bdim]
      have hsh : bshape [rcs.length, N, 1] [P, rcs.length, rows soc, 1] = some [P, rcs.length, B, 1] := by
        simp [bshape, bdims, e1, self]
      unfold mul map2 at a3
      rw [htrs, hsw, hsh] at a3
      cases a3
      unfold sumAxis1 at a4
      simp only at a4
      cases a4
      have e := allOne_map2_iff a5
      rw [e]
      have hb := bdim_one e1
      have hsi' : rows irc = N := by simp [rows, hsi]
      refine and_congr_right fun _ => ?_
      refine (allOne_shape3 (p := P) (q := B) rfl).trans ?_
      rw [hb, hsi']
      constructor
      · rintro ⟨rfl, rfl, h3⟩ _
        exact ⟨rfl, h3, hP⟩
      · intro h
        obtain ⟨k1, k2, k3⟩ := h (by intro he; simp [he] at h0)
        exact ⟨by rw [← k3 _ (List.getElem_mem (l := rcs) (n := 0) (by omega)), hPd], k1, k2⟩

theorem voltage_one {K : Nat} (hK : 1 ≤ K) {new : Input} {st : State} {a : ASOH} {v : Nd ℝ} (ha : Pars K a)
    (hn : Ins K new) (hs : Sts K a st) (hc1 : rows new.current = 1) (ht1 : ∀ t ∈ new.temp, rows t = 1) (h : voltage new st a = .ok v) :
    (rows v = 1 ↔ rows st.soc = 1 ∧ rows st.hyst = 1 ∧ a.ocv.ref.rows = 1 ∧ a.r0.interp.rows = 1 ∧
      (∀ q ∈ st.q0, rows q = 1 ∧ ∀ c ∈ a.c0, c.rows = 1) ∧ (a.rcs ≠ [] → rows st.irc = 1 ∧ ∀ rc ∈ a.rcs, rc.r.interp.rows = 1)) ∧
    (v.shape = [1, 1] ∨ v.shape = [K, 1]) := by
  have hcan := (C29_voltage_returns_iff_partial hK ha hn hs).1 ⟨v, h⟩
  have htr : ∀ t ∈ new.temp, rows t = 1 ∨ rows t = rows st.soc := fun t h => .inl (ht1 t h)
  obtain ⟨hsc, -⟩ := voltage_rows hK ha hn hs h
  refine ⟨?_, hsc⟩
  unfold voltage at h
  simp only [bind_ok] at h
  obtain ⟨v1, a1, r0, a2, ir, a3, v2, a4, v3, a5, v4, a6, v5, a7, v6, a8, a9⟩ := h
  obtain ⟨t1, u1⟩ := rel_scalar hn.current
  obtain ⟨t2, u2⟩ := rel_scalar hs.soc
  obtain ⟨t3, u3⟩ := rel_scalar hs.hyst
  have ht := tempRel hn.temp
  obtain ⟨b1, c1⟩ := ocv_rel hK ha.ref ha.refTemp ha.ent t2 u2 ht a1
  have s1 := ocv_shape hK ha.ref hs.soc a1
  obtain ⟨b2, c2⟩ := resistance_rel hK ha.r0 t2 u2 ht a2
  obtain ⟨y, e1, s2⟩ := resistance_ok hK ha.r0 hs.soc hn.temp hcan.r0
  cases e1.symm.trans a2
  rw [stateRows_soc htr] at s2
  obtain ⟨b3, c3⟩ := rel_map2' a3 t1 b2
  obtain ⟨b4, c4⟩ := rel_map2' a4 b1 b3
  have l4 : v2.shape.length = 3 := by rw [c4, c3, c1, c2, u1]; rfl
  have o2 : AllOne v2 ↔ rows st.soc = 1 ∧ a.ocv.ref.rows = 1 ∧ a.r0.interp.rows = 1 := by
    rw [allOne_map2_iff a4, allOne_map2_iff a3, allOne_shape3 s1, allOne_shape3 s2, allOne_scalar hn.current]
    constructor
    · rintro ⟨⟨x1, x2⟩, x3, x4, x5⟩; exact ⟨x2, x1, x4⟩
    · rintro ⟨x1, x2, x3⟩; exact ⟨⟨x2, x1⟩, hc1, x3, x1⟩
  have h5 : (∃ f, Rel K v3 f ∧ v3.shape.length = 3) ∧
      (AllOne v3 ↔ AllOne v2 ∧ ∀ q ∈ st.q0, (rows q = 1 ∧ (rows st.soc = 1 ∧ ∀ c ∈ a.c0, c.rows = 1))) := by
    unfold addC0 at a5
    cases hq : st.q0 with
    | none =>
      rw [hq] at a5
      cases a5
      exact ⟨⟨_, b4, l4⟩, by simp⟩
    | some q =>
      rw [hq] at a5
      cases hc : a.c0 with
      | none => rw [hc] at a5; cases a5
      | some c =>
        rw [hc] at a5
        simp only [bind_ok] at a5
        obtain ⟨cv, d1, qc, d2, d3⟩ := a5
        have hqs := hs.q0 q (by rw [hq]; rfl)
        obtain ⟨tq, uq⟩ := rel_scalar hqs
        obtain ⟨e1, f1⟩ := getValue_rel hK (ha.c0 c (by rw [hc]; rfl)) t2 u2 d1
        obtain ⟨e2, f2⟩ := rel_map2' d2 tq e1
        obtain ⟨e3, f3⟩ := rel_map2' d3 b4 e2
        refine ⟨⟨_, e3, by rw [f3, f2, f1, uq, l4]; rfl⟩, ?_⟩
        rw [allOne_map2_iff d3, allOne_map2_iff d2, allOne_scalar hqs, allOne_shape3 f1]
        simp only [Option.mem_def, Option.some.injEq, forall_eq']
        refine and_congr_right fun _ => and_congr_right fun _ => ?_
        exact and_comm
  obtain ⟨⟨f, b5, l5⟩, o3⟩ := h5
  obtain ⟨b6, l6⟩ := addRC_rel hK (fun rc hrc => (ha.rcs rc hrc).1) b5 l5 t2 u2 ht (wide_irc hs.irc) a6
  have o4 := addRC_one hK (fun rc hrc => (ha.rcs rc hrc).1) hs.soc hn.temp hs.irc hcan.rcs htr a6
  obtain ⟨b7, c7⟩ := rel_map2' a7 b6 t3
  have l7 : v5.shape.length = 3 := by rw [c7, l6, u3]; rfl
  obtain ⟨p, q, hp, hq, hs5, -⟩ := b7.shape3 l7
  obtain ⟨o6, hsh⟩ := flattenVt_one hK hp hq hs5 a8
  rw [enforce0_one a9 hsh, o6, allOne_map2_iff a7, allOne_scalar hs.hyst, o4, o3, o2]
  constructor
  · rintro ⟨⟨⟨⟨x1, x2, x3⟩, x4⟩, x5⟩, x6⟩
    exact ⟨x1, x6, x2, x3, fun q hq => ⟨(x4 q hq).1, (x4 q hq).2.2⟩, fun h => ⟨(x5 h).1, (x5 h).2.2⟩⟩
  · rintro ⟨x1, x2, x3, x4, x5, x6⟩
    exact ⟨⟨⟨⟨x1, x3, x4⟩, fun q hq => ⟨(x5 q hq).1, x1, (x5 q hq).2⟩⟩, fun h => ⟨(x6 h).1, x1, (x6 h).2⟩⟩, x2⟩

/-! ## The transient update -/

theorem hystSolver_one {h0 M kappa dt i0 alpha y : Nd ℝ} (hd : AllOne dt) (hi : AllOne i0) (ha : AllOne alpha)
    (h : hystSolver h0 M kappa dt i0 alpha = .ok y) : AllOne y ↔ AllOne h0 ∧ AllOne M ∧ AllOne kappa := by
  classical
  unfold hystSolver at h
  simp only [bind_ok] at h
  obtain ⟨ad, a1, en, a2, pr, a3, t1, a4, h⟩ := h
  split at h
  · cases h
  simp only [bind_ok] at h
  obtain ⟨e1, a5, md, a6, mid, a7, e2, a8, dr, a9, cm, a10, pos, a11, h1, a12, h2, a13, a14⟩ := h
  have key : ∀ p : Bool, AllOne (if p = true then e2.map fun x => -x else e2) ↔ AllOne e2 := by
    intro p; cases p
    · exact Iff.rfl
    · exact Iff.rfl
  have i1 := allOne_map2_iff a14
  have i2 := allOne_map2_iff a13
  have i3 := allOne_map2_iff a12
  have i4 := allOne_map2_iff a8
  have i5 := allOne_map2_iff a7
  have i6 := allOne_map2_iff a6
  have i7 := allOne_map2_iff a5
  simp only [allOne_map, key] at i1 i2 i3 i4 i5 i6 i7
  rw [i1, i2, i3, i4, i5, i6, i7]
  constructor
  · rintro ⟨⟨⟨⟨x1, x2⟩, x3⟩, x4⟩, ⟨_, x6⟩⟩; exact ⟨x4, x6, x1⟩
  · rintro ⟨x1, x2, x3⟩; exact ⟨⟨⟨⟨x3, hd⟩, hi, ha, hd⟩, x1⟩, ⟨⟨x3, hd⟩, hi, ha, hd⟩, x2⟩

theorem hystEvolve_one {beh : Behavior} {same : Bool} {h0 M kappa dt i0 alpha y : Nd ℝ} (hd : AllOne dt) (hi : AllOne i0) (ha : AllOne alpha)
    (h : hystEvolve beh same h0 M kappa dt i0 alpha = .ok y) : AllOne y ↔ AllOne h0 ∧ AllOne M ∧ AllOne kappa := by
  unfold hystEvolve at h
  split at h
  · exact hystSolver_one hd hi ha h
  · simp only [bind_ok] at h
    obtain ⟨phi, a1, mid, a2, rest, a3, a4⟩ := h
    have hphi : AllOne phi := (allOne_map2_iff a1).2 ⟨hi, ha⟩
    have hrest : AllOne rest := (allOne_map2_iff a3).2 ⟨hd, hphi⟩
    rw [hystSolver_one hrest (by simp [AllOne, num]) ha a4, hystSolver_one hphi hi ha a2, allOne_map]
    constructor
    · rintro ⟨⟨x1, x2, x3⟩, x4⟩; exact ⟨x1, x2, x3⟩
    · rintro ⟨x1, x2, x3⟩; exact ⟨⟨x1, x2, x3⟩, x2, x3⟩

theorem updateHyst_one {K : Nat} (hK : 1 ≤ K) {beh : Behavior} {dt ck ck1 slope eff qt soc hyst gamma y : Nd ℝ} {par : Interp}
    (hpar : Curve K par) (hsoc : Scalar K soc) (he : Scalar K eff) (hq : Scalar K qt) (hg : Scalar K gamma) (hh : Scalar K hyst)
    (hc' : Scalar K ck) (hd' : Scalar K dt) (hs' : Scalar K slope) (hd : AllOne dt) (hc : AllOne ck) (hs : AllOne slope)
    (h : updateHyst beh dt ck ck1 slope eff qt soc hyst par gamma = .ok y) :
    (rows y = 1 ↔ rows hyst = 1 ∧ rows soc = 1 ∧ par.rows = 1 ∧ rows eff = 1 ∧ rows gamma = 1 ∧ rows qt = 1) ∧ ∃ n, y.shape = [n, 1] := by
  classical
  unfold updateHyst at h
  simp only [bind_ok] at h
  obtain ⟨m0, a1, m1, a2, M, a3, eg, a4, kap, a5, pr, a6, same, a7, hy, a8, a9⟩ := h
  obtain ⟨rs, ls⟩ := rel_scalar hsoc
  obtain ⟨g1, g2⟩ := getValue_rel hK hpar rs ls a1
  obtain ⟨rc, lc⟩ := rel_scalar hc'
  obtain ⟨b2, c2⟩ := rel_map2' a2 g1 rc
  have c2' : m1.shape.length = 3 := by rw [c2, g2, lc]; rfl
  have oM1 : AllOne m1 ↔ rows soc = 1 ∧ par.rows = 1 := by
    rw [allOne_map2_iff a2, allOne_shape3 g2]
    constructor
    · rintro ⟨⟨x1, x2⟩, -⟩; exact ⟨x2, x1⟩
    · rintro ⟨x1, x2⟩; exact ⟨⟨x2, x1⟩, hc⟩
  have hM : (∃ f, Rel K M f ∧ M.shape.length = 3) ∧ (AllOne M ↔ AllOne m1) := by
    unfold normaliseM at a3
    split at a3
    · cases a3; exact ⟨⟨_, b2, c2'⟩, Iff.rfl⟩
    · obtain ⟨b3, c3⟩ := rel_map2' a3 b2 (rel_map abs rc)
      refine ⟨⟨_, b3, by rw [c3, c2']; show max 3 ck.shape.length = 3; rw [lc]; rfl⟩, ?_⟩
      rw [allOne_map2_iff a3]
      exact ⟨fun h => h.1, fun h => ⟨h, hc⟩⟩
  obtain ⟨⟨fM, rM, lM⟩, oM⟩ := hM
  obtain ⟨re, le'⟩ := rel_scalar he
  obtain ⟨rg, lg⟩ := rel_scalar hg
  obtain ⟨rq, lq⟩ := rel_scalar hq
  obtain ⟨rh, lh⟩ := rel_scalar hh
  obtain ⟨rd, ld⟩ := rel_scalar hd'
  obtain ⟨rsl, lsl⟩ := rel_scalar hs'
  obtain ⟨b4, c4⟩ := rel_map2' a4 re rg
  obtain ⟨b5, c5⟩ := rel_map2' a5 b4 rq
  have lk : kap.shape.length = 2 := by rw [c5, c4, le', lg, lq]; rfl
  have ok : AllOne kap ↔ rows eff = 1 ∧ rows gamma = 1 ∧ rows qt = 1 := by
    rw [allOne_map2_iff a5, allOne_map2_iff a4, allOne_scalar he, allOne_scalar hg, allOne_scalar hq, and_assoc]
  have oy := hystEvolve_one hd hc hs a8
  obtain ⟨f, rhy⟩ : ∃ f, Rel K hy f := by
    unfold hystEvolve at a8
    split at a8
    · exact ⟨_, (hystSolver_rel rh rM b5 rd rc rsl a8).1⟩
    · simp only [bind_ok] at a8
      obtain ⟨phi, d1, mid, d2, rest, d3, d4⟩ := a8
      obtain ⟨e1, _⟩ := rel_map2' d1 (rel_map (fun x => -x) rc) rsl
      obtain ⟨s1, _, _⟩ := hystSolver_rel rh rM b5 e1 rc rsl d2
      obtain ⟨e3, _⟩ := rel_map2' d3 rd e1
      exact ⟨_, (hystSolver_rel s1 (rel_map (fun x => -x) rM) b5 e3 (rel_num K 0) rsl d4).1⟩
  have l3 : hy.shape.length = 3 := by
    unfold flattenHyst at a9
    split at a9
    · cases a9
    · rename_i hx; exact not_not.1 hx
  obtain ⟨p, q, hp, hq', hsh, -⟩ := rhy.shape3 l3
  obtain ⟨o, sh⟩ := flattenHyst_one hK hp hq' hsh a9
  refine ⟨?_, sh⟩
  rw [o, oy, oM, oM1, ok, allOne_scalar hh]
  constructor
  · rintro ⟨x1, ⟨x2, x3⟩, x4⟩; exact ⟨x1, x2, x3, x4⟩
  · rintro ⟨x1, x2, x3, x4⟩; exact ⟨x1, ⟨x2, x3⟩, x4⟩

theorem rcRows_one {rc : Ecm.RC} : rcRows rc = 1 ↔ rc.r.interp.rows = 1 ∧ rc.c.rows = 1 := by
  unfold rcRows
  split
  · rename_i h; simp [h]
  · rename_i h; simp [h]

theorem flattenTau_one {K n p q : Nat} (hn : 0 < n) {s y : Nd ℝ} (hp : Dim K p) (hq : Dim K q) (hs : s.shape = [n, p, q, 1])
    (h : flattenTau s = .ok y) : (rows y = 1 ↔ p = 1 ∧ q = 1) ∧ y.shape.length = 2 := by
  unfold flattenTau at h
  rw [if_neg (by simp [hs])] at h
  simp only [hs, bind_ok, pure_ok, diagTau, List.getD_cons_zero, List.getD_cons_succ] at h
  obtain ⟨t, h1, r, h2, h3⟩ := h
  subst h3
  by_cases hpq : p = q
  · subst hpq
    simp only [if_true, diagonal12, hs, Except.map, Except.ok.injEq] at h1
    subst h1
    rw [show min p p = p by omega] at h2
    have hsz : n * p / n = p := Nat.mul_div_cancel_left p hn
    simp [swapaxes, swapAt, size, reshape, hsz] at h2
    subst h2
    simp [rows, swapaxes, swapAt]
  · simp only [if_neg hpq, Except.ok.injEq] at h1
    subst h1
    have hsz : n * (p * q) / n = p * q := Nat.mul_div_cancel_left _ hn
    simp [size, reshape, hs, hsz] at h2
    subst h2
    simp [rows, swapaxes, swapAt]

theorem scalar_len {K : Nat} {a : Nd ℝ} (h : Scalar K a) : a.shape.length = 2 := by
  rcases h with h | h <;> simp [h]

theorem updateRC_one {K : Nat} (hK : 1 ≤ K) {dt cur slope soc irc y : Nd ℝ} {rcs : List Ecm.RC} {temp : Option (Nd ℝ)}
    (hrcs : ∀ rc ∈ rcs, Res K rc.r ∧ Curve K rc.c) (hd' : Scalar K dt) (hs' : Scalar K slope) (hc' : Scalar K cur)
    (hd : rows dt = 1) (hc : rows cur = 1) (hs : rows slope = 1)
    (hsoc : Scalar K soc) (ht : ∀ t ∈ temp, Scalar K t) (hi : irc.shape = [1, rcs.length] ∨ irc.shape = [K, rcs.length])
    (hu : ∀ rc ∈ rcs, UsableRes rc.r temp ∧ Usable rc.c []) (htr : ∀ t ∈ temp, rows t = 1 ∨ rows t = rows soc) (hne : rcs ≠ [])
    (h : updateRC dt cur slope soc irc temp rcs = .ok y) :
    rows y = 1 ↔ rows irc = 1 ∧ rows soc = 1 ∧ ∀ rc ∈ rcs, rcRows rc = 1 := by
  unfold updateRC at h
  have hl0 : 0 < rcs.length := List.length_pos_iff.2 hne
  have hw : irc.shape.getD 1 0 = rcs.length := by rcases hi with h | h <;> simp [h]
  have hil : irc.shape.length = 2 := by rcases hi with h | h <;> simp [h]
  rw [hw] at h
  simp only [if_neg hl0.ne', bind_ok] at h
  obtain ⟨taus, a1, st, a2, tau, a3, q, a4, i1, a5, stau, a6, dr, a7, fd, a8, i2, a9, sd, a10, a11⟩ := h
  have hf := mapM_ok a1
  have hlen : taus.length = rcs.length := hf.length_eq.symm
  have hshape : ∀ (j : Nat) (hj : j < rcs.length) (hj' : j < taus.length), taus[j].shape = [rcRows rcs[j], rows soc, 1] := by
    intro j hj hj'
    have := hf.get hj hj'
    have hm : rcs[j] ∈ rcs := List.getElem_mem hj
    obtain ⟨y, e1, e2⟩ := timeConstant_ok hK (hrcs _ hm).1 (hrcs _ hm).2 hsoc ht (hu _ hm).1 (hu _ hm).2
    have e3 : rcs[j].timeConstant soc temp = .ok taus[j] := this
    cases e1.symm.trans e3
    rw [e2, stateRows_soc htr]
  have h0 := hshape 0 hl0 (by omega)
  have hP : ∀ rc ∈ rcs, rcRows rc = rcRows (rcs[0]'hl0) := by
    cases taus with
    | nil => simp at hlen; omega
    | cons x l =>
      rw [stack] at a2
      split at a2
      swap
      · cases a2
      rename_i hall
      intro rc hrc
      obtain ⟨j, hj, rfl⟩ := List.mem_iff_getElem.1 hrc
      have e := hshape j hj (by omega)
      have e' : ((x :: l)[j]'(by omega)).shape = x.shape := by
        rcases List.mem_cons.1 (List.getElem_mem (l := x :: l) (n := j) (by omega)) with h' | h'
        · rw [h']
        · exact hall _ h'
      simp only [List.getElem_cons_zero] at h0
      rw [e', h0] at e
      simp only [List.cons.injEq] at e
      exact e.1.symm
  have hst : st.shape = [rcs.length, rcRows (rcs[0]'hl0), rows soc, 1] := by
    cases taus with
    | nil => simp at hlen; omega
    | cons x l =>
      rw [stack] at a2
      split at a2
      swap
      · cases a2
      cases a2
      simp only [List.getElem_cons_zero] at h0
      simp only [List.length_cons] at hlen
      simp [h0, hlen]
  have hdr : Dim K (rcRows (rcs[0]'hl0)) := by
    have hm : rcs[0]'hl0 ∈ rcs := List.getElem_mem hl0
    unfold rcRows
    split
    · exact (curve_dim (hrcs _ hm).2).1
    · exact (curve_dim (hrcs _ hm).1.1).1
  obtain ⟨ot, lt⟩ := flattenTau_one hl0 hdr (dim_rows hsoc).1 hst a3
  have ld := scalar_len hd'
  have ls := scalar_len hs'
  have lc := scalar_len hc'
  obtain ⟨o4, l4⟩ := rows_map2 a4 (show (dt.map fun x => -x).shape.length = 2 from ld) lt
  obtain ⟨o5, l5⟩ := rows_map2 a5 hil (show (q.map Real.exp).shape.length = 2 from l4)
  obtain ⟨o6, l6⟩ := rows_map2 a6 ls lt
  obtain ⟨o7, l7⟩ := rows_map2 a7 lc l6
  obtain ⟨o8, l8⟩ := rows_map2 a8 (show ((q.map Real.exp).map fun x => 1 - x).shape.length = 2 from l4) l7
  obtain ⟨o9, l9⟩ := rows_map2 a9 l5 l8
  obtain ⟨o10, l10⟩ := rows_map2 a10 ls ld
  obtain ⟨o11, -⟩ := rows_map2 a11 l9 l10
  simp only [rows_map] at o4 o5 o6 o7 o8 o9 o10 o11
  rw [o11, o9, o5, o8, o7, o6, o4, o10, ot]
  constructor
  · rintro ⟨⟨⟨x1, _, x2, x3⟩, _⟩, _⟩
    exact ⟨x1, x3, fun rc hrc => (hP rc hrc).trans x2⟩
  · rintro ⟨x1, x2, x3⟩
    have x4 := x3 _ (List.getElem_mem hl0)
    exact ⟨⟨⟨x1, hd, x4, x2⟩, ⟨hd, x4, x2⟩, hc, hs, x4, x2⟩, hs, hd⟩

theorem charging_of_truth {c : Nd ℝ} (hc : c.shape = [1, 1]) {b : Bool} (h : truth (c.map fun x => decide (x < 0)) = .ok b) :
    b = decide (c.get [0, 0] < 0) := by
  unfold truth at h
  rw [if_pos (by simp [size, Nd.map, hc])] at h
  simp only [Nd.map, hc, Except.ok.injEq] at h
  rw [← h]
  rfl

theorem update_one {K : Nat} (hK : 1 ≤ K) {beh : Behavior} {prev new : Input} {st st' : State} {a : ASOH} (ha : Pars K a)
    (hp : Ins K prev) (hn : Ins K new) (hs : Sts K a st) (hmv : beh = .linear → new.time.get [0, 0] ≠ prev.time.get [0, 0])
    (ht1 : ∀ t ∈ prev.temp, rows t = 1) (h : update beh prev new st a = .ok st') :
    (rows st'.soc = 1 ↔ rows st.soc = 1 ∧ rows a.qt = 1 ∧ (¬ prev.current.get [0, 0] < 0 → rows a.ce = 1)) ∧
    (∀ q' ∈ st'.q0, ∃ q ∈ st.q0, rows q' = 1 ↔ rows q = 1) ∧ (st'.q0.isSome = st.q0.isSome) ∧
    (a.rcs ≠ [] → (rows st'.irc = 1 ↔ rows st.irc = 1 ∧ rows st.soc = 1 ∧ ∀ rc ∈ a.rcs, rc.r.interp.rows = 1 ∧ rc.c.rows = 1)) ∧
    (rows st'.hyst = 1 ↔ rows st.hyst = 1 ∧ rows st.soc = 1 ∧ a.hyst.rows = 1 ∧ rows a.gamma = 1 ∧ rows a.qt = 1 ∧
      (¬ prev.current.get [0, 0] < 0 → rows a.ce = 1)) := by
  classical
  have hcan := (C28_update_returns_iff_partial hK ha hp hn hs hmv).1 ⟨st', h⟩
  have htr : ∀ t ∈ prev.temp, rows t = 1 ∨ rows t = rows st.soc := fun t h => .inl (ht1 t h)
  have hpt : prev.time.shape = [1, 1] := hcan.time.1
  have hnt : new.time.shape = [1, 1] := hcan.time.2
  have hpc : prev.current.shape = [1, 1] := hcan.current.1
  have hnc : new.current.shape = [1, 1] := hcan.current.2
  have one : ∀ {x : Nd ℝ}, x.shape = [1, 1] → AllOne x := fun h => by simp [AllOne, h]
  have sc : ∀ {x : Nd ℝ}, x.shape = [1, 1] → Scalar K x := fun h => .inl h
  have rw1 : ∀ {x : Nd ℝ}, x.shape = [1, 1] → rows x = 1 := fun h => by simp [rows, h]
  have m2 : ∀ {x y r : Nd ℝ} {f : ℝ → ℝ → ℝ}, map2 f x y = .ok r → x.shape = [1, 1] → y.shape = [1, 1] → r.shape = [1, 1] := by
    intro x y r f h hx hy
    unfold map2 at h
    rw [hx, hy] at h
    simp [bshape, bdims, bdim] at h
    rw [← h]
  unfold update at h
  simp only [bind_ok] at h
  obtain ⟨dt, a1, slp, a2, neg, a3, sd, a4, cd, a5, ch, a6, cq, a7, ec, a8, soc, a9, q0', a10, irc, a11, hy, a12,
    soc', a14, hy', a15, h⟩ := h
  simp only [pure_ok] at h
  subst h
  have hneg := charging_of_truth hpc a3
  subst hneg
  have sdt : dt.shape = [1, 1] := m2 a1 hnt hpt
  have sslp : slp.shape = [1, 1] := by
    cases beh with
    | constant => cases a2; rfl
    | linear =>
      simp only [currentSlope, bind_ok] at a2
      obtain ⟨d, e1, e2⟩ := a2
      exact m2 e2 (m2 e1 hnc hpc) sdt
  have ssd : sd.shape = [1, 1] := m2 a4 sslp sdt
  have scd : cd.shape = [1, 1] := m2 a5 hpc ssd
  have sch : ch.shape = [1, 1] := m2 a6 sdt scd
  obtain ⟨eff, heff⟩ : ∃ eff, eff = (if decide (prev.current.get [0, 0] < 0) = true then num2 1 else a.ce) := ⟨_, rfl⟩
  rw [← heff] at a8 a12
  have heS : Scalar K eff := by
    rw [heff]; split
    · exact .inl rfl
    · exact ha.ce
  have heO : rows eff = 1 ↔ (¬ prev.current.get [0, 0] < 0 → rows a.ce = 1) := by
    rw [heff]
    by_cases hx : prev.current.get [0, 0] < 0
    · simp [hx, rows, num2]
    · simp [hx]
  have hqS : Scalar K (capacityValue a.qt) := ha.qt
  have lq : (capacityValue a.qt).shape.length = 2 := scalar_len ha.qt
  obtain ⟨o7, l7⟩ := rows_map2 a7 (by simp [sch]) lq
  obtain ⟨o8, l8⟩ := rows_map2 a8 (scalar_len heS) l7
  obtain ⟨o9, l9⟩ := rows_map2 a9 (scalar_len hs.soc) l8
  have hq1 : rows (capacityValue a.qt) = rows a.qt := rfl
  have scalarL : ∃ n, soc.shape = [n, 1] := by
    obtain ⟨t1, -⟩ := rel_scalar hs.soc
    obtain ⟨t2, -⟩ := rel_scalar heS
    obtain ⟨t3, -⟩ := rel_scalar (sc sch)
    obtain ⟨t4, -⟩ := rel_scalar hqS
    obtain ⟨b7, -⟩ := rel_map2' a7 t3 t4
    obtain ⟨b8, -⟩ := rel_map2' a8 t2 b7
    obtain ⟨b9, -⟩ := rel_map2' a9 t1 b8
    obtain ⟨n, -, hs, -⟩ := b9.shape2 l9
    exact ⟨n, hs⟩
  obtain ⟨oh, sh⟩ := updateHyst_one hK ha.hyst hs.soc heS hqS ha.gamma hs.hyst (sc hpc) (sc sdt) (sc sslp) (one sdt) (one hpc) (one sslp) a12
  refine ⟨?_, ?_, ?_, ?_, ?_⟩
  · show rows soc' = 1 ↔ _
    rw [enforce0_one a14 scalarL, o9, o8, o7, hq1, heO]
    constructor
    · rintro ⟨x1, x2, x3, x4⟩; exact ⟨x1, x4, x2⟩
    · rintro ⟨x1, x2, x3⟩; exact ⟨x1, x3, rw1 sch, x2⟩
  · show ∀ q' ∈ q0', _
    intro q' hq'
    unfold updateQ0 at a10
    cases hq : st.q0 with
    | none => rw [hq] at a10; cases a10; cases hq'
    | some q =>
      rw [hq] at a10
      simp only [bind_ok, pure_ok] at a10
      obtain ⟨x, e1, z, e2, e3⟩ := a10
      subst e3
      cases hq'
      have hqs := hs.q0 q (by rw [hq]; rfl)
      obtain ⟨t1, u1⟩ := rel_scalar hqs
      obtain ⟨t3, u3⟩ := rel_scalar (sc sch)
      obtain ⟨b1, c1⟩ := rel_map2' e1 t1 t3
      obtain ⟨n, -, hn', -⟩ := b1.shape2 (by rw [c1, u1, u3]; rfl)
      obtain ⟨o, -⟩ := rows_map2 e1 (scalar_len hqs) (by simp [sch])
      refine ⟨q, rfl, ?_⟩
      rw [enforce0_one e2 ⟨n, hn'⟩, o]
      exact ⟨fun h => h.1, fun h => ⟨h, rw1 sch⟩⟩
  · show q0'.isSome = _
    unfold updateQ0 at a10
    cases hq : st.q0 with
    | none => rw [hq] at a10; cases a10; rfl
    | some q =>
      rw [hq] at a10
      simp only [bind_ok, pure_ok] at a10
      obtain ⟨x, e1, z, e2, e3⟩ := a10
      subst e3
      rfl
  · intro hne
    show rows irc = 1 ↔ _
    rw [updateRC_one hK ha.rcs (sc sdt) (sc sslp) (sc hnc) (rw1 sdt) (rw1 hnc) (rw1 sslp) hs.soc hp.temp hs.irc hcan.rcs htr hne a11]
    simp only [rcRows_one]
  · show rows hy' = 1 ↔ _
    rw [enforce0_one a15 sh, oh, heO, hq1]
    constructor
    · rintro ⟨x1, x2, x3, x4, x5, x6⟩; exact ⟨x1, x2, x3, x5, x6, x4⟩
    · rintro ⟨x1, x2, x3, x4, x5, x6⟩; exact ⟨x1, x2, x3, x6, x4, x5⟩

/-! ## States handed over as containers -/

/-- The state read from the container that an update returns. -/
def _root_.Verif.Ecm.State.stored (s : State) : State :=
  ⟨s.soc.toArr2.toNd, s.q0.map fun q => q.toArr2.toNd, s.irc.toArr2.toNd, s.hyst.toArr2.toNd⟩

theorem readState_stored (s : State) : readState s.toContainer = .ok s.stored := by
  obtain ⟨a, _ | q, c, d⟩ := s <;> rfl

theorem stored_shape {a : Nd ℝ} {r w : Nat} (h : a.shape = [r, w]) : a.toArr2.toNd.shape = [r, w] := by
  obtain ⟨h1, h2⟩ := toArr2_shape h
  simp only [Arr2.toNd, h1, h2]

theorem stored_get {a : Nd ℝ} {r w i j : Nat} (h : a.shape = [r, w]) (hi : i < r) (hj : j < w) :
    a.toArr2.toNd.get [i, j] = a.get [i, j] := by
  simp only [Arr2.toNd, List.getD_cons_zero, List.getD_cons_succ]
  rw [toArr2_row h hi]
  simp [List.getD_eq_getElem?_getD, hj]

theorem stored_rows {a : Nd ℝ} {r w : Nat} (h : a.shape = [r, w]) : rows a.toArr2.toNd = rows a := by
  rw [rows, rows, stored_shape h, h]

theorem stored_scalar {K : Nat} {a : Nd ℝ} (h : Scalar K a) : Scalar K a.toArr2.toNd ∧ rows a.toArr2.toNd = rows a ∧
    ∀ i < K, at2 a.toArr2.toNd i = at2 a i := by
  obtain ⟨d, e⟩ := dim_rows h
  have hr := stored_rows e
  refine ⟨?_, hr, fun i hi => ?_⟩
  · rcases h with h | h
    · exact .inl (stored_shape h)
    · exact .inr (stored_shape h)
  · unfold at2
    rw [hr, stored_get e _ Nat.one_pos]
    rcases d with d | d
    · rw [if_pos d, d]; exact Nat.one_pos
    · split
      · omega
      · rw [d]; exact hi

/-- Nothing is lost. -/
theorem stored_same {K : Nat} {a : ASOH} {s : State} (h : Sts K a s) :
    Sts K a s.stored ∧ rows s.stored.soc = rows s.soc ∧ rows s.stored.hyst = rows s.hyst ∧ rows s.stored.irc = rows s.irc ∧
    (∀ q' ∈ s.stored.q0, ∃ q ∈ s.q0, rows q' = rows q) ∧ s.stored.q0.isSome = s.q0.isSome ∧ ∀ i < K, stAt s.stored i = stAt s i := by
  obtain ⟨a1, a2, a3⟩ := stored_scalar h.soc
  obtain ⟨b1, b2, b3⟩ := stored_scalar h.hyst
  have hi : ∃ r, s.irc.shape = [r, a.rcs.length] ∧ (r = 1 ∨ r = K) := by
    rcases h.irc with e | e
    · exact ⟨1, e, .inl rfl⟩
    · exact ⟨K, e, .inr rfl⟩
  obtain ⟨r, hr, hrK⟩ := hi
  refine ⟨⟨a1, ?_, ?_, b1⟩, a2, b2, stored_rows hr, ?_, ?_, fun i hi => ?_⟩
  · intro q' hq'
    simp only [State.stored, Option.mem_def, Option.map_eq_some_iff] at hq'
    obtain ⟨q, hq, rfl⟩ := hq'
    exact (stored_scalar (h.q0 q hq)).1
  · rcases h.irc with e | e
    · exact .inl (stored_shape e)
    · exact .inr (stored_shape e)
  · intro q' hq'
    simp only [State.stored, Option.mem_def, Option.map_eq_some_iff] at hq'
    obtain ⟨q, hq, rfl⟩ := hq'
    exact ⟨q, hq, (stored_scalar (h.q0 q hq)).2.1⟩
  · simp [State.stored]
  · have e1 : at2 s.stored.soc i = at2 s.soc i := a3 i hi
    have e2 : at2 s.stored.hyst i = at2 s.hyst i := b3 i hi
    have e3 : s.stored.q0.map (fun q => at2 q i) = s.q0.map fun q => at2 q i := by
      cases hq : s.q0 with
      | none => simp [State.stored, hq]
      | some q =>
        simp only [State.stored, hq, Option.map_some, Option.some.injEq]
        exact (stored_scalar (h.q0 q hq)).2.2 i hi
    have e4 : s.stored.irc.shape = s.irc.shape := by rw [hr]; exact stored_shape hr
    have e5 : rows s.stored.irc = rows s.irc := stored_rows hr
    unfold stAt
    rw [e1, e2, e3, e4, e5]
    congr 1
    refine List.map_congr_left fun j hj => ?_
    rw [hr] at hj
    refine stored_get hr ?_ (List.mem_range.1 hj)
    rw [rows, hr, List.getD_cons_zero]
    rcases hrK with rfl | rfl
    · simp
    · split
      · omega
      · exact hi

/-! ## One row after the other -/

/-- The parameters of the cell whose batches show in the voltage one step later. -/
def SingleOutput (charging : Bool) (a : ASOH) (q0 : Bool) : Prop :=
  rows a.qt = 1 ∧ (charging = true → rows a.ce = 1) ∧ a.ocv.ref.rows = 1 ∧ a.r0.interp.rows = 1 ∧
  (q0 = true → ∀ c ∈ a.c0, c.rows = 1) ∧ (∀ rc ∈ a.rcs, rc.r.interp.rows = 1 ∧ rc.c.rows = 1) ∧ a.hyst.rows = 1 ∧ rows a.gamma = 1

/-- From one row of transient states, the voltage has one row exactly if every parameter that takes part has. -/
theorem step_voltage_one {K : Nat} (hK : 1 ≤ K) {beh : Behavior} {prev new : Input} {st st' : State} {a : ASOH} {v : Nd ℝ} (ha : Pars K a)
    (hp : Ins K prev) (hn : Ins K new) (hs : Sts K a st) (hs1 : rows st.soc = 1) (hh1 : rows st.hyst = 1) (hq1 : ∀ q ∈ st.q0, rows q = 1)
    (hmv : beh = .linear → new.time.get [0, 0] ≠ prev.time.get [0, 0]) (hi1 : rows st.irc = 1) (hc1 : rows new.current = 1) (ht1 : ∀ t ∈ prev.temp, rows t = 1) (ht2 : ∀ t ∈ new.temp, rows t = 1)
    (h : update beh prev new st a = .ok st') (h' : voltage new st'.stored a = .ok v) :
    (rows v = 1 ↔ SingleOutput (decide (¬ prev.current.get [0, 0] < 0)) a st.q0.isSome) ∧ (v.shape = [1, 1] ∨ v.shape = [K, 1]) := by
  obtain ⟨hs', -⟩ := update_rows hK ha hp hn hs h
  obtain ⟨o1, o2, o3, o4, o5⟩ := update_one hK ha hp hn hs hmv ht1 h
  obtain ⟨p1, p2, p3, p4, p5, p6, -⟩ := stored_same hs'
  obtain ⟨o6, sh⟩ := voltage_one hK ha hn p1 hc1 ht2 h'
  refine ⟨?_, sh⟩
  rw [o6, p2, p3, p4, o1, o5]
  have q1 : ∀ q ∈ st'.stored.q0, rows q = 1 := by
    intro q hq
    obtain ⟨q', f1, f2⟩ := p5 q hq
    obtain ⟨q0, g1, g2⟩ := o2 q' f1
    rw [f2]
    exact g2.2 (hq1 q0 g1)
  constructor
  · rintro ⟨⟨-, x2, x3⟩, ⟨-, -, x4, x5, -, -⟩, x6, x7, x8, x9⟩
    refine ⟨x2, fun h => x3 (by simpa using h), x6, x7, ?_, ?_, x4, x5⟩
    · intro hq
      rw [← o3, ← p6] at hq
      obtain ⟨q, hq⟩ := Option.isSome_iff_exists.1 hq
      exact (x8 q hq).2
    · intro rc hrc
      have hne : a.rcs ≠ [] := List.ne_nil_of_mem hrc
      exact ((o4 hne).1 (x9 hne).1).2.2 rc hrc
  · rintro ⟨x2, x3, x6, x7, x8, x9, x4, x5⟩
    have x3' : ¬ prev.current.get [0, 0] < 0 → rows a.ce = 1 := fun h => x3 (by simpa using h)
    refine ⟨⟨hs1, x2, x3'⟩, ⟨hh1, hs1, x4, x5, x2, x3'⟩, x6, x7, ?_, ?_⟩
    · intro q hq
      exact ⟨q1 q hq, x8 (by rw [← o3, ← p6, hq]; rfl)⟩
    · intro hne
      exact ⟨(o4 hne).2 ⟨hi1, hs1, x9⟩, fun rc hrc => (x9 rc hrc).1⟩

end Verif.Cell
