import Verif.Proofs.EcmUpdate
/-!
# The terminal voltage acts cell by cell
-/

namespace Verif.Cell
open Verif Nd Ecm

/-- The RC terms, member by member. -/
theorem addRC_rel {B : Nat} (hB : 0 < B) {vt soc irc y : Nd ℝ} {xv xsoc : Nat → ℝ} {rcs : List Ecm.RC}
    {temp : Option (Nd ℝ)} {t : Nat → Option ℝ} {xi : Nat → Nat → ℝ} (hrcs : ∀ rc ∈ rcs, Res B rc.r)
    (rv : Rel B vt xv) (lv : vt.shape.length = 3) (rs : Rel B soc xsoc) (ls : soc.shape.length = 2)
    (ht : TempRel B temp t) (hi : Wide B rcs.length rcs.length irc xi) (h : addRC vt soc irc temp rcs = .ok y) :
    Rel B y (fun b => xv b + ((List.range rcs.length).map fun j => xi b j * (match rcs[j]? with
      | some rc => resAt rc.r b (xsoc b) (t b)
      | none => 0)).sum) ∧ y.shape.length = 3 := by
  unfold addRC at h
  obtain ⟨_, N, hN, hsi, hvi⟩ := hi
  rw [hsi] at h
  simp only [List.getD_cons_zero, List.getD_cons_succ] at h
  by_cases h0 : rcs.length = 0
  · rw [if_pos h0] at h
    cases h
    exact ⟨rv.congr fun b _ => by simp [h0], lv⟩
  · rw [if_neg h0] at h
    simp only [bind_ok] at h
    obtain ⟨l, a1, st, a2, dr, a3, sm, a4, a5⟩ := h
    have hf := mapM_ok a1
    have hlen : l.length = rcs.length := hf.length_eq.symm
    obtain ⟨p, q, hp, hq, hs, hv⟩ := stack_rel (B := B) (l := l) (s := st) (x := fun j b => match rcs[j]? with
        | some rc => resAt rc.r b (xsoc b) (t b)
        | none => 0) (by intro he; rw [he] at hlen; exact h0 hlen.symm) (by
      intro j hj
      have hj' : j < rcs.length := by omega
      have := hf.get hj' hj
      have hm : rcs[j] ∈ rcs := List.getElem_mem hj'
      obtain ⟨z1, z2⟩ := resistance_rel hB (hrcs _ hm) rs ls ht this
      refine ⟨z1.congr fun b _ => ?_, z2⟩
      simp [List.getElem?_eq_getElem hj']) a2
    rw [hlen] at hs hv
    obtain ⟨K, e1, e2, e3, e4⟩ := bdim_dim hN hq
    have hsw : (st.swapaxes 0 1).shape = [p, rcs.length, q, 1] := by simp [swapaxes, swapAt, hs]
    have htr : (transposeNew irc).shape = [rcs.length, N, 1] := by simp [transposeNew, hsi]
    have hsh : bshape (transposeNew irc).shape (st.swapaxes 0 1).shape = some [p, rcs.length, K, 1] := by
      rw [hsw, htr]
      have self : ∀ n, bdim n n = some n := fun n => by simp [bdim]
      simp [bshape, bdims, e1, self]
    unfold mul map2 at a3
    rw [hsh] at a3
    cases a3
    simp only [sumAxis1, Except.ok.injEq] at a4
    subst a4
    have rsum : Rel B (⟨[p, K, 1], fun idx => ((List.range rcs.length).map fun j =>
        (transposeNew irc).get (bidx (transposeNew irc).shape [idx.getD 0 0, j, idx.getD 1 0, idx.getD 2 0]) *
        (st.swapaxes 0 1).get (bidx (st.swapaxes 0 1).shape [idx.getD 0 0, j, idx.getD 1 0, idx.getD 2 0])).sum⟩ : Nd ℝ)
        (fun b => ((List.range rcs.length).map fun j => xi b j * (match rcs[j]? with
          | some rc => resAt rc.r b (xsoc b) (t b)
          | none => 0)).sum) := by
      refine Rel.of3 hp e2 rfl fun b hb => ?_
      simp only
      congr 1
      apply List.map_congr_left
      intro j hj
      rw [List.mem_range] at hj
      have hj1 : (if rcs.length = 1 then 0 else j) = j := by split <;> omega
      have hpp : (if p = 1 then 0 else clip p b) = clip p b := by unfold clip; split <;> rfl
      have hx := hvi b hb j hj
      rw [hj1] at hx
      rw [← hx, ← hv j hj b hb, hsw, htr]
      simp only [bidx, List.reverse_cons, List.reverse_nil, List.nil_append, List.cons_append,
        List.zipWith_cons_cons, List.zipWith_nil_left, List.getD_cons_zero, List.getD_cons_succ, e3, e4, hj1, hpp, if_true]
      simp [transposeNew, swapaxes, swapAt]
    obtain ⟨k1, k2⟩ := rel_map2' a5 rv rsum
    exact ⟨k1, by rw [k2, lv]; rfl⟩

theorem flattenVt_rel {B : Nat} {h y : Nd ℝ} {x : Nat → ℝ} (hr : Rel B h x) (hl : h.shape.length = 3)
    (hy : flattenVt h = .ok y) : Rel B y x ∧ y.shape.length = 2 := by
  unfold flattenVt at hy
  obtain ⟨p, q, hp, hq, hs, hv⟩ := hr.shape3 hl
  simp only [bind_ok, diag01, hs, List.getD_cons_zero, List.getD_cons_succ] at hy
  obtain ⟨h', hd, h3⟩ := hy
  by_cases hpq : p = q
  · subst hpq
    simp only [if_true, diagonal01, hs, Except.map, Except.ok.injEq] at hd
    subst hd
    rw [show min p p = p by omega] at h3
    simp [swapaxes, swapAt, size, reshape] at h3
    subst h3
    refine ⟨Rel.of2 hp rfl fun b hb => ?_, rfl⟩
    rw [← hv b hb]
    simp [ravel, unravel, Nat.mod_one]
  · simp only [if_neg hpq, Except.ok.injEq] at hd
    subst hd
    have h1 : p = 1 ∨ q = 1 := by
      rcases hp with h | h
      · exact .inl h
      · rcases hq with h' | h'
        · exact .inr h'
        · exact absurd (h.trans h'.symm) hpq
    simp only [hs, List.getD_cons_zero, List.getD_cons_succ, if_pos h1] at h3
    simp [size, reshape, hs] at h3
    subst h3
    have hr2 : ∀ b, ravel [p * q, 1] [clip (p * q) b, 0] = ravel [p, q, 1] [clip p b, clip q b, 0] := by
      intro b
      rcases h1 with rfl | rfl <;> simp [ravel]
    have hd2 : Dim B (p * q) := by rcases h1 with rfl | rfl <;> simpa using ‹Dim B _›
    refine ⟨Rel.of2 hd2 rfl fun b hb => ?_, rfl⟩
    simp only
    rw [← hv b hb, hr2, unravel_ravel]
    exact .cons (clip_lt hp hb) (.cons (clip_lt hq hb) (.cons (by omega) .nil))

/-- Member `b` of the terminal voltage is the voltage of member `b`. -/
theorem voltage_rows {B : Nat} (hB : 0 < B) {new : Input} {st : State} {a : ASOH} {v : Nd ℝ} (ha : Pars B a)
    (hn : Ins B new) (hs : Sts B a st) (h : voltage new st a = .ok v) :
    Scalar B v ∧ ∀ b < B, at2 v b = volt (inAt new b) (stAt st b) (parAt a b) := by
  unfold voltage at h
  simp only [bind_ok] at h
  obtain ⟨v1, a1, r0, a2, ir, a3, v2, a4, v3, a5, v4, a6, v5, a7, v6, a8, a9⟩ := h
  obtain ⟨t1, u1⟩ := rel_scalar hn.current
  obtain ⟨t2, u2⟩ := rel_scalar hs.soc
  obtain ⟨t3, u3⟩ := rel_scalar hs.hyst
  have ht := tempRel hn.temp
  obtain ⟨b1, c1⟩ := ocv_rel hB ha.ref ha.refTemp ha.ent t2 u2 ht a1
  obtain ⟨b2, c2⟩ := resistance_rel hB ha.r0 t2 u2 ht a2
  obtain ⟨b3, c3⟩ := rel_map2' a3 t1 b2
  obtain ⟨b4, c4⟩ := rel_map2' a4 b1 b3
  have l4 : v2.shape.length = 3 := by rw [c4, c3, c1, c2, u1]; rfl
  have h5 : Rel B v3 (fun b => ocvAt a.ocv b (at2 st.soc b) ((new.temp.map fun t => at2 t b)) +
      at2 new.current b * resAt a.r0 b (at2 st.soc b) ((new.temp.map fun t => at2 t b)) +
      (match st.q0.map fun q => at2 q b, a.c0.map fun c => curveAt c b with
        | some q, some c => q / c (at2 st.soc b)
        | _, _ => 0)) ∧ v3.shape.length = 3 := by
    unfold addC0 at a5
    cases hq : st.q0 with
    | none =>
      rw [hq] at a5
      cases a5
      exact ⟨b4.congr fun b _ => by simp, l4⟩
    | some q =>
      rw [hq] at a5
      cases hc : a.c0 with
      | none => rw [hc] at a5; cases a5
      | some c =>
        rw [hc] at a5
        simp only [bind_ok] at a5
        obtain ⟨cv, d1, qc, d2, d3⟩ := a5
        obtain ⟨tq, uq⟩ := rel_scalar (hs.q0 q (by rw [hq]; rfl))
        obtain ⟨e1, f1⟩ := getValue_rel hB (ha.c0 c (by rw [hc]; rfl)) t2 u2 d1
        obtain ⟨e2, f2⟩ := rel_map2' d2 tq e1
        obtain ⟨e3, f3⟩ := rel_map2' d3 b4 e2
        exact ⟨e3, by rw [f3, f2, f1, uq, l4]; rfl⟩
  obtain ⟨b5, l5⟩ := h5
  obtain ⟨b6, l6⟩ := addRC_rel hB (fun rc hrc => (ha.rcs rc hrc).1) b5 l5 t2 u2 ht (wide_irc hs.irc) a6
  obtain ⟨b7, c7⟩ := rel_map2' a7 b6 t3
  obtain ⟨b8, l8⟩ := flattenVt_rel b7 (by rw [c7, l6, u3]; rfl) a8
  obtain ⟨b9, l9⟩ := enforce0_rel b8 l8 a9
  obtain ⟨s1, e1⟩ := scalar_of_rel b9 l9
  refine ⟨s1, fun b hb => ?_⟩
  rw [e1 b hb]
  unfold volt
  have hw : st.irc.shape.getD 1 0 = a.rcs.length := by rcases hs.irc with e | e <;> simp [e]
  have hz : ((List.range a.rcs.length).map fun j => st.irc.get [if rows st.irc = 1 then 0 else b, j] * (match a.rcs[j]? with
      | some rc => resAt rc.r b (at2 st.soc b) ((new.temp.map fun t => at2 t b))
      | none => 0)) = List.zipWith (fun i (rc : RC) => i * rc.r (stAt st b).soc (inAt new b).temp) (stAt st b).irc (parAt a b).rcs := by
    apply List.ext_getElem
    · simp only [stAt, parAt, hw]; simp
    · intro j h1 h2
      have hj : j < a.rcs.length := by simpa using h1
      simp only [stAt, parAt, hw, List.getElem_map, List.getElem_range, List.getElem_zipWith, List.getElem?_eq_getElem hj]
      rfl
  rw [hz]
  rfl

end Verif.Cell
