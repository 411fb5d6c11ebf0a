import Verif.Proofs.EcmRows
/-!
# The transient update and the voltage act cell by cell
-/

namespace Verif.Cell
open Verif Nd Ecm

/-- A rank-2 array with one column per RC element (or a single column), read member by member. -/
def Wide (B w n : Nat) (a : Nd ℝ) (x : Nat → Nat → ℝ) : Prop :=
  (n = w ∨ n = 1) ∧ ∃ N, Dim B N ∧ a.shape = [N, n] ∧
    ∀ b < B, ∀ j < w, a.get [clip N b, if n = 1 then 0 else j] = x b j

theorem wide_of_rel {B w : Nat} {a : Nd ℝ} {x : Nat → ℝ} (h : Rel B a x) (hl : a.shape.length = 2) :
    Wide B w 1 a fun b _ => x b := by
  obtain ⟨n, hn, hs, hv⟩ := h.shape2 hl
  exact ⟨.inr rfl, n, hn, hs, fun b hb j _ => by simpa using hv b hb⟩

theorem wide_map {B w n : Nat} {a : Nd ℝ} {x : Nat → Nat → ℝ} (f : ℝ → ℝ) (h : Wide B w n a x) :
    Wide B w n (a.map f) fun b j => f (x b j) := by
  obtain ⟨h1, N, h2, h3, h4⟩ := h
  exact ⟨h1, N, h2, h3, fun b hb j hj => congrArg f (h4 b hb j hj)⟩

theorem bdim_dim {B N M : Nat} (h1 : Dim B N) (h2 : Dim B M) : ∃ K, bdim N M = some K ∧ Dim B K ∧
    (∀ b, (if N = 1 then 0 else clip K b) = clip N b) ∧ (∀ b, (if M = 1 then 0 else clip K b) = clip M b) := by
  obtain ⟨r, g1, g2, g3, g4, g5, g6⟩ := bdims_rel (B := B) (s := [N]) (t := [M]) (by simpa using h1) (by simpa using h2)
  simp only [bdims] at g1
  cases hb : bdim N M with
  | none => rw [hb] at g1; simp at g1
  | some K =>
    rw [hb] at g1
    simp at g1
    subst g1
    exact ⟨K, rfl, g2 K (by simp), fun b => by simpa using g3 b, fun b => by simpa using g4 b⟩

theorem wide_map2 {B w n m : Nat} {a c r : Nd ℝ} {x y : Nat → Nat → ℝ} {f : ℝ → ℝ → ℝ} (h : map2 f a c = .ok r)
    (ha : Wide B w n a x) (hc : Wide B w m c y) : Wide B w (if n = 1 then m else n) r fun b j => f (x b j) (y b j) := by
  obtain ⟨h1, N, h2, h3, h4⟩ := ha
  obtain ⟨k1, M, k2, k3, k4⟩ := hc
  obtain ⟨K, e1, e2, e3, e4⟩ := bdim_dim h2 k2
  have e5 : bdim n m = some (if n = 1 then m else n) := by
    unfold bdim
    by_cases hn : n = 1
    · subst hn
      by_cases hm : m = 1
      · simp [hm]
      · simp [Ne.symm hm]
    · have hnw : n = w := h1.resolve_right hn
      by_cases hm : m = 1
      · subst hm; simp [hn]
      · have : m = w := k1.resolve_right hm
        simp [hnw, this]
  have hsh : bshape a.shape c.shape = some [K, if n = 1 then m else n] := by
    simp [bshape, h3, k3, bdims, e1, e5]
  unfold map2 at h
  rw [hsh] at h
  cases h
  refine ⟨?_, K, e2, rfl, ?_⟩
  · split
    · exact k1
    · exact h1
  · intro b hb j hj
    simp only [bidx, h3, k3]
    have i1 : ∀ (i : Nat), (if n = 1 then 0 else if (if n = 1 then m else n) = 1 then 0 else i) = if n = 1 then 0 else i := by
      intro i; by_cases hn : n = 1 <;> simp [hn]
    have i2 : (if m = 1 then 0 else if (if n = 1 then m else n) = 1 then 0 else j) = if m = 1 then 0 else j := by
      by_cases hn : n = 1
      · by_cases hm : m = 1 <;> simp [hn, hm]
      · by_cases hm : m = 1 <;> simp [hn, hm]
    simp only [List.reverse_cons, List.reverse_nil, List.nil_append, List.singleton_append, List.zipWith_cons_cons,
      List.zipWith_nil_left, e3, e4, i1, i2]
    rw [← h4 b hb j hj, ← k4 b hb j hj]

theorem mapM_ok {α β : Type} {f : α → Except Err β} : ∀ {l : List α} {r : List β}, l.mapM f = .ok r →
    List.Forall₂ (fun a b => f a = .ok b) l r := by
  intro l
  induction l with
  | nil => intro r h; simp [pure_ok] at h; subst h; exact .nil
  | cons a l ih =>
    intro r h
    rw [List.mapM_cons] at h
    simp only [bind_ok, pure_ok] at h
    obtain ⟨b, h1, r', h2, h3⟩ := h
    subst h3
    exact .cons h1 (ih h2)

/-- Arrays stacked along a new axis, one per RC element. -/
theorem stack_rel {B : Nat} {l : List (Nd ℝ)} {s : Nd ℝ} {x : Nat → Nat → ℝ} (hne : l ≠ [])
    (hl : ∀ j (hj : j < l.length), Rel B l[j] (x j) ∧ l[j].shape.length = 3) (h : stack l = .ok s) :
    ∃ p q, Dim B p ∧ Dim B q ∧ s.shape = [l.length, p, q, 1] ∧
      ∀ j < l.length, ∀ b < B, s.get [j, clip p b, clip q b, 0] = x j b := by
  cases l with
  | nil => exact absurd rfl hne
  | cons a l =>
    rw [stack] at h
    split at h
    · rename_i hall
      cases h
      obtain ⟨h0, h0'⟩ := hl 0 (by simp)
      obtain ⟨p, q, hp, hq, hs, hv⟩ := h0.shape3 h0'
      simp only [List.getElem_cons_zero] at hs
      refine ⟨p, q, hp, hq, by simp [hs], ?_⟩
      intro j hj b hb
      have hget : (a :: l)[j]? = some (a :: l)[j] := List.getElem?_eq_getElem hj
      simp only [hget]
      obtain ⟨g0, g0'⟩ := hl j hj
      obtain ⟨p', q', hp', hq', hs', hv'⟩ := g0.shape3 g0'
      have hsame : (a :: l)[j].shape = a.shape := by
        have hm : (a :: l)[j] ∈ a :: l := List.getElem_mem hj
        rcases List.mem_cons.1 hm with e | e
        · rw [e]
        · exact hall _ e
      rw [hs', hs] at hsame
      simp only [List.cons.injEq, and_true] at hsame
      rw [← hsame.1, ← hsame.2]
      exact hv' b hb
    · cases h

theorem flattenTau_wide {B n p q : Nat} (hn : 0 < n) {s y : Nd ℝ} {x : Nat → Nat → ℝ} (hp : Dim B p) (hq : Dim B q)
    (hs : s.shape = [n, p, q, 1]) (hv : ∀ j < n, ∀ b < B, s.get [j, clip p b, clip q b, 0] = x j b)
    (h : flattenTau s = .ok y) : Wide B n n y fun b j => x j b := by
  unfold flattenTau at h
  rw [if_neg (by simp [hs])] at h
  simp only [hs, bind_ok, pure_ok, diagTau, List.getD_cons_zero, List.getD_cons_succ] at h
  obtain ⟨t, h1, r, h2, h3⟩ := h
  subst h3
  by_cases hpq : p = q
  · subst hpq
    simp only [if_true, diagonal12, hs, Except.map, Except.ok.injEq] at h1
    subst h1
    rw [show min p p = p by omega] at h2
    have hsz : n * p / n = p := Nat.mul_div_cancel_left p hn
    simp [swapaxes, swapAt, size, reshape, hsz] at h2
    subst h2
    refine ⟨.inl rfl, p, hp, rfl, ?_⟩
    intro b hb j hj
    have hj' : (if n = 1 then 0 else j) = j := by split <;> omega
    show _ = x j b
    rw [hj', ← hv j hj b hb]
    have hr : ravel [n, p] [j, clip p b] = ravel [n, p, 1] [j, clip p b, 0] := by simp [ravel]
    have hu := unravel_ravel (s := [n, p, 1]) (idx := [j, clip p b, 0])
      (.cons hj (.cons (clip_lt hp hb) (.cons (by omega) .nil)))
    simp only [swapaxes, swapAt, List.getD_cons_zero, List.getD_cons_succ, List.set_cons_zero, List.set_cons_succ, hr, hu]
    simp
  · simp only [if_neg hpq, Except.ok.injEq] at h1
    subst h1
    have hsz : n * (p * q) / n = p * q := Nat.mul_div_cancel_left _ hn
    simp [size, reshape, hs, hsz] at h2
    subst h2
    have hpq' : Dim B (p * q) := by
      rcases hp with rfl | rfl
      · rw [Nat.one_mul]; exact hq
      · rcases hq with rfl | rfl
        · rw [Nat.mul_one]; exact .inr rfl
        · exact absurd rfl hpq
    refine ⟨.inl rfl, p * q, hpq', by simp [swapaxes, swapAt], ?_⟩
    intro b hb j hj
    have hj' : (if n = 1 then 0 else j) = j := by split <;> omega
    show _ = x j b
    rw [hj', ← hv j hj b hb]
    have hr : ravel [n, p * q] [j, clip (p * q) b] = ravel [n, p, q, 1] [j, clip p b, clip q b, 0] := by
      rcases hp with rfl | rfl
      · simp [ravel]
      · rcases hq with rfl | rfl
        · simp [ravel]
        · exact absurd rfl hpq
    have hu := unravel_ravel (s := [n, p, q, 1]) (idx := [j, clip p b, clip q b, 0])
      (.cons hj (.cons (clip_lt hp hb) (.cons (clip_lt hq hb) (.cons (by omega) .nil))))
    simp only [swapaxes, swapAt, List.getD_cons_zero, List.getD_cons_succ, List.set_cons_zero, List.set_cons_succ, hr, hu]

/-- The RC branch, member by member. -/
theorem updateRC_wide {B : Nat} (hB : 0 < B) {dt cur slope soc irc y : Nd ℝ} {xd xc xs xsoc : Nat → ℝ} {rcs : List Ecm.RC}
    {temp : Option (Nd ℝ)} {t : Nat → Option ℝ} {xi : Nat → Nat → ℝ} (hrcs : ∀ rc ∈ rcs, Res B rc.r ∧ Curve B rc.c)
    (r1 : Rel B dt xd) (l1 : dt.shape.length = 2) (r2 : Rel B cur xc) (l2 : cur.shape.length = 2)
    (r3 : Rel B slope xs) (l3 : slope.shape.length = 2) (r4 : Rel B soc xsoc) (l4 : soc.shape.length = 2)
    (ht : TempRel B temp t) (hi : Wide B rcs.length rcs.length irc xi)
    (h : updateRC dt cur slope soc irc temp rcs = .ok y) :
    Wide B rcs.length rcs.length y fun b j =>
      let tau := match rcs[j]? with
        | some rc => resAt rc.r b (xsoc b) (t b) * curveAt rc.c b (xsoc b)
        | none => 0
      let f := Real.exp (-xd b / tau)
      xi b j * f + (1 - f) * (xc b - xs b * tau) + xs b * xd b := by
  unfold updateRC at h
  have hw : irc.shape.getD 1 0 = rcs.length := by obtain ⟨_, N, _, hs, _⟩ := hi; simp [hs]
  rw [hw] at h
  by_cases h0 : rcs.length = 0
  · simp only [h0, if_true, pure_ok] at h
    subst h
    obtain ⟨g1, N, g2, g3, _⟩ := hi
    exact ⟨g1, N, g2, g3, fun b _ j hj => by omega⟩
  · simp only [if_neg h0, bind_ok] at h
    obtain ⟨taus, a1, st, a2, tau, a3, q, a4, i1, a5, stau, a6, dr, a7, fd, a8, i2, a9, sd, a10, a11⟩ := h
    have hf := mapM_ok a1
    have hlen : taus.length = rcs.length := hf.length_eq.symm
    have hst := stack_rel (B := B) (l := taus) (s := st) (x := fun j b => match rcs[j]? with
        | some rc => resAt rc.r b (xsoc b) (t b) * curveAt rc.c b (xsoc b)
        | none => 0) (by intro he; rw [he] at hlen; exact h0 hlen.symm) (by
      intro j hj
      have hj' : j < rcs.length := by omega
      have := hf.get hj' hj
      have hm : rcs[j] ∈ rcs := List.getElem_mem hj'
      obtain ⟨z1, z2⟩ := timeConstant_rel hB (hrcs _ hm).1 (hrcs _ hm).2 r4 l4 ht this
      refine ⟨z1.congr fun b _ => ?_, z2⟩
      simp [List.getElem?_eq_getElem hj']) a2
    obtain ⟨p, q', hp, hq, hs, hv⟩ := hst
    rw [hlen] at hs hv
    have wt := flattenTau_wide (by omega) hp hq hs hv a3
    have nn : ∀ n : Nat, (if n = 1 then n else n) = n := fun n => by split <;> rfl
    have w1 : ∀ n : Nat, (if n = 1 then 1 else n) = n := fun n => by split <;> omega
    have wq := wide_map2 a4 (wide_map (fun x => -x) (wide_of_rel r1 l1)) wt
    rw [if_pos rfl] at wq
    have wf := wide_map Real.exp wq
    have wi1 := wide_map2 a5 hi wf
    rw [nn] at wi1
    have wst := wide_map2 a6 (wide_of_rel r3 l3) wt
    rw [if_pos rfl] at wst
    have wdr := wide_map2 a7 (wide_of_rel r2 l2) wst
    rw [if_pos rfl] at wdr
    have wfd := wide_map2 a8 (wide_map (fun x => 1 - x) wf) wdr
    rw [nn] at wfd
    have wi2 := wide_map2 a9 wi1 wfd
    rw [nn] at wi2
    have wsd := wide_map2 a10 (wide_of_rel r3 l3) (wide_of_rel r1 l1 (w := rcs.length))
    rw [if_pos rfl] at wsd
    have wy := wide_map2 a11 wi2 wsd
    rw [w1] at wy
    exact wy

theorem small_iff {B : Nat} {a : Nd ℝ} {x : Nat → ℝ} (h : Rel B a x) (hl : a.shape.length = 2) (h1 : ∀ d ∈ a.shape, d = 1)
    {b : Nat} (hb : b < B) : (∀ i < rows a, |a.get [i, 0]| ≤ 1e-8) ↔ |x b| ≤ 1e-8 := by
  obtain ⟨n, hn, hs, hv⟩ := h.shape2 hl
  have hn1 : n = 1 := h1 n (by simp [hs])
  subst hn1
  have := hv b hb
  rw [clip_one] at this
  rw [← this]
  constructor
  · intro g; exact g 0 (by simp [rows, hs])
  · intro g i hi
    have : i = 0 := by simp [rows, hs] at hi; exact hi
    rw [this]; exact g

/-- The hysteresis branch, member by member. -/
theorem updateHyst_rel {B : Nat} (hB : 0 < B) {beh : Behavior} {dt ck ck1 slope eff qt soc hyst gamma y : Nd ℝ} {par : Interp}
    {xd xk xk1 xs xe xq xsoc xh xg : Nat → ℝ} (hpar : Curve B par)
    (r1 : Rel B dt xd) (r2 : Rel B ck xk) (l2 : ck.shape.length = 2) (r3 : Rel B ck1 xk1)
    (r4 : Rel B slope xs) (r5 : Rel B eff xe) (l5 : eff.shape.length = 2) (r6 : Rel B qt xq)
    (l6 : qt.shape.length = 2) (r7 : Rel B soc xsoc) (l7 : soc.shape.length = 2) (r8 : Rel B hyst xh)
    (r9 : Rel B gamma xg) (l9 : gamma.shape.length = 2)
    (one : ∀ d ∈ ck.shape, d = 1)
    (h : updateHyst beh dt ck ck1 slope eff qt soc hyst par gamma = .ok y) :
    Rel B y (fun b =>
      let M := if |xk b| ≤ 1e-8 then curveAt par b (xsoc b) * xk b else curveAt par b (xsoc b) * xk b / |xk b|
      let κ := xe b * xg b / xq b
      if xk b * xk1 b ≥ 0 ∨ beh = .constant then hystAfter (xh b) M κ (xd b) (xk b) (xs b)
      else
        let φ := -xk b / xs b
        hystAfter (hystAfter (xh b) M κ φ (xk b) (xs b)) (-M) κ (xd b - φ) 0 (xs b)) ∧ y.shape.length = 2 := by
  classical
  unfold updateHyst at h
  simp only [bind_ok] at h
  obtain ⟨m0, a1, m1, a2, M, a3, h⟩ := h
  obtain ⟨g1, g2⟩ := getValue_rel hB hpar r7 l7 a1
  obtain ⟨b2, c2⟩ := rel_map2' a2 g1 r2
  have c2' : m1.shape.length = 3 := by rw [c2, g2, l2]; rfl
  have hM : Rel B M (fun b => if |xk b| ≤ 1e-8 then curveAt par b (xsoc b) * xk b
      else curveAt par b (xsoc b) * xk b / |xk b|) ∧ M.shape.length = 3 := by
    unfold normaliseM at a3
    split at a3
    · rename_i hsm
      cases a3
      refine ⟨b2.congr fun b hb => ?_, c2'⟩
      rw [if_pos ((small_iff r2 l2 one hb).1 hsm)]
    · rename_i hsm
      obtain ⟨b3, c3⟩ := rel_map2' a3 b2 (rel_map abs r2)
      refine ⟨b3.congr fun b hb => ?_, by rw [c3, c2']; show max 3 ck.shape.length = 3; rw [l2]; rfl⟩
      rw [if_neg (fun hh => hsm ((small_iff r2 l2 one hb).2 hh))]
  obtain ⟨rM, lM⟩ := hM
  obtain ⟨eg, a4, kap, a5, pr, a6, same, a7, hh, a8, a9⟩ := h
  obtain ⟨b4, c4⟩ := rel_map2' a4 r5 r9
  obtain ⟨b5, c5⟩ := rel_map2' a5 b4 r6
  obtain ⟨b6, c6⟩ := rel_map2' a6 r2 r3
  have b7 := (truth_rel (rel_map (fun x => decide (x ≥ 0)) b6) a7).2
  have lk : kap.shape.length = 2 := by rw [c5, c4, l5, l9, l6]; rfl
  have hfin : Rel B hh (fun b =>
      let M := if |xk b| ≤ 1e-8 then curveAt par b (xsoc b) * xk b else curveAt par b (xsoc b) * xk b / |xk b|
      let κ := xe b * xg b / xq b
      if xk b * xk1 b ≥ 0 ∨ beh = .constant then hystAfter (xh b) M κ (xd b) (xk b) (xs b)
      else
        let φ := -xk b / xs b
        hystAfter (hystAfter (xh b) M κ φ (xk b) (xs b)) (-M) κ (xd b - φ) 0 (xs b)) := by
    unfold hystEvolve at a8
    split at a8
    · rename_i hc
      obtain ⟨s1, _, _⟩ := hystSolver_rel r8 rM b5 r1 r2 r4 a8
      refine s1.congr fun b hb => ?_
      have : xk b * xk1 b ≥ 0 ∨ beh = .constant := by
        rcases hc with hc | hc
        · left
          have := b7 b hb
          rw [hc] at this
          simpa using this
        · exact .inr hc
      simp only [if_pos this]
    · rename_i hc
      simp only [bind_ok] at a8
      obtain ⟨phi, d1, mid, d2, rest, d3, d4⟩ := a8
      obtain ⟨e1, _⟩ := rel_map2' d1 (rel_map (fun x => -x) r2) r4
      obtain ⟨s1, _, _⟩ := hystSolver_rel r8 rM b5 e1 r2 r4 d2
      obtain ⟨e3, _⟩ := rel_map2' d3 r1 e1
      obtain ⟨s2, _, _⟩ := hystSolver_rel s1 (rel_map (fun x => -x) rM) b5 e3 (rel_num B 0) r4 d4
      refine s2.congr fun b hb => ?_
      have : ¬ (xk b * xk1 b ≥ 0 ∨ beh = .constant) := by
        rintro (hc' | hc')
        · apply hc
          left
          have := b7 b hb
          rw [← this]
          simpa using hc'
        · exact hc (.inr hc')
      simp only [if_neg this]
  exact flattenHyst_rel hfin a9

theorem stAt_irc_of_wide {B : Nat} {w : Nat} {a : Nd ℝ} {x : Nat → Nat → ℝ} (h : Wide B w w a x) :
    (a.shape = [1, w] ∨ a.shape = [B, w]) ∧ ∀ b < B,
      ((List.range (a.shape.getD 1 0)).map fun j => a.get [if rows a = 1 then 0 else b, j]) = (List.range w).map (x b) := by
  obtain ⟨_, N, hN, hs, hv⟩ := h
  refine ⟨?_, fun b hb => ?_⟩
  · rcases hN with rfl | rfl
    · exact .inl hs
    · exact .inr hs
  · rw [hs]
    simp only [List.getD_cons_zero, List.getD_cons_succ]
    apply List.map_congr_left
    intro j hj
    rw [List.mem_range] at hj
    rw [← hv b hb j hj]
    have : (if w = 1 then 0 else j) = j := by split <;> omega
    rw [this]
    simp [rows, hs, clip]

theorem wide_irc {B w : Nat} {a : Nd ℝ} (h : a.shape = [1, w] ∨ a.shape = [B, w]) :
    Wide B w w a fun b j => a.get [if rows a = 1 then 0 else b, j] := by
  refine ⟨.inl rfl, ?_⟩
  have hj : ∀ j < w, (if w = 1 then 0 else j) = j := by intro j hj; split <;> omega
  rcases h with h | h
  · exact ⟨1, dim_one B, h, fun b _ j hlt => by rw [hj j hlt]; simp [rows, h]⟩
  · exact ⟨B, .inr rfl, h, fun b _ j hlt => by rw [hj j hlt]; simp [rows, h, clip]⟩

theorem slope_rel {B : Nat} {beh : Behavior} {prev new : Input} (hp : Ins B prev) (hn : Ins B new) {dt s : Nd ℝ}
    (hd : sub new.time prev.time = .ok dt)
    (hs : currentSlope beh prev new dt = .ok s) :
    Rel B s (fun b => slope beh (inAt prev b) (inAt new b)) ∧ s.shape.length = 2 := by
  obtain ⟨t1, u1⟩ := rel_scalar hp.time
  obtain ⟨t2, u2⟩ := rel_scalar hn.time
  obtain ⟨t3, u3⟩ := rel_scalar hp.current
  obtain ⟨t4, u4⟩ := rel_scalar hn.current
  obtain ⟨b1, c1⟩ := rel_map2' hd t2 t1
  cases beh with
  | constant =>
    cases hs
    exact ⟨rel_num2 B 0, rfl⟩
  | linear =>
    simp only [currentSlope, bind_ok] at hs
    obtain ⟨d, e1, e2⟩ := hs
    obtain ⟨b2, c2⟩ := rel_map2' e1 t4 t3
    obtain ⟨b3, c3⟩ := rel_map2' e2 b2 b1
    exact ⟨b3, by rw [c3, c2, c1, u1, u2, u3, u4]; rfl⟩

/-- Member `b` of the updated state is the update of member `b`. -/
theorem update_rows {B : Nat} (hB : 0 < B) {beh : Behavior} {prev new : Input} {st st' : State} {a : ASOH} (ha : Pars B a)
    (hp : Ins B prev) (hn : Ins B new) (hs : Sts B a st) (h : update beh prev new st a = .ok st') :
    Sts B a st' ∧ ∀ b < B, stAt st' b = step beh (inAt prev b) (inAt new b) (stAt st b) (parAt a b) := by
  classical
  unfold update at h
  simp only [bind_ok] at h
  obtain ⟨dt, a1, slp, a2, neg, a3, sd, a4, cd, a5, ch, a6, cq, a7, ec, a8, soc, a9, q0', a10, irc, a11, hy, a12,
    soc', a14, hy', a15, h⟩ := h
  simp only [pure_ok] at h
  subst h
  obtain ⟨t1, u1⟩ := rel_scalar hp.time
  obtain ⟨t2, u2⟩ := rel_scalar hn.time
  obtain ⟨t3, u3⟩ := rel_scalar hp.current
  obtain ⟨t4, u4⟩ := rel_scalar hn.current
  obtain ⟨t5, u5⟩ := rel_scalar ha.ce
  obtain ⟨t6, u6⟩ := rel_scalar ha.qt
  obtain ⟨t7, u7⟩ := rel_scalar ha.gamma
  obtain ⟨t8, u8⟩ := rel_scalar hs.soc
  obtain ⟨t9, u9⟩ := rel_scalar hs.hyst
  obtain ⟨b1, c1⟩ := rel_map2' a1 t2 t1
  obtain ⟨b2, c2⟩ := slope_rel hp hn a1 a2
  obtain ⟨one, b3⟩ := truth_rel (rel_map (fun x => decide (x < 0)) t3) a3
  have l1 : dt.shape.length = 2 := by rw [c1, u1, u2]; rfl
  have heff : Rel B (if neg then num2 1 else a.ce) (fun b => eff (inAt prev b) (parAt a b)) ∧
      (if neg then num2 1 else a.ce).shape.length = 2 := by
    cases neg with
    | true =>
      refine ⟨(rel_num2 B 1).congr fun b hb => ?_, rfl⟩
      have := b3 b hb
      simp only [decide_eq_true_eq] at this
      exact (if_pos this).symm
    | false =>
      refine ⟨t5.congr fun b hb => ?_, u5⟩
      have := b3 b hb
      simp only [decide_eq_false_iff_not] at this
      exact (if_neg this).symm
  obtain ⟨reff, leff⟩ := heff
  obtain ⟨b4, c4⟩ := rel_map2' a4 b2 b1
  obtain ⟨b5, c5⟩ := rel_map2' a5 t3 (rel_map (· / 2) b4)
  obtain ⟨b6, c6⟩ := rel_map2' a6 b1 b5
  have rq : Rel B (capacityValue a.qt) (fun b => 3600 * at2 a.qt b) := rel_map (3600 * ·) t6
  obtain ⟨b7, c7⟩ := rel_map2' a7 b6 rq
  obtain ⟨b8, c8⟩ := rel_map2' a8 reff b7
  obtain ⟨b9, c9⟩ := rel_map2' a9 t8 b8
  have l6 : ch.shape.length = 2 := by
    replace c5 : cd.shape.length = max prev.current.shape.length sd.shape.length := c5
    rw [c6, c5, c4, l1, c2, u3]; rfl
  have l9 : soc.shape.length = 2 := by
    replace c7 : cq.shape.length = max ch.shape.length a.qt.shape.length := c7
    rw [c9, c8, c7, leff, u8, u6, l6]; rfl
  have wirc := updateRC_wide hB ha.rcs b1 l1 t4 u4 b2 c2 t8 u8 (tempRel hp.temp) (wide_irc hs.irc) a11
  obtain ⟨b12, c12⟩ := updateHyst_rel hB ha.hyst b1 t3 u3 t4 b2 reff leff rq u6 t8 u8 t9 t7 u7 one a12
  obtain ⟨b14, c14⟩ := enforce0_rel b9 l9 a14
  obtain ⟨b15, c15⟩ := enforce0_rel b12 c12 a15
  obtain ⟨s1, v1⟩ := scalar_of_rel b14 c14
  obtain ⟨s2, v2⟩ := scalar_of_rel b15 c15
  obtain ⟨s3, v3⟩ := stAt_irc_of_wide wirc
  have hq : (∀ q ∈ q0', Scalar B q) ∧ ∀ b < B, (q0'.map fun q => at2 q b) =
      (st.q0.map fun q => at2 q b).map (· + charge beh (inAt prev b) (inAt new b)) := by
    cases hq0 : st.q0 with
    | none =>
      rw [hq0] at a10
      cases a10
      exact ⟨by simp, fun b _ => rfl⟩
    | some q =>
      rw [hq0] at a10
      simp only [updateQ0, bind_ok, pure_ok] at a10
      obtain ⟨q1, d1, q2, d3, d4⟩ := a10
      subst d4
      obtain ⟨tq, uq⟩ := rel_scalar (hs.q0 q (by rw [hq0]; rfl))
      obtain ⟨bq, cq'⟩ := rel_map2' d1 tq b6
      obtain ⟨be, ce⟩ := enforce0_rel bq (by rw [cq', uq, l6]; rfl) d3
      obtain ⟨s4, v4⟩ := scalar_of_rel be ce
      refine ⟨fun q' hq' => ?_, fun b hb => ?_⟩
      · cases hq'; exact s4
      · simp only [Option.map_some, Option.some.injEq]
        exact v4 b hb
  refine ⟨⟨s1, hq.1, s3, s2⟩, fun b hb => ?_⟩
  have e3 := v3 b hb
  have eirc : (List.range a.rcs.length).map (fun j =>
      let tau := match a.rcs[j]? with
        | some rc => resAt rc.r b (at2 st.soc b) ((prev.temp.map fun t => at2 t b)) * curveAt rc.c b (at2 st.soc b)
        | none => 0
      let f := Real.exp (-(at2 new.time b - at2 prev.time b) / tau)
      st.irc.get [if rows st.irc = 1 then 0 else b, j] * f +
        (1 - f) * (at2 new.current b - slope beh (inAt prev b) (inAt new b) * tau) +
        slope beh (inAt prev b) (inAt new b) * (at2 new.time b - at2 prev.time b)) =
      List.zipWith (rcNext beh (inAt prev b) (inAt new b) (stAt st b).soc) (parAt a b).rcs (stAt st b).irc := by
    have hw : st.irc.shape.getD 1 0 = a.rcs.length := by rcases hs.irc with e | e <;> simp [e]
    apply List.ext_getElem
    · simp only [stAt, parAt, hw]; simp
    · intro j h1 h2
      have hj : j < a.rcs.length := by simpa using h1
      simp only [stAt, parAt, hw, List.getElem_map, List.getElem_range, List.getElem_zipWith, List.getElem?_eq_getElem hj]
      rfl
  unfold stAt step
  simp only
  congr 1
  · exact v1 b hb
  · exact hq.2 b hb
  · rw [e3]; exact eirc
  · exact v2 b hb

end Verif.Cell
