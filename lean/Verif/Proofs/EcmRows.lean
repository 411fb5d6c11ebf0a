import Verif.Proofs.Nd
import Verif.Spec.Cell
import Mathlib.Tactic.Linarith
/-!
# The array code of the equivalent circuit acts cell by cell
-/

namespace Verif
open Nd

theorem bind_ok {α β : Type} {x : Except Err α} {f : α → Except Err β} {c : β} :
    (x >>= f) = .ok c ↔ ∃ a, x = .ok a ∧ f a = .ok c := by
  cases x with
  | error e => simp [bind, Except.bind]
  | ok a => simp [bind, Except.bind]

theorem pure_ok {α : Type} {x c : α} : (pure x : Except Err α) = .ok c ↔ x = c := by
  show Except.ok x = Except.ok c ↔ x = c
  simp

theorem unravel_ravel : ∀ {s idx : List Nat}, List.Forall₂ (fun d i => i < d) s idx → unravel s (ravel s idx) = idx := by
  intro s idx h
  have bound : ∀ {s idx : List Nat}, List.Forall₂ (fun d i => i < d) s idx → ravel s idx < s.foldr (· * ·) 1 := by
    intro s idx h
    induction h with
    | nil => simp [ravel]
    | @cons d i ds is hd _ ih =>
      simp only [ravel, List.foldr_cons]
      calc i * ds.foldr (· * ·) 1 + ravel ds is < i * ds.foldr (· * ·) 1 + ds.foldr (· * ·) 1 := by omega
        _ = (i + 1) * ds.foldr (· * ·) 1 := by ring
        _ ≤ d * ds.foldr (· * ·) 1 := Nat.mul_le_mul_right _ hd
  induction h with
  | nil => rfl
  | @cons d i ds is hd ht ih =>
    have hb := bound ht
    have hpos : 0 < ds.foldr (· * ·) 1 := by omega
    simp only [ravel, unravel, List.cons.injEq]
    constructor
    · rw [Nat.mul_comm, Nat.mul_add_div hpos, Nat.div_eq_of_lt hb]; rfl
    · rw [Nat.mul_comm, Nat.mul_add_mod, Nat.mod_eq_of_lt hb, ih]

namespace Cell
open Ecm

theorem rel_scalar {B : Nat} {a : Nd ℝ} (h : Scalar B a) : Rel B a (at2 a) ∧ a.shape.length = 2 := by
  rcases h with h | h
  · exact ⟨Rel.of2 (dim_one B) h fun b _ => by simp [at2, rows, h], by simp [h]⟩
  · exact ⟨Rel.of2 (.inr rfl) h fun b _ => by simp [at2, rows, h, clip], by simp [h]⟩

theorem scalar_of_rel {B : Nat} {a : Nd ℝ} {x : Nat → ℝ} (h : Rel B a x) (hl : a.shape.length = 2) :
    Scalar B a ∧ ∀ b < B, at2 a b = x b := by
  obtain ⟨n, hn, hs, hv⟩ := h.shape2 hl
  refine ⟨?_, fun b hb => ?_⟩
  · rcases hn with rfl | rfl
    · exact .inl hs
    · exact .inr hs
  · rw [← hv b hb]; simp [at2, rows, hs, clip]

theorem curve_dim {B : Nat} {h : Interp} (hc : Curve B h) : Dim B h.rows ∧ h.base.shape = [h.rows, h.width] := by
  rcases hc with e | e
  · have : h.rows = 1 := by simp [Interp.rows, e]
    rw [this]; exact ⟨dim_one B, e⟩
  · have : h.rows = B := by simp [Interp.rows, e]
    rw [this]; exact ⟨.inr rfl, e⟩

theorem getValue_rel {B : Nat} (hB : 0 < B) {h : Interp} (hc : Curve B h) {others : List Nat} {soc : Nd ℝ} {x : Nat → ℝ}
    (hx : Rel B soc x) (hl : soc.shape.length = 2) {y : Nd ℝ} (hy : h.getValue others soc = .ok y) :
    Rel B y (fun b => curveAt h b (x b)) ∧ y.shape = [h.rows, rows soc, 1] := by
  obtain ⟨hr, hshape⟩ := curve_dim hc
  obtain ⟨n, hn, hs, hv⟩ := hx.shape2 hl
  have hrows : rows soc = n := by simp [rows, hs]
  rw [hrows]
  unfold Interp.getValue at hy
  simp only [hs, List.length_cons, List.length_nil] at hy
  norm_num at hy
  split at hy
  · cases hy
  · rename_i ib hib
    split at hy
    · rename_i hw
      simp only [Except.ok.injEq] at hy
      subst hy
      have hshp : (Nd.swapaxes (Nd.tile (⟨[h.rows, 1], fun idx => h.base.get [idx[0]?.getD 0, 0]⟩ : Nd ℝ) [n, 1, 1]) 0 1).shape =
          [h.rows, n, 1] := by
        simp [swapaxes, tile, swapAt]
      refine ⟨Rel.of3 hr hn hshp fun b hb => ?_, hshp⟩
      have h1 : clip h.rows b % h.rows = clip h.rows b := Nat.mod_eq_of_lt (clip_lt hr hb)
      simp [swapaxes, tile, swapAt, curveAt, hw, h1]
      rfl
    · rename_i hw
      split at hy
      · cases hy
      · rename_i y' hy'
        unfold Interp.interpFunc at hy'
        split at hy'
        · cases hy'
        · split at hy'
          · cases hy'
          · rename_i hw0
            simp only [Except.ok.injEq] at hy'
            subst hy'
            unfold reshape at hy
            simp only [size, hs, List.foldr_cons, List.foldr_nil, Nat.mul_one] at hy
            split at hy
            · rename_i hsz
              have hnpos : 0 < n := by rcases hn with rfl | rfl <;> omega
              have hib' : ib = h.rows := Nat.eq_of_mul_eq_mul_right hnpos hsz
              subst hib'
              simp only [Except.ok.injEq] at hy
              subst hy
              refine ⟨Rel.of3 hr hn rfl fun b hb => ?_, rfl⟩
              simp only
              rw [unravel_ravel]
              · simp only [List.headD_cons, List.tail_cons]
                rw [hv b hb]
                simp [curveAt, hw]
                rfl
              · exact .cons (clip_lt hr hb) (.cons (clip_lt hn hb) (.cons (by omega) .nil))
            · cases hy

theorem rel_map2' {α β γ : Type} {B : Nat} {a : Nd α} {c : Nd β} {x : Nat → α} {y : Nat → β} {f : α → β → γ} {r : Nd γ}
    (h : Nd.map2 f a c = .ok r) (ha : Rel B a x) (hc : Rel B c y) :
    Rel B r (fun b => f (x b) (y b)) ∧ r.shape.length = max a.shape.length c.shape.length := by
  obtain ⟨r', h1, h2, h3⟩ := rel_map2 f ha hc
  rw [h] at h1
  cases h1
  exact ⟨h2, h3⟩

/-- Optional temperatures: array and members. -/
def TempRel (B : Nat) (temp : Option (Nd ℝ)) (t : Nat → Option ℝ) : Prop :=
  match temp with
  | none => ∀ b, t b = none
  | some a => a.shape.length = 2 ∧ ∃ x, Rel B a x ∧ ∀ b, t b = some (x b)

theorem tempRel {B : Nat} {temp : Option (Nd ℝ)} (h : ∀ t ∈ temp, Scalar B t) :
    TempRel B temp fun b => temp.map fun t => at2 t b := by
  cases temp with
  | none => exact fun b => rfl
  | some a =>
    obtain ⟨h1, h2⟩ := rel_scalar (h a rfl)
    exact ⟨h2, at2 a, h1, fun b => rfl⟩

theorem resistance_rel {B : Nat} (hB : 0 < B) {r : Resistance} (hr : Res B r) {soc : Nd ℝ} {x : Nat → ℝ}
    (hx : Rel B soc x) (hl : soc.shape.length = 2) {temp : Option (Nd ℝ)} {t : Nat → Option ℝ} (ht : TempRel B temp t)
    {y : Nd ℝ} (hy : r.getValue soc temp = .ok y) :
    Rel B y (fun b => resAt r b (x b) (t b)) ∧ y.shape.length = 3 := by
  unfold Resistance.getValue at hy
  simp only [bind_ok] at hy
  obtain ⟨ref, h1, h2⟩ := hy
  obtain ⟨g1, g2⟩ := getValue_rel hB hr.1 hx hl h1
  cases temp with
  | none =>
    simp only [pure_ok] at h2
    subst h2
    exact ⟨g1.congr fun b _ => by rw [ht b]; rfl, by rw [g2]; rfl⟩
  | some a =>
    obtain ⟨hal, ta, hta, htb⟩ := ht
    simp only [bind_ok] at h2
    obtain ⟨v, h3, h4⟩ := h2
    obtain ⟨hrel, hlen⟩ := rel_scalar hr.2
    have ht0 := (truth_rel (rel_map (fun g => decide (g = 0)) hrel) h3).2
    split at h4
    · rename_i hv
      simp only [pure_ok] at h4
      subst h4
      refine ⟨g1.congr fun b hb => ?_, by rw [g2]; rfl⟩
      have := ht0 b hb
      rw [hv] at this
      have : at2 r.tdf b = 0 := by simpa using this
      rw [htb b]
      simp [resAt, this]
    · simp only [bind_ok] at h4
      obtain ⟨e, h5, h6⟩ := h4
      obtain ⟨k1, k2⟩ := rel_map2' h5 (rel_map (fun g => -g) hrel) (rel_map (· - r.refTemp) hta)
      obtain ⟨k3, k4⟩ := rel_map2' h6 g1 (rel_map Real.exp k1)
      refine ⟨k3.congr fun b _ => by rw [htb b]; simp [resAt], ?_⟩
      rw [k4, g2]
      simp only [Nd.map] at k2 ⊢
      rw [k2, hlen, hal]; rfl

theorem timeConstant_rel {B : Nat} (hB : 0 < B) {rc : Ecm.RC} (hr : Res B rc.r) (hc : Curve B rc.c) {soc : Nd ℝ} {x : Nat → ℝ}
    (hx : Rel B soc x) (hl : soc.shape.length = 2) {temp : Option (Nd ℝ)} {t : Nat → Option ℝ} (ht : TempRel B temp t)
    {y : Nd ℝ} (hy : rc.timeConstant soc temp = .ok y) :
    Rel B y (fun b => resAt rc.r b (x b) (t b) * curveAt rc.c b (x b)) ∧ y.shape.length = 3 := by
  unfold RC.timeConstant at hy
  simp only [bind_ok] at hy
  obtain ⟨r, h1, c, h2, h3⟩ := hy
  obtain ⟨g1, g2⟩ := resistance_rel hB hr hx hl ht h1
  obtain ⟨k1, k2⟩ := getValue_rel hB hc hx hl h2
  obtain ⟨m1, m2⟩ := rel_map2' h3 g1 k1
  exact ⟨m1, by rw [m2, g2, k2]; rfl⟩

theorem ocv_rel {B : Nat} (hB : 0 < B) {o : OCV} (h1 : Curve B o.ref) (h2 : Scalar B o.refTemp) (h3 : Curve B o.ent)
    {soc : Nd ℝ} {x : Nat → ℝ} (hx : Rel B soc x) (hl : soc.shape.length = 2) {temp : Option (Nd ℝ)} {t : Nat → Option ℝ}
    (ht : TempRel B temp t) {y : Nd ℝ} (hy : o.getValue soc temp = .ok y) :
    Rel B y (fun b => ocvAt o b (x b) (t b)) ∧ y.shape.length = 3 := by
  unfold OCV.getValue at hy
  simp only [bind_ok] at hy
  obtain ⟨ref, e1, e2⟩ := hy
  obtain ⟨g1, g2⟩ := getValue_rel hB h1 hx hl e1
  cases temp with
  | none =>
    simp only [pure_ok] at e2
    subst e2
    exact ⟨g1.congr fun b _ => by rw [ht b]; rfl, by rw [g2]; rfl⟩
  | some a =>
    obtain ⟨hal, ta, hta, htb⟩ := ht
    simp only [bind_ok] at e2
    obtain ⟨d, e3, en, e4, co, e5, e6⟩ := e2
    obtain ⟨hrel, hlen⟩ := rel_scalar h2
    obtain ⟨k1, k2⟩ := rel_map2' e3 hta hrel
    obtain ⟨k3, k4⟩ := getValue_rel hB h3 hx hl e4
    obtain ⟨k5, k6⟩ := rel_map2' e5 k1 k3
    unfold inplace at e6
    split at e6
    · cases e6
    · rename_i c e7
      split at e6
      · cases e6
        obtain ⟨k7, k8⟩ := rel_map2' e7 g1 k5
        refine ⟨k7.congr fun b _ => by rw [htb b]; rfl, ?_⟩
        rw [k8, k6, k2, g2, k4, hal, hlen]; rfl
      · cases e6

theorem hystSolver_rel {B : Nat} {h0 M kappa d i0 alpha y : Nd ℝ} {xh xM xk xd xi xa : Nat → ℝ} (r1 : Rel B h0 xh)
    (r2 : Rel B M xM) (r3 : Rel B kappa xk) (r4 : Rel B d xd) (r5 : Rel B i0 xi) (r6 : Rel B alpha xa)
    (hy : hystSolver h0 M kappa d i0 alpha = .ok y) :
    Rel B y (fun b => hystAfter (xh b) (xM b) (xk b) (xd b) (xi b) (xa b)) ∧ M.shape.length ≤ y.shape.length ∧
      y.shape.length ≤ max (max (max h0.shape.length M.shape.length) (max kappa.shape.length d.shape.length))
        (max i0.shape.length alpha.shape.length) := by
  unfold hystSolver at hy
  simp only [bind_ok] at hy
  obtain ⟨ad, a1, en, a2, pr, a3, v, a4, hy⟩ := hy
  split at hy
  · cases hy
  simp only [bind_ok] at hy
  obtain ⟨e1, a5, hd, a6, mid, a7, e2, a8, ad', a9, cmp, a10, pos, a11, h1, a12, h2, a13, a14⟩ := hy
  obtain ⟨b5, c5⟩ := rel_map2' a5 r3 r4
  obtain ⟨b6, c6⟩ := rel_map2' a6 (rel_map (0.5 * ·) r6) r4
  obtain ⟨b7, c7⟩ := rel_map2' a7 r5 b6
  obtain ⟨b8, c8⟩ := rel_map2' a8 b5 b7
  obtain ⟨b9, c9⟩ := rel_map2' a9 r6 r4
  obtain ⟨b10, c10⟩ := rel_map2' a10 r5 (rel_map (fun x => -x) b9)
  have b11 := (truth_rel b10 a11).2
  have key : Rel B (if pos then e2.map fun x => -x else e2) (fun b =>
      if xi b > -(xa b * xd b) then -(xk b * xd b * (xi b + 0.5 * xa b * xd b)) else xk b * xd b * (xi b + 0.5 * xa b * xd b)) ∧
      (if pos then e2.map fun x => -x else e2).shape.length = e2.shape.length := by
    cases pos with
    | true =>
      refine ⟨(rel_map (fun x => -x) b8).congr fun b hb => ?_, rfl⟩
      have := b11 b hb
      simp only [decide_eq_true_eq] at this
      rw [if_pos this]
    | false =>
      refine ⟨b8.congr fun b hb => ?_, rfl⟩
      have := b11 b hb
      simp only [decide_eq_false_iff_not] at this
      rw [if_neg this]
  obtain ⟨key, klen⟩ := key
  obtain ⟨b12, c12⟩ := rel_map2' a12 (rel_map Real.exp key) r1
  obtain ⟨b13, c13⟩ := rel_map2' a13 (rel_map (fun x => 1 - x) (rel_map Real.exp key)) r2
  obtain ⟨b14, c14⟩ := rel_map2' a14 b12 b13
  refine ⟨b14, ?_, ?_⟩
  · rw [c14, c13]; omega
  · replace c6 : hd.shape.length = max alpha.shape.length d.shape.length := c6
    replace c12 : h1.shape.length = max (if pos then e2.map fun x => -x else e2).shape.length h0.shape.length := c12
    replace c13 : h2.shape.length = max (if pos then e2.map fun x => -x else e2).shape.length M.shape.length := c13
    rw [c14, c12, c13, klen, c8, c5, c7, c6]
    omega

theorem flattenHyst_rel {B : Nat} {h y : Nd ℝ} {x : Nat → ℝ} (hr : Rel B h x) (hy : flattenHyst h = .ok y) :
    Rel B y x ∧ y.shape.length = 2 := by
  unfold flattenHyst at hy
  split at hy
  · cases hy
  rename_i hl
  obtain ⟨p, q, hp, hq, hs, hv⟩ := hr.shape3 (by omega)
  simp only [bind_ok, diag01, hs, List.getD_cons_zero, List.getD_cons_succ] at hy
  obtain ⟨h', hd, h3⟩ := hy
  by_cases hpq : p = q
  · subst hpq
    simp only [if_true, diagonal01, hs, Except.map, Except.ok.injEq] at hd
    subst hd
    rw [show min p p = p by omega] at h3
    by_cases hp1 : p = 1
    · subst hp1
      simp [swapaxes, swapAt, squeeze, size, reshape] at h3
      subst h3
      refine ⟨Rel.of2 (dim_one B) rfl fun b hb => ?_, rfl⟩
      rw [← hv b hb]
      simp [ravel, unravel]
    · simp [swapaxes, swapAt, squeeze, size, reshape, hp1] at h3
      subst h3
      refine ⟨Rel.of2 hp rfl fun b hb => ?_, rfl⟩
      rw [← hv b hb]
      simp [ravel, unravel, Nat.mod_one]
  · simp only [if_neg hpq, Except.ok.injEq] at hd
    subst hd
    by_cases hp1 : p = 1
    · subst hp1
      have hq1 : q ≠ 1 := fun h => hpq h.symm
      simp [squeeze, size, reshape, hs, hq1] at h3
      subst h3
      refine ⟨Rel.of2 hq rfl fun b hb => ?_, rfl⟩
      rw [← hv b hb]
      have := clip_lt hq hb
      simp [ravel, unravel, Nat.mod_one, Nat.div_eq_of_lt this, Nat.mod_eq_of_lt this]
    · have hq1 : q = 1 := by
        rcases hq with h | h
        · exact h
        · rcases hp with h' | h'
          · exact absurd h' hp1
          · exact absurd (h'.trans h.symm) hpq
      subst hq1
      simp [squeeze, size, reshape, hs, hp1] at h3
      subst h3
      refine ⟨Rel.of2 hp rfl fun b hb => ?_, rfl⟩
      rw [← hv b hb]
      simp [ravel, unravel, Nat.mod_one]

theorem enforce0_rel {B : Nat} {a y : Nd ℝ} {x : Nat → ℝ} (hr : Rel B a x) (hl : a.shape.length = 2)
    (hy : enforce0 a = .ok y) : Rel B y x ∧ y.shape.length = 2 := by
  obtain ⟨n, hn, hs, hv⟩ := hr.shape2 hl
  unfold enforce0 at hy
  split at hy
  · cases hy
  · simp [reshape, hs, size] at hy
    subst hy
    refine ⟨Rel.of2 hn rfl fun b hb => ?_, rfl⟩
    rw [← hv b hb]
    simp [ravel, unravel, Nat.mod_one]

end Cell
end Verif
