import Verif.Model.EcmEnergy
import Verif.Proofs.EcmSucceeds
import Verif.Proofs.Interp
import Verif.Spec.Cell
/-!
# The theoretical energy, cell by cell
-/

namespace Verif.Cell
open Verif Nd Ecm

/-- Entries of an evaluated parameter, for a 1D SOC. -/
theorem getValue_entry1 {h : Interp} {R W n : Nat} (hb : h.base.shape = [R, W]) {others : List Nat} {soc y : Nd ℝ}
    (hs : soc.shape = [n]) (hn : 0 < n) (hy : h.getValue others soc = .ok y) :
    y.shape = [R, 1, n] ∧ ∀ i < R, ∀ k < n, y.get [i, 0, k] =
      if W = 1 then h.base.get [i, 0] else h.style.curve h.pinsUsed (h.row i) (soc.get [k]) := by
  have hR : h.rows = R := by simp [Interp.rows, hb]
  have hW : h.width = W := by simp [Interp.width, hb]
  unfold Interp.getValue at hy
  simp only [hs, List.length_cons, List.length_nil] at hy
  norm_num at hy
  split at hy
  · cases hy
  · rename_i ib hib
    split at hy
    · rename_i hw
      simp only [Except.ok.injEq] at hy
      subst hy
      rw [hR]
      refine ⟨by simp [swapaxes, tile, swapAt], fun i hi k hk => ?_⟩
      rw [if_pos (hW ▸ hw)]
      simp [swapaxes, tile, swapAt, Nat.mod_eq_of_lt hi]
    · rename_i hw
      split at hy
      · cases hy
      · rename_i y' hy'
        unfold Interp.interpFunc at hy'
        split at hy'
        · cases hy'
        · split at hy'
          · cases hy'
          · simp only [Except.ok.injEq] at hy'
            subst hy'
            unfold reshape at hy
            simp only [size, hs, List.foldr_cons, List.foldr_nil, Nat.mul_one, Nat.one_mul] at hy
            split at hy
            · rename_i hsz
              have : ib = R := by rw [hR] at hsz; exact Nat.eq_of_mul_eq_mul_right hn hsz
              subst this
              simp only [Except.ok.injEq] at hy
              subst hy
              refine ⟨rfl, fun i hi k hk => ?_⟩
              rw [if_neg (hW ▸ hw)]
              simp only
              have : ravel [ib, 1, n] [i, 0, k] = ravel [h.rows, n] [i, k] := by simp [ravel]
              rw [this, unravel_ravel (.cons (hR ▸ hi) (.cons hk .nil))]
              rfl
            · cases hy

/-- The curve of member `b`, whatever its batching. -/
theorem getValue_curve1 {h : Interp} {B n : Nat} (hc : Curve B h) {others : List Nat} {soc y : Nd ℝ}
    (hs : soc.shape = [n]) (hn : 0 < n) (hy : h.getValue others soc = .ok y) :
    y.shape = [h.rows, 1, n] ∧ ∀ b < B, ∀ k < n, y.get [if h.rows = 1 then 0 else b, 0, k] = curveAt h b (soc.get [k]) := by
  obtain ⟨hd, hsh⟩ := curve_dim hc
  obtain ⟨h1, h2⟩ := getValue_entry1 hsh hs hn hy
  refine ⟨h1, fun b hb k hk => ?_⟩
  have : (if h.rows = 1 then 0 else b) < h.rows := by
    rcases hd with h | h
    · rw [h]; simp
    · rw [h]; split <;> omega
  rw [h2 _ this k hk]
  rfl

/-- When a temperature is given, the reference temperature must not be batched, and the entropic term only together with the
reference curve. -/
def OcvUsable (o : OCV) (temp : Option ℝ) : Prop :=
  temp.isSome → o.refTemp.shape = [1, 1] ∧ (o.ent.rows = 1 ∨ o.ent.rows = o.ref.rows)

theorem bdim_left {q m : Nat} (h : m = 1 ∨ m = q) : bdim q m = some q := by
  unfold bdim
  rcases h with rfl | rfl <;> (repeat' split) <;> simp_all

theorem bdim_right {q m : Nat} (h : m = 1 ∨ m = q) : bdim m q = some q := by
  unfold bdim
  rcases h with rfl | rfl <;> (repeat' split) <;> simp_all

theorem ocv_entry1 {o : OCV} {B n : Nat} (h1 : Curve B o.ref) (h3 : Curve B o.ent) {temp : Option ℝ} (hu : OcvUsable o temp)
    {soc y : Nd ℝ} (hs : soc.shape = [n]) (hn : 0 < n) (hy : o.getValue soc (temp.map num) = .ok y) :
    y.shape = [o.ref.rows, 1, n] ∧
      ∀ b < B, ∀ k < n, y.get [if o.ref.rows = 1 then 0 else b, 0, k] = ocvAt o b (soc.get [k]) temp := by
  have h11 : bdim 1 1 = some 1 := rfl
  unfold OCV.getValue at hy
  simp only [bind_ok] at hy
  obtain ⟨ref, e1, e2⟩ := hy
  obtain ⟨g1, g2⟩ := getValue_curve1 h1 hs hn e1
  cases temp with
  | none =>
    simp only [Option.map_none, pure_ok] at e2
    subst e2
    exact ⟨g1, g2⟩
  | some t =>
    obtain ⟨hT, hE⟩ := hu rfl
    simp only [Option.map_some, bind_ok] at e2
    obtain ⟨d, e3, en, e4, co, e5, e6⟩ := e2
    obtain ⟨k1, k2⟩ := getValue_curve1 h3 hs hn e4
    have hb1 : bshape [] [1, 1] = some [1, 1] := by simp [bshape, bdims]
    have hb2 : bshape [1, 1] [o.ent.rows, 1, n] = some [o.ent.rows, 1, n] := by
      simp [bshape, bdims, h11, bdim_right (q := n) (m := 1) (.inl rfl)]
    have hb3 : bshape [o.ref.rows, 1, n] [o.ent.rows, 1, n] = some [o.ref.rows, 1, n] := by
      simp [bshape, bdims, h11, bdim_left (q := n) (m := n) (.inr rfl), bdim_left hE]
    simp only [sub, map2, num, hT, hb1, Except.ok.injEq] at e3
    subst e3
    simp only [mul, map2, k1, hb2, Except.ok.injEq] at e5
    subst e5
    simp only [inplace, map2, g1, hb3, if_true, Except.ok.injEq] at e6
    subst e6
    refine ⟨rfl, fun b hb k hk => ?_⟩
    simp only [bidx, List.reverse_cons, List.reverse_nil, List.nil_append, List.cons_append, List.zipWith_cons_cons, if_true,
      List.zipWith_nil_left, List.zipWith_nil_right]
    have c1 : (if o.ref.rows = 1 then 0 else if o.ref.rows = 1 then 0 else b) = if o.ref.rows = 1 then 0 else b := by
      split <;> simp_all
    have c2 : (if n = 1 then 0 else k) = k := by split <;> omega
    have c4 : (if o.ent.rows = 1 then 0 else if o.ent.rows = 1 then 0 else if o.ref.rows = 1 then 0 else b) =
        if o.ent.rows = 1 then 0 else b := by
      rcases hE with h | h
      · simp [h]
      · rw [h]; split <;> simp_all
    simp only [c1, c2, c4, g2 b hb k hk, k2 b hb k hk]
    simp [ocvAt, at2, rows, hT]

theorem at2_mk (d : Nat) (g : List Nat → ℝ) (b : Nat) : at2 ⟨[d, 1], g⟩ b = g [if d = 1 then 0 else b, 0] := rfl

/-- The energy of member `b`: the trapezoidal sum over 100 equally spaced states of charge, times its capacity. -/
theorem energy_entry {a : ASOH} {B : Nat} (h1 : Curve B a.ocv.ref) (h3 : Curve B a.ocv.ent) (hq : Scalar B a.qt)
    {temp : Option ℝ} (hu : OcvUsable a.ocv temp) {l₀ l₁ : ℝ} {e : Nd ℝ} (he : theoreticalEnergy a l₀ l₁ temp = .ok e) :
    Scalar B e ∧ ∀ b < B, at2 e b = (∑ j ∈ Finset.range 99,
      ((linspace (min l₀ l₁) (max l₀ l₁) 100).get [j + 1] - (linspace (min l₀ l₁) (max l₀ l₁) 100).get [j]) *
        (ocvAt a.ocv b ((linspace (min l₀ l₁) (max l₀ l₁) 100).get [j + 1]) temp +
         ocvAt a.ocv b ((linspace (min l₀ l₁) (max l₀ l₁) 100).get [j]) temp) / 2) * at2 a.qt b := by
  have h11 : bdim 1 1 = some 1 := rfl
  unfold theoreticalEnergy at he
  simp only [bind_ok] at he
  obtain ⟨v, e1, en, e2, e3⟩ := he
  revert e1 e2
  generalize hsoc : linspace (min l₀ l₁) (max l₀ l₁) 100 = soc
  have hs : soc.shape = [100] := by rw [← hsoc]; rfl
  intro e1 e2
  obtain ⟨g1, g2⟩ := ocv_entry1 h1 h3 hu hs (by norm_num) e1
  simp only [trapezoid, g1, hs, if_true, Except.ok.injEq] at e2
  subst e2
  obtain ⟨dr, _⟩ := curve_dim h1
  obtain ⟨dq, sq⟩ := dim_rows hq
  have hbd : bdim a.ocv.ref.rows (rows a.qt) = some (if a.ocv.ref.rows = 1 then rows a.qt else a.ocv.ref.rows) := by
    unfold bdim
    rcases dr with h | h <;> rcases dq with h' | h' <;> rw [h, h'] <;> (repeat' split) <;> simp_all
  have hbs : bshape [a.ocv.ref.rows, 1] [rows a.qt, 1] = some [if a.ocv.ref.rows = 1 then rows a.qt else a.ocv.ref.rows, 1] := by
    simp [bshape, bdims, h11, hbd]
  unfold mul map2 at e3
  rw [sq] at e3
  simp only [hbs, Except.ok.injEq] at e3
  subst e3
  have hdim : (if a.ocv.ref.rows = 1 then rows a.qt else a.ocv.ref.rows) = 1 ∨
      (if a.ocv.ref.rows = 1 then rows a.qt else a.ocv.ref.rows) = B := by
    split
    · exact dq
    · exact dr
  refine ⟨hdim.imp (fun h => by simp [h]) (fun h => by simp [h]), fun b hb => ?_⟩
  have c1 : (if a.ocv.ref.rows = 1 then 0
      else if (if a.ocv.ref.rows = 1 then rows a.qt else a.ocv.ref.rows) = 1 then 0 else b) = if a.ocv.ref.rows = 1 then 0 else b := by
    split <;> simp_all
  have c2 : (if rows a.qt = 1 then 0
      else if (if a.ocv.ref.rows = 1 then rows a.qt else a.ocv.ref.rows) = 1 then 0 else b) = if rows a.qt = 1 then 0 else b := by
    by_cases hr : a.ocv.ref.rows = 1
    · simp only [hr, if_true]; split <;> rfl
    · simp only [hr, if_false]
  rw [at2_mk, at2]
  simp only [bidx, List.reverse_cons, List.reverse_nil, List.nil_append, List.cons_append,
    List.zipWith_cons_cons, if_true, List.zipWith_nil_right]
  rw [c1, c2]
  refine congrArg (· * _) (Finset.sum_congr rfl fun j hj => ?_)
  have hj' := Finset.mem_range.1 hj
  simp only [List.getD_cons_zero, List.getD_cons_succ]
  rw [g2 b hb (j + 1) (by omega), g2 b hb j (by omega)]

end Verif.Cell
