import Verif.Spec.DemoCell
import Verif.Proofs.Interp
/-!
# C32: how resistances and the open-circuit voltage depend on temperature

`R` curves (rows of the parameter) are evaluated at `n` states of charge; `ref` is the value of the parameter itself
(`SOCInterpolatedHealth.get_value`), i.e. `R_ref(SOC)`.
-/

namespace Verif.Ecm
open Verif Nd

/-- Temperature of cell `k`, given one temperature per cell or one for all. -/
def tempAt (temp : Nd ℝ) (k : Nat) : ℝ := temp.get [if temp.shape = [1, 1] then 0 else k, 0]

theorem bdim_eq {q m : Nat} (h : m = 1 ∨ m = q) : bdim q m = some q := by
  unfold bdim
  rcases h with rfl | rfl <;> (repeat' split) <;> simp_all

theorem bdim_eq' {q m : Nat} (h : m = 1 ∨ m = q) : bdim m q = some q := by
  unfold bdim
  rcases h with rfl | rfl <;> (repeat' split) <;> simp_all

variable {r : Resistance} {R n m : Nat} {soc temp ref y : Nd ℝ}

/-- C32: without a temperature the resistance is the reference resistance. -/
theorem C32_no_temperature : r.getValue soc none = r.interp.getValue [rows r.tdf] soc := by
  unfold Resistance.getValue
  simp only [bind, Except.bind, pure, Except.pure]
  cases r.interp.getValue [rows r.tdf] soc <;> rfl

/-- C32: the exponential law, for every curve and every cell. -/
theorem C32_exponential_law (hg : r.tdf.shape = [1, 1]) (href : r.interp.getValue [rows r.tdf] soc = .ok ref)
    (hsh : ref.shape = [R, n, 1]) (ht : temp.shape = [m, 1]) (hm : m = 1 ∨ m = n) (hy : r.getValue soc (some temp) = .ok y) :
    y.shape = [R, n, 1] ∧ ∀ i < R, ∀ k < n,
      y.get [i, k, 0] = ref.get [i, k, 0] * Real.exp (-(r.tdf.get [0, 0]) * (tempAt temp k - r.refTemp)) := by
  have h11 : bdim 1 1 = some 1 := rfl
  unfold Resistance.getValue at hy
  rw [href] at hy
  simp only [bind, Except.bind, pure, Except.pure] at hy
  have htr : truth (r.tdf.map fun g => decide (g = 0)) = .ok (decide (r.tdf.get [0, 0] = 0)) := by
    simp [truth, size, Nd.map, hg]
  rw [htr] at hy
  simp only at hy
  split at hy
  · rename_i h0
    cases hy
    refine ⟨hsh, fun i _ k _ => ?_⟩
    rw [of_decide_eq_true h0]
    simp
  · have hb1 : bshape [1, 1] [m, 1] = some [m, 1] := by
      simp [bshape, bdims, h11, bdim_eq' (q := m) (m := 1) (.inl rfl)]
    have hb2 : bshape [R, n, 1] [m, 1] = some [R, n, 1] := by simp [bshape, bdims, h11, bdim_eq hm]
    simp only [mul, map2, Nd.map, hg, ht, hsh, hb1, hb2, Except.ok.injEq] at hy
    subst hy
    refine ⟨rfl, fun i hi k hk => ?_⟩
    simp only [bidx, List.reverse_cons, List.reverse_nil, List.nil_append, List.cons_append, List.zipWith_cons_cons, if_true,
      List.zipWith_nil_left, List.zipWith_nil_right, tempAt, ht, List.cons.injEq, and_true]
    have e1 : (if R = 1 then 0 else i) = i := by split <;> omega
    have e2 : (if n = 1 then 0 else k) = k := by split <;> omega
    rw [e1, e2]
    have e3 : (if m = 1 then 0 else if m = 1 then 0 else k) = if m = 1 then 0 else k := by split <;> simp_all
    rw [e3]

/-- C32: a batched temperature factor cannot be used with a temperature: ValueError. -/
theorem C32_batched_factor_raises {G : Nat} (hg : r.tdf.shape = [G, 1]) (hG : G ≠ 1)
    (href : r.interp.getValue [rows r.tdf] soc = .ok ref) : r.getValue soc (some temp) = .error .valueError := by
  unfold Resistance.getValue
  rw [href]
  simp only [bind, Except.bind, pure, Except.pure]
  have htr : truth (r.tdf.map fun g => decide (g = 0)) = .error .valueError := by
    simp [truth, size, Nd.map, hg, hG]
  rw [htr]

/-- C32: at the reference temperature the resistance is the reference resistance. -/
theorem C32_at_reference_temperature (hg : r.tdf.shape = [1, 1]) (href : r.interp.getValue [rows r.tdf] soc = .ok ref)
    (hsh : ref.shape = [R, n, 1]) (ht : temp.shape = [m, 1]) (hm : m = 1 ∨ m = n) (hy : r.getValue soc (some temp) = .ok y)
    {i k : Nat} (hi : i < R) (hk : k < n) (hT : tempAt temp k = r.refTemp) : y.get [i, k, 0] = ref.get [i, k, 0] := by
  rw [(C32_exponential_law hg href hsh ht hm hy).2 i hi k hk, hT]
  simp

/-- C32: temperature does not change the sign of a resistance. -/
theorem C32_keeps_sign (hg : r.tdf.shape = [1, 1]) (href : r.interp.getValue [rows r.tdf] soc = .ok ref)
    (hsh : ref.shape = [R, n, 1]) (ht : temp.shape = [m, 1]) (hm : m = 1 ∨ m = n) (hy : r.getValue soc (some temp) = .ok y)
    {i k : Nat} (hi : i < R) (hk : k < n) :
    (0 < y.get [i, k, 0] ↔ 0 < ref.get [i, k, 0]) ∧ (y.get [i, k, 0] < 0 ↔ ref.get [i, k, 0] < 0) := by
  rw [(C32_exponential_law hg href hsh ht hm hy).2 i hi k hk]
  have := Real.exp_pos (-(r.tdf.get [0, 0]) * (tempAt temp k - r.refTemp))
  exact ⟨by rw [mul_pos_iff_of_pos_right this], by
    constructor
    · intro h; by_contra hc; exact absurd (mul_nonneg (not_lt.1 hc) this.le) (not_le.2 h)
    · intro h; exact mul_neg_of_neg_of_pos h this⟩

/-- C32: for a positive factor and reference resistance, a warmer cell has the smaller resistance. -/
theorem C32_antitone (hg : r.tdf.shape = [1, 1]) (href : r.interp.getValue [rows r.tdf] soc = .ok ref)
    (hsh : ref.shape = [R, n, 1]) (ht : temp.shape = [m, 1]) (hm : m = 1 ∨ m = n) (hy : r.getValue soc (some temp) = .ok y)
    {m' : Nat} {temp' y' : Nd ℝ} (ht' : temp'.shape = [m', 1]) (hm' : m' = 1 ∨ m' = n) (hy' : r.getValue soc (some temp') = .ok y')
    {i k : Nat} (hi : i < R) (hk : k < n) (hpos : 0 < r.tdf.get [0, 0]) (hr : 0 < ref.get [i, k, 0]) :
    (tempAt temp k ≤ tempAt temp' k → y'.get [i, k, 0] ≤ y.get [i, k, 0]) ∧
      (tempAt temp k < tempAt temp' k → y'.get [i, k, 0] < y.get [i, k, 0]) := by
  rw [(C32_exponential_law hg href hsh ht hm hy).2 i hi k hk, (C32_exponential_law hg href hsh ht' hm' hy').2 i hi k hk]
  constructor
  · intro h
    refine mul_le_mul_of_nonneg_left (Real.exp_le_exp.2 ?_) hr.le
    nlinarith
  · intro h
    refine mul_lt_mul_of_pos_left (Real.exp_lt_exp.2 ?_) hr
    nlinarith

/-- C32: the open-circuit voltage is linear in temperature, with the entropic coefficient as its slope. -/
theorem C32_ocv_linear_law {o : OCV} {E : Nat} {ent : Nd ℝ} (hT : o.refTemp.shape = [1, 1])
    (href : o.ref.getValue [rows o.refTemp] soc = .ok ref) (hsh : ref.shape = [R, n, 1])
    (hent : o.ent.getValue [] soc = .ok ent) (hesh : ent.shape = [E, n, 1]) (hE : E = 1 ∨ E = R)
    (ht : temp.shape = [m, 1]) (hm : m = 1 ∨ m = n) :
    o.getValue soc none = .ok ref ∧ ∃ y, o.getValue soc (some temp) = .ok y ∧ y.shape = [R, n, 1] ∧ ∀ i < R, ∀ k < n,
      y.get [i, k, 0] = ref.get [i, k, 0] +
        (tempAt temp k - o.refTemp.get [0, 0]) * ent.get [if E = 1 then 0 else i, k, 0] := by
  have h11 : bdim 1 1 = some 1 := rfl
  have hb1 : bshape [m, 1] [1, 1] = some [m, 1] := by
    simp [bshape, bdims, h11, bdim_eq (q := m) (m := 1) (.inl rfl)]
  have hb2 : bshape [m, 1] [E, n, 1] = some [E, n, 1] := by simp [bshape, bdims, h11, bdim_eq' hm]
  have hb3 : bshape [R, n, 1] [E, n, 1] = some [R, n, 1] := by
    simp [bshape, bdims, h11, bdim_eq (q := n) (m := n) (.inr rfl), bdim_eq hE]
  constructor
  · unfold OCV.getValue
    rw [href]
    rfl
  · unfold OCV.getValue
    rw [href, hent]
    simp only [bind, Except.bind, sub, mul, inplace, map2, hT, ht, hsh, hesh, hb1, hb2, hb3, if_true]
    refine ⟨_, rfl, rfl, fun i hi k hk => ?_⟩
    simp only [bidx, List.reverse_cons, List.reverse_nil, List.nil_append, List.cons_append, List.zipWith_cons_cons, if_true,
      List.zipWith_nil_left, List.zipWith_nil_right, tempAt, ht, List.cons.injEq, and_true]
    have e1 : (if R = 1 then 0 else i) = i := by split <;> omega
    have e2 : (if n = 1 then 0 else k) = k := by split <;> omega
    have e3 : (if m = 1 then 0 else if m = 1 then 0 else k) = if m = 1 then 0 else k := by split <;> simp_all
    have e4 : (if E = 1 then 0 else if E = 1 then 0 else i) = if E = 1 then 0 else i := by split <;> simp_all
    simp only [e1, e2, e3, e4]

/-- Two batched resistances. -/
noncomputable def demoRes : Resistance := ⟨⟨⟨[2, 1], fun i => if i.getD 0 0 = 0 then 0.05 else 0.06⟩, none, .linear⟩, 25, num2 0.0025⟩

/-- Non-vacuity: two resistances for two cells at 25 °C and 30 °C. -/
example : ∃ ref y, demoRes.interp.getValue [rows demoRes.tdf] (Cell.Demo.two 0.2 0.3) = .ok ref ∧ ref.shape = [2, 2, 1] ∧
    demoRes.getValue (Cell.Demo.two 0.2 0.3) (some (Cell.Demo.two 25 30)) = .ok y ∧
    y.get [1, 0, 0] = 0.06 ∧ y.get [1, 1, 0] = 0.06 * Real.exp (-0.0125) := by
  have h1 : ∃ ref, demoRes.interp.getValue [rows demoRes.tdf] (Cell.Demo.two 0.2 0.3) = .ok ref :=
    ⟨_, by simp [Interp.getValue, demoRes, Interp.rows, Interp.width, Cell.Demo.two, rows, num2, batchLoop]; rfl⟩
  obtain ⟨ref, h1⟩ := h1
  obtain ⟨s, v⟩ := getValue_entry (R := 2) (W := 1) (n := 2) rfl rfl (by norm_num) h1
  obtain ⟨y, h2⟩ : ∃ y, demoRes.getValue (Cell.Demo.two 0.2 0.3) (some (Cell.Demo.two 25 30)) = .ok y := by
    unfold Resistance.getValue
    rw [h1]
    simp [bind, Except.bind, truth, size, Nd.map, demoRes, num2, mul, map2, s, Cell.Demo.two, bshape, bdims, bdim, pure, Except.pure]
    rw [if_neg (by norm_num)]
    exact ⟨_, rfl⟩
  obtain ⟨_, w⟩ := C32_exponential_law (r := demoRes) rfl h1 s (m := 2) rfl (.inr rfl) h2
  refine ⟨ref, y, h1, s, h2, ?_, ?_⟩
  · rw [w 1 (by norm_num) 0 (by norm_num), v 1 (by norm_num) 0 (by norm_num)]
    simp [demoRes, tempAt, Cell.Demo.two, num2]
  · rw [w 1 (by norm_num) 1 (by norm_num), v 1 (by norm_num) 1 (by norm_num)]
    norm_num [demoRes, tempAt, Cell.Demo.two, num2]

/-- Non-vacuity: the open-circuit voltage of the example circuit at one temperature for two cells. -/
example : ∃ ref ent, Cell.Demo.circuit.ocv.ref.getValue [rows Cell.Demo.circuit.ocv.refTemp] (Cell.Demo.two 0.2 0.3) = .ok ref ∧
    ref.shape = [1, 2, 1] ∧ Cell.Demo.circuit.ocv.ent.getValue [] (Cell.Demo.two 0.2 0.3) = .ok ent ∧ ent.shape = [1, 2, 1] ∧
    Cell.Demo.circuit.ocv.refTemp.shape = [1, 1] := by
  obtain ⟨ref, h1⟩ := Cell.getValue_ok (B := 2) (by norm_num) (h := Cell.Demo.line 3 4) (.inl rfl) (others := [1])
    (by simp [Dim]) (Cell.Demo.usable_line 3 4 [1] (by simp)) (Cell.rel_scalar (a := Cell.Demo.two 0.2 0.3) (.inr rfl)).1 rfl
  obtain ⟨ent, h2⟩ := Cell.getValue_ok (B := 2) (by norm_num) (h := Cell.Demo.flat 0.005) (.inl rfl) (others := [])
    (by simp) (.inl rfl) (Cell.rel_scalar (a := Cell.Demo.two 0.2 0.3) (.inr rfl)).1 rfl
  exact ⟨ref, ent, h1, (getValue_entry (R := 1) (W := 2) (n := 2) rfl rfl (by norm_num) h1).1, h2,
    (getValue_entry (R := 1) (W := 1) (n := 2) rfl rfl (by norm_num) h2).1, rfl⟩

end Verif.Ecm
