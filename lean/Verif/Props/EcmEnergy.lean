import Verif.Proofs.EcmEnergy
import Verif.Spec.DemoCell
import Mathlib.Analysis.SpecialFunctions.Integrals.Basic
/-!
# C33: the theoretical energy
-/

namespace Verif.Cell
open Verif Nd Ecm MeasureTheory

theorem linspace_get (lo hi : ℝ) (j : Nat) : (linspace lo hi 100).get [j] = lo + j * ((hi - lo) / 99) := by
  simp only [linspace, List.getD_cons_zero]
  norm_num
  ring

theorem linspace_mem {lo hi : ℝ} (h : lo ≤ hi) {j : Nat} (hj : j ≤ 99) :
    lo ≤ (linspace lo hi 100).get [j] ∧ (linspace lo hi 100).get [j] ≤ hi := by
  rw [linspace_get]
  have h1 : (j : ℝ) ≤ 99 := by exact_mod_cast hj
  have h2 : (0 : ℝ) ≤ j := Nat.cast_nonneg j
  have h3 : 0 ≤ (hi - lo) / 99 := div_nonneg (by linarith) (by norm_num)
  constructor
  · nlinarith [mul_nonneg h2 h3]
  · have := mul_le_mul_of_nonneg_right h1 h3
    linarith

variable {a : ASOH} {B : Nat} {temp : Option ℝ} {l₀ l₁ : ℝ} {e : Nd ℝ}

/-- C33: the order in which the SOC limits are given does not matter. -/
theorem C33_order_of_limits_irrelevant (a : ASOH) (l₀ l₁ : ℝ) (temp : Option ℝ) :
    theoreticalEnergy a l₀ l₁ temp = theoreticalEnergy a l₁ l₀ temp := by
  unfold theoreticalEnergy
  rw [min_comm, max_comm]

/-- C33: the energy of each cell lies between the extreme open-circuit voltages in the SOC range, times the span, times its
capacity. -/
theorem C33_between_extreme_voltages (h1 : Curve B a.ocv.ref) (h3 : Curve B a.ocv.ent) (hq : Scalar B a.qt)
    (hu : OcvUsable a.ocv temp) (he : theoreticalEnergy a l₀ l₁ temp = .ok e) {b : Nat} (hb : b < B) (hpos : 0 ≤ at2 a.qt b)
    {lo hi : ℝ} (hv : ∀ s, min l₀ l₁ ≤ s → s ≤ max l₀ l₁ → lo ≤ ocvAt a.ocv b s temp ∧ ocvAt a.ocv b s temp ≤ hi) :
    lo * |l₁ - l₀| * at2 a.qt b ≤ at2 e b ∧ at2 e b ≤ hi * |l₁ - l₀| * at2 a.qt b := by
  rw [(energy_entry h1 h3 hq hu he).2 b hb, ← max_sub_min_eq_abs]
  have hle : min l₀ l₁ ≤ max l₀ l₁ := min_le_max
  generalize min l₀ l₁ = p at *
  generalize max l₀ l₁ = q at *
  have hh : 0 ≤ (q - p) / 99 := div_nonneg (by linarith) (by norm_num)
  have hd : ∀ j : Nat, (linspace p q 100).get [j + 1] - (linspace p q 100).get [j] = (q - p) / 99 := by
    intro j; rw [linspace_get, linspace_get]; push_cast; ring
  have hlow : lo * (q - p) = ∑ j ∈ Finset.range 99, (q - p) / 99 * lo := by
    rw [Finset.sum_const, Finset.card_range]; simp; ring
  have hhigh : hi * (q - p) = ∑ j ∈ Finset.range 99, (q - p) / 99 * hi := by
    rw [Finset.sum_const, Finset.card_range]; simp; ring
  constructor
  · refine mul_le_mul_of_nonneg_right ?_ hpos
    rw [hlow]
    refine Finset.sum_le_sum fun j hj => ?_
    have hj := Finset.mem_range.1 hj
    rw [hd, mul_div_assoc]
    refine mul_le_mul_of_nonneg_left ?_ hh
    have m1 := linspace_mem hle (j := j + 1) (by omega)
    have m2 := linspace_mem hle (j := j) (by omega)
    have := (hv _ m1.1 m1.2).1
    have := (hv _ m2.1 m2.2).1
    linarith
  · refine mul_le_mul_of_nonneg_right ?_ hpos
    rw [hhigh]
    refine Finset.sum_le_sum fun j hj => ?_
    have hj := Finset.mem_range.1 hj
    rw [hd, mul_div_assoc]
    refine mul_le_mul_of_nonneg_left ?_ hh
    have m1 := linspace_mem hle (j := j + 1) (by omega)
    have m2 := linspace_mem hle (j := j) (by omega)
    have := (hv _ m1.1 m1.2).2
    have := (hv _ m2.1 m2.2).2
    linarith

/-- C33: for an open-circuit voltage affine in SOC the energy is the exact integral of the voltage over the SOC range, times the
capacity. -/
theorem C33_exact_for_affine_voltage (h1 : Curve B a.ocv.ref) (h3 : Curve B a.ocv.ent) (hq : Scalar B a.qt)
    (hu : OcvUsable a.ocv temp) (he : theoreticalEnergy a l₀ l₁ temp = .ok e) {b : Nat} (hb : b < B)
    {c₀ c₁ : ℝ} (hv : ∀ s, min l₀ l₁ ≤ s → s ≤ max l₀ l₁ → ocvAt a.ocv b s temp = c₀ + c₁ * s) :
    at2 e b = (∫ s in (min l₀ l₁)..(max l₀ l₁), ocvAt a.ocv b s temp) * at2 a.qt b := by
  rw [(energy_entry h1 h3 hq hu he).2 b hb]
  have hle : min l₀ l₁ ≤ max l₀ l₁ := min_le_max
  generalize min l₀ l₁ = p at *
  generalize max l₀ l₁ = q at *
  congr 1
  have hint : (∫ s in p..q, ocvAt a.ocv b s temp) = c₀ * (q - p) + c₁ * (q ^ 2 - p ^ 2) / 2 := by
    rw [intervalIntegral.integral_congr (g := fun s => c₀ + c₁ * s)]
    · rw [intervalIntegral.integral_add (by simp) (by exact (continuous_const.mul continuous_id).intervalIntegrable _ _)]
      rw [intervalIntegral.integral_const, intervalIntegral.integral_const_mul, integral_id]
      simp only [smul_eq_mul]
      ring
    · intro s hs
      rw [Set.uIcc_of_le hle] at hs
      exact hv s hs.1 hs.2
  rw [hint]
  have hterm : ∀ j ∈ Finset.range 99, ((linspace p q 100).get [j + 1] - (linspace p q 100).get [j]) *
      (ocvAt a.ocv b ((linspace p q 100).get [j + 1]) temp + ocvAt a.ocv b ((linspace p q 100).get [j]) temp) / 2 =
      (fun k : Nat => c₀ * (linspace p q 100).get [k] + c₁ * (linspace p q 100).get [k] ^ 2 / 2) (j + 1) -
      (fun k : Nat => c₀ * (linspace p q 100).get [k] + c₁ * (linspace p q 100).get [k] ^ 2 / 2) j := by
    intro j hj
    have hj := Finset.mem_range.1 hj
    have m1 := linspace_mem hle (j := j + 1) (by omega)
    have m2 := linspace_mem hle (j := j) (by omega)
    rw [hv _ m1.1 m1.2, hv _ m2.1 m2.2]
    ring
  rw [Finset.sum_congr rfl hterm]
  refine (Finset.sum_range_sub (fun k : Nat => c₀ * (linspace p q 100).get [k] + c₁ * (linspace p q 100).get [k] ^ 2 / 2) 99).trans ?_
  simp only [linspace_get]
  push_cast
  ring

/-- C33: the energy is proportional to the capacity. -/
theorem C33_linear_in_capacity (h1 : Curve B a.ocv.ref) (h3 : Curve B a.ocv.ent) (hq : Scalar B a.qt)
    (hu : OcvUsable a.ocv temp) (he : theoreticalEnergy a l₀ l₁ temp = .ok e) {qt' e' : Nd ℝ} (hq' : Scalar B qt')
    (he' : theoreticalEnergy { a with qt := qt' } l₀ l₁ temp = .ok e') {b : Nat} (hb : b < B) {c : ℝ}
    (hc : at2 qt' b = c * at2 a.qt b) : at2 e' b = c * at2 e b := by
  rw [(energy_entry h1 h3 hq hu he).2 b hb, (energy_entry (a := { a with qt := qt' }) h1 h3 hq' hu he').2 b hb]
  show _ * at2 qt' b = _
  rw [hc]
  ring

/-- C33: the result is one energy per cell, or one for all. -/
theorem C33_one_energy_per_cell (h1 : Curve B a.ocv.ref) (h3 : Curve B a.ocv.ent) (hq : Scalar B a.qt)
    (hu : OcvUsable a.ocv temp) (he : theoreticalEnergy a l₀ l₁ temp = .ok e) : e.shape = [1, 1] ∨ e.shape = [B, 1] :=
  (energy_entry h1 h3 hq hu he).1

theorem getValue_ok1 (hB : 0 < B) {h : Interp} (hc : Curve B h) {others : List Nat} (ho : ∀ o ∈ others, Dim B o)
    (hu : Usable h others) {soc : Nd ℝ} {n : Nat} (hs : soc.shape = [n]) :
    ∃ y, h.getValue others soc = .ok y := by
  obtain ⟨hr, hshape⟩ := curve_dim hc
  obtain ⟨ib, e1, e2, e3⟩ := batchLoop_dims hB (l := h.rows :: others) (by
    intro k hk
    rcases List.mem_cons.1 hk with rfl | hk
    · exact hr
    · exact ho k hk)
  unfold Interp.getValue
  simp only [hs, List.length_cons, List.length_nil]
  rw [if_neg (by omega), e1]
  simp only
  by_cases hw : h.width = 1
  · rw [if_pos hw]; exact ⟨_, rfl⟩
  · rw [if_neg hw]
    obtain ⟨h0, hpl, hoth⟩ := hu.resolve_left hw
    have hib : ib = h.rows := by
      rcases e3 h.rows (by
        intro k hk
        rcases List.mem_cons.1 hk with rfl | hk
        · exact .inr rfl
        · exact hoth k hk) List.mem_cons_self with h' | h'
      · exact h'
      · rcases hr with h'' | h'' <;> omega
    unfold Interp.interpFunc
    rw [if_neg (by simpa using hpl), if_neg h0]
    refine reshape_ok ?_
    simp [size, hs, hib]

/-- C33: the energy can be computed for every circuit whose curves can be evaluated, provided that with a temperature neither the
reference temperature nor (alone) the entropic term is batched. -/
theorem C33_succeeds (hB : 0 < B) (h1 : Curve B a.ocv.ref) (h2 : Scalar B a.ocv.refTemp) (h3 : Curve B a.ocv.ent) (hq : Scalar B a.qt)
    (u1 : Usable a.ocv.ref [rows a.ocv.refTemp]) (u3 : Usable a.ocv.ent []) (hu : OcvUsable a.ocv temp) :
    ∃ e, theoreticalEnergy a l₀ l₁ temp = .ok e := by
  have h11 : bdim 1 1 = some 1 := rfl
  have hs : (linspace (min l₀ l₁) (max l₀ l₁) 100).shape = [100] := rfl
  obtain ⟨ref, r1⟩ := getValue_ok1 hB h1 (others := [rows a.ocv.refTemp]) (by simpa using (dim_rows h2).1) u1 hs
  obtain ⟨ent, r2⟩ := getValue_ok1 hB h3 (others := []) (by simp) u3 hs
  obtain ⟨g1, -⟩ := getValue_curve1 h1 hs (by norm_num) r1
  obtain ⟨k1, -⟩ := getValue_curve1 h3 hs (by norm_num) r2
  have hv : ∃ v, a.ocv.getValue (linspace (min l₀ l₁) (max l₀ l₁) 100) (temp.map num) = .ok v := by
    unfold OCV.getValue
    rw [r1, r2]
    cases temp with
    | none => exact ⟨ref, rfl⟩
    | some t =>
      obtain ⟨hT, hE⟩ := hu rfl
      have hb1 : bshape [] [1, 1] = some [1, 1] := by simp [bshape, bdims]
      have hb2 : bshape [1, 1] [a.ocv.ent.rows, 1, 100] = some [a.ocv.ent.rows, 1, 100] := by
        simp [bshape, bdims, h11, bdim_right (q := 100) (m := 1) (.inl rfl)]
      have hb3 : bshape [a.ocv.ref.rows, 1, 100] [a.ocv.ent.rows, 1, 100] = some [a.ocv.ref.rows, 1, 100] := by
        simp [bshape, bdims, h11, bdim_left (q := 100) (m := 100) (.inr rfl), bdim_left hE]
      simp only [Option.map_some, bind, Except.bind, sub, mul, inplace, map2, num, hT, hb1, k1, hb2, g1, hb3, if_true]
      exact ⟨_, rfl⟩
  obtain ⟨v, hv⟩ := hv
  obtain ⟨v1, -⟩ := ocv_entry1 h1 h3 hu hs (by norm_num) hv
  obtain ⟨dr, _⟩ := curve_dim h1
  obtain ⟨dq, sq⟩ := dim_rows hq
  have hbd : bdim a.ocv.ref.rows (rows a.qt) = some (if a.ocv.ref.rows = 1 then rows a.qt else a.ocv.ref.rows) := by
    unfold bdim
    rcases dr with h | h <;> rcases dq with h' | h' <;> rw [h, h'] <;> (repeat' split) <;> simp_all
  have hbs : bshape [a.ocv.ref.rows, 1] [rows a.qt, 1] = some [if a.ocv.ref.rows = 1 then rows a.qt else a.ocv.ref.rows, 1] := by
    simp [bshape, bdims, h11, hbd]
  unfold theoreticalEnergy
  simp only
  rw [hv]
  simp only [bind, Except.bind, trapezoid, v1, hs, if_true, mul, map2]
  rw [sq, hbs]
  exact ⟨_, rfl⟩

/-- C33 (a restriction of the code): with a temperature and a batched reference temperature the energy cannot be computed. -/
theorem C33_batched_reference_temperature_raises {T : Nat} (hT : a.ocv.refTemp.shape = [T, 1]) (h2 : 2 ≤ T) (t : ℝ)
    {R W : Nat} (hR : a.ocv.ref.base.shape = [R, W]) {E V : Nat} (hE : a.ocv.ent.base.shape = [E, V]) :
    ∃ err, theoreticalEnergy a l₀ l₁ (some t) = .error err := by
  cases hres : theoreticalEnergy a l₀ l₁ (some t) with
  | error err => exact ⟨err, rfl⟩
  | ok e =>
    exfalso
    have h11 : bdim 1 1 = some 1 := rfl
    have hs : (linspace (min l₀ l₁) (max l₀ l₁) 100).shape = [100] := rfl
    unfold theoreticalEnergy at hres
    simp only [bind_ok] at hres
    obtain ⟨v, e1, -⟩ := hres
    unfold OCV.getValue at e1
    simp only [Option.map_some, bind_ok] at e1
    obtain ⟨ref, r1, d, r2, en, r3, co, r4, r5⟩ := e1
    obtain ⟨g1, -⟩ := getValue_entry1 hR hs (by norm_num) r1
    obtain ⟨k1, -⟩ := getValue_entry1 hE hs (by norm_num) r3
    have hb1 : bshape [] [T, 1] = some [T, 1] := by simp [bshape, bdims]
    have hb2 : bshape [T, 1] [E, 1, 100] = some [E, T, 100] := by
      simp [bshape, bdims, bdim_right (q := 100) (m := 1) (.inl rfl), bdim_left (q := T) (m := 1) (.inl rfl)]
    simp only [sub, map2, num, hT, hb1, Except.ok.injEq] at r2
    subst r2
    simp only [mul, map2, k1, hb2, Except.ok.injEq] at r4
    subst r4
    unfold inplace map2 at r5
    simp only [g1] at r5
    split at r5
    · cases r5
    · rename_i c hc
      split at hc
      · cases hc
      · rename_i s hsh
        simp only [Except.ok.injEq] at hc
        subst hc
        split at r5
        · rename_i heq
          simp only at heq
          subst heq
          have : bdim 1 T = some T := bdim_right (.inl rfl)
          simp [bshape, bdims, this, show bdim 100 100 = some 100 from rfl] at hsh
          cases hx : bdim R E with
          | none => simp [hx] at hsh
          | some z => simp [hx] at hsh; omega
        · cases r5

/-- Non-vacuity: the example circuit at 30 °C between 20 % and 80 %; its open-circuit voltage is affine. -/
example : ∃ e, theoreticalEnergy Demo.circuit 0.8 0.2 (some 30) = .ok e ∧
    at2 e 1 = (3 * 0.6 + (0.8 ^ 2 - 0.2 ^ 2) / 2 + 0.025 * 0.6) * 12 := by
  have hu : OcvUsable Demo.circuit.ocv (some 30) := fun _ => ⟨rfl, .inl rfl⟩
  obtain ⟨e, he⟩ := C33_succeeds (a := Demo.circuit) (B := 2) (temp := some 30) (l₀ := 0.8) (l₁ := 0.2) (by norm_num) (.inl rfl)
    (.inl rfl) (.inl rfl) (.inr rfl) (Demo.usable_line 3 4 _ (by simp [Demo.circuit, rows, num2])) (.inl rfl) hu
  refine ⟨e, he, ?_⟩
  have hv : ∀ s, ocvAt Demo.circuit.ocv 1 s (some 30) = 3.025 + 1 * s := by
    intro s
    have h1 := Demo.curveAt_line 3 4 1 s
    have h2 : curveAt Demo.circuit.ocv.ref 1 s = (4 - 3) * s + 3 := by
      simpa [Demo.circuit] using h1
    rw [ocvAt, h2]
    norm_num [Demo.circuit, Demo.flat, curveAt, at2, rows, num2, Interp.rows, Interp.width]
    ring
  rw [C33_exact_for_affine_voltage (.inl rfl) (.inl rfl) (.inr rfl) hu he (b := 1) (by norm_num) (fun s _ _ => hv s)]
  simp only [hv]
  rw [intervalIntegral.integral_add (by simp) (by exact (continuous_const.mul continuous_id).intervalIntegrable _ _),
    intervalIntegral.integral_const, intervalIntegral.integral_const_mul, integral_id]
  norm_num [at2, Demo.circuit, Demo.two, rows]

end Verif.Cell
