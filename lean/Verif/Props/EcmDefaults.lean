import Verif.Props.EcmTemplate
import Verif.Props.EcmCharge
import Verif.Props.EcmInterp
import Mathlib.Analysis.Complex.ExponentialBounds
/-!
# C118, C119: the circuit made by the template, and its default capacitor
-/

namespace Verif.Spec
open Verif.Cell

/-- The built-in open-circuit voltage at state of charge `s`: a logarithmic curve around 3.5 V. -/
noncomputable def defaultOcv (s : ℝ) : ℝ := 3.5 + 0.1 * Real.log ((0.05 + 0.9 * s) / (0.95 - 0.9 * s))

/-- Resistances of the template fall by a quarter of a percent per degree above 25 °C. -/
noncomputable def warmth : Option ℝ → ℝ
  | none => 1
  | some t => Real.exp (-0.0025 * (t - 25))

/-- The cell described by the arguments of the template: capacity (Ah), efficiency, reference open-circuit voltage, series resistance,
series capacitance, RC pairs, hysteresis. -/
noncomputable def templateCell (qt ce : ℝ) (ocv : ℝ → ℝ) (r0 : ℝ) (c0 : Option ℝ) (rcs : List (ℝ × ℝ)) (h0 : ℝ) : Par where
  qt := qt
  ce := ce
  ocv := fun s t => ocv s + (match t with
    | none => 0
    | some t => 0.005 * (t - 25))
  r0 := fun _ t => r0 * warmth t
  c0 := c0.map fun c _ => c
  rcs := rcs.map fun p => ⟨fun _ t => p.1 * warmth t, fun _ => p.2⟩
  hystMax := fun _ => h0
  gamma := 0.9

/-- The voltage over the series capacitor. -/
noncomputable def capacitorVoltage (p : Par) (s : St) : ℝ :=
  match s.q0, p.c0 with
  | some q, some c => q / c s.soc
  | _, _ => 0

end Verif.Spec

namespace Verif.Cell
open Verif Nd Ecm

theorem curveAt_num (x : ℝ) (s : Style) : curveAt ⟨atleast2d (num x), none, s⟩ 0 = fun _ => x := by
  funext z
  simp [curveAt, Interp.width, Interp.rows, atleast2d, num]

theorem resAt_num (x : ℝ) : resAt (templateRes (num x)) 0 = fun _ t => x * Spec.warmth t := by
  funext z t
  have h : curveAt (templateRes (num x)).interp 0 z = x := congrFun (curveAt_num x .linear) z
  cases t with
  | none => simp [resAt, Spec.warmth, h]
  | some t =>
    simp only [resAt, Spec.warmth, h]
    simp only [templateRes, at2, num2, ite_self]

theorem template_ocv (r : Interp) (t0 : ℝ) (z : ℝ) (t : Option ℝ) :
    ocvAt ⟨r, num2 t0, ⟨atleast2d (num 0.005), none, .linear⟩⟩ 0 z t = curveAt r 0 z + (match t with
      | none => 0
      | some t => 0.005 * (t - t0)) := by
  cases t with
  | none => simp [ocvAt]
  | some t =>
    have h : curveAt ⟨atleast2d (num (0.005 : ℝ)), none, .linear⟩ 0 z = 0.005 := congrFun (curveAt_num _ .linear) z
    simp only [ocvAt, h, at2, num2, mul_comm]

theorem defaultOcv_eq (s : ℝ) : realisticFakeOcv s = Spec.defaultOcv s := by
  unfold realisticFakeOcv Spec.defaultOcv
  simp only
  rw [show (0.9 : ℝ) * s + 0.05 = 0.05 + 0.9 * s by ring, show (1 : ℝ) - (0.05 + 0.9 * s) = 0.95 - 0.9 * s by ring]
  ring

theorem curveAt_default (cubic : List ℝ → List ℝ → ℝ → ℝ) : curveAt (templateOcv cubic none) 0 =
    cubic ((List.range 20).map fun k : Nat => (k : ℝ) / 19) ((List.range 20).map fun k : Nat => Spec.defaultOcv ((k : ℝ) / 19)) := by
  funext z
  have e1 : (templateOcv cubic none).pinsUsed = (List.range 20).map fun k : Nat => (k : ℝ) / 19 := by
    show linspace01 20 = _
    unfold linspace01
    norm_num
  have e2 : (templateOcv cubic none).row 0 = (List.range 20).map fun k : Nat => Spec.defaultOcv ((k : ℝ) / 19) := by
    show (List.range 20).map _ = _
    apply List.map_congr_left
    intro k _
    show realisticFakeOcv _ = _
    rw [defaultOcv_eq]
    rfl
  unfold curveAt
  rw [e1, if_neg (by simp [templateOcv, Interp.width])]
  simp only [templateOcv, Interp.rows, List.getD_cons_zero, if_true] at e2 ⊢
  rw [e2]
  rfl

/-- C118: the circuit made from single numbers is the cell described by the arguments.  Where nothing is given: the RC elements have
10 mΩ and 2500 F, the series capacitor 100 F per A·s of capacity, and the reference open-circuit voltage is the interpolation through 20
equally spaced points of the built-in curve. -/
theorem C118_cell (cubic : List ℝ → List ℝ → ℝ → ℝ) (series : Bool) (n : Nat) (qt ce r0 h0 : ℝ) (ocv c0 : Option ℝ)
    (rc : Option (List (ℝ × ℝ))) {a : ASOH}
    (h : asohTemplate cubic series n qt ce (ocv.map num) (num r0) (c0.map num) (num h0) (rc.map (·.map fun p => (num p.1, num p.2))) = .ok a) :
    parAt a 0 = Spec.templateCell qt ce
      (ocv.elim (cubic ((List.range 20).map fun k : Nat => (k : ℝ) / 19) ((List.range 20).map fun k : Nat => Spec.defaultOcv ((k : ℝ) / 19)))
        fun v _ => v)
      r0 (if series then some (c0.getD (100 * (3600 * qt))) else none)
      (if n = 0 then [] else rc.getD (List.replicate n (0.01, 2500))) h0 := by
  unfold asohTemplate at h
  simp only [bind_ok, pure_ok] at h
  obtain ⟨rcs, hr, rfl⟩ := h
  have hrcs : (rcs.map fun e => (⟨resAt e.r 0, curveAt e.c 0⟩ : RC)) =
      (if n = 0 then [] else rc.getD (List.replicate n (0.01, 2500))).map fun p => ⟨fun _ t => p.1 * Spec.warmth t, fun _ => p.2⟩ := by
    unfold templateRCs at hr
    split at hr
    · rename_i hn
      cases hr
      simp [hn]
    · rename_i hn
      rw [if_neg hn]
      cases rc with
      | none =>
        simp only [Option.map_none] at hr
        cases hr
        simp only [List.map_replicate, Option.getD_none, resAt_num, curveAt_num]
      | some l =>
        simp only [Option.map_some] at hr
        split at hr
        · cases hr
        · cases hr
          simp only [Option.getD_some, List.map_map]
          apply List.map_congr_left
          intro p _
          simp only [Function.comp, resAt_num, curveAt_num]
  have hc0 : Option.map (fun c => curveAt c 0)
      (if series then some (⟨atleast2d ((c0.map num).getD ((capacityValue (num2 qt)).map (· / 0.01))), none, .linear⟩ : Interp) else none) =
      (if series then some (c0.getD (100 * (3600 * qt))) else none).map fun c _ => c := by
    cases series with
    | false => rfl
    | true =>
      cases c0 with
      | some c => simp [curveAt_num]
      | none =>
        simp only [if_true, Option.map_none, Option.getD_none, Option.map_some, Option.some.injEq]
        funext z
        simp only [curveAt, Interp.width, Interp.rows, atleast2d, capacityValue, Nd.map, num2]
        norm_num
        ring
  have hocv : curveAt (templateOcv cubic (ocv.map num)) 0 =
      ocv.elim (cubic ((List.range 20).map fun k : Nat => (k : ℝ) / 19) ((List.range 20).map fun k : Nat => Spec.defaultOcv ((k : ℝ) / 19)))
        fun v _ => v := by
    cases ocv with
    | none => exact curveAt_default cubic
    | some v => exact curveAt_num v .linear
  unfold parAt Spec.templateCell
  simp only [hrcs, hc0, resAt_num, curveAt_num, ← hocv]
  congr 1
  funext z t
  exact template_ocv _ _ z t

/-- C118: open-circuit voltages given for equally spaced states of charge are met there. -/
theorem C118_given_voltages (cubic : List ℝ → List ℝ → ℝ → ℝ) (series : Bool) (n : Nat) (qt ce : ℝ) (r0 h0 : Nd ℝ) (c0 : Option (Nd ℝ))
    (rc : Option (List (Nd ℝ × Nd ℝ))) {a : ASOH} (m : Nat) (v : Nat → ℝ)
    (h : asohTemplate cubic series n qt ce (some ⟨[m + 2], fun i => v (i.getD 0 0)⟩) r0 c0 h0 rc = .ok a) (j : Nat) (hj : j < m + 2) :
    (parAt a 0).ocv (j / ((m : ℝ) + 1)) none = v j := by
  unfold asohTemplate at h
  simp only [bind_ok, pure_ok] at h
  obtain ⟨rcs, -, rfl⟩ := h
  have hm : (m : ℝ) + 1 ≠ 0 := by positivity
  have hp : Pinned (templateOcv cubic (some ⟨[m + 2], fun i => v (i.getD 0 0)⟩)) 1 (m + 2) fun k => (k : ℝ) / ((m : ℝ) + 1) := by
    refine ⟨rfl, rfl, by omega, .inr ⟨rfl, fun k _ => ?_⟩, fun j _ k _ e => ?_⟩
    · push_cast
      congr 1
      ring
    · rw [div_left_inj' hm] at e
      exact_mod_cast e
  generalize hT : templateOcv cubic (some ⟨[m + 2], fun i => v (i.getD 0 0)⟩) = T at hp
  have hb : ∀ k, T.base.get [0, k] = v k := by intro k; subst hT; rfl
  have hw : T.width = m + 2 := by subst hT; rfl
  show ocvAt ⟨T, num2 25, _⟩ 0 _ none = v j
  unfold ocvAt curveAt
  simp only [ite_self]
  rw [if_neg (by omega : ¬ T.width = 1), hp.linear, hp.pinsUsed, hp.row 0, ← hb j]
  have hmem : ((j : ℝ) / ((m : ℝ) + 1), T.base.get [0, j]) ∈
      ((List.range (m + 2)).map fun k : Nat => (k : ℝ) / ((m : ℝ) + 1)).zip ((List.range (m + 2)).map fun k => T.base.get [0, k]) := by
    rw [zip_pts]
    exact List.mem_map.2 ⟨j, List.mem_range.2 hj, rfl⟩
  exact linInterp_at (p := ((j : ℝ) / ((m : ℝ) + 1), T.base.get [0, j])) (by simp) hp.nodup (by simp) hmem

/-! ## The built-in open-circuit voltage -/

theorem ratio_lt {s t : ℝ} (h : s < t) (h1 : t ≤ 1) :
    (0.05 + 0.9 * s) / (0.95 - 0.9 * s) < (0.05 + 0.9 * t) / (0.95 - 0.9 * t) := by
  rw [div_lt_div_iff₀ (by linarith) (by linarith)]
  nlinarith

/-- C118: the built-in open-circuit voltage rises strictly with the state of charge, from above 3.2 V when empty to below 3.8 V when
full, and is symmetric around 3.5 V at half charge. -/
theorem C118_built_in_curve {s t : ℝ} (h0 : 0 ≤ s) (h1 : s ≤ 1) :
    (s < t → t ≤ 1 → realisticFakeOcv s < realisticFakeOcv t) ∧ realisticFakeOcv (1 - s) - 3.5 = 3.5 - realisticFakeOcv s ∧
    3.2 < realisticFakeOcv s ∧ realisticFakeOcv s < 3.8 := by
  have hpos : ∀ {x : ℝ}, 0 ≤ x → x ≤ 1 → 0 < (0.05 + 0.9 * x) / (0.95 - 0.9 * x) := fun h0 h1 => div_pos (by linarith) (by linarith)
  have mono : ∀ {x y : ℝ}, 0 ≤ x → x < y → y ≤ 1 → realisticFakeOcv x < realisticFakeOcv y := by
    intro x y hx hxy hy
    rw [defaultOcv_eq, defaultOcv_eq]
    have := Real.log_lt_log (hpos hx (by linarith)) (ratio_lt hxy hy)
    unfold Spec.defaultOcv
    linarith
  have sym : ∀ {x : ℝ}, 0 ≤ x → x ≤ 1 → realisticFakeOcv (1 - x) - 3.5 = 3.5 - realisticFakeOcv x := by
    intro x hx hx1
    rw [defaultOcv_eq, defaultOcv_eq]
    unfold Spec.defaultOcv
    have e : (0.05 + 0.9 * (1 - x)) / (0.95 - 0.9 * (1 - x)) = ((0.05 + 0.9 * x) / (0.95 - 0.9 * x))⁻¹ := by
      rw [inv_div]; congr 1 <;> ring
    rw [e, Real.log_inv]
    ring
  have top : realisticFakeOcv 1 < 3.8 := by
    rw [defaultOcv_eq]
    unfold Spec.defaultOcv
    have h19 : (0.05 + 0.9 * (1 : ℝ)) / (0.95 - 0.9 * 1) = 19 := by norm_num
    rw [h19]
    have : Real.log 19 < 3 := by
      rw [Real.log_lt_iff_lt_exp (by norm_num)]
      have e : Real.exp 3 = Real.exp 1 ^ 3 := by rw [← Real.exp_nat_mul]; norm_num
      rw [e]
      have := Real.exp_one_gt_d9
      calc (19 : ℝ) < 2.7182818283 ^ 3 := by norm_num
        _ < Real.exp 1 ^ 3 := by gcongr
    linarith
  have bot : 3.2 < realisticFakeOcv 0 := by
    have := sym (x := 1) (by norm_num) le_rfl
    rw [sub_self] at this
    linarith
  refine ⟨fun h h' => mono h0 h h', sym h0 h1, ?_, ?_⟩
  · rcases h0.eq_or_lt with rfl | h
    · exact bot
    · exact bot.trans (mono le_rfl h h1)
  · rcases h1.eq_or_lt with rfl | h
    · exact top
    · exact (mono h0 h le_rfl).trans top

/-! ## The series capacitor -/

theorem pars_any {a : ASOH} (h : Pars 1 a) (B : Nat) : Pars B a := by
  have sc : ∀ {x : Nd ℝ}, Scalar 1 x → Scalar B x := fun h => .inl (h.elim id id)
  have cu : ∀ {x : Interp}, Curve 1 x → Curve B x := fun h => .inl (h.elim id id)
  exact ⟨sc h.qt, sc h.ce, sc h.gamma, cu h.ref, sc h.refTemp, cu h.ent, ⟨cu h.r0.1, sc h.r0.2⟩, fun c hc => cu (h.c0 c hc),
    fun rc hrc => ⟨⟨cu (h.rcs rc hrc).1.1, sc (h.rcs rc hrc).1.2⟩, cu (h.rcs rc hrc).2⟩, cu h.hyst⟩

/-- What the default capacitor is made of. -/
theorem default_capacitor {cubic : List ℝ → List ℝ → ℝ → ℝ} {n : Nat} {qt ce : ℝ} {ocv : Option (Nd ℝ)}
    {r0 h0 : Nd ℝ} {rc : Option (List (Nd ℝ × Nd ℝ))} {a : ASOH}
    (h : asohTemplate cubic true n qt ce ocv r0 none h0 rc = .ok a) (b : Nat) :
    at2 a.qt b = qt ∧ at2 a.ce b = ce ∧ (parAt a b).c0 = some fun _ => 3600 * qt / 0.01 := by
  unfold asohTemplate at h
  simp only [bind_ok, pure_ok] at h
  obtain ⟨rcs, -, rfl⟩ := h
  refine ⟨rfl, rfl, ?_⟩
  simp only [parAt, if_true, Option.map_some, Option.getD_none, Option.some.injEq]
  funext z
  simp only [curveAt, Interp.width, Interp.rows, atleast2d, capacityValue, Nd.map, num2]
  norm_num

/-- C119, the part that holds: with a Coulombic efficiency of 1 the voltage over the default series capacitor changes by 10 mV per full charge, so by
at most 10 mV between states of charge within [0, 1], whatever happens in between.  Missing: other efficiencies, see
`C119_capacitor_exceeds_any_bound`. -/
theorem C119_capacitor_impact_partial {B : Nat} (hB : 0 < B) (cubic : List ℝ → List ℝ → ℝ → ℝ) (n : Nat) {qt : ℝ} (hqt : 0 < qt)
    {ocv : Option (Nd ℝ)} {r0 h0 : Nd ℝ} {rc : Option (List (Nd ℝ × Nd ℝ))} (hocv : ∀ v ∈ ocv, Unbatched v)
    (hr0 : Unbatched r0) (hh0 : Unbatched h0) (hrc : ∀ l ∈ rc, ∀ p ∈ l, Unbatched p.1 ∧ Unbatched p.2) {a : ASOH}
    (h : asohTemplate cubic true n qt 1 ocv r0 none h0 rc = .ok a) {beh : Behavior} {u : Input} {us : List Input} {st st' : State}
    (hu : ∀ i ∈ u :: us, Ins B i) (hs : Sts B a st) (hq : st.q0.isSome)
    (hmove : beh = .linear → ∀ b < B, ∀ p ∈ steps u us, at2 p.2.time b ≠ at2 p.1.time b)
    (hrun : Ecm.run beh a u us st = .ok st') {b : Nat} (hb : b < B) :
    Spec.capacitorVoltage (parAt a b) (stAt st' b) - Spec.capacitorVoltage (parAt a b) (stAt st b) =
      0.01 * (at2 st'.soc b - at2 st.soc b) ∧
    (0 ≤ at2 st.soc b → at2 st.soc b ≤ 1 → 0 ≤ at2 st'.soc b → at2 st'.soc b ≤ 1 →
      |Spec.capacitorVoltage (parAt a b) (stAt st' b) - Spec.capacitorVoltage (parAt a b) (stAt st b)| ≤ 0.01) := by
  have ha : Pars B a := pars_any (C35_template_evaluable cubic true n qt 1 hocv hr0 (by simp) hh0 hrc h none).1 B
  obtain ⟨d1, d2, d3⟩ := default_capacitor h b
  obtain ⟨q, hq⟩ := Option.isSome_iff_exists.1 hq
  obtain ⟨q', hq', e⟩ := (C20_series_capacitor_charge hB ha hu hs hrun hmove).2 q hq
  have es := soc_history hB ha hu hs hb (fun hl => hmove hl b hb) hrun
  have key : Spec.capacitorVoltage (parAt a b) (stAt st' b) - Spec.capacitorVoltage (parAt a b) (stAt st b) =
      0.01 * (at2 st'.soc b - at2 st.soc b) := by
    have c1 : ∀ s q, s.q0 = some q → Spec.capacitorVoltage (parAt a b) (stAt s b) = at2 q b / (3600 * qt / 0.01) := by
      intro s q hs
      simp only [Spec.capacitorVoltage, d3, stAt, hs, Option.map_some]
    rw [c1 _ _ hq, c1 _ _ hq', e b hb, es]
    have hef : ∀ p : Input × Input, effAt a p.1 b * chargeAt beh p.1 p.2 b / (3600 * at2 a.qt b) =
        chargeAt beh p.1 p.2 b * (3600 * qt)⁻¹ := by
      intro p
      have : effAt a p.1 b = 1 := by simp [effAt, d2]
      rw [this, d1, one_mul, div_eq_mul_inv]
    simp only [hef, List.sum_map_mul_right]
    field_simp
    ring
  refine ⟨key, fun a1 a2 a3 a4 => ?_⟩
  rw [key, abs_le]
  constructor <;> linarith

/-- Charging with 1 A for as long as the capacity lasts, then taking out with 1 A what was stored, `n` times. -/
noncomputable def cycles (q ce : ℝ) : Nat → ℝ → List (ℝ × ℝ)
  | 0, _ => []
  | n + 1, t => (t + q, -1) :: (t + q + ce * q, 1) :: cycles q ce n (t + q + ce * q)

noncomputable def plainInput (p : ℝ × ℝ) : Input := ⟨num2 p.1, num2 p.2, none⟩

theorem half_cycles {p : Par} (hqt : 0 < p.qt) {q : ℝ} (hq : q = 3600 * p.qt) (t : ℝ) (s : St) (hs : s.soc = 0) :
    (step .constant ⟨t, 1, none⟩ ⟨t + q, -1, none⟩ s p).soc = p.ce ∧
    (∀ s' : St, s'.soc = p.ce →
      (step .constant ⟨t + q, -1, none⟩ ⟨t + q + p.ce * q, 1, none⟩ s' p).soc = 0) ∧
    (step .constant ⟨t, 1, none⟩ ⟨t + q, -1, none⟩ s p).q0 = s.q0.map (· + q) ∧
    (∀ s' : St, (step .constant ⟨t + q, -1, none⟩ ⟨t + q + p.ce * q, 1, none⟩ s' p).q0 = s'.q0.map (· - p.ce * q)) := by
  have h : (3600 * p.qt) ≠ 0 := by positivity
  refine ⟨?_, fun s' hs' => ?_, ?_, fun s' => ?_⟩
  · simp only [step, eff, charge, slope, dt, hs]
    norm_num
    rw [hq]; field_simp
  · simp only [step, eff, charge, slope, dt, hs']
    norm_num
    rw [hq]; field_simp; ring
  · simp only [step, charge, slope, dt]
    congr 1; funext x; ring
  · simp only [step, charge, slope, dt]
    congr 1; funext x; ring

theorem run_cycles {p : Par} (hqt : 0 < p.qt) (h0 : 0 ≤ p.ce) (h1 : p.ce ≤ 1) {q : ℝ} (hq : q = 3600 * p.qt) : ∀ (n : Nat) (t : ℝ) (s : St), s.soc = 0 →
    (run .constant p ⟨t, 1, none⟩ ((cycles q p.ce n t).map fun x => ⟨x.1, x.2, none⟩) s).q0 = s.q0.map (· + n * ((1 - p.ce) * q)) ∧
    ∀ k, 0 ≤ (run .constant p ⟨t, 1, none⟩ (((cycles q p.ce n t).take k).map fun x => ⟨x.1, x.2, none⟩) s).soc ∧
      (run .constant p ⟨t, 1, none⟩ (((cycles q p.ce n t).take k).map fun x => ⟨x.1, x.2, none⟩) s).soc ≤ 1 := by
  intro n
  induction n with
  | zero =>
    intro t s hs
    simp [cycles, run, hs]
  | succ n ih =>
    intro t s hs
    obtain ⟨a1, a2, a3, a4⟩ := half_cycles hqt hq t s hs
    obtain ⟨i1, i2⟩ := ih (t + q + p.ce * q) _ (a2 _ a1)
    constructor
    · simp only [cycles, List.map_cons, run]
      rw [i1, a4, a3]
      simp only [Option.map_map]
      congr 1
      funext x
      simp only [Function.comp]
      push_cast
      ring
    · intro k
      match k with
      | 0 => simp [run, hs]
      | 1 =>
        simp only [cycles, List.take_succ_cons, List.take_zero, List.map_cons, List.map_nil, run, a1]
        exact ⟨h0, h1⟩
      | k + 2 => exact i2 k

theorem cycles_times {q ce : ℝ} (hq : 0 < q) (hce : 0 < ce) : ∀ (n : Nat) (t i : ℝ), ∀ p ∈ steps (t, i) (cycles q ce n t), p.1.1 < p.2.1 := by
  intro n
  induction n with
  | zero => intro t i p hp; simp [cycles, steps] at hp
  | succ n ih =>
    intro t i p hp
    simp only [cycles, steps_cons, List.mem_cons] at hp
    have := mul_pos hce hq
    rcases hp with rfl | rfl | hp
    · simp; exact hq
    · simp; linarith
    · exact ih _ _ p hp

/-- C119 (the code violates the property): with any Coulombic efficiency below 1, cycling a fresh cell between empty and partly charged charges
the default series capacitor beyond every voltage: its charge counts what flows in, the state of charge only what is stored. -/
theorem C119_capacitor_exceeds_any_bound (cubic : List ℝ → List ℝ → ℝ → ℝ) (n : Nat) {qt ce : ℝ} (hqt : 0 < qt) (hce : 0 < ce) (hce1 : ce < 1)
    {ocv : Option (Nd ℝ)} {r0 h0 : Nd ℝ} {rc : Option (List (Nd ℝ × Nd ℝ))} (hocv : ∀ v ∈ ocv, Unbatched v)
    (hr0 : Unbatched r0) (hh0 : Unbatched h0) (hrc : ∀ l ∈ rc, ∀ p ∈ l, Unbatched p.1 ∧ Unbatched p.2) {a : ASOH}
    (h : asohTemplate cubic true n qt ce ocv r0 none h0 rc = .ok a) {st : State} (hst : fromAsoh a = .ok st) (V : ℝ) :
    ∃ u us st', Ecm.run .constant a u us st = .ok st' ∧ V < Spec.capacitorVoltage (parAt a 0) (stAt st' 0) ∧
      (∀ p ∈ steps u us, at2 p.1.time 0 < at2 p.2.time 0) ∧
      ∀ k s, Ecm.run .constant a u (us.take k) st = .ok s → 0 ≤ at2 s.soc 0 ∧ at2 s.soc 0 ≤ 1 := by
  have hev := C35_template_evaluable cubic true n qt ce hocv hr0 (by simp) hh0 hrc h none
  obtain ⟨d1, d2, d3⟩ := default_capacitor h 0
  have hp1 : (parAt a 0).qt = qt := d1
  have hp2 : (parAt a 0).ce = ce := d2
  have hcs : a.c0.isSome = true := ((C35_circuit_template ..).2 a h).2
  have e : st = { soc := num2 0, q0 := some (num2 0), irc := ⟨[1, a.rcs.length], fun _ => 0⟩, hyst := num2 0 } := by
    simp only [fromAsoh, transientTemplate, startCurrents, bind, Except.bind, pure, Except.pure, Except.ok.injEq, hcs, if_true] at hst
    exact hst.symm
  have hs : Sts 1 a st := by
    subst e
    exact ⟨.inl rfl, by intro q hq; cases hq; exact .inl rfl, .inl rfl, .inl rfl⟩
  have hins : ∀ p, Ins 1 (plainInput p) := fun p => ⟨.inl rfl, .inl rfl, by intro t h; cases h⟩
  have hinsm : ∀ l : List (ℝ × ℝ), ∀ i ∈ l.map plainInput, Ins 1 i := by
    intro l i hi
    obtain ⟨p, _, rfl⟩ := List.mem_map.1 hi
    exact hins p
  have hin : ∀ p, inAt (plainInput p) 0 = ⟨p.1, p.2, none⟩ := fun p => rfl
  obtain ⟨P, Q, hPQ⟩ := hev.2.sameRows
  have hruns : ∀ l : List (ℝ × ℝ), ∃ s, Ecm.run .constant a (plainInput (0, 1)) (l.map plainInput) st = .ok s := by
    intro l
    have hall : ∀ x ∈ plainInput (0, 1) :: l.map plainInput, ∃ p, x = plainInput p := by
      intro x hx
      rcases List.mem_cons.1 hx with rfl | hx
      · exact ⟨_, rfl⟩
      · obtain ⟨p, _, rfl⟩ := List.mem_map.1 hx; exact ⟨_, rfl⟩
    refine run_ok (by norm_num) hev.1 (hins _) (hinsm l) hs ⟨?_, ?_, ?_, ⟨if P = 1 then Q else P, fun rc h => ?_⟩, hev.2.hyst⟩
    · intro x hx
      obtain ⟨p, rfl⟩ := hall x hx
      exact ⟨rfl, rfl, by intro t h; cases h⟩
    · intro h; cases h
    · intro x hx
      obtain ⟨p, rfl⟩ := hall x hx
      exact hev.2.rcs
    · rw [rcRows, (hPQ rc h).1, (hPQ rc h).2]
  have hrows : ∀ (l : List (ℝ × ℝ)) s, Ecm.run .constant a (plainInput (0, 1)) (l.map plainInput) st = .ok s →
      stAt s 0 = run .constant (parAt a 0) ⟨0, 1, none⟩ (l.map fun x => ⟨x.1, x.2, none⟩) (stAt st 0) := by
    intro l s h
    have := (run_rows (by norm_num) hev.1 (hins _) (hinsm l) hs h).2 0 (by norm_num)
    rw [this, List.map_map]
    rfl
  have hz : (stAt st 0).soc = 0 ∧ (stAt st 0).q0 = some 0 := by subst e; exact ⟨rfl, rfl⟩
  obtain ⟨N, hN⟩ := exists_nat_gt (V / (0.01 * (1 - ce)))
  have hc := run_cycles (p := parAt a 0) (by rw [hp1]; exact hqt) (by rw [hp2]; exact hce.le) (by rw [hp2]; exact hce1.le)
    (q := 3600 * qt) (by rw [hp1]) N 0 (stAt st 0) hz.1
  rw [hp2] at hc
  obtain ⟨s, hrun⟩ := hruns (cycles (3600 * qt) ce N 0)
  refine ⟨plainInput (0, 1), (cycles (3600 * qt) ce N 0).map plainInput, s, hrun, ?_, ?_, ?_⟩
  · have hq0 : (stAt s 0).q0 = some (0 + N * ((1 - ce) * (3600 * qt))) := by
      rw [hrows _ _ hrun, hc.1, hz.2]
      rfl
    simp only [Spec.capacitorVoltage, hq0, d3]
    have hd : 0 < 0.01 * (1 - ce) := by
      have : 0 < 1 - ce := by linarith
      positivity
    rw [div_lt_iff₀ hd] at hN
    have : (0 + N * ((1 - ce) * (3600 * qt))) / (3600 * qt / 0.01) = N * (0.01 * (1 - ce)) := by
      field_simp
      ring
    rw [this]
    exact hN
  · intro p hp
    rw [steps_map] at hp
    obtain ⟨x, hx, rfl⟩ := List.mem_map.1 hp
    exact cycles_times (by positivity) hce N 0 1 x hx
  · intro k s hk
    rw [← List.map_take] at hk
    have hh := hc.2 k
    rw [← hrows _ _ hk] at hh
    exact hh

/-- Non-vacuity: a 10 Ah cell with two RC elements given, interpolated by the straight lines between the points of the built-in curve; its
open-circuit voltage is 5 mV higher at 26 °C. -/
example : ∃ a, asohTemplate linInterp true 2 10 0.99 none (num 0.05) none (num 0.05) (some [(num 0.01, num 2500), (num 0.02, num 100)]) = .ok a ∧
    (parAt a 0).rcs.length = 2 ∧ (parAt a 0).c0 = some (fun _ => 3600000) ∧
    (parAt a 0).ocv 0.5 (some 26) = (parAt a 0).ocv 0.5 none + 0.005 := by
  obtain ⟨a, ha⟩ : ∃ a, asohTemplate linInterp true 2 10 0.99 none (num 0.05) none (num 0.05)
    (some [(num 0.01, num 2500), (num 0.02, num 100)]) = .ok a := ⟨_, rfl⟩
  have h := C118_cell linInterp true 2 10 0.99 0.05 0.05 none none (some [(0.01, 2500), (0.02, 100)]) ha
  refine ⟨a, ha, ?_⟩
  rw [h]
  refine ⟨rfl, ?_, ?_⟩
  · simp only [Spec.templateCell]; norm_num
  · simp only [Spec.templateCell]; norm_num

/-- Non-vacuity: 3.0, 3.4, 3.6, 4.1 V given at 0, 1/3, 2/3 and 1. -/
example : ∃ a, asohTemplate (fun _ _ _ => 0) false 0 10 1 (some ⟨[2 + 2], fun i => [3, 3.4, 3.6, 4.1].getD (i.getD 0 0) 0⟩) (num 0.05) none (num 0) none =
    .ok a ∧ (parAt a 0).ocv ((2 : Nat) / (((2 : Nat) : ℝ) + 1)) none = 3.6 := by
  refine ⟨_, rfl, ?_⟩
  exact C118_given_voltages (fun _ _ _ => 0) false 0 10 1 (num 0.05) (num 0) none none 2 (fun j => [3, 3.4, 3.6, 4.1].getD j 0) rfl 2 (by norm_num)

/-- Non-vacuity: a fresh cell of the template with efficiency 1, charged for half an hour at its capacity per hour: 5 mV on its capacitor. -/
example : ∃ a st st', asohTemplate linInterp true 1 10 1 none (num 0.05) none (num 0.05) none = .ok a ∧ fromAsoh a = .ok st ∧
    Ecm.run .constant a (plainInput (0, 10)) [plainInput (1800, 10)] st = .ok st' ∧
    Spec.capacitorVoltage (parAt a 0) (stAt st' 0) = 0.005 := by
  obtain ⟨a, ha⟩ : ∃ a, asohTemplate linInterp true 1 10 1 none (num 0.05) none (num 0.05) none = .ok a := ⟨_, rfl⟩
  have hev := fun temp => C35_template_evaluable linInterp true 1 10 1 (ocv := none) (r0 := num 0.05) (c0 := none) (h0 := num 0.05) (rc := none)
    (by simp) (.inl rfl) (by simp) (.inl rfl) (by simp) ha temp
  obtain ⟨st, hst, g1, g2, -⟩ := C35_state_fits_circuit a
  obtain ⟨⟨st', hst'⟩, -⟩ := C35_pair_accepted (B := 1) (by norm_num) .constant (hev none).1 (prev := plainInput (0, 10))
    (new := plainInput (1800, 10)) ⟨rfl, rfl, by intro t h; cases h⟩ ⟨rfl, rfl, by intro t h; cases h⟩ (by intro h; cases h)
    (hev none).2 (hev none).2 hst
  have hrun : Ecm.run .constant a (plainInput (0, 10)) [plainInput (1800, 10)] st = .ok st' := by simp [Ecm.run, hst', bind, Except.bind]
  have hcs : a.c0.isSome = true := ((C35_circuit_template ..).2 a ha).2
  have e : st = { soc := num2 0, q0 := some (num2 0), irc := ⟨[1, a.rcs.length], fun _ => 0⟩, hyst := num2 0 } := by
    simp only [fromAsoh, transientTemplate, startCurrents, bind, Except.bind, pure, Except.pure, Except.ok.injEq, hcs, if_true] at hst
    exact hst.symm
  have hs : Sts 1 a st := by
    subst e
    exact ⟨.inl rfl, by intro q hq; cases hq; exact .inl rfl, .inl rfl, .inl rfl⟩
  have hu : ∀ i ∈ [plainInput (0, 10), plainInput (1800, 10)], Ins 1 i := by
    intro i hi
    simp only [List.mem_cons, List.not_mem_nil, or_false] at hi
    rcases hi with rfl | rfl <;> exact ⟨.inl rfl, .inl rfl, by intro t h; cases h⟩
  have k := (C119_capacitor_impact_partial (B := 1) (by norm_num) linInterp 1 (qt := 10) (by norm_num) (ocv := none) (by simp) (.inl rfl) (.inl rfl)
    (by simp) ha hu hs (by subst e; rfl) (by intro h; cases h) hrun (b := 0) (by norm_num)).1
  have hsoc := C18_coulomb_counting_constant (B := 1) (by norm_num) (hev none).1 hu hs hrun 0 (by norm_num)
    (by rw [(default_capacitor ha 0).1]; norm_num)
  rw [(default_capacitor ha 0).1, (default_capacitor ha 0).2.1] at hsoc
  have z1 : at2 st.soc 0 = 0 ∧ Spec.capacitorVoltage (parAt a 0) (stAt st 0) = 0 := by
    refine ⟨by subst e; rfl, ?_⟩
    have : (stAt st 0).q0 = some 0 := by subst e; rfl
    simp only [Spec.capacitorVoltage, this, (default_capacitor ha 0).2.2, zero_div]
  rw [z1.1, z1.2] at k
  rw [z1.1] at hsoc
  refine ⟨a, st, st', ha, hst, hrun, ?_⟩
  have : at2 st'.soc 0 = 0.5 := by
    rw [hsoc]
    simp only [steps, List.zip_cons_cons, List.zip_nil_right, List.map_cons, List.map_nil, List.sum_cons, List.sum_nil, plainInput, at2, num2,
      ite_self]
    norm_num
  rw [this] at k
  linarith

end Verif.Cell
