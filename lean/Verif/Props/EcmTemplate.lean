import Verif.Model.EcmTemplate
import Verif.Spec.DemoCell
/-!
# C34, C35: capacity units, and templates
-/

namespace Verif.Cell
open Verif Nd Ecm

/-! ## C34 -/

/-- C34: reading `value` after setting it gives what was set, whatever its shape. -/
theorem C34_value_round_trip (x : Nd ℝ) : capacityValue (setCapacityValue x) = x := by
  cases x with
  | mk s g =>
    simp only [capacityValue, setCapacityValue, Nd.map, Nd.mk.injEq, true_and]
    funext idx
    field_simp

/-- C34: after setting `value` to a number of A·s, `amp_hour` is that number / 3600, and so it is for every stored capacity. -/
theorem C34_amp_hour (x : Nd ℝ) (base : Nd ℝ) (idx : List Nat) :
    (ampHour (setCapacityValue x)).get idx = x.get idx / 3600 ∧ (ampHour base).get idx = (capacityValue base).get idx / 3600 := by
  refine ⟨rfl, ?_⟩
  simp only [ampHour, capacityValue, Nd.map]
  field_simp

/-- C34 (a trap of the code): setting `value` to a Python number leaves the parameter without its two dimensions, so that it has
neither a batch size nor a number of values. -/
theorem C34_number_loses_dimensions (x : ℝ) : (setCapacityValue (num x)).shape = [] := rfl

/-- Non-vacuity: 36000 A·s for one cell, 43200 A·s for another. -/
example : (ampHour (setCapacityValue (Demo.two 36000 43200))).get [1, 0] = 12 := by
  rw [(C34_amp_hour _ (num 0) _).1]; norm_num [Demo.two]

/-! ## C35 -/

/-- C35: the state made for a circuit has one RC current per RC element, a charge iff the circuit has a series capacitor, and
is at rest. -/
theorem C35_state_fits_circuit (a : ASOH) : ∃ st, fromAsoh a = .ok st ∧ st.irc.shape = [1, a.rcs.length] ∧
    (st.q0.isSome ↔ a.c0.isSome) ∧ (∀ j < a.rcs.length, st.irc.get [0, j] = 0) ∧ st.soc.get [0, 0] = 0 ∧ st.hyst.get [0, 0] = 0 := by
  refine ⟨_, rfl, rfl, ?_, fun j _ => rfl, rfl, rfl⟩
  cases a.c0 <;> simp

/-- The parameters of the circuit can be evaluated: each curve has one value or one per pinpoint, no parameter is batched in a way the
code rejects (findings of C28/C29, see DESIGN.md), at the temperatures `temp`. -/
structure Evaluable (a : ASOH) (temp : Option (Nd ℝ)) : Prop where
  ocvRef : Usable a.ocv.ref [rows a.ocv.refTemp]
  ocvEnt : Usable a.ocv.ent []
  entRows : a.ocv.ent.rows = 1 ∨ a.ocv.ent.rows = a.ocv.ref.rows
  refTemp : Single a.ocv.refTemp
  r0 : UsableRes a.r0 temp
  c0 : ∀ c ∈ a.c0, Usable c []
  rcs : ∀ rc ∈ a.rcs, UsableRes rc.r temp ∧ Usable rc.c []
  sameRows : ∃ P Q, ∀ rc ∈ a.rcs, rc.r.interp.rows = P ∧ rc.c.rows = Q
  hyst : Usable a.hyst [rows a.gamma]

/-- C35: both model functions accept a circuit together with the state made for it. -/
theorem C35_pair_accepted {B : Nat} (hB : 0 < B) (beh : Behavior) {a : ASOH} (ha : Pars B a) {prev new : Input} {st : State}
    (hp : Single prev.time ∧ Single prev.current ∧ ∀ t ∈ prev.temp, Single t)
    (hn : Single new.time ∧ Single new.current ∧ ∀ t ∈ new.temp, Single t)
    (hmoves : beh = .linear → new.time.get [0, 0] ≠ prev.time.get [0, 0])
    (hep : Evaluable a prev.temp) (hen : Evaluable a new.temp) (hst : fromAsoh a = .ok st) :
    (∃ st', update beh prev new st a = .ok st') ∧ ∃ v, voltage new st a = .ok v := by
  have e : st = { soc := num2 0, q0 := if a.c0.isSome then some (num2 0) else none, irc := ⟨[1, a.rcs.length], fun _ => 0⟩, hyst := num2 0 } := by
    simp only [fromAsoh, transientTemplate, startCurrents, bind, Except.bind, pure, Except.pure, Except.ok.injEq] at hst
    exact hst.symm
  have hs : Sts B a st := by
    subst e
    refine ⟨.inl rfl, ?_, .inl rfl, .inl rfl⟩
    intro q hq
    simp only at hq
    split at hq
    · cases hq; exact .inl rfl
    · cases hq
  have hrs : rows st.soc = 1 := by subst e; rfl
  have hone : ∀ {x : Nd ℝ}, Single x → rows x = 1 := fun h => by
    unfold Single at h
    simp [rows, h]
  have ip : Ins B prev := ⟨.inl hp.1, .inl hp.2.1, fun t h => .inl (hp.2.2 t h)⟩
  have inn : Ins B new := ⟨.inl hn.1, .inl hn.2.1, fun t h => .inl (hn.2.2 t h)⟩
  obtain ⟨P, Q, hPQ⟩ := hep.sameRows
  constructor
  · exact update_ok hB ha ip inn hs {
      time := ⟨hp.1, hn.1⟩
      current := ⟨hp.2.1, hn.2.1⟩
      moves := hmoves
      rcs := hep.rcs
      sameShape := sameShape_of ⟨if P = 1 then Q else P, fun rc h => by rw [rcRows, (hPQ rc h).1, (hPQ rc h).2]⟩
        fun t h => .inl (hone (hp.2.2 t h))
      hyst := hep.hyst }
  · exact voltage_ok hB ha inn hs {
      ocvRef := hen.ocvRef
      ocvEnt := fun _ => hen.ocvEnt
      entFits := fun t h => ⟨hen.entRows, .inl (hone (hn.2.2 t h)), .inl (hone hen.refTemp)⟩
      r0 := hen.r0
      c0 := fun h => by
        subst e
        simp only at h
        split at h
        · rename_i hc
          obtain ⟨c, hc⟩ := Option.isSome_iff_exists.1 hc
          exact ⟨c, hc, hen.c0 c hc⟩
        · simp at h
      rcs := fun rc h => (hen.rcs rc h).1
      sameBatch := ⟨P, fun rc h => (hPQ rc h).1⟩ }

/-- C35, the part that holds: for currents given as a list, `provide_template` raises iff their number differs from `num_RC`;
without currents or with a single number it never raises, and then the state has `num_RC` currents.  Missing: two-dimensional
(batched) currents, see `C35_batched_currents_miscounted`. -/
theorem C35_raises_iff_count_differs_partial (hasC0 : Bool) (n : Nat) (soc q0 hyst : ℝ) :
    (∀ (a : Nd ℝ) (k : Nat), a.shape = [k] →
      (transientTemplate hasC0 n soc q0 (.array a) hyst = .error .valueError ↔ k ≠ n) ∧
      (k = n → ∃ st, transientTemplate hasC0 n soc q0 (.array a) hyst = .ok st ∧ st.irc.shape = [1, n] ∧
        ∀ j, st.irc.get [0, j] = a.get [j])) ∧
    (∃ st, transientTemplate hasC0 n soc q0 .none hyst = .ok st ∧ st.irc.shape = [1, n]) ∧
    (∀ x, ∃ st, transientTemplate hasC0 n soc q0 (.number x) hyst = .ok st ∧ st.irc.shape = [1, n] ∧ ∀ j, st.irc.get [0, j] = x) := by
  refine ⟨fun a k hk => ⟨?_, ?_⟩, ⟨_, rfl, rfl⟩, fun x => ⟨_, rfl, rfl, fun _ => rfl⟩⟩
  · unfold transientTemplate startCurrents
    simp only [hk]
    by_cases h : k = n
    · simp [h, bind, Except.bind, pure, Except.pure]
    · simp [h, bind, Except.bind]
  · rintro rfl
    refine ⟨{ soc := num2 soc, q0 := if hasC0 then some (num2 q0) else none, irc := atleast2d a, hyst := num2 hyst }, ?_, ?_, ?_⟩
    · unfold transientTemplate startCurrents
      simp [hk, bind, Except.bind, pure, Except.pure]
    · simp [atleast2d, hk]
    · intro j; simp [atleast2d, hk]

/-- C35 (the code violates the property): for batched currents the rows are counted instead of the currents.  Three RC currents
for each of two cells are accepted for a circuit with two RC elements and refused for one with three. -/
theorem C35_batched_currents_miscounted : ∃ a : Nd ℝ, a.shape = [2, 3] ∧
    (∃ st, transientTemplate false 2 0 0 (.array a) 0 = .ok st ∧ st.irc.shape = [2, 3]) ∧
    transientTemplate false 3 0 0 (.array a) 0 = .error .valueError :=
  ⟨⟨[2, 3], fun _ => 0⟩, rfl, ⟨_, rfl, rfl⟩, rfl⟩

/-- C35: the template of a circuit raises iff RC information is given for a wrong number of elements (and some are asked for);
otherwise it has exactly the elements asked for. -/
theorem C35_circuit_template (cubic : List ℝ → List ℝ → ℝ → ℝ) (hasC0 : Bool) (n : Nat) (qt ce : ℝ) (ocv : Option (Nd ℝ))
    (r0 : Nd ℝ) (c0 : Option (Nd ℝ)) (h0 : Nd ℝ) (rc : Option (List (Nd ℝ × Nd ℝ))) :
    ((∃ err, asohTemplate cubic hasC0 n qt ce ocv r0 c0 h0 rc = .error err) ↔ n ≠ 0 ∧ ∃ l, rc = some l ∧ l.length ≠ n) ∧
    ∀ a, asohTemplate cubic hasC0 n qt ce ocv r0 c0 h0 rc = .ok a → a.rcs.length = n ∧ a.c0.isSome = hasC0 := by
  unfold asohTemplate templateRCs
  by_cases h0 : n = 0
  · subst h0
    simp [bind, Except.bind, pure, Except.pure]
    cases hasC0 <;> simp
  · simp only [h0, if_false]
    cases rc with
    | none =>
      simp [bind, Except.bind, pure, Except.pure]
      cases hasC0 <;> simp
    | some l =>
      by_cases hl : l.length = n
      · simp [hl, bind, Except.bind, pure, Except.pure]
        cases hasC0 <;> simp
      · simp [hl, h0, bind, Except.bind]

/-- An unbatched value: a number, or a list of at least one. -/
def Unbatched (a : Nd ℝ) : Prop := a.shape = [] ∨ ∃ k, 0 < k ∧ a.shape = [k]

theorem atleast2d_shape {a : Nd ℝ} (h : Unbatched a) : ∃ k, 0 < k ∧ (atleast2d a).shape = [1, k] := by
  rcases h with h | ⟨k, hk, h⟩
  · exact ⟨1, by norm_num, by simp [atleast2d, h]⟩
  · exact ⟨k, hk, by simp [atleast2d, h]⟩

theorem usable_of_shape {h : Interp} {k : Nat} (hk : 0 < k) (hs : h.base.shape = [1, k]) (hp : h.pins = none) {others : List Nat}
    (ho : ∀ o ∈ others, o = 1) : Usable h others ∧ h.rows = 1 ∧ h.base.shape = [1, h.width] := by
  have hw : h.width = k := by simp [Interp.width, hs]
  refine ⟨.inr ⟨by omega, by simp [Interp.pinsUsed, hp, linspace01], fun o h => .inl (ho o h)⟩, by simp [Interp.rows, hs], by rw [hs, hw]⟩

theorem usable_atleast2d {a : Nd ℝ} (h : Unbatched a) (s : Style) {others : List Nat} (ho : ∀ o ∈ others, o = 1) :
    Usable ⟨atleast2d a, none, s⟩ others ∧ (⟨atleast2d a, none, s⟩ : Interp).rows = 1 ∧
      (⟨atleast2d a, none, s⟩ : Interp).base.shape = [1, (⟨atleast2d a, none, s⟩ : Interp).width] := by
  obtain ⟨k, hk, hs⟩ := atleast2d_shape h
  exact usable_of_shape hk hs rfl ho

/-- C35: every circuit made by the template from unbatched values is evaluable, so that (`C35_pair_accepted`) both model functions
accept it with the state made for it. -/
theorem C35_template_evaluable (cubic : List ℝ → List ℝ → ℝ → ℝ) (hasC0 : Bool) (n : Nat) (qt ce : ℝ) {ocv : Option (Nd ℝ)}
    {r0 : Nd ℝ} {c0 : Option (Nd ℝ)} {h0 : Nd ℝ} {rc : Option (List (Nd ℝ × Nd ℝ))} (hocv : ∀ v ∈ ocv, Unbatched v)
    (hr0 : Unbatched r0) (hc0 : ∀ c ∈ c0, Unbatched c) (hh0 : Unbatched h0)
    (hrc : ∀ l ∈ rc, ∀ p ∈ l, Unbatched p.1 ∧ Unbatched p.2) {a : ASOH}
    (h : asohTemplate cubic hasC0 n qt ce ocv r0 c0 h0 rc = .ok a) (temp : Option (Nd ℝ)) : Pars 1 a ∧ Evaluable a temp := by
  unfold asohTemplate at h
  simp only [bind_ok, pure_ok] at h
  obtain ⟨rcs, hr, rfl⟩ := h
  have hun : Unbatched (num (2500 : ℝ)) ∧ Unbatched (num (0.01 : ℝ)) ∧ Unbatched (num (0.005 : ℝ)) := ⟨.inl rfl, .inl rfl, .inl rfl⟩
  have ru : ∀ {x : Nd ℝ}, Unbatched x → UsableRes (templateRes x) temp ∧ (templateRes x).interp.rows = 1 ∧ Res 1 (templateRes x) := by
    intro x hx
    obtain ⟨u1, u2, u3⟩ := usable_atleast2d hx .linear (others := [1]) (by simp)
    exact ⟨⟨u1, fun _ => rfl⟩, u2, .inl u3, .inl rfl⟩
  have hrcs : ∀ e ∈ rcs, UsableRes e.r temp ∧ e.r.interp.rows = 1 ∧ Res 1 e.r ∧ Usable e.c [] ∧ e.c.rows = 1 ∧ Curve 1 e.c := by
    have mk : ∀ {x y : Nd ℝ}, Unbatched x → Unbatched y → ∀ e : Ecm.RC, e = ⟨templateRes x, ⟨atleast2d y, none, .linear⟩⟩ →
        UsableRes e.r temp ∧ e.r.interp.rows = 1 ∧ Res 1 e.r ∧ Usable e.c [] ∧ e.c.rows = 1 ∧ Curve 1 e.c := by
      rintro x y hx hy e rfl
      obtain ⟨v1, v2, v3⟩ := ru hx
      obtain ⟨u1, u2, u3⟩ := usable_atleast2d hy .linear (others := []) (by simp)
      exact ⟨v1, v2, v3, u1, u2, .inl u3⟩
    intro e he
    unfold templateRCs at hr
    split at hr
    · cases hr; cases he
    · split at hr
      · cases hr
        exact mk hun.2.1 hun.1 e (List.eq_of_mem_replicate he)
      · rename_i l
        split at hr
        · cases hr
        · cases hr
          obtain ⟨p, hp, rfl⟩ := List.mem_map.1 he
          exact mk (hrc l rfl p hp).1 (hrc l rfl p hp).2 _ rfl
  have href : Usable (templateOcv cubic ocv) [1] ∧ (templateOcv cubic ocv).rows = 1 ∧
      (templateOcv cubic ocv).base.shape = [1, (templateOcv cubic ocv).width] := by
    cases ocv with
    | none => exact usable_of_shape (k := 20) (by norm_num) rfl rfl (by simp)
    | some v => exact usable_atleast2d (hocv v rfl) .linear (by simp)
  have hc0' : ∀ c : Interp, (if hasC0 then some (⟨atleast2d (c0.getD ((capacityValue (num2 qt)).map (· / 0.01))), none, .linear⟩ : Interp)
      else none) = some c → Usable c [] ∧ Curve 1 c := by
    intro c hc
    split at hc
    · cases hc
      cases c0 with
      | none =>
        obtain ⟨u1, _, u3⟩ := usable_of_shape (h := ⟨atleast2d ((capacityValue (num2 qt)).map (· / 0.01)), none, .linear⟩) (k := 1)
          (others := []) (by norm_num) rfl rfl (by simp)
        exact ⟨u1, .inl u3⟩
      | some v =>
        obtain ⟨u1, _, u3⟩ := usable_atleast2d (hc0 v rfl) .linear (others := []) (by simp)
        exact ⟨u1, .inl u3⟩
    · cases hc
  obtain ⟨r1, r2, r3⟩ := href
  obtain ⟨n1, n2, n3⟩ := usable_atleast2d hun.2.2 .linear (others := []) (by simp)
  obtain ⟨k1, k2, k3⟩ := usable_atleast2d hh0 .linear (others := [1]) (by simp)
  obtain ⟨o1, o2, o3⟩ := ru hr0
  refine ⟨⟨.inl rfl, .inl rfl, .inl rfl, .inl r3, .inl rfl, .inl n3, o3, fun c hc => (hc0' c hc).2, fun e he => ?_, .inl k3⟩,
    ⟨r1, n1, .inl n2, rfl, o1, fun c hc => (hc0' c hc).1, fun e he => ?_, ⟨1, 1, fun e he => ?_⟩, k1⟩⟩
  · exact ⟨(hrcs e he).2.2.1, (hrcs e he).2.2.2.2.2⟩
  · exact ⟨(hrcs e he).1, (hrcs e he).2.2.2.1⟩
  · exact ⟨(hrcs e he).2.1, (hrcs e he).2.2.2.2.1⟩

/-- Non-vacuity: a template with three RC elements and a capacitor, updated and measured from rest. -/
example : ∃ a st, asohTemplate (fun _ _ _ => 0) true 3 10 1 none (num 0.05) none (num 0.05) none = .ok a ∧ fromAsoh a = .ok st ∧
    (∃ st', update .linear (Demo.input 0 1) (Demo.input 1 2) st a = .ok st') ∧ ∃ v, voltage (Demo.input 1 2) st a = .ok v := by
  obtain ⟨a, ha⟩ : ∃ a, asohTemplate (fun _ _ _ => 0) true 3 10 1 none (num 0.05) none (num 0.05) none = .ok a := ⟨_, rfl⟩
  obtain ⟨st, hst⟩ : ∃ st, fromAsoh a = .ok st := ⟨_, rfl⟩
  have hev := C35_template_evaluable (fun _ _ _ => 0) true 3 10 1 (ocv := none) (r0 := num 0.05) (c0 := none) (h0 := num 0.05) (rc := none)
    (by simp) (.inl rfl) (by simp) (.inl rfl) (by simp) ha
  refine ⟨a, st, ha, hst, C35_pair_accepted (B := 1) (by norm_num) .linear (hev none).1 ⟨rfl, rfl, ?_⟩ ⟨rfl, rfl, ?_⟩ ?_
    (hev _).2 (hev _).2 hst⟩
  · intro t h; cases h; rfl
  · intro t h; cases h; rfl
  · intro _; norm_num [Demo.input, num2]

end Verif.Cell
