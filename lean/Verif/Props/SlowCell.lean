import Verif.Spec.SlowCell
import Verif.Props.MoreCurrent
/-!
# C150: a slower cell is the same cell on another clock
-/

namespace Verif
open Spec Cell Ecm

namespace SlowCell
variable {beh : Behavior} {p : Par} {k : ℝ}

theorem dt_slow (prev new : In) : dt (slowerIn k prev) (slowerIn k new) = k * dt prev new := by
  simp only [dt, slowerIn]; ring

theorem slope_slow (hk : k ≠ 0) (prev new : In) : Cell.slope beh (slowerIn k prev) (slowerIn k new) = Cell.slope beh prev new / (k * k) := by
  cases beh with
  | constant => simp [Cell.slope]
  | linear =>
    simp only [Cell.slope, dt_slow]
    simp only [slowerIn]
    rw [← sub_div, div_div, ← mul_assoc, div_div, mul_comm (dt prev new)]

theorem charge_slow (hk : k ≠ 0) (prev new : In) : charge beh (slowerIn k prev) (slowerIn k new) = charge beh prev new := by
  simp only [charge, dt_slow, slope_slow hk]
  simp only [slowerIn]
  field_simp

theorem neg_slow (hk : 0 < k) (i : ℝ) : i / k < 0 ↔ i < 0 := by
  rw [div_lt_iff₀ hk, zero_mul]

theorem eff_slow (hk : 0 < k) (prev : In) : eff (slowerIn k prev) (slower k p) = eff prev p := by
  unfold eff
  have : (slowerIn k prev).current < 0 ↔ prev.current < 0 := neg_slow hk prev.current
  by_cases h : prev.current < 0
  · rw [if_pos h, if_pos (this.2 h)]
  · rw [if_neg h, if_neg fun x => h (this.1 x)]
    rfl

theorem kappa_slow (hk : 0 < k) (prev : In) : kappa (slowerIn k prev) (slower k p) = kappa prev p := by
  simp only [kappa, eff_slow hk]
  rfl

theorem after_slow (hk : 0 < k) (h M κ d i α : ℝ) : hystAfter h M κ (k * d) (i / k) (α / (k * k)) = hystAfter h M κ d i α := by
  have hk' := hk.ne'
  simp only [hystAfter]
  have e : κ * (k * d) * (i / k + 0.5 * (α / (k * k)) * (k * d)) = κ * d * (i + 0.5 * α * d) := by field_simp
  have c : (i / k > -(α / (k * k) * (k * d))) ↔ (i > -(α * d)) := by
    rw [show -(α / (k * k) * (k * d)) = -(α * d) / k by field_simp]
    exact div_lt_div_iff_of_pos_right hk
  rw [e]
  by_cases h : i > -(α * d)
  · rw [if_pos h, if_pos (c.2 h)]
  · rw [if_neg h, if_neg fun x => h (c.1 x)]

theorem target_slow (hk : 0 < k) (prev : In) (soc : ℝ) (hI : prev.current = 0 ∨ (1e-8 < |prev.current| ∧ 1e-8 < |prev.current| / k)) :
    hystTarget (slowerIn k prev) soc (slower k p) = hystTarget prev soc p := by
  have ha : |prev.current / k| = |prev.current| / k := by rw [abs_div, abs_of_pos hk]
  simp only [hystTarget, slowerIn, slower, ha]
  rcases hI with h | ⟨h1, h2⟩
  · simp [h]
  · rw [if_neg (not_le.2 h1), if_neg (not_le.2 h2)]
    have : |prev.current| ≠ 0 := (lt_trans (by norm_num) h1).ne'
    field_simp

theorem step_slow (hk : 0 < k) (prev new : In) (s : St) (hI : prev.current = 0 ∨ (1e-8 < |prev.current| ∧ 1e-8 < |prev.current| / k)) :
    step beh (slowerIn k prev) (slowerIn k new) (slowerSt k s) (slower k p) = slowerSt k (step beh prev new s p) := by
  have hk' := hk.ne'
  simp only [step, slowerSt, St.mk.injEq]
  refine ⟨?_, ?_, ?_, ?_⟩
  · rw [eff_slow hk, charge_slow hk']
    rfl
  · rw [charge_slow hk']
  · simp only [slower, List.zipWith_map, List.map_zipWith]
    congr 1
    funext rc i
    simp only [rcNext, dt_slow, slope_slow hk']
    have : -(k * dt prev new) / (k * rc.r s.soc (slowerIn k prev).temp * rc.c s.soc) = -dt prev new / (rc.r s.soc prev.temp * rc.c s.soc) := by
      rw [mul_assoc k, ← mul_neg]
      exact mul_div_mul_left _ _ hk'
    rw [this]
    simp only [slowerIn]
    field_simp
  · simp only [hystNext, target_slow hk prev s.soc hI, kappa_slow hk, dt_slow, slope_slow hk']
    have hcur : ∀ i : In, (slowerIn k i).current = i.current / k := fun _ => rfl
    have hsg : (slowerIn k prev).current * (slowerIn k new).current ≥ 0 ↔ prev.current * new.current ≥ 0 := by
      rw [hcur, hcur, div_mul_div_comm]
      rw [ge_iff_le, le_div_iff₀ (mul_pos hk hk), zero_mul]
    have hφ : -(prev.current / k) / (Cell.slope beh prev new / (k * k)) = k * (-prev.current / Cell.slope beh prev new) := by
      by_cases h : Cell.slope beh prev new = 0
      · simp [h]
      · field_simp
    have h0 : ∀ h M κ d α, hystAfter h M κ (k * d) 0 (α / (k * k)) = hystAfter h M κ d 0 α := fun h M κ d α => by
      have := after_slow hk h M κ d 0 α
      rwa [zero_div] at this
    by_cases hb : prev.current * new.current ≥ 0 ∨ beh = .constant
    · rw [if_pos hb, if_pos (hb.imp_left hsg.2), hcur, after_slow hk]
    · rw [if_neg hb, if_neg fun x => hb (x.imp_left hsg.1), hcur, hφ, ← mul_sub, after_slow hk, h0]

theorem volt_slow (hk : k ≠ 0) (new : In) (s : St) : volt (slowerIn k new) (slowerSt k s) (slower k p) = volt new s p := by
  simp only [volt, slowerIn, slowerSt, slower, List.zipWith_map]
  have e1 : new.current / k * (k * p.r0 s.soc new.temp) = new.current * p.r0 s.soc new.temp := by field_simp
  have e2 : (fun i (rc : Cell.RC) => i / k * (k * rc.r s.soc new.temp)) = fun i (rc : Cell.RC) => i * rc.r s.soc new.temp := by
    funext i rc; field_simp
  rw [e1, e2]

theorem run_slow (hk : 0 < k) (us : List In) : ∀ (u : In) (s : St),
    (∀ i ∈ u :: us, i.current = 0 ∨ (1e-8 < |i.current| ∧ 1e-8 < |i.current| / k)) →
    run beh (slower k p) (slowerIn k u) (us.map (slowerIn k)) (slowerSt k s) = slowerSt k (run beh p u us s) ∧
      cellVolts beh (slower k p) (slowerIn k u) (us.map (slowerIn k)) (slowerSt k s) = cellVolts beh p u us s := by
  induction us with
  | nil => intro u s _; exact ⟨rfl, rfl⟩
  | cons v us ih =>
    intro u s h
    simp only [List.map_cons, Cell.run, cellVolts]
    rw [step_slow hk u v s (h u (by simp)), volt_slow hk.ne']
    obtain ⟨h1, h2⟩ := ih v (step beh u v s p) fun i hi => h i (List.mem_cons_of_mem _ hi)
    exact ⟨h1, by rw [h2]⟩

end SlowCell

open SlowCell MoreCurrent

/-- C150.  Two simulations under either behaviour.  Cell `b'` of the second has `k` times the resistances of cell `b` of the first, gets the same charge in
`k` times the time (and the same temperatures) and starts in the same state up to its RC currents, which are the `k`-th part.  Then it shows the same
voltages, one after the other, and ends in the same state up to its RC currents.  (The hypotheses with underscores exclude divisions by zero.) -/
theorem C150_slower_cell {B B' : Nat} (hB : 0 < B) (hB' : 0 < B') {beh : Behavior} {x x' : Fixed} {a a' : ASOH} {s s₁ s' s₁' : CircuitSimulator}
    {u u' : Input} {st st' : State} (hs : SimulatesCircuits s beh x B a u st) (hs' : SimulatesCircuits s' beh x' B' a' u' st')
    {cs cs' : List (Container ℝ)} {us us' : List Input} (hcs : List.Forall₂ (fun c i => readInput c = .ok i ∧ Ins B i) cs us)
    (hcs' : List.Forall₂ (fun c i => readInput c = .ok i ∧ Ins B' i) cs' us') {ys ys' : List (Container ℝ)}
    (h : s.evolve cs = (s₁, .ok ys)) (h' : s'.evolve cs' = (s₁', .ok ys')) {b b' : Nat} (hb : b < B) (hb' : b' < B') {k : ℝ} (hk : 0 < k)
    (cells : parAt a' b' = slower k (parAt a b)) (inputs : (u' :: us').map (inAt · b') = (u :: us).map fun i => slowerIn k (inAt i b))
    (start : stAt st' b' = slowerSt k (stAt st b))
    (currents : ∀ i ∈ (u :: us).map (inAt · b), i.current = 0 ∨ (1e-8 < |i.current| ∧ 1e-8 < |i.current| / k))
    (_times : beh = .linear → ((u :: us).map (inAt · b)).IsChain (·.time ≠ ·.time)) (_qt : (parAt a b).qt ≠ 0)
    (_τ : ∀ rc ∈ (parAt a b).rcs, ∀ z t, rc.r z t * rc.c z ≠ 0) (_c0 : ∀ c ∈ (parAt a b).c0, ∀ z, c z ≠ 0) :
    ys'.map (voltageAt · b') = ys.map (voltageAt · b) ∧
    ∃ w w', SimulatesCircuits s₁ beh x B a (us.getLastD u) w ∧ SimulatesCircuits s₁' beh x' B' a' (us'.getLastD u') w' ∧
      stAt w' b' = slowerSt k (stAt w b) := by
  obtain ⟨w, hw, r⟩ := C115_evolve hB hs hcs h
  obtain ⟨w', hw', r'⟩ := C115_evolve hB' hs' hcs' h'
  obtain ⟨r1, r2⟩ := r b hb
  obtain ⟨r1', r2'⟩ := r' b' hb'
  have e : (u :: us).map (fun i => slowerIn k (inAt i b)) = slowerIn k (inAt u b) :: (us.map (inAt · b)).map (slowerIn k) := by
    rw [List.map_cons, List.map_map]; rfl
  rw [e, List.map_cons, List.cons.injEq] at inputs
  obtain ⟨k1, k2⟩ := run_slow (beh := beh) (p := parAt a b) hk (us.map (inAt · b)) (inAt u b) (stAt st b) (by rw [← List.map_cons (f := (inAt · b))]; exact currents)
  rw [cells, inputs.1, inputs.2, start] at r1' r2'
  exact ⟨by rw [r2', r2, k2], w, w', hw, hw', by rw [r1', r1, k1]⟩

/-! ## Example -/

/-- The concrete circuit with `k` times the resistances. -/
noncomputable def Demo.hvSlow (k : ℝ) : HV ℝ := .mk []
  [(kQt, .sub (Demo.hvFlat [] 10)), (kCe, .arr (.ofRow [0.99])),
   (kOcv, .sub (.mk [] [(kOcvRef, .sub (.mk [] [(kBase, .arr (.ofRow [3, 4])), (kRefTemp, .arr (.ofRow [25]))])), (kOcvEnt, .sub (Demo.hvFlat [] 0.005))])),
   (kR0, .sub (Demo.hvRes [] (k * 0.05))), (kC0, .other),
   (kRcs, .tup [.mk [] [(kR, .sub (Demo.hvRes [] (k * 0.01))), (kC, .sub (Demo.hvFlat [] 2500))]]),
   (kH0, .sub (.mk [] [(kBase, .arr (.ofRow [0.01])), (kGamma, .arr (.ofRow [0.9]))]))]

/-- Its arrays. -/
noncomputable def Demo.slow (k : ℝ) : ASOH :=
  { Demo.arrays with r0 := ⟨⟨(Arr2.ofRow [k * 0.05]).toNd, none, .linear⟩, 25, (Arr2.ofRow [0.0025]).toNd⟩
                     rcs := [⟨⟨⟨(Arr2.ofRow [k * 0.01]).toNd, none, .linear⟩, 25, (Arr2.ofRow [0.0025]).toNd⟩, ⟨(Arr2.ofRow [2500]).toNd, none, .linear⟩⟩] }

open Cell.Demo (wf_of flat_wf res_wf) in
theorem Demo.slow_wf (k : ℝ) : (Demo.hvSlow k).WF := by
  refine wf_of (by show [kQt, kCe, kOcv, kR0, kC0, kRcs, kH0].Nodup; decide)
    (by show ∀ k ∈ [kQt, kCe, kOcv, kR0, kC0, kRcs, kH0], '.' ∉ k; decide) ?_
  simp only [List.map_cons, List.map_nil, List.mem_cons, List.not_mem_nil, or_false, forall_eq_or_imp, forall_eq]
  refine ⟨flat_wf _ _, trivial, ?_, res_wf _ _, trivial, ?_, ?_⟩
  · refine wf_of (by show [kOcvRef, kOcvEnt].Nodup; decide) (by show ∀ k ∈ [kOcvRef, kOcvEnt], '.' ∉ k; decide) ?_
    simp only [List.map_cons, List.map_nil, List.mem_cons, List.not_mem_nil, or_false, forall_eq_or_imp, forall_eq]
    refine ⟨?_, flat_wf _ _⟩
    exact wf_of (by show [kBase, kRefTemp].Nodup; decide) (by show ∀ k ∈ [kBase, kRefTemp], '.' ∉ k; decide) (by simp [FieldWF])
  · intro c hc
    rw [List.mem_singleton.1 hc]
    refine wf_of (by show [kR, kC].Nodup; decide) (by show ∀ k ∈ [kR, kC], '.' ∉ k; decide) ?_
    simp only [List.map_cons, List.map_nil, List.mem_cons, List.not_mem_nil, or_false, forall_eq_or_imp, forall_eq]
    exact ⟨res_wf _ _, flat_wf _ _⟩
  · exact wf_of (by show [kBase, kGamma].Nodup; decide) (by show ∀ k ∈ [kBase, kGamma], '.' ∉ k; decide) (by simp [FieldWF])

theorem Demo.slow_iter (k : ℝ) : iterParams false (Demo.hvSlow k) = [(pathName [kQt, kBase], .ofRow [10]), (kCe, .ofRow [0.99]), (Demo.nOcv, .ofRow [3, 4]),
  (pathName [kOcv, kOcvRef, kRefTemp], .ofRow [25]), (pathName [kOcv, kOcvEnt, kBase], .ofRow [0.005]), (Demo.nR0, .ofRow [k * 0.05]), (Demo.nTdf, .ofRow [0.0025]),
  (pathName [kRcs, Py.natStr 0, kR, kBase], .ofRow [k * 0.01]), (pathName [kRcs, Py.natStr 0, kR, kTdf], .ofRow [0.0025]),
  (pathName [kRcs, Py.natStr 0, kC, kBase], .ofRow [2500]), (pathName [kH0, kBase], .ofRow [0.01]), (pathName [kH0, kGamma], .ofRow [0.9])] := rfl

theorem Demo.slow_holds (k : ℝ) : HoldsCircuit Demo.fixed (Demo.hvSlow k) (Demo.slow k) := by
  have h := Demo.arrays_pars
  refine ⟨Demo.slow_wf k, ?_, rfl, h.qt, h.ce, h.gamma, h.ref, h.refTemp, h.ent, ⟨.inl rfl, .inl rfl⟩, h.c0, ?_, h.hyst⟩
  · intro p a h
    have := mem_iterParams_false.2 ⟨p, h, rfl⟩
    rw [Demo.slow_iter] at this
    simp only [List.mem_cons, Prod.mk.injEq, List.not_mem_nil, or_false] at this
    rcases this with ⟨_, rfl⟩ | ⟨_, rfl⟩ | ⟨_, rfl⟩ | ⟨_, rfl⟩ | ⟨_, rfl⟩ | ⟨_, rfl⟩ | ⟨_, rfl⟩ | ⟨_, rfl⟩ | ⟨_, rfl⟩ | ⟨_, rfl⟩ | ⟨_, rfl⟩ | ⟨_, rfl⟩ <;> rfl
  · intro rc hrc
    rw [List.mem_singleton.1 hrc]
    exact ⟨⟨.inl rfl, .inl rfl⟩, .inl rfl⟩

theorem Demo.slow_estimable (k : ℝ) : Estimable [] true false (Demo.slow k) := by
  have h := estimable_nil (Demo.estimating_estimable .constant .identity)
  refine ⟨h.ocv, h.ent, .inl rfl, h.c0, ?_, h.hyst, nofun, nofun, nofun, fun _ _ _ => nofun, fun _ => nofun, fun _ _ _ => nofun, fun _ => nofun,
    fun _ _ _ _ => nofun, fun _ _ _ _ h => by rcases h with h | h <;> cases h⟩
  intro rc hrc
  rw [List.mem_singleton.1 hrc]
  exact ⟨.inl rfl, .inl rfl⟩

theorem Demo.slow_par (k : ℝ) : parAt (Demo.slow k) 0 = slower k (parAt (Demo.slow 1) 0) := by
  have h : ∀ c : ℝ, (fun z t => resAt ⟨⟨(Arr2.ofRow [k * c]).toNd, none, .linear⟩, 25, (Arr2.ofRow [0.0025]).toNd⟩ 0 z t) =
      fun z t => k * resAt ⟨⟨(Arr2.ofRow [1 * c]).toNd, none, .linear⟩, 25, (Arr2.ofRow [0.0025]).toNd⟩ 0 z t := fun c => by
    funext z t
    cases t with
    | none => show k * c = k * (1 * c); ring
    | some t => show k * c * Real.exp _ = k * (1 * c * Real.exp _); ring
  simp only [parAt, slower, Par.mk.injEq]
  refine ⟨rfl, rfl, rfl, h 0.05, rfl, ?_, rfl, rfl⟩
  simp only [Demo.slow, List.map_cons, List.map_nil, List.cons.injEq, and_true, Cell.RC.mk.injEq]
  exact h 0.01

/-- Inputs with a time, a current and a temperature. -/
noncomputable def Demo.slowInput (u : Fin 3 → ℝ) : Container ℝ := ⟨[(kTime, some (.ofRow [u 0])), (kCurrent, some (.ofRow [u 1])), (kTemp, some (.ofRow [u 2]))]⟩

theorem Demo.slowInput_holds (u : Fin 3 → ℝ) : HoldsInput (Demo.slowInput u) true u := by
  cases Demo.inputs_hold [u] with
  | cons h _ => exact h

-- The concrete circuit and the one with 60 times the resistances: what the first does within minutes, the second does within hours.  Currents are at
-- least 1 A in magnitude for the first.
example (beh : Behavior) (u : Fin 3 → ℝ) (us : List (Fin 3 → ℝ)) (big : ∀ v ∈ u :: us, 1 ≤ |v 1|) (ht : ((u :: us).map (· 0)).IsChain (· ≠ ·))
    (Y : Container ℝ) :
    let s : ℝ → (Fin 3 → ℝ) → CircuitSimulator := fun k u =>
      ⟨Ecm.cell beh Demo.fixed, NoDegradation _ _ _ _, Demo.hvSlow k, Demo.hvState, Demo.slowInput u, Y, none⟩
    let f : (Fin 3 → ℝ) → Fin 3 → ℝ := fun u => ![60 * u 0, u 1 / 60, u 2]
    ∃ s₁ ys s₁' ys', (s 1 u).evolve (Demo.inputs us) = (s₁, .ok ys) ∧ (s 60 (f u)).evolve (Demo.inputs (us.map f)) = (s₁', .ok ys') ∧
      ys'.map (voltageAt · 0) = ys.map (voltageAt · 0) := by
  intro s f
  have hs : ∀ k u, ∃ i st, SimulatesCircuits (s k u) beh Demo.fixed 1 (Demo.slow k) i st ∧ inAt i 0 = ⟨u 0, u 1, some (u 2)⟩ ∧
      stAt st 0 = ⟨(stAt st 0).soc, none, [0], (stAt st 0).hyst⟩ ∧ st.q0 = none ∧ readState Demo.hvState = .ok st := fun k u => by
    obtain ⟨i, i1, i2, -, i4⟩ := (Demo.slowInput_holds u).parts
    exact ⟨i, _, ⟨rfl, rfl, (Demo.slow_holds k).read, (Demo.slow_holds k).single, i1, i2 1, rfl, ⟨.inl rfl, nofun, .inl rfl, .inl rfl⟩⟩, (i4 0).trans (in_of _), rfl,
      rfl, rfl⟩
  obtain ⟨i, st, h1, h2, h3, h4, h5⟩ := hs 1 u
  obtain ⟨i', st', h1', h2', h3', h4', h5'⟩ := hs 60 (f u)
  have est : st' = st := Except.ok.inj (h5'.symm.trans h5)
  subst est
  have chain : ∀ l : List (Fin 3 → ℝ), (l.map fun u => (In.ofVec true (List.ofFn u)).time) = l.map (· 0) := fun l => by simp only [in_of]
  have htf : (((f u) :: us.map f).map (· 0)).IsChain (· ≠ ·) := by
    have : ((f u) :: us.map f).map (· 0) = ((u :: us).map (· 0)).map (60 * ·) := by
      simp [f, List.map_map, Function.comp_def]
    rw [this, List.isChain_map]
    exact ht.imp fun a b h e => h (mul_left_cancel₀ (by norm_num) e)
  obtain ⟨s₁, ys, h⟩ := C115_returns one_pos h1 (Demo.slow_holds 1) (Demo.slow_estimable 1) (by rw [h4]; rfl) (Demo.slowInput_holds u) (Demo.inputs_hold us)
    (fun _ => by have h := ht; rw [← chain] at h; exact h)
  obtain ⟨s₁', ys', h'⟩ := C115_returns one_pos h1' (Demo.slow_holds 60) (Demo.slow_estimable 60) (by rw [h4]; rfl) (Demo.slowInput_holds (f u))
    (Demo.inputs_hold (us.map f)) (fun _ => by have h := htf; rw [← chain] at h; exact h)
  obtain ⟨is, k1, k2⟩ := reads (B := 1) (Demo.inputs_hold us)
  obtain ⟨is', k1', k2'⟩ := reads (B := 1) (Demo.inputs_hold (us.map f))
  refine ⟨s₁, ys, s₁', ys', h, h', (C150_slower_cell one_pos one_pos h1 h1' k1 k1' h h' one_pos one_pos (k := 60) (by norm_num) (Demo.slow_par 60) ?_ ?_ ?_ ?_ ?_ ?_ nofun).1⟩
  · have e : is.map (fun i => slowerIn 60 (inAt i 0)) = (is.map (inAt · 0)).map (slowerIn 60) := by rw [List.map_map]; rfl
    rw [List.map_cons, List.map_cons, e, k2, k2', h2, h2', List.map_map, List.map_map]
    rfl
  · rw [h3]
    simp [slowerSt]
  · rw [List.map_cons, k2, h2, ← List.map_cons (f := fun u : Fin 3 → ℝ => (⟨u 0, u 1, some (u 2)⟩ : In))]
    intro j hj
    obtain ⟨v, hv, rfl⟩ := List.mem_map.1 hj
    right
    have := big v hv
    constructor
    · show (1e-8 : ℝ) < |v 1|
      linarith [show (1e-8 : ℝ) < 1 by norm_num]
    · show (1e-8 : ℝ) < |v 1| / 60
      rw [lt_div_iff₀ (by norm_num)]
      linarith [show (1e-8 : ℝ) * 60 < 1 by norm_num]
  · intro _
    rw [List.map_cons, k2, h2, ← List.map_cons (f := fun u : Fin 3 → ℝ => (⟨u 0, u 1, some (u 2)⟩ : In)), List.isChain_map]
    rwa [List.isChain_map] at ht
  · show (10 : ℝ) ≠ 0
    norm_num
  · intro rc hrc z t
    rw [List.mem_singleton.1 hrc]
    refine mul_ne_zero ?_ (by show (2500 : ℝ) ≠ 0; norm_num)
    cases t with
    | none => show (1 * 0.01 : ℝ) ≠ 0; norm_num
    | some t => exact mul_ne_zero (by show (1 * 0.01 : ℝ) ≠ 0; norm_num) (Real.exp_ne_zero _)

end Verif
