import Verif.Spec.EcmDual
import Verif.Proofs.DemoCircuit
/-!
# Dual estimation of the concrete circuit, for the examples
-/

namespace Verif.Cell.Demo
open Ecm Spec

/-- The transient states of the circuit. -/
noncomputable def tracking (beh : Behavior) (op : Operator) (u ur : List Name) : CellWrapper :=
  ⟨⟨Ecm.cell beh fixed, hvUpdating u ur, hvState, hvInput, op, .identity, .identity, 1⟩, 3⟩

/-- Its open-circuit voltage and R0. -/
noncomputable def trackingHealth (beh : Behavior) (op : Operator) : DegradationWrapper :=
  ⟨⟨Ecm.cell beh fixed, hvUpdating [kOcv, kR0] [kBase], hvState, hvInput, op, .identity, .identity, 1⟩, [nOcv, nR0], 3, 3, NoDegradation _ _ _ _⟩

/-- Its Coulombic efficiency. -/
noncomputable def trackingCe (beh : Behavior) (op : Operator) : DegradationWrapper :=
  ⟨⟨Ecm.cell beh fixed, hvUpdating [kCe] [], hvState, hvInput, op, .identity, .identity, 1⟩, [pathName [kCe]], 3, 1, NoDegradation _ _ _ _⟩

theorem hv_holds (u ur : List Name) : HoldsCircuit fixed (hvUpdating u ur) arrays := ⟨hv_wf u ur, hv_single u ur, hv_read u ur, arrays_pars⟩

theorem tracking_circuit (beh : Behavior) (op : Operator) (u ur : List Name) :
    TracksCircuit (tracking beh op u ur) beh fixed true false arrays.rcs.length :=
  ⟨rfl, rfl, rfl, _, rfl, rfl⟩

theorem hvState_holds : HoldsState hvState false arrays.rcs.length (St.ofVec false 1 [0.5, 0, 0]) := ⟨rfl, hvState_single, _, rfl, rfl⟩

theorem trackingHealth_circuit (beh : Behavior) (op : Operator) : TracksHealth (trackingHealth beh op) beh fixed true arrays :=
  ⟨rfl, hv_holds _ _, rfl, by show ∀ n ∈ [nOcv, nR0], n ∈ [nOcv, nR0]; decide, by show [nOcv, nR0].Nodup; decide, ⟨_, rfl, rfl⟩, nofun, rfl⟩

theorem trackingCe_circuit (beh : Behavior) (op : Operator) : TracksHealth (trackingCe beh op) beh fixed true arrays :=
  ⟨rfl, hv_holds _ _, rfl, by show ∀ n ∈ [pathName [kCe]], n ∈ [pathName [kCe]]; decide, by show [pathName [kCe]].Nodup; decide,
    ⟨_, rfl, rfl⟩, nofun, rfl⟩

theorem trackingHealth_estimable (beh : Behavior) (op : Operator) : DualEstimable (trackingHealth beh op).names true false arrays :=
  ⟨estimating_estimable beh op, fun _ => by show pathName [kOcv, kOcvRef, kRefTemp] ∉ [nOcv, nR0]; decide⟩

theorem trackingHealth_reaches (beh : Behavior) (op : Operator) (prev : In) : Reaches (trackingHealth beh op).names prev false arrays.rcs.length :=
  .inr (.inr (.inl (by show nOcv ∈ [nOcv, nR0]; decide)))

theorem ce_only {p : List Name} (h : pathName p ≠ pathName [kCe]) (beh : Behavior) (op : Operator) : ¬ Named (trackingCe beh op).names p :=
  fun h' => h (List.mem_singleton.1 h')

theorem trackingCe_estimable (beh : Behavior) (op : Operator) : DualEstimable (trackingCe beh op).names true false arrays := by
  have h := estimating_estimable beh op
  refine ⟨⟨h.ocv, h.ent, h.r0, h.c0, h.rcs, h.hyst, fun h => absurd h (ce_only (by decide) _ _), fun h => absurd h (ce_only (by decide) _ _),
    fun h => absurd h (ce_only (by decide) _ _), fun j rc hj hn => ?_, fun _ => ce_only (by decide) _ _, fun _ j hj => ?_,
    fun _ h => absurd h (ce_only (by decide) _ _), fun j hj k hk h => ?_, fun j hj k hk h => ?_⟩, fun _ => ce_only (by decide) _ _⟩
  · rw [List.mem_singleton.1 (List.mem_of_getElem? hj)]
    exact .inl rfl
  · obtain rfl : j = 0 := Nat.lt_one_iff.1 hj
    exact ce_only (by decide) _ _
  · obtain rfl : j = 0 := Nat.lt_one_iff.1 hj
    exact absurd h (ce_only (by decide) _ _)
  · obtain rfl : j = 0 := Nat.lt_one_iff.1 hj
    rcases h with h | h <;> exact absurd h (ce_only (by decide) _ _)

/-- The Coulombic efficiency alone shows in the voltage exactly if the cell was not discharged. -/
theorem trackingCe_reaches (beh : Behavior) (op : Operator) (prev : In) :
    Reaches (trackingCe beh op).names prev false arrays.rcs.length ↔ 0 ≤ prev.current := by
  unfold Reaches
  constructor
  · rintro (h | h | h | h | h | ⟨j, hj, h⟩ | h | h)
    · exact absurd h (ce_only (by decide) _ _)
    · exact h.1
    · exact absurd h (ce_only (by decide) _ _)
    · exact absurd h (ce_only (by decide) _ _)
    · cases h.1
    · obtain rfl : j = 0 := Nat.lt_one_iff.1 hj
      rcases h with h | h <;> exact absurd h (ce_only (by decide) _ _)
    · exact absurd h (ce_only (by decide) _ _)
    · exact absurd h (ce_only (by decide) _ _)
  · intro h
    exact .inr (.inl ⟨h, List.mem_singleton.2 rfl⟩)

/-- No divisor of the circuit is estimated. -/
theorem trackingHealth_divisors (beh : Behavior) (op : Operator) (z : List ℝ) (hz : z.length = 3) (p : Par)
    (h : CircuitWith (trackingHealth beh op).asoh (trackingHealth beh op).names fixed z p) :
    p.qt ≠ 0 ∧ (∀ rc ∈ p.rcs, ∀ s t, rc.r s t ≠ 0 ∧ rc.c s ≠ 0) ∧ ∀ c ∈ p.c0, ∀ s, c s ≠ 0 := by
  obtain ⟨m, b, h1, h2, rfl⟩ := h
  obtain ⟨z0, z1, z2, rfl⟩ : ∃ z0 z1 z2, z = [z0, z1, z2] := by
    match z, hz with
    | [z0, z1, z2], _ => exact ⟨z0, z1, z2, rfl⟩
  cases (Except.ok.inj h1)
  cases (Except.ok.inj h2)
  refine ⟨?_, ?_, ?_⟩
  · show (10 : ℝ) ≠ 0
    norm_num
  · intro rc hrc s t
    rw [List.mem_singleton.1 hrc]
    refine ⟨?_, show (2500 : ℝ) ≠ 0 by norm_num⟩
    cases t with
    | none => show (0.01 : ℝ) ≠ 0; norm_num
    | some t =>
      refine mul_ne_zero ?_ (Real.exp_ne_zero _)
      show (0.01 : ℝ) ≠ 0
      norm_num
  · intro c hc
    cases hc

/-- Inputs of a cell being discharged. -/
noncomputable def hvDischarge : Container ℝ := ⟨[(kTime, some (.ofRow [0])), (kCurrent, some (.ofRow [-1])), (kTemp, some (.ofRow [30]))]⟩

theorem hvDischarge_single : hvDischarge.Single := by
  intro q hq
  rcases List.mem_cons.1 hq with rfl | hq
  · rfl
  rcases List.mem_cons.1 hq with rfl | hq
  · rfl
  rcases List.mem_cons.1 hq with rfl | hq
  · rfl
  · cases hq

end Verif.Cell.Demo
