import Verif.Proofs.EcmSucceeds
/-!
# Sequences of updates
-/

namespace Verif.Cell
open Verif Nd Ecm

theorem steps_cons {α : Type} (u v : α) (us : List α) : steps u (v :: us) = (u, v) :: steps v us := rfl

/-- A sequence of updates acts cell by cell. -/
theorem run_rows {B : Nat} (hB : 0 < B) {beh : Behavior} {a : ASOH} (ha : Pars B a) :
    ∀ {us : List Input} {u : Input} {st st' : State}, Ins B u → (∀ i ∈ us, Ins B i) → Sts B a st →
    Ecm.run beh a u us st = .ok st' →
    Sts B a st' ∧ ∀ b < B, stAt st' b = run beh (parAt a b) (inAt u b) (us.map (inAt · b)) (stAt st b) := by
  intro us
  induction us with
  | nil =>
    intro u st st' _ _ hs h
    cases h
    exact ⟨hs, fun b _ => rfl⟩
  | cons v us ih =>
    intro u st st' hu hus hs h
    unfold Ecm.run at h
    simp only [bind_ok] at h
    obtain ⟨s1, h1, h2⟩ := h
    obtain ⟨g1, g2⟩ := update_rows hB ha hu (hus v (by simp)) hs h1
    obtain ⟨k1, k2⟩ := ih (hus v (by simp)) (fun i hi => hus i (by simp [hi])) g1 h2
    refine ⟨k1, fun b hb => ?_⟩
    rw [k2 b hb, g2 b hb]
    rfl

/-- Conditions on circuit and inputs under which no step of a sequence raises. -/
structure CanRun (beh : Behavior) (a : ASOH) (u : Input) (us : List Input) : Prop where
  single : ∀ i ∈ u :: us, Single i.time ∧ Single i.current ∧ ∀ t ∈ i.temp, rows t = 1
  moves : beh = .linear → ∀ p ∈ steps u us, p.2.time.get [0, 0] ≠ p.1.time.get [0, 0]
  rcs : ∀ i ∈ u :: us, ∀ rc ∈ a.rcs, UsableRes rc.r i.temp ∧ Usable rc.c []
  sameBatch : ∃ P, ∀ rc ∈ a.rcs, rcRows rc = P
  hyst : Usable a.hyst [rows a.gamma]

theorem run_ok {B : Nat} (hB : 0 < B) {beh : Behavior} {a : ASOH} (ha : Pars B a) :
    ∀ {us : List Input} {u : Input} {st : State}, Ins B u → (∀ i ∈ us, Ins B i) → Sts B a st → CanRun beh a u us →
    ∃ st', Ecm.run beh a u us st = .ok st' := by
  intro us
  induction us with
  | nil => intro u st _ _ _ _; exact ⟨st, rfl⟩
  | cons v us ih =>
    intro u st hu hus hs hc
    have hu0 := hc.single u (by simp)
    have hv0 := hc.single v (by simp)
    obtain ⟨s1, h1⟩ := update_ok hB ha hu (hus v (by simp)) hs
      { time := ⟨hu0.1, hv0.1⟩, current := ⟨hu0.2.1, hv0.2.1⟩,
        moves := fun hl => hc.moves hl (u, v) (by simp [steps_cons]),
        rcs := hc.rcs u (by simp), sameShape := sameShape_of hc.sameBatch fun t ht => .inl (hu0.2.2 t ht), hyst := hc.hyst }
    obtain ⟨g1, _⟩ := update_rows hB ha hu (hus v (by simp)) hs h1
    obtain ⟨s2, h2⟩ := ih (hus v (by simp)) (fun i hi => hus i (by simp [hi])) g1
      { single := fun i hi => hc.single i (List.mem_cons_of_mem _ hi)
        moves := fun hl p hp => hc.moves hl p (by rw [steps_cons]; exact List.mem_cons_of_mem _ hp)
        rcs := fun i hi => hc.rcs i (List.mem_cons_of_mem _ hi), sameBatch := hc.sameBatch, hyst := hc.hyst }
    refine ⟨s2, ?_⟩
    unfold Ecm.run
    rw [h1]
    exact h2

end Verif.Cell
