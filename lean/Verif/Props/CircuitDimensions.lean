import Verif.Proofs.EcmRows
/-!
# C17: `enforce_dimensions` as the circuits use it
-/

namespace Verif

/-- C17.  The arrays that circuits store in scalar fields: the call raises (`ValueError`) exactly if more than one axis has a size other
than 1; otherwise the result has shape `(n, 1)` and holds the entries of the array in their (row-major) order. -/
theorem C17_circuit_scalar (a : Nd ℝ) :
    (Ecm.enforce0 a = .error .valueError ↔ 1 < (a.shape.filter (· ≠ 1)).length) ∧
    ((a.shape.filter (· ≠ 1)).length ≤ 1 →
      ∃ y, Ecm.enforce0 a = .ok y ∧ y.shape = [a.shape.prod, 1] ∧
        ∀ idx, List.Forall₂ (fun d i => i < d) a.shape idx → y.get [Nd.ravel a.shape idx, 0] = a.get idx) := by
  have hp : a.size = a.shape.prod := rfl
  have ok : a.reshape [a.size, 1] = .ok ⟨[a.size, 1], fun idx => a.get (Nd.unravel a.shape (Nd.ravel [a.size, 1] idx))⟩ := by
    unfold Nd.reshape
    rw [if_pos (by simp)]
  unfold Ecm.enforce0
  refine ⟨⟨fun h => ?_, fun h => if_pos h⟩, fun h => ?_⟩
  · by_contra hc
    rw [if_neg hc, ok] at h
    cases h
  · rw [if_neg (by omega)]
    refine ⟨_, ok, by rw [hp], fun idx hidx => ?_⟩
    change a.get (Nd.unravel a.shape (Nd.ravel [a.size, 1] [Nd.ravel a.shape idx, 0])) = _
    have e : Nd.ravel [a.size, 1] [Nd.ravel a.shape idx, 0] = Nd.ravel a.shape idx := by
      simp [Nd.ravel]
    rw [e, unravel_ravel hidx]

/-- A row of three numbers becomes a column; a table of two rows and two columns is refused. -/
example : (∃ y, Ecm.enforce0 ⟨[1, 3], fun i => (i.getD 1 0 : ℝ)⟩ = .ok y ∧ y.shape = [3, 1] ∧ y.get [2, 0] = 2) ∧
    Ecm.enforce0 ⟨[2, 2], fun _ => 0⟩ = .error .valueError := by
  refine ⟨?_, (C17_circuit_scalar _).1.2 (by simp)⟩
  obtain ⟨y, h, s, v⟩ := (C17_circuit_scalar ⟨[1, 3], fun i => (i.getD 1 0 : ℝ)⟩).2 (by simp)
  refine ⟨y, h, by simpa using s, ?_⟩
  simpa [Nd.ravel] using v [0, 2] (.cons (by norm_num) (.cons (by norm_num) .nil))

end Verif
