import Verif.Spec.EcmDual
import Verif.Model.Interface
/-!
# From a circuit and a dataset to a table of estimates (specification)
-/

namespace Verif

/-- A positive definite matrix of order `n`. -/
def Spec.PosDefMat (c : Mat) (n : Nat) : Prop := ∃ C : Matrix (Fin n) (Fin n) ℝ, c = ⟨n, n, C⟩ ∧ C.PosDef

/-- A covariance of the whole state or covariances of its two parts, positive definite. -/
inductive Spec.PosDefCov (nT nA : Nat) : Mat ⊕ (Mat × Mat) → Prop
  | whole {c : Mat} : PosDefMat c (nT + nA) → PosDefCov nT nA (.inl c)
  | parts {t a : Mat} : PosDefMat t nT → PosDefMat a nA → PosDefCov nT nA (.inr (t, a))

/-- The weight of the central point in the covariances of an unscented filter with `L` augmented states. -/
noncomputable def Spec.centreWeight (t : Tuning) (L : Nat) : ℝ :=
  (1 - L / (t.alpha ^ 2 * (L + t.kappa.getD (3 - L)))) + (1 - t.alpha ^ 2 + t.beta)

/-- A legal tuning of an unscented filter with `L` augmented states none of whose weights is negative.  The default tuning
(α = 1, κ = 0, β = 2) is one for every `L ≥ 1` (`tuned_default`). -/
structure Spec.Tuned (t : Tuning) (L : Nat) : Prop where
  alpha : 1 / 1000 ≤ t.alpha ∧ t.alpha ≤ 1
  beta : 0 ≤ t.beta
  kappa : ∀ k, t.kappa = some k → -(L : ℝ) < k
  centre : 0 ≤ centreWeight t L

/-- A noise given for `n` values is positive definite; it may be left out. -/
def Spec.NoiseFor (q : Option Mat) (n : Nat) : Prop := ∀ c, q = some c → PosDefMat c n

/-- What a user hands to the estimators of an equivalent circuit: a state of health holding one cell with the attributes `x` and parameters
`a`, some of them updatable, and single transient states and inputs of the kind such a cell has (with or without a temperature, with or without a
series capacitor).

`divisors`: no quantity the circuit divides by – the capacity, the RC resistances and capacitances, the series capacitance – vanishes for any
values of the updatable parameters.  (Where it fails, the code computes infinities or NaN with a warning, which the model does not represent.) -/
structure Spec.CircuitTask (x : Ecm.Fixed) (m : HV ℝ) (tr inp : Container ℝ) (measured series : Bool) (a : Ecm.ASOH) : Prop where
  asoh : HoldsCircuit x m a
  estimates : m.updatableNames ≠ []
  divisors : ∀ A, m.getParameters none = .ok A → ∀ z, z.length = A.ncol → ∀ p, CircuitWith m m.updatableNames x z p →
    p.qt ≠ 0 ∧ (∀ rc ∈ p.rcs, ∀ s t, rc.r s t ≠ 0 ∧ rc.c s ≠ 0) ∧ ∀ c ∈ p.c0, ∀ s, c s ≠ 0
  transients : SameLayout tr (circuitState series a.rcs.length)
  transients_single : tr.Single
  inputs : SameLayout inp (circuitInput measured)
  inputs_single : inp.Single

end Verif
