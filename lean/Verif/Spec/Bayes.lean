import Verif.Props.UkfLeast
import Verif.Props.JointTruth
import Mathlib.MeasureTheory.Integral.Bochner.Basic
import Mathlib.MeasureTheory.Constructions.Pi
import Mathlib.MeasureTheory.Measure.Lebesgue.Basic
/-!
# Bayes' rule for a system that is measured again and again (C145)
-/

namespace Verif
open Ecm Cell Matrix Spec MeasureTheory

variable {n o : Nat}

/-- The density of the normal distribution of this mean and covariance. -/
noncomputable def Spec.normal (b : Belief n) (x : Fin n → ℝ) : ℝ :=
  Real.exp (-misfit (x - b.mean) b.cov / 2) / √((2 * Real.pi) ^ n * b.cov.det)

/-- One step of a system that goes from `x` to `g x` plus normal noise of covariance `Q`, and of which `v` plus normal noise of covariance `R` is
measured: if `π x` is the density of what was measured so far and of the state `x`, the result is that of what was measured, of the next
measurement `z`, and of the next state. -/
noncomputable def Spec.learn (Q : Matrix (Fin n) (Fin n) ℝ) (R : Matrix (Fin o) (Fin o) ℝ) (g : (Fin n → ℝ) → Fin n → ℝ) (v : (Fin n → ℝ) → Fin o → ℝ)
    (z : Fin o → ℝ) (π : (Fin n → ℝ) → ℝ) : (Fin n → ℝ) → ℝ :=
  fun x' => normal ⟨v x', R⟩ z * ∫ x, normal ⟨g x, Q⟩ x' * π x

/-- The density of all measurements and the last state, of an affine model. -/
noncomputable def Spec.bayes {σ : Type} {w : Wrapper σ} (A : AffineModel w n o) (Q : Matrix (Fin n) (Fin n) ℝ) (R : Matrix (Fin o) (Fin o) ℝ) :
    σ → Vec → ((Fin n → ℝ) → ℝ) → List (Vec × (Fin o → ℝ)) → (Fin n → ℝ) → ℝ
  | _, _, π, [] => π
  | s, u, π, (u', z) :: zs =>
    let s' := A.next s u u'
    bayes A Q R s' u' (learn Q R (fun x => A.F s u u' *ᵥ x + A.c s u u') (fun x => A.H s' u' *ᵥ x + A.d s' u') z π) zs

/-- The density of all voltages and the last state, of a cell with the parameters `p`. -/
noncomputable def Spec.cellBayes (beh : Behavior) (p : Par) (series : Bool) {N : Nat} (Q : Matrix (Fin N) (Fin N) ℝ) (R : Matrix (Fin 1) (Fin 1) ℝ) :
    In → ((Fin N → ℝ) → ℝ) → List (In × (Fin 1 → ℝ)) → (Fin N → ℝ) → ℝ
  | _, π, [] => π
  | prev, π, (new, z) :: zs => cellBayes beh p series Q R new (learn Q R (cellStep beh p series prev new) (cellVolt p series new) z π) zs

/-- The density of all voltages, the last state and the parameters, of a cell whose parameters are states too. -/
noncomputable def Spec.jointBayes (w : JointWrapper) (x : Fixed) (beh : Behavior) (series : Bool) (k : Nat) {N : Nat} (Q : Matrix (Fin N) (Fin N) ℝ)
    (R : Matrix (Fin 1) (Fin 1) ℝ) : In → ((Fin N → ℝ) → ℝ) → List (In × (Fin 1 → ℝ)) → (Fin N → ℝ) → ℝ
  | _, π, [] => π
  | prev, π, (new, z) :: zs =>
    jointBayes w x beh series k Q R new (learn Q R (jointStep w x beh series k prev new) (jointVolt w x series k new) z π) zs

/-- The density of measurements according to the predictions made for them. -/
noncomputable def Spec.likelihood (zs : List (Fin o → ℝ)) (out : List (Belief n × Belief o)) : ℝ :=
  (List.zipWith (fun z b => normal b.2 z) zs out).prod

/-- If `joint` is the density of all measurements and a state: the density of the measurements is `L`, which is not 0, and the conditional density of the state
given the measurements is the normal one of the belief `b`. -/
def Spec.Posterior (joint : (Fin n → ℝ) → ℝ) (L : ℝ) (b : Belief n) : Prop :=
  0 < L ∧ ∫ x, joint x = L ∧ ∀ x, joint x / ∫ x, joint x = normal b x

end Verif
