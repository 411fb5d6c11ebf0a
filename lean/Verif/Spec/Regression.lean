import Verif.Spec.Straight
import Verif.Spec.EcmDual
/-!
# Estimating the parameters in which the voltage is linear (specification)
-/

namespace Verif
open Ecm Cell Matrix

/-- An interpolant is a weighted sum of the values, with weights that depend on the pinpoints and the SOC only. -/
def Spec.Weighs (st : Style) : Prop :=
  ∀ (xs : List ℝ) (s : ℝ), ∃ c : Nat → ℝ, ∀ ys : List ℝ, ys.length = xs.length → st.curve xs ys s = ∑ k ∈ Finset.range xs.length, c k * ys.getD k 0

/-- The names belong to values of the open-circuit voltage (reference or entropic), of R0 or of the maximum hysteresis, with interpolants that are
weighted sums of the values; nothing is divided by zero. -/
structure Spec.LinearIn (ns : List Name) (a : ASOH) : Prop where
  only : ∀ n ∈ ns, n ∈ [[kOcv, kOcvRef, kBase], [kOcv, kOcvEnt, kBase], [kR0, kBase], [kH0, kBase]].map pathName
  ref : Named ns [kOcv, kOcvRef, kBase] → Weighs a.ocv.ref.style
  ent : Named ns [kOcv, kOcvEnt, kBase] → Weighs a.ocv.ent.style
  r0 : Named ns [kR0, kBase] → Weighs a.r0.interp.style
  hyst : Named ns [kH0, kBase] → Weighs a.hyst.style
  divisors : Divisors (Cell.parAt a 0)

open Classical in
/-- The voltage that the cell with the values `z` of the named parameters shows one step after the state `s`. -/
noncomputable def Spec.voltWith (m : HV ℝ) (names : List Name) (x : Fixed) (beh : Behavior) (prev new : In) (s : St) {n : Nat}
    (z : Fin n → ℝ) : Fin 1 → ℝ :=
  fun _ => if h : ∃ p, CircuitWith m names x (List.ofFn z) p then volt new (step beh prev new s h.choose) h.choose else 0

/-- One step of the Kalman filter for constant parameters (recursive least squares) with the voltages `V` they lead to, from the belief `b` to the
measured voltage `z`: the posterior belief and the predicted voltage. -/
noncomputable def Spec.regressStep {n : Nat} (V : (Fin n → ℝ) → Fin 1 → ℝ) (Q : Matrix (Fin n) (Fin n) ℝ) (R : Matrix (Fin 1) (Fin 1) ℝ)
    (b : Belief n) (z : Fin 1 → ℝ) : Belief n × Belief 1 :=
  let pred : Belief n := ⟨b.mean, b.cov + Q⟩
  (kalmanCorrect (slopes V) (V 0) R pred z, kalmanOutput (slopes V) (V 0) R pred)

/-- The estimates returned over a history of inputs and measured voltages consist of an estimate of the `N` transient numbers (of a cell with `k` RC
elements) and of the belief about the parameters, which recursive least squares with the voltages `V` yields from the transient estimate returned
before. -/
def Spec.Regressed (V : In → In → St → (Fin n → ℝ) → Fin 1 → ℝ) (Q : Matrix (Fin n) (Fin n) ℝ) (R : Matrix (Fin 1) (Fin 1) ℝ) (series : Bool)
    (k : Nat) {N : Nat} : In → (Fin N → ℝ) → Belief n → List (In × (Fin 1 → ℝ)) → List (Gaussian × Gaussian) → Prop
  | prev, t, b, (new, z) :: hist, (est, _) :: outs =>
    let b' := (regressStep (V prev new (St.ofVec series k (List.ofFn t))) Q R b z).1
    ∃ t' : Fin N → ℝ, est.mean.toList = List.ofFn t' ++ List.ofFn b'.mean ∧ (∀ i j : Fin n, est.cov.at' (N + i) (N + j) = b'.cov i j) ∧
      Regressed V Q R series k new t' b' hist outs
  | _, _, _, [], [] => True
  | _, _, _, _, _ => False

end Verif
