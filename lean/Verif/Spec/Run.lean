import Verif.Model.Interface
import Verif.Spec.Estimates
/-!
# What a run over a dataset is
-/

namespace Verif

variable {σ : Type}

/-- The estimator `e` observes the rows one after the other; `outs` are the estimates and predictions it returns, `e'` is what it becomes. -/
inductive Observes (ops : EstimatorOps σ) : σ → List Row → List (Gaussian × Gaussian) → σ → Prop where
  | nil (e : σ) : Observes ops e [] [] e
  | cons {e e' e'' : σ} {row : Row} {u : CellInput} {y : CellMeasurement} {s o : Gaussian} {rest : List Row} {outs : List (Gaussian × Gaussian)}
      (hrow : rowToInputs row = .ok (u, y)) (hstep : ops.step e u y = .ok (e', s, o)) (hrest : Observes ops e' rest outs e'') :
      Observes ops e (row :: rest) ((s, o) :: outs) e''

/-- Whatever the estimator `e` observes, its estimates have `nS` dimensions and its predictions `nO`. -/
def EstimatorOps.Sized (ops : EstimatorOps σ) (e : σ) (nS nO : Nat) : Prop :=
  ∀ rows outs e', Observes ops e rows outs e' → ∀ so ∈ outs, so.1.Proper ∧ so.1.mean.n = nS ∧ so.2.Proper ∧ so.2.mean.n = nO

/-- What a row of the table says about an estimate and a prediction: means and variances. -/
noncomputable def lineOf (s o : Gaussian) : List ℝ :=
  List.ofFn s.mean.get ++ (List.range s.mean.n).map (fun j => s.cov.at' j j) ++ List.ofFn o.mean.get ++
    (List.range o.mean.n).map (fun j => o.cov.at' j j)

end Verif
