import Verif.Model.Offline
/-!
# What a simulated run predicts
-/

namespace Verif.Spec

/-- A container that holds a single number. -/
def Shows (y : Container ℝ) (v : ℝ) : Prop := y.toNumpy = .ok (.scalar v)

/-- A cell with state of health `a` that was at `x` under the input `prev` shows the voltages `vs` under the inputs that follow. -/
inductive Follows (c : Cell) (a : HV ℝ) : Container ℝ → Container ℝ → List (Container ℝ) → List ℝ → Prop where
  | nil (prev x : Container ℝ) : Follows c a prev x [] []
  | cons {prev new x x' y : Container ℝ} {v : ℝ} {is : List (Container ℝ)} {vs : List ℝ} (hx : c.update prev new x a = .ok x')
      (hy : c.output new x' a = .ok y) (hv : Shows y v) (h : Follows c a new x' is vs) : Follows c a prev x (new :: is) (v :: vs)

/-- A cell with state of health `a` that starts at `x` under the first input shows the voltages `vs`. -/
inductive Predicts (c : Cell) (a : HV ℝ) (x : Container ℝ) : List (Container ℝ) → List ℝ → Prop where
  | start {i y : Container ℝ} {v : ℝ} {is : List (Container ℝ)} {vs : List ℝ} (hy : c.output i x a = .ok y) (hv : Shows y v)
      (h : Follows c a i x is vs) : Predicts c a x (i :: is) (v :: vs)

/-- A row of the table with the given input and the given voltage. -/
def Reads (row : Row) (i : Container ℝ) (v : ℝ) : Prop := ∃ u, rowToInputs row = .ok (u, ⟨.fin v⟩) ∧ u.container = .ok i

/-- The average of the squares of the differences. -/
noncomputable def meanSquaredError (preds obs : List ℝ) : ℝ := (List.zipWith (fun p o => (p - o) ^ 2) preds obs).sum / obs.length

end Verif.Spec
