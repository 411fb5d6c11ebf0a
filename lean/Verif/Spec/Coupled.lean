import Verif.Spec.Regression
/-!
# Two Kalman filters, one for the states and one for the parameters of a cell (specification)
-/

namespace Verif
open Ecm Cell Matrix

/-- A Gaussian of the numbers of two beliefs, one after the other and uncorrelated. -/
structure Spec.Beside (b : Belief N) (c : Belief n) (g : Gaussian) : Prop where
  mean : g.mean.toList = List.ofFn b.mean ++ List.ofFn c.mean
  rows : g.cov.m = N + n
  cols : g.cov.n = N + n
  first : ∀ i j : Fin N, g.cov.at' i j = b.cov i j
  second : ∀ i j : Fin n, g.cov.at' (N + i) (N + j) = c.cov i j
  upper : ∀ (i : Fin N) (j : Fin n), g.cov.at' i (N + j) = 0
  lower : ∀ (i : Fin n) (j : Fin N), g.cov.at' (N + i) j = 0

/-- The estimates and predictions returned over a history of inputs and measured voltages are those of two Kalman filters: one for the `N` transient
numbers of the cell (with `k` RC elements) with the parameter values `c.mean` estimated before, and one for the parameter values at the transient
numbers `b.mean` estimated before.  The predicted voltages are those of the first. -/
def Spec.Coupled (m : HV ℝ) (names : List Name) (x : Fixed) (beh : Behavior) (series : Bool) (k : Nat) {N n : Nat} (Q : Matrix (Fin N) (Fin N) ℝ)
    (Q' : Matrix (Fin n) (Fin n) ℝ) (R : Matrix (Fin 1) (Fin 1) ℝ) :
    In → Belief N → Belief n → List (In × (Fin 1 → ℝ)) → List (Gaussian × Gaussian) → Prop
  | prev, b, c, (new, z) :: hist, (est, out) :: outs =>
    ∃ p, CircuitWith m names x (List.ofFn c.mean) p ∧
      let r := kalmanStep beh p series Q R prev new b z
      let c' := (regressStep (voltWith m names x beh prev new (St.ofVec series k (List.ofFn b.mean))) Q' R c z).1
      Beside r.1 c' est ∧ out = r.2.gaussian ∧ Coupled m names x beh series k Q Q' R new r.1 c' hist outs
  | _, _, _, [], [] => True
  | _, _, _, _, _ => False

/-- A curve that stays on a straight line: it does so already and its values are not estimated, or it has one value, or two values interpolated
linearly. -/
def Spec.StaysOnLine (named : Prop) (h : Interp) : Prop :=
  (OnLine h ∧ ¬ named) ∨ h.width = 1 ∨ (h.style = .linear ∧ h.width = 2 ∧ h.pinsUsed.length = 2 ∧ h.pinsUsed.Nodup)

/-- The curves of an equivalent circuit of which the parameters named `ns` are estimated stay straight lines. -/
structure Spec.StaysStraight (ns : List Name) (a : ASOH) : Prop where
  ref : StaysOnLine (Named ns [kOcv, kOcvRef, kBase]) a.ocv.ref
  ent : StaysOnLine (Named ns [kOcv, kOcvEnt, kBase]) a.ocv.ent
  r0 : StaysOnLine (Named ns [kR0, kBase]) a.r0.interp
  hyst : StaysOnLine (Named ns [kH0, kBase]) a.hyst
  c0 : ∀ c ∈ a.c0, c.width = 1
  rcs : ∀ rc ∈ a.rcs, rc.r.interp.width = 1 ∧ rc.c.width = 1

end Verif
