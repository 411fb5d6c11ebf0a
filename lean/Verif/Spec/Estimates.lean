import Verif.Model.Hdf5
/-!
# What is kept of an estimate
-/

namespace Verif

/-- A Gaussian in `n ≥ 1` dimensions with an `n × n` covariance.  The class `MultivariateGaussian` has no other instances. -/
def Gaussian.Proper (g : Gaussian) : Prop := 1 ≤ g.mean.n ∧ g.cov.m = g.mean.n ∧ g.cov.n = g.mean.n

/-- What a mode of storage keeps of a distribution: the mean alone; the mean and the variances, without correlations; everything. -/
noncomputable def asStored (what : OutputType) (g : Gaussian) : Dist :=
  match what with
  | .mean => .delta ⟨g.mean⟩
  | .meanVar => .gaussian ⟨g.mean, ⟨g.mean.n, g.mean.n, fun i j => if i = j then g.cov.at' i i else 0⟩⟩
  | _ => .gaussian g

/-- The columns of a table of estimates and what they hold of a step: time and means always; covariances or variances (their diagonals) as
the mode of storage says. -/
inductive StoredColumn : OutputType → String → (Writer.Step → Payload) → Prop
  | time : StoredColumn what "time" fun s => .num s.time
  | state : StoredColumn what "state_mean" fun s => .vec s.state.mean
  | output : StoredColumn what "output_mean" fun s => .vec s.output.mean
  | stateCov : what = .full ∨ what = .meanCov → StoredColumn what "state_covariance" fun s => .mat s.state.cov
  | outputCov : what = .full ∨ what = .meanCov → StoredColumn what "output_covariance" fun s => .mat s.output.cov
  | stateVar : what = .meanVar → StoredColumn what "state_variance" fun s =>
      .vec ⟨min s.state.cov.m s.state.cov.n, fun i => s.state.cov.at' i i⟩
  | outputVar : what = .meanVar → StoredColumn what "output_variance" fun s =>
      .vec ⟨min s.output.cov.m s.output.cov.n, fun i => s.output.cov.at' i i⟩

/-- The first of some steps that belongs to cycle `c`. -/
noncomputable def firstOfCycle (c : Nat) (ss : List Writer.Step) : Option Writer.Step :=
  open Classical in ss.find? fun s => s.cycle = .fin (c : ℝ)

/-- A step whose state and outputs have the dimensions that were announced: those of the distribution `g` and `nOut`. -/
def Writer.Step.Matches (s : Writer.Step) (g : Gaussian) (nOut : Nat) : Prop :=
  s.state.Proper ∧ s.output.Proper ∧ s.state.mean.n = g.mean.n ∧ s.output.mean.n = nOut

/-- Cycle numbers that never run ahead: each is below 128, or at most one more than an earlier one. -/
def Gradual (ss : List Writer.Step) : Prop :=
  ∀ pre s post, ss = pre ++ s :: post → ∀ c : ℕ, s.cycle = .fin (c : ℝ) →
    c < 128 ∨ ∃ s' ∈ pre, ∃ c' : ℕ, s'.cycle = .fin (c' : ℝ) ∧ c ≤ c' + 1

/-- Cycle numbers within the declared number of cycles; without one, they never run ahead. -/
def CyclesFit (cycles : Option Nat) (ss : List Writer.Step) : Prop :=
  match cycles with
  | some N => ∀ s ∈ ss, ∀ c : ℕ, s.cycle = .fin (c : ℝ) → c < N
  | none => Gradual ss

end Verif
