import Verif.Model.Ecm
/-!
# Theoretical energy of a cell
-/

namespace Verif.Ecm
open Verif Nd

/-- `np.linspace(lo, hi, n)` for `n ≥ 2` (moirae/models/ecm/advancedSOH.py:48). -/
noncomputable def linspace (lo hi : ℝ) (n : Nat) : Nd ℝ := ⟨[n], fun idx => (idx.getD 0 0 : ℝ) * ((hi - lo) / ((n : ℝ) - 1)) + lo⟩

/-- `scipy.integrate.trapezoid(y=y, x=x, axis=-1)` for a 3D `y` and a 1D `x` (external): the differences of `x` times the means of
successive values, summed over the last axis; ValueError when the lengths differ (moirae/models/ecm/advancedSOH.py:52). -/
noncomputable def trapezoid (y x : Nd ℝ) : Except Err (Nd ℝ) :=
  match y.shape, x.shape with
  | [p, q, n], [k] =>
    if n = k then .ok ⟨[p, q], fun idx => ∑ j ∈ Finset.range (n - 1),
      (x.get [j + 1] - x.get [j]) * (y.get [idx.getD 0 0, idx.getD 1 0, j + 1] + y.get [idx.getD 0 0, idx.getD 1 0, j]) / 2⟩
    else .error .valueError
  | _, _ => .error .valueError

/-- `ECMASOH.get_theoretical_energy(soc_limits=(l₀, l₁), temperature=temp)` (moirae/models/ecm/advancedSOH.py:31-54).  The
temperature is a number; `q_t.amp_hour` is the stored base value (moirae/models/ecm/components.py:30-35). -/
noncomputable def theoreticalEnergy (a : ASOH) (l₀ l₁ : ℝ) (temp : Option ℝ) : Except Err (Nd ℝ) := do
  let socs := linspace (min l₀ l₁) (max l₀ l₁) 100
  let ocv ← a.ocv.getValue socs (temp.map num)
  let energy ← trapezoid ocv socs
  mul energy a.qt

end Verif.Ecm
