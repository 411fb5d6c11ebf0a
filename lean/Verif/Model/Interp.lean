import Verif.NumPy.Nd
import Verif.Model.Health
import Mathlib.Analysis.SpecialFunctions.Exp
/-!
# Health parameters interpolated over state of charge
-/

namespace Verif

open Classical in
/-- `scipy.interpolate.interp1d(x, y, kind='linear', fill_value='extrapolate')(q)` for one curve (external; the algorithm
of `interp1d.__init__` and `_call_linear`): stable sort of the points by `x`, `searchsorted(x, q)` (how many `x` lie
strictly below `q`) clipped to `[1, n-1]`, then the line through that point and the one before it.  Division by zero
(repeated `x`) is outside the model (moirae/models/ecm/utils.py:38-42). -/
noncomputable def linInterp (xs ys : List ℝ) (q : ℝ) : ℝ :=
  let pts := (xs.zip ys).mergeSort (fun p r => decide (p.1 ≤ r.1))
  let i := min (max (pts.countP fun p => decide (p.1 < q)) 1) (pts.length - 1)
  let lo := pts.getD (i - 1) (0, 0)
  let hi := pts.getD i (0, 0)
  (hi.2 - lo.2) / (hi.1 - lo.1) * (q - lo.1) + lo.2

/-- `interpolation_style` (moirae/models/ecm/utils.py:17-19).  The non-linear kinds of scipy are an arbitrary function of
the points and the query, applied to each curve separately. -/
inductive Style where
  | linear
  | other (curve : List ℝ → List ℝ → ℝ → ℝ)

/-- The interpolant of one curve (moirae/models/ecm/utils.py:38-42). -/
noncomputable def Style.curve : Style → List ℝ → List ℝ → ℝ → ℝ
  | .linear => linInterp
  | .other c => c

/-- `np.linspace(0, 1, w)` for `w ≥ 2` (moirae/models/ecm/utils.py:37). -/
noncomputable def linspace01 (w : Nat) : List ℝ := (List.range w).map fun (k : Nat) => (k : ℝ) / ((w : ℝ) - 1)

/-- `SOCInterpolatedHealth` (moirae/models/ecm/utils.py:11-19).  `base` has shape `(batch, width)`. -/
structure Interp where
  base : Nd ℝ
  pins : Option (List ℝ)
  style : Style

namespace Interp

/-- Number of rows of `base_values` (moirae/models/ecm/utils.py:73). -/
def rows (h : Interp) : Nat := h.base.shape.getD 0 0

/-- `base_values.shape[-1]` (moirae/models/ecm/utils.py:76). -/
def width (h : Interp) : Nat := h.base.shape.getD 1 0

/-- Row `i` of `base_values` (moirae/models/ecm/utils.py:38-42,77). -/
def row (h : Interp) (i : Nat) : List ℝ := (List.range h.width).map fun k => h.base.get [i, k]

/-- The pinpoints used by `_interp_func` (moirae/models/ecm/utils.py:36-38): those set, else `linspace(0, 1, width)`. -/
noncomputable def pinsUsed (h : Interp) : List ℝ := h.pins.getD (linspace01 h.width)

/-- `_interp_func(soc)` (moirae/models/ecm/utils.py:30-43): `interp1d` along the last axis of `base_values`; the result has
shape `(batch,) + soc.shape`.  ValueError when the numbers of pinpoints and values differ.  The caching of the default
pinpoints on the object is modelled in `Verif/Model/InterpCache.lean`. -/
noncomputable def interpFunc (h : Interp) (soc : Nd ℝ) : Except Err (Nd ℝ) :=
  if h.pinsUsed.length ≠ h.width then .error .valueError
  else if h.width = 0 then .error .indexError
  else .ok ⟨h.rows :: soc.shape, fun idx => h.style.curve h.pinsUsed (h.row (idx.headD 0)) (soc.get idx.tail)⟩

/-- `SOCInterpolatedHealth.get_value` (moirae/models/ecm/utils.py:45-88).  `others` are the row counts of the object's other
parameters, which take part in `self.batch_size` (line 73). -/
noncomputable def getValue (h : Interp) (others : List Nat) (soc : Nd ℝ) : Except Err (Nd ℝ) :=
  let sb := if soc.shape.length = 2 then soc.shape.getD 0 0 else 1
  let sd := match soc.shape with
    | [] => 1
    | [_, d] => d
    | d :: _ => d
  if soc.shape.length > 3 then .error .valueError
  else match batchLoop 1 (h.rows :: others) with
    | .error e => .error e
    | .ok ib =>
      if h.width = 1 then
        let y : Nd ℝ := ⟨[h.rows, 1], fun idx => h.base.get [idx.getD 0 0, 0]⟩
        .ok ((y.tile [sb, 1, sd]).swapaxes 0 1)
      else match h.interpFunc soc with
        | .error e => .error e
        | .ok y => y.reshape [ib, sb, sd]

end Interp
end Verif
