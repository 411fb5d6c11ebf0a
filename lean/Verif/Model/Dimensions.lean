import Verif.NumPy.NDArray
import Verif.Model.Health
/-!
# `enforce_dimensions` (moirae/models/base.py:16-39) and `HealthVariable.set_value` (moirae/models/base.py:275-294)
-/

namespace Verif
variable {α : Type}

/-- `enforce_dimensions(x, dim)` (moirae/models/base.py:16-39); `np.array(x)` has already been applied. -/
def enforceDimensions (x : NDArray α) (dim : Nat) : Except Err (NDArray α) :=
  if dim = 0 then
    if x.squeeze.ndim > 1 then .error .valueError
    else .ok x.squeeze.atleast1d.newLastAxis
  else if dim = 1 then .ok x.atleast2d
  else .error .valueError

/-- The array as the value of a field.  Simplified: only 2D arrays are parameters of the model; an array of higher rank
(which `set_value` would store for a list parameter) becomes `other` (moirae/models/base.py:29-37). -/
def fieldOfArray (x : NDArray α) : Field α :=
  match x.toArr2 with
  | some a => .arr a
  | none => .other

/-- `set_value(name, value)` (moirae/models/base.py:275-294).  The current value must have a `shape` (AttributeError
otherwise). -/
def HV.setValue (m : HV α) (name : Name) (value : NDArray α) : Except Err (HV α) := do
  match ← m.lookup name with
  | .arr cur =>
    let dim := if cur.ncol = 1 then 0 else 1
    let v ← enforceDimensions value dim
    m.setAttr name (fieldOfArray v)
  | _ => .error .attributeError

end Verif
