import Verif.Model.Interp
/-!
# The object behind an interpolated parameter, with its cached pinpoints
-/

namespace Verif.Interp

/-- `_interp_func` applied to `soc` (moirae/models/ecm/utils.py:30-43), returning the object afterwards: missing pinpoints are
stored on `self` (lines 36-37) before `interp1d` is built, hence also when that raises. -/
noncomputable def interpFuncM (h : Interp) (soc : Nd ℝ) : Except Err (Nd ℝ) × Interp :=
  let h' : Interp := match h.pins with
    | none => { h with pins := some (linspace01 h.width) }
    | some _ => h
  if (h'.pins.getD []).length ≠ h'.width then (.error .valueError, h')
  else if h'.width = 0 then (.error .indexError, h')
  else (.ok ⟨h'.rows :: soc.shape, fun idx => h'.style.curve (h'.pins.getD []) (h'.row (idx.headD 0)) (soc.get idx.tail)⟩, h')

/-- `get_value` (moirae/models/ecm/utils.py:45-88), returning the object afterwards. -/
noncomputable def getValueM (h : Interp) (others : List Nat) (soc : Nd ℝ) : Except Err (Nd ℝ) × Interp :=
  let sb := if soc.shape.length = 2 then soc.shape.getD 0 0 else 1
  let sd := match soc.shape with
    | [] => 1
    | [_, d] => d
    | d :: _ => d
  if soc.shape.length > 3 then (.error .valueError, h)
  else match batchLoop 1 (h.rows :: others) with
    | .error e => (.error e, h)
    | .ok ib =>
      if h.width = 1 then
        let y : Nd ℝ := ⟨[h.rows, 1], fun idx => h.base.get [idx.getD 0 0, 0]⟩
        (.ok ((y.tile [sb, 1, sd]).swapaxes 0 1), h)
      else
        let r := h.interpFuncM soc
        match r.1 with
        | .error e => (.error e, r.2)
        | .ok y => (y.reshape [ib, sb, sd], r.2)

/-- What a caller may do with the object: evaluate it, assign `base_values`, assign `soc_pinpoints`
(moirae/models/ecm/utils.py:14-19,36-43). -/
inductive Op where
  | eval (others : List Nat) (soc : Nd ℝ)
  | assignBase (base : Nd ℝ)
  | assignPins (pins : Option (List ℝ))

/-- The object after one operation (moirae/models/ecm/utils.py:36-43). -/
noncomputable def Op.act (h : Interp) : Op → Interp
  | .eval others soc => (h.getValueM others soc).2
  | .assignBase base => { h with base := base }
  | .assignPins pins => { h with pins := pins }

/-- The object after a sequence of operations (moirae/models/ecm/utils.py:36-43). -/
noncomputable def after (h : Interp) (ops : List Op) : Interp := ops.foldl Op.act h

end Verif.Interp
