import Verif.Model.Simulator
import Verif.Model.Container
/-!
# The simulator's history as a table (moirae/simulator.py:143-207)
-/

namespace Verif
variable {α : Type}

/-- `np.concatenate(arrays, axis=0)`; ValueError on an empty list and on unequal column counts (moirae/simulator.py:157-160). -/
def Arr2.vcat : List (Arr2 α) → Except Err (Arr2 α)
  | [] => .error .valueError
  | a :: rest =>
    if h : ∀ b ∈ rest, b.ncol = a.ncol then
      .ok ⟨a.ncol, ((a :: rest).map (·.rows)).flatten, by
        intro r hr
        simp only [List.mem_flatten, List.mem_map] at hr
        obtain ⟨l, ⟨b, hb, rfl⟩, hr⟩ := hr
        rcases List.mem_cons.1 hb with rfl | hb
        · exact b.wf r hr
        · rw [b.wf r hr, h b hb]⟩
    else .error .valueError

/-- A dataframe with a column `batch`: column names (without `batch`) and rows.  A missing value (NaN) is `none`
(moirae/simulator.py:165-170). -/
structure Frame (α : Type) where
  names : List Name
  rows : List (Option Nat × List (Option α))

/-- The values of one container in `_squish` (moirae/simulator.py:158-159). -/
def squishOne (b : Nat) (x : Container α) : Except Err (Arr2 α) := do
  let xb ← x.batchSize
  let v ← x.toNumpy
  return if xb = b then v else v.repeatRows b

/-- `pd.DataFrame(values, columns=params[0].all_names)` (moirae/simulator.py:161). -/
def labelled (params : List (Container α)) (values : Arr2 α) : Except Err (List Name × Arr2 α) :=
  match params with
  | [] => .error .indexError
  | p :: _ =>
    match p.allNames with
    | .error e => .error e
    | .ok names => if names.length ≠ values.ncol then .error .valueError else .ok (names, values)

/-- `_squish(params)` (moirae/simulator.py:156-161). -/
def squish (b : Nat) (params : List (Container α)) : Except Err (List Name × Arr2 α) := do
  let vs ← params.mapM (squishOne b)
  labelled params (← Arr2.vcat vs)

/-- Row `r` of a block; missing values past its end (moirae/simulator.py:165-170). -/
def blockRow (v : Arr2 α) (r : Nat) : List (Option α) :=
  match v.rows[r]? with
  | some row => row.map some
  | none => List.replicate v.ncol none

/-- `np.repeat(np.arange(batch_size), n)` (moirae/simulator.py:164). -/
def memberLabels (b n : Nat) : List Nat := (List.range b).flatMap (List.replicate n)

/-- `pd.concat([...], axis=1)` (moirae/simulator.py:165-170): rows side by side by position; shorter parts are filled with NaN. -/
def besides (labels : List Nat) (i x y : List Name × Arr2 α) : Frame α :=
  ⟨i.1 ++ x.1 ++ y.1,
    (List.range (max labels.length (max i.2.nrow (max x.2.nrow y.2.nrow)))).map fun r =>
      (labels[r]?, blockRow i.2 r ++ blockRow x.2 r ++ blockRow y.2 r)⟩

namespace Simulator
variable {A : Type}

/-- `Simulator.to_dataframe` (moirae/simulator.py:143-170). -/
def toDataframe (s : Simulator (Container α) (Container α) A (Container α)) : Except Err (Frame α) :=
  match s.history with
  | none => .error .valueError
  | some h => do
    let b ← s.measurement.batchSize
    let i ← squish b h.inputs
    let x ← squish b h.transients
    let y ← squish b h.measurements
    return besides (memberLabels b h.inputs.length) i x y

end Simulator

/-- The labels of a frame in ascending order, as `df.groupby('batch')` visits them; NaN labels are dropped (pandas)
(moirae/simulator.py:192). -/
def Frame.groups (f : Frame α) : List Nat :=
  (List.range ((f.rows.filterMap (·.1)).foldr max 0 + 1)).filter fun b => (f.rows.filterMap (·.1)).contains b

/-- The renaming of moirae/simulator.py:185-189. -/
def renameColumn (n : Name) : Name :=
  if n = "time".toList then "test_time".toList else if n = "terminal_voltage".toList then "voltage".toList else n

/-- `Simulator.to_batdata` (moirae/simulator.py:172-207): the column names and, per group, its rows in order.  Simplified: the
dataset wrapper is left out; the column descriptions (`extra_columns`) are in `toBatdataDescribed`. -/
def Simulator.toBatdata {A : Type} (s : Simulator (Container α) (Container α) A (Container α)) :
    Except Err (List (List Name × List (List (Option α)))) := do
  let f ← s.toDataframe
  return f.groups.map fun b => (f.names.map renameColumn, (f.rows.filter fun r => r.1 == some b).map (·.2))

/-- `d[k] = v` for a dictionary, in the order of insertion: a key that is there keeps its place (moirae/simulator.py:202-205). -/
def dictSet {κ β : Type} [DecidableEq κ] (d : List (κ × β)) (k : κ) (v : β) : List (κ × β) :=
  if d.any (fun e => decide (e.1 = k)) then d.map fun e => if e.1 = k then (k, v) else e else d ++ [(k, v)]

/-- The description of a column: `f'Input variable from {source.__class__.__name__}'` (moirae/simulator.py:203).  `source` is the name of the class. -/
def describeColumn (source : Name) : Name := "Input variable from ".toList ++ source

/-- The loop over the last inputs, transient state and measurement (moirae/simulator.py:198-205): the descriptions of the columns, as a dictionary that
is empty in the beginning.  `kinds` are the names of the classes of the three.  Simplified: the data type, which is always `FLOAT`, is left out. -/
def Simulator.extraColumns {A : Type} (s : Simulator (Container α) (Container α) A (Container α)) (kinds : Name × Name × Name) :
    Except Err (List (Name × Name)) :=
  [(kinds.1, s.input), (kinds.2.1, s.transient), (kinds.2.2, s.measurement)].foldlM (init := []) fun d source => do
    return (← source.2.allNames).foldl (fun d n => dictSet d n (describeColumn source.1)) d

/-- `Simulator.to_batdata(extra_columns=True)` (moirae/simulator.py:172-207): per dataset column names, rows and descriptions of columns.  The descriptions
are computed for every dataset, so not at all if there is none.  Assumed: a new dataset has a dictionary `extra_columns` of its own, which is empty. -/
def Simulator.toBatdataDescribed {A : Type} (s : Simulator (Container α) (Container α) A (Container α)) (kinds : Name × Name × Name) :
    Except Err (List (List Name × List (List (Option α)) × List (Name × Name))) := do
  (← s.toBatdata).mapM fun d => do return (d.1, d.2, ← s.extraColumns kinds)

end Verif
