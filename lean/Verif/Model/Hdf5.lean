import Verif.Model.Ukf
/-!
# State estimates in HDF5 files (moirae/interface/hdf5.py)

The file is the finite map from group names to groups of datasets that h5py shows.  Operations that raise half-way keep what they wrote
before, so every operation returns the new state and possibly an error.  Estimates are `MultivariateGaussian`s, as every filter of the
package returns them.
-/

namespace Verif

/-! ## Python values -/

/-- A Python `float` (moirae/interface/hdf5.py:172; moirae/interface/__init__.py:36-45). -/
inductive Num where
  | fin (x : ℝ)
  | nan
  | posInf
  | negInf

/-- `math.isfinite(x)` (moirae/interface/__init__.py:36). -/
def Num.isFinite : Num → Bool
  | .fin _ => true
  | _ => false

/-- `np.isnan(x)` (moirae/interface/hdf5.py:197,283). -/
def Num.isNan : Num → Bool
  | .nan => true
  | _ => false

open Classical in
/-- `int(x)`: truncation towards zero; ValueError for NaN, OverflowError for infinite values (moirae/interface/hdf5.py:190). -/
noncomputable def Num.toInt : Num → Except Err Int
  | .fin x => .ok (if 0 ≤ x then ⌊x⌋ else ⌈x⌉)
  | .nan => .error .valueError
  | _ => .error .overflowError

/-- A NumPy array of 0, 1 or 2 dimensions (moirae/interface/hdf5.py:201-206). -/
inductive Payload where
  | num (x : Num)
  | vec (v : Vec)
  | mat (A : Mat)

/-- `value.shape` (moirae/interface/hdf5.py:165-167,213). -/
def Payload.shape : Payload → List Nat
  | .num _ => []
  | .vec v => [v.n]
  | .mat A => [A.m, A.n]

/-- Value of the first entry with a key (moirae/interface/hdf5.py:194,207,267). -/
def lookupKey {α : Type} (k : Name) : List (Name × α) → Option α
  | [] => none
  | (k', a) :: l => if k' = k then some a else lookupKey k l

/-- Replace the value of the first entry with a key (moirae/interface/hdf5.py:207-214). -/
def setKey {α : Type} (k : Name) (a : α) : List (Name × α) → List (Name × α)
  | [] => []
  | (k', b) :: l => if k' = k then (k', a) :: l else (k', b) :: setKey k a l

/-! ## What is stored of a distribution -/

/-- `OutputType` (moirae/interface/hdf5.py:15). -/
inductive OutputType where
  | full
  | meanCov
  | meanVar
  | mean
  | none
  deriving DecidableEq

/-- `np.diag(A)` of a 2D array (moirae/interface/hdf5.py:32; moirae/interface/__init__.py:133,135). -/
noncomputable def Mat.diagonal (A : Mat) : Vec := ⟨min A.m A.n, fun i => A.at' i i⟩

/-- `_convert_state_to_numpy_dict` (moirae/interface/hdf5.py:18-36).  `model_dump` of a Gaussian has the keys `mean` and `covariance`, and
nothing in it to flatten. -/
noncomputable def toNumpyDict (g : Gaussian) (what : OutputType) (tag : Name) : Except Err (List (Name × Payload)) :=
  match what with
  | .full => .ok [(tag ++ "_mean".toList, .vec g.mean), (tag ++ "_covariance".toList, .mat g.cov)]
  | .meanCov => .ok [(tag ++ "_mean".toList, .vec g.mean), (tag ++ "_covariance".toList, .mat g.cov)]
  | .meanVar => .ok [(tag ++ "_mean".toList, .vec g.mean), (tag ++ "_variance".toList, .vec g.cov.diagonal)]
  | .mean => .ok [(tag ++ "_mean".toList, .vec g.mean)]
  | .none => .error .valueError

/-- `to_insert` (moirae/interface/hdf5.py:154-156,201-203). -/
noncomputable def toInsert (time : Num) (state output : Gaussian) (what : OutputType) : Except Err (List (Name × Payload)) := do
  let s ← toNumpyDict state what "state".toList
  let o ← toNumpyDict output what "output".toList
  return ("time".toList, .num time) :: s ++ o

/-! ## Datasets -/

/-- An `h5py.Dataset` (external) along its first axis: `none` is the fill value NaN in every entry.  `maxRows` is the first entry of
`maxshape`, `chunk` that of `chunks`, which h5py chooses (moirae/interface/hdf5.py:158-169). -/
structure Dataset where
  item : List Nat
  rows : List (Option Payload)
  maxRows : Option Nat
  chunk : Nat

namespace Dataset

/-- `resize(n, axis=0)` to more rows; ValueError beyond `maxshape` (moirae/interface/hdf5.py:211). -/
def grow (d : Dataset) (n : Nat) : Except Err Dataset :=
  match d.maxRows with
  | some m => if n ≤ m then .ok { d with rows := d.rows ++ List.replicate (n - d.rows.length) none } else .error .valueError
  | none => .ok { d with rows := d.rows ++ List.replicate (n - d.rows.length) none }

/-- Position of a row index; negative ones count from the end; IndexError outside (moirae/interface/hdf5.py:197,213-214). -/
def pos (d : Dataset) (i : Int) : Except Err Nat := Operator.resolve1 d.rows.length i

/-- `dataset[i, :, …]`: the row at an index (moirae/interface/hdf5.py:197,275). -/
def row (d : Dataset) (i : Int) : Except Err (Option Payload) := do
  let p ← d.pos i
  return (d.rows[p]?).join

/-- `dataset[i, :, …] = value`; TypeError when the shape differs.  (h5py would repeat arrays of size 1; no caller relies on it.)
(moirae/interface/hdf5.py:213-214) -/
def write (d : Dataset) (i : Int) (v : Payload) : Except Err Dataset := do
  let p ← d.pos i
  if v.shape = d.item then return { d with rows := d.rows.set p (some v) }
  else .error .typeError

end Dataset

/-- A group of datasets (moirae/interface/hdf5.py:151,194). -/
abbrev Group := List (Name × Dataset)

/-- `np.isnan(group['time'][i])`; unwritten rows are NaN (moirae/interface/hdf5.py:197). -/
def Dataset.isNanAt (d : Dataset) (i : Int) : Except Err Bool := do
  match ← d.row i with
  | some (.num x) => return x.isNan
  | some _ => .error .typeError
  | none => return true

/-! ## The group of the estimates -/

/-- The group `storage_key` (moirae/interface/hdf5.py:91-93) with those of its attributes that are read back or name the columns
(moirae/interface/hdf5.py:133-140), and its two sub-groups. -/
structure Estimates where
  settings : Option (OutputType × OutputType)
  stateNames : Option (List Name)
  outputNames : Option (List Name)
  distType : Option Name
  perTimestep : Option Group
  perCycle : Option Group

/-- A group that has just been created (moirae/interface/hdf5.py:91-92). -/
def Estimates.empty : Estimates := ⟨none, none, none, none, none, none⟩

/-- The two places data are written to (moirae/interface/hdf5.py:189-190). -/
inductive Where where
  | timestep
  | cycle
  deriving DecidableEq

/-- The group of one of the two places (moirae/interface/hdf5.py:194). -/
def Estimates.get (e : Estimates) : Where → Option Group
  | .timestep => e.perTimestep
  | .cycle => e.perCycle

/-- A change in the group of one of the two places (moirae/interface/hdf5.py:150-169,206-214). -/
def Estimates.set (e : Estimates) (wh : Where) (g : Group) : Estimates :=
  match wh with
  | .timestep => { e with perTimestep := some g }
  | .cycle => { e with perCycle := some g }

/-- `HDF5Writer` (moirae/interface/hdf5.py:40-83).  `root` is the file or group `hdf5_output`; `ready` is `_group_handle is not None`.
`dataset_options` is the default, with which every dataset has chunks. -/
structure Writer where
  storageKey : Name
  resizable : Bool
  perTimestep : OutputType
  perCycle : OutputType
  ready : Bool
  position : Nat
  root : List (Name × Estimates)

/-- What `prepare` asks of an estimator (moirae/interface/hdf5.py:134-144). -/
structure EstimatorInfo where
  stateNames : Except Err (List Name)
  outputNames : List Name
  state : Except Err Gaussian
  nOutputs : Nat

namespace Writer

/-- What the handle refers to (moirae/interface/hdf5.py:194). -/
def group (w : Writer) : Estimates := (lookupKey w.storageKey w.root).getD .empty

/-- The writer after a change in the group (moirae/interface/hdf5.py:206-214). -/
def setGroup (w : Writer) (e : Estimates) : Writer := { w with root := setKey w.storageKey e w.root }

/-- `__enter__` (moirae/interface/hdf5.py:85-95). -/
def enter (w : Writer) : Writer :=
  { w with
    root := if (lookupKey w.storageKey w.root).isSome then w.root else w.root ++ [(w.storageKey, .empty)]
    ready := true
    position := 0 }

/-- `__exit__` (moirae/interface/hdf5.py:97-102). -/
def exit (w : Writer) : Writer := { w with ready := false }

/-- The datasets of one sub-group (moirae/interface/hdf5.py:162-169).  `chunkOf` is the number of rows per chunk h5py chooses for a shape
(external). -/
def create (chunkOf : List Nat → Nat) (resizable : Bool) (expected : Option Nat) (items : List (Name × Payload)) : Group :=
  items.map fun p =>
    let size := expected.getD 128
    (p.1, ⟨p.2.shape, List.replicate size none, if resizable then expected else some size, chunkOf (size :: p.2.shape)⟩)

/-- The loop of `prepare` (moirae/interface/hdf5.py:149-169) for one of the two places.  Expected sizes are not negative. -/
noncomputable def prepareAt (chunkOf : List Nat → Nat) (resizable : Bool) (state output : Gaussian) (e : Estimates)
    (what : OutputType) (wh : Where) (expected : Option Nat) : Estimates × Option Err :=
  if what = .none then (e, none)
  else
    match toInsert (.fin 0) state output what with
    | .error err => (e, some err)
    | .ok items =>
      if (e.get wh).isSome then (e, some .valueError)
      else (e.set wh (create chunkOf resizable expected items), none)

/-- `prepare` (moirae/interface/hdf5.py:114-169).  The attributes that are never read back (`estimator_name`, `cell_model`, the two
initial states) are left out; they cannot fail for an estimator whose state can be had. -/
noncomputable def prepare (chunkOf : List Nat → Nat) (w : Writer) (info : EstimatorInfo) (steps cycles : Option Nat) :
    Writer × Option Err :=
  if !w.ready then (w, some .valueError)
  else if !w.resizable && (steps.isNone || cycles.isNone) then (w, some .valueError)
  else
    let e := { w.group with settings := some (w.perTimestep, w.perCycle) }
    match info.stateNames with
    | .error err => (w.setGroup e, some err)
    | .ok ns =>
      let e := { e with stateNames := some ns, outputNames := some info.outputNames }
      match info.state with
      | .error err => (w.setGroup e, some err)
      | .ok state =>
        let e := { e with distType := some "MultivariateGaussian".toList }
        let output : Gaussian := ⟨.zeros info.nOutputs, .zeros info.nOutputs info.nOutputs⟩
        match prepareAt chunkOf w.resizable state output e w.perTimestep .timestep steps with
        | (e, some err) => (w.setGroup e, some err)
        | (e, none) =>
          let r := prepareAt chunkOf w.resizable state output e w.perCycle .cycle cycles
          (w.setGroup r.1, r.2)

/-- Writing one value (moirae/interface/hdf5.py:206-214): the dataset grows by one chunk if it is too short. -/
def insert1 (g : Group) (i : Int) (k : Name) (v : Payload) : Group × Option Err :=
  match lookupKey k g with
  | none => (g, some .keyError)
  | some d =>
    match if (d.rows.length : Int) ≤ i then d.grow (d.rows.length + d.chunk) else .ok d with
    | .error err => (g, some err)
    | .ok d =>
      match d.write i v with
      | .error err => (setKey k d g, some err)
      | .ok d => (setKey k d g, none)

/-- Writing all values (moirae/interface/hdf5.py:206-214). -/
def insertAll (i : Int) : Group → List (Name × Payload) → Group × Option Err
  | g, [] => (g, none)
  | g, (k, v) :: rest =>
    match insert1 g i k v with
    | (g, some err) => (g, some err)
    | (g, none) => insertAll i g rest

/-- The loop of `append_step` (moirae/interface/hdf5.py:189-214) for one of the two places: the first step of a cycle is kept. -/
noncomputable def appendAt (time : Num) (state output : Gaussian) (e : Estimates) (i : Int) (what : OutputType) (wh : Where) :
    Estimates × Option Err :=
  if what = .none then (e, none)
  else
    match e.get wh with
    | none => (e, some .keyError)
    | some g =>
      let skip : Except Err Bool :=
        match wh with
        | .timestep => .ok false
        | .cycle =>
          match lookupKey "time".toList g with
          | none => .error .keyError
          | some d => if i < d.rows.length then do return !(← d.isNanAt i) else .ok false
      match skip with
      | .error err => (e, some err)
      | .ok true => (e, none)
      | .ok false =>
        match toInsert time state output what with
        | .error err => (e, some err)
        | .ok items =>
          let r := insertAll i g items
          (e.set wh r.1, r.2)

/-- `append_step` (moirae/interface/hdf5.py:171-217). -/
noncomputable def append (w : Writer) (time cycle : Num) (state output : Gaussian) : Writer × Option Err :=
  if !w.ready then (w, some .valueError)
  else
    match cycle.toInt with
    | .error err => (w, some err)
    | .ok c =>
      match appendAt time state output w.group w.position w.perTimestep .timestep with
      | (e, some err) => (w.setGroup e, some err)
      | (e, none) =>
        match appendAt time state output e c w.perCycle .cycle with
        | (e, some err) => (w.setGroup e, some err)
        | (e, none) => ({ w.setGroup e with position := w.position + 1 }, none)

/-- One estimate, as given to `append_step` (moirae/interface/hdf5.py:171-175). -/
structure Step where
  time : Num
  cycle : Num
  state : Gaussian
  output : Gaussian

/-- `append_step` for one estimate after the other, until one raises
(moirae/interface/hdf5.py:171-217; moirae/interface/__init__.py:125-139). -/
noncomputable def appendAll (w : Writer) : List Step → Writer × Option Err
  | [] => (w, none)
  | s :: rest =>
    match w.append s.time s.cycle s.state s.output with
    | (w, some err) => (w, some err)
    | (w, none) => appendAll w rest

/-- What can be done with a writer (moirae/interface/hdf5.py:85-217). -/
inductive Op where
  | enter
  | exit
  | prepare (info : EstimatorInfo) (steps cycles : Option Nat)
  | append (s : Step)

/-- One operation (moirae/interface/hdf5.py:85-217). -/
noncomputable def apply (chunkOf : List Nat → Nat) (w : Writer) : Op → Writer × Option Err
  | .enter => (w.enter, none)
  | .exit => (w.exit, none)
  | .prepare info steps cycles => w.prepare chunkOf info steps cycles
  | .append s => w.append s.time s.cycle s.state s.output

/-- One operation after the other; the caller catches what they raise (moirae/interface/hdf5.py:85-217). -/
noncomputable def run (chunkOf : List Nat → Nat) (w : Writer) : List Op → Writer
  | [] => w
  | op :: ops => run chunkOf (w.apply chunkOf op).1 ops

end Writer

/-! ## Reading -/

/-- The entries of row `i` whose key begins with `typ` (moirae/interface/hdf5.py:275), keys without it.  Rows of which nothing was
written are arrays of NaN in Python; such values are not represented, ValueError here. -/
def unpackKeys (g : Group) (i : Nat) (typ : Name) : Except Err (List (Name × Payload)) :=
  (g.filter fun p => p.1 ≠ "time".toList ∧ typ.isPrefixOf p.1).mapM fun p => do
    match ← p.2.row i with
    | some v => return (p.1.drop typ.length, v)
    | none => .error .valueError

/-- `_unpack` (moirae/interface/hdf5.py:274-280). -/
noncomputable def unpack (g : Group) (readType : OutputType) (i : Nat) (typ : Name) : Except Err (List (Name × Payload)) := do
  let values ← unpackKeys g i typ
  if readType = .meanVar then
    match lookupKey "variance".toList values with
    | some (.vec v) => return ("covariance".toList, .mat (.diag v)) :: values.filter fun p => p.1 ≠ "variance".toList
    | some _ => .error .typeError
    | none => .error .keyError
  else return values

/-- `dist_type(**values)`: further keys are ignored, missing ones raise a ValidationError (moirae/interface/hdf5.py:287,290). -/
def makeDist (delta : Bool) (values : List (Name × Payload)) : Except Err Dist :=
  match lookupKey "mean".toList values with
  | some (.vec m) =>
    if delta then .ok (.delta ⟨m⟩)
    else
      match lookupKey "covariance".toList values with
      | some (.mat c) => (Gaussian.make m c).map .gaussian
      | _ => .error .valueError
  | _ => .error .valueError

/-- The loop over the rows (moirae/interface/hdf5.py:282-291) from row `i` on; it stops at the first NaN.  (Python hands out the rows one by
one; an error here replaces the rows before it.) -/
noncomputable def readRows (g : Group) (readType : OutputType) : Nat → List (Option Payload) → Except Err (List (Num × Dist × Dist))
  | _, [] => .ok []
  | i, t :: rest =>
    match t with
    | none => .ok []
    | some (.num t) =>
      if t.isNan then .ok []
      else do
        let s ← makeDist (readType = .mean) (← unpack g readType i "state_".toList)
        let o ← makeDist (readType = .mean) (← unpack g readType i "output_".toList)
        return (t, s, o) :: (← readRows g readType (i + 1) rest)
    | some _ => .error .typeError

/-- `read_state_estimates` (moirae/interface/hdf5.py:220-294) of an open group, with the default `dist_type`, `MultivariateGaussian`. -/
noncomputable def Estimates.read (e : Estimates) (wh : Where) : Except Err (List (Num × Dist × Dist)) :=
  match e.settings with
  | none => .error .keyError
  | some (ts, cy) => do
    let readType := match wh with | .timestep => ts | .cycle => cy
    if readType = .full then
      match e.distType with
      | none => .error .keyError
      | some t => if t ≠ "MultivariateGaussian".toList then .error .valueError else pure ()
    else if readType = .none then .error .valueError
    else pure ()
    match e.get wh with
    | none => .error .keyError
    | some g =>
      match lookupKey "time".toList g with
      | none => .error .valueError
      | some d => readRows g readType 0 d.rows

/-- `read_state_estimates` of a path (moirae/interface/hdf5.py:240-246): always the group `state_estimates`. -/
noncomputable def readFile (root : List (Name × Estimates)) (wh : Where) : Except Err (List (Num × Dist × Dist)) :=
  match lookupKey "state_estimates".toList root with
  | none => .error .keyError
  | some e => e.read wh

end Verif
