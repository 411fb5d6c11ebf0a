import Verif.Model.Ecm
import Verif.Model.Hdf5
/-!
# Extraction of ECM parameters from data (moirae/extractors/ecm.py)

`battdat`'s post-processing, `DataFrame.sort_values` and `scipy`'s `LSQUnivariateSpline` are parameters.
-/

namespace Verif

/-- A column of floats is summarised by `pd.Series.max` with this binary maximum: NaN is skipped (moirae/extractors/ecm.py:28). -/
noncomputable def Num.maxSkip : Num → Num → Num
  | .nan, y => y
  | x, .nan => x
  | .posInf, _ => .posInf
  | _, .posInf => .posInf
  | .negInf, y => y
  | x, .negInf => x
  | .fin x, .fin y => .fin (max x y)

/-- `pd.Series.max()`: NaN values are skipped, NaN is returned when nothing else is there (moirae/extractors/ecm.py:28). -/
noncomputable def seriesMax (col : List Num) : Num := col.foldr Num.maxSkip .nan

open Classical in
/-- `x / c` for floats, `c` finite.  The two zeros of IEEE are one here (moirae/extractors/ecm.py:85). -/
noncomputable def Num.divBy : Num → ℝ → Num
  | .nan, _ => .nan
  | .fin x, c => if c = 0 then (if 0 < x then .posInf else if x < 0 then .negInf else .nan) else .fin (x / c)
  | .posInf, c => if c < 0 then .negInf else .posInf
  | .negInf, c => if c < 0 then .posInf else .negInf

open Classical in
/-- `x < r` for floats, `r` finite: False for NaN (moirae/extractors/ecm.py:86). -/
noncomputable def Num.below : Num → ℝ → Bool
  | .nan, _ => false
  | .fin x, r => decide (x < r)
  | .posInf, _ => false
  | .negInf, _ => true

/-- The columns of a row of `raw_data` that the extractors read (moirae/extractors/ecm.py:102,106,112).  Columns that are missing or
hold non-finite values are outside the model. -/
structure Sample where
  cycleCapacity : ℝ
  current : ℝ
  voltage : ℝ

/-- `cycle_stats`: columns by name (moirae/extractors/ecm.py:24-28). -/
abbrev CycleStats := List (Name × List Num)

/-- The tables of a `CellDataset` that the extractors use (moirae/extractors/ecm.py:24,77,125). -/
structure CellData where
  rawData : Option (List Sample)
  cycleStats : Option CycleStats

/-- `'capacity_charge'` (moirae/extractors/ecm.py:25,28). -/
def capacityCharge : Name := "capacity_charge".toList

/-- The condition `cycle_stats is None or 'capacity_charge' not in cycle_stats` (moirae/extractors/ecm.py:25,81), negated: the column when
it is there. -/
def CellData.capacities (d : CellData) : Option (List Num) :=
  match d.cycleStats with
  | none => none
  | some t => lookupKey capacityCharge t

namespace Extractor

/-- `MaxCapacityExtractor.extract` (moirae/extractors/ecm.py:22-29).  `compute` is `CapacityPerCycle().compute_features` of battdat.
Returned is the one value of `MaxTheoreticalCapacity.base_values`. -/
noncomputable def maxCapacity (compute : CellData → Except Err CycleStats) (d : CellData) : Except Err Num :=
  match d.capacities with
  | some col => .ok (seriesMax col)
  | none => do
    let stats ← compute d
    match lookupKey capacityCharge stats with
    | none => .error .keyError
    | some col => .ok (seriesMax col)

end Extractor

/-- `OCVExtractor` (moirae/extractors/ecm.py:54-73). -/
structure OcvExtractor where
  socPoints : List ℝ
  capacity : ℝ
  socRequirement : ℝ
  style : Style

/-- The argument `soc_points: np.ndarray | int` (moirae/extractors/ecm.py:65). -/
inductive SocPoints where
  | array (xs : List ℝ)
  | count (n : Nat)

namespace OcvExtractor

/-- `OCVExtractor.__init__` (moirae/extractors/ecm.py:63-73).  `capacity` is the float given, or entry `[0, 0]` of the capacity
variable given.  A count of at least two points, as for `linspace01`. -/
noncomputable def init (capacity : ℝ) (points : SocPoints) (requirement : ℝ) (style : Style) : OcvExtractor where
  socPoints := match points with
    | .array xs => xs
    | .count n => linspace01 n
  capacity := capacity
  socRequirement := requirement
  style := style

/-- The comparison of `OCVExtractor.check_data` (moirae/extractors/ecm.py:84-88). -/
noncomputable def enough (E : OcvExtractor) (d : CellData) : Except Err Unit :=
  match d.capacities with
  | none => .error .keyError
  | some col => if ((seriesMax col).divBy E.capacity).below E.socRequirement then .error .valueError else .ok ()

/-- `OCVExtractor.check_data` (moirae/extractors/ecm.py:75-88), returning the dataset as it is left, since `add_summaries` of battdat (a
parameter here) adds tables to it. -/
noncomputable def checkData (addSummaries : CellData → Except Err CellData) (E : OcvExtractor) (d : CellData) :
    CellData × Except Err Unit :=
  match d.rawData with
  | none => (d, .error .valueError)
  | some _ =>
    match d.capacities with
    | some _ => (d, E.enough d)
    | none =>
      match addSummaries d with
      | .error e => (d, .error e)
      | .ok d' => (d', E.enough d')

/-- A row of the frame after `cycle['soc'] = cycle['cycle_capacity'] / self.capacity` (moirae/extractors/ecm.py:102). -/
structure Point where
  soc : ℝ
  current : ℝ
  voltage : ℝ

/-- `cycle['soc'] = cycle['cycle_capacity'] / self.capacity` (moirae/extractors/ecm.py:102). -/
noncomputable def point (E : OcvExtractor) (s : Sample) : Point := ⟨s.cycleCapacity / E.capacity, s.current, s.voltage⟩

/-- `1. / np.clip(np.abs(cycle['current']), a_min=1e-6, a_max=None)` (moirae/extractors/ecm.py:106), one entry. -/
noncomputable def rawWeight (i : ℝ) : ℝ := 1 / max |i| (1 / 1000000)

/-- The weights (moirae/extractors/ecm.py:106-107): `w /= w.sum()`. -/
noncomputable def weights (currents : List ℝ) : List ℝ :=
  let w := currents.map rawWeight
  w.map (· / w.sum)

/-- `soc_points[1:-1]` (moirae/extractors/ecm.py:110). -/
def interior (xs : List ℝ) : List ℝ := (xs.drop 1).dropLast

/-- `OCVExtractor.interpolate_ocv` (moirae/extractors/ecm.py:90-114).  `sort` is `sort_values('soc')` (quicksort: rows of equal SOC may
come in any order); `fit x y w t` is `LSQUnivariateSpline(x, y, w=w, t=t)`, a function of SOC or an error. -/
noncomputable def interpolateOcv (sort : List Point → List Point)
    (fit : List ℝ → List ℝ → List ℝ → List ℝ → Except Err (ℝ → ℝ)) (E : OcvExtractor) (cycle : List Sample) :
    Except Err (List ℝ) := do
  let pts := sort (cycle.map E.point)
  let spline ← fit (pts.map (·.soc)) (pts.map (·.voltage)) (weights (pts.map (·.current))) (interior E.socPoints)
  return E.socPoints.map spline

/-- `OCVExtractor.extract` (moirae/extractors/ecm.py:116-129).  The other fields of the result are the defaults: reference temperature 25
(moirae/models/ecm/components.py:109-111), no entropic term (115-119).  `ListParameter` turns the knots into one row. -/
noncomputable def extract (sort : List Point → List Point)
    (fit : List ℝ → List ℝ → List ℝ → List ℝ → Except Err (ℝ → ℝ)) (E : OcvExtractor) (d : CellData) : Except Err Ecm.OCV :=
  match d.rawData with
  | none => .error .keyError
  | some raw => do
    let knots ← E.interpolateOcv sort fit raw
    return { ref := ⟨⟨[1, knots.length], fun idx => knots.getD (idx.getD 1 0) 0⟩, some E.socPoints, E.style⟩
             refTemp := .num2 25
             ent := ⟨.num2 0, none, .linear⟩ }

end OcvExtractor
end Verif
