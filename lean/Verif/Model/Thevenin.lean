import Verif.Model.Ecm
/-!
# The interface to the Thevenin package (moirae/models/thevenin)

The package's circuit solver is a parameter: any function of the member's parameters, starting values, current and duration.
-/

namespace Verif.Thevenin
open Verif Nd

/-! ## Polynomials (moirae/models/thevenin/components.py) -/

/-- `c[i]` on the first axis (moirae/models/thevenin/components.py:36,82). -/
def slice0 (c : Nd ℝ) (i : Nat) : Nd ℝ := ⟨c.shape.tail, fun idx => c.get (i :: idx)⟩

/-- The loop of `numpy.polynomial.polynomial.polyval` (external): `c0 = c[-i] + c0 * x` down to the constant term
(moirae/models/thevenin/components.py:36,82). -/
noncomputable def polyLoop (x c : Nd ℝ) : Nat → Nd ℝ → Except Err (Nd ℝ)
  | 0, acc => .ok acc
  | i + 1, acc => do
    let t ← Ecm.mul acc x
    let acc' ← Ecm.add (slice0 c i) t
    polyLoop x c i acc'

/-- `polyval(x, c, tensor=False)` (external): `c0 = c[-1] + x*0`, then the loop.  IndexError without coefficients
(moirae/models/thevenin/components.py:36,82). -/
noncomputable def polyval (x c : Nd ℝ) : Except Err (Nd ℝ) :=
  match c.shape with
  | (d + 1) :: _ => do
    let acc ← Ecm.add (slice0 c d) (x.map (· * 0))
    polyLoop x c d acc
  | _ => .error .indexError

/-- `a.T` of a 2D array (moirae/models/thevenin/components.py:36,80-81). -/
def transpose (a : Nd ℝ) : Nd ℝ := ⟨[a.shape.getD 1 0, a.shape.getD 0 0], fun idx => a.get [idx.getD 1 0, idx.getD 0 0]⟩

/-- `a[i, :]` of a 2D array (moirae/models/thevenin/components.py:35,80-81). -/
def row (a : Nd ℝ) (i : Nat) : Nd ℝ := ⟨[a.shape.getD 1 0], fun idx => a.get [i, idx.getD 0 0]⟩

/-- `a[:, 0]` of a 2D array (moirae/models/thevenin/components.py:75; moirae/models/thevenin/__init__.py:107-109). -/
def col0 (a : Nd ℝ) : Nd ℝ := ⟨[a.shape.getD 0 0], fun idx => a.get [idx.getD 0 0, 0]⟩

/-- `value[b % value.shape[0], 0]` (moirae/models/thevenin/__init__.py:46). -/
def entry (a : Nd ℝ) (b : Nat) : ℝ := a.get [b % Ecm.rows a, 0]

/-- `SOCPolynomialVariable` (moirae/models/thevenin/components.py:28-32); `coeffs` has shape `(rows, number of coefficients)`. -/
structure PolySoc where
  coeffs : Nd ℝ

/-- `SOCPolynomialVariable.__call__` (moirae/models/thevenin/components.py:34-36). -/
noncomputable def PolySoc.call (p : PolySoc) (soc : Nd ℝ) : Option Nat → Except Err (Nd ℝ)
  | none => polyval soc (transpose p.coeffs)
  | some b => polyval soc (row p.coeffs (b % Ecm.rows p.coeffs))

/-- `SOCTempPolynomialVariable` (moirae/models/thevenin/components.py:57-70). -/
structure PolySocT where
  tRef : Nd ℝ
  socCoeffs : Nd ℝ
  tCoeffs : Nd ℝ

/-- `SOCTempPolynomialVariable.__call__` (moirae/models/thevenin/components.py:72-82). -/
noncomputable def PolySocT.call (p : PolySocT) (soc temp : Nd ℝ) : Option Nat → Except Err (Nd ℝ)
  | none => do
    let tCorr ← Ecm.sub temp (col0 p.tRef)
    let u ← polyval tCorr (transpose p.tCoeffs)
    let v ← polyval soc (transpose p.socCoeffs)
    Ecm.add u v
  | some b => do
    let tCorr ← Ecm.sub temp (num (entry p.tRef b))
    let u ← polyval tCorr (row p.tCoeffs (b % Ecm.rows p.tCoeffs))
    let v ← polyval soc (row p.socCoeffs (b % Ecm.rows p.socCoeffs))
    Ecm.add u v

/-! ## Objects -/

/-- `TheveninASOH` (moirae/models/thevenin/state.py:13-48).  The validator (lines 43-48) makes sure that there is one `r` more than
there are `c`; here `r0` is `r[0]` and `rcs` pairs `r[i+1]` with `c[i]`. -/
structure ASOH where
  capacity : Nd ℝ
  mass : Nd ℝ
  cp : Nd ℝ
  hThermal : Nd ℝ
  aTherm : Nd ℝ
  ocv : PolySoc
  r0 : PolySocT
  rcs : List (PolySocT × PolySocT)

/-- `TheveninTransient` (moirae/models/thevenin/state.py:51-59); `eta` has shape `(rows, width)`. -/
structure State where
  soc : Nd ℝ
  temp : Nd ℝ
  eta : Nd ℝ

/-- `TheveninInput` (moirae/models/thevenin/ins_outs.py:5-9). -/
structure Input where
  time : Nd ℝ
  current : Nd ℝ
  tInf : Nd ℝ

/-- The row counts of the parameters of a resistance or capacitance (moirae/models/thevenin/components.py:65-70). -/
def PolySocT.rowCounts (p : PolySocT) : List Nat := [Ecm.rows p.tRef, Ecm.rows p.socCoeffs, Ecm.rows p.tCoeffs]

/-- `asoh.batch_size` (moirae/models/base.py:74-87). -/
def ASOH.batchSize (a : ASOH) : Except Err Nat :=
  batchLoop 1 ([Ecm.rows a.capacity, Ecm.rows a.mass, Ecm.rows a.cp, Ecm.rows a.hThermal, Ecm.rows a.aTherm,
    Ecm.rows a.ocv.coeffs] ++ a.r0.rowCounts ++ a.rcs.flatMap (fun p => p.1.rowCounts) ++ a.rcs.flatMap fun p => p.2.rowCounts)

/-- `transient.batch_size` (moirae/models/base.py:471-488). -/
def State.batchSize (s : State) : Except Err Nat := batchLoop 1 [Ecm.rows s.soc, Ecm.rows s.temp, Ecm.rows s.eta]

/-- `inputs.batch_size` (moirae/models/base.py:471-488). -/
def Input.batchSize (i : Input) : Except Err Nat := batchLoop 1 [Ecm.rows i.time, Ecm.rows i.current, Ecm.rows i.tInf]

/-- Making a `TheveninASOH` from its fields (moirae/models/thevenin/state.py:20-48): at least one resistor (`min_length=1`, line 33), and
the validator `_check_rc_elements` (lines 43-48).  A pydantic ValidationError is a ValueError. -/
def ASOH.make (capacity mass cp hThermal aTherm : Nd ℝ) (ocv : PolySoc) (r c : List PolySocT) : Except Err ASOH :=
  match r with
  | [] => .error .valueError
  | r0 :: rs => if rs.length ≠ c.length then .error .valueError else .ok ⟨capacity, mass, cp, hThermal, aTherm, ocv, r0, rs.zip c⟩

/-- `TheveninASOH.num_rc_elements` (moirae/models/thevenin/state.py:39-41). -/
def ASOH.numRc (a : ASOH) : Nat := a.rcs.length

/-- `TheveninTransient.from_asoh` (moirae/models/thevenin/state.py:61-76); the fields are brought into 2D form by their annotations
(`eta` already is 2D). -/
def State.fromAsoh (a : ASOH) (soc temp : Nd ℝ) : Except Err State := do
  let soc ← Ecm.enforce0 soc
  let temp ← Ecm.enforce0 temp
  return ⟨soc, temp, ⟨[1, a.numRc], fun _ => 0⟩⟩

/-! ## The circuits of the members -/

/-- What a `thevenin.Model` is built from (moirae/models/thevenin/__init__.py:41-64): the parameters, the functions of SOC and
temperature, and the starting overpotentials.  The temperature of the transient state is not among them. -/
structure Member where
  isothermal : Bool
  soc0 : ℝ
  capacity : ℝ
  mass : ℝ
  cp : ℝ
  tInf : ℝ
  hTherm : ℝ
  aTherm : ℝ
  ocv : Nd ℝ → Except Err (Nd ℝ)
  r0 : Nd ℝ → Nd ℝ → Except Err (Nd ℝ)
  rs : List (Nd ℝ → Nd ℝ → Except Err (Nd ℝ))
  cs : List (Nd ℝ → Nd ℝ → Except Err (Nd ℝ))
  eta0 : List ℝ

/-- The last values of the solution: SOC, temperature and the overpotentials (moirae/models/thevenin/__init__.py:91-95). -/
structure Solution where
  soc : ℝ
  temp : ℝ
  eta : Nat → ℝ

/-- `model.run(exp)` for one constant-current step: the circuit, the current in Thevenin's sign convention and the duration
(moirae/models/thevenin/__init__.py:83-89; external). -/
abbrev Solver := Member → ℝ → ℝ → Except Err Solution

/-- The starting overpotentials (moirae/models/thevenin/__init__.py:63-64): one row of `eta`, broadcast by NumPy's assignment when it
has one entry; ValueError when the lengths do not fit. -/
def startEta (n : Nat) (eta : Nd ℝ) (b : Nat) : Except Err (List ℝ) :=
  let w := eta.shape.getD 1 0
  let i := b % Ecm.rows eta
  if n = 0 then .ok []
  else if w = n then .ok ((List.range n).map fun j => eta.get [i, j])
  else if w = 1 then .ok (List.replicate n (eta.get [i, 0]))
  else .error .valueError

/-- One round of `_make_models` (moirae/models/thevenin/__init__.py:37-66). -/
noncomputable def makeModel (iso : Bool) (st : State) (a : ASOH) (inp : Input) (b : Nat) : Except Err Member := do
  let eta0 ← startEta a.rcs.length st.eta b
  return {
    isothermal := iso
    soc0 := entry st.soc b
    capacity := entry a.capacity b
    mass := entry a.mass b
    cp := entry a.cp b
    tInf := entry inp.tInf b
    hTherm := entry a.hThermal b
    aTherm := entry a.aTherm b
    ocv := fun soc => a.ocv.call soc (some b)
    r0 := fun soc t => a.r0.call soc t (some b)
    rs := a.rcs.map fun p => fun soc t => p.1.call soc t (some b)
    cs := a.rcs.map fun p => fun soc t => p.2.call soc t (some b)
    eta0 := eta0 }

/-- Row `b` of `output_array` (moirae/models/thevenin/__init__.py:79-95): SOC, temperature, overpotentials; IndexError when the state
has fewer overpotentials than the circuit; zeros where it has more. -/
noncomputable def memberRow (solver : Solver) (iso : Bool) (prev new : Input) (st : State) (a : ASOH) (b : Nat) :
    Except Err (List ℝ) := do
  let m ← makeModel iso st a new b
  let sol ← solver m (-(entry new.current b)) (entry new.time b - entry prev.time b)
  if st.eta.shape.getD 1 0 < a.rcs.length then .error .indexError
  else return sol.soc :: sol.temp :: (List.range (st.eta.shape.getD 1 0)).map fun j => if j < a.rcs.length then sol.eta j else 0

/-- `transient_state.make_copy(output_array)` (moirae/models/thevenin/__init__.py:97, moirae/models/base.py:517-548). -/
def stateOfRows (w : Nat) (rows : List (List ℝ)) : State where
  soc := ⟨[rows.length, 1], fun idx => (rows.getD (idx.getD 0 0) []).getD 0 0⟩
  temp := ⟨[rows.length, 1], fun idx => (rows.getD (idx.getD 0 0) []).getD 1 0⟩
  eta := ⟨[rows.length, w], fun idx => (rows.getD (idx.getD 0 0) []).getD (2 + idx.getD 1 0) 0⟩

/-- `TheveninModel.update_transient_state` (moirae/models/thevenin/__init__.py:68-97).  The size of the batch is that of the
transient state, the health and the new inputs, not of the previous inputs. -/
noncomputable def update (solver : Solver) (iso : Bool) (prev new : Input) (st : State) (a : ASOH) : Except Err State := do
  let bt ← st.batchSize
  let ba ← a.batchSize
  let bi ← new.batchSize
  let rows ← (List.range (max (max bt ba) bi)).mapM (memberRow solver iso prev new st a)
  return stateOfRows (st.eta.shape.getD 1 0) rows

/-- `a.sum(axis=1)` of a 2D array (moirae/models/thevenin/__init__.py:110). -/
noncomputable def sum1 (a : Nd ℝ) : Nd ℝ :=
  ⟨[a.shape.getD 0 0], fun idx => ((List.range (a.shape.getD 1 0)).map fun j => a.get [idx.getD 0 0, j]).sum⟩

/-- `TheveninModel.calculate_terminal_voltage` (moirae/models/thevenin/__init__.py:99-112), followed by the `enforce_dimensions` of the
measurement's field. -/
noncomputable def voltage (new : Input) (st : State) (a : ASOH) : Except Err (Nd ℝ) := do
  let ocv ← a.ocv.call (col0 st.soc) none
  let r ← a.r0.call (col0 st.soc) (col0 st.temp) none
  let ir ← Ecm.mul (col0 new.current) r
  let v ← Ecm.add ocv ir
  let v ← Ecm.sub v (sum1 st.eta)
  Ecm.enforce0 v

end Verif.Thevenin
