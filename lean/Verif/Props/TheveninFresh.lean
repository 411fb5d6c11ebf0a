import Verif.Props.Thevenin
/-!
# Fresh states of Thevenin circuits (C94)

Property theorems for C94: circuits are checked when they are made, and the state made for a circuit fits it in every run.
-/

namespace Verif.Thevenin
open Verif Nd Finset

/-- Updating through a list of inputs, starting from the state `st` reached with inputs `prev`. -/
noncomputable def runs (solver : Solver) (iso : Bool) (a : ASOH) : Input → State → List Input → Except Err State
  | _, st, [] => .ok st
  | prev, st, new :: rest => do
    let st' ← update solver iso prev new st a
    runs solver iso a new st' rest

/-- C94.  A circuit can be made exactly when there is one resistor more than there are capacitors; else ValueError is raised. -/
theorem C94_made_iff (capacity mass cp hThermal aTherm : Nd ℝ) (ocv : PolySoc) (r c : List PolySocT) :
    ((∃ a, ASOH.make capacity mass cp hThermal aTherm ocv r c = .ok a) ↔ r.length = c.length + 1) ∧
    (r.length ≠ c.length + 1 → ASOH.make capacity mass cp hThermal aTherm ocv r c = .error .valueError) := by
  cases r with
  | nil => simp [ASOH.make]
  | cons r0 rs => by_cases h : rs.length = c.length <;> simp [ASOH.make, h]

/-- C94.  What a circuit is made of: the first resistor is the one in series, and RC element `j` has resistor `j + 1` and capacitor `j`;
there are as many RC elements as capacitors. -/
theorem C94_made_of (capacity mass cp hThermal aTherm : Nd ℝ) (ocv : PolySoc) (r c : List PolySocT) (a : ASOH)
    (h : ASOH.make capacity mass cp hThermal aTherm ocv r c = .ok a) :
    a.capacity = capacity ∧ a.mass = mass ∧ a.cp = cp ∧ a.hThermal = hThermal ∧ a.aTherm = aTherm ∧ a.ocv = ocv ∧
    r[0]? = some a.r0 ∧ a.numRc = c.length ∧ ∀ (j : Nat) (p : PolySocT × PolySocT), a.rcs[j]? = some p → r[j + 1]? = some p.1 ∧ c[j]? = some p.2 := by
  cases r with
  | nil => simp [ASOH.make] at h
  | cons r0 rs =>
    by_cases hl : rs.length = c.length
    · simp only [ASOH.make, hl, ne_eq, not_true_eq_false, if_false, Except.ok.injEq] at h
      subst h
      refine ⟨rfl, rfl, rfl, rfl, rfl, rfl, rfl, by simp [ASOH.numRc, hl], fun j p hp => ?_⟩
      rw [List.getElem?_zip_eq_some] at hp
      simpa using hp
    · simp [ASOH.make, hl] at h

theorem enforce0_num (x : ℝ) : ∃ y : Nd ℝ, Ecm.enforce0 (num x) = .ok y ∧ y.shape = [1, 1] ∧ y.get [0, 0] = x :=
  ⟨_, rfl, rfl, rfl⟩

/-- C94.  The state made for a circuit has the given SOC and temperature and, for every RC element of the circuit, one overpotential,
which is zero; it describes one cell. -/
theorem C94_fresh_state (a : ASOH) (soc temp : ℝ) :
    ∃ st, State.fromAsoh a (num soc) (num temp) = .ok st ∧ st.soc.shape = [1, 1] ∧ st.soc.get [0, 0] = soc ∧
      st.temp.shape = [1, 1] ∧ st.temp.get [0, 0] = temp ∧ st.eta.shape = [1, a.rcs.length] ∧
      (∀ j < a.rcs.length, st.eta.get [0, j] = 0) ∧ st.batchSize = .ok 1 :=
  ⟨_, rfl, rfl, rfl, rfl, rfl, rfl, fun _ _ => rfl, rfl⟩

/-- C94.  Before any current has flowed, the terminal voltage is the open-circuit voltage plus the drop over the series resistor – for any
number of RC elements – and so the open-circuit voltage at rest. -/
theorem C94_fresh_voltage (a : ASOH) (soc temp : ℝ) (st : State) (hst : State.fromAsoh a (num soc) (num temp) = .ok st) (new : Input)
    (hc : new.current.shape = [1, 1]) (d : Nat) (ho : a.ocv.coeffs.shape = [1, d]) (hd : 1 ≤ d) (d₂ d₃ : Nat)
    (h1 : a.r0.tRef.shape = [1, 1]) (h2 : a.r0.socCoeffs.shape = [1, d₂]) (h3 : a.r0.tCoeffs.shape = [1, d₃])
    (hd2 : 1 ≤ d₂) (hd3 : 1 ≤ d₃) :
    ∃ v, voltage new st a = .ok v ∧ v.shape = [1, 1] ∧
      v.get [0, 0] = polynomial d (fun i => a.ocv.coeffs.get [0, i]) soc +
        new.current.get [0, 0] *
          (polynomial d₃ (fun i => a.r0.tCoeffs.get [0, i]) (temp - a.r0.tRef.get [0, 0]) +
           polynomial d₂ (fun i => a.r0.socCoeffs.get [0, i]) soc) ∧
      (new.current.get [0, 0] = 0 → v.get [0, 0] = polynomial d (fun i => a.ocv.coeffs.get [0, i]) soc) := by
  obtain ⟨st', e, s1, s2, t1, t2, f1, f2, -⟩ := C94_fresh_state a soc temp
  rw [hst] at e
  obtain rfl : st = st' := by simpa using e
  have one : Dim 1 1 := Or.inl rfl
  obtain ⟨v, n, v1, v2, v3, v4⟩ := C38_voltage 1 new st a 1 1 1 1 _ hc s1 t1 f1 one one one one 1 d ho hd one 1 1 1 d₂ d₃ h1 h2 h3 hd2
    hd3 one one one
  obtain rfl : n = 1 := by rcases v3 with h | h <;> exact h
  have := v4 0 (by omega)
  simp only [clip, if_true] at this
  rw [s2, t2, Finset.sum_eq_zero (fun j hj => f2 j (by simpa using hj)), sub_zero] at this
  refine ⟨v, v1, v2, this, fun h0 => ?_⟩
  rw [this, h0, zero_mul, add_zero]

/-- A state whose overpotentials are those of the circuit. -/
def State.Fits (st : State) (a : ASOH) : Prop :=
  ∃ n, 1 ≤ n ∧ st.batchSize = .ok n ∧ st.eta.shape.getD 1 0 = a.rcs.length

theorem memberRow_fits (solver : Solver) (iso : Bool) (prev new : Input) {st : State} {a : ASOH}
    (hw : st.eta.shape.getD 1 0 = a.rcs.length) (b : Nat) :
    (∃ r, memberRow solver iso prev new st a b = .ok r) ∨
      ∃ m i dt e, memberRow solver iso prev new st a b = .error e ∧ solver m i dt = .error e := by
  have hs : ∃ l, startEta a.rcs.length st.eta b = .ok l := by
    unfold startEta
    simp only [hw]
    by_cases h0 : a.rcs.length = 0 <;> simp [h0]
  obtain ⟨l, hl⟩ := hs
  have hm : ∃ m, makeModel iso st a new b = .ok m := by
    unfold makeModel
    rw [hl]
    exact ⟨_, rfl⟩
  obtain ⟨m, hm⟩ := hm
  have e : memberRow solver iso prev new st a b = (do
      let sol ← solver m (-(entry new.current b)) (entry new.time b - entry prev.time b)
      if st.eta.shape.getD 1 0 < a.rcs.length then .error .indexError
      else return sol.soc :: sol.temp :: (List.range (st.eta.shape.getD 1 0)).map fun j => if j < a.rcs.length then sol.eta j else 0) := by
    unfold memberRow
    rw [hm]
    rfl
  rw [e]
  cases hsol : solver m (-(entry new.current b)) (entry new.time b - entry prev.time b) with
  | error x => exact .inr ⟨m, _, _, x, rfl, hsol⟩
  | ok sol =>
    left
    simp only [hw, lt_irrefl, if_false]
    exact ⟨_, rfl⟩

theorem mapM_ok_or {α β : Type} {f : α → Except Err β} {P : Err → Prop} (h : ∀ x, (∃ y, f x = .ok y) ∨ ∃ e, f x = .error e ∧ P e) :
    ∀ l : List α, (∃ ys, l.mapM f = .ok ys ∧ ys.length = l.length) ∨ ∃ e, l.mapM f = .error e ∧ P e
  | [] => .inl ⟨[], rfl, rfl⟩
  | x :: l => by
    rw [List.mapM_cons]
    rcases h x with ⟨y, hy⟩ | ⟨e, he, hP⟩
    · rw [hy]
      rcases mapM_ok_or h l with ⟨ys, hys, hl⟩ | ⟨e, he, hP⟩
      · exact .inl ⟨y :: ys, by rw [hys]; rfl, by simp [hl]⟩
      · exact .inr ⟨e, by rw [he]; rfl, hP⟩
    · exact .inr ⟨e, by rw [he]; rfl, hP⟩

theorem update_fits (solver : Solver) (iso : Bool) (prev new : Input) {st : State} {a : ASOH} (hf : st.Fits a)
    (ha : ∃ b, a.batchSize = .ok b) (hn : ∃ b, new.batchSize = .ok b) :
    (∃ st', update solver iso prev new st a = .ok st' ∧ st'.Fits a) ∨
      ∃ m i dt e, update solver iso prev new st a = .error e ∧ solver m i dt = .error e := by
  obtain ⟨n, hn1, hb, hw⟩ := hf
  obtain ⟨ba, ha⟩ := ha
  obtain ⟨bi, hn⟩ := hn
  rw [update_eq solver iso hb ha hn]
  rcases mapM_ok_or (f := memberRow solver iso prev new st a) (P := fun e => ∃ m i dt, solver m i dt = .error e)
    (fun b => (memberRow_fits solver iso prev new hw b).imp id fun ⟨m, i, dt, e, h1, h2⟩ => ⟨e, h1, m, i, dt, h2⟩)
    (List.range (max (max n ba) bi)) with ⟨ys, hys, hl⟩ | ⟨e, he, m, i, dt, h⟩
  · left
    rw [List.length_range] at hl
    refine ⟨stateOfRows (st.eta.shape.getD 1 0) ys, by rw [hys]; rfl, max (max n ba) bi, by omega, ?_, hw⟩
    have h1 : 1 ≤ ys.length := by omega
    show batchLoop 1 [ys.length, ys.length, ys.length] = _
    rw [← hl]
    simp only [batchLoop, gt_iff_lt, Nat.lt_irrefl, false_and, if_false, Nat.max_eq_right h1, ne_eq, not_true_eq_false, and_false,
      Nat.max_self]
  · exact .inr ⟨m, i, dt, e, by rw [he]; rfl, h⟩

/-- C94.  A run of any length from the fresh state of a circuit, with any solver, never fails for want of matching sizes: it succeeds,
with one overpotential for each RC element in the final state, or it fails with an error of the solver.  (The batch sizes of the health
and of each of the inputs are assumed to be defined.) -/
theorem C94_runs (solver : Solver) (iso : Bool) (a : ASOH) (ha : ∃ b, a.batchSize = .ok b) (soc temp : ℝ) (st : State)
    (hst : State.fromAsoh a (num soc) (num temp) = .ok st) (prev : Input) (ins : List Input)
    (hins : ∀ i ∈ ins, ∃ b, i.batchSize = .ok b) :
    (∃ st' n, runs solver iso a prev st ins = .ok st' ∧ 1 ≤ n ∧ st'.soc.shape = [n, 1] ∧ st'.temp.shape = [n, 1] ∧
      st'.eta.shape = [n, a.rcs.length]) ∨
    ∃ m i dt e, runs solver iso a prev st ins = .error e ∧ solver m i dt = .error e := by
  obtain ⟨st0, e, s1, -, t1, -, f1, -, hb⟩ := C94_fresh_state a soc temp
  rw [hst] at e
  obtain rfl : st = st0 := by simpa using e
  have key : ∀ (ins : List Input) (prev : Input) (st : State), (∀ i ∈ ins, ∃ b, i.batchSize = .ok b) → st.Fits a →
      (∃ n, 1 ≤ n ∧ st.soc.shape = [n, 1] ∧ st.temp.shape = [n, 1] ∧ st.eta.shape = [n, a.rcs.length]) →
      (∃ st' n, runs solver iso a prev st ins = .ok st' ∧ 1 ≤ n ∧ st'.soc.shape = [n, 1] ∧ st'.temp.shape = [n, 1] ∧
        st'.eta.shape = [n, a.rcs.length]) ∨
      ∃ m i dt e, runs solver iso a prev st ins = .error e ∧ solver m i dt = .error e := by
    intro ins
    induction ins with
    | nil =>
      rintro prev st - - ⟨n, h⟩
      exact .inl ⟨st, n, rfl, h⟩
    | cons new rest ih =>
      intro prev st hi hf _
      have e : runs solver iso a prev st (new :: rest) = (do
        let st' ← update solver iso prev new st a
        runs solver iso a new st' rest) := rfl
      rw [e]
      rcases update_fits solver iso prev new hf ha (hi new (by simp)) with ⟨st', hu, hf'⟩ | ⟨m, i, dt, x, hx, hs⟩
      · rw [hu]
        refine ih new st' (fun i h => hi i (by simp [h])) hf' ?_
        obtain ⟨n, hn, hb, hw⟩ := hf
        obtain ⟨ba, ha⟩ := ha
        obtain ⟨bi, hni⟩ := hi new (by simp)
        rw [update_eq solver iso hb ha hni] at hu
        cases hr : (List.range (max (max n ba) bi)).mapM (memberRow solver iso prev new st a) with
        | error x => rw [hr] at hu; simp [bind, Except.bind] at hu
        | ok ys =>
          rw [hr] at hu
          obtain rfl : stateOfRows (st.eta.shape.getD 1 0) ys = st' := by simpa [bind, Except.bind, pure, Except.pure] using hu
          have hl : ys.length = max (max n ba) bi := by
            rcases mapM_ok_or (f := memberRow solver iso prev new st a) (P := fun _ => True)
              (fun b => by cases h : memberRow solver iso prev new st a b <;> simp) (List.range (max (max n ba) bi)) with
              ⟨ys', h1, h2⟩ | ⟨e, h1, -⟩
            · rw [hr] at h1
              obtain rfl : ys = ys' := by simpa using h1
              simpa using h2
            · rw [hr] at h1; simp at h1
          exact ⟨ys.length, by omega, rfl, rfl, by simp only [stateOfRows, hw]⟩
      · exact .inr ⟨m, i, dt, x, by rw [hx]; rfl, hs⟩
  exact key ins prev st hins ⟨1, le_rfl, hb, by simp [f1]⟩ ⟨1, le_rfl, s1, t1, f1⟩

/-! ## The theorems at work -/

/-- A circuit with one RC element: the second resistor and the only capacitor. -/
example : ∃ a, ASOH.make (num2 1) (num2 1) (num2 1) (num2 1) (num2 1) ⟨num2 3⟩ [⟨num2 25, num2 1, num2 0⟩, ⟨num2 25, num2 2, num2 0⟩]
    [⟨num2 25, num2 7, num2 0⟩] = .ok a ∧ a.r0.socCoeffs.get [0, 0] = 1 ∧
    a.rcs[0]? = some (⟨num2 25, num2 2, num2 0⟩, ⟨num2 25, num2 7, num2 0⟩) :=
  ⟨_, rfl, rfl, rfl⟩

/-- Two resistors without a capacitor are refused. -/
example : ¬∃ a, ASOH.make (num2 1) (num2 1) (num2 1) (num2 1) (num2 1) ⟨num2 3⟩ [⟨num2 25, num2 1, num2 0⟩, ⟨num2 25, num2 2, num2 0⟩]
    [] = .ok a := by
  rw [(C94_made_iff ..).1]
  decide

/-- The circuit with one RC element starts, at rest, from its open-circuit voltage 3 and runs through any inputs of one cell. -/
example : ∃ (a : ASOH) (st : State), a.rcs.length = 1 ∧ State.fromAsoh a (num (1 / 2)) (num 298) = .ok st ∧
    (∃ v, voltage ⟨num2 0, num2 0, num2 298⟩ st a = .ok v ∧ v.get [0, 0] = 3) ∧
    ∀ ins : List Input, (∀ i ∈ ins, i.batchSize = .ok 1) →
      ∃ st', runs (fun m i dt => .ok ⟨m.soc0 + i * dt, 298, fun _ => i⟩) true a ⟨num2 0, num2 0, num2 298⟩ st ins = .ok st' ∧
        st'.eta.shape.getD 1 0 = 1 := by
  let p : PolySocT := ⟨num2 25, num2 1, num2 0⟩
  let a : ASOH := ⟨num2 1, num2 1, num2 1, num2 1, num2 1, ⟨num2 3⟩, p, [(p, p)]⟩
  obtain ⟨st, h, -⟩ := C94_fresh_state a (1 / 2) 298
  refine ⟨a, st, rfl, h, ?_, fun ins hins => ?_⟩
  · obtain ⟨v, h1, -, -, h4⟩ := C94_fresh_voltage a (1 / 2) 298 st h ⟨num2 0, num2 0, num2 298⟩ rfl 1 rfl le_rfl 1 1 rfl rfl rfl le_rfl
      le_rfl
    exact ⟨v, h1, by rw [h4 rfl]; simp [polynomial, a, num2]⟩
  · rcases C94_runs (fun m i dt => .ok ⟨m.soc0 + i * dt, 298, fun _ => i⟩) true a
      ⟨1, by simp [a, p, ASOH.batchSize, PolySocT.rowCounts, Ecm.rows, num2, batchLoop]⟩ (1 / 2) 298 st h
      ⟨num2 0, num2 0, num2 298⟩ ins (fun i hi => ⟨1, hins i hi⟩) with ⟨st', n, h1, -, -, -, h2⟩ | ⟨m, i, dt, e, -, h⟩
    · exact ⟨st', h1, by simp [h2, a]⟩
    · simp at h

end Verif.Thevenin
