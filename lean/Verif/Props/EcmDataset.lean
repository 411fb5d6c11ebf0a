import Verif.Props.EcmSimulate
import Verif.Props.SimulatorFrame
import Verif.Props.EcmPipeline
/-!
# C123: the dataset of a simulated cell
-/

namespace Verif
open Ecm Cell Spec

/-! ## Specification -/

/-- The columns of the dataset of a circuit with `n` RC elements, with or without temperatures and a series capacitor. -/
def Spec.circuitColumns (measured series : Bool) (n : Nat) : List Name :=
  ["test_time".toList, "current".toList] ++ (if measured then ["temperature".toList] else []) ++
    ["soc".toList] ++ (if series then ["q0".toList] else []) ++ Spec.labels "i_rc".toList n ++ ["hyst".toList] ++ ["voltage".toList]

/-- Its rows: for the first input and every later one, the input, the state of the cell after it, and the voltage. -/
noncomputable def Spec.circuitRows (beh : Behavior) (p : Par) (measured series : Bool) (u : Fin (2 + (if measured then 1 else 0)) → ℝ)
    (us : List (Fin (2 + (if measured then 1 else 0)) → ℝ)) {N : Nat} (y : Fin N → ℝ) : List (List (Option ℝ)) :=
  List.zipWith (fun u t => (List.ofFn u ++ List.ofFn t.1 ++ List.ofFn t.2).map some) (u :: us)
    ((y, cellVolt p series (In.ofVec measured (List.ofFn u)) y) ::
      cellRun beh p series (In.ofVec measured (List.ofFn u)) y (us.map fun u => In.ofVec measured (List.ofFn u)))

/-! ## Proofs -/

variable {beh : Behavior} {x : Fixed} {measured series : Bool} {a : ASOH}

theorem held_names {c d : Container ℝ} (h : SameLayout c d) :
    (held c).map (fun p => (p.1, p.2.ncol)) = (held d).map fun p => (p.1, p.2.ncol) := by
  have key : ∀ l : List (Name × Option (Arr2 ℝ)), (held ⟨l⟩).map (fun p => (p.1, p.2.ncol)) =
      (l.map fun p => (p.1, p.2.map Arr2.ncol)).filterMap fun p => p.2.map (p.1, ·) := by
    intro l
    induction l with
    | nil => rfl
    | cons p l ih =>
      obtain ⟨k, _ | v⟩ := p
      · exact ih
      · exact congrArg ((k, v.ncol) :: ·) ih
  rw [show c = ⟨c.fields⟩ from rfl, show d = ⟨d.fields⟩ from rfl, key, key, show c.fields.map _ = d.fields.map _ from h]

theorem columns_layout {c d : Container ℝ} (h : SameLayout c d) : columns c = columns d := by
  have key : ∀ c : Container ℝ, columns c = ((held c).map fun p => (p.1, p.2.ncol)).flatMap fun q => labels q.1 q.2 := by
    intro c; rw [columns, List.flatMap_map]
  rw [key, key, held_names h]

theorem circuitInput_wf {c : Container ℝ} (h : SameLayout c (circuitInput measured)) : c.WF := by
  have h1 : c.fields.map (·.1) = (circuitInput measured).fields.map (·.1) := by
    have := congrArg (List.map Prod.fst) h
    simpa only [List.map_map, Function.comp_def] using this
  have h2 : (circuitInput measured).fields.map (·.1) = [kTime, kCurrent, kTemp] := by cases measured <;> rfl
  refine ⟨by rw [h1, h2]; decide, fun k f hk => ?_⟩
  have : k ∈ c.fields.map (·.1) := List.mem_map.2 ⟨_, hk, rfl⟩
  rw [h1, h2] at this
  revert k
  simp only [List.mem_cons, List.not_mem_nil, or_false]
  rintro k - (rfl | rfl | rfl) <;> decide

theorem held_some {c d : Container ℝ} (h : SameLayout c d) (hd : held d ≠ []) : held c ≠ [] := fun h0 => hd <| by
  have := held_names h
  rw [h0] at this
  exact List.map_eq_nil_iff.1 this.symm

theorem cellRow_single {c : Container ℝ} (hs : c.Single) {l : List ℝ} (h : c.toNumpy = .ok (.ofRow l)) (hne : held c ≠ []) : cellRow c 0 = l := by
  obtain ⟨v, h1, -, h2⟩ := squishOne_ok le_rfl hne fun p hp => .inl (hs p hp)
  unfold squishOne at h1
  rw [hs.batchSize, h] at h1
  cases h1
  simpa [Arr2.ofRow] using h2.symm

/-- Containers of one layout with single values make a regular history. -/
theorem regular_of {d : Container ℝ} {l : List (Container ℝ)} (hne : held d ≠ []) (h : ∀ c ∈ l, SameLayout c d ∧ c.WF ∧ c.Single) : Regular 1 l :=
  ⟨fun c hc => (h c hc).2.1, fun c hc => held_some (h c hc).1 hne, fun c hc p hp => .inl ((h c hc).2.2 p hp),
    fun c hc e he => (held_names (h c hc).1).trans (held_names (h e he).1).symm⟩

theorem input_cells {c : Container ℝ} {u : Fin (2 + (if measured then 1 else 0)) → ℝ} (h : HoldsInput c measured u) : cellRow c 0 = List.ofFn u :=
  cellRow_single h.single h.value (held_some h.layout (by cases measured <;> simp [circuitInput, held]))

theorem state_cells {n : Nat} {c : Container ℝ} {N : Nat} {y : Fin N → ℝ} (h : HoldsTransients c series n y) : cellRow c 0 = List.ofFn y :=
  cellRow_single h.single h.value (held_some h.layout (by cases series <;> simp [circuitState, held]))

theorem forall2_mem {α β : Type} {R : α → β → Prop} {l : List α} {k : List β} (h : List.Forall₂ R l k) {a : α} (ha : a ∈ l) : ∃ b, R a b := by
  induction h with
  | nil => cases ha
  | cons hr _ ih =>
    rcases List.mem_cons.1 ha with rfl | ha
    · exact ⟨_, hr⟩
    · exact ih ha

theorem voltageOf_single (V : ℝ) : (voltageOf V).Single := by
  intro q hq
  have hq : q ∈ [("terminal_voltage".toList, Arr2.ofRow [V])] := hq
  rw [List.mem_singleton] at hq
  rw [hq]; rfl

theorem voltageOf_wf (V : ℝ) : (voltageOf V).WF := by
  refine ⟨by simp [voltageOf], fun k f hk => ?_⟩
  simp only [voltageOf, List.mem_singleton, Prod.mk.injEq] at hk
  rw [hk.1]; decide

theorem datasetColumn_irc (n : Nat) : (labels "i_rc".toList n).map datasetColumn = labels "i_rc".toList n := by
  unfold labels
  split
  · rfl
  · rw [List.map_map]
    exact List.map_congr_left fun i _ => rfl

theorem columns_circuit {c tr : Container ℝ} {V : ℝ} {n : Nat} (hc : SameLayout c (circuitInput measured)) (ht : SameLayout tr (circuitState series n)) :
    (columns c ++ columns tr ++ columns (voltageOf V)).map datasetColumn = circuitColumns measured series n := by
  have e : columns (circuitState series n) = ["soc".toList] ++ (if series then ["q0".toList] else []) ++ labels "i_rc".toList n ++ ["hyst".toList] := by
    have : (Arr2.ofRow (List.replicate n (0 : ℝ))).ncol = n := by simp [Arr2.ofRow]
    cases series <;> simp [columns, circuitState, held, this] <;> rfl
  rw [columns_layout hc, columns_layout ht, e]
  simp only [List.map_append, datasetColumn_irc, circuitColumns]
  cases measured <;> cases series <;> simp <;> rfl

/-- C123: a simulator of one circuit is built, simulates inputs of the right form (under linear behaviour with changing times), and its dataset has a row for
the initial state and for every input, in this order, with the input, the state of the cell and its voltage, under the documented names. -/
theorem C123_dataset {m : HV ℝ} (hm : HoldsCircuit x m a) (he : Estimable [] measured series a) {N : Nat} {y : Fin N → ℝ} {tr c : Container ℝ}
    (ht : HoldsTransients tr series a.rcs.length y) {u : Fin (2 + (if measured then 1 else 0)) → ℝ} (hc : HoldsInput c measured u)
    {cs : List (Container ℝ)} {us : List (Fin (2 + (if measured then 1 else 0)) → ℝ)} (hcs : List.Forall₂ (HoldsInput · measured ·) cs us)
    (hmoves : beh = .linear → ((u :: us).map fun u => (In.ofVec measured (List.ofFn u)).time).IsChain (· ≠ ·)) :
    ∃ s s' ys, Simulator.init (Ecm.cell beh x) (NoDegradation _ _ _ _) m tr c true = .ok s ∧ s.evolve cs = (s', .ok ys) ∧
      s'.toBatdata = .ok [(circuitColumns measured series a.rcs.length,
        circuitRows beh (parAt a 0) measured series u us y)] := by
  have hY := circuit_shows (beh := beh) hm he ht hc
  generalize hY0 : voltageOf _ = Y at hY
  obtain ⟨s', xs, ys, h1, h2, h3, h4, h5, h6⟩ := C115_single (beh := beh) (x := x)
    (s := ⟨Ecm.cell beh x, NoDegradation _ _ _ _, m, tr, c, Y, some ⟨[c], [tr], [m], [Y]⟩⟩) ⟨rfl, rfl, hm, hc, ht⟩ he hcs hmoves
  refine ⟨_, s', ys, by simp only [Simulator.init, hY]; rfl, h1, ?_⟩
  have hl : cs.length = us.length := hcs.length_eq
  have hin : List.Forall₂ (HoldsInput · measured ·) (c :: cs) (u :: us) := .cons hc hcs
  have hrun : List.Forall₂ (fun r t => HoldsTransients r.1 series a.rcs.length t.1 ∧ r.2 = voltageOf (t.2 0)) ((tr :: xs).zip (Y :: ys))
      ((y, cellVolt (parAt a 0) series (In.ofVec measured (List.ofFn u)) y) :: _) := .cons ⟨ht, hY0.symm⟩ h2
  have hst : ∀ t ∈ tr :: xs, SameLayout t (circuitState series a.rcs.length) ∧ t.WF ∧ t.Single := by
    intro t hmem
    rw [← List.map_fst_zip (l₁ := tr :: xs) (l₂ := Y :: ys) (by simp [h3, h4])] at hmem
    obtain ⟨r, hr, rfl⟩ := List.mem_map.1 hmem
    obtain ⟨t, hr⟩ := forall2_mem hrun hr
    exact ⟨hr.1.layout, circuitState_wf hr.1.layout, hr.1.single⟩
  have hys : ∀ v ∈ Y :: ys, ∃ V, v = voltageOf V := by
    intro t hmem
    rw [← List.map_snd_zip (l₁ := tr :: xs) (l₂ := Y :: ys) (by simp [h3, h4])] at hmem
    obtain ⟨r, hr, rfl⟩ := List.mem_map.1 hmem
    obtain ⟨t, hr⟩ := forall2_mem hrun hr
    exact ⟨_, hr.2⟩
  have hreg : RegularHistory s' ⟨c :: cs, tr :: xs, m :: List.replicate cs.length m, Y :: ys⟩ 1 (cs.length + 1) := by
    refine ⟨h6, ?_, le_rfl, regular_of (d := circuitInput measured) (by cases measured <;> simp [circuitInput, held]) fun e he => ?_,
      regular_of (by cases series <;> simp [circuitState, held]) hst, regular_of (d := voltageOf 0) (by simp [voltageOf, held]) fun v hv => ?_,
      rfl, congrArg Nat.succ h3, congrArg Nat.succ h4⟩
    · have : s'.measurement ∈ Y :: ys := by
        rw [h5]; exact List.getLastD_mem_cons
      obtain ⟨V, hV⟩ := hys _ this
      rw [hV]; exact (voltageOf_single V).batchSize
    · obtain ⟨u, hu⟩ := forall2_mem hin he
      exact ⟨hu.layout, circuitInput_wf hu.layout, hu.single⟩
    · obtain ⟨V, rfl⟩ := hys v hv
      exact ⟨rfl, voltageOf_wf V, voltageOf_single V⟩
  obtain ⟨rows, r1, r2, r3⟩ := C42_batdata_single_cell_partial s' _ _ hreg c tr _ rfl rfl rfl
  rw [r1, ← hY0, columns_circuit hc.layout ht.layout]
  refine congrArg (fun r => Except.ok [(_, r)]) (List.ext_getElem? fun k => ?_)
  by_cases hk : k < cs.length + 1
  · obtain ⟨l1, e1⟩ := List.forall₂_iff_get.1 hin
    obtain ⟨l2, e2⟩ := List.forall₂_iff_get.1 hrun
    have lz : ((tr :: xs).zip (Y :: ys)).length = cs.length + 1 := by simp [h3, h4]
    rw [lz] at l2
    have g1 := e1 k hk (l1 ▸ hk)
    have g2 := e2 k (lz ▸ hk) (l2 ▸ hk)
    have kx : k < (tr :: xs).length := by simp [h3]; omega
    have ky : k < (Y :: ys).length := by simp [h4]; omega
    rw [r3 k _ _ _ (List.getElem?_eq_getElem hk) (List.getElem?_eq_getElem kx) (List.getElem?_eq_getElem ky)]
    simp only [List.get_eq_getElem, List.getElem_zip] at g1 g2
    rw [circuitRows, List.getElem?_zipWith, List.getElem?_eq_getElem (l1 ▸ hk), List.getElem?_eq_getElem (l2 ▸ hk)]
    simp only
    rw [input_cells g1, state_cells g2.1, g2.2, cellRow_single (voltageOf_single _) (voltageOf_toNumpy _) (by simp [voltageOf, held])]
  · have l2 := hrun.length_eq
    simp [h3, h4] at l2
    rw [List.getElem?_eq_none (by omega), List.getElem?_eq_none]
    simp [circuitRows, ← l2, ← hl]; omega

/-! ## Example -/

-- The dataset of the concrete circuit over every sequence of times, currents and temperatures in which the time always changes.
example (beh : Behavior) (us : List (Fin 3 → ℝ)) (ht : (0 :: us.map (· 0)).IsChain (· ≠ ·)) :
    ∃ s s' ys, Simulator.init (Ecm.cell beh Demo.fixed) (NoDegradation _ _ _ _) (Demo.hvUpdating [] []) Demo.hvState Demo.hvInput true = .ok s ∧
      s.evolve (Demo.inputs us) = (s', .ok ys) ∧ s'.toBatdata = .ok [(["test_time", "current", "temperature", "soc", "i_rc", "hyst", "voltage"].map (·.toList),
        circuitRows beh (parAt Demo.arrays 0) true false ![0, 1, 30] us ![0.5, 0, 0])] :=
  have ei : ∀ u : Fin 3 → ℝ, In.ofVec true (List.ofFn u) = ⟨u 0, u 1, some (u 2)⟩ := fun u => by simp [In.ofVec, List.ofFn_succ]
  C123_dataset (Demo.hv_holds [] []) (estimable_nil (Demo.estimating_estimable beh .identity)) Demo.state_holds Demo.input_holds (Demo.inputs_hold us)
    fun _ => by simp only [ei, List.map_cons]; exact ht

end Verif
