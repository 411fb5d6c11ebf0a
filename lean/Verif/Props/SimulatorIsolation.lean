import Verif.Model.SimulatorHeap
import Mathlib.Data.List.Nodup
/-!
# The simulator and its caller's objects (C41)
-/

namespace Verif.SimObjects
open Verif
variable {I X A Y : Type}

/-! ## Specification -/

/-- The values of the inputs given to the calls of `step`, each as it was at the time of the call; `vals` are the values of the
caller's input objects. -/
def given : List I → List (Op I X A Y) → List I
  | _, [] => []
  | vals, .newInput v :: ops => given (vals ++ [v]) ops
  | vals, .setInput k v :: ops => given (vals.set k v) ops
  | vals, .step k :: ops => (vals[k]?).toList ++ given vals ops
  | vals, _ :: ops => given vals ops

/-- A simulator whose objects nobody else can touch, stepped once for each input whether or not steps raise: its final state and the
outcomes. -/
def undisturbed (s : Simulator I X A Y) : List I → Simulator I X A Y × List (Except Err (X × Y))
  | [] => (s, [])
  | i :: is => ((undisturbed (s.step i).1 is).1, (s.step i).2 :: (undisturbed (s.step i).1 is).2)

/-- The operation changes a transient state that `step` returned. -/
def Op.touchesReturnedTransient : Op I X A Y → Prop
  | .setReturnedTransient _ _ => True
  | _ => False

/-- The operation changes a measurement that `step` returned. -/
def Op.touchesReturnedMeasurement : Op I X A Y → Prop
  | .setReturnedMeasurement _ _ => True
  | _ => False

/-! ## Objects -/

namespace Store
variable {α : Type}

theorem alloc_fst (s : Store α) (v : α) : (s.alloc v).1 = s.next := rfl
theorem alloc_next (s : Store α) (v : α) : (s.alloc v).2.next = s.next + 1 := rfl
theorem alloc_new (s : Store α) (v : α) : (s.alloc v).2.val s.next = v := by simp [alloc]
theorem alloc_old (s : Store α) (v : α) {l : Nat} (h : l < s.next) : (s.alloc v).2.val l = s.val l := by
  simp [alloc, Nat.ne_of_lt h]
theorem write_next (s : Store α) (l : Nat) (v : α) : (s.write l v).next = s.next := rfl
theorem write_other (s : Store α) {l k : Nat} (v : α) (h : k ≠ l) : (s.write l v).val k = s.val k := by simp [write, h]
theorem write_same (s : Store α) (l : Nat) (v : α) : (s.write l v).val l = v := by simp [write]

end Store

/-- References and the values behind them; none of them is in `foreign`, all are in use. -/
structure Holds {α : Type} (s : Store α) (foreign : List Nat) (refs : List Nat) (vals : List α) : Prop where
  val : refs.map s.val = vals
  lt : ∀ l ∈ refs, l < s.next
  sep : ∀ l ∈ refs, l ∉ foreign

namespace Holds
variable {α : Type} {s : Store α} {f refs : List Nat} {vals : List α}

theorem alloc (h : Holds s f refs vals) (v : α) : Holds (s.alloc v).2 f refs vals := by
  refine ⟨?_, fun l hl => Nat.lt_succ_of_lt (h.lt l hl), h.sep⟩
  rw [← h.val]
  exact List.map_congr_left fun l hl => s.alloc_old v (h.lt l hl)

theorem write (h : Holds s f refs vals) {l : Nat} (v : α) (hl : l ∈ f) : Holds (s.write l v) f refs vals := by
  refine ⟨?_, fun k hk => h.lt k hk, h.sep⟩
  rw [← h.val]
  exact List.map_congr_left fun k hk => s.write_other v fun e => h.sep k hk (e ▸ hl)

theorem new (h : Holds s f refs vals) (v : α) (hf : ∀ l ∈ f, l < s.next) :
    Holds (s.alloc v).2 f (refs ++ [s.next]) (vals ++ [v]) := by
  have h' := h.alloc v
  refine ⟨by rw [List.map_append, h'.val]; simp [Store.alloc_new], ?_, ?_⟩
  · intro l hl
    rcases List.mem_append.1 hl with hl | hl
    · exact h'.lt l hl
    · rw [List.mem_singleton.1 hl]; exact Nat.lt_succ_self _
  · intro l hl
    rcases List.mem_append.1 hl with hl | hl
    · exact h.sep l hl
    · rw [List.mem_singleton.1 hl]; exact fun hm => Nat.lt_irrefl _ (hf _ hm)

theorem one {l : Nat} {v : α} (h : Holds s f [l] [v]) : s.val l = v := by simpa using h.val

/-- A new foreign object. -/
theorem foreign (h : Holds s f refs vals) {l : Nat} (hl : s.next ≤ l) : Holds s (f ++ [l]) refs vals := by
  refine ⟨h.val, h.lt, fun k hk hm => ?_⟩
  rcases List.mem_append.1 hm with hm | hm
  · exact h.sep k hk hm
  · exact absurd (h.lt k hk) (by rw [List.mem_singleton.1 hm]; omega)

theorem nil (s : Store α) (f : List Nat) : Holds s f [] [] := ⟨rfl, by simp, by simp⟩

theorem fresh (s : Store α) (f : List Nat) (v : α) (hf : ∀ l ∈ f, l < s.next) :
    Holds (s.alloc v).2 f [s.next] [v] := by
  simpa using (nil s f).new v hf

end Holds

/-- The history as references and as values. -/
def HistoryHolds (w : Heap I X A Y) (c : Caller) (readMeasurements : Bool) :
    Option (History Nat Nat Nat Nat) → Option (History I X A Y) → Prop
  | none, none => True
  | some t, some v =>
    Holds w.inputs c.inputs t.inputs v.inputs ∧ Holds w.transients [c.transient] t.transients v.transients ∧
      Holds w.asohs [c.asoh] t.asohs v.asohs ∧
      (∀ l ∈ t.measurements, l < w.measurements.next) ∧
      (readMeasurements = true → t.measurements.map w.measurements.val = v.measurements)
  | _, _ => False

/-- The simulator with references behaves as the simulator `v` with values; what it reads is out of the caller's reach, but for the
transient state. -/
structure Agrees (w : World I X A Y) (readMeasurements : Bool) (v : Simulator I X A Y) (vals : List I) : Prop where
  model : w.sim.model = v.model
  degradation : w.sim.degradation = v.degradation
  input : Holds w.heap.inputs w.caller.inputs [w.sim.input] [v.input]
  transient : Holds w.heap.transients [w.caller.transient] [w.sim.transient] [v.transient]
  asoh : Holds w.heap.asohs [w.caller.asoh] [w.sim.asoh] [v.asoh]
  measurement : Holds w.heap.measurements w.caller.gotMeasurements [w.sim.measurement] [v.measurement]
  history : HistoryHolds w.heap w.caller readMeasurements w.sim.history v.history
  callerVals : w.caller.inputs.map w.heap.inputs.val = vals
  callerInputs : ∀ l ∈ w.caller.inputs, l < w.heap.inputs.next
  callerNodup : w.caller.inputs.Nodup
  callerTransient : w.caller.transient < w.heap.transients.next
  callerAsoh : w.caller.asoh < w.heap.asohs.next
  callerMeasurements : ∀ l ∈ w.caller.gotMeasurements, l < w.heap.measurements.next

theorem map_write_set {α : Type} (s : Store α) (refs : List Nat) (hn : refs.Nodup) (k l : Nat) (v : α)
    (h : refs[k]? = some l) : refs.map (s.write l v).val = (refs.map s.val).set k v := by
  apply List.ext_getElem?
  intro j
  rw [List.getElem?_set, List.getElem?_map, List.getElem?_map]
  by_cases hkj : k = j
  · subst hkj
    have hlt : k < refs.length := (List.getElem?_eq_some_iff.1 h).1
    rw [h]
    simp [Store.write_same, hlt]
  · rcases hj : refs[j]? with _ | r
    · simp [hkj]
    · have : r ≠ l := by
        rintro rfl
        obtain ⟨hk', ek⟩ := List.getElem?_eq_some_iff.1 h
        obtain ⟨hj', ej⟩ := List.getElem?_eq_some_iff.1 hj
        exact hkj ((hn.getElem_inj_iff).1 (ek.trans ej.symm))
      simp [hkj, Store.write_other s v this]

/-- A step with references is the step with values. -/
theorem step_agrees {w : World I X A Y} {rm : Bool} {v : Simulator I X A Y} {vals : List I} (ha : Agrees w rm v vals)
    {k l : Nat} {iv : I} (hl : w.caller.inputs[k]? = some l) (hv : vals[k]? = some iv) :
    Agrees (act w (.step k)) rm (v.step iv).1 vals ∧ (act w (.step k)).seen = w.seen ++ [(v.step iv).2] := by
  have hmem : l ∈ w.caller.inputs := List.mem_of_getElem? hl
  have hlt : l < w.heap.inputs.next := ha.callerInputs l hmem
  have hval : w.heap.inputs.val l = iv := by
    have := ha.callerVals
    rw [← this, List.getElem?_map, hl] at hv
    simpa using hv
  have hin := ha.input.one
  have htr := ha.transient.one
  have has := ha.asoh.one
  have notCaller : ∀ l ∈ w.caller.inputs, l < w.heap.inputs.next := ha.callerInputs
  -- facts about the new input object
  have hiNew : (w.heap.inputs.copy l).2.val (w.heap.inputs.copy l).1 = iv := by
    simp [Store.copy, Store.alloc, hval]
  have hiOld : (w.heap.inputs.copy l).2.val l = iv := by
    rw [Store.copy, Store.alloc_old _ _ hlt, hval]
  have inputsAfter : Holds (w.heap.inputs.copy l).2 w.caller.inputs [(w.heap.inputs.copy l).1] [iv] := by
    rw [Store.copy, Store.alloc_fst, hval]
    exact Holds.fresh _ _ _ notCaller
  have callerValsAfter : w.caller.inputs.map (w.heap.inputs.copy l).2.val = vals := by
    rw [← ha.callerVals]
    exact List.map_congr_left fun r hr => Store.alloc_old _ _ (ha.callerInputs r hr)
  have callerInputsAfter : ∀ r ∈ w.caller.inputs, r < (w.heap.inputs.copy l).2.next := fun r hr =>
    Nat.lt_succ_of_lt (ha.callerInputs r hr)
  have trNotCaller : ∀ r ∈ [w.caller.transient], r < w.heap.transients.next := by
    simpa using ha.callerTransient
  have asNotCaller : ∀ r ∈ [w.caller.asoh], r < w.heap.asohs.next := by
    simpa using ha.callerAsoh
  simp only [act, hl, step, Simulator.step]
  rw [hin, hval, htr, has, ha.model]
  rcases hx : v.model.update v.input iv v.transient v.asoh with e | xv
  · simp only [Caller.receive, outcome]
    exact ⟨⟨ha.model, ha.degradation, ha.input, ha.transient, ha.asoh, ha.measurement, ha.history, ha.callerVals,
      ha.callerInputs, ha.callerNodup, ha.callerTransient, ha.callerAsoh, ha.callerMeasurements⟩, trivial⟩
  · have transAfter : Holds (w.heap.transients.alloc xv).2 [w.caller.transient] [(w.heap.transients.alloc xv).1] [xv] :=
      Holds.fresh _ _ _ trNotCaller
    have hxNew : (w.heap.transients.alloc xv).2.val (w.heap.transients.alloc xv).1 = xv := transAfter.one
    simp only [hiNew, hxNew]
    rcases hy : v.model.output iv xv v.asoh with e | yv
    · simp only [Caller.receive, outcome]
      refine ⟨⟨rfl, ha.degradation, inputsAfter, transAfter, ha.asoh, ha.measurement, ?_, callerValsAfter,
        callerInputsAfter, ha.callerNodup, Nat.lt_succ_of_lt ha.callerTransient, ha.callerAsoh, ha.callerMeasurements⟩, trivial⟩
      have hh := ha.history
      rcases hs : w.sim.history with _ | t <;> rcases hv' : v.history with _ | u <;> rw [hs, hv'] at hh <;>
        simp only [HistoryHolds] at hh ⊢
      exact ⟨hh.1.alloc _, hh.2.1.alloc _, hh.2.2⟩
    · have y1 : (w.heap.measurements.alloc yv).2.val (w.heap.measurements.alloc yv).1 = yv := by simp [Store.alloc]
      have y2 : ((w.heap.measurements.alloc yv).2.copy (w.heap.measurements.alloc yv).1).2.val (w.heap.measurements.alloc yv).1 =
          yv := by
        rw [Store.copy, Store.alloc_old _ _ (by simp [Store.alloc]), y1]
      have y3 : Holds ((w.heap.measurements.alloc yv).2.copy (w.heap.measurements.alloc yv).1).2
          (w.caller.gotMeasurements ++ [(w.heap.measurements.alloc yv).1])
          [((w.heap.measurements.alloc yv).2.copy (w.heap.measurements.alloc yv).1).1] [yv] := by
        rw [Store.copy, y1]
        refine Holds.fresh _ _ _ ?_
        intro r hr
        rcases List.mem_append.1 hr with hr | hr
        · exact Nat.lt_succ_of_lt (ha.callerMeasurements r hr)
        · rw [List.mem_singleton.1 hr]; exact Nat.lt_succ_self _
      have y3' : Holds ((w.heap.measurements.alloc yv).2.copy (w.heap.measurements.alloc yv).1).2 w.caller.gotMeasurements
          [((w.heap.measurements.alloc yv).2.copy (w.heap.measurements.alloc yv).1).1] [yv] :=
        ⟨y3.val, y3.lt, fun r hr hm => y3.sep r hr (List.mem_append_left _ hm)⟩
      have y4 : ∀ r, r < w.heap.measurements.next → r < ((w.heap.measurements.alloc yv).2.copy
          (w.heap.measurements.alloc yv).1).2.next := fun r hr => by simp [Store.copy, Store.alloc]; omega
      have y5 : ∀ r, r < w.heap.measurements.next → ((w.heap.measurements.alloc yv).2.copy
          (w.heap.measurements.alloc yv).1).2.val r = w.heap.measurements.val r := fun r hr => by
        rw [Store.copy, Store.alloc_old _ _ (Nat.lt_succ_of_lt hr), Store.alloc_old _ _ hr]
      simp only [hiOld, y2, ha.degradation]
      rcases hd : v.degradation.update v.asoh iv xv yv with e | av
      · simp only [Caller.receive, outcome]
        refine ⟨⟨rfl, rfl, inputsAfter, transAfter, ha.asoh, y3', ?_, callerValsAfter,
          callerInputsAfter, ha.callerNodup, Nat.lt_succ_of_lt ha.callerTransient, ha.callerAsoh,
          fun r hr => y4 r (ha.callerMeasurements r hr)⟩, trivial⟩
        have hh := ha.history
        rcases hs : w.sim.history with _ | t <;> rcases hv' : v.history with _ | u <;> rw [hs, hv'] at hh <;>
          simp only [HistoryHolds] at hh ⊢
        refine ⟨hh.1.alloc _, hh.2.1.alloc _, hh.2.2.1, fun r hr => y4 r (hh.2.2.2.1 r hr), fun hrm => ?_⟩
        rw [← hh.2.2.2.2 hrm]
        exact List.map_congr_left fun r hr => y5 r (hh.2.2.2.1 r hr)
      · have a1 : (w.heap.asohs.alloc av).2.val (w.heap.asohs.alloc av).1 = av := by simp [Store.alloc]
        have a2 : Holds ((w.heap.asohs.alloc av).2.copy (w.heap.asohs.alloc av).1).2 [w.caller.asoh]
            [((w.heap.asohs.alloc av).2.copy (w.heap.asohs.alloc av).1).1] [av] := by
          rw [Store.copy, a1]
          refine Holds.fresh _ _ _ ?_
          intro r hr
          rw [List.mem_singleton.1 hr]; exact Nat.lt_succ_of_lt ha.callerAsoh
        simp only [Caller.receive, outcome, hxNew, y2]
        refine ⟨⟨rfl, rfl, inputsAfter, transAfter, a2, y3, ?_, callerValsAfter, callerInputsAfter, ha.callerNodup,
          Nat.lt_succ_of_lt ha.callerTransient, by simp [Store.copy, Store.alloc]; have := ha.callerAsoh; omega, ?_⟩, trivial⟩
        · have hh := ha.history
          rcases hs : w.sim.history with _ | t <;> rcases hv' : v.history with _ | u <;> rw [hs, hv'] at hh <;>
            simp only [HistoryHolds, Option.map_some, Option.map_none, Simulator.push] at hh ⊢
          refine ⟨?_, hh.2.1.new _ trNotCaller, ?_, ?_, fun hrm => ?_⟩
          · have := hh.1.new iv notCaller
            rw [Store.copy, hval]; exact this
          · have := (hh.2.2.1.new av asNotCaller).alloc av
            rw [Store.copy, a1]; exact this
          · intro r hr
            rcases List.mem_append.1 hr with hr | hr
            · exact y4 r (hh.2.2.2.1 r hr)
            · rw [List.mem_singleton.1 hr]; exact Nat.lt_succ_of_lt (Nat.lt_succ_self _)
          · rw [List.map_append, ← hh.2.2.2.2 hrm]
            congr 1
            · exact List.map_congr_left fun r hr => y5 r (hh.2.2.2.1 r hr)
            · simpa using y2
        · intro r hr
          rcases List.mem_append.1 hr with hr | hr
          · exact y4 r (ha.callerMeasurements r hr)
          · rw [List.mem_singleton.1 hr]; exact Nat.lt_succ_of_lt (Nat.lt_succ_self _)

/-- The other operations change nothing the simulator reads. -/
theorem other_agrees {w : World I X A Y} {rm : Bool} {v : Simulator I X A Y} {vals : List I} (ha : Agrees w rm v vals)
    (op : Op I X A Y) (ht : ¬ op.touchesReturnedTransient) (hm : rm = true → ¬ op.touchesReturnedMeasurement)
    (hs : ∀ k, op ≠ .step k) :
    (∃ vals', Agrees (act w op) rm v vals' ∧ ∀ ops : List (Op I X A Y), given vals (op :: ops) = given vals' ops) ∧
      (act w op).seen = w.seen := by
  have hist : ∀ {h' : Heap I X A Y} {c' : Caller},
      (∀ refs vs, Holds w.heap.inputs w.caller.inputs refs vs → Holds h'.inputs c'.inputs refs vs) →
      (∀ refs vs, Holds w.heap.transients [w.caller.transient] refs vs → Holds h'.transients [c'.transient] refs vs) →
      (∀ refs vs, Holds w.heap.asohs [w.caller.asoh] refs vs → Holds h'.asohs [c'.asoh] refs vs) →
      h'.measurements.next = w.heap.measurements.next →
      (rm = true → h'.measurements.val = w.heap.measurements.val) →
      HistoryHolds h' c' rm w.sim.history v.history := by
    intro h' c' h1 h2 h3 h4 h5
    have hh := ha.history
    rcases hs : w.sim.history with _ | t <;> rcases hv' : v.history with _ | u <;> rw [hs, hv'] at hh <;>
      simp only [HistoryHolds] at hh ⊢
    exact ⟨h1 _ _ hh.1, h2 _ _ hh.2.1, h3 _ _ hh.2.2.1, by rw [h4]; exact hh.2.2.2.1,
      fun hrm => by rw [h5 hrm]; exact hh.2.2.2.2 hrm⟩
  cases op with
  | newInput x =>
    have sep : ∀ refs vs, Holds w.heap.inputs w.caller.inputs refs vs →
        Holds (w.heap.inputs.alloc x).2 (w.caller.inputs ++ [w.heap.inputs.next]) refs vs := by
      intro refs vs h
      refine ⟨(h.alloc x).val, (h.alloc x).lt, fun r hr hm => ?_⟩
      rcases List.mem_append.1 hm with hm | hm
      · exact h.sep r hr hm
      · exact Nat.lt_irrefl _ (by have := h.lt r hr; rwa [List.mem_singleton.1 hm] at this)
    refine ⟨⟨vals ++ [x], ⟨ha.model, ha.degradation, sep _ _ ha.input, ha.transient, ha.asoh, ha.measurement,
      hist sep (fun _ _ h => h) (fun _ _ h => h) rfl (fun _ => rfl), ?_, ?_, ?_, ha.callerTransient, ha.callerAsoh,
      ha.callerMeasurements⟩, fun ops => rfl⟩, rfl⟩
    · simp only [act, List.map_append, List.map_cons, List.map_nil]
      rw [← ha.callerVals]
      congr 1
      · exact List.map_congr_left fun r hr => Store.alloc_old _ _ (ha.callerInputs r hr)
      · simp [Store.alloc]
    · intro r hr
      rcases List.mem_append.1 hr with hr | hr
      · exact Nat.lt_succ_of_lt (ha.callerInputs r hr)
      · rw [List.mem_singleton.1 hr]; exact Nat.lt_succ_self _
    · refine List.Nodup.append ha.callerNodup (List.nodup_singleton _) ?_
      intro r hr hm
      exact Nat.lt_irrefl _ (by have := ha.callerInputs r hr; rwa [List.mem_singleton.1 hm] at this)
  | setInput k x =>
    refine ⟨⟨vals.set k x, ?_, fun ops => rfl⟩, ?_⟩
    · rcases hk : w.caller.inputs[k]? with _ | l
      · have : vals.set k x = vals := by
          apply List.set_eq_of_length_le
          rw [← ha.callerVals, List.length_map]
          exact List.getElem?_eq_none_iff.1 hk
        simp only [act, hk]
        rw [this]
        exact ha
      · simp only [act, hk]
        have hmem := List.mem_of_getElem? hk
        have sep : ∀ refs vs, Holds w.heap.inputs w.caller.inputs refs vs →
            Holds (w.heap.inputs.write l x) w.caller.inputs refs vs := fun refs vs h => h.write x hmem
        refine ⟨ha.model, ha.degradation, sep _ _ ha.input, ha.transient, ha.asoh, ha.measurement,
          hist sep (fun _ _ h => h) (fun _ _ h => h) rfl (fun _ => rfl), ?_, ha.callerInputs, ha.callerNodup, ha.callerTransient,
          ha.callerAsoh, ha.callerMeasurements⟩
        rw [← ha.callerVals]
        exact map_write_set _ _ ha.callerNodup _ _ _ hk
    · simp only [act]; split <;> rfl
  | setAsoh x =>
    have sep : ∀ refs vs, Holds w.heap.asohs [w.caller.asoh] refs vs →
        Holds (w.heap.asohs.write w.caller.asoh x) [w.caller.asoh] refs vs := fun refs vs h => h.write x (by simp)
    exact ⟨⟨vals, ⟨ha.model, ha.degradation, ha.input, ha.transient, sep _ _ ha.asoh, ha.measurement,
      hist (fun _ _ h => h) (fun _ _ h => h) sep rfl (fun _ => rfl), ha.callerVals, ha.callerInputs, ha.callerNodup,
      ha.callerTransient, ha.callerAsoh, ha.callerMeasurements⟩, fun ops => rfl⟩, rfl⟩
  | setTransient x =>
    have sep : ∀ refs vs, Holds w.heap.transients [w.caller.transient] refs vs →
        Holds (w.heap.transients.write w.caller.transient x) [w.caller.transient] refs vs := fun refs vs h => h.write x (by simp)
    exact ⟨⟨vals, ⟨ha.model, ha.degradation, ha.input, sep _ _ ha.transient, ha.asoh, ha.measurement,
      hist (fun _ _ h => h) sep (fun _ _ h => h) rfl (fun _ => rfl), ha.callerVals, ha.callerInputs, ha.callerNodup,
      ha.callerTransient, ha.callerAsoh, ha.callerMeasurements⟩, fun ops => rfl⟩, rfl⟩
  | setReturnedTransient k x => exact absurd trivial ht
  | setReturnedMeasurement k x =>
    have hrm : rm ≠ true := fun e => hm e trivial
    refine ⟨⟨vals, ?_, fun ops => rfl⟩, by simp only [act]; split <;> rfl⟩
    rcases hk : w.caller.gotMeasurements[k]? with _ | l
    · simp only [act, hk]; exact ha
    · simp only [act, hk]
      exact ⟨ha.model, ha.degradation, ha.input, ha.transient, ha.asoh, ha.measurement.write x (List.mem_of_getElem? hk),
        hist (fun _ _ h => h) (fun _ _ h => h) (fun _ _ h => h) rfl (fun e => absurd e hrm), ha.callerVals, ha.callerInputs,
        ha.callerNodup, ha.callerTransient, ha.callerAsoh, ha.callerMeasurements⟩
  | step k => exact absurd rfl (hs k)

theorem exec_agrees {w : World I X A Y} {rm : Bool} {v : Simulator I X A Y} {vals : List I} (ha : Agrees w rm v vals)
    (ops : List (Op I X A Y)) (ht : ∀ op ∈ ops, ¬ op.touchesReturnedTransient)
    (hm : rm = true → ∀ op ∈ ops, ¬ op.touchesReturnedMeasurement) :
    (∃ vals', Agrees (exec w ops) rm (undisturbed v (given vals ops)).1 vals') ∧
      (exec w ops).seen = w.seen ++ (undisturbed v (given vals ops)).2 := by
  induction ops generalizing w v vals with
  | nil => exact ⟨⟨vals, ha⟩, by simp [exec, given, undisturbed]⟩
  | cons op ops ih =>
    have ht' := fun o ho => ht o (List.mem_cons_of_mem _ ho)
    have hm' := fun e o ho => hm e o (List.mem_cons_of_mem _ ho)
    by_cases hs : ∃ k, op = .step k
    · obtain ⟨k, rfl⟩ := hs
      rcases hl : w.caller.inputs[k]? with _ | l
      · have hv : vals[k]? = none := by rw [← ha.callerVals, List.getElem?_map, hl]; rfl
        have e : act w (.step k) = w := by simp only [act, hl]
        have := ih ha ht' hm'
        simp only [exec, List.foldl_cons, e, given, hv, Option.toList_none, List.nil_append]
        exact this
      · have hv : vals[k]? = some (w.heap.inputs.val l) := by rw [← ha.callerVals, List.getElem?_map, hl]; rfl
        obtain ⟨ha', hseen⟩ := step_agrees ha hl hv
        obtain ⟨h1, h2⟩ := ih ha' ht' hm'
        simp only [given, hv, Option.toList_some, List.singleton_append, undisturbed]
        refine ⟨h1, ?_⟩
        rw [exec, List.foldl_cons]
        rw [exec] at h2
        rw [h2, hseen]
        simp
    · obtain ⟨⟨vals', ha', hg⟩, hseen⟩ := other_agrees ha op (ht op (by simp)) (fun e => hm e op (by simp))
        (fun k e => hs ⟨k, e⟩)
      obtain ⟨h1, h2⟩ := ih ha' ht' hm'
      rw [hg]
      refine ⟨h1, ?_⟩
      rw [exec, List.foldl_cons]
      rw [exec] at h2
      rw [h2, hseen]

theorem start_agrees {h : Heap I X A Y} {m : CellModel I X A Y} {d : DegradationModel I X A Y} {a x i : Nat} {keep : Bool}
    {w : World I X A Y} (hw : start h m d a x i keep = .ok w) (hi : i < h.inputs.next) (hx : x < h.transients.next)
    (ha : a < h.asohs.next) (rm : Bool) :
    ∃ v, Simulator.init m d (h.asohs.val a) (h.transients.val x) (h.inputs.val i) keep = .ok v ∧
      Agrees w rm v [h.inputs.val i] ∧ w.seen = [] := by
  simp only [start, init] at hw
  have ea : (h.asohs.copy a).2.val (h.asohs.copy a).1 = h.asohs.val a := by simp [Store.copy, Store.alloc]
  have ex : (h.transients.copy x).2.val (h.transients.copy x).1 = h.transients.val x := by simp [Store.copy, Store.alloc]
  have ei : (h.inputs.copy i).2.val (h.inputs.copy i).1 = h.inputs.val i := by simp [Store.copy, Store.alloc]
  rw [ea, ex, ei] at hw
  unfold Simulator.init
  rcases hy : m.output (h.inputs.val i) (h.transients.val x) (h.asohs.val a) with e | y
  · rw [hy] at hw; cases hw
  · rw [hy] at hw
    refine ⟨_, rfl, ?_⟩
    have fi : Holds (h.inputs.copy i).2 [i] [(h.inputs.copy i).1] [h.inputs.val i] := Holds.fresh _ _ _ (by simpa using hi)
    have fx : Holds (h.transients.copy x).2 [x] [(h.transients.copy x).1] [h.transients.val x] :=
      Holds.fresh _ _ _ (by simpa using hx)
    have fa : Holds (h.asohs.copy a).2 [a] [(h.asohs.copy a).1] [h.asohs.val a] := Holds.fresh _ _ _ (by simpa using ha)
    have fy : Holds (h.measurements.alloc y).2 [] [(h.measurements.alloc y).1] [y] := Holds.fresh _ _ _ (by simp)
    have ci : (h.inputs.copy i).2.val i = h.inputs.val i := Store.alloc_old _ _ hi
    cases keep
    · simp only [Bool.false_eq_true, if_false, Except.map, Except.ok.injEq] at hw
      subst hw
      refine ⟨⟨rfl, rfl, fi, fx, fa, fy, trivial, ?_, ?_, List.nodup_singleton _, Nat.lt_succ_of_lt hx, Nat.lt_succ_of_lt ha,
        by simp⟩, rfl⟩
      · simp [ci]
      · simp only [List.mem_singleton]; rintro r rfl; exact Nat.lt_succ_of_lt hi
    · simp only [if_true, Except.map, Except.ok.injEq, initHistory] at hw
      subst hw
      have gi : Holds ((h.inputs.copy i).2.copy (h.inputs.copy i).1).2 [i] [((h.inputs.copy i).2.copy (h.inputs.copy i).1).1]
          [h.inputs.val i] := by
        have := Holds.fresh (h.inputs.copy i).2 [i] (h.inputs.val i)
          (by simp only [List.mem_singleton]; rintro r rfl; exact Nat.lt_succ_of_lt hi)
        rw [Store.copy, ei]; exact this
      have gx : Holds ((h.transients.copy x).2.copy (h.transients.copy x).1).2 [x]
          [((h.transients.copy x).2.copy (h.transients.copy x).1).1] [h.transients.val x] := by
        have := Holds.fresh (h.transients.copy x).2 [x] (h.transients.val x)
          (by simp only [List.mem_singleton]; rintro r rfl; exact Nat.lt_succ_of_lt hx)
        rw [Store.copy, ex]; exact this
      have ga : Holds ((h.asohs.copy a).2.copy (h.asohs.copy a).1).2 [a]
          [((h.asohs.copy a).2.copy (h.asohs.copy a).1).1] [h.asohs.val a] := by
        have := Holds.fresh (h.asohs.copy a).2 [a] (h.asohs.val a)
          (by simp only [List.mem_singleton]; rintro r rfl; exact Nat.lt_succ_of_lt ha)
        rw [Store.copy, ea]; exact this
      have gy : Holds ((h.measurements.alloc y).2.copy (h.measurements.alloc y).1).2 []
          [((h.measurements.alloc y).2.copy (h.measurements.alloc y).1).1] [y] := by
        have := Holds.fresh (h.measurements.alloc y).2 [] y (by simp)
        rw [Store.copy, fy.one]; exact this
      refine ⟨⟨rfl, rfl, fi.alloc _, fx.alloc _, fa.alloc _, fy.alloc _, ⟨gi, gx, ga, gy.lt, fun _ => gy.val⟩, ?_, ?_,
        List.nodup_singleton _, ?_, ?_, by simp⟩, rfl⟩
      · have : ((h.inputs.copy i).2.copy (h.inputs.copy i).1).2.val i = h.inputs.val i :=
          (Store.alloc_old _ _ (Nat.lt_succ_of_lt hi)).trans ci
        simp [this]
      · simp only [List.mem_singleton]; rintro r rfl; exact Nat.lt_succ_of_lt (Nat.lt_succ_of_lt hi)
      · exact Nat.lt_succ_of_lt (Nat.lt_succ_of_lt hx)
      · exact Nat.lt_succ_of_lt (Nat.lt_succ_of_lt ha)

/-! ## C41 -/

/-- C41, for everything but the transient states that `step` returns.  Whatever the caller does to the objects it passed to the
constructor or to `step`, and to the measurements it got back, between whatever steps: every step returns what an undisturbed
simulator returns for the values of the inputs at the time of the calls, the simulator's present state is that of the undisturbed one,
and so are the recorded inputs, transient states and states of health; the recorded measurements too unless a returned measurement
was changed.  Missing: the transient states returned (`C41_returned_transient_is_live`). -/
theorem C41_isolated_partial (h : Heap I X A Y) (m : CellModel I X A Y) (d : DegradationModel I X A Y) (asoh transient input : Nat)
    (keep : Bool) (w : World I X A Y) (hstart : start h m d asoh transient input keep = .ok w)
    (hi : input < h.inputs.next) (hx : transient < h.transients.next) (ha : asoh < h.asohs.next)
    (ops : List (Op I X A Y)) (hops : ∀ op ∈ ops, ¬ op.touchesReturnedTransient) :
    ∃ v, Simulator.init m d (h.asohs.val asoh) (h.transients.val transient) (h.inputs.val input) keep = .ok v ∧
      let r := undisturbed v (given [h.inputs.val input] ops)
      let w' := exec w ops
      w'.seen = r.2 ∧
      w'.heap.inputs.val w'.sim.input = r.1.input ∧ w'.heap.transients.val w'.sim.transient = r.1.transient ∧
      w'.heap.asohs.val w'.sim.asoh = r.1.asoh ∧ w'.heap.measurements.val w'.sim.measurement = r.1.measurement ∧
      w'.sim.history.map (fun t => t.inputs.map w'.heap.inputs.val) = r.1.history.map (·.inputs) ∧
      w'.sim.history.map (fun t => t.transients.map w'.heap.transients.val) = r.1.history.map (·.transients) ∧
      w'.sim.history.map (fun t => t.asohs.map w'.heap.asohs.val) = r.1.history.map (·.asohs) ∧
      ((∀ op ∈ ops, ¬ op.touchesReturnedMeasurement) →
        w'.sim.history.map (fun t => t.measurements.map w'.heap.measurements.val) = r.1.history.map (·.measurements)) := by
  obtain ⟨v, hv, ha0, hs0⟩ := start_agrees hstart hi hx ha false
  refine ⟨v, hv, ?_⟩
  obtain ⟨⟨vals, hag⟩, hseen⟩ := exec_agrees ha0 ops hops (by simp)
  rw [hs0, List.nil_append] at hseen
  have hist : ∀ {rm : Bool} {w' : World I X A Y} {r : Simulator I X A Y} {vals : List I}, Agrees w' rm r vals →
      w'.sim.history.map (fun t => t.inputs.map w'.heap.inputs.val) = r.history.map (·.inputs) ∧
      w'.sim.history.map (fun t => t.transients.map w'.heap.transients.val) = r.history.map (·.transients) ∧
      w'.sim.history.map (fun t => t.asohs.map w'.heap.asohs.val) = r.history.map (·.asohs) ∧
      (rm = true → w'.sim.history.map (fun t => t.measurements.map w'.heap.measurements.val) =
        r.history.map (·.measurements)) := by
    intro rm w' r vals hg
    have hh := hg.history
    rcases hs : w'.sim.history with _ | t <;> rcases hr : r.history with _ | u <;> rw [hs, hr] at hh <;>
      simp only [HistoryHolds] at hh
    · exact ⟨rfl, rfl, rfl, fun _ => rfl⟩
    · exact ⟨congrArg some hh.1.val, congrArg some hh.2.1.val, congrArg some hh.2.2.1.val,
        fun e => congrArg some (hh.2.2.2.2 e)⟩
  obtain ⟨e1, e2, e3, -⟩ := hist hag
  refine ⟨hseen, hag.input.one, hag.transient.one, hag.asoh.one, hag.measurement.one, e1, e2, e3, ?_⟩
  intro hm
  obtain ⟨v', hv', ha1, -⟩ := start_agrees hstart hi hx ha true
  have : v' = v := by rw [hv] at hv'; exact (Except.ok.inj hv').symm
  subst this
  obtain ⟨⟨vals', hag'⟩, -⟩ := exec_agrees ha1 ops hops (fun _ => hm)
  exact (hist hag').2.2.2 rfl

/-- C41 does not hold for the transient states that `step` returns: after a step that succeeded, the object returned is the
simulator's own, so that any value the caller gives it becomes the simulator's transient state, and its history entry. -/
theorem C41_returned_transient_is_live (h : Heap I X A Y) (s s' : Sim I X A Y) (h' : Heap I X A Y) (new x y : Nat)
    (hstep : step h s new = (s', h', .ok (x, y))) :
    s'.transient = x ∧ (∀ t, s.history = some t → ∃ t', s'.history = some t' ∧ t'.transients = t.transients ++ [x] ∧
      t'.measurements = t.measurements ++ [y]) ∧
    ∀ v, ({ h' with transients := h'.transients.write x v } : Heap I X A Y).transients.val s'.transient = v := by
  unfold step at hstep
  rcases hx : s.model.update (h.inputs.val s.input) (h.inputs.val new) (h.transients.val s.transient) (h.asohs.val s.asoh) with
    e | xv
  · simp [hx] at hstep
  · simp only [hx] at hstep
    split at hstep
    · simp at hstep
    · split at hstep
      · simp at hstep
      · simp only [Prod.mk.injEq, Except.ok.injEq] at hstep
        obtain ⟨rfl, rfl, rfl, rfl⟩ := hstep
        refine ⟨rfl, ?_, fun v => Store.write_same _ _ _⟩
        intro t ht
        exact ⟨_, by simp only [ht, Option.map_some]; rfl, rfl, rfl⟩

/-! ## Concrete runs -/

namespace Demo

/-- An integrator: the state grows by the input, the output is the state. -/
def model : CellModel Int Int Int Int := ⟨fun _ new x _ => .ok (x + new), fun _ x _ => .ok x⟩

/-- The caller's objects: input 1, transient state 0, state of health 7, all at address 0. -/
def heap : Heap Int Int Int Int := ⟨⟨1, fun _ => 1⟩, ⟨1, fun _ => 0⟩, ⟨1, fun _ => 7⟩, ⟨0, fun _ => 0⟩⟩

/-- A caller who changes everything it passed in, between two steps: the hypotheses of `C41_isolated_partial` are met, and the steps
return states 2 and 5 for the inputs 2 and 3. -/
example : ∃ w, start heap model (NoDegradation _ _ _ _) 0 0 0 true = .ok w ∧
    (exec w [.setTransient 50, .newInput 2, .step 1, .setInput 1 3, .setAsoh 0, .setReturnedMeasurement 0 9, .step 1]).seen =
      [.ok (2, 2), .ok (5, 5)] :=
  ⟨_, rfl, rfl⟩

end Demo

/-- C41 fails for the code as written: the same two steps give different results when the caller changes, in between, the transient
state the first one returned. -/
theorem C41_returned_transient_changes_behaviour :
    ∃ w, start Demo.heap Demo.model (NoDegradation _ _ _ _) 0 0 0 true = .ok w ∧
      (exec w [.step 0, .step 0]).seen = [.ok (1, 1), .ok (2, 2)] ∧
      (exec w [.step 0, .setReturnedTransient 0 100, .step 0]).seen = [.ok (1, 1), .ok (101, 101)] :=
  ⟨_, rfl, rfl, rfl⟩

/-- C41 fails for the recorded measurements: a returned measurement changed by the caller changes the simulator's history. -/
theorem C41_returned_measurement_changes_history :
    ∃ w, start Demo.heap Demo.model (NoDegradation _ _ _ _) 0 0 0 true = .ok w ∧
      ((exec w [.step 0]).sim.history.map fun t => t.measurements.map (exec w [.step 0]).heap.measurements.val) = some [0, 1] ∧
      ((exec w [.step 0, .setReturnedMeasurement 0 9]).sim.history.map fun t => t.measurements.map
        (exec w [.step 0, .setReturnedMeasurement 0 9]).heap.measurements.val) = some [0, 9] :=
  ⟨_, rfl, rfl, rfl⟩

end Verif.SimObjects
