import Verif.Proofs.EcmHidden
import Verif.Props.WrapperSteps
/-!
# A concrete circuit as an object, for the examples

One RC element, no series capacitor, an open-circuit voltage that is linear in SOC, a measured temperature.  The reference curve of the
open-circuit voltage, the values of R0 and its temperature factor can be updated.
-/

namespace Verif.Cell.Demo
open Ecm Spec

/-- A parameter with one value. -/
noncomputable def hvFlat (u : List Name) (v : ℝ) : HV ℝ := .mk u [(kBase, .arr (.ofRow [v]))]

/-- A resistance with one value. -/
noncomputable def hvRes (u : List Name) (v : ℝ) : HV ℝ := .mk u [(kBase, .arr (.ofRow [v])), (kTdf, .arr (.ofRow [0.0025]))]

/-- The circuit as an `ECMASOH` with given updatable fields, of the circuit and of its R0. -/
noncomputable def hvUpdating (u ur : List Name) : HV ℝ := .mk u
  [(kQt, .sub (hvFlat [] 10)), (kCe, .arr (.ofRow [0.99])),
   (kOcv, .sub (.mk [kOcvRef] [(kOcvRef, .sub (.mk [kBase] [(kBase, .arr (.ofRow [3, 4])), (kRefTemp, .arr (.ofRow [25]))])),
     (kOcvEnt, .sub (hvFlat [] 0.005))])),
   (kR0, .sub (hvRes ur 0.05)), (kC0, .other),
   (kRcs, .tup [.mk [] [(kR, .sub (hvRes [] 0.01)), (kC, .sub (hvFlat [] 2500))]]),
   (kH0, .sub (.mk [] [(kBase, .arr (.ofRow [0.01])), (kGamma, .arr (.ofRow [0.9]))]))]

/-- The circuit as an `ECMASOH`. -/
noncomputable def hvCircuit : HV ℝ := hvUpdating [kOcv, kR0] [kBase, kTdf]

/-- Its attributes that are not parameters. -/
noncomputable def fixed : Fixed where
  ocvRef := ⟨none, .linear⟩
  ocvEnt := ⟨none, .linear⟩
  r0 := ⟨⟨none, .linear⟩, 25⟩
  c0 := ⟨none, .linear⟩
  rcs := fun _ => (⟨⟨none, .linear⟩, 25⟩, ⟨none, .linear⟩)
  hyst := ⟨none, .linear⟩

/-- Its transient state. -/
noncomputable def hvState : Container ℝ := ⟨[(kSoc, some (.ofRow [0.5])), (kQ0, none), (kIrc, some (.ofRow [0])), (kHyst, some (.ofRow [0]))]⟩

/-- An input. -/
noncomputable def hvInput : Container ℝ := ⟨[(kTime, some (.ofRow [0])), (kCurrent, some (.ofRow [1])), (kTemp, some (.ofRow [30]))]⟩

/-- The reference curve of the open-circuit voltage, R0, and the temperature factor of R0. -/
def nOcv : Name := pathName [kOcv, kOcvRef, kBase]
/-- See `nOcv`. -/
def nR0 : Name := pathName [kR0, kBase]
/-- See `nOcv`. -/
def nTdf : Name := pathName [kR0, kTdf]

theorem hv_names : hvCircuit.updatableNames = [nOcv, nR0, nTdf] := rfl

/-- Joint estimation of the circuit's open-circuit voltage and R0, with hidden states in the units of `op`. -/
noncomputable def estimating (beh : Behavior) (op : Operator) : JointWrapper :=
  ⟨⟨Ecm.cell beh fixed, hvCircuit, hvState, hvInput, op, .identity, .identity, 1⟩, [nOcv, nR0], 3, 3, NoDegradation _ _ _ _⟩

/-- Joint estimation of R0's temperature factor. -/
noncomputable def estimatingTdf (beh : Behavior) (op : Operator) : JointWrapper :=
  ⟨⟨Ecm.cell beh fixed, hvCircuit, hvState, hvInput, op, .identity, .identity, 1⟩, [nTdf], 3, 1, NoDegradation _ _ _ _⟩

theorem hv_iter (u ur : List Name) : iterParams false (hvUpdating u ur) = [(pathName [kQt, kBase], .ofRow [10]), (kCe, .ofRow [0.99]), (nOcv, .ofRow [3, 4]),
  (pathName [kOcv, kOcvRef, kRefTemp], .ofRow [25]), (pathName [kOcv, kOcvEnt, kBase], .ofRow [0.005]), (nR0, .ofRow [0.05]), (nTdf, .ofRow [0.0025]),
  (pathName [kRcs, Py.natStr 0, kR, kBase], .ofRow [0.01]), (pathName [kRcs, Py.natStr 0, kR, kTdf], .ofRow [0.0025]),
  (pathName [kRcs, Py.natStr 0, kC, kBase], .ofRow [2500]), (pathName [kH0, kBase], .ofRow [0.01]), (pathName [kH0, kGamma], .ofRow [0.9])] := rfl

theorem hv_single (u ur : List Name) : Unbatched (hvUpdating u ur) := by
  intro p a h
  have := mem_iterParams_false.2 ⟨p, h, rfl⟩
  rw [hv_iter] at this
  simp only [List.mem_cons, Prod.mk.injEq, List.not_mem_nil, or_false] at this
  rcases this with ⟨_, rfl⟩ | ⟨_, rfl⟩ | ⟨_, rfl⟩ | ⟨_, rfl⟩ | ⟨_, rfl⟩ | ⟨_, rfl⟩ | ⟨_, rfl⟩ | ⟨_, rfl⟩ | ⟨_, rfl⟩ | ⟨_, rfl⟩ | ⟨_, rfl⟩ | ⟨_, rfl⟩ <;> rfl

theorem wf_of {u : List Name} {fs : List (Name × Field ℝ)} (h1 : (fs.map (·.1)).Nodup) (h2 : ∀ k ∈ fs.map (·.1), '.' ∉ k)
    (h3 : ∀ f ∈ fs.map (·.2), FieldWF f) : (HV.mk u fs).WF :=
  WF_iff.2 ⟨h1, fun _ _ h => h2 _ (List.mem_map.2 ⟨_, h, rfl⟩), fun _ _ h => h3 _ (List.mem_map.2 ⟨_, h, rfl⟩)⟩

theorem flat_wf (u : List Name) (v : ℝ) : (hvFlat u v).WF :=
  wf_of (by simp) (by show ∀ k ∈ [kBase], '.' ∉ k; decide) (by simp [FieldWF])

theorem res_wf (u : List Name) (v : ℝ) : (hvRes u v).WF :=
  wf_of (by show [kBase, kTdf].Nodup; decide) (by show ∀ k ∈ [kBase, kTdf], '.' ∉ k; decide) (by simp [FieldWF])

theorem hv_wf (u ur : List Name) : (hvUpdating u ur).WF := by
  refine wf_of (by show [kQt, kCe, kOcv, kR0, kC0, kRcs, kH0].Nodup; decide)
    (by show ∀ k ∈ [kQt, kCe, kOcv, kR0, kC0, kRcs, kH0], '.' ∉ k; decide) ?_
  simp only [List.map_cons, List.map_nil, List.mem_cons, List.not_mem_nil, or_false, forall_eq_or_imp, forall_eq]
  refine ⟨flat_wf _ _, trivial, ?_, res_wf _ _, trivial, ?_, ?_⟩
  · refine wf_of (by show [kOcvRef, kOcvEnt].Nodup; decide) (by show ∀ k ∈ [kOcvRef, kOcvEnt], '.' ∉ k; decide) ?_
    simp only [List.map_cons, List.map_nil, List.mem_cons, List.not_mem_nil, or_false, forall_eq_or_imp, forall_eq]
    refine ⟨?_, flat_wf _ _⟩
    exact wf_of (by show [kBase, kRefTemp].Nodup; decide) (by show ∀ k ∈ [kBase, kRefTemp], '.' ∉ k; decide) (by simp [FieldWF])
  · intro c hc
    rw [List.mem_singleton.1 hc]
    refine wf_of (by show [kR, kC].Nodup; decide) (by show ∀ k ∈ [kR, kC], '.' ∉ k; decide) ?_
    simp only [List.map_cons, List.map_nil, List.mem_cons, List.not_mem_nil, or_false, forall_eq_or_imp, forall_eq]
    exact ⟨res_wf _ _, flat_wf _ _⟩
  · exact wf_of (by show [kBase, kGamma].Nodup; decide) (by show ∀ k ∈ [kBase, kGamma], '.' ∉ k; decide) (by simp [FieldWF])

theorem hvState_wf : hvState.WF :=
  ⟨by show [kSoc, kQ0, kIrc, kHyst].Nodup; decide, fun k f h => by
    have h' : k ∈ hvState.fields.map (·.1) := List.mem_map.2 ⟨_, h, rfl⟩
    exact (by decide : ∀ k ∈ [kSoc, kQ0, kIrc, kHyst], '[' ∉ k) k h'⟩

/-- The circuit as arrays. -/
noncomputable def arrays : ASOH where
  qt := (Arr2.ofRow [10]).toNd
  ce := (Arr2.ofRow [0.99]).toNd
  ocv := ⟨⟨(Arr2.ofRow [3, 4]).toNd, none, .linear⟩, (Arr2.ofRow [25]).toNd, ⟨(Arr2.ofRow [0.005]).toNd, none, .linear⟩⟩
  r0 := ⟨⟨(Arr2.ofRow [0.05]).toNd, none, .linear⟩, 25, (Arr2.ofRow [0.0025]).toNd⟩
  c0 := none
  rcs := [⟨⟨⟨(Arr2.ofRow [0.01]).toNd, none, .linear⟩, 25, (Arr2.ofRow [0.0025]).toNd⟩, ⟨(Arr2.ofRow [2500]).toNd, none, .linear⟩⟩]
  hyst := ⟨(Arr2.ofRow [0.01]).toNd, none, .linear⟩
  gamma := (Arr2.ofRow [0.9]).toNd

theorem hv_read (u ur : List Name) : readASOH fixed (hvUpdating u ur) = .ok arrays := rfl

theorem arrays_pars : Pars 1 arrays := by
  refine ⟨.inl rfl, .inl rfl, .inl rfl, .inl rfl, .inl rfl, .inl rfl, ⟨.inl rfl, .inl rfl⟩, nofun, ?_, .inl rfl⟩
  intro rc hrc
  rw [List.mem_singleton.1 hrc]
  exact ⟨⟨.inl rfl, .inl rfl⟩, .inl rfl⟩

theorem hvState_single : ∀ q ∈ held hvState, q.2.nrow = 1 := by
  intro q hq
  have hq : q ∈ [(kSoc, Arr2.ofRow [0.5]), (kIrc, Arr2.ofRow [0]), (kHyst, Arr2.ofRow [0])] := hq
  simp only [List.mem_cons, List.not_mem_nil, or_false] at hq
  rcases hq with rfl | rfl | rfl <;> rfl

theorem hvInput_single : ∀ q ∈ held hvInput, q.2.nrow = 1 := by
  intro q hq
  have hq : q ∈ [(kTime, Arr2.ofRow [0]), (kCurrent, Arr2.ofRow [1]), (kTemp, Arr2.ofRow [30])] := hq
  simp only [List.mem_cons, List.not_mem_nil, or_false] at hq
  rcases hq with rfl | rfl | rfl <;> rfl

theorem estimating_circuit (beh : Behavior) (op : Operator) : EstimatesCircuit (estimating beh op) beh fixed true false arrays :=
  ⟨⟨hv_wf _ _, hv_single _ _, by show ∀ n ∈ [nOcv, nR0], n ∈ [nOcv, nR0, nTdf]; decide, by show [nOcv, nR0].Nodup; decide, hvState_wf,
    by show held hvState ≠ []; exact nofun, ⟨_, rfl, rfl⟩, ⟨_, rfl, rfl⟩⟩, rfl, hv_read _ _, arrays_pars, rfl, rfl, nofun, rfl⟩

theorem estimatingTdf_circuit (beh : Behavior) (op : Operator) : EstimatesCircuit (estimatingTdf beh op) beh fixed true false arrays :=
  ⟨⟨hv_wf _ _, hv_single _ _, by show ∀ n ∈ [nTdf], n ∈ [nOcv, nR0, nTdf]; decide, by show [nTdf].Nodup; decide, hvState_wf,
    by show held hvState ≠ []; exact nofun, ⟨_, rfl, rfl⟩, ⟨_, rfl, rfl⟩⟩, rfl, hv_read _ _, arrays_pars, rfl, rfl, nofun, rfl⟩

theorem estimating_estimable (beh : Behavior) (op : Operator) : Estimable (estimating beh op).names true false arrays where
  ocv := .inr ⟨by show 2 ≠ 0; decide, by
    show (Interp.pinsUsed ⟨(Arr2.ofRow [3, 4]).toNd, none, .linear⟩).length = 2
    simp [Interp.width, Interp.pinsUsed, linspace01, Arr2.toNd, Arr2.ofRow]⟩
  ent _ := .inl rfl
  r0 := .inl rfl
  c0 := nofun
  rcs rc h := by rw [List.mem_singleton.1 h]; exact ⟨.inl rfl, .inl rfl⟩
  hyst := .inl rfl
  gamma_with _ := .inl rfl
  refTemp_with _ := .inr (by show nOcv ∈ [nOcv, nR0]; decide)
  r0_with _ := .inl rfl
  rcs_with j rc h _ := by
    rw [List.mem_singleton.1 (List.mem_of_getElem? h)]
    exact .inl rfl
  r0_tdf _ h := absurd (show nTdf ∈ [nOcv, nR0] from h) (by decide)
  rcs_tdf _ j hj h := by
    obtain rfl : j = 0 := Nat.lt_one_iff.1 hj
    exact absurd (show pathName [kRcs, Py.natStr 0, kR, kTdf] ∈ [nOcv, nR0] from h) (by decide)
  ent_with _ _ := by show nOcv ∈ [nOcv, nR0]; decide
  rcs_r j hj k hk h := by
    obtain rfl : j = 0 := Nat.lt_one_iff.1 hj
    obtain rfl : k = 0 := Nat.lt_one_iff.1 hk
    exact h
  rcs_tau j hj k hk h := by
    obtain rfl : j = 0 := Nat.lt_one_iff.1 hj
    obtain rfl : k = 0 := Nat.lt_one_iff.1 hk
    exact h

theorem estimatingTdf_not (beh : Behavior) (op : Operator) : ¬ Estimable (estimatingTdf beh op).names true false arrays := fun h =>
  h.r0_tdf rfl (by show nTdf ∈ [nTdf]; decide)

/-- No divisor of the circuit is estimated. -/
theorem estimating_divisors (beh : Behavior) (op : Operator) (z : List ℝ) (hz : z.length = 3) (p : Par)
    (h : CellWith (estimating beh op) fixed z p) :
    p.qt ≠ 0 ∧ (∀ rc ∈ p.rcs, ∀ s t, rc.r s t ≠ 0 ∧ rc.c s ≠ 0) ∧ ∀ c ∈ p.c0, ∀ s, c s ≠ 0 := by
  obtain ⟨m, b, h1, h2, rfl⟩ := h
  obtain ⟨z0, z1, z2, rfl⟩ : ∃ z0 z1 z2, z = [z0, z1, z2] := by
    match z, hz with
    | [z0, z1, z2], _ => exact ⟨z0, z1, z2, rfl⟩
  cases (Except.ok.inj h1)
  cases (Except.ok.inj h2)
  refine ⟨?_, ?_, ?_⟩
  · show (10 : ℝ) ≠ 0
    norm_num
  · intro rc hrc s t
    rw [List.mem_singleton.1 hrc]
    refine ⟨?_, show (2500 : ℝ) ≠ 0 by norm_num⟩
    cases t with
    | none => show (0.01 : ℝ) ≠ 0; norm_num
    | some t =>
      refine mul_ne_zero ?_ (Real.exp_ne_zero _)
      show (0.01 : ℝ) ≠ 0
      norm_num
  · intro c hc
    cases hc

end Verif.Cell.Demo
