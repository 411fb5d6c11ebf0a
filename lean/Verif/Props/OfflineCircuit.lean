import Verif.Spec.OfflineCircuit
import Verif.Props.Offline
import Verif.Props.EcmDataset
import Verif.Props.JointKalman
import Verif.Props.FreshEstimator
import Mathlib.Analysis.Convex.Extrema
import Mathlib.Analysis.Convex.Mul
import Mathlib.Analysis.InnerProductSpace.PiL2
/-!
# Fitting an equivalent circuit to data: C138, C139, C140
-/

namespace Verif
open Ecm Cell Spec Loss

variable {L : Loss} {beh : Behavior} {x : Fixed} {series : Bool} {a : ASOH}

/-! ## Proofs: what the loss simulates -/

theorem ofVec_long {n : Nat} {s : St} (hq : s.q0.isSome = series) (hn : s.irc.length = n) (rest : List ℝ) : St.ofVec series n (s.toVec ++ rest) = s := by
  obtain ⟨soc, q0, irc, hyst⟩ := s
  simp only at hn
  subst hn
  cases q0 with
  | none =>
    obtain rfl : series = false := hq.symm
    simp [St.ofVec, St.toVec, List.getD_eq_getElem?_getD, List.getElem?_append, Nat.add_comm 1]
  | some q =>
    obtain rfl : series = true := hq.symm
    simp [St.ofVec, St.toVec, List.getD_eq_getElem?_getD, List.getElem?_append, Nat.add_comm 2]

theorem step_shape {p : Par} {l : List ℝ} (prev new : In) (hl : 1 + (if series then 1 else 0) + p.rcs.length ≤ l.length) :
    (step beh prev new (St.ofVec series p.rcs.length l) p).q0.isSome = series ∧
      (step beh prev new (St.ofVec series p.rcs.length l) p).irc.length = p.rcs.length := by
  constructor
  · cases series <;> simp [step, St.ofVec]
  · simp only [step, St.ofVec, List.length_zipWith, List.length_take, List.length_drop]
    omega

theorem numUpdatable_size {m : HV ℝ} (hw : m.WF) (hu : Unbatched m) : totalSize m m.updatableNames = m.numUpdatable := by
  obtain ⟨u1, u2, u3⟩ := updatable_params m
  rw [← u2, totalSize_unbatched hw hu u1, u3]

/-- The parameters of a single cell, written back. -/
theorem own_parameters {m : HV ℝ} (hw : m.WF) (hu : Unbatched m) :
    ∃ p, m.getParameters none = .ok (.ofRow p) ∧ p.length = m.numUpdatable ∧ m.makeCopy (.d1 p) none = .ok m := by
  obtain ⟨v, h1, h2⟩ := C04_get_then_update_partial m hw hu m.updatableNames (C02_names_distinct _ hw).2 (fun n hn => hn)
  have hb1 : m.batchSize = .ok 1 := ((C12_batch_size m fun p a h => (hu p a h).ge).1 1).2 ⟨fun p a h => .inl (hu p a h), .inl rfl⟩
  have hv : ∃ p, v = .ofRow p := by
    obtain ⟨v', h3, h4⟩ := C12_vector_has_batch_rows m hw (fun p a h => (hu p a h).ge) 1 hb1 _ (fun n hn => updatable_subset (α := ℝ) hn)
    cases h1.symm.trans h3
    obtain ⟨r, hr⟩ := List.length_eq_one_iff.1 h4
    exact ⟨r, Arr2.ext' (v.wf r (by rw [hr]; simp)).symm hr⟩
  obtain ⟨p, rfl⟩ := hv
  have hmc : m.makeCopy (.d1 p) none = .ok m := by
    have h3 : m.updateParameters (.d1 p) none = (m, .ok ()) := h2
    rw [HV.makeCopy, h3]
  exact ⟨p, h1, (makeCopy_width hw hmc).symm.trans (numUpdatable_size hw hu), hmc⟩

/-- The parameters of a circuit with other values are again those of a circuit. -/
theorem fit_copy (h : FitsCircuit L beh x series a) {p : List ℝ} (hp : p.length = L.asoh.numUpdatable) :
    ∃ m b, L.asoh.makeCopy (.d1 p) none = .ok m ∧ HoldsCircuit x m b ∧ b.rcs.length = a.rcs.length ∧ Estimable [] true series b := by
  obtain ⟨q, g1, g2, g3⟩ := own_parameters h.asoh.wf h.asoh.unbatched
  by_cases hn : L.asoh.updatableNames = []
  · have h0 : L.asoh.numUpdatable = 0 := by
      rw [← numUpdatable_size h.asoh.wf h.asoh.unbatched, hn]; rfl
    obtain rfl := List.length_eq_zero_iff.1 (hp.trans h0)
    obtain rfl := List.length_eq_zero_iff.1 (g2.trans h0)
    exact ⟨_, _, g3, h.asoh, rfl, h.evaluable⟩
  · let w : DegradationWrapper := ⟨⟨Ecm.cell beh x, L.asoh, L.state, circuitInput true, .identity, .identity, .identity, 1⟩, L.asoh.updatableNames, 0,
      L.asoh.numUpdatable, NoDegradation _ _ _ _⟩
    have ht : TracksHealth w beh x true a := ⟨rfl, h.asoh, rfl, fun n hn => hn, (C02_names_distinct _ h.asoh.wf).2, ⟨_, g1, g2⟩, hn, rfl⟩
    obtain ⟨m, b, h1, h2, h3, h4⟩ := estimable_copy ht h.evaluable fun i : Fin L.asoh.numUpdatable => p.get (i.cast hp.symm)
    refine ⟨m, b, ?_, h2, h3, h4⟩
    have e : List.ofFn (fun i : Fin L.asoh.numUpdatable => p.get (i.cast hp.symm)) = p :=
      List.ext_getElem (by rw [List.length_ofFn, hp]) fun i h1 h2 => by rw [List.getElem_ofFn]; rfl
    rw [e] at h1
    exact h1

theorem holds_transients (h : SameLayout tr (circuitState series n)) {N : Nat} (hN : N = tr.len) (y : Fin N → ℝ) :
    HoldsTransients (tr.makeCopy (.d1 (List.ofFn y))) series n y := by
  have hw := circuitState_wf h
  have hl : N = (1 + (if series then 1 else 0)) + n + 1 := by
    rw [hN, len_layout hw.1 h]
    cases series <;>
      simp [Container.len, Container.allFields, Container.lengthField, circuitState, assoc, kSoc, kQ0, kIrc, kHyst, Arr2.scalar, Arr2.ofRow] <;>
      omega
  obtain ⟨k1, k2, -⟩ := holds_copy h (t := List.ofFn y) (by rw [List.length_ofFn, hl])
  refine ⟨k1, k2, ?_⟩
  exact C14_from_numpy_then_to_numpy tr hw (circuitState_held h) (.d1 (List.ofFn y)) (by rw [← hN]; exact List.length_ofFn)

theorem sample_reads {row : Row} {o : In × ℝ} (h : Sample row o) : ∃ c, ∃ u : Fin 3 → ℝ, Reads row c o.2 ∧ HoldsInput c true u ∧
    In.ofVec true (List.ofFn u) = o.1 := by
  obtain ⟨⟨t, i, T'⟩, v⟩ := o
  obtain ⟨h1, h2, h3, T, rfl, h4⟩ := h
  refine ⟨⟨[("time".toList, some (.ofRow [t])), ("current".toList, some (.ofRow [i])), ("temperature".toList, some (.ofRow [T]))]⟩, ![t, i, T], 
    ⟨⟨.fin t, .fin i, .fin T⟩, ?_, rfl⟩, ⟨rfl, ?_, ?_⟩, by simp [In.ofVec]⟩
  · simp only at h1 h2 h3
    unfold rowToInputs
    rcases h4 with h4 | ⟨h4, rfl⟩
    · simp only [h4, Num.isFinite, Row.get, h1, h2, h3, pure_eq_ok, ok_bind, if_true]
    · cases h5 : lookupKey "temperature".toList row with
      | none => simp only [Row.get, h1, h2, h3, pure_eq_ok, ok_bind, Bool.false_eq_true, if_false]
      | some r =>
        cases r with
        | fin r => exact absurd h5 (h4 r)
        | _ => simp only [Num.isFinite, Row.get, h1, h2, h3, pure_eq_ok, ok_bind, Bool.false_eq_true, if_false]
  · intro q hq
    simp only [held, List.filterMap_cons, List.filterMap_nil, Option.map_some, List.mem_cons, List.not_mem_nil, or_false] at hq
    rcases hq with rfl | rfl | rfl <;> rfl
  · simp; rfl

theorem shows_voltage (V : ℝ) : Shows (voltageOf V) V := voltageOf_toNumpy fun _ => V

theorem circuit_follows {m : HV ℝ} {b : ASOH} (hm : HoldsCircuit x m b) (he : Estimable [] true series b) {cs : List (Container ℝ)} :
    ∀ {c : Container ℝ} {u : Fin 3 → ℝ} {us : List (Fin 3 → ℝ)} {tr : Container ℝ} {N : Nat} {y : Fin N → ℝ},
      HoldsInput c true u → List.Forall₂ (HoldsInput · true ·) cs us → HoldsTransients tr series b.rcs.length y →
      (beh = .linear → ((u :: us).map fun u => (In.ofVec true (List.ofFn u)).time).IsChain (· ≠ ·)) →
      Follows (Ecm.cell beh x) m c tr cs
        (cellVolts beh (parAt b 0) (In.ofVec true (List.ofFn u)) (us.map fun u => In.ofVec true (List.ofFn u)) (St.ofVec series b.rcs.length (List.ofFn y))) := by
  induction cs with
  | nil =>
    intro c u us tr N y hc hcs ht hmoves
    cases hcs
    exact .nil _ _
  | cons c' cs ih =>
    intro c u us tr N y hc hcs ht hmoves
    cases hcs with
    | @cons _ v _ us hv hcs =>
    have hch := fun hb => List.isChain_cons_cons.1 (hmoves hb)
    obtain ⟨t, t1, t2⟩ := circuit_simulates (beh := beh) hm he ht hc hv fun hb => (hch hb).1.symm
    have y2 := circuit_shows (beh := beh) hm he t2 hv
    have hlen : (parAt b 0).rcs.length = b.rcs.length := by simp [parAt]
    have hN : N = 1 + (if series then 1 else 0) + (parAt b 0).rcs.length + 1 := by
      rw [hlen, ← state_len ht.layout ht.value]; exact (List.length_ofFn).symm
    have e : St.ofVec series b.rcs.length (List.ofFn (cellStep beh (parAt b 0) series (In.ofVec true (List.ofFn u)) (In.ofVec true (List.ofFn v)) y)) =
        step beh (In.ofVec true (List.ofFn u)) (In.ofVec true (List.ofFn v)) (St.ofVec series b.rcs.length (List.ofFn y)) (parAt b 0) := by
      obtain ⟨k1, k2⟩ := step_shape (beh := beh) (series := series) (p := parAt b 0) (l := List.ofFn y) (In.ofVec true (List.ofFn u)) (In.ofVec true (List.ofFn v))
        (by rw [List.length_ofFn]; omega)
      rw [cellStep_list hN, ← List.append_nil (St.toVec _), ← hlen, ofVec_long k1 k2]
    have h := ih hv hcs t2 fun hb => (hch hb).2
    rw [e] at h
    refine .cons t1 y2 ?_ h
    have e' : cellVolt (parAt b 0) series (In.ofVec true (List.ofFn v))
        (cellStep beh (parAt b 0) series (In.ofVec true (List.ofFn u)) (In.ofVec true (List.ofFn v)) y) 0 =
        volt (In.ofVec true (List.ofFn v)) (step beh (In.ofVec true (List.ofFn u)) (In.ofVec true (List.ofFn v))
          (St.ofVec series b.rcs.length (List.ofFn y)) (parAt b 0)) (parAt b 0) := by
      show volt _ (St.ofVec series (parAt b 0).rcs.length _) _ = _
      rw [hlen, e]
    exact e' ▸ shows_voltage _

/-! ## C138 -/

/-- C138: the loss of any state and parameters exists, and is the average of the squared differences between the voltages that the circuit equations give
for the cell with these parameters from this state, and the observed ones.  The temperature of a row without one is 25 °C. -/
theorem C138_loss (h : FitsCircuit L beh x series a) {rows : List Row} (hrows : L.rawData = some rows) {first : In × ℝ} {later : List (In × ℝ)}
    (hobs : List.Forall₂ Sample rows (first :: later)) (hmoves : beh = .linear → ((first :: later).map (·.1.time)).IsChain (· ≠ ·))
    (s p : List ℝ) (hs : s.length = L.state.len) (hp : p.length = L.asoh.numUpdatable) :
    ∃ cell, CircuitWith L.asoh L.asoh.updatableNames x p cell ∧
      L.value (s ++ p) = .ok (meanSquaredError (cellVoltages beh cell first.1 (later.map (·.1)) (St.ofVec series a.rcs.length s))
        ((first :: later).map (·.2))) := by
  obtain ⟨m, b, h1, h2, h3, h4⟩ := fit_copy h hp
  refine ⟨parAt b 0, ⟨m, b, h1, h2.read, rfl⟩, (C70_mean_squared_error L s p hs _).2 ?_⟩
  have key : ∀ {rows : List Row} {obs : List (In × ℝ)}, List.Forall₂ Sample rows obs → ∃ (cs : List (Container ℝ)) (us : List (Fin 3 → ℝ)),
      List.Forall₂ (fun row io => Reads row io.1 io.2) rows (cs.zip (obs.map (·.2))) ∧ cs.length = obs.length ∧
      List.Forall₂ (HoldsInput · true ·) cs us ∧ us.map (fun u => In.ofVec true (List.ofFn u)) = obs.map (·.1) := by
    intro rows obs ho
    induction ho with
    | nil => exact ⟨[], [], .nil, rfl, .nil, rfl⟩
    | cons g _ ih =>
      obtain ⟨cs, us, k1, k2, k3, k4⟩ := ih
      obtain ⟨c, u, g1, g2, g3⟩ := sample_reads g
      exact ⟨c :: cs, u :: us, .cons g1 k1, congrArg Nat.succ k2, .cons g2 k3, by rw [List.map_cons, List.map_cons, g3, k4]⟩
  obtain ⟨cs, us, k1, k2, k3, k4⟩ := key hobs
  obtain ⟨c, u, cs, us, rfl, rfl⟩ : ∃ c u cs' us', cs = c :: cs' ∧ us = u :: us' := by
    cases k3 with
    | nil => cases k2
    | cons => exact ⟨_, _, _, _, rfl, rfl⟩
  have hy : ∃ y : Fin s.length → ℝ, List.ofFn y = s := ⟨s.get, List.ofFn_get s⟩
  obtain ⟨y, hy⟩ := hy
  have ht : HoldsTransients (L.state.makeCopy (.d1 s)) series b.rcs.length y := by
    have := holds_transients h.state hs y
    rw [hy] at this
    rw [h3]
    exact this
  obtain ⟨hc, hcs⟩ : HoldsInput c true u ∧ List.Forall₂ (HoldsInput · true ·) cs us := by
    cases k3 with
    | cons h1 h2 => exact ⟨h1, h2⟩
  obtain ⟨e1, e2⟩ : In.ofVec true (List.ofFn u) = first.1 ∧ us.map (fun u => In.ofVec true (List.ofFn u)) = later.map (·.1) := by
    rw [List.map_cons, List.map_cons, List.cons.injEq] at k4; exact k4
  have hf := circuit_follows (beh := beh) h2 h4 hc hcs ht fun hb => by
    have := hmoves hb
    have e : (u :: us).map (fun u => (In.ofVec true (List.ofFn u)).time) = (first :: later).map (·.1.time) := by
      have := congrArg (List.map In.time) k4
      rwa [List.map_map, List.map_map] at this
    rw [e]; exact this
  have hv := circuit_shows (beh := beh) h2 h4 ht hc
  have hlen : (parAt b 0).rcs.length = b.rcs.length := by simp [parAt]
  replace hv : (Ecm.cell beh x).output c (L.state.makeCopy (.d1 s)) m =
    .ok (voltageOf (volt (In.ofVec true (List.ofFn u)) (St.ofVec series (parAt b 0).rcs.length (List.ofFn y)) (parAt b 0))) := hv
  rw [e1, e2, hy, h3] at hf
  rw [e1, hy, hlen, h3] at hv
  have hz : ((c :: cs).zip ((first :: later).map (·.2))).map (·.1) = c :: cs := List.map_fst_zip (by rw [k2, List.length_map])
  have hz' : ((c :: cs).zip ((first :: later).map (·.2))).map (·.2) = (first :: later).map (·.2) := List.map_snd_zip (by rw [k2, List.length_map])
  refine ⟨m, rows, (c :: cs).zip ((first :: later).map (·.2)), _, h1, hrows, k1, ?_, by rw [hz']⟩
  rw [hz, h.cell]
  exact .start hv (shows_voltage _) hf

/-! ## Proofs: the rows of a simulated dataset -/

theorem lookupKey_zip {α : Type} {k : Name} : ∀ {pre : List Name} {as : List α} {post : List Name} {v : α} {bs : List α}, k ∉ pre → pre.length = as.length →
    lookupKey k ((pre ++ k :: post).zip (as ++ v :: bs)) = some v
  | [], [], _, _, _, _, _ => by simp [lookupKey]
  | c :: pre, a :: as, post, v, bs, hk, hl => by
    have hc : c ≠ k := fun h => hk (by simp [h])
    show lookupKey k ((c, a) :: (pre ++ k :: post).zip (as ++ v :: bs)) = _
    rw [lookupKey, if_neg hc]
    exact lookupKey_zip (fun h => hk (by simp [h])) (by simpa using hl)

theorem lookupKey_absent {α : Type} {k : Name} : ∀ {cols : List Name} {as : List α}, k ∉ cols → lookupKey k (cols.zip as) = none
  | [], _, _ => by simp [lookupKey]
  | _ :: _, [], _ => by simp [lookupKey]
  | c :: cols, a :: as, hk => by
    show lookupKey k ((c, a) :: cols.zip as) = _
    rw [lookupKey, if_neg fun h => hk (by simp [h])]
    exact lookupKey_absent fun h => hk (by simp [h])

theorem irc_label {n : Nat} {k : Name} (h : k ∈ labels "i_rc".toList n) : ∃ r, k = "i_rc".toList ++ r := by
  unfold labels at h
  split at h
  · exact ⟨[], by simpa using h⟩
  · obtain ⟨j, -, rfl⟩ := List.mem_map.1 h
    exact ⟨['['] ++ (Py.natStr j ++ [']']), by simp only [List.append_assoc]⟩

/-- The inputs that the loss reads from an exported row: at 25 °C if there is no temperature. -/
noncomputable def atTemp (i : In) : In := { i with temp := some (i.temp.getD 25) }

theorem circuit_sample {measured : Bool} {n N : Nat} (hN : N = 1 + (if series then 1 else 0) + n + 1) (u : Fin (2 + (if measured then 1 else 0)) → ℝ)
    (y : Fin N → ℝ) (V : Fin 1 → ℝ) :
    Sample ((circuitColumns measured series n).zip (((List.ofFn u ++ List.ofFn y ++ List.ofFn V).map some).map fun v => v.elim Num.nan Num.fin))
      (atTemp (In.ofVec measured (List.ofFn u)), V 0) := by
  have hmap : ((List.ofFn u ++ List.ofFn y ++ List.ofFn V).map some).map (fun v => v.elim Num.nan Num.fin) =
      (List.ofFn u ++ List.ofFn y ++ [V 0]).map Num.fin := by
    rw [List.map_map, List.ofFn_succ (f := V)]
    simp
    rfl
  rw [hmap]
  have hother : ∀ (c : Char) (r : List Char), c ≠ 's' → c ≠ 'q' → c ≠ 'i' → c ≠ 'h' → 
      c :: r ∉ ["soc".toList] ++ (if series then ["q0".toList] else []) ++ labels "i_rc".toList n ++ ["hyst".toList] := by
    intro c r h1 h2 h3 h4 hm
    simp only [List.mem_append, List.mem_singleton, or_assoc] at hm
    rcases hm with hm | hm | hm | hm
    · exact h1 (List.cons.inj hm).1
    · cases series
      · simp at hm
      · exact h2 (List.cons.inj (List.mem_singleton.1 hm)).1
    · obtain ⟨q, hq⟩ := irc_label hm
      exact h3 (List.cons.inj hq).1
    · exact h4 (List.cons.inj hm).1
  have hwidth : (labels "i_rc".toList n).length = n := by
    unfold labels
    split <;> simp_all
  have hvolt : ∀ (pre : List Name) (l : List ℝ), pre.length = l.length → "voltage".toList ∉ pre →
      lookupKey "voltage".toList ((pre ++ (["soc".toList] ++ (if series then ["q0".toList] else []) ++ labels "i_rc".toList n ++ ["hyst".toList]) ++
        ["voltage".toList]).zip ((l ++ List.ofFn y ++ [V 0]).map Num.fin)) = some (.fin (V 0)) := by
    intro pre l hl hpre
    rw [List.map_append, List.map_singleton]
    refine lookupKey_zip (bs := []) (post := []) (fun h => ?_) ?_
    · rcases List.mem_append.1 h with h | h
      · exact hpre h
      · exact hother 'v' "oltage".toList (by decide) (by decide) (by decide) (by decide) h
    · cases series <;> simp only [List.length_append, List.length_map, List.length_ofFn, hl, hwidth, hN, List.length_cons, List.length_nil, if_true,
        Bool.false_eq_true, if_false] <;> omega
  cases measured
  · have hu : List.ofFn u = [u 0, u 1] := rfl
    have hcols : circuitColumns false series n = ["test_time".toList, "current".toList] ++ (["soc".toList] ++ (if series then ["q0".toList] else []) ++
        labels "i_rc".toList n ++ ["hyst".toList]) ++ ["voltage".toList] := by simp [circuitColumns]
    rw [hu, hcols]
    refine ⟨rfl, rfl, hvolt _ _ rfl (by decide), 25, rfl, .inr ⟨fun r h => ?_, rfl⟩⟩
    rw [lookupKey_absent] at h
    · cases h
    · intro h
      simp only [List.mem_append, List.mem_cons, List.not_mem_nil, or_false] at h
      rcases h with ((h | h) | h) | h
      · exact absurd h (by decide)
      · exact absurd h (by decide)
      · exact hother 't' "emperature".toList (by decide) (by decide) (by decide) (by decide) (by simpa using h)
      · exact absurd h (by decide)
  · have hu : List.ofFn u = [u 0, u 1, u 2] := rfl
    have hcols : circuitColumns true series n = ["test_time".toList, "current".toList, "temperature".toList] ++ (["soc".toList] ++
        (if series then ["q0".toList] else []) ++ labels "i_rc".toList n ++ ["hyst".toList]) ++ ["voltage".toList] := by simp [circuitColumns]
    rw [hu, hcols]
    exact ⟨rfl, rfl, hvolt _ _ rfl (by decide), _, rfl, .inl rfl⟩

theorem cellRun_volts {p : Par} {N : Nat} (hN : N = 1 + (if series then 1 else 0) + p.rcs.length + 1) (us : List In) : ∀ (prev : In) (y : Fin N → ℝ),
    (cellRun beh p series prev y us).map (fun r => r.2 0) = cellVolts beh p prev us (St.ofVec series p.rcs.length (List.ofFn y)) := by
  induction us with
  | nil => intros; rfl
  | cons new us ih =>
    intro prev y
    obtain ⟨k1, k2⟩ := step_shape (beh := beh) (series := series) (p := p) (l := List.ofFn y) prev new (by rw [List.length_ofFn]; omega)
    have e : St.ofVec series p.rcs.length (List.ofFn (cellStep beh p series prev new y)) = step beh prev new (St.ofVec series p.rcs.length (List.ofFn y)) p := by
      rw [cellStep_list hN, ← List.append_nil (St.toVec _), ofVec_long k1 k2]
    simp only [cellRun, cellVolts, List.map_cons, ih]
    rw [e]
    simp only [cellVolt]
    rw [e]

/-- Without a temperature, and at the temperature the loss assumes. -/
theorem atTemp_same {p : Par} (h : SameAt25 p) (prev new : In) (s : St) : volt (atTemp new) s p = volt new s p ∧
    step beh (atTemp prev) (atTemp new) s p = step beh prev new s p := by
  obtain ⟨t, i, T⟩ := new
  obtain ⟨t', i', T'⟩ := prev
  have hr : ∀ rc ∈ p.rcs, ∀ (T : Option ℝ) s, rc.r s (some (T.getD 25)) = rc.r s T := by
    rintro rc hrc (_ | T) s
    · exact h.rcs rc hrc s
    · rfl
  constructor
  · have e1 : p.ocv s.soc (some (T.getD 25)) = p.ocv s.soc T := by cases T; exacts [h.ocv _, rfl]
    have e2 : p.r0 s.soc (some (T.getD 25)) = p.r0 s.soc T := by cases T; exacts [h.r0 _, rfl]
    have e3 : List.zipWith (fun i (rc : Cell.RC) => i * rc.r s.soc (some (T.getD 25))) s.irc p.rcs = List.zipWith (fun i (rc : Cell.RC) => i * rc.r s.soc T) s.irc p.rcs := by
      have : ∀ (l : List Cell.RC) (k : List ℝ), (∀ rc ∈ l, rc ∈ p.rcs) → 
          List.zipWith (fun i (rc : Cell.RC) => i * rc.r s.soc (some (T.getD 25))) k l = List.zipWith (fun i (rc : Cell.RC) => i * rc.r s.soc T) k l := by
        intro l
        induction l with
        | nil => intro k _; simp
        | cons rc l ih =>
          intro k hl
          cases k with
          | nil => rfl
          | cons q k => simp only [List.zipWith_cons_cons, hr rc (hl rc (by simp)), ih k fun rc hrc => hl rc (by simp [hrc])]
      exact this _ _ fun _ h => h
    simp only [volt, atTemp, e1, e2, e3]
  · have e3 : List.zipWith (rcNext beh (atTemp ⟨t', i', T'⟩) (atTemp ⟨t, i, T⟩) s.soc) p.rcs s.irc = List.zipWith (rcNext beh ⟨t', i', T'⟩ ⟨t, i, T⟩ s.soc) p.rcs s.irc := by
      have : ∀ (l : List Cell.RC) (k : List ℝ), (∀ rc ∈ l, rc ∈ p.rcs) → List.zipWith (rcNext beh (atTemp ⟨t', i', T'⟩) (atTemp ⟨t, i, T⟩) s.soc) l k =
          List.zipWith (rcNext beh ⟨t', i', T'⟩ ⟨t, i, T⟩ s.soc) l k := by
        intro l
        induction l with
        | nil => intro k _; rfl
        | cons rc l ih =>
          intro k hl
          cases k with
          | nil => rfl
          | cons q k =>
            rw [List.zipWith_cons_cons, List.zipWith_cons_cons, ih k fun rc hrc => hl rc (by simp [hrc])]
            congr 1
            simp only [rcNext, atTemp, hr rc (hl rc (by simp))]
            rfl
      exact this _ _ fun _ h => h
    have e4 : ∀ s, hystNext beh (atTemp ⟨t', i', T'⟩) (atTemp ⟨t, i, T⟩) s p = hystNext beh ⟨t', i', T'⟩ ⟨t, i, T⟩ s p := fun s => rfl
    rw [step, e3, e4]
    rfl

theorem atTemp_volts {p : Par} (h : SameAt25 p) (us : List In) : ∀ (prev : In) (s : St), 
    cellVolts beh p (atTemp prev) (us.map atTemp) s = cellVolts beh p prev us s := by
  induction us with
  | nil => intros; rfl
  | cons new us ih =>
    intro prev s
    obtain ⟨-, h2⟩ := atTemp_same (beh := beh) h prev new s
    obtain ⟨h1, -⟩ := atTemp_same (beh := beh) h prev new (step beh prev new s p)
    simp only [List.map_cons, cellVolts, h2, h1, ih]

theorem meanSquaredError_self (l : List ℝ) : meanSquaredError l l = 0 := by
  simp [meanSquaredError]

/-- The loss of the values that a dataset was simulated with. -/
theorem simulated_loss (h : FitsCircuit L beh x series a) {measured : Bool} {m : HV ℝ} {b : ASOH} (hm : HoldsCircuit x m b)
    (he : Estimable [] measured series b) {N : Nat} {y : Fin N → ℝ} {tr c : Container ℝ} (ht : HoldsTransients tr series b.rcs.length y)
    {u : Fin (2 + (if measured then 1 else 0)) → ℝ} (hc : HoldsInput c measured u)
    {cs : List (Container ℝ)} {us : List (Fin (2 + (if measured then 1 else 0)) → ℝ)} (hcs : List.Forall₂ (HoldsInput · measured ·) cs us)
    (hmoves : beh = .linear → ((u :: us).map fun u => (In.ofVec measured (List.ofFn u)).time).IsChain (· ≠ ·))
    {p : List ℝ} (hp : L.asoh.makeCopy (.d1 p) none = .ok m) :
    ∃ s s' ys table, Simulator.init (Ecm.cell beh x) (NoDegradation _ _ _ _) m tr c true = .ok s ∧ s.evolve cs = (s', .ok ys) ∧
      s'.toBatdata = .ok [table] ∧
      ({ L with rawData := some (tableRows table) } : Loss).value (List.ofFn y ++ p) = .ok (meanSquaredError
        (cellVoltages beh (parAt b 0) (atTemp (In.ofVec measured (List.ofFn u))) ((us.map fun u => In.ofVec measured (List.ofFn u)).map atTemp)
          (St.ofVec series b.rcs.length (List.ofFn y)))
        (cellVoltages beh (parAt b 0) (In.ofVec measured (List.ofFn u)) (us.map fun u => In.ofVec measured (List.ofFn u))
          (St.ofVec series b.rcs.length (List.ofFn y)))) ∧
      N = L.state.len ∧ p.length = L.asoh.numUpdatable ∧
      ∃ first later, List.Forall₂ Sample (tableRows table) (first :: later) ∧
        (beh = .linear → ((first :: later).map (·.1.time)).IsChain (· ≠ ·)) := by
  obtain ⟨s, s', ys, h1, h2, h3⟩ := C123_dataset (beh := beh) hm he ht hc hcs hmoves
  refine ⟨s, s', ys, _, h1, h2, h3, ?_⟩
  have hplen : p.length = L.asoh.numUpdatable := by
    have := makeCopy_width h.asoh.wf hp
    rw [numUpdatable_size h.asoh.wf h.asoh.unbatched] at this
    exact this.symm
  obtain ⟨m', b', g1, g2, g3, -⟩ := fit_copy h hplen
  cases hp.symm.trans g1
  cases hm.read.symm.trans g2.read
  have hlen : (parAt b 0).rcs.length = b.rcs.length := by simp [parAt]
  have hN : N = 1 + (if series then 1 else 0) + b.rcs.length + 1 := by
    rw [← state_len ht.layout ht.value]; exact (List.length_ofFn).symm
  have hstate : N = L.state.len := by
    have hw := circuitState_wf h.state
    rw [len_layout hw.1 h.state, ← g3, ← len_layout (circuitState_wf ht.layout).1 ht.layout]
    exact (C15_length_width_names tr (circuitState_wf ht.layout)).2.2.2.1 _ ht.value ▸ (List.length_ofFn (f := y)).symm
  have hrows : ∀ (us : List (Fin (2 + (if measured then 1 else 0)) → ℝ)) (ts : List ((Fin N → ℝ) × (Fin 1 → ℝ))), us.length = ts.length →
      List.Forall₂ Sample (tableRows (circuitColumns measured series b.rcs.length,
        List.zipWith (fun u t => (List.ofFn u ++ List.ofFn t.1 ++ List.ofFn t.2).map some) us ts))
        ((us.map fun u => atTemp (In.ofVec measured (List.ofFn u))).zip (ts.map fun t => t.2 0)) := by
    intro us
    induction us with
    | nil => intro ts _; exact .nil
    | cons u us ih =>
      intro ts hl
      cases ts with
      | nil => cases hl
      | cons t ts => exact .cons (circuit_sample hN u t.1 t.2) (ih ts (by simpa using hl))
  have hrun : ∀ (prev : In) (y : Fin N → ℝ) (l : List In), (cellRun beh (parAt b 0) series prev y l).length = l.length := by
    intro prev y l
    induction l generalizing prev y with
    | nil => rfl
    | cons i l ih => simp only [cellRun, List.length_cons, ih]
  have hs := hrows (u :: us) ((y, cellVolt (parAt b 0) series (In.ofVec measured (List.ofFn u)) y) ::
      cellRun beh (parAt b 0) series (In.ofVec measured (List.ofFn u)) y (us.map fun u => In.ofVec measured (List.ofFn u)))
    (by rw [List.length_cons, List.length_cons, hrun, List.length_map])
  rw [List.map_cons, List.map_cons, List.zip_cons_cons, cellRun_volts (by rw [hlen]; exact hN)] at hs
  have hvl : ∀ (l : List In) (prev : In) (s : St), (cellVolts beh (parAt b 0) prev l s).length = l.length := by
    intro l
    induction l with
    | nil => intros; rfl
    | cons i l ih => intro prev s; simp only [cellVolts, List.length_cons, ih]
  have hz1 : ((us.map fun u => atTemp (In.ofVec measured (List.ofFn u))).zip (cellVolts beh (parAt b 0) (In.ofVec measured (List.ofFn u))
      (us.map fun u => In.ofVec measured (List.ofFn u)) (St.ofVec series (parAt b 0).rcs.length (List.ofFn y)))).map (·.1) =
      (us.map fun u => In.ofVec measured (List.ofFn u)).map atTemp := by
    rw [List.map_fst_zip (by rw [hvl]; simp), List.map_map]; rfl
  have hz2 : ((us.map fun u => atTemp (In.ofVec measured (List.ofFn u))).zip (cellVolts beh (parAt b 0) (In.ofVec measured (List.ofFn u))
      (us.map fun u => In.ofVec measured (List.ofFn u)) (St.ofVec series (parAt b 0).rcs.length (List.ofFn y)))).map (·.2) =
      cellVolts beh (parAt b 0) (In.ofVec measured (List.ofFn u)) (us.map fun u => In.ofVec measured (List.ofFn u))
        (St.ofVec series (parAt b 0).rcs.length (List.ofFn y)) := List.map_snd_zip (by rw [hvl]; simp)
  have hch : beh = .linear → ((((atTemp (In.ofVec measured (List.ofFn u)), cellVolt (parAt b 0) series (In.ofVec measured (List.ofFn u)) y 0) ::
      (us.map fun u => atTemp (In.ofVec measured (List.ofFn u))).zip (cellVolts beh (parAt b 0) (In.ofVec measured (List.ofFn u))
      (us.map fun u => In.ofVec measured (List.ofFn u)) (St.ofVec series (parAt b 0).rcs.length (List.ofFn y)))).map (·.1.time)).IsChain (· ≠ ·)) := by
    intro hb
    have e := congrArg (List.map In.time) hz1
    rw [List.map_map] at e
    rw [List.map_cons]
    refine (congrArg (fun l => List.IsChain (· ≠ ·) ((atTemp (In.ofVec measured (List.ofFn u))).time :: l)) e).mpr ?_
    have := hmoves hb
    rw [List.map_cons] at this
    rw [List.map_map, List.map_map]
    exact this
  obtain ⟨cell, ⟨m'', b'', e1, e2, rfl⟩, hv⟩ := C138_loss (L := { L with rawData := some _ }) ⟨h.cell, h.asoh, h.state, h.evaluable⟩ rfl hs hch
    (List.ofFn y) p (by rw [List.length_ofFn]; exact hstate) hplen
  cases hp.symm.trans e1
  cases hm.read.symm.trans e2
  refine ⟨hv.trans (congrArg Except.ok ?_), hstate, hplen, _, _, hs, hch⟩
  rw [hz1, List.map_cons, hz2, ← g3, hlen]
  have : cellVolt (parAt b 0) series (In.ofVec measured (List.ofFn u)) y 0 =
      volt (In.ofVec measured (List.ofFn u)) (St.ofVec series b.rcs.length (List.ofFn y)) (parAt b 0) := by
    rw [← hlen]; rfl
  show meanSquaredError _ (cellVolt (parAt b 0) series (In.ofVec measured (List.ofFn u)) y 0 :: _) = _
  rw [this]
  rfl

/-! ## C139 -/

/-- C139: the dataset that a simulator exports is fitted exactly by the state and the parameters it was simulated with: their loss is 0, and no loss is
smaller.  Partial: if the inputs have no temperature, only for circuits that are at 25 °C what they are without one
(`C139_not_without_temperature`). -/
theorem C139_simulated_fit_partial (h : FitsCircuit L beh x series a) {measured : Bool} {m : HV ℝ} {b : ASOH} (hm : HoldsCircuit x m b)
    (he : Estimable [] measured series b) {N : Nat} {y : Fin N → ℝ} {tr c : Container ℝ} (ht : HoldsTransients tr series b.rcs.length y)
    {u : Fin (2 + (if measured then 1 else 0)) → ℝ} (hc : HoldsInput c measured u)
    {cs : List (Container ℝ)} {us : List (Fin (2 + (if measured then 1 else 0)) → ℝ)} (hcs : List.Forall₂ (HoldsInput · measured ·) cs us)
    (hmoves : beh = .linear → ((u :: us).map fun u => (In.ofVec measured (List.ofFn u)).time).IsChain (· ≠ ·))
    {p : List ℝ} (hp : L.asoh.makeCopy (.d1 p) none = .ok m) (h25 : measured = false → SameAt25 (parAt b 0)) :
    ∃ s s' ys table, Simulator.init (Ecm.cell beh x) (NoDegradation _ _ _ _) m tr c true = .ok s ∧ s.evolve cs = (s', .ok ys) ∧
      s'.toBatdata = .ok [table] ∧
      ({ L with rawData := some (tableRows table) } : Loss).value (List.ofFn y ++ p) = .ok 0 ∧
      ∀ t q l, t.length = L.state.len → ({ L with rawData := some (tableRows table) } : Loss).value (t ++ q) = .ok l → 0 ≤ l := by
  obtain ⟨s, s', ys, table, h1, h2, h3, h4, -⟩ := simulated_loss h hm he ht hc hcs hmoves hp
  refine ⟨s, s', ys, table, h1, h2, h3, h4.trans (congrArg Except.ok ?_), fun t q l hl hv =>
    (C70_zero_iff_exact { L with rawData := some _ } t q hl l hv).1⟩
  have hsame : ∀ us : List (Fin (2 + (if measured then 1 else 0)) → ℝ), ∀ (u : Fin (2 + (if measured then 1 else 0)) → ℝ) (s : St),
      cellVoltages beh (parAt b 0) (atTemp (In.ofVec measured (List.ofFn u))) ((us.map fun u => In.ofVec measured (List.ofFn u)).map atTemp) s =
      cellVoltages beh (parAt b 0) (In.ofVec measured (List.ofFn u)) (us.map fun u => In.ofVec measured (List.ofFn u)) s := by
    intro us u s
    cases measured with
    | false =>
      have h25 := h25 rfl
      rw [cellVoltages, atTemp_volts h25, (atTemp_same (beh := beh) h25 (In.ofVec false (List.ofFn u)) _ s).1]
      rfl
    | true =>
      rw [List.map_map]
      rfl
  rw [hsame]
  exact meanSquaredError_self _

/-- The concrete circuit with another reference temperature of R0. -/
noncomputable def Demo.fixed20 : Fixed := { Demo.fixed with r0 := ⟨⟨none, .linear⟩, 20⟩ }

/-- See `Demo.fixed20`. -/
noncomputable def Demo.arrays20 : ASOH := { Demo.arrays with r0 := ⟨⟨(Arr2.ofRow [0.05]).toNd, none, .linear⟩, 20, (Arr2.ofRow [0.0025]).toNd⟩ }

theorem Demo.holds20 (u ur : List Name) : HoldsCircuit Demo.fixed20 (Demo.hvUpdating u ur) Demo.arrays20 :=
  have h := Demo.arrays_pars
  ⟨Demo.hv_wf u ur, Demo.hv_single u ur, rfl, h.qt, h.ce, h.gamma, h.ref, h.refTemp, h.ent, ⟨.inl rfl, .inl rfl⟩, h.c0, h.rcs, h.hyst⟩

theorem Demo.estimable20 {measured : Bool} : Estimable [] measured false Demo.arrays20 :=
  have h := Demo.estimating_estimable .constant .identity
  ⟨h.ocv, fun _ => .inl rfl, h.r0, h.c0, h.rcs, h.hyst, nofun, nofun, nofun, fun _ _ _ => nofun, fun _ => nofun, fun _ _ _ => nofun, fun _ => nofun,
    fun _ _ _ _ => nofun, fun _ _ _ _ h => by rcases h with h | h <;> cases h⟩

/-- Inputs without a temperature. -/
noncomputable def Demo.colds (us : List (Fin 2 → ℝ)) : List (Container ℝ) :=
  us.map fun u => ⟨[(kTime, some (.ofRow [u 0])), (kCurrent, some (.ofRow [u 1])), (kTemp, none)]⟩

theorem Demo.colds_hold (us : List (Fin 2 → ℝ)) : List.Forall₂ (HoldsInput · false ·) (Demo.colds us) us := by
  unfold Demo.colds
  rw [List.forall₂_map_left_iff, List.forall₂_same]
  refine fun u _ => ⟨rfl, ?_, ?_⟩
  · intro q hq
    have hq : q ∈ [(kTime, Arr2.ofRow [u 0]), (kCurrent, Arr2.ofRow [u 1])] := hq
    simp only [List.mem_cons, List.not_mem_nil, or_false] at hq
    rcases hq with rfl | rfl <;> rfl
  · show Except.ok (Arr2.ofRow [u 0, u 1]) = .ok (Arr2.ofRow (List.ofFn u))
    simp [List.ofFn_succ]

theorem Demo.cold_holds : HoldsInput Demo.coldInput false ![0, 1] :=
  ⟨rfl, Demo.coldInput_single, rfl⟩

/-- C139 without the restriction on temperatures fails: for the concrete circuit, with a reference temperature of 20 °C for its R0, every dataset that is
simulated without temperatures, however long, is not fitted exactly by the values it was simulated with. -/
theorem C139_not_without_temperature (us : List (Fin 2 → ℝ)) :
    ∃ (L : Loss) (s s' : Simulator (Container ℝ) (Container ℝ) (HV ℝ) (Container ℝ)) (ys : List (Container ℝ)) (table : _) (l : ℝ),
      FitsCircuit L .constant Demo.fixed20 false Demo.arrays20 ∧ L.asoh = Demo.hvUpdating [] [] ∧
      Simulator.init (Ecm.cell .constant Demo.fixed20) (NoDegradation _ _ _ _) (Demo.hvUpdating [] []) Demo.hvState Demo.coldInput true = .ok s ∧
      s.evolve (Demo.colds us) = (s', .ok ys) ∧ s'.toBatdata = .ok [table] ∧ L.rawData = some (tableRows table) ∧
      L.value [0.5, 0, 0] = .ok l ∧ 0 < l := by
  have hf : FitsCircuit ⟨Ecm.cell .constant Demo.fixed20, Demo.hvUpdating [] [], Demo.hvState, none⟩ .constant Demo.fixed20 false Demo.arrays20 :=
    ⟨rfl, Demo.holds20 _ _, Demo.state_holds.layout, Demo.estimable20⟩
  obtain ⟨s, s', ys, table, h1, h2, h3, h4, -⟩ := simulated_loss (p := []) hf (Demo.holds20 [] []) (Demo.estimable20 (measured := false)) Demo.state_holds Demo.cold_holds
    (Demo.colds_hold us) nofun rfl
  refine ⟨⟨Ecm.cell .constant Demo.fixed20, Demo.hvUpdating [] [], Demo.hvState, some (tableRows table)⟩, s, s', ys, table, _, ⟨hf.cell, hf.asoh, hf.state, hf.evaluable⟩,
    rfl, h1, h2, h3, rfl, h4, lt_of_le_of_ne (meanSquaredError_nonneg _ _) fun h0 => ?_⟩
  have hvl : ∀ (p : Par) (l : List In) (prev : In) (s : St), (cellVolts .constant p prev l s).length = l.length := by
    intro p l
    induction l with
    | nil => intros; rfl
    | cons i l ih => intro prev s; simp only [cellVolts, List.length_cons, ih]
  have := (meanSquaredError_zero (by simp only [cellVoltages, List.length_cons, hvl, List.length_map])).1 h0.symm
  have h := (List.cons.inj this).1
  have hr : ∀ t, (parAt Demo.arrays20 0).r0 0.5 t = resAt Demo.arrays20.r0 0 0.5 t := fun _ => rfl
  have e : (parAt Demo.arrays20 0).r0 0.5 (some 25) = (parAt Demo.arrays20 0).r0 0.5 none := by
    have hi : (In.ofVec false (List.ofFn (![0, 1] : Fin 2 → ℝ))) = ⟨0, 1, none⟩ := by simp [In.ofVec, List.ofFn_succ]
    have hs : St.ofVec false Demo.arrays20.rcs.length (List.ofFn (![0.5, 0, 0] : Fin 3 → ℝ)) = ⟨0.5, none, [0], 0⟩ := by
      simp [St.ofVec, Demo.arrays20, Demo.arrays, List.ofFn_succ]
    rw [hi, hs] at h
    have ho : (parAt Demo.arrays20 0).ocv 0.5 (some 25) = (parAt Demo.arrays20 0).ocv 0.5 none := by
      simp [parAt, ocvAt, Demo.arrays20, Demo.arrays, at2, Arr2.toNd, Arr2.ofRow, Ecm.rows]
    simp only [volt, atTemp, Option.getD_none, ho] at h
    have hz : ∀ t, (List.zipWith (fun i (rc : Cell.RC) => i * rc.r 0.5 t) [0] (parAt Demo.arrays20 0).rcs).sum = 0 := by
      intro t
      simp [parAt, Demo.arrays20, Demo.arrays]
    rw [hz, hz] at h
    linarith
  have hc : curveAt Demo.arrays20.r0.interp 0 0.5 = 0.05 := by
    simp [curveAt, Demo.arrays20, Interp.width, Interp.rows, Arr2.toNd, Arr2.ofRow]
  have ht : at2 Demo.arrays20.r0.tdf 0 = 0.0025 := by simp [at2, Demo.arrays20, Arr2.toNd, Arr2.ofRow, Ecm.rows]
  simp only [hr, resAt, hc, ht] at e
  have : Real.exp (-0.0025 * (25 - Demo.arrays20.r0.refTemp)) = 1 := by linarith
  rw [Real.exp_eq_one_iff] at this
  have : Demo.arrays20.r0.refTemp = 20 := rfl
  norm_num [this] at *

/-! ## Proofs: circuits with straight curves -/

open Matrix in
theorem AffineFn.comp {N M : Nat} {g : (Fin M → ℝ) → ℝ} {G : (Fin N → ℝ) → Fin M → ℝ} (hg : AffineFn g) (hG : ∀ i, AffineFn fun y => G y i) :
    AffineFn fun y => g (G y) := by
  obtain ⟨k, c, e⟩ := hg
  refine ⟨k ᵥ* slopes G, k ⬝ᵥ G 0 + c, fun y => ?_⟩
  show g (G y) = _
  rw [e, slopes_affine hG y, dotProduct_add, dotProduct_mulVec, add_assoc]

/-- A circuit whose estimated parameters are numbers of the vector: its voltages are affine functions of the vector. -/
theorem volts_affine {N d : Nat} {P : (Fin N → ℝ) → Par} {p : Par} (hlen : ∀ y, (P y).rcs.length = p.rcs.length)
    (hd : d = 1 + (if series then 1 else 0) + p.rcs.length + 1) (hN : d ≤ N)
    (hP : ∀ y y', (List.ofFn y).drop d = (List.ofFn y').drop d → P y = P y')
    (hstep : ∀ prev new i, AffineFn fun y : Fin N → ℝ => ((step beh prev new (St.ofVec series p.rcs.length (List.ofFn y)) (P y)).toVec ++
      (List.ofFn y).drop d).getD (i : Fin N) 0)
    (hvolt : ∀ new, AffineFn fun y : Fin N → ℝ => volt new (St.ofVec series p.rcs.length (List.ofFn y)) (P y)) (us : List In) :
    ∀ (prev : In) (G : (Fin N → ℝ) → Fin N → ℝ), (∀ i, AffineFn fun y => G y i) → (∀ y, (List.ofFn (G y)).drop d = (List.ofFn y).drop d) → ∀ j,
      AffineFn fun y => (cellVolts beh (P y) prev us (St.ofVec series p.rcs.length (List.ofFn (G y)))).getD j 0 := by
  induction us with
  | nil => intro prev G _ _ j; exact (AffineFn.const 0).congr fun y => by simp [cellVolts]
  | cons new us ih =>
    intro prev G hG hGd j
    let next (y : Fin N → ℝ) : Fin N → ℝ := fun i => ((step beh prev new (St.ofVec series p.rcs.length (List.ofFn y)) (P y)).toVec ++
      (List.ofFn y).drop d).getD i 0
    have hPG : ∀ y, P (G y) = P y := fun y => hP _ _ (hGd y)
    have hshape : ∀ y : Fin N → ℝ, (step beh prev new (St.ofVec series p.rcs.length (List.ofFn y)) (P y)).q0.isSome = series ∧
        (step beh prev new (St.ofVec series p.rcs.length (List.ofFn y)) (P y)).irc.length = p.rcs.length := by
      intro y
      have := step_shape (beh := beh) (series := series) (p := P y) (l := List.ofFn y) prev new (by rw [List.length_ofFn, hlen]; omega)
      rwa [hlen] at this
    have hvec : ∀ y : Fin N → ℝ, (step beh prev new (St.ofVec series p.rcs.length (List.ofFn y)) (P y)).toVec.length = d := by
      intro y
      obtain ⟨k1, k2⟩ := hshape y
      generalize step beh prev new _ _ = s at k1 k2
      obtain ⟨soc, q, irc, hy⟩ := s
      simp only at k1 k2
      cases q <;> simp only [Option.isSome_none, Option.isSome_some] at k1 <;> subst k1 <;> simp [St.toVec, k2, hd] <;> omega
    have hlist : ∀ y, List.ofFn (next y) = (step beh prev new (St.ofVec series p.rcs.length (List.ofFn y)) (P y)).toVec ++ (List.ofFn y).drop d := by
      intro y
      refine List.ext_getElem ?_ fun i h1 h2 => ?_
      · rw [List.length_ofFn, List.length_append, hvec, List.length_drop, List.length_ofFn]; omega
      · rw [List.getElem_ofFn]
        show List.getD _ i 0 = _
        rw [List.getD_eq_getElem?_getD, List.getElem?_eq_getElem h2, Option.getD_some]
    have hst : ∀ y, St.ofVec series p.rcs.length (List.ofFn (next y)) = step beh prev new (St.ofVec series p.rcs.length (List.ofFn y)) (P y) := fun y => by
      rw [hlist, ofVec_long (hshape y).1 (hshape y).2]
    have hnd : ∀ y, (List.ofFn (next y)).drop d = (List.ofFn y).drop d := fun y => by
      rw [hlist, List.drop_left' (hvec y)]
    have hPn : ∀ y, P (next y) = P y := fun y => hP _ _ (hnd y)
    have hGn : ∀ i, AffineFn fun y => next (G y) i := fun i => (hstep prev new i).comp hG
    cases j with
    | zero =>
      refine ((hvolt new).comp hGn).congr fun y => ?_
      simp only [cellVolts, List.getD_cons_zero]
      rw [hst, hPn, hPG]
    | succ j =>
      refine (ih new (fun y => next (G y)) hGn (fun y => (hnd _).trans (hGd y)) j).congr fun y => ?_
      simp only [cellVolts, List.getD_cons_succ]
      rw [hst, hPG]

/-- The steps and voltages of the circuits that the vectors stand for. -/
theorem straight_affine {m : HV ℝ} {ns : List Name} (hm : HoldsCircuit x m a) (hnd : ns.Nodup) (hup : ∀ n ∈ ns, n ∈ m.updatableNames)
    (hs : JointlyStraight ns a) {N d : Nat} (hd : d = 1 + (if series then 1 else 0) + a.rcs.length + 1) (hN : N = d + totalSize m ns) :
    ∃ P : (Fin N → ℝ) → Par, (∀ y, CircuitWith m ns x ((List.ofFn y).drop d) (P y)) ∧ (∀ y, (P y).rcs.length = a.rcs.length) ∧
      (∀ prev new i, AffineFn fun y : Fin N → ℝ => ((step beh prev new (St.ofVec series a.rcs.length (List.ofFn y)) (P y)).toVec ++
        (List.ofFn y).drop d).getD (i : Fin N) 0) ∧
      ∀ new, AffineFn fun y : Fin N → ℝ => volt new (St.ofVec series a.rcs.length (List.ofFn y)) (P y) := by
  have hval : ∀ y : Fin N → ℝ, ∃ m' b, m.makeCopy (.d1 ((List.ofFn y).drop d)) (some ns) = .ok m' ∧ readASOH x m' = .ok b ∧
      ASOHRel (valueRel m ns ((List.ofFn y).drop d)) a b := by
    intro y
    obtain ⟨m', h1, h2⟩ := copy_values hm.wf hm.unbatched hnd hup (z := (List.ofFn y).drop d) (by rw [List.length_drop, List.length_ofFn]; omega)
    obtain ⟨b, h3, h4⟩ := readASOH_alike h2 hm.read
    exact ⟨m', b, h1, h3, h4⟩
  choose m' b h1 h2 h3 using hval
  choose o1 o2 o3 o4 o5 o6 o7 using fun y => par_others (h3 y) hs.only
  let p : Par := { parAt a 0 with ocv := fun _ _ => 0, r0 := fun _ _ => 0, hystMax := fun _ => 0 }
  have hlen : p.rcs.length = a.rcs.length := by simp [p, parAt]
  have flat : ∀ {h : Interp}, h.width = 1 → ∀ s, curveAt h 0 s = curveAt h 0 0 := fun hw s => by simp [curveAt, hw]
  have hp : Straight p := by
    refine ⟨fun t => ⟨0, fun s => by simp [p]⟩, fun t => ⟨0, fun s => by simp [p]⟩, ⟨0, fun s => by simp [p]⟩, fun c hc' s => ?_, fun rc hrc s => ?_,
      ⟨hs.divisors.qt, hs.divisors.rcs, hs.divisors.c0⟩⟩
    · obtain ⟨c', hc'', rfl⟩ := Option.mem_map.1 hc'
      exact flat (hs.c0 c' hc'') s
    · obtain ⟨rc', hrc', rfl⟩ := List.mem_map.1 hrc
      refine ⟨fun t => ?_, flat (hs.rcs rc' hrc').2 s⟩
      cases t with
      | none => exact flat (hs.rcs rc' hrc').1 s
      | some t => simp only [resAt]; rw [flat (hs.rcs rc' hrc').1 s]
  have hsoc : AffineFn fun y : Fin N → ℝ => (List.ofFn y).getD 0 0 := .entry 0
  refine ⟨fun y => parAt (b y) 0, fun y => ⟨m' y, b y, h1 y, h2 y, rfl⟩, fun y => by rw [o4]; simp [parAt], fun prev new i => ?_, fun new => ?_⟩
  · refine (joint_step_affine (beh := beh) (series := series) (P := fun y => parAt (b y) 0) hp o1 o2 o4 o5
      (curve_joint (fun y => (h3 y).hyst) hm.single.hyst hs.hyst hsoc) (by rw [hlen]; omega) prev new i).congr fun y => ?_
    rw [hlen, hd]
  · have hr := curve_joint (fun y => (h3 y).ref) hm.single.ref hs.ref hsoc
    have hn := curve_joint (fun y => (h3 y).ent) hm.single.ent hs.ent hsoc
    have h0 := curve_joint (fun y => (h3 y).r0.1) hm.single.r0.1 hs.r0 hsoc
    refine (joint_volt_affine (series := series) (P := fun y => parAt (b y) 0) (new := new) hp o3 o4 rfl rfl ?_ ?_).congr fun y => ?_
    · cases hT : new.temp with
      | none => exact hr
      | some t =>
        refine (hr.add (hn.mul (t - at2 a.ocv.refTemp 0))).congr fun z => ?_
        show curveAt (b z).ocv.ref 0 _ + (t - at2 (b z).ocv.refTemp 0) * curveAt (b z).ocv.ent 0 _ = _
        rw [o6]
    · cases hT : new.temp with
      | none => exact h0
      | some t =>
        refine (h0.mul (Real.exp (-at2 a.r0.tdf 0 * (t - a.r0.refTemp)))).congr fun z => ?_
        show curveAt (b z).r0.interp 0 _ * Real.exp (-at2 (b z).r0.tdf 0 * (t - (b z).r0.refTemp)) = _
        rw [o7, (h3 z).r0.2.1, mul_comm]
    · rw [hlen]

/-! ## C140 -/

open Matrix

/-- C140: if the curves of the circuit are straight and the updatable parameters are single values of the open-circuit voltage, of R0 or of the maximum
hysteresis, then the loss is defined for every vector, and is the average over the rows of the squares of affine functions of the vector. -/
theorem C140_least_squares (h : FitsCircuit L beh x series a) (hs : JointlyStraight L.asoh.updatableNames a) {rows : List Row} (hrows : L.rawData = some rows)
    {first : In × ℝ} {later : List (In × ℝ)} (hobs : List.Forall₂ Sample rows (first :: later))
    (hmoves : beh = .linear → ((first :: later).map (·.1.time)).IsChain (· ≠ ·)) {N : Nat} (hN : N = L.state.len + L.asoh.numUpdatable) :
    ∃ (A : Matrix (Fin rows.length) (Fin N) ℝ) (c : Fin rows.length → ℝ), ∀ z : Fin N → ℝ,
      L.value (List.ofFn z) = .ok ((∑ i, ((A *ᵥ z + c) i) ^ 2) / rows.length) := by
  have hw := circuitState_wf h.state
  have hd : L.state.len = 1 + (if series then 1 else 0) + a.rcs.length + 1 := by
    rw [len_layout hw.1 h.state]
    cases series <;>
      simp [Container.len, Container.allFields, Container.lengthField, circuitState, assoc, kSoc, kQ0, kIrc, kHyst, Arr2.scalar, Arr2.ofRow] <;>
      omega
  obtain ⟨P, p1, p2, p3, p4⟩ := straight_affine (beh := beh) (series := series) h.asoh (C02_names_distinct _ h.asoh.wf).2 (fun n hn => hn) hs hd
    (N := N) (by rw [hN, numUpdatable_size h.asoh.wf h.asoh.unbatched])
  have hlen : (parAt a 0).rcs.length = a.rcs.length := by simp [parAt]
  have hv := volts_affine (beh := beh) (series := series) (d := L.state.len) (P := P) (p := parAt a 0) (by rw [hlen]; exact p2) (by rw [hlen]; exact hd) (by omega)
    (fun y y' e => circuitWith_unique (p1 y) (by rw [e]; exact p1 y')) (by rw [hlen]; exact p3) (by rw [hlen]; exact p4) (later.map (·.1)) first.1 (fun y => y)
    (fun i => .coord i) (fun _ => rfl)
  rw [hlen] at hv
  have haff : ∀ j, AffineFn fun y : Fin N → ℝ => (cellVoltages beh (P y) first.1 (later.map (·.1)) (St.ofVec series a.rcs.length (List.ofFn y))).getD j 0 := by
    intro j
    cases j with
    | zero => exact p4 first.1
    | succ j => exact hv j
  have hl : rows.length = later.length + 1 := hobs.length_eq
  choose A c hA using haff
  refine ⟨fun i => A i, fun i => c i - ((first :: later).map (·.2)).getD i 0, fun z => ?_⟩
  have hsplit : List.ofFn z = (List.ofFn z).take L.state.len ++ (List.ofFn z).drop L.state.len := (List.take_append_drop _ _).symm
  obtain ⟨cell, hc, hval⟩ := C138_loss h hrows hobs hmoves ((List.ofFn z).take L.state.len) ((List.ofFn z).drop L.state.len)
    (by rw [List.length_take, List.length_ofFn]; omega) (by rw [List.length_drop, List.length_ofFn]; omega)
  obtain rfl := circuitWith_unique hc (p1 z)
  have htake : St.ofVec series a.rcs.length ((List.ofFn z).take L.state.len) = St.ofVec series a.rcs.length (List.ofFn z) := by
    unfold St.ofVec
    simp only [List.getD_eq_getElem?_getD, List.getElem?_take, List.drop_take, List.take_take]
    congr 1
    · rw [if_pos (by omega)]
    · cases series
      · rfl
      · simp only [if_true] at hd ⊢
        rw [if_pos (by omega)]
    · congr 1
      omega
    · rw [if_pos (by omega)]
  rw [← hsplit, htake] at hval
  refine hval.trans (congrArg Except.ok ?_)
  have hvl : ∀ (l : List In) (prev : In) (s : St), (cellVolts beh (P z) prev l s).length = l.length := by
    intro l
    induction l with
    | nil => intros; rfl
    | cons i l ih => intro prev s; simp only [cellVolts, List.length_cons, ih]
  have hcl : (cellVoltages beh (P z) first.1 (later.map (·.1)) (St.ofVec series a.rcs.length (List.ofFn z))).length = rows.length := by
    rw [cellVoltages, List.length_cons, hvl, List.length_map, hl]
  have hol : ((first :: later).map (·.2)).length = rows.length := by rw [List.length_map, hl, List.length_cons]
  unfold meanSquaredError
  rw [hol]
  congr 1
  have hsum : ∀ (n : Nat) (k l : List ℝ), k.length = n → l.length = n →
      (List.zipWith (fun p o => (p - o) ^ 2) k l).sum = ∑ i : Fin n, (k.getD i 0 - l.getD i 0) ^ 2 := by
    intro n
    induction n with
    | zero => intro k l hk hl; rw [List.length_eq_zero_iff.1 hk]; simp
    | succ n ih =>
      intro k l hk hl
      match k, l, hk, hl with
      | a :: k, b :: l, hk, hl =>
        rw [List.zipWith_cons_cons, List.sum_cons, ih k l (by simpa using hk) (by simpa using hl), Fin.sum_univ_succ]
        simp
  rw [hsum _ _ _ hcl hol]
  refine Finset.sum_congr rfl fun i _ => ?_
  have e : (cellVoltages beh (P z) first.1 (later.map (·.1)) (St.ofVec series a.rcs.length (List.ofFn z))).getD i 0 = A i ⬝ᵥ z + c i := hA i z
  rw [e]
  congr 1
  show _ = A i ⬝ᵥ z + (c i - _)
  ring

/-- The average of the squares of affine functions is convex, and has a minimum. -/
theorem squares_convex {n N : Nat} (A : Matrix (Fin n) (Fin N) ℝ) (c : Fin n → ℝ) :
    ConvexOn ℝ Set.univ (fun z : Fin N → ℝ => (∑ i, ((A *ᵥ z + c) i) ^ 2) / n) := by
  have h1 : ∀ i, ConvexOn ℝ Set.univ (fun z : Fin N → ℝ => ((A *ᵥ z + c) i) ^ 2) := by
    intro i
    have h := (even_two.convexOn_pow (𝕜 := ℝ)).comp_affineMap
      ((LinearMap.proj i ∘ₗ A.mulVecLin).toAffineMap + AffineMap.const ℝ (Fin N → ℝ) (c i))
    exact h
  have h2 : ConvexOn ℝ Set.univ (fun z : Fin N → ℝ => ∑ i, ((A *ᵥ z + c) i) ^ 2) := by
    have : ∀ t : Finset (Fin n), ConvexOn ℝ Set.univ (fun z : Fin N → ℝ => ∑ i ∈ t, ((A *ᵥ z + c) i) ^ 2) := by
      intro t
      classical
      induction t using Finset.induction_on with
      | empty => simpa using convexOn_const (𝕜 := ℝ) (0 : ℝ) convex_univ
      | insert i t hi ih =>
        refine ((h1 i).add ih).congr fun z _ => ?_
        simp [Finset.sum_insert hi]
    exact this Finset.univ
  refine (h2.smul (c := (n : ℝ)⁻¹) (by positivity)).congr fun z _ => ?_
  show (n : ℝ)⁻¹ * _ = _
  rw [div_eq_inv_mul]

theorem squares_minimum {n N : Nat} (A : Matrix (Fin n) (Fin N) ℝ) (c : Fin n → ℝ) :
    ∃ z, ∀ z' : Fin N → ℝ, (∑ i, ((A *ᵥ z + c) i) ^ 2) / n ≤ (∑ i, ((A *ᵥ z' + c) i) ^ 2) / n := by
  let T : (Fin N → ℝ) →ₗ[ℝ] EuclideanSpace ℝ (Fin n) := (WithLp.linearEquiv 2 ℝ (Fin n → ℝ)).symm.toLinearMap ∘ₗ A.mulVecLin
  obtain ⟨q, ⟨z, rfl⟩, hq⟩ := (Submodule.closed_of_finiteDimensional (LinearMap.range T)).exists_infDist_eq_dist ⟨0, 0, map_zero _⟩
    (WithLp.toLp 2 (-c))
  refine ⟨z, fun z' => ?_⟩
  have hle := (Metric.infDist_le_dist_of_mem (x := WithLp.toLp 2 (-c)) (LinearMap.mem_range_self T z')).trans' hq.ge
  have hd : ∀ z, dist (WithLp.toLp 2 (-c)) (T z) ^ 2 = ∑ i, ((A *ᵥ z + c) i) ^ 2 := by
    intro z
    rw [dist_comm, EuclideanSpace.dist_eq, Real.sq_sqrt (Finset.sum_nonneg fun i _ => sq_nonneg _)]
    refine Finset.sum_congr rfl fun i _ => ?_
    rw [Real.dist_eq, sq_abs]
    show ((A *ᵥ z) i - -c i) ^ 2 = ((A *ᵥ z) i + c i) ^ 2
    ring
  rw [← hd, ← hd]
  exact div_le_div_of_nonneg_right (pow_le_pow_left₀ dist_nonneg hle 2) (by positivity)

/-- C140: the loss of such a circuit is a convex function of the state and the parameters that has a minimum, and each of its local minima is one. -/
theorem C140_convex (h : FitsCircuit L beh x series a) (hs : JointlyStraight L.asoh.updatableNames a) {rows : List Row} (hrows : L.rawData = some rows)
    {first : In × ℝ} {later : List (In × ℝ)} (hobs : List.Forall₂ Sample rows (first :: later))
    (hmoves : beh = .linear → ((first :: later).map (·.1.time)).IsChain (· ≠ ·)) {N : Nat} (hN : N = L.state.len + L.asoh.numUpdatable) :
    ∃ f : (Fin N → ℝ) → ℝ, (∀ z, L.value (List.ofFn z) = .ok (f z)) ∧ ConvexOn ℝ Set.univ f ∧ (∃ best, ∀ z, f best ≤ f z) ∧
      ∀ z, IsLocalMin f z → ∀ z', f z ≤ f z' := by
  obtain ⟨A, c, e⟩ := C140_least_squares h hs hrows hobs hmoves hN
  exact ⟨_, e, squares_convex A c, squares_minimum A c, fun z hz => IsMinOn.of_isLocalMin_of_convex_univ hz (squares_convex A c)⟩

/-- C140: if SciPy returns a point at which the function it is given is smallest among the points that are near enough in every coordinate, then the
estimate of such a circuit explains the data best: no state and parameters have a smaller loss. -/
theorem C140_estimate_best (h : FitsCircuit L beh x series a) (hs : JointlyStraight L.asoh.updatableNames a) {rows : List Row}
    (hrows : L.rawData = some rows) {first : In × ℝ} {later : List (In × ℝ)} (hobs : List.Forall₂ Sample rows (first :: later))
    (hmoves : beh = .linear → ((first :: later).map (·.1.time)).IsChain (· ≠ ·))
    {M : Nat} {w : Fin M → ℝ} (ht : HoldsTransients L.state series a.rcs.length w)
    {minimize : (List ℝ → Except Err ℝ) → List ℝ → Except Err (List ℝ)} (hmin : LocalSearch minimize)
    {state : Container ℝ} {asoh : HV ℝ} {z : List ℝ} (he : L.estimate minimize = .ok (state, asoh, z)) :
    ∃ l, L.value z = .ok l ∧ ∀ z' : List ℝ, z'.length = L.state.len + L.asoh.numUpdatable → ∃ l', L.value z' = .ok l' ∧ l ≤ l' := by
  obtain ⟨f, e, -, -, hloc⟩ := C140_convex h hs hrows hobs hmoves rfl
  obtain ⟨x0, y0, h1, -, h3, -⟩ := estimate_ok he
  obtain ⟨hlen, ε, hε, hnear⟩ := hmin _ _ _ h3
  obtain ⟨p0, -, g2, g3, g4, -⟩ := C72_starting_point L (circuitState_wf ht.layout) ht.single.batchSize _ ht.value h.asoh.wf h.asoh.unbatched
  cases h1.symm.trans g2
  rw [List.length_append, g3, g4] at hlen
  have hof : ∀ (N : Nat) (z' : List ℝ), z'.length = N → ∃ g : Fin N → ℝ, List.ofFn g = z' := by
    rintro _ z' rfl
    exact ⟨fun i => z'[i], List.ofFn_getElem⟩
  obtain ⟨g, rfl⟩ := hof _ z hlen
  have hpos : (0 : ℝ) < max |y0| 1e-12 := lt_max_of_lt_right (by norm_num)
  have hsc : ∀ z', L.scaled y0 (List.ofFn z') = .ok (f z' / max |y0| 1e-12) := fun z' => by rw [scaled, e]; rfl
  have hl : IsLocalMin f g := by
    filter_upwards [Metric.ball_mem_nhds g hε] with z' hz'
    have hd : ∀ i, |(List.ofFn z').getD i 0 - (List.ofFn g).getD i 0| < ε := by
      intro i
      by_cases hi : i < L.state.len + L.asoh.numUpdatable
      · have := (dist_pi_lt_iff hε).1 hz' ⟨i, hi⟩
        rw [Real.dist_eq] at this
        simpa [List.getD_eq_getElem?_getD, List.getElem?_ofFn, hi] using this
      · simpa [List.getD_eq_getElem?_getD, List.getElem?_ofFn, hi] using hε
    have := hnear (List.ofFn z') (by simp) hd _ _ (hsc g) (hsc z')
    exact (div_le_div_iff_of_pos_right hpos).1 this
  refine ⟨f g, e g, fun z' hz' => ?_⟩
  obtain ⟨g', rfl⟩ := hof _ z' hz'
  exact ⟨f g', e g', hloc g hl g'⟩

/-- C140, consequence: whatever the initial guess, such an estimate from a dataset that was simulated by the circuit, with any state and parameters,
reproduces the simulated voltages exactly. -/
theorem C140_simulated (h : FitsCircuit L beh x series a) (hs : JointlyStraight L.asoh.updatableNames a)
    {M : Nat} {w : Fin M → ℝ} (hst : HoldsTransients L.state series a.rcs.length w)
    {measured : Bool} {m : HV ℝ} {b : ASOH} (hm : HoldsCircuit x m b)
    (he : Estimable [] measured series b) {N : Nat} {y : Fin N → ℝ} {tr c : Container ℝ} (ht : HoldsTransients tr series b.rcs.length y)
    {u : Fin (2 + (if measured then 1 else 0)) → ℝ} (hc : HoldsInput c measured u)
    {cs : List (Container ℝ)} {us : List (Fin (2 + (if measured then 1 else 0)) → ℝ)} (hcs : List.Forall₂ (HoldsInput · measured ·) cs us)
    (hmoves : beh = .linear → ((u :: us).map fun u => (In.ofVec measured (List.ofFn u)).time).IsChain (· ≠ ·))
    {p : List ℝ} (hp : L.asoh.makeCopy (.d1 p) none = .ok m) (h25 : measured = false → SameAt25 (parAt b 0)) :
    ∃ s s' ys table, Simulator.init (Ecm.cell beh x) (NoDegradation _ _ _ _) m tr c true = .ok s ∧ s.evolve cs = (s', .ok ys) ∧
      s'.toBatdata = .ok [table] ∧
      ∀ minimize, LocalSearch minimize → ∀ state asoh z, ({ L with rawData := some (tableRows table) } : Loss).estimate minimize = .ok (state, asoh, z) →
        ({ L with rawData := some (tableRows table) } : Loss).value z = .ok 0 := by
  obtain ⟨s, s', ys, table, h1, h2, h3, h4, -⟩ := C139_simulated_fit_partial h hm he ht hc hcs hmoves hp h25
  obtain ⟨_, _, _, table', k1, k2, k3, -, k5, k6, first, later, k7, k8⟩ := simulated_loss h hm he ht hc hcs hmoves hp
  cases h1.symm.trans k1
  cases h2.symm.trans k2
  cases h3.symm.trans k3
  refine ⟨s, s', ys, table, h1, h2, h3, fun minimize hmin state asoh z hz => ?_⟩
  obtain ⟨l, g1, g2⟩ := C140_estimate_best (L := { L with rawData := some (tableRows table) }) ⟨h.cell, h.asoh, h.state, h.evaluable⟩ hs rfl k7 k8 hst hmin hz
  obtain ⟨l', g3, g4⟩ := g2 (List.ofFn y ++ p) (by rw [List.length_append, List.length_ofFn, k5, k6])
  cases h4.symm.trans g3
  have hnn : 0 ≤ l := by
    obtain ⟨x0, y0, e1, -, e3, -⟩ := estimate_ok hz
    obtain ⟨p0, -, q2, q3, q4, -⟩ := C72_starting_point { L with rawData := some (tableRows table) } (circuitState_wf hst.layout) hst.single.batchSize _ hst.value
      h.asoh.wf h.asoh.unbatched
    cases e1.symm.trans q2
    have hl := (hmin _ _ _ e3).1
    rw [List.length_append, q3, q4] at hl
    have : L.state.len ≤ z.length := by rw [hl]; exact Nat.le_add_right _ _
    exact (C70_zero_iff_exact { L with rawData := some (tableRows table) } (z.take L.state.len) (z.drop L.state.len) (by simpa using this) l
      (by rw [List.take_append_drop]; exact g1)).1
  rw [g1, le_antisymm g4 hnn]

/-! ## The concrete circuit -/

/-- Fitting the state and R0 of the concrete circuit. -/
noncomputable def Demo.fitting (beh : Behavior) (data : Option (List Row)) : Loss :=
  ⟨Ecm.cell beh Demo.fixed, Demo.hvUpdating [kR0] [kBase], Demo.hvState, data⟩

theorem Demo.fitting_circuit (beh : Behavior) (data : Option (List Row)) : FitsCircuit (Demo.fitting beh data) beh Demo.fixed false Demo.arrays :=
  ⟨rfl, Demo.hv_holds _ _, Demo.state_holds.layout, estimable_nil (Demo.estimating_estimable beh .identity)⟩

theorem Demo.fitting_straight (beh : Behavior) (data : Option (List Row)) : JointlyStraight (Demo.fitting beh data).asoh.updatableNames Demo.arrays :=
  Demo.estimatingR0_straight beh .identity

/-- Rows with a time, a current, a voltage and perhaps a temperature. -/
def Demo.fitRow : ℝ × ℝ × ℝ × Option ℝ → Row
  | (t, i, v, none) => [("test_time".toList, .fin t), ("current".toList, .fin i), ("voltage".toList, .fin v)]
  | (t, i, v, some T) => [("test_time".toList, .fin t), ("current".toList, .fin i), ("voltage".toList, .fin v), ("temperature".toList, .fin T)]

theorem Demo.fitRow_sample (r : ℝ × ℝ × ℝ × Option ℝ) : Sample (Demo.fitRow r) (⟨r.1, r.2.1, some (r.2.2.2.getD 25)⟩, r.2.2.1) := by
  obtain ⟨t, i, v, T⟩ := r
  cases T with
  | none => exact ⟨rfl, rfl, rfl, 25, rfl, .inr ⟨nofun, rfl⟩⟩
  | some T => exact ⟨rfl, rfl, rfl, T, rfl, .inl rfl⟩

theorem Demo.fitRows (rs : List (ℝ × ℝ × ℝ × Option ℝ)) :
    List.Forall₂ Sample (rs.map Demo.fitRow) (rs.map fun r => ((⟨r.1, r.2.1, some (r.2.2.2.getD 25)⟩ : In), r.2.2.1)) := by
  rw [List.forall₂_map_left_iff, List.forall₂_map_right_iff, List.forall₂_same]
  exact fun r _ => Demo.fitRow_sample r

-- C138: its loss, from any readings and for any SOC, RC current, hysteresis and R0.
example (r : ℝ × ℝ × ℝ × Option ℝ) (rs : List (ℝ × ℝ × ℝ × Option ℝ)) (soc irc hyst r0 : ℝ) :
    ∃ cell, CircuitWith (Demo.hvUpdating [kR0] [kBase]) [Demo.nR0] Demo.fixed [r0] cell ∧
      (Demo.fitting .constant (some ((r :: rs).map Demo.fitRow))).value [soc, irc, hyst, r0] =
        .ok (meanSquaredError (cellVoltages .constant cell ⟨r.1, r.2.1, some (r.2.2.2.getD 25)⟩
          (rs.map fun r => ⟨r.1, r.2.1, some (r.2.2.2.getD 25)⟩) ⟨soc, none, [irc], hyst⟩) (r.2.2.1 :: rs.map (·.2.2.1))) := by
  obtain ⟨cell, h1, h2⟩ := C138_loss (Demo.fitting_circuit .constant _) rfl (Demo.fitRows (r :: rs)) nofun [soc, irc, hyst] [r0] rfl rfl
  refine ⟨cell, h1, h2.trans ?_⟩
  simp only [List.map_map, List.map_cons]
  rfl

-- C139: data simulated with an SOC of 0.5 and an R0 of 0.05, over any times (that change, under linear behaviour), currents and temperatures, are fitted
-- exactly by these values.
example (beh : Behavior) (us : List (Fin 3 → ℝ)) (ht : beh = .linear → (0 :: us.map (· 0)).IsChain (· ≠ ·)) :
    ∃ s s' ys table, Simulator.init (Ecm.cell beh Demo.fixed) (NoDegradation _ _ _ _) (Demo.hvUpdating [kR0] [kBase]) Demo.hvState Demo.hvInput true = .ok s ∧
      s.evolve (Demo.inputs us) = (s', .ok ys) ∧ s'.toBatdata = .ok [table] ∧
      (Demo.fitting beh (some (tableRows table))).value (List.ofFn ![0.5, 0, 0] ++ [0.05]) = .ok 0 := by
  have ei : ∀ u : Fin 3 → ℝ, (In.ofVec true (List.ofFn u)).time = u 0 := fun u => by simp [In.ofVec, List.ofFn_succ]
  obtain ⟨s, s', ys, table, h1, h2, h3, h4, -⟩ := C139_simulated_fit_partial (measured := true) (p := [0.05]) (Demo.fitting_circuit beh none) (Demo.hv_holds [kR0] [kBase])
    (estimable_nil (Demo.estimating_estimable beh .identity)) Demo.state_holds Demo.input_holds (Demo.inputs_hold us)
    (fun hb => by simp only [ei, List.map_cons]; exact ht hb) rfl nofun
  exact ⟨s, s', ys, table, h1, h2, h3, h4⟩

/-- The concrete circuit is at 25 °C, the reference temperature, what it is without a temperature. -/
theorem Demo.same_at_25 : SameAt25 (parAt Demo.arrays 0) where
  ocv s := by simp [parAt, ocvAt, Demo.arrays, at2, Arr2.toNd, Arr2.ofRow, Ecm.rows]
  r0 s := by simp [parAt, resAt, Demo.arrays]
  rcs rc hrc s := by
    obtain ⟨rc', hrc', rfl⟩ := List.mem_map.1 hrc
    rw [List.mem_singleton.1 hrc']
    simp [resAt]

-- Also without temperatures.
example (us : List (Fin 2 → ℝ)) :
    ∃ s s' ys table, Simulator.init (Ecm.cell .constant Demo.fixed) (NoDegradation _ _ _ _) (Demo.hvUpdating [kR0] [kBase]) Demo.hvState Demo.coldInput true =
        .ok s ∧ s.evolve (Demo.colds us) = (s', .ok ys) ∧ s'.toBatdata = .ok [table] ∧
      (Demo.fitting .constant (some (tableRows table))).value (List.ofFn ![0.5, 0, 0] ++ [0.05]) = .ok 0 := by
  have h := Demo.estimating_estimable .constant .identity
  have he : Estimable [] false false Demo.arrays :=
    ⟨h.ocv, nofun, h.r0, h.c0, h.rcs, h.hyst, nofun, nofun, nofun, fun _ _ _ => nofun, nofun, nofun, nofun,
      fun _ _ _ _ => nofun, fun _ _ _ _ h => by rcases h with h | h <;> cases h⟩
  obtain ⟨s, s', ys, table, h1, h2, h3, h4, -⟩ := C139_simulated_fit_partial (measured := false) (p := [0.05]) (Demo.fitting_circuit .constant none)
    (Demo.hv_holds [kR0] [kBase]) he Demo.state_holds Demo.cold_holds (Demo.colds_hold us) nofun rfl fun _ => Demo.same_at_25
  exact ⟨s, s', ys, table, h1, h2, h3, h4⟩

-- C140: whatever SOC, RC current, hysteresis and R0 the data were simulated with, a local search from the initial guess, an SOC of 0.5 and an R0 of 0.05,
-- reproduces them.
example (us : List (Fin 3 → ℝ)) (soc irc hyst r0 : ℝ) :
    ∃ m s s' ys table, (Demo.hvUpdating [kR0] [kBase]).makeCopy (.d1 [r0]) none = .ok m ∧
      Simulator.init (Ecm.cell .constant Demo.fixed) (NoDegradation _ _ _ _) m
        ⟨[(kSoc, some (.ofRow [soc])), (kQ0, none), (kIrc, some (.ofRow [irc])), (kHyst, some (.ofRow [hyst]))]⟩ Demo.hvInput true = .ok s ∧
      s.evolve (Demo.inputs us) = (s', .ok ys) ∧ s'.toBatdata = .ok [table] ∧
      ∀ minimize, LocalSearch minimize → ∀ state asoh z, (Demo.fitting .constant (some (tableRows table))).estimate minimize = .ok (state, asoh, z) →
        (Demo.fitting .constant (some (tableRows table))).value z = .ok 0 := by
  obtain ⟨m, b, g1, g2, g3, g4⟩ := fit_copy (Demo.fitting_circuit .constant none) (p := [r0]) rfl
  have ht : HoldsTransients ⟨[(kSoc, some (.ofRow [soc])), (kQ0, none), (kIrc, some (.ofRow [irc])), (kHyst, some (.ofRow [hyst]))]⟩ false b.rcs.length
      ![soc, irc, hyst] := by
    rw [g3]
    refine ⟨rfl, fun q hq => ?_, ?_⟩
    · have hq : q ∈ [(kSoc, Arr2.ofRow [soc]), (kIrc, Arr2.ofRow [irc]), (kHyst, Arr2.ofRow [hyst])] := hq
      simp only [List.mem_cons, List.not_mem_nil, or_false] at hq
      rcases hq with rfl | rfl | rfl <;> rfl
    · rw [show List.ofFn ![soc, irc, hyst] = [soc, irc, hyst] by simp [List.ofFn_succ]]; rfl
  obtain ⟨s, s', ys, table, h1, h2, h3, h4⟩ := C140_simulated (measured := true) (p := [r0]) (Demo.fitting_circuit .constant none)
    (Demo.fitting_straight _ _) Demo.state_holds g2 g4 ht Demo.input_holds (Demo.inputs_hold us) nofun g1 nofun
  exact ⟨m, s, s', ys, table, g1, h1, h2, h3, h4⟩

open Classical in
/-- An optimiser that returns a best point among those with as many coordinates as the starting point, and raises if there is none. -/
noncomputable def Demo.bestOf (f : List ℝ → Except Err ℝ) (x0 : List ℝ) : Except Err (List ℝ) :=
  if h : ∃ z : List ℝ, z.length = x0.length ∧ ∃ l, f z = .ok l ∧ ∀ z' l', z'.length = x0.length → f z' = .ok l' → l ≤ l' then .ok h.choose else .error .valueError

theorem Demo.bestOf_local : LocalSearch Demo.bestOf := by
  intro f x0 z hz
  unfold Demo.bestOf at hz
  split_ifs at hz with h
  cases hz
  obtain ⟨h1, l, h2, h3⟩ := h.choose_spec
  refine ⟨h1, 1, one_pos, fun z' hz' _ k k' hk hk' => ?_⟩
  cases h2.symm.trans hk
  exact h3 _ _ (hz'.trans h1) hk'

-- With this optimiser, the estimate from any readings exists, and no SOC, RC current, hysteresis and R0 have a smaller loss.
example (r : ℝ × ℝ × ℝ × Option ℝ) (rs : List (ℝ × ℝ × ℝ × Option ℝ)) :
    ∃ state asoh z l, (Demo.fitting .constant (some ((r :: rs).map Demo.fitRow))).estimate Demo.bestOf = .ok (state, asoh, z) ∧
      (Demo.fitting .constant (some ((r :: rs).map Demo.fitRow))).value z = .ok l ∧
      ∀ soc irc hyst r0, ∃ l', (Demo.fitting .constant (some ((r :: rs).map Demo.fitRow))).value [soc, irc, hyst, r0] = .ok l' ∧ l ≤ l' := by
  have hf := Demo.fitting_circuit .constant (some ((r :: rs).map Demo.fitRow))
  obtain ⟨f, e, -, ⟨best, hbest⟩, -⟩ := C140_convex (N := 4) hf (Demo.fitting_straight _ _) rfl (Demo.fitRows (r :: rs)) nofun rfl
  have hof : ∀ (z' : List ℝ), z'.length = 4 → ∃ g : Fin 4 → ℝ, List.ofFn g = z' := by
    intro z' hz
    obtain ⟨a, b, c, d, rfl⟩ : ∃ a b c d, z' = [a, b, c, d] := by
      match z', hz with
      | [a, b, c, d], _ => exact ⟨a, b, c, d, rfl⟩
    exact ⟨![a, b, c, d], by simp [List.ofFn_succ]⟩
  obtain ⟨p0, -, g2, g3, g4, -⟩ := C72_starting_point (Demo.fitting .constant (some ((r :: rs).map Demo.fitRow))) Demo.hvState_wf Demo.state_holds.single.batchSize _
    Demo.state_holds.value hf.asoh.wf hf.asoh.unbatched
  have hlen : (List.ofFn (![0.5, 0, 0] : Fin 3 → ℝ) ++ p0).length = 4 := by rw [List.length_append, g3, g4]; rfl
  obtain ⟨g0, hg0⟩ := hof _ hlen
  have hy0 := e g0
  rw [hg0] at hy0
  have hpos : (0 : ℝ) < max |f g0| 1e-12 := lt_max_of_lt_right (by norm_num)
  have hsc : ∀ z', (Demo.fitting .constant (some ((r :: rs).map Demo.fitRow))).scaled (f g0) (List.ofFn z') = .ok (f z' / max |f g0| 1e-12) :=
    fun z' => by rw [scaled, e]; rfl
  have hex : ∃ z : List ℝ, z.length = (List.ofFn (![0.5, 0, 0] : Fin 3 → ℝ) ++ p0).length ∧
      ∃ l, (Demo.fitting .constant (some ((r :: rs).map Demo.fitRow))).scaled (f g0) z = .ok l ∧
      ∀ z' l', z'.length = (List.ofFn (![0.5, 0, 0] : Fin 3 → ℝ) ++ p0).length →
        (Demo.fitting .constant (some ((r :: rs).map Demo.fitRow))).scaled (f g0) z' = .ok l' → l ≤ l' := by
    refine ⟨List.ofFn best, by rw [hlen]; exact List.length_ofFn, _, hsc best, fun z' l' hz' hl' => ?_⟩
    obtain ⟨g', rfl⟩ := hof z' (hz'.trans hlen)
    cases (hsc g').symm.trans hl'
    exact div_le_div_of_nonneg_right (hbest g') hpos.le
  have hm : Demo.bestOf ((Demo.fitting .constant (some ((r :: rs).map Demo.fitRow))).scaled (f g0)) (List.ofFn (![0.5, 0, 0] : Fin 3 → ℝ) ++ p0) =
      .ok hex.choose := dif_pos hex
  have hzl : hex.choose.length = 4 := hex.choose_spec.1.trans hlen
  obtain ⟨m, b, k1, -⟩ := fit_copy hf (p := hex.choose.drop 3) (by rw [List.length_drop, hzl]; rfl)
  have hest : (Demo.fitting .constant (some ((r :: rs).map Demo.fitRow))).estimate Demo.bestOf =
      .ok (Demo.hvState.makeCopy (.d1 (hex.choose.take 3)), m, hex.choose) := by
    have k1' : (Demo.fitting .constant (some ((r :: rs).map Demo.fitRow))).asoh.makeCopy (.d2 (.ofRow (hex.choose.drop
      (Demo.fitting .constant (some ((r :: rs).map Demo.fitRow))).state.len))) none = .ok m := k1
    simp only [Loss.estimate, bind_eq_ok_iff, pure_eq_ok, Except.ok.injEq, Prod.mk.injEq]
    exact ⟨_, g2, _, hy0, _, hm, _, k1', rfl, rfl, rfl⟩
  obtain ⟨l, h1, h2⟩ := C140_estimate_best hf (Demo.fitting_straight _ _) rfl (Demo.fitRows (r :: rs)) nofun Demo.state_holds Demo.bestOf_local hest
  exact ⟨_, _, _, l, hest, h1, fun soc irc hyst r0 => h2 [soc, irc, hyst, r0] rfl⟩

end Verif
