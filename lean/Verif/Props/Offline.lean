import Verif.Spec.Loss
import Verif.Props.InterfaceRuns
/-!
# Offline estimation: C70, C71, C72
-/

namespace Verif
open Spec Loss

/-! ## The pieces -/

theorem readRow_ok {row : Row} {i : Container ℝ} {v : ℝ} : readRow row = .ok (i, v) ↔ Reads row i v := by
  unfold readRow Reads
  cases h : rowToInputs row with
  | error e => simp
  | ok io =>
    obtain ⟨u, ⟨w⟩⟩ := io
    simp only [ok_bind]
    cases hu : u.container with
    | error e => simp [hu]
    | ok c =>
      cases w with
      | fin r =>
        simp only [ok_bind, Except.ok.injEq, Prod.mk.injEq]
        constructor
        · rintro ⟨rfl, rfl⟩
          exact ⟨u, ⟨rfl, rfl⟩, hu⟩
        · rintro ⟨u', ⟨rfl, h1⟩, h2⟩
          cases hu.symm.trans h2
          cases h1
          exact ⟨rfl, rfl⟩
      | _ => simp

theorem assignPred_ok {a : Arr2 ℝ} {v : ℝ} : assignPred a = .ok v ↔ a = .scalar v := by
  constructor
  · intro h
    unfold assignPred at h
    split at h
    · next w hw =>
      cases h
      refine Arr2.ext' ?_ hw
      have := a.wf [v] (by rw [hw]; simp)
      simpa [Arr2.scalar, Arr2.ofRow] using this.symm
    · cases h
  · rintro rfl
    rfl

theorem predictLoop_ok {cell : Cell} {a : HV ℝ} {rows : List Row} {x prev y : Container ℝ} {vs : List (ℝ × ℝ)} :
    predictLoop ⟨cell, NoDegradation _ _ _ _, a, x, prev, y, none⟩ rows = .ok vs ↔
      ∃ ios : List (Container ℝ × ℝ), List.Forall₂ (fun row io => Reads row io.1 io.2) rows ios ∧
        Follows cell a prev x (ios.map (·.1)) (vs.map (·.1)) ∧ vs.map (·.2) = ios.map (·.2) := by
  induction rows generalizing x prev y vs with
  | nil =>
    simp only [predictLoop, Except.ok.injEq]
    constructor
    · rintro rfl
      exact ⟨[], .nil, .nil _ _, rfl⟩
    · rintro ⟨ios, h1, h2, h3⟩
      cases h1
      simpa using h3.symm
  | cons row rest ih =>
    constructor
    · intro h
      unfold predictLoop at h
      rw [bind_eq_ok_iff] at h
      obtain ⟨⟨i, o⟩, h1, h⟩ := h
      generalize hs : Simulator.step _ _ = r at h
      unfold Simulator.step at hs
      dsimp only at hs
      cases hx : cell.update prev i x a with
      | error e => rw [hx] at hs; subst hs; cases h
      | ok x' =>
        rw [hx] at hs
        dsimp only at hs
        cases hy : cell.output i x' a with
        | error e => rw [hy] at hs; subst hs; cases h
        | ok y' =>
          rw [hy] at hs
          subst hs
          dsimp only [NoDegradation] at h
          simp only [bind_eq_ok_iff, pure_eq_ok, Except.ok.injEq] at h
          obtain ⟨_, h2, v, h3, ws, h4, rfl⟩ := h
          obtain ⟨ios, k1, k2, k3⟩ := ih.1 h4
          exact ⟨(i, o) :: ios, .cons (readRow_ok.1 h1) k1, .cons hx hy (h2.trans (congrArg _ (assignPred_ok.1 h3))) k2, by simp [k3]⟩
    · rintro ⟨ios, h1, h2, h3⟩
      cases h1 with
      | cons g1 g2 =>
        rename_i io ios
        cases vs with
        | nil => cases h3
        | cons w ws =>
          simp only [List.map_cons, List.cons.injEq] at h3
          generalize hm : List.map (fun x : ℝ × ℝ => x.1) (w :: ws) = ps at h2
          cases h2 with
          | cons f1 f2 f3 f4 =>
            rename_i x' y' v ps
            simp only [List.map_cons, List.cons.injEq] at hm
            obtain ⟨rfl, rfl⟩ := hm
            have h4 := (ih (x := x') (prev := io.1) (y := y') (vs := ws)).2 ⟨ios, g2, f4, h3.2⟩
            unfold predictLoop
            rw [(readRow_ok (i := io.1) (v := io.2)).2 g1, ok_bind]
            simp only [Simulator.step, f1, f2, NoDegradation, Option.map_none]
            rw [f3, ok_bind, assignPred_ok.2 rfl, ok_bind]
            have h5 : predictLoop ⟨cell, ⟨fun a _ _ _ => .ok a⟩, a, x', io.1, y', none⟩ rest = .ok ws := h4
            rw [h5, ok_bind, pure_eq_ok, ← h3.1]

theorem meanSquare_eq (vs : List (ℝ × ℝ)) : meanSquare vs = meanSquaredError (vs.map (·.1)) (vs.map (·.2)) := by
  unfold meanSquare meanSquaredError
  rw [List.zipWith_map, List.zipWith_self]
  simp

/-- When the loss returns, and what. -/
theorem call_ok {L : Loss} {x : Arr2 ℝ} {ls : List ℝ} :
    L.call x = .ok ls ↔ ∃ a rows, ∃ ios : List (Container ℝ × ℝ), ∃ preds, L.asoh.makeCopy (.d2 (x.cols L.state.len x.ncol)) none = .ok a ∧
      L.rawData = some rows ∧ List.Forall₂ (fun row io => Reads row io.1 io.2) rows ios ∧
      Predicts L.cell a (L.state.makeCopy (.d2 (x.cols 0 L.state.len))) (ios.map (·.1)) preds ∧
      ls = List.replicate x.nrow (meanSquaredError preds (ios.map (·.2))) := by
  unfold call
  cases hm : L.asoh.makeCopy (.d2 (x.cols L.state.len x.ncol)) none with
  | error e => simp
  | ok a =>
    simp only [ok_bind, Except.ok.injEq]
    cases hr : L.rawData with
    | none => simp
    | some rows =>
      cases rows with
      | nil =>
        constructor
        · intro h; cases h
        · rintro ⟨a', rows, ios, preds, -, h1, h2, h3, -⟩
          cases h1
          cases h2
          cases h3
      | cons first rest =>
        simp only [Option.some.injEq]
        constructor
        · intro h
          simp only [bind_eq_ok_iff, pure_eq_ok, Except.ok.injEq] at h
          obtain ⟨⟨i, o⟩, h1, sim, h2, y, h3, _, h4, v, h5, vs, h6, rfl⟩ := h
          rw [Simulator.init, h3] at h2
          cases h2
          obtain ⟨ios, k1, k2, k3⟩ := predictLoop_ok.1 h6
          refine ⟨a, _, (i, o) :: ios, v :: vs.map (·.1), rfl, rfl, .cons (readRow_ok.1 h1) k1, .start h3 (h4.trans (congrArg _ (assignPred_ok.1 h5))) k2, ?_⟩
          rw [meanSquare_eq]
          simp [k3]
        · rintro ⟨a', rows, ios, preds, rfl, rfl, h1, h2, rfl⟩
          cases h1 with
          | cons g1 g2 =>
            rename_i io ios
            cases h2 with
            | start f1 f2 f3 =>
              rename_i y v vs
              have hlen : ∀ {is x prev vs}, Follows L.cell a prev x is vs → vs.length = is.length := by
                intro is x prev vs h
                induction h with
                | nil => rfl
                | cons _ _ _ _ ih => simp [ih]
              have hl : vs.length = ios.length := by simpa using hlen f3
              have h6 := (predictLoop_ok (y := y) (vs := vs.zip (ios.map (·.2)))).2
                ⟨ios, g2, by rwa [List.map_fst_zip (by simp [hl])], by rw [List.map_snd_zip (by simp [hl])]⟩
              rw [(readRow_ok (i := io.1) (v := io.2)).2 g1, ok_bind, Simulator.init]
              simp only [f1, Bool.false_eq_true, if_false]
              rw [ok_bind, ok_bind, f2, ok_bind, assignPred_ok.2 rfl, ok_bind, h6, ok_bind, pure_eq_ok, meanSquare_eq]
              simp [List.map_fst_zip, List.map_snd_zip, hl]

/-! ## C70 -/

theorem Arr2.ofRow_cols_left (s p : List ℝ) : (Arr2.ofRow (s ++ p)).cols 0 s.length = .ofRow s := by
  refine Arr2.ext' ?_ ?_ <;> simp [Arr2.ofRow, Arr2.cols]

theorem Arr2.ofRow_cols_right (s p : List ℝ) : (Arr2.ofRow (s ++ p)).cols s.length (s ++ p).length = .ofRow p := by
  refine Arr2.ext' ?_ ?_ <;> simp [Arr2.ofRow, Arr2.cols]

/-- C70.  The loss of a vector is the average over all rows of the squared difference between the voltage predicted by the simulation that starts
from the state and the parameters in that vector, and the observed one; it is defined exactly if the simulation can be carried out. -/
theorem C70_mean_squared_error (L : Loss) (s p : List ℝ) (hs : s.length = L.state.len) (l : ℝ) :
    L.value (s ++ p) = .ok l ↔ ∃ a rows, ∃ ios : List (Container ℝ × ℝ), ∃ preds, L.asoh.makeCopy (.d1 p) none = .ok a ∧
      L.rawData = some rows ∧ List.Forall₂ (fun row io => Reads row io.1 io.2) rows ios ∧
      Predicts L.cell a (L.state.makeCopy (.d1 s)) (ios.map (·.1)) preds ∧ l = meanSquaredError preds (ios.map (·.2)) := by
  have h1 : ∀ ls, L.call (.ofRow (s ++ p)) = .ok ls ↔ ∃ a rows, ∃ ios : List (Container ℝ × ℝ), ∃ preds, L.asoh.makeCopy (.d1 p) none = .ok a ∧
      L.rawData = some rows ∧ List.Forall₂ (fun row io => Reads row io.1 io.2) rows ios ∧
      Predicts L.cell a (L.state.makeCopy (.d1 s)) (ios.map (·.1)) preds ∧ ls = [meanSquaredError preds (ios.map (·.2))] := by
    intro ls
    have e1 : (Arr2.ofRow (s ++ p)).cols 0 L.state.len = .ofRow s := by rw [← hs, Arr2.ofRow_cols_left]
    have e2 : (Arr2.ofRow (s ++ p)).cols L.state.len (Arr2.ofRow (s ++ p)).ncol = .ofRow p := by rw [← hs]; exact Arr2.ofRow_cols_right s p
    rw [call_ok, e1, e2]
    exact Iff.rfl
  unfold value
  rw [bind_eq_ok_iff]
  constructor
  · rintro ⟨ls, h2, h3⟩
    obtain ⟨a, rows, ios, preds, a1, a2, a3, a4, rfl⟩ := (h1 ls).1 h2
    exact ⟨a, rows, ios, preds, a1, a2, a3, a4, (Except.ok.inj h3).symm⟩
  · rintro ⟨a, rows, ios, preds, a1, a2, a3, a4, rfl⟩
    exact ⟨_, (h1 _).2 ⟨a, rows, ios, preds, a1, a2, a3, a4, rfl⟩, rfl⟩

theorem Spec.Follows.length {c : Cell} {a : HV ℝ} {prev x : Container ℝ} {is : List (Container ℝ)} {vs : List ℝ} (h : Follows c a prev x is vs) :
    vs.length = is.length := by
  induction h with
  | nil => rfl
  | cons _ _ _ _ ih => simp [ih]

theorem Spec.Predicts.length {c : Cell} {a : HV ℝ} {x : Container ℝ} {is : List (Container ℝ)} {vs : List ℝ} (h : Predicts c a x is vs) :
    vs.length = is.length ∧ 1 ≤ vs.length := by
  cases h with
  | start _ _ h => simp [h.length]

theorem meanSquaredError_nonneg (preds obs : List ℝ) : 0 ≤ meanSquaredError preds obs := by
  unfold meanSquaredError
  refine div_nonneg (List.sum_nonneg ?_) (Nat.cast_nonneg _)
  intro v hv
  rw [← List.map_uncurry_zip_eq_zipWith, List.mem_map] at hv
  obtain ⟨⟨a, b⟩, -, rfl⟩ := hv
  exact sq_nonneg _

theorem meanSquaredError_zero {preds obs : List ℝ} (hl : preds.length = obs.length) : meanSquaredError preds obs = 0 ↔ preds = obs := by
  constructor
  · intro h
    unfold meanSquaredError at h
    rcases div_eq_zero_iff.1 h with h | h
    · clear * - h hl
      induction preds generalizing obs with
      | nil => exact (List.length_eq_zero_iff.1 hl.symm).symm
      | cons a preds ih =>
        cases obs with
        | nil => cases hl
        | cons b obs =>
          have hn : 0 ≤ (List.zipWith (fun p o : ℝ => (p - o) ^ 2) preds obs).sum := by
            refine List.sum_nonneg ?_
            intro v hv
            rw [← List.map_uncurry_zip_eq_zipWith, List.mem_map] at hv
            obtain ⟨⟨a, b⟩, -, rfl⟩ := hv
            exact sq_nonneg _
          simp only [List.zipWith_cons_cons, List.sum_cons] at h
          have h1 : (a - b) ^ 2 = 0 := le_antisymm (by linarith) (sq_nonneg _)
          have h2 : a = b := sub_eq_zero.1 (pow_eq_zero_iff two_ne_zero |>.1 h1)
          rw [h2, ih (by simpa using hl) (by linarith)]
    · have : obs = [] := by
        rw [Nat.cast_eq_zero] at h
        exact List.length_eq_zero_iff.1 h
      subst this
      exact List.length_eq_zero_iff.1 hl
  · rintro rfl
    unfold meanSquaredError
    simp [List.zipWith_self]

/-- C70.  The loss is never negative; it is zero exactly if every prediction is the observed voltage. -/
theorem C70_zero_iff_exact (L : Loss) (s p : List ℝ) (hs : s.length = L.state.len) (l : ℝ) (h : L.value (s ++ p) = .ok l) :
    0 ≤ l ∧ (l = 0 ↔ ∃ a rows, ∃ ios : List (Container ℝ × ℝ), L.asoh.makeCopy (.d1 p) none = .ok a ∧ L.rawData = some rows ∧
      List.Forall₂ (fun row io => Reads row io.1 io.2) rows ios ∧
      Predicts L.cell a (L.state.makeCopy (.d1 s)) (ios.map (·.1)) (ios.map (·.2))) := by
  obtain ⟨a, rows, ios, preds, a1, a2, a3, a4, rfl⟩ := (C70_mean_squared_error L s p hs l).1 h
  refine ⟨meanSquaredError_nonneg _ _, ?_, ?_⟩
  · intro h0
    have := (meanSquaredError_zero (by simpa using a4.length.1)).1 h0
    subst this
    exact ⟨a, rows, ios, a1, a2, a3, a4⟩
  · rintro ⟨a', rows', ios', b1, b2, b3, b4⟩
    have := (C70_mean_squared_error L s p hs (meanSquaredError (ios'.map (·.2)) (ios'.map (·.2)))).2 ⟨a', rows', ios', _, b1, b2, b3, b4, rfl⟩
    have e := Except.ok.inj (h.symm.trans this)
    rw [e, meanSquaredError_zero rfl]

/-! ## C71 -/

/-- C71 fails: if the model predicts a voltage for every member of a batch of two or more, the loss always raises. -/
theorem C71_batch_raises (L : Loss) (x : Arr2 ℝ) (hx : 2 ≤ x.nrow)
    (hmodel : ∀ i a y v, L.asoh.makeCopy (.d2 (x.cols L.state.len x.ncol)) none = .ok a →
      L.cell.output i (L.state.makeCopy (.d2 (x.cols 0 L.state.len))) a = .ok y → y.toNumpy = .ok v → v.nrow = x.nrow) :
    ∃ err, L.call x = .error err := by
  cases h : L.call x with
  | error err => exact ⟨err, rfl⟩
  | ok ls =>
    exfalso
    obtain ⟨a, rows, ios, preds, a1, -, -, a4, -⟩ := call_ok.1 h
    generalize ios.map (·.1) = is at a4
    cases a4 with
    | start hy hv _ =>
      have := hmodel _ _ _ _ a1 hy hv
      simp [Arr2.scalar, Arr2.ofRow, Arr2.nrow] at this hx
      omega

/-- C71, what remains of it: if the loss returns, there is one number per member of the batch; and for a single member it is the loss of C70. -/
theorem C71_batch_partial (L : Loss) (x : Arr2 ℝ) (ls : List ℝ) (h : L.call x = .ok ls) :
    ls.length = x.nrow ∧ ∀ s p, x = .ofRow (s ++ p) → ∃ l, ls = [l] ∧ L.value (s ++ p) = .ok l := by
  obtain ⟨a, rows, ios, preds, a1, a2, a3, a4, rfl⟩ := call_ok.1 h
  refine ⟨by simp, ?_⟩
  rintro s p rfl
  refine ⟨_, rfl, ?_⟩
  rw [value, h]
  rfl

/-! ## C72 -/

theorem updatable_params (m : HV ℝ) : Spec.Params m (iterP true m) ∧ Spec.names (iterP true m) = m.updatableNames ∧
    ((iterP true m).map fun q => q.2.ncol).sum = m.numUpdatable := by
  refine ⟨fun q hq => ?_, ?_, ?_⟩
  · exact (mem_iterP_true.1 hq).isParam
  · unfold HV.updatableNames
    rw [iterParams_eq]
    simp [Spec.names, pathName]
  · unfold HV.numUpdatable
    rw [iterParams_eq]
    simp [Function.comp_def]

theorem broadcast_one (a : Arr2 ℝ) : Spec.broadcast 1 a = a := by
  unfold Spec.broadcast
  split
  · next r h => exact Arr2.ext' rfl h.symm
  · rfl

/-- C72.  The starting point of the optimiser is the initial state followed by the updatable parameters; the loss takes it apart into exactly the
initial state and the initial state of health. -/
theorem C72_starting_point (L : Loss) (hst : L.state.WF) (hb : L.state.batchSize = .ok 1) (s : List ℝ) (hs : L.state.toNumpy = .ok (.ofRow s))
    (hw : L.asoh.WF) (hu : Spec.Unbatched L.asoh) :
    ∃ p, L.asoh.getParameters none = .ok (.ofRow p) ∧ L.getX0 = .ok (s ++ p) ∧ s.length = L.state.len ∧ p.length = L.asoh.numUpdatable ∧
      L.state.makeCopy (.d1 s) = L.state ∧ L.asoh.makeCopy (.d1 p) none = .ok L.asoh := by
  obtain ⟨v, h1, h2⟩ := C04_get_then_update_partial L.asoh hw hu L.asoh.updatableNames (C02_names_distinct _ hw).2 (fun n hn => hn)
  have hb1 : L.asoh.batchSize = .ok 1 := ((C12_batch_size L.asoh fun p a h => (hu p a h).ge).1 1).2 ⟨fun p a h => .inl (hu p a h), .inl rfl⟩
  have hv : ∃ p, v = .ofRow p := by
    obtain ⟨v', h3, h4⟩ := C12_vector_has_batch_rows L.asoh hw (fun p a h => (hu p a h).ge) 1 hb1 _ (fun n hn => updatable_subset (α := ℝ) hn)
    cases h1.symm.trans h3
    obtain ⟨r, hr⟩ := List.length_eq_one_iff.1 h4
    exact ⟨r, Arr2.ext' (v.wf r (by rw [hr]; simp)).symm hr⟩
  obtain ⟨p, rfl⟩ := hv
  have hmc : L.asoh.makeCopy (.d1 p) none = .ok L.asoh := by
    have h3 : L.asoh.updateParameters (.d1 p) none = (L.asoh, .ok ()) := h2
    rw [HV.makeCopy, h3]
  have hlen : p.length = L.asoh.numUpdatable := by
    have h3 := makeCopy_width hw hmc
    obtain ⟨u1, u2, u3⟩ := updatable_params L.asoh
    rw [← u2, totalSize_unbatched hw hu u1, u3] at h3
    exact h3.symm
  refine ⟨p, h1, ?_, ?_, hlen, ?_, hmc⟩
  · unfold getX0
    split_ifs with h0
    · have : p = [] := List.length_eq_zero_iff.1 (hlen.trans h0)
      subst this
      rw [hs, ok_bind, List.append_nil]
      rfl
    · have h1' : L.asoh.getParameters none = .ok (.ofRow p) := h1
      rw [hs, ok_bind, h1', ok_bind]
      rfl
  · exact (C15_length_width_names L.state hst).2.2.2.1 _ hs
  · have := C14_to_numpy_then_from_numpy L.state _ 1 hb hs
    have hf : (L.state.makeCopy (.d1 s)).fields = L.state.fields := by
      refine Eq.trans this ?_
      rw [List.map_congr_left (g := id) (fun p _ => ?_), List.map_id]
      obtain ⟨k, o⟩ := p
      cases o <;> simp [broadcast_one]
    generalize L.state.makeCopy (.d1 s) = c at hf
    obtain ⟨f⟩ := c
    cases hL : L.state with
    | mk g => rw [hL] at hf; exact congrArg _ hf

theorem estimate_ok {L : Loss} {minimize : (List ℝ → Except Err ℝ) → List ℝ → Except Err (List ℝ)} {state : Container ℝ} {asoh : HV ℝ}
    {x : List ℝ} (h : L.estimate minimize = .ok (state, asoh, x)) : ∃ x0 y0, L.getX0 = .ok x0 ∧ L.value x0 = .ok y0 ∧
      minimize (L.scaled y0) x0 = .ok x ∧ state = L.state.makeCopy (.d1 (x.take L.state.len)) ∧
      L.asoh.makeCopy (.d1 (x.drop L.state.len)) none = .ok asoh := by
  simp only [estimate, bind_eq_ok_iff, pure_eq_ok, Except.ok.injEq, Prod.mk.injEq] at h
  obtain ⟨x0, h1, y0, h2, x', h3, a', h4, rfl, rfl, rfl⟩ := h
  exact ⟨x0, y0, h1, h2, h3, rfl, h4⟩

/-- C72.  The estimate splits the optimum the way the starting point is put together: the state holds its first numbers and the updatable
parameters the others, and its loss is that of a simulation starting from exactly these objects.  Nothing is assumed of `minimize` but that it
returns as many numbers as it is given. -/
theorem C72_estimate_splits (L : Loss) (hst : L.state.WF) (hne : Spec.held L.state ≠ []) (hb : L.state.batchSize = .ok 1)
    (s0 : List ℝ) (hs0 : L.state.toNumpy = .ok (.ofRow s0)) (hw : L.asoh.WF) (hu : Spec.Unbatched L.asoh)
    (minimize : (List ℝ → Except Err ℝ) → List ℝ → Except Err (List ℝ)) (hmin : ∀ f x0 x, minimize f x0 = .ok x → x.length = x0.length)
    (state : Container ℝ) (asoh : HV ℝ) (x : List ℝ) (h : L.estimate minimize = .ok (state, asoh, x)) :
    ∃ s p, x = s ++ p ∧ state.toNumpy = .ok (.ofRow s) ∧ asoh.updatableNames = L.asoh.updatableNames ∧ asoh.getParameters none = .ok (.ofRow p) ∧
      ∀ l, L.value x = .ok l ↔ ∃ rows, ∃ ios : List (Container ℝ × ℝ), ∃ preds, L.rawData = some rows ∧
        List.Forall₂ (fun row io => Reads row io.1 io.2) rows ios ∧ Predicts L.cell asoh state (ios.map (·.1)) preds ∧
        l = meanSquaredError preds (ios.map (·.2)) := by
  obtain ⟨x0, y0, h1, h2, h3, rfl, h5⟩ := estimate_ok h
  obtain ⟨p0, -, g2, g3, g4, -, -⟩ := C72_starting_point L hst hb s0 hs0 hw hu
  cases h1.symm.trans g2
  have hlen : x.length = L.state.len + L.asoh.numUpdatable := by rw [hmin _ _ _ h3, List.length_append, g3, g4]
  have htake : (x.take L.state.len).length = L.state.len := by simp [hlen]
  have h5' : L.asoh.updateParameters (.d1 (x.drop L.state.len)) (some L.asoh.updatableNames) = (asoh, .ok ()) := by
    rw [makeCopy_none] at h5
    unfold HV.makeCopy at h5
    split at h5
    · cases h5
    · next heq => cases h5; exact heq
  obtain ⟨-, -, hnames, -⟩ := C05_untouched L.asoh hw _ _ (fun n hn => updatable_subset (α := ℝ) hn) asoh (.ok ()) h5'
  refine ⟨x.take L.state.len, x.drop L.state.len, (List.take_append_drop _ _).symm,
    C14_from_numpy_then_to_numpy L.state hst hne (.d1 (x.take L.state.len)) htake, hnames, ?_, fun l => ?_⟩
  · have e : asoh.getParameters none = asoh.getParameters (some L.asoh.updatableNames) := by
      rw [← hnames]
      rfl
    rw [e]
    by_cases hnil : L.asoh.updatableNames = []
    · have hd : x.drop L.state.len = [] := by
        have : L.asoh.numUpdatable = 0 := by
          have : iterParams true L.asoh = [] := by simpa [HV.updatableNames] using hnil
          simp [HV.numUpdatable, this]
        rw [List.drop_eq_nil_iff]
        omega
      rw [hnil] at h5' ⊢
      rw [hd] at h5' ⊢
      have : asoh = L.asoh := by
        simp [HV.updateParameters, updateLoop] at h5'
        exact h5'.1.symm
      rw [this]
      have hb1 : L.asoh.batchSize = .ok 1 := ((C12_batch_size L.asoh fun p a h => (hu p a h).ge).1 1).2 ⟨fun p a h => .inl (hu p a h), .inl rfl⟩
      simp only [HV.getParameters, Option.getD_some, if_true, hb1]
      rfl
    · exact (C03_update_then_get_exact L.asoh hw (.d1 (x.drop L.state.len)) L.asoh.updatableNames hnil (C02_names_distinct _ hw).2
        (fun n hn => updatable_subset hn) le_rfl (fun p a hp _ => hu p a hp) asoh h5').2
  · have := C70_mean_squared_error L (x.take L.state.len) (x.drop L.state.len) htake l
    rw [List.take_append_drop] at this
    rw [this]
    constructor
    · rintro ⟨a, rows, ios, preds, a1, a2, a3, a4, a5⟩
      cases a1.symm.trans h5
      exact ⟨rows, ios, preds, a2, a3, a4, a5⟩
    · rintro ⟨rows, ios, preds, a2, a3, a4, a5⟩
      exact ⟨asoh, rows, ios, preds, h5, a2, a3, a4, a5⟩

/-- C72.  Scaling by the initial error keeps the ordering of candidates, also if that error is zero. -/
theorem C72_scaling_keeps_order (L : Loss) (y0 : ℝ) (x x' : List ℝ) (l l' : ℝ) (h : L.value x = .ok l) (h' : L.value x' = .ok l') :
    ∃ k k', L.scaled y0 x = .ok k ∧ L.scaled y0 x' = .ok k' ∧ (k < k' ↔ l < l') ∧ (k = k' ↔ l = l') := by
  have hpos : (0 : ℝ) < max |y0| 1e-12 := lt_max_of_lt_right (by norm_num)
  refine ⟨l / max |y0| 1e-12, l' / max |y0| 1e-12, by rw [scaled, h]; rfl, by rw [scaled, h']; rfl, div_lt_div_iff_of_pos_right hpos, ?_⟩
  exact div_left_inj' hpos.ne'

/-- C72, consequence: with an optimiser that never returns a point worse than the one it starts from, the estimate never explains the data worse
than the initial guess. -/
theorem C72_estimate_no_worse (L : Loss) (minimize : (List ℝ → Except Err ℝ) → List ℝ → Except Err (List ℝ))
    (hmin : ∀ f x0 x y0, minimize f x0 = .ok x → f x0 = .ok y0 → ∃ y, f x = .ok y ∧ y ≤ y0)
    (state : Container ℝ) (asoh : HV ℝ) (x : List ℝ) (h : L.estimate minimize = .ok (state, asoh, x)) :
    ∃ x0 l0 l, L.getX0 = .ok x0 ∧ L.value x0 = .ok l0 ∧ L.value x = .ok l ∧ l ≤ l0 := by
  obtain ⟨x0, y0, h1, h2, h3, -, -⟩ := estimate_ok h
  have hs : L.scaled y0 x0 = .ok (y0 / max |y0| 1e-12) := by rw [scaled, h2]; rfl
  obtain ⟨y, h4, h5⟩ := hmin _ _ _ _ h3 hs
  simp only [scaled, bind_eq_ok_iff, pure_eq_ok, Except.ok.injEq] at h4
  obtain ⟨l, h6, rfl⟩ := h4
  refine ⟨x0, y0, l, h1, h2, h6, ?_⟩
  have hpos : (0 : ℝ) < max |y0| 1e-12 := lt_max_of_lt_right (by norm_num)
  exact (div_le_div_iff_of_pos_right hpos).1 h5

/-! ## A concrete dataset -/

namespace Demo

/-- The loss of the cell showing the sum of its state and its parameter. -/
noncomputable def sumLoss (xs : List (ℝ × ℝ × ℝ × ℕ)) : Loss := ⟨sumCell, health, trans, some (xs.map fun x => readingCols.zip (reading x))⟩

theorem reads_reading (x : ℝ × ℝ × ℝ × ℕ) : ∃ i, Reads (readingCols.zip (reading x)) i x.2.2.1 :=
  ⟨_, _, rfl, rfl⟩

theorem sumCell_batch {K : Nat} (hK : 1 ≤ K) (X Y : Matrix (Fin K) (Fin 1) ℝ) :
    ∃ a, health.makeCopy (.d2 (Mat.toArr2 ⟨K, 1, Y⟩)) none = .ok a ∧ ∀ i,
      sumCell.output i (trans.makeCopy (.d2 (Mat.toArr2 ⟨K, 1, X⟩))) a = .ok ⟨[(['v'], some (Mat.toArr2 ⟨K, 1, X + Y⟩))]⟩ := by
  obtain ⟨a, h1, h2⟩ := health_copy hK Y
  exact ⟨a, h1, fun i => sumCell_output i _ a (trans_copy X) h2 (by
    unfold Mat.bop
    simp only [bdim_self]
    refine congrArg (fun M => Except.ok (Mat.mk K 1 M)) ?_
    funext i j
    have hj : (if True then 0 else (j : ℕ)) = (j : ℕ) := by simp
    rw [Mat.clip_fin, hj, Mat.at_fin, Mat.at_fin]
    rfl)⟩

theorem sumCell_shows (t q : ℝ) : ∃ a, health.makeCopy (.d1 [q]) none = .ok a ∧
    ∀ i, ∃ y, sumCell.output i (trans.makeCopy (.d1 [t])) a = .ok y ∧ Shows y (t + q) := by
  obtain ⟨a, h1, h2⟩ := sumCell_batch le_rfl (fun _ _ => t) (fun _ _ => q)
  have e : ∀ c : ℝ, Mat.toArr2 ⟨1, 1, fun _ _ => c⟩ = .ofRow [c] := toArr2_row
  rw [e] at h1
  refine ⟨a, h1, fun i => ⟨_, (by have := h2 i; rw [e] at this; exact this), ?_⟩⟩
  rw [Shows, one_field]
  exact congrArg _ (e (t + q))

theorem sumCell_follows (a : HV ℝ) (x : Container ℝ) (w : ℝ) (h : ∀ i, ∃ y, sumCell.output i x a = .ok y ∧ Shows y w) :
    ∀ (is : List (Container ℝ)) (prev : Container ℝ), Follows sumCell a prev x is (is.map fun _ => w)
  | [], prev => .nil prev x
  | i :: is, prev => by
    obtain ⟨y, h1, h2⟩ := h i
    exact .cons (x' := x) rfl h1 h2 (sumCell_follows a x w h is i)

theorem sumCell_predicts (a : HV ℝ) (x : Container ℝ) (w : ℝ) (h : ∀ i, ∃ y, sumCell.output i x a = .ok y ∧ Shows y w)
    (is : List (Container ℝ)) (hne : is ≠ []) : Predicts sumCell a x is (is.map fun _ => w) := by
  cases is with
  | nil => exact absurd rfl hne
  | cons i is =>
    obtain ⟨y, h1, h2⟩ := h i
    exact .start h1 h2 (sumCell_follows a x w h is i)

theorem readings_read (xs : List (ℝ × ℝ × ℝ × ℕ)) : ∃ ios : List (Container ℝ × ℝ),
    List.Forall₂ (fun row io => Reads row io.1 io.2) (xs.map fun x => readingCols.zip (reading x)) ios ∧ ios.map (·.2) = xs.map (·.2.2.1) := by
  induction xs with
  | nil => exact ⟨[], .nil, rfl⟩
  | cons x xs ih =>
    obtain ⟨ios, h1, h2⟩ := ih
    obtain ⟨i, hi⟩ := reads_reading x
    exact ⟨(i, x.2.2.1) :: ios, .cons hi h1, by simp [h2]⟩

/-- The loss of the concrete cell at any state and parameter, for any dataset. -/
theorem sumLoss_value (xs : List (ℝ × ℝ × ℝ × ℕ)) (hne : xs ≠ []) (t q : ℝ) :
    (sumLoss xs).value ([t] ++ [q]) = .ok ((xs.map fun x => (t + q - x.2.2.1) ^ 2).sum / xs.length) := by
  obtain ⟨a, h1, h2⟩ := sumCell_shows t q
  obtain ⟨ios, h3, h4⟩ := readings_read xs
  have hl : ios.length = xs.length := by simpa using congrArg List.length h4
  refine (C70_mean_squared_error (sumLoss xs) [t] [q] rfl _).2 ⟨a, _, ios, _, h1, rfl, h3,
    sumCell_predicts a _ (t + q) h2 _ (by intro h; apply hne; rw [List.map_eq_nil_iff.1 h] at hl; exact List.length_eq_zero_iff.1 hl.symm), ?_⟩
  unfold meanSquaredError
  rw [h4, List.length_map]
  congr 2
  have : (ios.map (·.1)).map (fun _ => t + q) = xs.map fun _ => t + q := by
    rw [List.map_map, List.eq_replicate_of_mem (l := List.map ((fun _ => t + q) ∘ fun x : Container ℝ × ℝ => x.1) ios) (a := t + q) (by simp [eq_comm]),
      List.eq_replicate_of_mem (l := List.map (fun _ => t + q) xs) (a := t + q) (by simp [eq_comm])]
    simp [hl]
  rw [this, List.zipWith_map, List.zipWith_self]

end Demo

/-- The loss of the concrete cell is zero exactly if all voltages are the sum of state and parameter. -/
example (xs : List (ℝ × ℝ × ℝ × ℕ)) (hne : xs ≠ []) (t q : ℝ) : ∃ l, (Demo.sumLoss xs).value ([t] ++ [q]) = .ok l ∧ 0 ≤ l :=
  ⟨_, Demo.sumLoss_value xs hne t q, (C70_zero_iff_exact (Demo.sumLoss xs) [t] [q] rfl _ (Demo.sumLoss_value xs hne t q)).1⟩

/-- C71 fails for the concrete cell: no batch of two or more members is accepted, whatever the data. -/
theorem C71_concrete_batch_raises (xs : List (ℝ × ℝ × ℝ × ℕ)) (x : Arr2 ℝ) (hx : 2 ≤ x.nrow) (hc : x.ncol = 2) :
    ∃ err, (Demo.sumLoss xs).call x = .error err := by
  refine C71_batch_raises _ x hx fun i a y v e1 e2 e3 => ?_
  have hmat : ∀ b : Arr2 ℝ, b.nrow = x.nrow → b.ncol = 1 → ∃ X : Matrix (Fin x.nrow) (Fin 1) ℝ, b = Mat.toArr2 ⟨x.nrow, 1, X⟩ := by
    intro b hb1 hb2
    have h1 : b.toMat.m = x.nrow := hb1
    have h2 : b.toMat.n = 1 := hb2
    have h3 := Arr2.toArr2_toMat b
    generalize b.toMat = M at h1 h2 h3
    obtain ⟨m, n, X⟩ := M
    dsimp only at h1 h2
    subst h1 h2
    exact ⟨X, h3.symm⟩
  obtain ⟨X, h1⟩ := hmat (x.cols 0 1) (by simp [Arr2.cols, Arr2.nrow]) (by simp [Arr2.cols, hc])
  obtain ⟨Y, h2⟩ := hmat (x.cols 1 x.ncol) (by simp [Arr2.cols, Arr2.nrow]) (by simp [Arr2.cols, hc])
  obtain ⟨a', g1, g2⟩ := Demo.sumCell_batch (by omega : 1 ≤ x.nrow) X Y
  have hlen : (Demo.sumLoss xs).state.len = 1 := rfl
  rw [hlen, h2] at e1
  rw [hlen, h1] at e2
  cases e1.symm.trans g1
  cases e2.symm.trans (g2 i)
  rw [Demo.one_field] at e3
  cases e3
  simp [Mat.toArr2, Arr2.nrow]

/-- The concrete loss meets the hypotheses of C72; the optimiser here returns another point. -/
example (xs : List (ℝ × ℝ × ℝ × ℕ)) (hne : xs ≠ []) (t q : ℝ) : ∃ state asoh,
    (Demo.sumLoss xs).estimate (fun _ x => .ok (if x.length = 2 then [t, q] else x)) = .ok (state, asoh, [t, q]) ∧
    state.toNumpy = .ok (.ofRow [t]) ∧ asoh.getParameters none = .ok (.ofRow [q]) := by
  obtain ⟨p, h1, h2, -⟩ := C72_starting_point (Demo.sumLoss xs) Demo.trans_wf rfl [3] rfl Demo.health_wf Demo.health_single
  have hp : p = [5] := by
    have : Demo.health.getParameters none = .ok (.ofRow [5]) := rfl
    have := congrArg Arr2.rows (Except.ok.inj (h1.symm.trans this))
    simpa [Arr2.ofRow] using this
  subst hp
  obtain ⟨a, h3, -⟩ := Demo.sumCell_shows t q
  have he : (Demo.sumLoss xs).estimate (fun _ x => .ok (if x.length = 2 then [t, q] else x)) = .ok (Demo.trans.makeCopy (.d1 [t]), a, [t, q]) := by
    rw [estimate, h2, ok_bind, Demo.sumLoss_value xs hne 3 5, ok_bind]
    have h4 : (Demo.sumLoss xs).asoh.makeCopy (.d2 (.ofRow (List.drop (Demo.sumLoss xs).state.len [t, q]))) none = .ok a := h3
    simp only [List.length_append, List.length_cons, List.length_nil, ok_bind, if_true, h4, pure_eq_ok]
    rfl
  refine ⟨_, a, he, ?_⟩
  obtain ⟨s, p, e1, e2, -, e4, -⟩ := C72_estimate_splits (Demo.sumLoss xs) Demo.trans_wf (by simp [Demo.sumLoss, Demo.trans, Spec.held]) rfl [3] rfl
    Demo.health_wf Demo.health_single _ (by intro f x0 x hx; cases hx; split_ifs with h <;> simp [h]) _ _ _ he
  have hs : (Demo.trans.makeCopy (.d1 [t])).toNumpy = .ok (.ofRow [t]) := rfl
  have := congrArg Arr2.rows (Except.ok.inj (hs.symm.trans e2))
  simp only [Arr2.ofRow, List.cons.injEq, and_true] at this
  subst this
  simp only [List.cons_append, List.nil_append, List.cons.injEq, true_and] at e1
  subst e1
  exact ⟨hs, e4⟩

end Verif
