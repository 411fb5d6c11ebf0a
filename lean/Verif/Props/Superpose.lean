import Verif.Props.Pulse
import Verif.Props.TheveninPack
import Verif.Spec.Superpose
/-!
# C159: the answers to currents add up
-/

namespace Verif
open Thevenin Nd Spec

/-- What the states of the three runs have in common. -/
structure Adds (α β : ℝ) (n : Nat) (s t m : Cell.St) : Prop where
  number : s.irc.length = n ∧ t.irc.length = n ∧ m.irc.length = n
  hyst : s.hyst = 0 ∧ t.hyst = 0 ∧ m.hyst = 0
  irc : ∀ j < n, m.irc.getD j 0 = α * s.irc.getD j 0 + β * t.irc.getD j 0

theorem slope_mixed {α β : ℝ} {beh : Ecm.Behavior} {u v w u' v' w' : Cell.In} (h : Mixed α β u v w) (h' : Mixed α β u' v' w') :
    Cell.slope beh w w' = α * Cell.slope beh u u' + β * Cell.slope beh v v' := by
  cases beh with
  | constant => simp [Cell.slope]
  | linear =>
    simp only [Cell.slope, Cell.dt, h.time, h'.time, h.current, h'.current]
    ring

theorem circuit_hyst_any {p : Cell.Par} (h : ∀ z, p.hystMax z = 0) (beh : Ecm.Behavior) (i i' : Cell.In) (s : Cell.St) (h0 : s.hyst = 0) :
    (Cell.step beh i i' s p).hyst = 0 := by
  have ht : Cell.hystTarget i s.soc p = 0 := by
    unfold Cell.hystTarget
    rw [h]
    split <;> simp
  show Cell.hystNext beh i i' s p = 0
  unfold Cell.hystNext
  simp only [ht, h0]
  split <;> simp [Cell.hystAfter]

theorem adds_step {α β : ℝ} {beh : Ecm.Behavior} {p : Cell.Par} {R₀ : ℝ} {n : Nat} {R C : Nat → ℝ} (hp : PlainCircuit p R₀ n R C) (he : p.ce = 1)
    {u v w u' v' w' : Cell.In} (h : Mixed α β u v w) (h' : Mixed α β u' v' w') {s t m : Cell.St} (hs : Adds α β n s t m) :
    Adds α β n (Cell.step beh u u' s p) (Cell.step beh v v' t p) (Cell.step beh w w' m p) ∧
    (Cell.step beh w w' m p).soc - m.soc = α * ((Cell.step beh u u' s p).soc - s.soc) + β * ((Cell.step beh v v' t p).soc - t.soc) := by
  have dv : Cell.dt v v' = Cell.dt u u' := by simp only [Cell.dt, h.time, h'.time]
  have dw : Cell.dt w w' = Cell.dt u u' := by simp only [Cell.dt, h.time, h'.time]
  have sl := slope_mixed (beh := beh) h h'
  have len : ∀ (i i' : Cell.In) (r : Cell.St), r.irc.length = n → (Cell.step beh i i' r p).irc.length = n := fun i i' r hr => by
    show (List.zipWith _ p.rcs r.irc).length = _
    rw [List.length_zipWith, hp.number, hr, min_self]
  have get : ∀ (i i' : Cell.In) (r : Cell.St), r.irc.length = n → ∀ (j : Nat) (hj : j < p.rcs.length),
      (Cell.step beh i i' r p).irc.getD j 0 = Cell.rcNext beh i i' r.soc p.rcs[j] (r.irc.getD j 0) := fun i i' r hr j hj => by
    have hj2 : j < r.irc.length := by rw [hr, ← hp.number]; exact hj
    show (List.zipWith _ p.rcs r.irc).getD j 0 = _
    simp [List.getD, List.getElem?_zipWith, hj, hj2]
  have eff : ∀ i, Cell.eff i p = 1 := fun i => by unfold Cell.eff; rw [he]; split <;> rfl
  refine ⟨⟨⟨len _ _ _ hs.number.1, len _ _ _ hs.number.2.1, len _ _ _ hs.number.2.2⟩, ⟨circuit_hyst_any hp.noHysteresis _ _ _ _ hs.hyst.1,
    circuit_hyst_any hp.noHysteresis _ _ _ _ hs.hyst.2.1, circuit_hyst_any hp.noHysteresis _ _ _ _ hs.hyst.2.2⟩, fun j hj => ?_⟩, ?_⟩
  · have hj1 : j < p.rcs.length := by rw [hp.number]; exact hj
    rw [get _ _ _ hs.number.1 j hj1, get _ _ _ hs.number.2.1 j hj1, get _ _ _ hs.number.2.2 j hj1, hs.irc j hj]
    simp only [Cell.rcNext, hp.r j hj1, hp.c j hj1, dv, dw, sl, h'.current]
    ring
  · show m.soc + Cell.eff w p * (Cell.charge beh w w' / (3600 * p.qt)) - m.soc = α * (s.soc + Cell.eff u p * (Cell.charge beh u u' / (3600 * p.qt)) - s.soc) +
      β * (t.soc + Cell.eff v p * (Cell.charge beh v v' / (3600 * p.qt)) - t.soc)
    simp only [eff, Cell.charge, dv, dw, sl, h.current]
    ring

theorem adds_run {α β : ℝ} {beh : Ecm.Behavior} {p : Cell.Par} {R₀ : ℝ} {n : Nat} {R C : Nat → ℝ} (hp : PlainCircuit p R₀ n R C) (he : p.ce = 1) :
    ∀ {us vs ws : List Cell.In} {u v w : Cell.In} {s t m : Cell.St}, Mixed α β u v w → MixedAll α β us vs ws → Adds α β n s t m →
    Adds α β n (Cell.run beh p u us s) (Cell.run beh p v vs t) (Cell.run beh p w ws m) ∧
    (Cell.run beh p w ws m).soc - m.soc = α * ((Cell.run beh p u us s).soc - s.soc) + β * ((Cell.run beh p v vs t).soc - t.soc) := by
  intro us
  induction us with
  | nil =>
    intro vs ws u v w s t m _ h hs
    cases h
    exact ⟨hs, by simp [Cell.run]⟩
  | cons u' us ih =>
    intro vs ws u v w s t m hu h hs
    cases h with
    | cons hu' h =>
    obtain ⟨k1, k2⟩ := adds_step (beh := beh) hp he hu hu' hs
    obtain ⟨r1, r2⟩ := ih hu' h k1
    refine ⟨r1, ?_⟩
    simp only [Cell.run]
    linear_combination r2 + k2

theorem plain_volt {p : Cell.Par} {R₀ : ℝ} {n : Nat} {R C : Nat → ℝ} (hp : PlainCircuit p R₀ n R C) {s : Cell.St} (hl : s.irc.length = n) (hh : s.hyst = 0)
    (i : Cell.In) : Cell.volt i s p = p.ocv s.soc i.temp + i.current * R₀ + ∑ j ∈ Finset.range n, s.irc.getD j 0 * R j := by
  have e : List.zipWith (fun k (rc : Cell.RC) => k * rc.r s.soc i.temp) s.irc p.rcs = (List.range n).map fun j => s.irc.getD j 0 * R j := by
    refine List.ext_getElem (by simp [hl, hp.number]) fun j hj _ => ?_
    have hj1 : j < s.irc.length := by simp at hj; exact hj.1
    have hj2 : j < p.rcs.length := by simp at hj; exact hj.2
    simp only [List.getElem_zipWith, hp.r j hj2, List.getElem_map, List.getElem_range]
    simp [List.getD, hj1]
  unfold Cell.volt
  rw [hp.noSeries, hp.r0, e, sum_range_list, hh]
  cases s.q0 <;> simp

theorem mixed_last {α β : ℝ} : ∀ {us vs ws : List Cell.In} {u v w : Cell.In}, Mixed α β u v w → MixedAll α β us vs ws →
    Mixed α β (us.getLastD u) (vs.getLastD v) (ws.getLastD w)
  | _, _, _, _, _, _, h, .nil => h
  | u' :: us, v' :: vs, w' :: ws, u, v, w, _, .cons h h' => by
    have e : ∀ (x y : Cell.In) (l : List Cell.In), (x :: l).getLastD y = l.getLastD x := fun x y l => by cases l <;> rfl
    rw [e, e, e]
    exact mixed_last h h'

/-- C159.  Three simulations of circuits of constant resistances without hysteresis, series capacitor or loss of charge, at the same times.  If in the third the
currents, and the RC currents at the start, are `α` times those of the first plus `β` times those of the second, then so are its RC currents, changes of
SOC and overpotentials (voltage over the open-circuit voltage of the SOC) at the end.  Under both behaviours of the current between inputs. -/
theorem C159_superposition {B : Nat} (hB : 0 < B) {beh : Ecm.Behavior} {a : Ecm.ASOH} (ha : Cell.Pars B a) {u v w : Ecm.Input} {us vs ws : List Ecm.Input}
    (hu : ∀ i ∈ u :: us, Cell.Ins B i) (hv : ∀ i ∈ v :: vs, Cell.Ins B i) (hw : ∀ i ∈ w :: ws, Cell.Ins B i) {s t m s' t' m' : Ecm.State} {x y z : Nd ℝ}
    (hs : Cell.Sts B a s) (ht : Cell.Sts B a t) (hm : Cell.Sts B a m)
    (rs : Ecm.run beh a u us s = .ok s') (rt : Ecm.run beh a v vs t = .ok t') (rm : Ecm.run beh a w ws m = .ok m')
    (vx : Ecm.voltage (us.getLastD u) s' a = .ok x) (vy : Ecm.voltage (vs.getLastD v) t' a = .ok y) (vz : Ecm.voltage (ws.getLastD w) m' a = .ok z)
    {b : Nat} (hb : b < B) {R₀ : ℝ} {R C : Nat → ℝ} (plain : PlainCircuit (Cell.parAt a b) R₀ a.rcs.length R C) (ce : Cell.at2 a.ce b = 1)
    (_hQ : Cell.at2 a.qt b ≠ 0 ∧ ∀ j < a.rcs.length, R j * C j ≠ 0)
    (_moves : beh = .linear → ((u :: us).map (Cell.inAt · b)).IsChain (·.time ≠ ·.time)) {α β : ℝ}
    (mixed : MixedAll α β ((u :: us).map (Cell.inAt · b)) ((v :: vs).map (Cell.inAt · b)) ((w :: ws).map (Cell.inAt · b)))
    (relaxed : Cell.at2 s.hyst b = 0 ∧ Cell.at2 t.hyst b = 0 ∧ Cell.at2 m.hyst b = 0)
    (start : ∀ j < a.rcs.length, Cell.ircAt m b j = α * Cell.ircAt s b j + β * Cell.ircAt t b j) :
    let over : Nd ℝ → Ecm.State → Ecm.Input → ℝ := fun v s i => Cell.at2 v b - Cell.ocvAt a.ocv b (Cell.at2 s.soc b) (i.temp.map (Cell.at2 · b))
    (∀ j < a.rcs.length, Cell.ircAt m' b j = α * Cell.ircAt s' b j + β * Cell.ircAt t' b j) ∧
    Cell.at2 m'.soc b - Cell.at2 m.soc b = α * (Cell.at2 s'.soc b - Cell.at2 s.soc b) + β * (Cell.at2 t'.soc b - Cell.at2 t.soc b) ∧
    over z m' (ws.getLastD w) = α * over x s' (us.getLastD u) + β * over y t' (vs.getLastD v) := by
  intro over
  have rows : ∀ {u : Ecm.Input} {us : List Ecm.Input} {s s' : Ecm.State} {x : Nd ℝ}, (∀ i ∈ u :: us, Cell.Ins B i) → Cell.Sts B a s →
      Ecm.run beh a u us s = .ok s' → Ecm.voltage (us.getLastD u) s' a = .ok x → Cell.Sts B a s' ∧
      Cell.stAt s' b = Cell.run beh (Cell.parAt a b) (Cell.inAt u b) (us.map (Cell.inAt · b)) (Cell.stAt s b) ∧
      Cell.at2 x b = Cell.volt (Cell.inAt (us.getLastD u) b) (Cell.stAt s' b) (Cell.parAt a b) := by
    intro u us s s' x hu hs r vx
    obtain ⟨k1, k2⟩ := Cell.run_rows hB ha (hu u (by simp)) (fun i hi => hu i (by simp [hi])) hs r
    have hl : Cell.Ins B (us.getLastD u) := by
      rcases us.eq_nil_or_concat with rfl | ⟨l, x, rfl⟩
      · exact hu u (by simp)
      · rw [List.concat_eq_append, List.getLastD_concat]; exact hu _ (by simp)
    exact ⟨k1, k2 b hb, (Cell.voltage_rows hB ha hl k1 vx).2 b hb⟩
  have irc : ∀ {s : Ecm.State}, Cell.Sts B a s → (Cell.stAt s b).irc.length = a.rcs.length ∧ ∀ j < a.rcs.length, (Cell.stAt s b).irc.getD j 0 = Cell.ircAt s b j :=
    fun {s} hs => by
      rw [Cell.irc_list hs]
      exact ⟨by simp, fun j hj => by simp [hj]⟩
  obtain ⟨ks, es, xs⟩ := rows hu hs rs vx
  obtain ⟨kt, et, xt⟩ := rows hv ht rt vy
  obtain ⟨km, em, xm⟩ := rows hw hm rm vz
  simp only [List.map_cons] at mixed
  cases mixed with
  | cons m0 ms =>
  obtain ⟨g1, g2⟩ := adds_run (beh := beh) plain ce m0 ms (s := Cell.stAt s b) (t := Cell.stAt t b) (m := Cell.stAt m b)
    ⟨⟨(irc hs).1, (irc ht).1, (irc hm).1⟩, relaxed, fun j hj => by rw [(irc hs).2 j hj, (irc ht).2 j hj, (irc hm).2 j hj]; exact start j hj⟩
  rw [← es, ← et, ← em] at g1 g2
  have last := mixed_last m0 ms
  have e : ∀ (u : Ecm.Input) (us : List Ecm.Input), (us.map (Cell.inAt · b)).getLastD (Cell.inAt u b) = Cell.inAt (us.getLastD u) b := fun u us =>
    Thevenin.getLastD_map (Cell.inAt · b) us u
  rw [e, e, e] at last
  refine ⟨fun j hj => ?_, g2, ?_⟩
  · rw [← (irc km).2 j hj, ← (irc ks).2 j hj, ← (irc kt).2 j hj]
    exact g1.irc j hj
  · have ov : ∀ {v : Nd ℝ} {s : Ecm.State} {i : Ecm.Input}, (Cell.stAt s b).irc.length = a.rcs.length → (Cell.stAt s b).hyst = 0 →
        Cell.at2 v b = Cell.volt (Cell.inAt i b) (Cell.stAt s b) (Cell.parAt a b) →
        over v s i = (Cell.inAt i b).current * R₀ + ∑ j ∈ Finset.range a.rcs.length, (Cell.stAt s b).irc.getD j 0 * R j := by
      intro v s i hl hh hv
      show Cell.at2 v b - _ = _
      rw [hv, plain_volt plain hl hh]
      show Cell.ocvAt a.ocv b (Cell.at2 s.soc b) (i.temp.map (Cell.at2 · b)) + _ + _ - Cell.ocvAt a.ocv b (Cell.at2 s.soc b) (i.temp.map (Cell.at2 · b)) = _
      ring
    rw [ov g1.number.2.2 g1.hyst.2.2 xm, ov g1.number.1 g1.hyst.1 xs, ov g1.number.2.1 g1.hyst.2.1 xt, last.current,
      Finset.sum_congr rfl fun j hj => by rw [g1.irc j (Finset.mem_range.1 hj)]]
    simp only [add_mul, Finset.sum_add_distrib, mul_add, Finset.mul_sum, mul_assoc]
    ring

/-! ## The Thevenin model -/

theorem thevenin_adds {α β : ℝ} {a : Thevenin.ASOH} {b : Nat} {R₀ : ℝ} {R C : Nat → ℝ} (hp : PlainThevenin a b R₀ R C) {x y z : Course} :
    ∀ {us vs ws : List Thevenin.Input} {u v w : Thevenin.Input}, Mixed α β (theveninIn u b) (theveninIn v b) (theveninIn w b) →
    MixedAll α β (us.map (theveninIn · b)) (vs.map (theveninIn · b)) (ws.map (theveninIn · b)) →
    FollowsAll (tCellAt a b) true x b u us → FollowsAll (tCellAt a b) true y b v vs → FollowsAll (tCellAt a b) true z b w ws →
    (∀ j < a.rcs.length, z.eta j (Thevenin.entry w.time b) = α * x.eta j (Thevenin.entry u.time b) + β * y.eta j (Thevenin.entry v.time b)) →
    Mixed α β (theveninIn (us.getLastD u) b) (theveninIn (vs.getLastD v) b) (theveninIn (ws.getLastD w) b) ∧
    (∀ j < a.rcs.length, z.eta j (Thevenin.entry (ws.getLastD w).time b) =
      α * x.eta j (Thevenin.entry (us.getLastD u).time b) + β * y.eta j (Thevenin.entry (vs.getLastD v).time b)) ∧
    z.soc (Thevenin.entry (ws.getLastD w).time b) - z.soc (Thevenin.entry w.time b) =
      α * (x.soc (Thevenin.entry (us.getLastD u).time b) - x.soc (Thevenin.entry u.time b)) +
      β * (y.soc (Thevenin.entry (vs.getLastD v).time b) - y.soc (Thevenin.entry v.time b)) := by
  have hn : (tCellAt a b).rcs.length = a.rcs.length := by simp [tCellAt]
  have last : ∀ (i k : Thevenin.Input) (l : List Thevenin.Input), (i :: l).getLastD k = l.getLastD i := fun i k l => by cases l <;> rfl
  intro us
  induction us with
  | nil =>
    intro vs ws u v w hu h _ _ _ he
    cases vs with
    | cons _ _ => cases h
    | nil => cases ws with
      | cons _ _ => cases h
      | nil => exact ⟨hu, he, by simp⟩
  | cons u' us ih =>
    intro vs ws u v w hu h hx hy hz he
    cases vs with
    | nil => cases h
    | cons v' vs => cases ws with
      | nil => cases h
      | cons w' ws =>
      simp only [List.map_cons] at h
      cases h with
      | cons hu' h =>
      obtain ⟨x1, x2, x3⟩ := hx
      obtain ⟨y1, y2, y3⟩ := hy
      obtain ⟨z1, z2, z3⟩ := hz
      have t1 : Thevenin.entry v.time b = Thevenin.entry u.time b := hu.time.1
      have t2 : Thevenin.entry w.time b = Thevenin.entry u.time b := hu.time.2
      have t1' : Thevenin.entry v'.time b = Thevenin.entry u'.time b := hu'.time.1
      have t2' : Thevenin.entry w'.time b = Thevenin.entry u'.time b := hu'.time.2
      have c : Thevenin.entry w'.current b = α * Thevenin.entry u'.current b + β * Thevenin.entry v'.current b := hu'.current
      have eta : ∀ {x : Course} {u u' : Thevenin.Input}, Thevenin.entry u.time b ≤ Thevenin.entry u'.time b →
          Obeys (tCellAt a b) true (Thevenin.entry u'.tInf b) (-Thevenin.entry u'.current b) (Thevenin.entry u.time b) (Thevenin.entry u'.time b) x →
          ∀ j < a.rcs.length, x.eta j (Thevenin.entry u'.time b) =
            x.eta j (Thevenin.entry u.time b) * Real.exp (-(Thevenin.entry u'.time b - Thevenin.entry u.time b) / (R j * C j)) +
            (1 - Real.exp (-(Thevenin.entry u'.time b - Thevenin.entry u.time b) / (R j * C j))) * (R j * -Thevenin.entry u'.current b) := fun k1 k2 j hj =>
        eta_constant k1 k2 (j := j) (hn.symm ▸ hj) (R := R j) (C := C j) (fun z => by simpa [tCellAt] using hp.r j hj z _)
          (fun z => by simpa [tCellAt] using hp.c j hj z _)
      obtain ⟨r1, r2, r3⟩ := ih hu' h x3 y3 z3 fun j hj => by
        rw [eta x1 x2 j hj, eta y1 y2 j hj, eta z1 z2 j hj, he j hj, t1, t2, t1', t2', c]
        ring
      rw [last, last, last]
      refine ⟨r1, r2, ?_⟩
      have s1 := soc_obeys x1 x2 _ ⟨x1, le_rfl⟩
      have s2 := soc_obeys y1 y2 _ ⟨y1, le_rfl⟩
      have s3 := soc_obeys z1 z2 _ ⟨z1, le_rfl⟩
      have : z.soc (Thevenin.entry w'.time b) - z.soc (Thevenin.entry w.time b) =
          α * (x.soc (Thevenin.entry u'.time b) - x.soc (Thevenin.entry u.time b)) + β * (y.soc (Thevenin.entry v'.time b) - y.soc (Thevenin.entry v.time b)) := by
        rw [s1, s2, s3, t1, t2, t1', t2', c]
        ring
      linear_combination r3 + this

/-- C159.  The same for isothermal Thevenin cells of constant resistances and capacitances, whose simulations never fail. -/
theorem C159_thevenin_superposition {solver : Thevenin.Solver} (hsol : ExactSolver solver) {a : Thevenin.ASOH} (hr0 : Tables a.r0)
    (hrcs : ∀ q ∈ a.rcs, Tables q.1 ∧ Tables q.2) (hocv : ∃ n d, a.ocv.coeffs.shape = [n, d] ∧ 1 ≤ d) {B : Nat} (hB : 1 ≤ B) (ha : a.Batched B)
    (hpos : ∀ b < B, Positive (tCellAt a b)) (_hQ : ∀ b < B, Thevenin.entry a.capacity b ≠ 0) {u v w : Thevenin.Input} {us vs ws : List Thevenin.Input}
    {s t m : Thevenin.State} (hs : Thevenin.Many B a s) (ht : Thevenin.Many B a t) (hm : Thevenin.Many B a m) (nu : us ≠ []) (nv : vs ≠ []) (nw : ws ≠ [])
    (hu : ∀ i ∈ us, i.Batched B ∧ ∃ n, i.current.shape = [n, 1]) (hv : ∀ i ∈ vs, i.Batched B ∧ ∃ n, i.current.shape = [n, 1])
    (hw : ∀ i ∈ ws, i.Batched B ∧ ∃ n, i.current.shape = [n, 1])
    (tu : ∀ b < B, (u :: us).IsChain fun v w => Thevenin.entry v.time b ≤ Thevenin.entry w.time b)
    (tv : ∀ b < B, (v :: vs).IsChain fun v w => Thevenin.entry v.time b ≤ Thevenin.entry w.time b)
    (tw : ∀ b < B, (w :: ws).IsChain fun v w => Thevenin.entry v.time b ≤ Thevenin.entry w.time b)
    {R₀ : Nat → ℝ} {R C : Nat → Nat → ℝ} (plain : ∀ b < B, PlainThevenin a b (R₀ b) (R b) (C b)) {α β : ℝ}
    (mixed : ∀ b < B, MixedAll α β ((u :: us).map (theveninIn · b)) ((v :: vs).map (theveninIn · b)) ((w :: ws).map (theveninIn · b)))
    (start : ∀ b < B, ∀ j < a.rcs.length, m.eta.get [b, j] = α * s.eta.get [b, j] + β * t.eta.get [b, j]) :
    ∃ s' t' m' x y z, Thevenin.runs solver true a u s us = .ok s' ∧ Thevenin.runs solver true a v t vs = .ok t' ∧ Thevenin.runs solver true a w m ws = .ok m' ∧
      Thevenin.voltage (us.getLastD u) s' a = .ok x ∧ Thevenin.voltage (vs.getLastD v) t' a = .ok y ∧ Thevenin.voltage (ws.getLastD w) m' a = .ok z ∧ ∀ b < B,
      let over : Nd ℝ → Thevenin.State → ℝ := fun v s => Thevenin.entry v b - rowPoly a.ocv.coeffs b (s.soc.get [b, 0])
      (∀ j < a.rcs.length, m'.eta.get [b, j] = α * s'.eta.get [b, j] + β * t'.eta.get [b, j]) ∧
      m'.soc.get [b, 0] - m.soc.get [b, 0] = α * (s'.soc.get [b, 0] - s.soc.get [b, 0]) + β * (t'.soc.get [b, 0] - t.soc.get [b, 0]) ∧
      over z m' = α * over x s' + β * over y t' := by
  obtain ⟨s', x, s1, s2, s3⟩ := run_courses hsol hr0 hrcs hocv hB ha hpos hs nu hu tu
  obtain ⟨t', y, t1, t2, t3⟩ := run_courses hsol hr0 hrcs hocv hB ha hpos ht nv hv tv
  obtain ⟨m', z, m1, m2, m3⟩ := run_courses hsol hr0 hrcs hocv hB ha hpos hm nw hw tw
  refine ⟨s', t', m', x, y, z, s1, t1, m1, s2, t2, m2, fun b hb => ?_⟩
  intro over
  obtain ⟨p, p1, p2, p3, p4, p5, p6⟩ := s3 b hb
  obtain ⟨q, q1, q2, q3, q4, q5, q6⟩ := t3 b hb
  obtain ⟨r, r1, r2, r3, r4, r5, r6⟩ := m3 b hb
  have mx := mixed b hb
  simp only [List.map_cons] at mx
  cases mx with
  | cons m0 ms =>
  obtain ⟨g1, g2, g3⟩ := thevenin_adds (plain b hb) m0 ms p3 q3 r3 fun j hj => by rw [p2 j hj, q2 j hj, r2 j hj]; exact start b hb j hj
  have eta : ∀ j < a.rcs.length, m'.eta.get [b, j] = α * s'.eta.get [b, j] + β * t'.eta.get [b, j] := fun j hj => by
    rw [p5 j hj, q5 j hj, r5 j hj]; exact g2 j hj
  refine ⟨eta, ?_, ?_⟩
  · rw [p4, q4, r4, ← p1, ← q1, ← r1]; exact g3
  · have c : Thevenin.entry (ws.getLastD w).current b = α * Thevenin.entry (us.getLastD u).current b + β * Thevenin.entry (vs.getLastD v).current b := g1.current
    simp only [over]
    rw [p6, q6, r6, (plain b hb).r0, (plain b hb).r0, (plain b hb).r0, c, Finset.sum_congr rfl fun j hj => eta j (Finset.mem_range.1 hj), Finset.sum_add_distrib,
      ← Finset.mul_sum, ← Finset.mul_sum]
    ring

/-! ## Examples -/

theorem mixed_map {α β : ℝ} {γ : Type} {f g h : γ → Cell.In} (e : ∀ q, Mixed α β (f q) (g q) (h q)) : ∀ l : List γ, MixedAll α β (l.map f) (l.map g) (l.map h)
  | [] => .nil
  | q :: l => .cons (e q) (mixed_map e l)

-- Any times with two currents at each, and twice the first current less three times the second.
example (q : ℝ × ℝ × ℝ) (l : List (ℝ × ℝ × ℝ)) :
    let first : ℝ × ℝ × ℝ → Ecm.Input := fun q => circuitInput (q.1, q.2.1)
    let second : ℝ × ℝ × ℝ → Ecm.Input := fun q => circuitInput (q.1, q.2.2)
    let third : ℝ × ℝ × ℝ → Ecm.Input := fun q => circuitInput (q.1, 2 * q.2.1 + -3 * q.2.2)
    ∃ s t m, Ecm.run .constant oneCircuit (first q) (l.map first) circuitState = .ok s ∧ Ecm.run .constant oneCircuit (second q) (l.map second) circuitState = .ok t ∧
      Ecm.run .constant oneCircuit (third q) (l.map third) circuitState = .ok m ∧
      Cell.at2 m.soc 0 - 0.5 = 2 * (Cell.at2 s.soc 0 - 0.5) + -3 * (Cell.at2 t.soc 0 - 0.5) := by
  intro first second third
  have k : ∀ c : ℝ × ℝ × ℝ → ℝ, l.map (fun q => circuitInput (q.1, c q)) = (l.map fun q => (q.1, c q)).map circuitInput := fun c => by simp
  have run : ∀ c : ℝ × ℝ × ℝ → ℝ, ∃ s v, Ecm.run .constant oneCircuit (circuitInput (q.1, c q)) (l.map fun q => circuitInput (q.1, c q)) circuitState = .ok s ∧
      Ecm.voltage ((l.map fun q => circuitInput (q.1, c q)).getLastD (circuitInput (q.1, c q))) s oneCircuit = .ok v := fun c => by
    rw [k]; exact oneCircuit_runs _ _
  have ins : ∀ c : ℝ × ℝ × ℝ → ℝ, ∀ i ∈ circuitInput (q.1, c q) :: (l.map fun q => circuitInput (q.1, c q)), Cell.Ins 1 i := fun c i hi => by
    rcases List.mem_cons.1 hi with rfl | hi
    · exact circuitInput_ins _
    · obtain ⟨p, -, rfl⟩ := List.mem_map.1 hi
      exact circuitInput_ins _
  obtain ⟨s, x, e1, f1⟩ := run fun q => q.2.1
  obtain ⟨t, y, e2, f2⟩ := run fun q => q.2.2
  obtain ⟨m, z, e3, f3⟩ := run fun q => 2 * q.2.1 + -3 * q.2.2
  have := C159_superposition (by norm_num) oneCircuit_pars (ins _) (ins _) (ins _) circuitState_sts circuitState_sts circuitState_sts e1 e2 e3 f1 f2 f3 (b := 0)
    (by norm_num) oneCircuit_plain rfl ⟨by simp [oneCircuit, Cell.at2, num2], fun j _ => by norm_num⟩ (fun h => by cases h) (α := 2) (β := -3)
    (by
      have := mixed_map (α := 2) (β := -3) (f := fun p : ℝ × ℝ × ℝ => Cell.inAt (first p) 0) (g := fun p => Cell.inAt (second p) 0) (h := fun p => Cell.inAt (third p) 0)
        (fun p => ⟨⟨rfl, rfl⟩, rfl⟩) (q :: l)
      simpa [first, second, third, Function.comp_def] using this)
    ⟨rfl, rfl, rfl⟩ (fun j hj => by
      obtain rfl : j = 0 := by simpa [oneCircuit] using hj
      show (0 : ℝ) = 2 * 0 + -3 * 0
      norm_num)
  exact ⟨s, t, m, e1, e2, e3, this.2.1⟩

-- The Thevenin cell of the same values: the overpotentials of 1 A and of any current `i` for the last of two minutes add up.
example (i : ℝ) : ∃ solver, ExactSolver solver ∧ ∃ s t m,
    Thevenin.runs solver true oneCell (oneInput (0, 0)) oneState [oneInput (60, 1), oneInput (120, 0)] = .ok s ∧
    Thevenin.runs solver true oneCell (oneInput (0, 0)) oneState [oneInput (60, 0), oneInput (120, i)] = .ok t ∧
    Thevenin.runs solver true oneCell (oneInput (0, 0)) oneState [oneInput (60, 1), oneInput (120, i)] = .ok m ∧
    m.eta.get [0, 0] = s.eta.get [0, 0] + t.eta.get [0, 0] := by
  obtain ⟨solver, hsol⟩ := C151_solver_possible
  have hrc : ∀ p ∈ oneCell.rcs, Tables p.1 ∧ Tables p.2 := fun p hp => by
    rw [List.mem_singleton.1 hp]
    exact ⟨⟨⟨1, rfl⟩, ⟨1, 1, rfl, le_rfl⟩, 1, 1, rfl, le_rfl⟩, ⟨1, rfl⟩, ⟨1, 1, rfl, le_rfl⟩, 1, 1, rfl, le_rfl⟩
  have hin : ∀ q, (oneInput q).Batched 1 ∧ ∃ n, (oneInput q).current.shape = [n, 1] := fun q => ⟨⟨.inl rfl, .inl rfl, .inl rfl⟩, 1, rfl⟩
  have hin2 : ∀ p q, ∀ k ∈ [oneInput p, oneInput q], k.Batched 1 ∧ ∃ n, k.current.shape = [n, 1] := fun p q k hk => by
    simp only [List.mem_cons, List.not_mem_nil, or_false] at hk
    rcases hk with rfl | rfl <;> exact hin _
  have times : ∀ c d : ℝ, ∀ b < 1, [oneInput (0, 0), oneInput (60, c), oneInput (120, d)].IsChain fun v w => Thevenin.entry v.time b ≤ Thevenin.entry w.time b :=
    fun c d b _ => by
      refine .cons_cons ?_ (.cons_cons ?_ (.singleton _))
      · show (0 : ℝ) ≤ 60; norm_num
      · show (60 : ℝ) ≤ 120; norm_num
  obtain ⟨s, t, m, x, y, z, e1, e2, e3, -, -, -, r⟩ := C159_thevenin_superposition hsol ⟨⟨1, rfl⟩, ⟨1, 1, rfl, le_rfl⟩, 1, 1, rfl, le_rfl⟩ hrc
    ⟨1, 2, rfl, by norm_num⟩ (B := 1) le_rfl oneCell_batched (fun b _ => oneCell_positive b) (fun b _ => by simp [oneCell, Thevenin.entry, num2])
    (s := oneState) (t := oneState) (m := oneState) ⟨rfl, rfl, rfl⟩ ⟨rfl, rfl, rfl⟩ ⟨rfl, rfl, rfl⟩ (by simp) (by simp) (by simp) (hin2 (60, 1) (120, 0))
    (hin2 (60, 0) (120, i)) (hin2 (60, 1) (120, i)) (times _ _) (times _ _) (times _ _) (R₀ := fun _ => 0.05) (R := fun _ _ => 0.01) (C := fun _ _ => 2500)
    (fun b hb => by
      obtain rfl : b = 0 := by omega
      exact ⟨oneCell_same.theveninR0, oneCell_same.theveninR, oneCell_same.theveninC⟩) (α := 1) (β := 1)
    (fun b _ => .cons ⟨⟨rfl, rfl⟩, by show (0 : ℝ) = 1 * 0 + 1 * 0; norm_num⟩ (.cons ⟨⟨rfl, rfl⟩, by show (1 : ℝ) = 1 * 1 + 1 * 0; norm_num⟩
      (.cons ⟨⟨rfl, rfl⟩, by show i = 1 * 0 + 1 * i; ring⟩ .nil)))
    (fun b _ j _ => by show (0 : ℝ) = 1 * 0 + 1 * 0; norm_num)
  refine ⟨solver, hsol, s, t, m, e1, e2, e3, ?_⟩
  have := (r 0 (by norm_num)).1 0 (by norm_num [oneCell])
  linarith

end Verif
