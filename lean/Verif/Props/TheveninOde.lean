import Verif.Spec.TheveninOde
import Verif.Proofs.LinearOde
import Verif.Props.TheveninFresh
/-!
# C151: simulations with the Thevenin model follow its differential equations
-/

namespace Verif.Thevenin
open Verif Nd Spec Set

/-! ## Parameters -/

theorem gives_poly {p : PolySocT} (h : Tables p) (b : Nat) : Gives (fun soc t => p.call soc t (some b)) (polyAt p b) := by
  obtain ⟨⟨n₁, h1⟩, ⟨n₂, d₂, h2, e2⟩, n₃, d₃, h3, e3⟩ := h
  intro z T
  obtain ⟨v, v1, v2, v3⟩ := C38_soc_temp_polynomial p n₁ n₂ n₃ d₂ d₃ h1 h2 h3 e2 e3 (num z) (num T) rfl b
  refine ⟨v, v1, v2, (v3 [] .nil).trans ?_⟩
  simp only [polyAt, rowPoly, entry, Ecm.rows, h1, h2, h3, polynomial]
  rfl

theorem regular_poly (a : ASOH) (b : Nat) : Regular (tCellAt a b) true := by
  refine ⟨fun rc hrc T => ?_, nofun⟩
  obtain ⟨p, -, rfl⟩ := List.mem_map.1 hrc
  have : ∀ q : PolySocT, Continuous fun z => polyAt q b z T := fun q => by
    unfold polyAt rowPoly
    fun_prop
  exact ⟨this _, this _⟩

/-! ## One step -/

/-- A batch of `B` states. -/
structure Many (B : Nat) (a : ASOH) (st : State) : Prop where
  soc : st.soc.shape = [B, 1]
  temp : st.temp.shape = [B, 1]
  eta : st.eta.shape = [B, a.rcs.length]

theorem obeys_shift {c : TCell} {iso : Bool} {amb I s e : ℝ} {x : Course} (h : Obeys c iso amb I s e x) :
    Obeys c iso amb I 0 (e - s) ⟨fun t => x.soc (t + s), fun t => x.temp (t + s), fun j t => x.eta j (t + s)⟩ := by
  have mem : ∀ t ∈ Icc 0 (e - s), t + s ∈ Icc s e := fun t ht => ⟨by linarith [ht.1], by linarith [ht.2]⟩
  have key : ∀ {f : ℝ → ℝ} {f' t : ℝ}, HasDerivWithinAt f f' (Icc s e) (t + s) → HasDerivWithinAt (fun t => f (t + s)) f' (Icc 0 (e - s)) t := by
    intro f f' t hf
    have := hf.scomp (h := fun t => t + s) t ((hasDerivWithinAt_id t (Icc 0 (e - s))).add_const s) mem
    rw [one_smul] at this
    exact this
  exact ⟨fun t ht => key (h.soc _ (mem t ht)), fun j hj t ht => key (h.eta j hj _ (mem t ht)), fun hi t ht => key (h.temp hi _ (mem t ht)),
    fun rc hrc t ht => h.positive rc hrc _ (mem t ht)⟩

theorem obeys_mono {c : TCell} {iso : Bool} {amb I s e s' e' : ℝ} {x : Course} (h : Obeys c iso amb I s e x) (hs : s ≤ s') (he : e' ≤ e) :
    Obeys c iso amb I s' e' x := by
  have sub : Icc s' e' ⊆ Icc s e := Icc_subset_Icc hs he
  exact ⟨fun t ht => (h.soc t (sub ht)).mono sub, fun j hj t ht => (h.eta j hj t (sub ht)).mono sub, fun hi t ht => (h.temp hi t (sub ht)).mono sub,
    fun rc hrc t ht => h.positive rc hrc t (sub ht)⟩

theorem describes_make {a : ASOH} (hr0 : Tables a.r0) (hrcs : ∀ p ∈ a.rcs, Tables p.1 ∧ Tables p.2) {iso : Bool} {st : State} {inp : Input} {b : Nat}
    {m : Member} (h : makeModel iso st a inp b = .ok m) :
    Describes m (tCellAt a b) ∧ m.isothermal = iso ∧ m.soc0 = entry st.soc b ∧ m.tInf = entry inp.tInf b ∧
      startEta a.rcs.length st.eta b = .ok m.eta0 := by
  unfold makeModel at h
  cases he : startEta a.rcs.length st.eta b with
  | error e => rw [he] at h; simp [bind, Except.bind] at h
  | ok l =>
    rw [he] at h
    simp only [bind, Except.bind, pure, Except.pure, Except.ok.injEq] at h
    subst h
    refine ⟨⟨rfl, rfl, rfl, rfl, rfl, gives_poly hr0 b, ?_, ?_⟩, rfl, rfl, rfl, rfl⟩
    · show List.Forall₂ _ (a.rcs.map _) (a.rcs.map _)
      rw [List.forall₂_map_left_iff, List.forall₂_map_right_iff, List.forall₂_same]
      exact fun p hp => gives_poly (hrcs p hp).1 b
    · show List.Forall₂ _ (a.rcs.map _) (a.rcs.map _)
      rw [List.forall₂_map_left_iff, List.forall₂_map_right_iff, List.forall₂_same]
      exact fun p hp => gives_poly (hrcs p hp).2 b

theorem startEta_many {B n : Nat} {eta : Nd ℝ} (h : eta.shape = [B, n]) (b : Nat) :
    ∃ l, startEta n eta b = .ok l ∧ ∀ j < n, l.getD j 0 = eta.get [b % B, j] := by
  unfold startEta
  simp only [h, Ecm.rows, List.getD_cons_succ, List.getD_cons_zero]
  by_cases h0 : n = 0
  · subst h0
    exact ⟨[], by simp, fun j hj => absurd hj (by omega)⟩
  · rw [if_neg h0, if_pos trivial]
    exact ⟨_, rfl, fun j hj => by simp [List.getD, hj]⟩

theorem memberRow_exact {solver : Solver} (hsol : ExactSolver solver) {a : ASOH} (hr0 : Tables a.r0) (hrcs : ∀ p ∈ a.rcs, Tables p.1 ∧ Tables p.2) {iso : Bool}
    {B : Nat} {st : State} (hst : Many B a st) {prev new : Input} {b : Nat} (hb : b < B) (hreg : Regular (tCellAt a b) iso) {x : Course}
    (ht : entry prev.time b ≤ entry new.time b)
    (hx : Obeys (tCellAt a b) iso (entry new.tInf b) (-entry new.current b) (entry prev.time b) (entry new.time b) x)
    (h1 : x.soc (entry prev.time b) = st.soc.get [b, 0]) (h2 : x.heat iso (entry new.tInf b) (entry prev.time b) = entry new.tInf b)
    (h3 : ∀ j < a.rcs.length, x.eta j (entry prev.time b) = st.eta.get [b, j]) :
    ∃ η : Nat → ℝ, memberRow solver iso prev new st a b = .ok (x.soc (entry new.time b) :: x.heat iso (entry new.tInf b) (entry new.time b) ::
      (List.range a.rcs.length).map η) ∧ ∀ j < a.rcs.length, η j = x.eta j (entry new.time b) := by
  obtain ⟨l, l1, l2⟩ := startEta_many hst.eta b
  have hm : ∃ m, makeModel iso st a new b = .ok m := by
    unfold makeModel
    rw [l1]
    exact ⟨_, rfl⟩
  obtain ⟨m, hm⟩ := hm
  obtain ⟨d1, d2, d3, d4, d5⟩ := describes_make hr0 hrcs hm
  have el : l = m.eta0 := Except.ok.inj (l1.symm.trans d5)
  have hn : (tCellAt a b).rcs.length = a.rcs.length := by simp [tCellAt]
  have hmod : b % B = b := Nat.mod_eq_of_lt hb
  have es : ∀ t, Course.heat ⟨fun t => x.soc (t + entry prev.time b), fun t => x.temp (t + entry prev.time b), fun j t => x.eta j (t + entry prev.time b)⟩ iso
      (entry new.tInf b) t = x.heat iso (entry new.tInf b) (t + entry prev.time b) := fun t => rfl
  obtain ⟨sol, s1, s2, s3, s4⟩ := hsol m (tCellAt a b) d1 (by rw [d2]; exact hreg) (-entry new.current b) (entry new.time b - entry prev.time b) _
    (sub_nonneg.2 ht) (by rw [d2, d4]; exact obeys_shift hx)
    (by show x.soc (0 + entry prev.time b) = _
        rw [zero_add, d3, h1, entry, Ecm.rows, hst.soc]
        simp [hmod])
    (by rw [d2, d4, es, zero_add]; exact h2)
    (fun j hj => by
      rw [hn] at hj
      show x.eta j (0 + entry prev.time b) = _
      rw [zero_add, h3 j hj, ← el, l2 j hj, hmod])
  refine ⟨sol.eta, ?_, fun j hj => ?_⟩
  · unfold memberRow
    rw [hm]
    simp only [bind, Except.bind, s1, hst.eta, List.getD_cons_succ, List.getD_cons_zero, lt_irrefl, if_false, pure, Except.pure, Except.ok.injEq]
    rw [s2, s3, d2, d4, es]
    simp only [sub_add_cancel, List.cons.injEq, true_and]
    refine List.map_congr_left fun j hj => ?_
    rw [if_pos (List.mem_range.1 hj)]
  · rw [s4 j (by rw [hn]; exact hj)]
    simp

theorem mapM_rows {f : Nat → Except Err (List ℝ)} {g : Nat → List ℝ} : ∀ {l : List Nat}, (∀ b ∈ l, f b = .ok (g b)) → l.mapM f = .ok (l.map g)
  | [], _ => rfl
  | b :: l, h => by
    rw [List.mapM_cons, h b (by simp), mapM_rows fun c hc => h c (List.mem_cons_of_mem _ hc)]
    rfl

theorem batch_max {B : Nat} (hB : 1 ≤ B) {l : List Nat} (h : ∀ n ∈ l, Dim B n) : ∀ m, Dim B m → ∃ k, batchLoop m l = .ok k ∧ Dim B k ∧ m ≤ k := by
  induction l with
  | nil => intro m hm; exact ⟨m, rfl, hm, le_rfl⟩
  | cons n l ih =>
    intro m hm
    have hn := h n (by simp)
    have hmax : Dim B (max m n) := by
      rcases hm with rfl | rfl <;> rcases hn with rfl | rfl
      · left; simp
      · right; omega
      · right; omega
      · right; simp
    obtain ⟨k, k1, k2, k3⟩ := ih (fun n hn => h n (List.mem_cons_of_mem _ hn)) (max m n) hmax
    refine ⟨k, ?_, k2, (le_max_left m n).trans k3⟩
    unfold batchLoop
    rw [if_neg, k1]
    rcases hm with rfl | rfl <;> rcases hn with rfl | rfl <;> simp

theorem update_exact {solver : Solver} (hsol : ExactSolver solver) {a : ASOH} (hr0 : Tables a.r0) (hrcs : ∀ p ∈ a.rcs, Tables p.1 ∧ Tables p.2) {iso : Bool}
    {B : Nat} (hB : 1 ≤ B) (ha : a.Batched B) {st : State} (hst : Many B a st) {prev new : Input} (hn : new.Batched B)
    (hreg : ∀ b < B, Regular (tCellAt a b) iso) {x : Nat → Course}
    (ht : ∀ b < B, entry prev.time b ≤ entry new.time b)
    (hx : ∀ b < B, Obeys (tCellAt a b) iso (entry new.tInf b) (-entry new.current b) (entry prev.time b) (entry new.time b) (x b))
    (h1 : ∀ b < B, (x b).soc (entry prev.time b) = st.soc.get [b, 0])
    (h2 : ∀ b < B, (x b).heat iso (entry new.tInf b) (entry prev.time b) = entry new.tInf b)
    (h3 : ∀ b < B, ∀ j < a.rcs.length, (x b).eta j (entry prev.time b) = st.eta.get [b, j]) :
    ∃ st', update solver iso prev new st a = .ok st' ∧ Many B a st' ∧ ∀ b < B, st'.soc.get [b, 0] = (x b).soc (entry new.time b) ∧
      st'.temp.get [b, 0] = (x b).heat iso (entry new.tInf b) (entry new.time b) ∧
      ∀ j < a.rcs.length, st'.eta.get [b, j] = (x b).eta j (entry new.time b) := by
  have row : ∀ b, ∃ η : Nat → ℝ, b < B → memberRow solver iso prev new st a b = .ok ((x b).soc (entry new.time b) ::
      (x b).heat iso (entry new.tInf b) (entry new.time b) :: (List.range a.rcs.length).map η) ∧ ∀ j < a.rcs.length, η j = (x b).eta j (entry new.time b) := by
    intro b
    by_cases hb : b < B
    · obtain ⟨η, r⟩ := memberRow_exact hsol hr0 hrcs hst hb (hreg b hb) (ht b hb) (hx b hb) (h1 b hb) (h2 b hb) (h3 b hb)
      exact ⟨η, fun _ => r⟩
    · exact ⟨fun _ => 0, fun h => absurd h hb⟩
  choose η hη using row
  obtain ⟨ba, a1, a2, -⟩ : ∃ k, a.batchSize = .ok k ∧ Dim B k ∧ 1 ≤ k := by
    refine batch_max hB (fun n hn => ?_) 1 (.inl rfl)
    simp only [List.mem_append, List.mem_cons, List.not_mem_nil, or_false, List.mem_flatMap] at hn
    rcases hn with ((((rfl | rfl | rfl | rfl | rfl | rfl) | hn) | ⟨p, hp, hn⟩) | ⟨p, hp, hn⟩)
    · exact ha.capacity
    · exact ha.mass
    · exact ha.cp
    · exact ha.hThermal
    · exact ha.aTherm
    · exact ha.ocv
    · exact ha.r0 _ hn
    · exact (ha.rcs p hp).1 _ hn
    · exact (ha.rcs p hp).2 _ hn
  obtain ⟨bi, i1, i2, -⟩ : ∃ k, new.batchSize = .ok k ∧ Dim B k ∧ 1 ≤ k := by
    refine batch_max hB (fun n h => ?_) 1 (.inl rfl)
    simp only [List.mem_cons, List.not_mem_nil, or_false] at h
    rcases h with rfl | rfl | rfl
    · exact hn.time
    · exact hn.current
    · exact hn.tInf
  have b1 : st.batchSize = .ok B := by
    show batchLoop 1 [Ecm.rows st.soc, Ecm.rows st.temp, Ecm.rows st.eta] = _
    simp only [Ecm.rows, hst.soc, hst.temp, hst.eta, List.getD_cons_zero]
    simp only [batchLoop, gt_iff_lt, Nat.lt_irrefl, false_and, if_false, Nat.max_eq_right hB, ne_eq, not_true_eq_false, and_false, Nat.max_self]
  have emax : max (max B ba) bi = B := by
    rcases a2 with rfl | rfl <;> rcases i2 with rfl | rfl <;> omega
  rw [update_eq solver iso b1 a1 i1, emax, mapM_rows fun b hb => (hη b (List.mem_range.1 hb)).1]
  refine ⟨_, rfl, ⟨?_, ?_, ?_⟩, fun b hb => ?_⟩
  · simp [stateOfRows]
  · simp [stateOfRows]
  · simp [stateOfRows, hst.eta]
  · simp only [stateOfRows, List.getD_cons_zero, List.getD_cons_succ]
    have e : ∀ g : Nat → List ℝ, ((List.range B).map g).getD b [] = g b := fun g => by simp [List.getD, hb]
    simp only [e]
    refine ⟨rfl, rfl, fun j hj => ?_⟩
    have : ∀ (z T : ℝ) (l : List ℝ), (z :: T :: l).getD (2 + j) 0 = l.getD j 0 := fun z T l => by
      rw [Nat.add_comm]; rfl
    rw [this, ← (hη b hb).2 j hj]
    simp [List.getD, hj]

/-! ## Runs -/

/-- C151, the part that holds: isothermal cells.  Any batch of `B` Thevenin cells with polynomial parameters is simulated through any inputs at times
that do not decrease, by a solver that solves the package's equations for one step of constant current from a given state.  If, for every cell, `x b` is
a course that starts at the given state and obeys the equations in every step (with the ambient temperature and the current of the step's new input,
charging counted positive), then the simulation succeeds and ends with the SOCs and overpotentials of the courses at the last time.  (Missing: cells
whose temperature changes, see `C151_heat_lost`.) -/
theorem C151_follows_equations_partial {solver : Solver} (hsol : ExactSolver solver) {a : ASOH} (hr0 : Tables a.r0)
    (hrcs : ∀ p ∈ a.rcs, Tables p.1 ∧ Tables p.2) {B : Nat} (hB : 1 ≤ B) (ha : a.Batched B) {x : Nat → Course} : ∀ (us : List Input) (u : Input) (st : State),
    st.soc.shape = [B, 1] → st.temp.shape = [B, 1] → st.eta.shape = [B, a.rcs.length] → (∀ v ∈ us, v.Batched B) →
    (∀ b < B, (x b).soc (entry u.time b) = st.soc.get [b, 0] ∧ (∀ j < a.rcs.length, (x b).eta j (entry u.time b) = st.eta.get [b, j]) ∧
      FollowsAll (tCellAt a b) true (x b) b u us) →
    ∃ st', runs solver true a u st us = .ok st' ∧ st'.soc.shape = [B, 1] ∧ st'.temp.shape = [B, 1] ∧ st'.eta.shape = [B, a.rcs.length] ∧
      ∀ b < B, st'.soc.get [b, 0] = (x b).soc (entry (us.getLastD u).time b) ∧
        (∀ j < a.rcs.length, st'.eta.get [b, j] = (x b).eta j (entry (us.getLastD u).time b)) ∧
        (us ≠ [] → st'.temp.get [b, 0] = entry (us.getLastD u).tInf b) := by
  intro us
  induction us with
  | nil =>
    intro u st s1 s2 s3 _ h
    exact ⟨st, rfl, s1, s2, s3, fun b hb => ⟨(h b hb).1.symm, fun j hj => ((h b hb).2.1 j hj).symm, fun h => absurd rfl h⟩⟩
  | cons v us ih =>
    intro u st s1 s2 s3 hv h
    obtain ⟨st₁, e, m, r⟩ := update_exact hsol hr0 hrcs hB ha ⟨s1, s2, s3⟩ (hv v (by simp)) (fun b _ => regular_poly a b) (prev := u) (x := x)
      (fun b hb => (h b hb).2.2.1) (fun b hb => (h b hb).2.2.2.1) (fun b hb => (h b hb).1) (fun b hb => rfl) (fun b hb => (h b hb).2.1)
    obtain ⟨st', e', t1, t2, t3, t4⟩ := ih v st₁ m.soc m.temp m.eta (fun w hw => hv w (List.mem_cons_of_mem _ hw)) fun b hb =>
      ⟨(r b hb).1.symm, fun j hj => ((r b hb).2.2 j hj).symm, (h b hb).2.2.2.2⟩
    have eq : (v :: us).getLastD u = us.getLastD v := by cases us <;> rfl
    have run : runs solver true a u st (v :: us) = .ok st' := by
      show (update solver true u v st a).bind (fun st' => runs solver true a v st' us) = _
      rw [e]
      exact e'
    refine ⟨st', run, t1, t2, t3, fun b hb => ?_⟩
    rw [eq]
    refine ⟨(t4 b hb).1, (t4 b hb).2.1, fun _ => ?_⟩
    by_cases hn : us = []
    · subst hn
      obtain rfl : st₁ = st' := Except.ok.inj e'
      exact (r b hb).2.1
    · exact (t4 b hb).2.2 hn

/-! ## Solutions exist and are unique -/

theorem heat_regular {c : TCell} {iso : Bool} (hr : Regular c iso) (x : Course) (amb : ℝ) {rc : (ℝ → ℝ → ℝ) × (ℝ → ℝ → ℝ)} (hrc : rc ∈ c.rcs) (z t : ℝ) :
    rc.1 z (x.heat iso amb t) = rc.1 z amb ∧ rc.2 z (x.heat iso amb t) = rc.2 z amb := by
  cases iso with
  | true => exact ⟨rfl, rfl⟩
  | false => exact (hr.cold rfl).2 rc hrc z _ _

theorem soc_obeys {c : TCell} {iso : Bool} {amb I s e : ℝ} (hse : s ≤ e) {x : Course} (h : Obeys c iso amb I s e x) :
    ∀ t ∈ Icc s e, x.soc t = x.soc s - I / (3600 * c.capacity) * (t - s) := by
  refine LinearOde.unique_solution (α := fun _ => -I / (3600 * c.capacity)) (a := fun _ => 0) hse continuousOn_const (by simp) (fun t ht => ?_) fun t _ => ?_
  · simpa using h.soc t ht
  · have := (((hasDerivWithinAt_id t (Icc s e)).sub_const s).const_mul (I / (3600 * c.capacity))).const_sub (x.soc s)
    refine this.congr_deriv ?_
    ring

theorem rate_continuous {c : TCell} {iso : Bool} (hr : Regular c iso) {amb I s e : ℝ} {x : Course} (h : Obeys c iso amb I s e x) {j : Nat}
    (hj : j < c.rcs.length) : ContinuousOn (fun t => 1 / (c.rcs[j].1 (x.soc t) amb * c.rcs[j].2 (x.soc t) amb)) (Icc s e) := by
  have hz : ContinuousOn x.soc (Icc s e) := fun t ht => (h.soc t ht).continuousWithinAt
  have hmem : c.rcs[j] ∈ c.rcs := List.getElem_mem hj
  obtain ⟨k1, k2⟩ := hr.cont _ hmem amb
  refine continuousOn_const.div ((k1.comp_continuousOn hz).mul (k2.comp_continuousOn hz)) fun t ht => ?_
  have hp := h.positive _ hmem t ht
  obtain ⟨e1, e2⟩ := heat_regular hr x amb hmem (x.soc t) t
  rw [e1, e2] at hp
  exact (mul_pos hp.1 hp.2).ne'

theorem course_unique {c : TCell} {iso : Bool} (hr : Regular c iso) {amb I s e : ℝ} (hse : s ≤ e) {x y : Course} (hx : Obeys c iso amb I s e x)
    (hy : Obeys c iso amb I s e y) (h1 : x.soc s = y.soc s) (h2 : x.heat iso amb s = y.heat iso amb s)
    (h3 : ∀ j < c.rcs.length, x.eta j s = y.eta j s) :
    ∀ t ∈ Icc s e, x.soc t = y.soc t ∧ x.heat iso amb t = y.heat iso amb t ∧ ∀ j < c.rcs.length, x.eta j t = y.eta j t := by
  have a1 : ∀ t ∈ Icc s e, x.soc t = y.soc t := fun t ht => by rw [soc_obeys hse hx t ht, soc_obeys hse hy t ht, h1]
  have a2 : ∀ j < c.rcs.length, ∀ t ∈ Icc s e, x.eta j t = y.eta j t := by
    intro j hj
    have hmem : c.rcs[j] ∈ c.rcs := List.getElem_mem hj
    refine LinearOde.unique_solution (α := fun t => I / c.rcs[j].2 (x.soc t) amb) hse (rate_continuous hr hx hj) (h3 j hj) (fun t ht => ?_) fun t ht => ?_
    · refine (hx.eta j hj t ht).congr_deriv ?_
      obtain ⟨e1, e2⟩ := heat_regular hr x amb hmem (x.soc t) t
      rw [e1, e2]
      ring
    · refine (hy.eta j hj t ht).congr_deriv ?_
      obtain ⟨e1, e2⟩ := heat_regular hr y amb hmem (y.soc t) t
      rw [e1, e2, a1 t ht]
      ring
  refine fun t ht => ⟨a1 t ht, ?_, fun j hj => a2 j hj t ht⟩
  cases iso with
  | true => rfl
  | false =>
    revert t
    have r0 := (hr.cold rfl).1
    refine LinearOde.unique_solution (x := x.temp) (y := y.temp) (a := fun _ => c.h * c.area / (c.mass * c.cp))
      (α := fun t => (I * ((∑ j ∈ Finset.range c.rcs.length, x.eta j t) + I * c.r0 (x.soc t) amb) + c.h * c.area * amb) / (c.mass * c.cp))
      hse continuousOn_const h2 (fun t ht => ?_) fun t ht => ?_
    · refine (hx.temp rfl t ht).congr_deriv ?_
      rw [r0 _ (x.temp t) amb]
      ring
    · refine (hy.temp rfl t ht).congr_deriv ?_
      rw [r0 _ (y.temp t) amb, ← a1 t ht, Finset.sum_congr rfl fun j hj => (a2 j (Finset.mem_range.1 hj) t ht).symm]
      ring

theorem gives_unique {f : Nd ℝ → Nd ℝ → Except Err (Nd ℝ)} {g g' : ℝ → ℝ → ℝ} (h : Gives f g) (h' : Gives f g') : g = g' := by
  funext z T
  obtain ⟨v, v1, -, v3⟩ := h z T
  obtain ⟨w, w1, -, w3⟩ := h' z T
  obtain rfl : v = w := Except.ok.inj (v1.symm.trans w1)
  rw [← v3, ← w3]

theorem describes_unique {m : Member} {c c' : TCell} (h : Describes m c) (h' : Describes m c') : c = c' := by
  have rcs : c.rcs = c'.rcs := by
    have k1 := h.rs
    have k2 := h.cs
    have k1' := h'.rs
    have k2' := h'.cs
    generalize m.rs = rs at *
    generalize m.cs = cs at *
    generalize c.rcs = l at *
    generalize c'.rcs = l' at *
    induction k1 generalizing cs l' with
    | nil => cases k1'; rfl
    | cons g _ ih =>
      cases k2 with
      | cons q k2 =>
        cases k1' with
        | cons g' k1' =>
          cases k2' with
          | cons q' k2' =>
            rw [ih _ k2 _ k1' k2']
            congr 1
            exact Prod.ext (gives_unique g g') (gives_unique q q')
  obtain ⟨⟩ := c
  obtain ⟨⟩ := c'
  simp only [TCell.mk.injEq]
  exact ⟨h.capacity.symm.trans h'.capacity, h.mass.symm.trans h'.mass, h.cp.symm.trans h'.cp, h.h.symm.trans h'.h, h.area.symm.trans h'.area,
    gives_unique h.r0 h'.r0, rcs⟩

/-- What a solver has to do is possible. -/
theorem C151_solver_possible : ∃ solver, ExactSolver solver := by
  classical
  let P : Member → ℝ → ℝ → TCell × Course → Prop := fun m I d q => Describes m q.1 ∧ Regular q.1 m.isothermal ∧ 0 ≤ d ∧
    Obeys q.1 m.isothermal m.tInf I 0 d q.2 ∧ q.2.soc 0 = m.soc0 ∧ q.2.heat m.isothermal m.tInf 0 = m.tInf ∧
    ∀ j < q.1.rcs.length, q.2.eta j 0 = m.eta0.getD j 0
  refine ⟨fun m I d => if h : ∃ q, P m I d q then .ok ⟨h.choose.2.soc d, h.choose.2.heat m.isothermal m.tInf d, fun j => h.choose.2.eta j d⟩
    else .error .valueError, ?_⟩
  intro m c hc hr I d x hd hx h1 h2 h3
  have h : ∃ q, P m I d q := ⟨(c, x), hc, hr, hd, hx, h1, h2, h3⟩
  refine ⟨_, dif_pos h, ?_⟩
  have hs := h.choose_spec
  generalize h.choose = q at hs
  obtain ⟨c', y⟩ := q
  obtain ⟨hc', hr', -, hy, k1, k2, k3⟩ := hs
  obtain rfl := describes_unique hc hc'
  obtain ⟨u1, u2, u3⟩ := course_unique hr hd hx hy (h1.trans k1.symm) (h2.trans k2.symm) (fun j hj => (h3 j hj).trans (k3 j hj).symm) d ⟨hd, le_rfl⟩
  exact ⟨u1.symm, u2.symm, fun j hj => (u3 j hj).symm⟩

/-- Resistances and capacitances of RC elements that are positive at every SOC and temperature. -/
def Positive (c : TCell) : Prop := ∀ rc ∈ c.rcs, ∀ z T, 0 < rc.1 z T ∧ 0 < rc.2 z T

theorem course_exists {c : TCell} (hr : Regular c true) (hp : Positive c) (amb I : ℝ) {s e : ℝ} (hse : s ≤ e) (z₀ : ℝ) (η₀ : Nat → ℝ) :
    ∃ x : Course, Obeys c true amb I s e x ∧ x.soc s = z₀ ∧ ∀ j < c.rcs.length, x.eta j s = η₀ j := by
  let z : ℝ → ℝ := fun t => z₀ - I / (3600 * c.capacity) * (t - s)
  have hz : ∀ t, HasDerivWithinAt z (-I / (3600 * c.capacity)) (Icc s e) t := fun t => by
    have := (((hasDerivWithinAt_id t (Icc s e)).sub_const s).const_mul (I / (3600 * c.capacity))).const_sub z₀
    refine this.congr_deriv ?_
    ring
  have cz : ContinuousOn z (Icc s e) := fun t _ => (hz t).continuousWithinAt
  have ex : ∀ j, ∃ y : ℝ → ℝ, ∀ hj : j < c.rcs.length, y s = η₀ j ∧ ∀ t ∈ Icc s e,
      HasDerivWithinAt y (I / c.rcs[j].2 (z t) amb - y t / (c.rcs[j].1 (z t) amb * c.rcs[j].2 (z t) amb)) (Icc s e) t := by
    intro j
    by_cases hj : j < c.rcs.length
    · have hmem : c.rcs[j] ∈ c.rcs := List.getElem_mem hj
      obtain ⟨k1, k2⟩ := hr.cont _ hmem amb
      obtain ⟨y, y1, y2⟩ := LinearOde.exists_solution (α := fun t => I / c.rcs[j].2 (z t) amb) (a := fun t => 1 / (c.rcs[j].1 (z t) amb * c.rcs[j].2 (z t) amb)) hse
        (continuousOn_const.div (k2.comp_continuousOn cz) fun t _ => (hp _ hmem _ _).2.ne')
        (continuousOn_const.div ((k1.comp_continuousOn cz).mul (k2.comp_continuousOn cz)) fun t _ => (mul_pos (hp _ hmem _ _).1 (hp _ hmem _ _).2).ne') (η₀ j)
      refine ⟨y, fun _ => ⟨y1, fun t ht => (y2 t ht).congr_deriv ?_⟩⟩
      ring
    · exact ⟨fun _ => 0, fun h => absurd h hj⟩
  choose y hy using ex
  exact ⟨⟨z, fun _ => amb, y⟩, ⟨fun t _ => hz t, fun j hj t ht => (hy j hj).2 t ht, nofun, fun rc hrc t _ => hp rc hrc _ _⟩, by simp [z], fun j hj => (hy j hj).1⟩

theorem obeys_congr {c : TCell} {amb I s e : ℝ} {x y : Course} (h : Obeys c true amb I s e y) (h1 : ∀ t ∈ Icc s e, x.soc t = y.soc t)
    (h2 : ∀ j, ∀ t ∈ Icc s e, x.eta j t = y.eta j t) : Obeys c true amb I s e x := by
  refine ⟨fun t ht => (h.soc t ht).congr h1 (h1 t ht), fun j hj t ht => ?_, nofun, fun rc hrc t ht => ?_⟩
  · have := (h.eta j hj t ht).congr (h2 j) (h2 j t ht)
    rw [h1 t ht, h2 j t ht]
    exact this
  · rw [h1 t ht]
    exact h.positive rc hrc t ht

theorem follows_congr {c : TCell} {b : Nat} {x y : Course} {T : ℝ} (h1 : ∀ t, T ≤ t → x.soc t = y.soc t) (h2 : ∀ j, ∀ t, T ≤ t → x.eta j t = y.eta j t) :
    ∀ {us : List Input} {u : Input}, T ≤ entry u.time b → FollowsAll c true y b u us → FollowsAll c true x b u us := by
  intro us
  induction us with
  | nil => intro u _ _; trivial
  | cons v us ih =>
    rintro u hu ⟨k1, k2, k3⟩
    exact ⟨k1, obeys_congr k2 (fun t ht => h1 t (hu.trans ht.1)) fun j t ht => h2 j t (hu.trans ht.1), ih (hu.trans k1) k3⟩

/-- C151: such courses exist.  An isothermal cell whose RC elements have positive resistances and capacitances has a course through any inputs at times
that do not decrease, from any state. -/
theorem C151_course_exists (a : ASOH) (b : Nat) (hp : Positive (tCellAt a b)) : ∀ (us : List Input) (u : Input) (z₀ : ℝ) (η₀ : Nat → ℝ),
    (u :: us).IsChain (fun v w => entry v.time b ≤ entry w.time b) →
    ∃ x : Course, x.soc (entry u.time b) = z₀ ∧ (∀ j < a.rcs.length, x.eta j (entry u.time b) = η₀ j) ∧ FollowsAll (tCellAt a b) true x b u us := by
  have hn : (tCellAt a b).rcs.length = a.rcs.length := by simp [tCellAt]
  intro us
  induction us with
  | nil => intro u z₀ η₀ _; exact ⟨⟨fun _ => z₀, fun _ => 0, fun j _ => η₀ j⟩, rfl, fun _ _ => rfl, trivial⟩
  | cons v us ih =>
    intro u z₀ η₀ ht
    obtain ⟨t1, t2⟩ := List.isChain_cons_cons.1 ht
    obtain ⟨x, x1, x2, x3⟩ := course_exists (regular_poly a b) hp (entry v.tInf b) (-entry v.current b) t1 z₀ η₀
    obtain ⟨y, y1, y2, y3⟩ := ih v (x.soc (entry v.time b)) (fun j => x.eta j (entry v.time b)) t2
    classical
    let w : Course := ⟨fun t => if t < entry v.time b then x.soc t else y.soc t, fun _ => 0,
      fun j t => if t < entry v.time b ∨ a.rcs.length ≤ j then x.eta j t else y.eta j t⟩
    have w1 : ∀ t ≤ entry v.time b, w.soc t = x.soc t := fun t h => by
      show (if _ then _ else _) = _
      split
      · rfl
      · rw [le_antisymm h (not_lt.1 ‹_›), y1]
    have w2 : ∀ j, ∀ t ≤ entry v.time b, w.eta j t = x.eta j t := fun j t h => by
      show (if _ then _ else _) = _
      split
      · rfl
      · rename_i hc
        rw [not_or, not_lt, not_le] at hc
        rw [le_antisymm h hc.1, y2 j hc.2]
    have w3 : ∀ t, entry v.time b ≤ t → w.soc t = y.soc t := fun t h => if_neg (not_lt.2 h)
    have w4 : ∀ j < a.rcs.length, ∀ t, entry v.time b ≤ t → w.eta j t = y.eta j t := fun j hj t h => if_neg (by
      rw [not_or]; exact ⟨not_lt.2 h, not_le.2 hj⟩)
    refine ⟨w, (w1 _ t1).trans x2, fun j hj => (w2 j _ t1).trans (x3 j (hn ▸ hj)), t1, obeys_congr x1 (fun t ht => w1 t ht.2) (fun j t ht => w2 j t ht.2), ?_⟩
    let y' : Course := ⟨y.soc, y.temp, fun j t => if a.rcs.length ≤ j then w.eta j t else y.eta j t⟩
    have key : ∀ {us : List Input} {u : Input}, FollowsAll (tCellAt a b) true y b u us → FollowsAll (tCellAt a b) true y' b u us := by
      intro us
      induction us with
      | nil => intro u _; trivial
      | cons v us ih =>
        rintro u ⟨k1, k2, k3⟩
        refine ⟨k1, ⟨k2.soc, fun j hj t ht => ?_, nofun, k2.positive⟩, ih k3⟩
        have e : y'.eta j = y.eta j := funext fun t => if_neg (not_le.2 (hn ▸ hj))
        rw [e]
        exact k2.eta j hj t ht
    refine follows_congr (y := y') (T := entry v.time b) w3 (fun j t h => ?_) le_rfl (key y3)
    show w.eta j t = if _ then _ else _
    split
    · rfl
    · exact w4 j (not_le.1 ‹_›) t h

theorem soc_follows {c : TCell} {x : Course} {b : Nat} : ∀ {us : List Input} {u : Input}, FollowsAll c true x b u us →
    x.soc (entry (us.getLastD u).time b) = x.soc (entry u.time b) +
      (((u :: us).zip us).map fun p => entry p.2.current b * (entry p.2.time b - entry p.1.time b)).sum / (3600 * c.capacity) := by
  intro us
  induction us with
  | nil => intro u _; simp
  | cons v us ih =>
    rintro u ⟨k1, k2, k3⟩
    have e : (v :: us).getLastD u = us.getLastD v := by cases us <;> rfl
    rw [e, ih k3, soc_obeys k1 k2 _ ⟨k1, le_rfl⟩, List.zip_cons_cons, List.map_cons, List.sum_cons, add_div]
    ring

/-- C151: every simulation of isothermal cells with positive RC parameters succeeds, and counts the charge: the SOC of every cell changes by the charge that
has flowed over its capacity.  The current of a step is that of its new input (where the equivalent circuit takes the previous one). -/
theorem C151_charge {solver : Solver} (hsol : ExactSolver solver) {a : ASOH} (hr0 : Tables a.r0) (hrcs : ∀ p ∈ a.rcs, Tables p.1 ∧ Tables p.2) {B : Nat}
    (hB : 1 ≤ B) (ha : a.Batched B) (hp : ∀ b < B, Positive (tCellAt a b)) (_hQ : ∀ b < B, entry a.capacity b ≠ 0) {us : List Input} {u : Input} {st : State}
    (h1 : st.soc.shape = [B, 1]) (h2 : st.temp.shape = [B, 1]) (h3 : st.eta.shape = [B, a.rcs.length]) (hus : ∀ v ∈ us, v.Batched B)
    (times : ∀ b < B, (u :: us).IsChain fun v w => entry v.time b ≤ entry w.time b) :
    ∃ st', runs solver true a u st us = .ok st' ∧ ∀ b < B, st'.soc.get [b, 0] = st.soc.get [b, 0] +
      (((u :: us).zip us).map fun p => entry p.2.current b * (entry p.2.time b - entry p.1.time b)).sum / (3600 * entry a.capacity b) := by
  have ex : ∀ b, ∃ x : Course, b < B → x.soc (entry u.time b) = st.soc.get [b, 0] ∧ (∀ j < a.rcs.length, x.eta j (entry u.time b) = st.eta.get [b, j]) ∧
      FollowsAll (tCellAt a b) true x b u us := fun b => by
    by_cases hb : b < B
    · obtain ⟨x, hx⟩ := C151_course_exists a b (hp b hb) us u (st.soc.get [b, 0]) (fun j => st.eta.get [b, j]) (times b hb)
      exact ⟨x, fun _ => hx⟩
    · exact ⟨⟨fun _ => 0, fun _ => 0, fun _ _ => 0⟩, fun h => absurd h hb⟩
  choose x hx using ex
  obtain ⟨st', e, -, -, -, r⟩ := C151_follows_equations_partial hsol hr0 hrcs hB ha us u st h1 h2 h3 hus hx
  refine ⟨st', e, fun b hb => ?_⟩
  rw [(r b hb).1, soc_follows (hx b hb).2.2, (hx b hb).1]
  rfl

/-- C151: for isothermal cells with positive RC parameters it does not matter whether a step of constant current is made at once or in two parts. -/
theorem C151_split {solver : Solver} (hsol : ExactSolver solver) {a : ASOH} (hr0 : Tables a.r0) (hrcs : ∀ p ∈ a.rcs, Tables p.1 ∧ Tables p.2) {B : Nat}
    (hB : 1 ≤ B) (ha : a.Batched B) (hp : ∀ b < B, Positive (tCellAt a b)) (_hQ : ∀ b < B, entry a.capacity b ≠ 0) {u v w : Input} {st : State}
    (h1 : st.soc.shape = [B, 1]) (h2 : st.temp.shape = [B, 1]) (h3 : st.eta.shape = [B, a.rcs.length]) (hv : v.Batched B) (hw : w.Batched B)
    (times : ∀ b < B, entry u.time b ≤ entry v.time b ∧ entry v.time b ≤ entry w.time b)
    (same : ∀ b < B, entry v.current b = entry w.current b ∧ entry v.tInf b = entry w.tInf b) :
    ∃ one two, runs solver true a u st [w] = .ok one ∧ runs solver true a u st [v, w] = .ok two ∧ ∀ b < B,
      one.soc.get [b, 0] = two.soc.get [b, 0] ∧ one.temp.get [b, 0] = two.temp.get [b, 0] ∧ ∀ j < a.rcs.length, one.eta.get [b, j] = two.eta.get [b, j] := by
  have hn : ∀ b, (tCellAt a b).rcs.length = a.rcs.length := fun b => by simp [tCellAt]
  have ex : ∀ b, ∃ x : Course, b < B → Obeys (tCellAt a b) true (entry w.tInf b) (-entry w.current b) (entry u.time b) (entry w.time b) x ∧
      x.soc (entry u.time b) = st.soc.get [b, 0] ∧ ∀ j < a.rcs.length, x.eta j (entry u.time b) = st.eta.get [b, j] := fun b => by
    by_cases hb : b < B
    · obtain ⟨x, x1, x2, x3⟩ := course_exists (regular_poly a b) (hp b hb) (entry w.tInf b) (-entry w.current b) ((times b hb).1.trans (times b hb).2)
        (st.soc.get [b, 0]) (fun j => st.eta.get [b, j])
      exact ⟨x, fun _ => ⟨x1, x2, hn b ▸ x3⟩⟩
    · exact ⟨⟨fun _ => 0, fun _ => 0, fun _ _ => 0⟩, fun h => absurd h hb⟩
  choose x hx using ex
  obtain ⟨one, e1, -, -, -, r1⟩ := C151_follows_equations_partial hsol hr0 hrcs hB ha [w] u st h1 h2 h3 (by simpa using hw) fun b hb =>
    ⟨(hx b hb).2.1, (hx b hb).2.2, (times b hb).1.trans (times b hb).2, (hx b hb).1, trivial⟩
  obtain ⟨two, e2, -, -, -, r2⟩ := C151_follows_equations_partial hsol hr0 hrcs hB ha [v, w] u st h1 h2 h3 (by simpa using ⟨hv, hw⟩) fun b hb =>
    ⟨(hx b hb).2.1, (hx b hb).2.2, (times b hb).1, by
      rw [(same b hb).1, (same b hb).2]
      exact obeys_mono (hx b hb).1 le_rfl (times b hb).2, (times b hb).2, obeys_mono (hx b hb).1 (times b hb).1 le_rfl, trivial⟩
  refine ⟨one, two, e1, e2, fun b hb => ?_⟩
  obtain ⟨p1, p2, p3⟩ := r1 b hb
  obtain ⟨q1, q2, q3⟩ := r2 b hb
  exact ⟨p1.trans q1.symm, (p3 (by simp)).trans (q3 (by simp)).symm, fun j hj => (p2 j hj).trans (q2 j hj).symm⟩

/-- A cell without RC elements: capacity 1 Ah, heat capacity and heat exchange 1, series resistance 1. -/
noncomputable def heater : ASOH := ⟨num2 1, num2 1, num2 1, num2 1, num2 1, ⟨num2 3⟩, ⟨num2 25, num2 1, num2 0⟩, []⟩

theorem heater_tables : Tables heater.r0 := ⟨⟨1, rfl⟩, ⟨1, 1, rfl, le_rfl⟩, 1, 1, rfl, le_rfl⟩

theorem heater_batched : heater.Batched 1 :=
  ⟨.inl rfl, .inl rfl, .inl rfl, .inl rfl, .inl rfl, .inl rfl, fun n hn => by
    simp only [heater, PolySocT.rowCounts, List.mem_cons, List.not_mem_nil, or_false] at hn
    rcases hn with rfl | rfl | rfl <;> exact .inl rfl, nofun⟩

theorem heater_r0 (b : Nat) (z T : ℝ) : (tCellAt heater b).r0 z T = 1 := by
  simp [tCellAt, polyAt, rowPoly, heater, num2]

/-- The course of the heater that is at 300 K at time `s`, the temperature of its surroundings, and is charged with 1 A. -/
noncomputable def warming (z s : ℝ) : Course := ⟨fun t => z + 1 / 3600 * (t - s), fun t => 301 - Real.exp (-(t - s)), fun _ _ => 0⟩

theorem warming_obeys (z s e : ℝ) : Obeys (tCellAt heater 0) false 300 (-1) s e (warming z s) := by
  refine ⟨fun t _ => ?_, nofun, fun _ t _ => ?_, nofun⟩
  · have := ((hasDerivWithinAt_id t (Icc s e)).sub_const s).const_mul (1 / 3600 : ℝ) |>.const_add z
    refine this.congr_deriv ?_
    show 1 / 3600 * 1 = - -1 / (3600 * (1 : ℝ))
    norm_num
  · have := (((hasDerivAt_id t).sub_const s).neg.exp).const_sub 301 |>.hasDerivWithinAt (s := Icc s e)
    refine this.congr_deriv ?_
    rw [heater_r0]
    show -(Real.exp (-(t - s)) * -1) = (-1 * (_ + -1 * 1) - 1 * 1 * (301 - Real.exp (-(t - s)) - 300)) / (1 * 1)
    simp [tCellAt, heater]
    ring

/-- C151, negated where the temperature is not held.  Every solver that starts a step at the ambient temperature (`_make_models` hands over SOC and
overpotentials, but not the temperature of the state): charging the same cell for two seconds at constant current ends at one temperature if it is
done at once, which is that of the equations, and at another if it is done in two steps of one second, as the heat of the first second is lost. -/
theorem C151_heat_lost {solver : Solver} (hsol : ExactSolver solver) (z : ℝ) :
    let u : ℝ → Input := fun t => ⟨num2 t, num2 1, num2 300⟩
    let st : State := ⟨num2 z, num2 300, ⟨[1, 0], fun _ => 0⟩⟩
    (∃ x : Course, Obeys (tCellAt heater 0) false 300 (-1) 0 2 x ∧ x.soc 0 = z ∧ x.temp 0 = 300 ∧ x.temp 2 = 301 - Real.exp (-2)) ∧
    ∃ one two, runs solver false heater (u 0) st [u 2] = .ok one ∧ runs solver false heater (u 0) st [u 1, u 2] = .ok two ∧
      one.temp.get [0, 0] = 301 - Real.exp (-2) ∧ two.temp.get [0, 0] = 301 - Real.exp (-1) ∧ two.temp.get [0, 0] ≠ one.temp.get [0, 0] := by
  intro u st
  have hreg : ∀ b < 1, Regular (tCellAt heater b) false := fun b _ => ⟨nofun, fun _ => ⟨fun z T T' => by rw [heater_r0, heater_r0], nofun⟩⟩
  have hu : ∀ t, (u t).Batched 1 := fun t => ⟨.inl rfl, .inl rfl, .inl rfl⟩
  have step : ∀ (s e : ℝ) (hse : s ≤ e) (st : State), Many 1 heater st →
      ∃ st', update solver false (u s) (u e) st heater = .ok st' ∧ Many 1 heater st' ∧ st'.temp.get [0, 0] = 301 - Real.exp (-(e - s)) := by
    intro s e hse st hst
    have z0 : ∀ b < 1, b = 0 := fun b hb => by omega
    obtain ⟨st', e1, e2, e3⟩ := update_exact hsol heater_tables nofun le_rfl heater_batched hst (hu e) hreg (prev := u s) (x := fun _ => warming (st.soc.get [0, 0]) s)
      (fun b _ => hse) (fun b hb => by rw [z0 b hb]; exact warming_obeys _ s e)
      (fun b hb => by rw [z0 b hb]; show _ + 1 / 3600 * (s - s) = _; simp)
      (fun b hb => by show 301 - Real.exp (-(s - s)) = 300; simp; norm_num) (fun b _ j hj => absurd hj (by simp [heater]))
    exact ⟨st', e1, e2, (e3 0 one_pos).2.1⟩
  have hst : Many 1 heater st := ⟨rfl, rfl, rfl⟩
  refine ⟨⟨warming z 0, warming_obeys z 0 2, by simp [warming], by simp [warming]; norm_num, by simp [warming]⟩, ?_⟩
  obtain ⟨one, o1, -, o3⟩ := step 0 2 (by norm_num) st hst
  obtain ⟨mid, m1, m2, -⟩ := step 0 1 (by norm_num) st hst
  obtain ⟨two, t1, -, t3⟩ := step 1 2 (by norm_num) mid m2
  refine ⟨one, two, ?_, ?_, by rw [o3]; norm_num, by rw [t3]; norm_num, ?_⟩
  · show (update solver false (u 0) (u 2) st heater).bind (fun st' => .ok st') = _
    rw [o1]; rfl
  · show (update solver false (u 0) (u 1) st heater).bind (fun st' => (update solver false (u 1) (u 2) st' heater).bind fun st' => .ok st') = _
    rw [m1]
    show (update solver false (u 1) (u 2) mid heater).bind _ = _
    rw [t1]; rfl
  · rw [o3, t3]
    intro h
    have : Real.exp (-(2 - 1)) = Real.exp (-(2 - 0)) := by linarith
    rw [Real.exp_eq_exp] at this
    norm_num at this

/-! ## Examples -/

/-- Two cells with one RC element each, whose resistances differ: 2 Ω and 3 Ω plus the square of the SOC; capacitance 7 F. -/
noncomputable def twoCells : ASOH :=
  let two : Nd ℝ := ⟨[2, 3], fun idx => ([[2, 0, 1], [3, 0, 1]].getD (idx.getD 0 0) []).getD (idx.getD 1 0) 0⟩
  ⟨num2 1, num2 1, num2 1, num2 1, num2 1, ⟨num2 3⟩, ⟨num2 25, num2 1, num2 0⟩, [(⟨num2 25, two, num2 0⟩, ⟨num2 25, num2 7, num2 0⟩)]⟩

theorem twoCells_positive (b : Nat) : Positive (tCellAt twoCells b) := by
  intro rc hrc z T
  rw [show (tCellAt twoCells b).rcs = [_] from rfl, List.mem_singleton] at hrc
  subst hrc
  have : b % 2 = 0 ∨ b % 2 = 1 := by omega
  constructor
  · rcases this with h | h <;> simp [polyAt, rowPoly, num2, Ecm.rows, Finset.sum_range_succ, h] <;> positivity
  · simp [polyAt, rowPoly, num2]

-- Two cells at SOCs 0.2 and 0.8 are charged together through any inputs; their SOCs are those of the charge that has flowed.
example (l : List (ℝ × ℝ)) (h : (0 :: l.map (·.1)).IsChain (· ≤ ·)) :
    ∃ solver, ExactSolver solver ∧
    let u : ℝ × ℝ → Input := fun p => ⟨num2 p.1, num2 p.2, num2 298⟩
    let st : State := ⟨⟨[2, 1], fun idx => [0.2, 0.8].getD (idx.getD 0 0) 0⟩, ⟨[2, 1], fun _ => 298⟩, ⟨[2, 1], fun _ => 0.1⟩⟩
    ∃ st', runs solver true twoCells (u (0, 0)) st (l.map u) = .ok st' ∧
      st'.soc.get [1, 0] = 0.8 + ((((0, 0) :: l).zip l).map fun p => p.2.2 * (p.2.1 - p.1.1)).sum / 3600 := by
  obtain ⟨solver, hsol⟩ := C151_solver_possible
  refine ⟨solver, hsol, ?_⟩
  intro u st
  have hb : twoCells.Batched 2 := by
    refine ⟨.inl rfl, .inl rfl, .inl rfl, .inl rfl, .inl rfl, .inl rfl, fun n hn => ?_, fun p hp => ?_⟩
    · simp only [twoCells, PolySocT.rowCounts, List.mem_cons, List.not_mem_nil, or_false] at hn
      rcases hn with rfl | rfl | rfl <;> exact .inl rfl
    · rw [List.mem_singleton.1 hp]
      constructor <;> intro n hn <;> simp only [PolySocT.rowCounts, List.mem_cons, List.not_mem_nil, or_false] at hn <;> rcases hn with rfl | rfl | rfl <;>
        first | exact .inl rfl | exact .inr rfl
  have ht : Tables twoCells.r0 := ⟨⟨1, rfl⟩, ⟨1, 1, rfl, le_rfl⟩, 1, 1, rfl, le_rfl⟩
  have hrc : ∀ p ∈ twoCells.rcs, Tables p.1 ∧ Tables p.2 := fun p hp => by
    rw [List.mem_singleton.1 hp]
    exact ⟨⟨⟨1, rfl⟩, ⟨2, 3, rfl, by norm_num⟩, 1, 1, rfl, le_rfl⟩, ⟨1, rfl⟩, ⟨1, 1, rfl, le_rfl⟩, 1, 1, rfl, le_rfl⟩
  obtain ⟨st', e, r⟩ := C151_charge hsol ht hrc (B := 2) (by norm_num) hb (fun b _ => twoCells_positive b) (fun b _ => by simp [twoCells, entry, num2])
    (us := l.map u) (u := u (0, 0)) (st := st) rfl rfl rfl (fun v hv => by
      obtain ⟨p, -, rfl⟩ := List.mem_map.1 hv
      exact ⟨.inl rfl, .inl rfl, .inl rfl⟩) (fun b _ => by
      rw [← List.map_cons, List.isChain_map]
      have e : (0 :: l.map (·.1)) = (((0, 0) : ℝ × ℝ) :: l).map (·.1) := rfl
      rw [e, List.isChain_map] at h
      exact h)
  refine ⟨st', e, (r 1 (by norm_num)).trans ?_⟩
  rw [← List.map_cons, List.zip_map, List.map_map]
  simp only [st, twoCells, entry, num2]
  norm_num
  rfl

/-- C151 where the temperature is not held: one step from a state at the ambient temperature of the new input ends at the solution of the equations, the temperature
included, if resistances and capacitances depend on the SOC only.  Missing: further steps, which lose the heat (`C151_heat_lost`). -/
theorem C151_warm_step_partial {solver : Solver} (hsol : ExactSolver solver) {a : ASOH} (hr0 : Tables a.r0) (hrcs : ∀ p ∈ a.rcs, Tables p.1 ∧ Tables p.2)
    {B : Nat} (hB : 1 ≤ B) (ha : a.Batched B) {st : State} (h1 : st.soc.shape = [B, 1]) (h2 : st.temp.shape = [B, 1]) (h3 : st.eta.shape = [B, a.rcs.length])
    {prev new : Input} (hn : new.Batched B) (time : ∀ b < B, entry prev.time b ≤ entry new.time b) (hreg : ∀ b < B, Regular (tCellAt a b) false)
    (ambient : ∀ b < B, st.temp.get [b, 0] = entry new.tInf b) (_hQ : ∀ b < B, entry a.capacity b ≠ 0 ∧ entry a.mass b * entry a.cp b ≠ 0) {x : Nat → Course}
    (hx : ∀ b < B, Obeys (tCellAt a b) false (entry new.tInf b) (-entry new.current b) (entry prev.time b) (entry new.time b) (x b))
    (start : ∀ b < B, (x b).soc (entry prev.time b) = st.soc.get [b, 0] ∧ (x b).temp (entry prev.time b) = st.temp.get [b, 0] ∧
      ∀ j < a.rcs.length, (x b).eta j (entry prev.time b) = st.eta.get [b, j]) :
    ∃ st', update solver false prev new st a = .ok st' ∧ ∀ b < B, st'.soc.get [b, 0] = (x b).soc (entry new.time b) ∧
      st'.temp.get [b, 0] = (x b).temp (entry new.time b) ∧ ∀ j < a.rcs.length, st'.eta.get [b, j] = (x b).eta j (entry new.time b) := by
  obtain ⟨st', e, -, r⟩ := update_exact hsol hr0 hrcs hB ha ⟨h1, h2, h3⟩ hn hreg time hx (fun b hb => (start b hb).1)
    (fun b hb => (start b hb).2.1.trans (ambient b hb)) (fun b hb => (start b hb).2.2)
  exact ⟨st', e, r⟩

-- A cell that warms up while it is charged with 1 A from 300 K.
example (z s e : ℝ) (hse : s ≤ e) : ∃ solver, ExactSolver solver ∧ ∃ st',
    update solver false ⟨num2 s, num2 1, num2 300⟩ ⟨num2 e, num2 1, num2 300⟩ ⟨num2 z, num2 300, ⟨[1, 0], fun _ => 0⟩⟩ heater = .ok st' ∧
      st'.temp.get [0, 0] = 301 - Real.exp (-(e - s)) := by
  obtain ⟨solver, hsol⟩ := C151_solver_possible
  have z0 : ∀ b < 1, b = 0 := fun b hb => by omega
  obtain ⟨st', e1, r⟩ := C151_warm_step_partial hsol heater_tables nofun le_rfl heater_batched (st := ⟨num2 z, num2 300, ⟨[1, 0], fun _ => 0⟩⟩) rfl rfl rfl
    (prev := ⟨num2 s, num2 1, num2 300⟩) (new := ⟨num2 e, num2 1, num2 300⟩) ⟨.inl rfl, .inl rfl, .inl rfl⟩ (fun b _ => hse)
    (fun b _ => ⟨nofun, fun _ => ⟨fun z T T' => by rw [heater_r0, heater_r0], nofun⟩⟩) (fun b _ => rfl) (fun b _ => by simp [heater, entry, num2])
    (x := fun _ => warming z s) (fun b hb => by rw [z0 b hb]; exact warming_obeys _ s e) (fun b _ => ⟨by simp [warming, entry, num2], by simp [warming, entry, num2]; norm_num,
      fun j hj => absurd hj (by simp [heater])⟩)
  exact ⟨solver, hsol, st', e1, (r 0 one_pos).2.1⟩

end Verif.Thevenin
