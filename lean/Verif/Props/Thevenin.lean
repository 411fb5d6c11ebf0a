import Verif.Model.Thevenin
import Verif.Proofs.EcmSucceeds
import Mathlib.Algebra.BigOperators.Intervals
/-!
# Properties of the Thevenin interface (C37, C38)
-/

namespace Verif.Thevenin
open Verif Nd Cell
open Finset (range)

/-! ## Specification -/

/-- `c₀ + c₁ x + … + c_{d-1} x^{d-1}`. -/
noncomputable def polynomial (d : Nat) (c : Nat → ℝ) (x : ℝ) : ℝ := ∑ i ∈ range d, c i * x ^ i

/-- An index inside a shape. -/
def Inside (shape idx : List Nat) : Prop := List.Forall₂ (fun d i => i < d) shape idx

/-- A 1D array of one entry or one entry per member; `x b` is the entry of member `b`. -/
def Row (B : Nat) (a : Nd ℝ) (x : Nat → ℝ) : Prop := ∃ n, a.shape = [n] ∧ Dim B n ∧ ∀ b < B, a.get [clip n b] = x b

/-- The single row, or row `b`, of a 2D array as an array of one row. -/
def only (b : Nat) (a : Nd ℝ) : Nd ℝ := ⟨1 :: a.shape.tail, fun idx => a.get ((if Ecm.rows a = 1 then 0 else b) :: idx.tail)⟩

def PolySoc.only (b : Nat) (p : PolySoc) : PolySoc := ⟨Thevenin.only b p.coeffs⟩
def PolySocT.only (b : Nat) (p : PolySocT) : PolySocT := ⟨Thevenin.only b p.tRef, Thevenin.only b p.socCoeffs, Thevenin.only b p.tCoeffs⟩

/-- The health parameters of member `b` alone. -/
def ASOH.only (b : Nat) (a : ASOH) : ASOH where
  capacity := Thevenin.only b a.capacity
  mass := Thevenin.only b a.mass
  cp := Thevenin.only b a.cp
  hThermal := Thevenin.only b a.hThermal
  aTherm := Thevenin.only b a.aTherm
  ocv := a.ocv.only b
  r0 := a.r0.only b
  rcs := a.rcs.map fun p => (p.1.only b, p.2.only b)

/-- The transient state of member `b` alone. -/
def State.only (b : Nat) (s : State) : State := ⟨Thevenin.only b s.soc, Thevenin.only b s.temp, Thevenin.only b s.eta⟩

/-- The inputs of member `b` alone. -/
def Input.only (b : Nat) (i : Input) : Input := ⟨Thevenin.only b i.time, Thevenin.only b i.current, Thevenin.only b i.tInf⟩

/-- Every parameter has one row or `B` rows. -/
def PolySocT.Batched (B : Nat) (p : PolySocT) : Prop := ∀ n ∈ p.rowCounts, Dim B n

structure ASOH.Batched (B : Nat) (a : ASOH) : Prop where
  capacity : Dim B (Ecm.rows a.capacity)
  mass : Dim B (Ecm.rows a.mass)
  cp : Dim B (Ecm.rows a.cp)
  hThermal : Dim B (Ecm.rows a.hThermal)
  aTherm : Dim B (Ecm.rows a.aTherm)
  ocv : Dim B (Ecm.rows a.ocv.coeffs)
  r0 : a.r0.Batched B
  rcs : ∀ p ∈ a.rcs, p.1.Batched B ∧ p.2.Batched B

structure State.Batched (B : Nat) (s : State) : Prop where
  soc : Dim B (Ecm.rows s.soc)
  temp : Dim B (Ecm.rows s.temp)
  eta : Dim B (Ecm.rows s.eta)

structure Input.Batched (B : Nat) (i : Input) : Prop where
  time : Dim B (Ecm.rows i.time)
  current : Dim B (Ecm.rows i.current)
  tInf : Dim B (Ecm.rows i.tInf)

/-! ## Polynomials: proofs -/

/-- Horner's loop. -/
noncomputable def hornerLoop (c : Nat → ℝ) (x : ℝ) : Nat → ℝ → ℝ
  | 0, a => a
  | i + 1, a => hornerLoop c x i (c i + a * x)

theorem hornerLoop_eq (c : Nat → ℝ) (x : ℝ) (d : Nat) : ∀ a, hornerLoop c x d a = polynomial d c x + a * x ^ d := by
  induction d with
  | zero => intro a; simp [hornerLoop, polynomial]
  | succ d ih =>
    intro a
    rw [hornerLoop, ih, polynomial, polynomial, Finset.sum_range_succ]
    ring

theorem polyLoop_gen {ι : Type} (R K : Nd ℝ → (ι → ℝ) → Prop)
    (hadd : ∀ a b f g, K a f → R b g → ∃ r, Ecm.add a b = .ok r ∧ R r fun i => f i + g i)
    (hmul : ∀ a b f g, R a f → R b g → ∃ r, Ecm.mul a b = .ok r ∧ R r fun i => f i * g i)
    {x c : Nd ℝ} {xs : ι → ℝ} {cs : Nat → ι → ℝ} (hx : R x xs) :
    ∀ d, (∀ i < d, K (slice0 c i) (cs i)) → ∀ acc f, R acc f →
      ∃ r, polyLoop x c d acc = .ok r ∧ R r fun i => hornerLoop (fun j => cs j i) (xs i) d (f i) := by
  intro d
  induction d with
  | zero => intro _ acc f h; exact ⟨acc, rfl, h⟩
  | succ d ih =>
    intro hc acc f h
    obtain ⟨t, h1, h2⟩ := hmul _ _ _ _ h hx
    obtain ⟨a', h3, h4⟩ := hadd _ _ _ _ (hc d (by omega)) h2
    obtain ⟨r, h5, h6⟩ := ih (fun i hi => hc i (by omega)) a' _ h4
    refine ⟨r, ?_, h6⟩
    rw [polyLoop, h1]
    show (Ecm.add (slice0 c d) t >>= fun acc' => polyLoop x c d acc') = _
    rw [h3]
    exact h5

theorem polyval_gen {ι : Type} (R K : Nd ℝ → (ι → ℝ) → Prop)
    (hadd : ∀ a b f g, K a f → R b g → ∃ r, Ecm.add a b = .ok r ∧ R r fun i => f i + g i)
    (hmul : ∀ a b f g, R a f → R b g → ∃ r, Ecm.mul a b = .ok r ∧ R r fun i => f i * g i)
    (hmap : ∀ a f, R a f → R (a.map (· * 0)) fun i => f i * 0)
    {x c : Nd ℝ} {xs : ι → ℝ} {cs : Nat → ι → ℝ} (hx : R x xs) {d : Nat} {rest : List Nat} (hs : c.shape = (d + 1) :: rest)
    (hc : ∀ i < d + 1, K (slice0 c i) (cs i)) :
    ∃ r f, polyval x c = .ok r ∧ R r f ∧ ∀ i, f i = polynomial (d + 1) (fun j => cs j i) (xs i) := by
  obtain ⟨a, h1, h2⟩ := hadd _ _ _ _ (hc d (by omega)) (hmap _ _ hx)
  obtain ⟨r, h3, h4⟩ := polyLoop_gen R K hadd hmul hx d (fun i hi => hc i (by omega)) a _ h2
  refine ⟨r, _, ?_, h4, fun i => ?_⟩
  · unfold polyval
    rw [hs]
    show (Ecm.add (slice0 c d) (x.map (· * 0)) >>= fun acc => polyLoop x c d acc) = _
    rw [h1]
    exact h3
  · rw [hornerLoop_eq, polynomial, polynomial, Finset.sum_range_succ]
    ring

/-- An array of shape `s` with the given entries. -/
def Is (s : List Nat) (a : Nd ℝ) (f : {idx // Inside s idx} → ℝ) : Prop := a.shape = s ∧ ∀ i, a.get i.1 = f i

/-- A number. -/
def IsNum (s : List Nat) (a : Nd ℝ) (f : {idx // Inside s idx} → ℝ) : Prop := a.shape = [] ∧ ∀ i, a.get [] = f i

theorem bidx_self {s idx : List Nat} (h : Inside s idx) : bidx s idx = idx := by
  have gen : ∀ {s idx : List Nat}, List.Forall₂ (fun d i => i < d) s idx →
      List.zipWith (fun d i => if d = 1 then 0 else i) s idx = idx := by
    intro s idx h
    induction h with
    | nil => rfl
    | @cons d i s idx hd _ ih =>
      simp only [List.zipWith_cons_cons, ih, List.cons.injEq, and_true]
      split <;> omega
  unfold bidx
  rw [gen (List.forall₂_reverse_iff.2 h), List.reverse_reverse]

theorem bdims_nil (t : List Nat) : bdims [] t = some t := by simp [bdims]

theorem bdims_self (t : List Nat) : bdims t t = some t := by
  induction t with
  | nil => rfl
  | cons a t ih => simp [bdims, bdim, ih]

theorem is_map2 {s : List Nat} (op : ℝ → ℝ → ℝ) {a b : Nd ℝ} {f g : {idx // Inside s idx} → ℝ} (ha : Is s a f) (hb : Is s b g) :
    ∃ r, map2 op a b = .ok r ∧ Is s r fun i => op (f i) (g i) := by
  have h : bshape a.shape b.shape = some s := by rw [ha.1, hb.1, bshape, bdims_self]; simp
  refine ⟨_, by rw [map2, h], rfl, fun i => ?_⟩
  show op (a.get (bidx a.shape i.1)) (b.get (bidx b.shape i.1)) = _
  rw [ha.1, hb.1, bidx_self i.2, ha.2, hb.2]

theorem num_map2 {s : List Nat} (op : ℝ → ℝ → ℝ) {a b : Nd ℝ} {f g : {idx // Inside s idx} → ℝ} (ha : IsNum s a f) (hb : Is s b g) :
    ∃ r, map2 op a b = .ok r ∧ Is s r fun i => op (f i) (g i) := by
  have h : bshape a.shape b.shape = some s := by rw [ha.1, hb.1, bshape, List.reverse_nil, bdims_nil]; simp
  refine ⟨_, by rw [map2, h], rfl, fun i => ?_⟩
  show op (a.get (bidx a.shape i.1)) (b.get (bidx b.shape i.1)) = _
  rw [ha.1, hb.1, bidx_self i.2, hb.2]
  show op (a.get []) _ = _
  rw [ha.2 i]

theorem map2_num {s : List Nat} (op : ℝ → ℝ → ℝ) {a b : Nd ℝ} {f g : {idx // Inside s idx} → ℝ} (ha : Is s a f) (hb : IsNum s b g) :
    ∃ r, map2 op a b = .ok r ∧ Is s r fun i => op (f i) (g i) := by
  have h : bshape a.shape b.shape = some s := by
    rw [ha.1, hb.1, bshape, List.reverse_nil]
    have : bdims s.reverse [] = some s.reverse := by cases s.reverse <;> simp [bdims]
    rw [this]; simp
  refine ⟨_, by rw [map2, h], rfl, fun i => ?_⟩
  show op (a.get (bidx a.shape i.1)) (b.get (bidx b.shape i.1)) = _
  rw [ha.1, hb.1, bidx_self i.2, ha.2]
  show op _ (b.get []) = _
  rw [hb.2 i]

/-- `polyval` of an array with one coefficient vector. -/
theorem polyval_row {s : List Nat} {x c : Nd ℝ} {xs : {idx // Inside s idx} → ℝ} (hx : Is s x xs) {d : Nat} (hd : 1 ≤ d)
    (hs : c.shape = [d]) : ∃ r, polyval x c = .ok r ∧ Is s r fun i => polynomial d (fun j => c.get [j]) (xs i) := by
  obtain ⟨d, rfl⟩ : ∃ e, d = e + 1 := ⟨d - 1, by omega⟩
  obtain ⟨r, f, h1, h2, h3⟩ := polyval_gen (Is s) (IsNum s) (fun _ _ _ _ => num_map2 (· + ·)) (fun _ _ _ _ => is_map2 (· * ·))
    (fun a f h => ⟨h.1, fun i => by show a.get i.1 * 0 = _; rw [h.2]⟩) (cs := fun j _ => c.get [j]) hx hs
    (fun i _ => ⟨by simp [slice0, hs], fun _ => rfl⟩)
  exact ⟨r, h1, h2.1, fun i => (h2.2 i).trans (h3 i)⟩

theorem row_map2 {B : Nat} (op : ℝ → ℝ → ℝ) {a b : Nd ℝ} {f g : Nat → ℝ} (ha : Row B a f) (hb : Row B b g) :
    ∃ r, map2 op a b = .ok r ∧ Row B r fun i => op (f i) (g i) := by
  obtain ⟨n, a1, a2, a3⟩ := ha
  obtain ⟨m, b1, b2, b3⟩ := hb
  obtain ⟨r, h1, h2, h3, h4, h5, _⟩ := bdims_rel (B := B) (s := [n]) (t := [m]) (by simpa using a2) (by simpa using b2)
  obtain ⟨k, rfl⟩ : ∃ k, r = [k] := by
    match r, h5 with
    | [k], _ => exact ⟨k, rfl⟩
  have h : bshape a.shape b.shape = some [k] := by rw [a1, b1, bshape]; simp [h1]
  refine ⟨_, by rw [map2, h], k, rfl, by simpa using h2, fun i hi => ?_⟩
  have e1 := h3 i
  have e2 := h4 i
  simp only [List.map_cons, List.map_nil, List.zipWith_cons_cons, List.zipWith_nil_right] at e1 e2
  show op (a.get (bidx a.shape [clip k i])) (b.get (bidx b.shape [clip k i])) = _
  rw [a1, b1]
  simp only [bidx, List.reverse_cons, List.reverse_nil, List.nil_append, List.zipWith_cons_cons, List.zipWith_nil_right, e1, e2]
  rw [a3 i hi, b3 i hi]

theorem row_map {B : Nat} (op : ℝ → ℝ) {a : Nd ℝ} {f : Nat → ℝ} (ha : Row B a f) : Row B (a.map op) fun i => op (f i) := by
  obtain ⟨n, a1, a2, a3⟩ := ha
  exact ⟨n, a1, a2, fun b hb => by show op (a.get _) = _; rw [a3 b hb]⟩

/-- `polyval` with the transposed table of coefficients. -/
theorem polyval_batch {B : Nat} {x c : Nd ℝ} {xs : Nat → ℝ} (hx : Row B x xs) {n d : Nat} (hd : 1 ≤ d) (hs : c.shape = [n, d])
    (hn : Dim B n) : ∃ r, polyval x (transpose c) = .ok r ∧ Row B r fun b => polynomial d (fun j => c.get [clip n b, j]) (xs b) := by
  obtain ⟨d, rfl⟩ : ∃ e, d = e + 1 := ⟨d - 1, by omega⟩
  obtain ⟨r, f, h1, h2, h3⟩ := polyval_gen (Row B) (Row B) (fun _ _ _ _ => row_map2 (· + ·)) (fun _ _ _ _ => row_map2 (· * ·))
    (fun a f h => row_map (· * 0) h) (c := transpose c) (cs := fun j b => c.get [clip n b, j]) (d := d) (rest := [n]) hx
    (by simp [transpose, hs])
    (fun i _ => ⟨n, by simp [slice0, transpose, hs], hn, fun b _ => rfl⟩)
  obtain ⟨k, k1, k2, k3⟩ := h2
  exact ⟨r, h1, k, k1, k2, fun b hb => (k3 b hb).trans (h3 b)⟩

/-! ## C38 -/

/-- C38.  A SOC polynomial evaluated for one member (`batch_id`), at any array of SOC values: every entry is `Σ cᵢ socⁱ` with the
coefficients of that member (the single row when there is one). -/
theorem C38_soc_polynomial (p : PolySoc) (n d : Nat) (hs : p.coeffs.shape = [n, d]) (hd : 1 ≤ d) (soc : Nd ℝ) (b : Nat) :
    ∃ v, p.call soc (some b) = .ok v ∧ v.shape = soc.shape ∧
      ∀ idx, Inside soc.shape idx → v.get idx = polynomial d (fun i => p.coeffs.get [b % n, i]) (soc.get idx) := by
  obtain ⟨r, h1, h2, h3⟩ := polyval_row (s := soc.shape) (x := soc) (c := row p.coeffs (b % n)) (xs := fun i => soc.get i.1)
    ⟨rfl, fun _ => rfl⟩ hd (by simp [row, hs])
  exact ⟨r, by simpa [PolySoc.call, Ecm.rows, hs] using h1, h2, fun idx hi => h3 ⟨idx, hi⟩⟩

/-- C38.  The same for the sum of a polynomial in the temperature difference and one in SOC. -/
theorem C38_soc_temp_polynomial (p : PolySocT) (n₁ n₂ n₃ d₂ d₃ : Nat) (h1 : p.tRef.shape = [n₁, 1])
    (h2 : p.socCoeffs.shape = [n₂, d₂]) (h3 : p.tCoeffs.shape = [n₃, d₃]) (hd2 : 1 ≤ d₂) (hd3 : 1 ≤ d₃) (soc temp : Nd ℝ)
    (hst : temp.shape = soc.shape) (b : Nat) :
    ∃ v, p.call soc temp (some b) = .ok v ∧ v.shape = soc.shape ∧
      ∀ idx, Inside soc.shape idx → v.get idx =
        polynomial d₃ (fun i => p.tCoeffs.get [b % n₃, i]) (temp.get idx - p.tRef.get [b % n₁, 0]) +
        polynomial d₂ (fun i => p.socCoeffs.get [b % n₂, i]) (soc.get idx) := by
  obtain ⟨t, a1, a2⟩ := map2_num (s := soc.shape) (· - ·) (a := temp) (b := num (entry p.tRef b)) (f := fun i => temp.get i.1)
    (g := fun _ => entry p.tRef b) ⟨hst, fun _ => rfl⟩ ⟨rfl, fun _ => rfl⟩
  obtain ⟨u, b1, b2⟩ := polyval_row (c := row p.tCoeffs (b % n₃)) a2 hd3 (by simp [row, h3])
  obtain ⟨v, c1, c2⟩ := polyval_row (s := soc.shape) (x := soc) (c := row p.socCoeffs (b % n₂)) (xs := fun i => soc.get i.1)
    ⟨rfl, fun _ => rfl⟩ hd2 (by simp [row, h2])
  obtain ⟨r, e1, e2, e3⟩ := is_map2 (· + ·) b2 c2
  refine ⟨r, ?_, e2, fun idx hi => ?_⟩
  · show (do let tc ← Ecm.sub temp (num (entry p.tRef b))
             let u ← polyval tc (row p.tCoeffs (b % Ecm.rows p.tCoeffs))
             let v ← polyval soc (row p.socCoeffs (b % Ecm.rows p.socCoeffs))
             Ecm.add u v) = _
    have g3 : Ecm.rows p.tCoeffs = n₃ := by simp [Ecm.rows, h3]
    have g2 : Ecm.rows p.socCoeffs = n₂ := by simp [Ecm.rows, h2]
    rw [show Ecm.sub temp (num (entry p.tRef b)) = .ok t from a1, g3, g2]
    show (do let u ← polyval t (row p.tCoeffs (b % n₃))
             let v ← polyval soc (row p.socCoeffs (b % n₂))
             Ecm.add u v) = _
    rw [b1, c1]
    exact e1
  · rw [e3 ⟨idx, hi⟩]
    simp only [row, entry, Ecm.rows, h1, List.getD_cons_zero]

theorem mod_clip {B n b : Nat} (h : Dim B n) (hb : b < B) : b % n = clip n b := by
  unfold clip
  rcases h with rfl | rfl
  · simp [Nat.mod_one]
  · split
    · next h => subst h; omega
    · exact Nat.mod_eq_of_lt hb

/-- C38.  Evaluating the SOC polynomial for the whole batch: entry `b` is `Σ cᵢ socⁱ` with the coefficients and the SOC of member `b`,
and is what evaluating that member by `batch_id` gives. -/
theorem C38_soc_whole_batch (B : Nat) (p : PolySoc) (n d : Nat) (hs : p.coeffs.shape = [n, d]) (hd : 1 ≤ d) (hn : Dim B n)
    (soc : Nd ℝ) (x : Nat → ℝ) (hx : Row B soc x) :
    ∃ v y, p.call soc none = .ok v ∧ Row B v y ∧ ∀ b < B, y b = polynomial d (fun i => p.coeffs.get [clip n b, i]) (x b) ∧
      ∃ m, p.call (num (x b)) (some b) = .ok m ∧ m.shape = [] ∧ m.get [] = y b := by
  obtain ⟨v, h1, h2⟩ := polyval_batch hx hd hs hn
  refine ⟨v, _, h1, h2, fun b hb => ⟨rfl, ?_⟩⟩
  obtain ⟨m, e1, e2, e3⟩ := C38_soc_polynomial p n d hs hd (num (x b)) b
  exact ⟨m, e1, e2, by rw [e3 [] .nil, mod_clip hn hb]; rfl⟩

theorem row_col0 {B n : Nat} {a : Nd ℝ} {k : Nat} (hs : a.shape = [n, k]) (hn : Dim B n) :
    Row B (col0 a) fun b => a.get [clip n b, 0] :=
  ⟨n, by simp [col0, hs], hn, fun _ _ => rfl⟩

/-- C38.  Evaluating a SOC-temperature polynomial for the whole batch agrees with evaluating each member. -/
theorem C38_soc_temp_whole_batch (B : Nat) (p : PolySocT) (n₁ n₂ n₃ d₂ d₃ : Nat) (h1 : p.tRef.shape = [n₁, 1])
    (h2 : p.socCoeffs.shape = [n₂, d₂]) (h3 : p.tCoeffs.shape = [n₃, d₃]) (hd2 : 1 ≤ d₂) (hd3 : 1 ≤ d₃) (hn1 : Dim B n₁)
    (hn2 : Dim B n₂) (hn3 : Dim B n₃) (soc temp : Nd ℝ) (x t : Nat → ℝ) (hx : Row B soc x) (ht : Row B temp t) :
    ∃ v y, p.call soc temp none = .ok v ∧ Row B v y ∧ ∀ b < B, y b =
        polynomial d₃ (fun i => p.tCoeffs.get [clip n₃ b, i]) (t b - p.tRef.get [clip n₁ b, 0]) +
        polynomial d₂ (fun i => p.socCoeffs.get [clip n₂ b, i]) (x b) ∧
      ∃ m, p.call (num (x b)) (num (t b)) (some b) = .ok m ∧ m.shape = [] ∧ m.get [] = y b := by
  obtain ⟨tc, a1, a2⟩ := row_map2 (· - ·) ht (row_col0 h1 hn1)
  obtain ⟨u, b1, b2⟩ := polyval_batch a2 hd3 h3 hn3
  obtain ⟨v, c1, c2⟩ := polyval_batch hx hd2 h2 hn2
  obtain ⟨r, e1, e2⟩ := row_map2 (· + ·) b2 c2
  refine ⟨r, _, ?_, e2, fun b hb => ⟨rfl, ?_⟩⟩
  · show (do let tc ← Ecm.sub temp (col0 p.tRef)
             let u ← polyval tc (transpose p.tCoeffs)
             let v ← polyval soc (transpose p.socCoeffs)
             Ecm.add u v) = _
    rw [show Ecm.sub temp (col0 p.tRef) = .ok tc from a1]
    show (do let u ← polyval tc (transpose p.tCoeffs)
             let v ← polyval soc (transpose p.socCoeffs)
             Ecm.add u v) = _
    rw [b1, c1]
    exact e1
  · obtain ⟨m, e1, e2, e3⟩ := C38_soc_temp_polynomial p n₁ n₂ n₃ d₂ d₃ h1 h2 h3 hd2 hd3 (num (x b)) (num (t b)) rfl b
    exact ⟨m, e1, e2, by rw [e3 [] .nil, mod_clip hn1 hb, mod_clip hn2 hb, mod_clip hn3 hb]; rfl⟩

theorem enforce0_row {B : Nat} {a : Nd ℝ} {x : Nat → ℝ} (h : Row B a x) :
    ∃ v n, Ecm.enforce0 a = .ok v ∧ v.shape = [n, 1] ∧ Dim B n ∧ ∀ b < B, v.get [clip n b, 0] = x b := by
  obtain ⟨n, h1, h2, h3⟩ := h
  have e : Ecm.enforce0 a = .ok ⟨[a.size, 1], fun idx => a.get (unravel a.shape (ravel [a.size, 1] idx))⟩ := by
    unfold Ecm.enforce0
    rw [if_neg, reshape, if_pos]
    · simp
    · rw [h1]; by_cases h : n = 1 <;> simp [h]
  refine ⟨_, n, e, by simp [size, h1], h2, fun b hb => ?_⟩
  rw [← h3 b hb]
  simp [h1, unravel, ravel]

theorem sum_map_range (f : Nat → ℝ) (k : Nat) : ((List.range k).map f).sum = ∑ j ∈ range k, f j := by
  induction k with
  | zero => simp
  | succ k ih => rw [List.range_succ, List.map_append, List.sum_append, ih, Finset.sum_range_succ]; simp

/-- C38.  The terminal voltage of member `b`: its open-circuit voltage at its SOC, plus its current times its series resistance at its
SOC and temperature, minus the sum of its overpotentials. -/
theorem C38_voltage (B : Nat) (new : Input) (st : State) (a : ASOH) (nc ns nt ne k : Nat)
    (hc : new.current.shape = [nc, 1]) (hs : st.soc.shape = [ns, 1]) (ht : st.temp.shape = [nt, 1]) (he : st.eta.shape = [ne, k])
    (dc : Dim B nc) (ds : Dim B ns) (dt : Dim B nt) (de : Dim B ne)
    (no d : Nat) (ho : a.ocv.coeffs.shape = [no, d]) (hd : 1 ≤ d) (dn : Dim B no)
    (n₁ n₂ n₃ d₂ d₃ : Nat) (h1 : a.r0.tRef.shape = [n₁, 1]) (h2 : a.r0.socCoeffs.shape = [n₂, d₂]) (h3 : a.r0.tCoeffs.shape = [n₃, d₃])
    (hd2 : 1 ≤ d₂) (hd3 : 1 ≤ d₃) (hn1 : Dim B n₁) (hn2 : Dim B n₂) (hn3 : Dim B n₃) :
    ∃ v n, voltage new st a = .ok v ∧ v.shape = [n, 1] ∧ Dim B n ∧ ∀ b < B, v.get [clip n b, 0] =
      polynomial d (fun i => a.ocv.coeffs.get [clip no b, i]) (st.soc.get [clip ns b, 0]) +
      new.current.get [clip nc b, 0] *
        (polynomial d₃ (fun i => a.r0.tCoeffs.get [clip n₃ b, i]) (st.temp.get [clip nt b, 0] - a.r0.tRef.get [clip n₁ b, 0]) +
         polynomial d₂ (fun i => a.r0.socCoeffs.get [clip n₂ b, i]) (st.soc.get [clip ns b, 0])) -
      ∑ j ∈ range k, st.eta.get [clip ne b, j] := by
  obtain ⟨o, yo, o1, o2, o3⟩ := C38_soc_whole_batch B a.ocv no d ho hd dn (col0 st.soc) _ (row_col0 hs ds)
  obtain ⟨r, yr, r1, r2, r3⟩ := C38_soc_temp_whole_batch B a.r0 n₁ n₂ n₃ d₂ d₃ h1 h2 h3 hd2 hd3 hn1 hn2 hn3 (col0 st.soc)
    (col0 st.temp) _ _ (row_col0 hs ds) (row_col0 ht dt)
  obtain ⟨ir, i1, i2⟩ := row_map2 (· * ·) (row_col0 hc dc) r2
  obtain ⟨v1, e1, e2⟩ := row_map2 (· + ·) o2 i2
  have hsum : Row B (sum1 st.eta) fun b => ∑ j ∈ range k, st.eta.get [clip ne b, j] := by
    refine ⟨ne, by simp [sum1, he], de, fun b _ => ?_⟩
    simp only [sum1, he, List.getD_cons_zero, List.getD_cons_succ]
    rw [sum_map_range]
  obtain ⟨v2, f1, f2⟩ := row_map2 (· - ·) e2 hsum
  obtain ⟨v, n, g1, g2, g3, g4⟩ := enforce0_row f2
  refine ⟨v, n, ?_, g2, g3, fun b hb => ?_⟩
  · show (do let ocv ← a.ocv.call (col0 st.soc) none
             let r ← a.r0.call (col0 st.soc) (col0 st.temp) none
             let ir ← Ecm.mul (col0 new.current) r
             let v ← Ecm.add ocv ir
             let v ← Ecm.sub v (sum1 st.eta)
             Ecm.enforce0 v) = _
    rw [o1, r1]
    show (do let ir ← Ecm.mul (col0 new.current) r
             let v ← Ecm.add o ir
             let v ← Ecm.sub v (sum1 st.eta)
             Ecm.enforce0 v) = _
    rw [show Ecm.mul (col0 new.current) r = .ok ir from i1]
    show (do let v ← Ecm.add o ir
             let v ← Ecm.sub v (sum1 st.eta)
             Ecm.enforce0 v) = _
    rw [show Ecm.add o ir = .ok v1 from e1]
    show (do let v ← Ecm.sub v1 (sum1 st.eta)
             Ecm.enforce0 v) = _
    rw [show Ecm.sub v1 (sum1 st.eta) = .ok v2 from f1]
    exact g1
  · rw [g4 b hb, (o3 b hb).1, (r3 b hb).1]

/-- One cell with OCV `3 + soc`, resistance `1/10`, SOC 1/2, current 2 and one overpotential 1/5: 3.5 V. -/
example : ∃ v n, voltage ⟨num2 0, num2 2, num2 300⟩ ⟨num2 (1 / 2), num2 300, num2 (1 / 5)⟩
    ⟨num2 1, num2 1, num2 1, num2 1, num2 1, ⟨⟨[1, 2], fun idx => if idx.getD 1 0 = 0 then 3 else 1⟩⟩, ⟨num2 298, num2 (1 / 10), num2 0⟩, []⟩ =
      .ok v ∧ v.shape = [n, 1] ∧ v.get [clip n 0, 0] = 7 / 2 := by
  obtain ⟨v, n, h1, h2, _, h3⟩ := C38_voltage 1 ⟨num2 0, num2 2, num2 300⟩ ⟨num2 (1 / 2), num2 300, num2 (1 / 5)⟩
    ⟨num2 1, num2 1, num2 1, num2 1, num2 1, ⟨⟨[1, 2], fun idx => if idx.getD 1 0 = 0 then 3 else 1⟩⟩,
      ⟨num2 298, num2 (1 / 10), num2 0⟩, []⟩ 1 1 1 1 1 rfl rfl rfl rfl (.inl rfl) (.inl rfl) (.inl rfl) (.inl rfl) 1 2 rfl (by decide)
    (.inl rfl) 1 1 1 1 1 rfl rfl rfl (by decide) (by decide) (.inl rfl) (.inl rfl) (.inl rfl)
  refine ⟨v, n, h1, h2, ?_⟩
  rw [h3 0 (by decide)]
  norm_num [polynomial, Finset.sum_range_succ, num2]

/-- Two cells with their own coefficients `1 + 2x` and `3 - x`, evaluated at the common SOC 1/2: 2 and 5/2. -/
example : ∃ v y, (PolySoc.mk ⟨[2, 2], fun idx => ([[1, 2], [3, -1]].getD (idx.getD 0 0) []).getD (idx.getD 1 0) 0⟩).call
    ⟨[1], fun _ => 1 / 2⟩ none = .ok v ∧ Row 2 v y ∧ y 0 = 2 ∧ y 1 = 5 / 2 := by
  obtain ⟨v, y, h1, h2, h3⟩ := C38_soc_whole_batch 2
    (PolySoc.mk ⟨[2, 2], fun idx => ([[1, 2], [3, -1]].getD (idx.getD 0 0) []).getD (idx.getD 1 0) 0⟩) 2 2 rfl (by decide) (.inr rfl)
    ⟨[1], fun _ => 1 / 2⟩ (fun _ => 1 / 2) ⟨1, rfl, .inl rfl, fun _ _ => rfl⟩
  refine ⟨v, y, h1, h2, ?_, ?_⟩
  · rw [(h3 0 (by decide)).1]; norm_num [polynomial, Finset.sum_range_succ, clip]
  · rw [(h3 1 (by decide)).1]; norm_num [polynomial, Finset.sum_range_succ, clip]

/-! ## C37: proofs -/

theorem rows_only (b : Nat) (a : Nd ℝ) : Ecm.rows (only b a) = 1 := rfl

theorem entry_only {B b : Nat} {a : Nd ℝ} (h : Dim B (Ecm.rows a)) (hb : b < B) : entry (only b a) 0 = entry a b := by
  have := mod_clip h hb
  unfold clip at this
  show a.get ((if Ecm.rows a = 1 then 0 else b) :: [0]) = a.get [b % Ecm.rows a, 0]
  rw [this]

theorem row_only {B b : Nat} {a : Nd ℝ} (h : Dim B (Ecm.rows a)) (hb : b < B) :
    row (only b a) (0 % Ecm.rows (only b a)) = row a (b % Ecm.rows a) := by
  have := mod_clip h hb
  unfold clip at this
  unfold row only
  rw [this]
  congr 1
  cases a.shape <;> simp

theorem soc_only {B b : Nat} {p : PolySoc} (h : Dim B (Ecm.rows p.coeffs)) (hb : b < B) (soc : Nd ℝ) :
    (p.only b).call soc (some 0) = p.call soc (some b) := by
  show polyval soc (row (only b p.coeffs) (0 % Ecm.rows (only b p.coeffs))) = _
  rw [row_only h hb]
  rfl

theorem socT_only {B b : Nat} {p : PolySocT} (h : p.Batched B) (hb : b < B) (soc temp : Nd ℝ) :
    (p.only b).call soc temp (some 0) = p.call soc temp (some b) := by
  have h1 := h _ (by simp [PolySocT.rowCounts] : Ecm.rows p.tRef ∈ p.rowCounts)
  have h2 := h _ (by simp [PolySocT.rowCounts] : Ecm.rows p.socCoeffs ∈ p.rowCounts)
  have h3 := h _ (by simp [PolySocT.rowCounts] : Ecm.rows p.tCoeffs ∈ p.rowCounts)
  unfold PolySocT.call PolySocT.only
  simp only [entry_only h1 hb, row_only h2 hb, row_only h3 hb]

theorem startEta_only {B b : Nat} {eta : Nd ℝ} (h : Dim B (Ecm.rows eta)) (hb : b < B) (n : Nat) :
    startEta n (only b eta) 0 = startEta n eta b := by
  have := mod_clip h hb
  unfold clip at this
  have e : (only b eta).shape.getD 1 0 = eta.shape.getD 1 0 := by cases h : eta.shape <;> simp [only, h]
  unfold startEta
  simp only [e, this]
  rfl

theorem memberRow_only {B b : Nat} (hb : b < B) (solver : Solver) (iso : Bool) {prev new : Input} {st : State} {a : ASOH}
    (hp : Dim B (Ecm.rows prev.time)) (hn : new.Batched B) (hs : st.Batched B) (ha : a.Batched B) :
    memberRow solver iso (prev.only b) (new.only b) (st.only b) (a.only b) 0 = memberRow solver iso prev new st a b := by
  have e : (only b st.eta).shape.getD 1 0 = st.eta.shape.getD 1 0 := by cases h : st.eta.shape <;> simp [only, h]
  have hr1 : (a.only b).rcs.map (fun p => fun soc t => p.1.call soc t (some 0)) =
      a.rcs.map (fun p => fun soc t => p.1.call soc t (some b)) := by
    simp only [ASOH.only, List.map_map]
    refine List.map_congr_left fun p hp => ?_
    funext soc t
    exact socT_only (ha.rcs p hp).1 hb soc t
  have hr2 : (a.only b).rcs.map (fun p => fun soc t => p.2.call soc t (some 0)) =
      a.rcs.map (fun p => fun soc t => p.2.call soc t (some b)) := by
    simp only [ASOH.only, List.map_map]
    refine List.map_congr_left fun p hp => ?_
    funext soc t
    exact socT_only (ha.rcs p hp).2 hb soc t
  have hl : (a.only b).rcs.length = a.rcs.length := by simp [ASOH.only]
  have hm : makeModel iso (st.only b) (a.only b) (new.only b) 0 = makeModel iso st a new b := by
    unfold makeModel
    rw [hl, hr1, hr2]
    simp only [ASOH.only, State.only, Input.only, startEta_only hs.eta hb, entry_only hs.soc hb, entry_only ha.capacity hb,
      entry_only ha.mass hb, entry_only ha.cp hb, entry_only hn.tInf hb, entry_only ha.hThermal hb, entry_only ha.aTherm hb,
      soc_only ha.ocv hb, socT_only ha.r0 hb]
  unfold memberRow
  rw [hm, hl]
  simp only [State.only, Input.only, entry_only hn.current hb, entry_only hn.time hb, entry_only hp hb, e]

theorem batchLoop_ones {l : List Nat} (h : ∀ n ∈ l, n = 1) : batchLoop 1 l = .ok 1 := by
  induction l with
  | nil => rfl
  | cons n l ih =>
    have := h n (by simp)
    subst this
    simpa [batchLoop] using ih fun n hn => h n (by simp [hn])

theorem update_only {B b : Nat} (hb : b < B) (solver : Solver) (iso : Bool) {prev new : Input} {st : State} {a : ASOH}
    (hp : Dim B (Ecm.rows prev.time)) (hn : new.Batched B) (hs : st.Batched B) (ha : a.Batched B) :
    update solver iso (prev.only b) (new.only b) (st.only b) (a.only b) =
      (memberRow solver iso prev new st a b).map fun r => stateOfRows (st.eta.shape.getD 1 0) [r] := by
  have e : (only b st.eta).shape.getD 1 0 = st.eta.shape.getD 1 0 := by cases h : st.eta.shape <;> simp [only, h]
  have h1 : (st.only b).batchSize = .ok 1 := batchLoop_ones (by simp [State.only, rows_only])
  have h2 : (new.only b).batchSize = .ok 1 := batchLoop_ones (by simp [Input.only, rows_only])
  have h3 : (a.only b).batchSize = .ok 1 := by
    refine batchLoop_ones ?_
    intro n hn
    simp only [ASOH.only, PolySoc.only, PolySocT.only, PolySocT.rowCounts, rows_only, List.mem_append, List.mem_flatMap,
      List.mem_map, List.mem_cons, List.not_mem_nil, or_false, or_self] at hn
    rcases hn with (h | ⟨p, ⟨q, _, rfl⟩, h⟩) | ⟨p, ⟨q, _, rfl⟩, h⟩
    · exact h
    · simpa [rows_only] using h
    · simpa [rows_only] using h
  show (do let bt ← (st.only b).batchSize
           let ba ← (a.only b).batchSize
           let bi ← (new.only b).batchSize
           let rows ← (List.range (max (max bt ba) bi)).mapM
             (memberRow solver iso (prev.only b) (new.only b) (st.only b) (a.only b))
           return stateOfRows ((st.only b).eta.shape.getD 1 0) rows) = _
  rw [h1, h2, h3]
  show (do let rows ← (List.range 1).mapM
             (memberRow solver iso (prev.only b) (new.only b) (st.only b) (a.only b))
           return stateOfRows ((only b st.eta).shape.getD 1 0) rows) = _
  rw [e, show List.range 1 = [0] from rfl, List.mapM_cons, memberRow_only hb solver iso hp hn hs ha, List.mapM_nil]
  cases memberRow solver iso prev new st a b <;> rfl

theorem update_eq (solver : Solver) (iso : Bool) {prev new : Input} {st : State} {a : ASOH} {bt ba bi : Nat}
    (h1 : st.batchSize = .ok bt) (h2 : a.batchSize = .ok ba) (h3 : new.batchSize = .ok bi) :
    update solver iso prev new st a = (do
      let rows ← (List.range (max (max bt ba) bi)).mapM (memberRow solver iso prev new st a)
      return stateOfRows (st.eta.shape.getD 1 0) rows) := by
  show (do let bt ← st.batchSize
           let ba ← a.batchSize
           let bi ← new.batchSize
           let rows ← (List.range (max (max bt ba) bi)).mapM (memberRow solver iso prev new st a)
           return stateOfRows (st.eta.shape.getD 1 0) rows) = _
  rw [h1, h2, h3]
  rfl

/-! ## C37 -/

/-- C37, as far as it holds.  Let `B` be the size of the batch and every quantity have one row or `B` rows, in any pattern, and let the
circuit solver be any function.  If the batched update succeeds then the update of member `b` alone (row `b` of every batched
quantity, the single row of the others) succeeds and gives row `b` of the result; and if every member's own update succeeds, so
does the batched one.
Missing: the temperature of the transient state takes no part (`C37_state_temperature_ignored`). -/
theorem C37_member_runs_alone_partial (solver : Solver) (iso : Bool) (prev new : Input) (st : State) (a : ASOH) (bt ba bi B : Nat)
    (h1 : st.batchSize = .ok bt) (h2 : a.batchSize = .ok ba) (h3 : new.batchSize = .ok bi) (hB : B = max (max bt ba) bi)
    (hp : Dim B (Ecm.rows prev.time)) (hn : new.Batched B) (hs : st.Batched B) (ha : a.Batched B) :
    (∀ st', update solver iso prev new st a = .ok st' →
      st'.soc.shape = [B, 1] ∧ st'.temp.shape = [B, 1] ∧ st'.eta.shape = [B, st.eta.shape.getD 1 0] ∧
      ∀ b < B, ∃ s, update solver iso (prev.only b) (new.only b) (st.only b) (a.only b) = .ok s ∧
        st'.soc.get [b, 0] = s.soc.get [0, 0] ∧ st'.temp.get [b, 0] = s.temp.get [0, 0] ∧
        ∀ j, st'.eta.get [b, j] = s.eta.get [0, j]) ∧
    ((∀ b < B, ∃ s, update solver iso (prev.only b) (new.only b) (st.only b) (a.only b) = .ok s) →
      ∃ st', update solver iso prev new st a = .ok st') := by
  have hu : update solver iso prev new st a = (do
      let rows ← (List.range B).mapM (memberRow solver iso prev new st a)
      return stateOfRows (st.eta.shape.getD 1 0) rows) := by
    rw [update_eq solver iso h1 h2 h3, ← hB]
  constructor
  · intro st' h
    rw [hu] at h
    simp only [bind_ok, pure_ok] at h
    obtain ⟨rows, e1, rfl⟩ := h
    have hf := mapM_ok e1
    have hl : rows.length = B := by simpa using hf.length_eq.symm
    refine ⟨by simp [stateOfRows, hl], by simp [stateOfRows, hl], by simp [stateOfRows, hl], fun b hb => ?_⟩
    have hr : memberRow solver iso prev new st a b = .ok (rows[b]'(by omega)) := by
      simpa using hf.get (by simpa using hb : b < (List.range B).length) (by omega)
    refine ⟨stateOfRows (st.eta.shape.getD 1 0) [rows[b]'(by omega)], ?_, ?_, ?_, ?_⟩
    · rw [update_only hb solver iso hp hn hs ha, hr]; rfl
    · have : b < rows.length := by omega
      simp [stateOfRows, this]
    · have : b < rows.length := by omega
      simp [stateOfRows, this]
    · have : b < rows.length := by omega
      simp [stateOfRows, this]
  · intro h
    obtain ⟨rows, e1, _⟩ := mapM_ok_of (f := memberRow solver iso prev new st a) (P := fun _ => True) (l := List.range B) (by
      intro b hb
      obtain ⟨s, hs'⟩ := h b (by simpa using hb)
      rw [update_only (by simpa using hb) solver iso hp hn hs ha] at hs'
      cases hm : memberRow solver iso prev new st a b with
      | error e => rw [hm] at hs'; cases hs'
      | ok r => exact ⟨r, rfl, trivial⟩)
    exact ⟨_, by rw [hu, e1]; rfl⟩

/-- Two cells with SOC 0 and 1 and capacities 5 and 7, everything else common: the hypotheses of `C37_member_runs_alone_partial` hold with
`B = 2`, and with a solver that adds charge over capacity the two rows are those of the cells on their own. -/
example : ∃ st', update (fun m i t => .ok ⟨m.soc0 - i * t / m.capacity, 300, fun _ => 0⟩) true ⟨num2 0, num2 0, num2 300⟩
    ⟨num2 35, num2 1, num2 300⟩ ⟨⟨[2, 1], fun idx => (idx.getD 0 0 : ℝ)⟩, num2 300, ⟨[1, 0], fun _ => 0⟩⟩
    ⟨⟨[2, 1], fun idx => if idx.getD 0 0 = 0 then 5 else 7⟩, num2 1, num2 1, num2 1, num2 1, ⟨num2 1⟩, ⟨num2 1, num2 1, num2 1⟩, []⟩ =
      .ok st' ∧ st'.soc.shape = [2, 1] ∧ st'.soc.get [0, 0] = 7 ∧ st'.soc.get [1, 0] = 6 := by
  have hp : ∀ B, (PolySocT.mk (num2 1) (num2 1) (num2 1)).Batched B := fun B n hn => by
    simp [PolySocT.rowCounts, num2, Ecm.rows] at hn; exact .inl hn
  obtain ⟨g1, g2⟩ := C37_member_runs_alone_partial (fun m i t => .ok ⟨m.soc0 - i * t / m.capacity, 300, fun _ => 0⟩) true
    ⟨num2 0, num2 0, num2 300⟩ ⟨num2 35, num2 1, num2 300⟩
    ⟨⟨[2, 1], fun idx => (idx.getD 0 0 : ℝ)⟩, num2 300, ⟨[1, 0], fun _ => 0⟩⟩
    ⟨⟨[2, 1], fun idx => if idx.getD 0 0 = 0 then 5 else 7⟩, num2 1, num2 1, num2 1, num2 1, ⟨num2 1⟩, ⟨num2 1, num2 1, num2 1⟩, []⟩
    2 2 1 2 (by simp [State.batchSize, Ecm.rows, num2, batchLoop])
    (by simp [ASOH.batchSize, PolySocT.rowCounts, Ecm.rows, num2, batchLoop])
    (by simp [Input.batchSize, Ecm.rows, num2, batchLoop]) rfl (.inl rfl) ⟨.inl rfl, .inl rfl, .inl rfl⟩
    ⟨.inr rfl, .inl rfl, .inl rfl⟩ ⟨.inr rfl, .inl rfl, .inl rfl, .inl rfl, .inl rfl, .inl rfl, hp 2, by simp⟩
  have h : ∀ b < 2, _ := fun b hb => update_only (B := 2) hb (fun m i t => .ok ⟨m.soc0 - i * t / m.capacity, 300, fun _ => 0⟩) true
    (prev := ⟨num2 0, num2 0, num2 300⟩) (new := ⟨num2 35, num2 1, num2 300⟩)
    (st := ⟨⟨[2, 1], fun idx => (idx.getD 0 0 : ℝ)⟩, num2 300, ⟨[1, 0], fun _ => 0⟩⟩)
    (a := ⟨⟨[2, 1], fun idx => if idx.getD 0 0 = 0 then 5 else 7⟩, num2 1, num2 1, num2 1, num2 1, ⟨num2 1⟩,
      ⟨num2 1, num2 1, num2 1⟩, []⟩) (.inl rfl) ⟨.inl rfl, .inl rfl, .inl rfl⟩
    ⟨.inr rfl, .inl rfl, .inl rfl⟩ ⟨.inr rfl, .inl rfl, .inl rfl, .inl rfl, .inl rfl, .inl rfl, hp 2, by simp⟩
  obtain ⟨st', e⟩ := g2 fun b hb => ⟨_, h b hb⟩
  obtain ⟨s1, _, _, s2⟩ := g1 st' e
  refine ⟨st', e, s1, ?_, ?_⟩
  · obtain ⟨s, k1, k2, _⟩ := s2 0 (by decide)
    rw [h 0 (by decide)] at k1
    have k1' := Except.ok.inj k1
    rw [k2, ← k1']
    simp [stateOfRows, entry, num2, Ecm.rows]
    norm_num
  · obtain ⟨s, k1, k2, _⟩ := s2 1 (by decide)
    rw [h 1 (by decide)] at k1
    have k1' := Except.ok.inj k1
    rw [k2, ← k1']
    simp [stateOfRows, entry, num2, Ecm.rows]
    norm_num

/-- C37, what a single cell is run with: the circuit solver gets the cell's parameters, minus the current, the time since the previous
inputs, and the result holds what it returns.  (`k` overpotentials for `k` RC elements.) -/
theorem C37_single_cell (solver : Solver) (iso : Bool) (soc0 temp cap mass cp h area tInf t t' i i' tInf' : ℝ) (eta : Nat → ℝ)
    (ocv : PolySoc) (r0 : PolySocT) (rcs : List (PolySocT × PolySocT))
    (hone : Ecm.rows ocv.coeffs = 1 ∧ (∀ n ∈ r0.rowCounts, n = 1) ∧ ∀ p ∈ rcs, (∀ n ∈ p.1.rowCounts, n = 1) ∧ ∀ n ∈ p.2.rowCounts, n = 1)
    (sol : Solution)
    (hsol : solver { isothermal := iso, soc0 := soc0, capacity := cap, mass := mass, cp := cp, tInf := tInf, hTherm := h,
                     aTherm := area, ocv := fun x => ocv.call x (some 0), r0 := fun x y => r0.call x y (some 0),
                     rs := rcs.map fun p => fun x y => p.1.call x y (some 0), cs := rcs.map fun p => fun x y => p.2.call x y (some 0),
                     eta0 := (List.range rcs.length).map eta } (-i) (t - t') = .ok sol) :
    ∃ s, update solver iso ⟨num2 t', num2 i', num2 tInf'⟩ ⟨num2 t, num2 i, num2 tInf⟩
        ⟨num2 soc0, num2 temp, ⟨[1, rcs.length], fun idx => eta (idx.getD 1 0)⟩⟩
        ⟨num2 cap, num2 mass, num2 cp, num2 h, num2 area, ocv, r0, rcs⟩ = .ok s ∧
      s.soc.shape = [1, 1] ∧ s.soc.get [0, 0] = sol.soc ∧ s.temp.shape = [1, 1] ∧ s.temp.get [0, 0] = sol.temp ∧
      s.eta.shape = [1, rcs.length] ∧ ∀ j < rcs.length, s.eta.get [0, j] = sol.eta j := by
  have hst : startEta rcs.length ⟨[1, rcs.length], fun idx => eta (idx.getD 1 0)⟩ 0 = .ok ((List.range rcs.length).map eta) := by
    unfold startEta
    by_cases h0 : rcs.length = 0
    · simp [h0]
    · simp [h0]
  have hrow : memberRow solver iso ⟨num2 t', num2 i', num2 tInf'⟩ ⟨num2 t, num2 i, num2 tInf⟩
      ⟨num2 soc0, num2 temp, ⟨[1, rcs.length], fun idx => eta (idx.getD 1 0)⟩⟩
      ⟨num2 cap, num2 mass, num2 cp, num2 h, num2 area, ocv, r0, rcs⟩ 0 =
      .ok (sol.soc :: sol.temp :: (List.range rcs.length).map sol.eta) := by
    have hm : memberRow solver iso ⟨num2 t', num2 i', num2 tInf'⟩ ⟨num2 t, num2 i, num2 tInf⟩
        ⟨num2 soc0, num2 temp, ⟨[1, rcs.length], fun idx => eta (idx.getD 1 0)⟩⟩
        ⟨num2 cap, num2 mass, num2 cp, num2 h, num2 area, ocv, r0, rcs⟩ 0 =
        (solver { isothermal := iso, soc0 := soc0, capacity := cap, mass := mass, cp := cp, tInf := tInf, hTherm := h,
                     aTherm := area, ocv := fun x => ocv.call x (some 0), r0 := fun x y => r0.call x y (some 0),
                     rs := rcs.map fun p => fun x y => p.1.call x y (some 0), cs := rcs.map fun p => fun x y => p.2.call x y (some 0),
                     eta0 := (List.range rcs.length).map eta } (-i) (t - t') >>= fun sol =>
          if rcs.length < rcs.length then .error .indexError
          else pure (sol.soc :: sol.temp :: (List.range rcs.length).map fun j => if j < rcs.length then sol.eta j else 0)) := by
      unfold memberRow makeModel
      rw [hst]
      rfl
    rw [hm, hsol]
    show (if rcs.length < rcs.length then (_ : Except Err (List ℝ)) else _) = _
    rw [if_neg (by omega)]
    show Except.ok _ = _
    congr 3
    refine List.map_congr_left fun j hj => ?_
    rw [if_pos (by simpa using hj)]
  have b1 : (State.batchSize ⟨num2 soc0, num2 temp, ⟨[1, rcs.length], fun idx => eta (idx.getD 1 0)⟩⟩) = .ok 1 :=
    batchLoop_ones (by simp [num2, Ecm.rows])
  have b2 : (Input.batchSize ⟨num2 t, num2 i, num2 tInf⟩) = .ok 1 := batchLoop_ones (by simp [num2, Ecm.rows])
  have b3 : (ASOH.batchSize ⟨num2 cap, num2 mass, num2 cp, num2 h, num2 area, ocv, r0, rcs⟩) = .ok 1 := by
    refine batchLoop_ones ?_
    intro n hn
    simp only [List.mem_append, List.mem_flatMap, List.mem_cons, List.not_mem_nil, or_false] at hn
    rcases hn with ((h | h) | ⟨p, hp, h⟩) | ⟨p, hp, h⟩
    · rcases h with rfl | rfl | rfl | rfl | rfl | rfl <;> first | rfl | exact hone.1
    · exact hone.2.1 n h
    · exact (hone.2.2 p hp).1 n h
    · exact (hone.2.2 p hp).2 n h
  refine ⟨stateOfRows rcs.length [sol.soc :: sol.temp :: (List.range rcs.length).map sol.eta], ?_, rfl, rfl, rfl, rfl, rfl, ?_⟩
  · rw [update_eq solver iso b1 b3 b2]
    show (do let rows ← (List.range 1).mapM _; return stateOfRows rcs.length rows) = _
    rw [show List.range 1 = [0] from rfl, List.mapM_cons, hrow]
    rfl
  · intro j hj
    simp [stateOfRows, hj, Nat.add_comm 2 j]

/-- The temperature of the transient state takes no part in the update: two states that differ only there (with the same number of
rows) are propagated to the same state, whatever the solver. -/
theorem C37_state_temperature_ignored (solver : Solver) (iso : Bool) (prev new : Input) (soc temp temp' eta : Nd ℝ) (a : ASOH)
    (h : Ecm.rows temp = Ecm.rows temp') :
    update solver iso prev new ⟨soc, temp, eta⟩ a = update solver iso prev new ⟨soc, temp', eta⟩ a := by
  have : State.batchSize ⟨soc, temp, eta⟩ = State.batchSize ⟨soc, temp', eta⟩ := by simp only [State.batchSize, h]
  unfold update
  rw [this]
  rfl

/-- Row counts that do not fit together are not refused: a state of two rows and a health of three are run as three members, the third
with the first row of the state. -/
theorem C37_conflicting_sizes_accepted : ∃ (solver : Solver) (prev new : Input) (st : State) (a : ASOH) (st' : State),
    st.batchSize = .ok 2 ∧ a.batchSize = .ok 3 ∧ update solver true prev new st a = .ok st' ∧
    st'.soc.shape = [3, 1] ∧ st'.soc.get [2, 0] = st.soc.get [0, 0] := by
  let p : PolySocT := ⟨num2 1, num2 1, num2 1⟩
  let st : State := ⟨⟨[2, 1], fun idx => (idx.getD 0 0 : ℝ)⟩, num2 1, ⟨[1, 0], fun _ => 0⟩⟩
  let a : ASOH := ⟨⟨[3, 1], fun _ => 1⟩, num2 1, num2 1, num2 1, num2 1, ⟨num2 1⟩, p, []⟩
  let i : Input := ⟨num2 0, num2 0, num2 0⟩
  let solver : Solver := fun m _ _ => .ok ⟨m.soc0, 0, fun _ => 0⟩
  have h1 : st.batchSize = .ok 2 := rfl
  have h2 : a.batchSize = .ok 3 := by
    simp [a, p, ASOH.batchSize, PolySocT.rowCounts, Ecm.rows, num2, batchLoop]
  have h3 : i.batchSize = .ok 1 := rfl
  have hr : ∀ b, memberRow solver true i i st a b = .ok [((b % 2 : Nat) : ℝ), 0] := fun b => rfl
  refine ⟨solver, i, i, st, a, stateOfRows 0 [[((0 % 2 : Nat) : ℝ), 0], [((1 % 2 : Nat) : ℝ), 0], [((2 % 2 : Nat) : ℝ), 0]],
    h1, h2, ?_, rfl, ?_⟩
  · rw [update_eq solver true h1 h2 h3, show List.range (max (max 2 3) 1) = [0, 1, 2] from rfl]
    simp only [List.mapM_cons, List.mapM_nil, hr]
    rfl
  · simp [stateOfRows, st]

end Verif.Thevenin
