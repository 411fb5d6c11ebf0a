import Verif.NumPy.Nd
import Mathlib.Tactic.Ring
/-!
# Row-wise reading of broadcast arrays

`Rel B a x`: every axis of `a` has length 1 or `B`, and for every batch member `b < B` the entry of `a` that belongs to `b`
– index `b` on the axes of length `B`, index 0 on the others – is `x b`.  Broadcast arithmetic respects it at every rank.
-/

namespace Verif
variable {α β γ : Type}

/-- An axis is unbatched or has the batch length. -/
def Dim (B n : Nat) : Prop := n = 1 ∨ n = B

/-- Where member `b` is found on an axis of length `n`. -/
def clip (n b : Nat) : Nat := if n = 1 then 0 else b

@[simp] theorem clip_one (b : Nat) : clip 1 b = 0 := by simp [clip]

theorem dim_one (B : Nat) : Dim B 1 := .inl rfl

theorem clip_lt {B n b : Nat} (h : Dim B n) (hb : b < B) : clip n b < n := by
  unfold clip
  rcases h with rfl | rfl
  · simp
  · split <;> omega

structure Rel (B : Nat) (a : Nd α) (x : Nat → α) : Prop where
  dims : ∀ d ∈ a.shape, Dim B d
  last : ∀ d, a.shape.getLast? = some d → d = 1
  val : ∀ b < B, a.get (a.shape.map (clip · b)) = x b

theorem Rel.congr {B : Nat} {a : Nd α} {x y : Nat → α} (h : Rel B a x) (e : ∀ b < B, x b = y b) : Rel B a y :=
  ⟨h.dims, h.last, fun b hb => (h.val b hb).trans (e b hb)⟩

theorem rel_num (B : Nat) (x : α) : Rel B (Nd.num x) fun _ => x := ⟨by simp [Nd.num], by simp [Nd.num], fun _ _ => rfl⟩

theorem rel_num2 (B : Nat) (x : α) : Rel B (Nd.num2 x) fun _ => x :=
  ⟨by simp [Nd.num2, Dim], by simp [Nd.num2], fun _ _ => rfl⟩

theorem rel_map {B : Nat} {a : Nd α} {x : Nat → α} (f : α → β) (h : Rel B a x) : Rel B (a.map f) fun b => f (x b) :=
  ⟨h.dims, h.last, fun b hb => congrArg f (h.val b hb)⟩

theorem bdims_rel {B : Nat} : ∀ {s t : List Nat}, (∀ d ∈ s, Dim B d) → (∀ d ∈ t, Dim B d) →
    ∃ r, Nd.bdims s t = some r ∧ (∀ d ∈ r, Dim B d) ∧
      (∀ b, List.zipWith (fun d i => if d = 1 then 0 else i) s (r.map (clip · b)) = s.map (clip · b)) ∧
      (∀ b, List.zipWith (fun d i => if d = 1 then 0 else i) t (r.map (clip · b)) = t.map (clip · b)) ∧
      r.length = max s.length t.length ∧
      ((∀ d, s.head? = some d → d = 1) → (∀ d, t.head? = some d → d = 1) → ∀ d, r.head? = some d → d = 1) := by
  have self : ∀ (u : List Nat) b,
      List.zipWith (fun d i => if d = 1 then 0 else i) u (u.map (clip · b)) = u.map (clip · b) := by
    intro u b
    induction u with
    | nil => rfl
    | cons d u ih =>
      simp only [List.map_cons, List.zipWith_cons_cons, ih, List.cons.injEq, and_true]
      unfold clip; split <;> rfl
  intro s
  induction s with
  | nil =>
    intro t _ ht
    exact ⟨t, by simp [Nd.bdims], ht, fun b => by simp, fun b => self t b, by simp, fun _ h => h⟩
  | cons a s ih =>
    intro t hs ht
    cases t with
    | nil => exact ⟨a :: s, by simp [Nd.bdims], hs, fun b => self _ b, fun b => by simp, by simp, fun h _ => h⟩
    | cons c t =>
      obtain ⟨r, h1, h2, h3, h4, h5, _⟩ := ih (t := t) (fun d hd => hs d (by simp [hd])) (fun d hd => ht d (by simp [hd]))
      have ha := hs a (by simp)
      have hc := ht c (by simp)
      have key : ∃ d, Nd.bdim a c = some d ∧ Dim B d ∧ (∀ b, (if a = 1 then 0 else clip d b) = clip a b) ∧
          (∀ b, (if c = 1 then 0 else clip d b) = clip c b) ∧ (a = 1 → c = 1 → d = 1) := by
        unfold Nd.bdim
        by_cases h : a = c
        · subst h
          refine ⟨a, by simp, ha, ?_, ?_, fun h _ => h⟩ <;> (intro b; unfold clip; split <;> rfl)
        · by_cases h1 : a = 1
          · subst h1
            have hcB : c = B := by rcases hc with h' | h'; exact absurd h'.symm h; exact h'
            refine ⟨c, by simp [h], hc, ?_, ?_, fun _ h => h⟩ <;> intro b
            · simp
            · unfold clip; split <;> rfl
          · have haB : a = B := by rcases ha with h' | h'; exact absurd h' h1; exact h'
            have hc1 : c = 1 := by
              rcases hc with h' | h'
              · exact h'
              · exact absurd (haB.trans h'.symm) h
            subst hc1
            refine ⟨a, by simp [h1], ha, ?_, ?_, fun h _ => h⟩ <;> intro b
            · unfold clip; split <;> rfl
            · simp
      obtain ⟨d, k1, k2, k3, k4, k5⟩ := key
      refine ⟨d :: r, by simp [Nd.bdims, k1, h1], ?_, ?_, ?_, ?_, ?_⟩
      · intro e he
        rcases List.mem_cons.1 he with rfl | he
        · exact k2
        · exact h2 e he
      · intro b; simp [h3, k3]
      · intro b; simp [h4, k4]
      · simp [h5]
      · intro g1 g2 e he
        simp at he g1 g2
        exact he ▸ k5 g1 g2

theorem getLast?_eq_head?_reverse (l : List Nat) : l.getLast? = l.reverse.head? := by simp

/-- Broadcast arithmetic acts member by member. -/
theorem rel_map2 {B : Nat} {a : Nd α} {c : Nd β} {x : Nat → α} {y : Nat → β} (f : α → β → γ) (ha : Rel B a x)
    (hc : Rel B c y) :
    ∃ r, Nd.map2 f a c = .ok r ∧ Rel B r (fun b => f (x b) (y b)) ∧
      r.shape.length = max a.shape.length c.shape.length := by
  obtain ⟨r, h1, h2, h3, h4, h5, h6⟩ := bdims_rel (s := a.shape.reverse) (t := c.shape.reverse)
    (by simpa using ha.dims) (by simpa using hc.dims)
  have hb : Nd.bshape a.shape c.shape = some r.reverse := by simp [Nd.bshape, h1]
  refine ⟨⟨r.reverse, fun idx => f (a.get (Nd.bidx a.shape idx)) (c.get (Nd.bidx c.shape idx))⟩, ?_, ⟨?_, ?_, ?_⟩, ?_⟩
  · unfold Nd.map2; rw [hb]
  · simpa using h2
  · intro d hd
    rw [getLast?_eq_head?_reverse, List.reverse_reverse] at hd
    exact h6 (fun d hd => ha.last d (by rw [getLast?_eq_head?_reverse]; exact hd))
      (fun d hd => hc.last d (by rw [getLast?_eq_head?_reverse]; exact hd)) d hd
  · intro b hb
    simp only [Nd.bidx]
    rw [← List.map_reverse, List.reverse_reverse, h3, h4, List.map_reverse, List.map_reverse, List.reverse_reverse,
      List.reverse_reverse, ha.val b hb, hc.val b hb]
  · simpa using h5

theorem prod_eq_one {l : List Nat} (h : l.foldr (· * ·) 1 = 1) : ∀ d ∈ l, d = 1 := by
  induction l with
  | nil => simp
  | cons a l ih =>
    replace h : a = 1 ∧ l.foldr (· * ·) 1 = 1 := ⟨Nat.eq_one_of_mul_eq_one_right h, Nat.eq_one_of_mul_eq_one_left h⟩
    intro d hd
    rcases List.mem_cons.1 hd with rfl | hd
    · exact h.1
    · exact ih h.2 d hd

theorem truth_rel {B : Nat} {a : Nd Bool} {x : Nat → Bool} (h : Rel B a x) {v : Bool} (ht : a.truth = .ok v) :
    (∀ d ∈ a.shape, d = 1) ∧ ∀ b < B, x b = v := by
  unfold Nd.truth at ht
  split at ht
  · rename_i hs
    have h1 := prod_eq_one hs
    cases ht
    refine ⟨h1, fun b hb => ?_⟩
    rw [← h.val b hb]
    congr 1
    apply List.map_congr_left
    intro d hd
    rw [h1 d hd, clip_one]
  · cases ht

/-- A rank-2 array related to `x` has shape `(n, 1)`. -/
theorem Rel.shape2 {B : Nat} {a : Nd α} {x : Nat → α} (h : Rel B a x) (hl : a.shape.length = 2) :
    ∃ n, Dim B n ∧ a.shape = [n, 1] ∧ ∀ b < B, a.get [clip n b, 0] = x b := by
  match hs : a.shape, hl with
  | [n, m], _ =>
    have hm : m = 1 := h.last m (by simp [hs])
    subst hm
    refine ⟨n, h.dims n (by simp [hs]), rfl, fun b hb => ?_⟩
    have := h.val b hb
    rw [hs] at this
    simpa using this

theorem Rel.of2 {B n : Nat} {a : Nd α} {x : Nat → α} (hn : Dim B n) (hs : a.shape = [n, 1])
    (hv : ∀ b < B, a.get [clip n b, 0] = x b) : Rel B a x :=
  ⟨by simp [hs, hn, dim_one], by simp [hs], fun b hb => by rw [hs]; simpa using hv b hb⟩

/-- A rank-3 array related to `x` has shape `(p, q, 1)`. -/
theorem Rel.shape3 {B : Nat} {a : Nd α} {x : Nat → α} (h : Rel B a x) (hl : a.shape.length = 3) :
    ∃ p q, Dim B p ∧ Dim B q ∧ a.shape = [p, q, 1] ∧ ∀ b < B, a.get [clip p b, clip q b, 0] = x b := by
  match hs : a.shape, hl with
  | [p, q, m], _ =>
    have hm : m = 1 := h.last m (by simp [hs])
    subst hm
    refine ⟨p, q, h.dims p (by simp [hs]), h.dims q (by simp [hs]), rfl, fun b hb => ?_⟩
    have := h.val b hb
    rw [hs] at this
    simpa using this

theorem Rel.of3 {B p q : Nat} {a : Nd α} {x : Nat → α} (hp : Dim B p) (hq : Dim B q) (hs : a.shape = [p, q, 1])
    (hv : ∀ b < B, a.get [clip p b, clip q b, 0] = x b) : Rel B a x :=
  ⟨by simp [hs, hp, hq, dim_one], by simp [hs], fun b hb => by rw [hs]; simpa using hv b hb⟩

end Verif
