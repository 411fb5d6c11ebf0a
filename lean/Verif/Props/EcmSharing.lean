import Verif.Model.Heap
import Verif.Spec.DemoCell
/-!
# C36: are the RC elements of a template independent?
-/

namespace Verif.Ecm.Objects
open Verif Nd Ecm

theorem repeatRC_spec (r c : Nat) : ∀ (n : Nat) (h : Heap), r < h.next → c < h.next →
    (repeatRC r c n h).1.length = n ∧ (∀ l ∈ (repeatRC r c n h).1, (repeatRC r c n h).2.obj l = some (.rc r c) ∧ h.next ≤ l) ∧
    (repeatRC r c n h).1.Nodup ∧ (∀ k < h.next, (repeatRC r c n h).2.obj k = h.obj k) := by
  intro n
  induction n with
  | zero => intro h _ _; simp [repeatRC]
  | succ n ih =>
    intro h hr hc
    obtain ⟨i1, i2, i3, i4⟩ := ih (newRC h r c).2 (by simp [newRC, alloc]; omega) (by simp [newRC, alloc]; omega)
    have hn : (newRC h r c).2.next = h.next + 2 := rfl
    have hl : (newRC h r c).1 = h.next + 1 := rfl
    have e1 : (repeatRC r c (n + 1) h).1 = (newRC h r c).1 :: (repeatRC r c n (newRC h r c).2).1 := rfl
    have e2 : (repeatRC r c (n + 1) h).2 = (repeatRC r c n (newRC h r c).2).2 := rfl
    rw [e1, e2]
    refine ⟨by simp [i1], ?_, ?_, ?_⟩
    · intro l hlm
      rcases List.mem_cons.1 hlm with rfl | hlm
      · refine ⟨?_, by omega⟩
        rw [i4 _ (by omega)]
        simp [newRC, alloc]
      · obtain ⟨j1, j2⟩ := i2 l hlm
        exact ⟨j1, by omega⟩
    · refine List.nodup_cons.2 ⟨fun hm => ?_, i3⟩
      have := (i2 _ hm).2
      omega
    · intro k hk
      rw [i4 k (by omega)]
      simp [newRC, alloc, show k ≠ h.next by omega, show k ≠ h.next + 1 by omega]

/-- C36 (the code violates the property): in the default template any two RC elements share their resistance and capacitance, for
every number of elements — whatever is written to one appears in the other. -/
theorem C36_default_elements_shared (n : Nat) (hn : 2 ≤ n) (h₀ : Heap) : ∃ ls h, templateRCs n none h₀ = .ok (ls, h) ∧
    ls.length = n ∧ ls.Nodup ∧ ∀ i (hi : i < ls.length) j (hj : j < ls.length), i ≠ j →
      (∀ f, (read (writeR h ls[i] f) ls[j]).map (·.r) = (read h ls[j]).map fun e => f e.r) ∧
      (∀ f, (read (writeC h ls[i] f) ls[j]).map (·.c) = (read h ls[j]).map fun e => f e.c) ∧
      (read h ls[j]).isSome := by
  have e : templateRCs n none h₀ = .ok (defaultRCs n h₀) := by
    unfold templateRCs; rw [if_neg (by omega)]
  obtain ⟨i1, i2, i3, i4⟩ := repeatRC_spec h₀.next (h₀.next + 1) n
    (alloc (alloc h₀ (.res (templateRes (num 0.01)))).2 (.cap ⟨atleast2d (num 2500), none, .linear⟩)).2
    (by simp [alloc]) (by simp [alloc])
  have e1 : defaultRCs n h₀ = repeatRC h₀.next (h₀.next + 1) n
    (alloc (alloc h₀ (.res (templateRes (num 0.01)))).2 (.cap ⟨atleast2d (num 2500), none, .linear⟩)).2 := rfl
  have hr : (defaultRCs n h₀).2.obj h₀.next = some (.res (templateRes (num 0.01))) := by
    rw [e1, i4 _ (by simp [alloc])]
    simp [alloc]
  have hc : (defaultRCs n h₀).2.obj (h₀.next + 1) = some (.cap ⟨atleast2d (num 2500), none, .linear⟩) := by
    rw [e1, i4 _ (by simp [alloc])]
    simp [alloc]
  rw [← e1] at i1 i2 i3
  have i2' : ∀ l ∈ (defaultRCs n h₀).1, (defaultRCs n h₀).2.obj l = some (.rc h₀.next (h₀.next + 1)) ∧ h₀.next + 2 ≤ l := i2
  clear i2 i4 e1
  generalize defaultRCs n h₀ = D at *
  obtain ⟨ls, h⟩ := D
  simp only at *
  refine ⟨ls, h, e, i1, i3, fun i hi j hj _ => ?_⟩
  have oi := i2' _ (List.getElem_mem hi)
  have oj := i2' _ (List.getElem_mem hj)
  refine ⟨fun f => ?_, fun f => ?_, ?_⟩
  · simp only [writeR, oi.1, read]
    rw [if_neg (by omega)]
    simp only [oj.1]
    simp [hr, hc]
  · simp only [writeC, oi.1, read]
    rw [if_neg (by omega)]
    simp only [oj.1]
    simp [hr, hc]
  · simp [read, oj.1, hr, hc]

/-- `a` followed by the values of `f`. -/
def consFn (a : Nat) (f : Nat → Nat) : Nat → Nat
  | 0 => a
  | i + 1 => f i

theorem givenRCs_spec : ∀ (ps : List (Nd ℝ × Nd ℝ)) (h : Heap), (givenRCs ps h).1.length = ps.length ∧ h.next ≤ (givenRCs ps h).2.next ∧
    (∀ k < h.next, (givenRCs ps h).2.obj k = h.obj k) ∧
    ∃ R C : Nat → Nat, (∀ i (hi : i < (givenRCs ps h).1.length) (hp : i < ps.length),
        (givenRCs ps h).2.obj (givenRCs ps h).1[i] = some (.rc (R i) (C i)) ∧
        (givenRCs ps h).2.obj (R i) = some (.res (templateRes ps[i].1)) ∧
        (givenRCs ps h).2.obj (C i) = some (.cap ⟨atleast2d ps[i].2, none, .linear⟩) ∧ h.next ≤ R i ∧ h.next ≤ C i) ∧
      (∀ i j, i < j → j < ps.length → R i < R j ∧ C i < C j) := by
  intro ps
  induction ps with
  | nil => intro h; exact ⟨rfl, le_refl _, fun _ _ => rfl, id, id, by simp [givenRCs], by simp⟩
  | cons p ps ih =>
    intro h
    obtain ⟨i1, i2, i3, R, C, i4, i5⟩ := ih (newRC (alloc (alloc h (.res (templateRes p.1))).2
      (.cap ⟨atleast2d p.2, none, .linear⟩)).2 h.next (h.next + 1)).2
    set h3 := (newRC (alloc (alloc h (.res (templateRes p.1))).2
      (.cap ⟨atleast2d p.2, none, .linear⟩)).2 h.next (h.next + 1)).2 with hh3
    have hn : h3.next = h.next + 4 := rfl
    have e1 : (givenRCs (p :: ps) h).1 = (h.next + 3) :: (givenRCs ps h3).1 := rfl
    have e2 : (givenRCs (p :: ps) h).2 = (givenRCs ps h3).2 := rfl
    have o0 : h3.obj h.next = some (.res (templateRes p.1)) := by
      simp [hh3, newRC, alloc, show h.next ≠ h.next + 1 + 1 by omega, show h.next ≠ h.next + 1 + 1 + 1 by omega]
    have o1 : h3.obj (h.next + 1) = some (.cap ⟨atleast2d p.2, none, .linear⟩) := by simp [hh3, newRC, alloc]
    have o3 : h3.obj (h.next + 3) = some (.rc h.next (h.next + 1)) := by simp [hh3, newRC, alloc]
    have ok : ∀ k < h.next, h3.obj k = h.obj k := by
      intro k hk
      simp [hh3, newRC, alloc, show k ≠ h.next by omega, show k ≠ h.next + 1 by omega, show k ≠ h.next + 1 + 1 by omega,
        show k ≠ h.next + 1 + 1 + 1 by omega]
    refine ⟨by rw [e1]; simp [i1], by rw [e2]; omega, fun k hk => by rw [e2, i3 k (by omega), ok k hk],
      consFn h.next R, consFn (h.next + 1) C, ?_, ?_⟩
    · simp only [e1, e2]
      intro i hi hp
      cases i with
      | zero =>
        simp only [List.getElem_cons_zero, consFn]
        refine ⟨?_, ?_, ?_, le_refl _, by omega⟩
        · rw [i3 _ (by omega), o3]
        · rw [i3 _ (by omega), o0]
        · rw [i3 _ (by omega), o1]
      | succ i =>
        simp only [List.getElem_cons_succ, consFn]
        obtain ⟨a, b, c, d, e⟩ := i4 i (by simpa using hi) (by simpa using hp)
        exact ⟨a, b, c, by omega, by omega⟩
    · intro i j hij hj
      cases j with
      | zero => omega
      | succ j =>
        have hj' : j < ps.length := by simpa using hj
        obtain ⟨_, _, _, d, e⟩ := i4 j (by omega) hj'
        cases i with
        | zero => simp only [consFn]; omega
        | succ i => exact i5 i j (by omega) hj'

/-- C36, the part that holds: with RC information given, writing the resistance or the capacitance of one element changes that element
and no other one.  Missing: the default template (`C36_default_elements_shared`). -/
theorem C36_given_elements_independent_partial (ps : List (Nd ℝ × Nd ℝ)) (h₀ : Heap) : ∃ ls h,
    templateRCs ps.length (some ps) h₀ = .ok (ls, h) ∧ ls.length = ps.length ∧
    ∀ i (hi : i < ls.length), (∃ e, read h ls[i] = some e) ∧
      (∀ f, read (writeR h ls[i] f) ls[i] = (read h ls[i]).map fun e => { e with r := f e.r }) ∧
      (∀ f, read (writeC h ls[i] f) ls[i] = (read h ls[i]).map fun e => { e with c := f e.c }) ∧
      ∀ j (hj : j < ls.length), i ≠ j →
        (∀ f, read (writeR h ls[i] f) ls[j] = read h ls[j]) ∧ (∀ f, read (writeC h ls[i] f) ls[j] = read h ls[j]) := by
  have e : ∃ ls h, templateRCs ps.length (some ps) h₀ = .ok (ls, h) ∧ ls = (givenRCs ps h₀).1 ∧ h = (givenRCs ps h₀).2 := by
    unfold templateRCs
    cases ps with
    | nil => exact ⟨[], h₀, rfl, rfl, rfl⟩
    | cons p ps => exact ⟨_, _, by simp, rfl, rfl⟩
  obtain ⟨ls, h, e, el, eh⟩ := e
  obtain ⟨i1, -, -, R, C, i4, i5⟩ := givenRCs_spec ps h₀
  rw [← el, ← eh] at *
  have obj : ∀ i (hi : i < ls.length), h.obj ls[i] = some (.rc (R i) (C i)) ∧
      h.obj (R i) = some (.res (templateRes (ps[i]'(by omega)).1)) ∧
      h.obj (C i) = some (.cap ⟨atleast2d (ps[i]'(by omega)).2, none, .linear⟩) := fun i hi => by
    obtain ⟨a, b, c, -⟩ := i4 i (by simpa [← el] using hi) (by omega)
    exact ⟨a, b, c⟩
  have dist : ∀ i j, i < ls.length → j < ls.length → i ≠ j → R i ≠ R j ∧ C i ≠ C j := by
    intro i j hi hj hij
    rcases Nat.lt_or_gt_of_ne hij with h | h
    · have := i5 i j h (by omega); omega
    · have := i5 j i h (by omega); omega
  refine ⟨ls, h, e, i1, fun i hi => ?_⟩
  obtain ⟨a1, a2, a3⟩ := obj i hi
  have k1 : ∀ j (hj : j < ls.length), ls[j] ≠ R i := fun j hj e => by
    have := (obj j hj).1; rw [e, a2] at this; cases this
  have k2 : ∀ j (hj : j < ls.length), ls[j] ≠ C i := fun j hj e => by
    have := (obj j hj).1; rw [e, a3] at this; cases this
  have k3 : ∀ j (hj : j < ls.length), C j ≠ R i := fun j hj e => by
    have := (obj j hj).2.2; rw [e, a2] at this; cases this
  have k4 : ∀ j (hj : j < ls.length), R j ≠ C i := fun j hj e => by
    have := (obj j hj).2.1; rw [e, a3] at this; cases this
  refine ⟨⟨_, by simp only [read, a1, a2, a3]; rfl⟩, fun f => ?_, fun f => ?_, fun j hj hij => ?_⟩
  · simp only [writeR, a1, read]
    rw [if_neg (k1 i hi)]
    simp [a2, a3, k3 i hi]
  · simp only [writeC, a1, read]
    rw [if_neg (k2 i hi)]
    simp [a2, a3, k4 i hi]
  · obtain ⟨b1, b2, b3⟩ := obj j hj
    have hd := dist i j hi hj hij
    constructor
    · intro f
      simp only [writeR, a1, read]
      rw [if_neg (k1 j hj)]
      simp [b1, b2, b3, k3 j hj, Ne.symm hd.1]
    · intro f
      simp only [writeC, a1, read]
      rw [if_neg (k2 j hj)]
      simp [b1, b2, b3, k4 j hj, Ne.symm hd.2]

/-- The objects hold the values of the value-level template. -/
theorem template_values (n : Nat) (rc : Option (List (Nd ℝ × Nd ℝ))) (h₀ : Heap) {ls : List Nat} {h : Heap}
    (hh : templateRCs n rc h₀ = .ok (ls, h)) : ∃ l, Ecm.templateRCs n rc = .ok l ∧ ls.map (read h) = l.map some := by
  unfold templateRCs at hh
  unfold Ecm.templateRCs
  split at hh
  · rename_i h0
    cases hh
    exact ⟨[], by rw [if_pos h0], rfl⟩
  · rename_i h0
    rw [if_neg h0]
    cases rc with
    | none =>
      refine ⟨_, rfl, ?_⟩
      simp only [Except.ok.injEq] at hh
      obtain ⟨i1, i2, -, i4⟩ := repeatRC_spec h₀.next (h₀.next + 1) n
        (alloc (alloc h₀ (.res (templateRes (num 0.01)))).2 (.cap ⟨atleast2d (num 2500), none, .linear⟩)).2
        (by simp [alloc]) (by simp [alloc])
      have e1 : (ls, h) = repeatRC h₀.next (h₀.next + 1) n
        (alloc (alloc h₀ (.res (templateRes (num 0.01)))).2 (.cap ⟨atleast2d (num 2500), none, .linear⟩)).2 := hh.symm
      rw [← e1] at i1 i2 i4
      rw [List.map_replicate, ← i1, List.eq_replicate_iff]
      refine ⟨by simp, fun x hx => ?_⟩
      obtain ⟨l, hl, rfl⟩ := List.mem_map.1 hx
      have hr : h.obj h₀.next = some (.res (templateRes (num 0.01))) := by
        rw [i4 h₀.next (by simp [alloc])]; simp [alloc]
      have hc : h.obj (h₀.next + 1) = some (.cap ⟨atleast2d (num 2500), none, .linear⟩) := by
        rw [i4 (h₀.next + 1) (by simp [alloc])]; simp [alloc]
      have hl' : h.obj l = some (.rc h₀.next (h₀.next + 1)) := (i2 l hl).1
      simp only [read, hl', hr, hc]
    | some ps =>
      simp only at hh
      split at hh
      · cases hh
      · rename_i hl
        simp only [if_neg hl]
        refine ⟨_, rfl, ?_⟩
        simp only [Except.ok.injEq] at hh
        obtain ⟨i1, -, -, R, C, i4, -⟩ := givenRCs_spec ps h₀
        rw [hh] at i1 i4
        refine List.ext_getElem (by simpa using i1) fun i h1 h2 => ?_
        simp only [List.getElem_map]
        obtain ⟨a, b, c, -⟩ := i4 i (by simpa using h1) (by simpa using h2)
        simp only at a b c
        simp only [read, a, b, c]

/-- Non-vacuity: three default elements; two given ones. -/
example (h₀ : Heap) : (∃ ls h, templateRCs 3 none h₀ = .ok (ls, h) ∧ ls.length = 3) ∧
    ∃ ls h, templateRCs 2 (some [(num 0.01, num 2500), (num 0.02, num 1000)]) h₀ = .ok (ls, h) ∧ ls.length = 2 := by
  obtain ⟨ls, h, h1, h2, _⟩ := C36_default_elements_shared 3 (by norm_num) h₀
  obtain ⟨ls', h', h1', h2', _⟩ := C36_given_elements_independent_partial [(num 0.01, num 2500), (num 0.02, num 1000)] h₀
  exact ⟨⟨ls, h, h1, h2⟩, ls', h', h1', h2'⟩

end Verif.Ecm.Objects
