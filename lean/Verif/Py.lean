/-!
# The fragment of Python used by the model

Exceptions as values, strings as character lists, `str.split('.', maxsplit=1)`, `str(int)`, `int(str)`.
-/

namespace Verif

/-- The exception classes raised by the modelled code (built-in Python / NumPy classes; messages dropped)
(e.g. moirae/models/base.py:34,39,82,171,269). -/
inductive Err where
  | valueError
  | assertionError
  | indexError
  | attributeError
  | keyError
  | typeError
  | linAlgError
  | notImplementedError
  | runtimeError
  | zeroDivisionError
  | stopIteration
  | overflowError
  deriving DecidableEq, Repr

deriving instance DecidableEq for Except

/-- A Python `str`, as the list of its characters (moirae/models/base.py:66). -/
abbrev Name := List Char

namespace Py

/-- `name.split(".", maxsplit=1)`: `none` when there is no dot (Python returns a one-element list), otherwise the
text before and after the first dot.  Python built-in; used in moirae/models/base.py:137,152,255,263,266. -/
def splitOnce : Name → Option (Name × Name)
  | [] => none
  | c :: cs =>
    if c = '.' then some ([], cs)
    else match splitOnce cs with
      | none => none
      | some (a, b) => some (c :: a, b)

/-- `name.split(".")`: all pieces between dots (never empty).  Python built-in (moirae/models/base.py:137,152,163,167,255,263,266). -/
def splitDots : Name → List Name
  | [] => [[]]
  | c :: cs =>
    if c = '.' then [] :: splitDots cs
    else match splitDots cs with
      | [] => [[c]]
      | s :: ss => (c :: s) :: ss

/-- `".".join(segments)`.  Python built-in (moirae/models/base.py:317-327). -/
def joinDots : List Name → Name
  | [] => []
  | [s] => s
  | s :: t :: rest => s ++ '.' :: joinDots (t :: rest)

/-- `str(i)` for a natural number, i.e. what an f-string `{i}` prints.  Python built-in (moirae/models/base.py:144,161,322). -/
def natStr (n : Nat) : Name := Nat.toDigits 10 n

/-- Are all characters ASCII digits (and is there at least one)? (moirae/models/base.py:164,168,264). -/
def allDigits (s : Name) : Bool := !s.isEmpty && s.all Char.isDigit

/-- `int(s)`; `none` is `ValueError`.  Python built-in.
Simplified: an optional sign followed by ASCII digits; blanks, underscores and non-ASCII digits, which Python also
accepts, are treated as errors (moirae/models/base.py:164,168,264). -/
def intOf (s : Name) : Option Int :=
  match s with
  | '-' :: ds => if allDigits ds then some (-(Nat.ofDigitChars 10 ds 0 : Int)) else none
  | '+' :: ds => if allDigits ds then some (Nat.ofDigitChars 10 ds 0 : Int) else none
  | ds => if allDigits ds then some (Nat.ofDigitChars 10 ds 0 : Int) else none

/-- Position addressed by a Python sequence index (`seq[i]`, negative indices count from the end); `none` is
`IndexError`.  Python built-in (moirae/models/base.py:164,168,264). -/
def seqIndex (len : Nat) (i : Int) : Option Nat :=
  if 0 ≤ i then (if i.toNat < len then some i.toNat else none)
  else if (-i).toNat ≤ len then some (len - (-i).toNat) else none

/-- `name.count('.')`.  Python built-in (moirae/models/base.py:155). -/
def countDots (s : Name) : Nat := s.count '.'

theorem splitOnce_none {s : Name} : splitOnce s = none ↔ '.' ∉ s := by
  induction s with
  | nil => simp [splitOnce]
  | cons c cs ih =>
    unfold splitOnce
    by_cases h : c = '.'
    · simp [h]
    · simp only [h, if_false]
      cases hs : splitOnce cs with
      | none => simp [ih.1 hs, Ne.symm h]
      | some p =>
        have : ¬ ('.' ∉ cs) := fun hn => by rw [ih.2 hn] at hs; cases hs
        simp only [Decidable.not_not] at this
        simp [this]

/-- Splitting `a.b` at the first dot when `a` has none. -/
theorem splitOnce_append {a : Name} (b : Name) (h : '.' ∉ a) : splitOnce (a ++ '.' :: b) = some (a, b) := by
  induction a with
  | nil => simp [splitOnce]
  | cons c cs ih =>
    simp only [List.mem_cons, not_or] at h
    have hc : c ≠ '.' := fun e => h.1 e.symm
    simp [splitOnce, hc, ih h.2]

theorem splitOnce_some {s a b : Name} (h : splitOnce s = some (a, b)) : s = a ++ '.' :: b ∧ '.' ∉ a := by
  induction s generalizing a b with
  | nil => simp [splitOnce] at h
  | cons c cs ih =>
    unfold splitOnce at h
    by_cases hc : c = '.'
    · simp only [hc, if_true, Option.some.injEq, Prod.mk.injEq] at h
      obtain ⟨rfl, rfl⟩ := h
      simp [hc]
    · simp only [hc, if_false] at h
      cases hs : splitOnce cs with
      | none => simp [hs] at h
      | some p =>
        obtain ⟨a', b'⟩ := p
        simp only [hs, Option.some.injEq, Prod.mk.injEq] at h
        obtain ⟨rfl, rfl⟩ := h
        have := ih hs
        refine ⟨by simp [this.1], ?_⟩
        simp [this.2, Ne.symm hc]

theorem splitOnce_length {s a b : Name} (h : splitOnce s = some (a, b)) : b.length < s.length := by
  have := (splitOnce_some h).1
  subst this
  simp only [List.length_append, List.length_cons]; omega

theorem splitDots_ne_nil (s : Name) : splitDots s ≠ [] := by
  cases s with
  | nil => simp [splitDots]
  | cons c cs =>
    unfold splitDots
    split
    · simp
    · split <;> simp

theorem splitDots_noDot {s : Name} (h : '.' ∉ s) : splitDots s = [s] := by
  induction s with
  | nil => rfl
  | cons c cs ih =>
    simp only [List.mem_cons, not_or] at h
    have hc : c ≠ '.' := fun e => h.1 e.symm
    simp [splitDots, hc, ih h.2]

theorem splitDots_append {a : Name} (b : Name) (h : '.' ∉ a) : splitDots (a ++ '.' :: b) = a :: splitDots b := by
  induction a with
  | nil => simp [splitDots]
  | cons c cs ih =>
    simp only [List.mem_cons, not_or] at h
    have hc : c ≠ '.' := fun e => h.1 e.symm
    simp [splitDots, hc, ih h.2]

/-- Splitting what was joined gives the segments back, if no segment contains a dot. -/
theorem splitDots_joinDots {segs : List Name} (hne : segs ≠ []) (h : ∀ s ∈ segs, '.' ∉ s) :
    splitDots (joinDots segs) = segs := by
  induction segs with
  | nil => exact absurd rfl hne
  | cons s rest ih =>
    cases rest with
    | nil => exact splitDots_noDot (h s (by simp))
    | cons t rest =>
      simp only [joinDots]
      rw [splitDots_append _ (h s (by simp)), ih (by simp) (fun x hx => h x (List.mem_cons_of_mem _ hx))]

theorem joinDots_cons {s : Name} {rest : List Name} (h : rest ≠ []) :
    joinDots (s :: rest) = s ++ '.' :: joinDots rest := by
  cases rest with
  | nil => exact absurd rfl h
  | cons t rest => rfl

/-- Splitting then joining is the identity. -/
theorem joinDots_splitDots (s : Name) : joinDots (splitDots s) = s := by
  induction s with
  | nil => rfl
  | cons c cs ih =>
    unfold splitDots
    split
    · rename_i h
      rw [joinDots_cons (splitDots_ne_nil cs), ih, h]; rfl
    · cases hs : splitDots cs with
      | nil => exact absurd hs (splitDots_ne_nil cs)
      | cons t ts =>
        rw [hs] at ih
        simp only
        cases ts with
        | nil => simp [joinDots] at ih ⊢; exact ih
        | cons t' ts => simp [joinDots] at ih ⊢; exact ih

theorem natStr_ne_nil (n : Nat) : natStr n ≠ [] := Nat.toDigits_ne_nil

theorem natStr_digits {n : Nat} {c : Char} (h : c ∈ natStr n) : c.isDigit :=
  Nat.isDigit_of_mem_toDigits (by decide) (by decide) h

theorem natStr_noDot (n : Nat) : '.' ∉ natStr n := fun h => by
  have := natStr_digits h
  simp [Char.isDigit] at this

theorem natStr_injective {a b : Nat} (h : natStr a = natStr b) : a = b := by
  have := congrArg (fun l => Nat.ofDigitChars 10 l 0) h
  simpa [natStr] using this

theorem allDigits_natStr (n : Nat) : allDigits (natStr n) = true := by
  simp only [allDigits, Bool.and_eq_true, Bool.not_eq_true', List.isEmpty_eq_false_iff]
  refine ⟨natStr_ne_nil n, ?_⟩
  rw [List.all_eq_true]
  intro c hc
  exact natStr_digits hc

/-- `int(str(n)) == n`. -/
theorem intOf_natStr (n : Nat) : intOf (natStr n) = some (n : Int) := by
  have hd := allDigits_natStr n
  have hv : Nat.ofDigitChars 10 (natStr n) 0 = n := by simp [natStr]
  cases hs : natStr n with
  | nil => exact absurd hs (natStr_ne_nil n)
  | cons c cs =>
    have hc : c.isDigit := natStr_digits (n := n) (by simp [hs])
    have h1 : c ≠ '-' := by rintro rfl; simp [Char.isDigit] at hc
    have h2 : c ≠ '+' := by rintro rfl; simp [Char.isDigit] at hc
    rw [hs] at hd hv
    unfold intOf
    split
    · rename_i heq; simp at heq; exact absurd heq.1 h1
    · rename_i heq; simp at heq; exact absurd heq.1 h2
    · simp [hd, hv]

theorem seqIndex_nat {len i : Nat} (h : i < len) : seqIndex len (i : Int) = some i := by
  simp [seqIndex, h]

theorem seqIndex_lt {len : Nat} {i : Int} {j : Nat} (h : seqIndex len i = some j) : j < len := by
  unfold seqIndex at h
  split at h
  · split at h
    · simp at h; omega
    · simp at h
  · split at h
    · simp at h; omega
    · simp at h

end Py
end Verif
