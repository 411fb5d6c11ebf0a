import Verif.Model.EcmCell
import Verif.Proofs.HealthAlike
import Verif.Proofs.EcmSucceeds
/-!
# The circuit parameters read from objects that differ only in values
-/

namespace Verif.Ecm
open Verif

/-- Relations between the parameter arrays of two objects, by path. -/
abbrev ArrRel := List Name → Arr2 ℝ → Arr2 ℝ → Prop

/-- The same for the arrays the circuit computes with. -/
def Lift (R : ArrRel) (p : List Name) (a b : Nd ℝ) : Prop := ∃ x y, a = x.toNd ∧ b = y.toNd ∧ R p x y

/-- Paths below `k`. -/
abbrev below (R : ArrRel) (k : List Name) : ArrRel := fun p => R (k ++ p)

/-- Interpolated parameters. -/
def CurveRel (R : ArrRel) (h h' : Interp) : Prop := Lift R [kBase] h.base h'.base ∧ h'.pins = h.pins ∧ h'.style = h.style

/-- Resistances. -/
def ResRel (R : ArrRel) (r r' : Resistance) : Prop :=
  CurveRel R r.interp r'.interp ∧ r'.refTemp = r.refTemp ∧ Lift R [kTdf] r.tdf r'.tdf

/-- RC elements. -/
def RCRel (R : ArrRel) (r r' : RC) : Prop := ResRel (below R [kR]) r.r r'.r ∧ CurveRel (below R [kC]) r.c r'.c

/-- The parameters of two circuits are related, path by path. -/
structure ASOHRel (R : ArrRel) (a b : ASOH) : Prop where
  qt : Lift R [kQt, kBase] a.qt b.qt
  ce : Lift R [kCe] a.ce b.ce
  ref : CurveRel (below R [kOcv, kOcvRef]) a.ocv.ref b.ocv.ref
  refTemp : Lift R [kOcv, kOcvRef, kRefTemp] a.ocv.refTemp b.ocv.refTemp
  ent : CurveRel (below R [kOcv, kOcvEnt]) a.ocv.ent b.ocv.ent
  r0 : ResRel (below R [kR0]) a.r0 b.r0
  c0 : (a.c0 = none ∧ b.c0 = none) ∨ ∃ c c', a.c0 = some c ∧ b.c0 = some c' ∧ CurveRel (below R [kC0]) c c'
  rcs : b.rcs.length = a.rcs.length ∧
    ∀ (j : Nat) r r', a.rcs[j]? = some r → b.rcs[j]? = some r' → RCRel (below R [kRcs, Py.natStr j]) r r'
  hyst : CurveRel (below R [kH0]) a.hyst b.hyst
  gamma : Lift R [kH0, kGamma] a.gamma b.gamma

variable {R : ArrRel} {m m' : HV ℝ}

theorem arrAt_alike (h : HV.Alike R m m') {k : Name} {a : Nd ℝ} (hk : arrAt m k = .ok a) : ∃ b, arrAt m' k = .ok b ∧ Lift R [k] a b := by
  unfold arrAt at hk
  cases hf : m.getField k with
  | none => rw [hf] at hk; cases hk
  | some f =>
    rw [hf] at hk
    cases f with
    | arr x =>
      cases hk
      obtain ⟨y, h1, h2⟩ := h.arr hf
      exact ⟨y.toNd, by unfold arrAt; rw [h1], x, y, rfl, rfl, h2⟩
    | _ => cases hk

theorem subAt_alike (h : HV.Alike R m m') {k : Name} {c : HV ℝ} (hk : subAt m k = .ok c) :
    ∃ c', subAt m' k = .ok c' ∧ HV.Alike (below R [k]) c c' := by
  unfold subAt at hk
  cases hf : m.getField k with
  | none => rw [hf] at hk; cases hk
  | some f =>
    rw [hf] at hk
    cases f with
    | sub x =>
      cases hk
      obtain ⟨y, h1, h2⟩ := h.sub hf
      exact ⟨y, by unfold subAt; rw [h1], h2⟩
    | _ => cases hk

theorem optAt_alike (h : HV.Alike R m m') {k : Name} {c : Option (HV ℝ)} (hk : optAt m k = .ok c) :
    ∃ c', optAt m' k = .ok c' ∧ ((c = none ∧ c' = none) ∨ ∃ x x', c = some x ∧ c' = some x' ∧ HV.Alike (below R [k]) x x') := by
  unfold optAt at hk
  cases hf : m.getField k with
  | none => rw [hf] at hk; cases hk
  | some f =>
    rw [hf] at hk
    cases f with
    | sub x =>
      cases hk
      obtain ⟨y, h1, h2⟩ := h.sub hf
      exact ⟨some y, by unfold optAt; rw [h1], .inr ⟨x, y, rfl, rfl, h2⟩⟩
    | other =>
      cases hk
      exact ⟨none, by unfold optAt; rw [h.other hf], .inl ⟨rfl, rfl⟩⟩
    | _ => cases hk

theorem tupAt_alike (h : HV.Alike R m m') {k : Name} {ms : List (HV ℝ)} (hk : tupAt m k = .ok ms) :
    ∃ ms', tupAt m' k = .ok ms' ∧ ms'.length = ms.length ∧
      ∀ (i : Nat) c c', ms[i]? = some c → ms'[i]? = some c' → HV.Alike (below R [k, Py.natStr i]) c c' := by
  unfold tupAt at hk
  cases hf : m.getField k with
  | none => rw [hf] at hk; cases hk
  | some f =>
    rw [hf] at hk
    cases f with
    | tup x =>
      cases hk
      obtain ⟨y, h1, h2, h3⟩ := h.tup hf
      exact ⟨y, by unfold tupAt; rw [h1], h2, h3⟩
    | _ => cases hk

theorem readCurve_alike (h : HV.Alike R m m') {x : CurveInfo} {c : Interp} (hc : readCurve x m = .ok c) :
    ∃ c', readCurve x m' = .ok c' ∧ CurveRel R c c' := by
  simp only [readCurve, bind_ok, pure_ok] at hc
  obtain ⟨a, h1, h2⟩ := hc
  subst h2
  obtain ⟨b, h3, h4⟩ := arrAt_alike h h1
  exact ⟨⟨b, x.pins, x.style⟩, by simp only [readCurve, h3]; rfl, h4, rfl, rfl⟩

theorem readRes_alike (h : HV.Alike R m m') {x : ResInfo} {r : Resistance} (hr : readRes x m = .ok r) :
    ∃ r', readRes x m' = .ok r' ∧ ResRel R r r' := by
  simp only [readRes, bind_ok, pure_ok] at hr
  obtain ⟨c, h1, t, h2, h3⟩ := hr
  subst h3
  obtain ⟨c', h4, h5⟩ := readCurve_alike h h1
  obtain ⟨t', h6, h7⟩ := arrAt_alike h h2
  exact ⟨⟨c', x.refTemp, t'⟩, by simp only [readRes, h4, h6]; rfl, h5, rfl, h7⟩

theorem readRC_alike (h : HV.Alike R m m') {x : ResInfo × CurveInfo} {r : RC} (hr : readRC x m = .ok r) :
    ∃ r', readRC x m' = .ok r' ∧ RCRel R r r' := by
  simp only [readRC, bind_ok, pure_ok] at hr
  obtain ⟨m1, h1, r1, h2, m2, h3, c, h4, h5⟩ := hr
  subst h5
  obtain ⟨m1', g1, g2⟩ := subAt_alike h h1
  obtain ⟨m2', g3, g4⟩ := subAt_alike h h3
  obtain ⟨r1', g5, g6⟩ := readRes_alike g2 h2
  obtain ⟨c', g7, g8⟩ := readCurve_alike g4 h4
  exact ⟨⟨r1', c'⟩, by simp only [readRC, g1, g3, g5, g7, ok_bind]; rfl, g6, g8⟩

theorem readRCs_alike {x : Nat → ResInfo × CurveInfo} : ∀ {ms ms' : List (HV ℝ)} {i : Nat} {rs : List RC} {k : List Name},
    ms'.length = ms.length →
    (∀ (j : Nat) c c', ms[j]? = some c → ms'[j]? = some c' → HV.Alike (below R (k ++ [Py.natStr (i + j)])) c c') →
    readRCs x i ms = .ok rs →
    ∃ rs', readRCs x i ms' = .ok rs' ∧ rs.length = ms.length ∧ rs'.length = rs.length ∧
      ∀ (j : Nat) r r', rs[j]? = some r → rs'[j]? = some r' → RCRel (below R (k ++ [Py.natStr (i + j)])) r r' := by
  intro ms
  induction ms with
  | nil =>
    intro ms' i rs k hl _ h
    have : ms' = [] := List.length_eq_zero_iff.1 hl
    subst this
    cases h
    exact ⟨[], rfl, rfl, rfl, fun j r r' hr => by simp at hr⟩
  | cons m ms ih =>
    intro ms' i rs k hl hm h
    cases ms' with
    | nil => simp at hl
    | cons m' ms' =>
      simp only [readRCs, bind_ok, pure_ok] at h
      obtain ⟨r, h1, rs1, h2, h3⟩ := h
      subst h3
      obtain ⟨r', g1, g2⟩ := readRC_alike (hm 0 m m' rfl rfl) h1
      obtain ⟨rs', g3, g4, g5, g6⟩ := ih (ms' := ms') (i := i + 1) (rs := rs1) (k := k) (by simpa using hl) (fun j c c' hc hc' => by
        have := hm (j + 1) c c' (by simpa using hc) (by simpa using hc')
        rwa [show i + 1 + j = i + (j + 1) by omega]) h2
      refine ⟨r' :: rs', by simp only [readRCs, g1, g3, ok_bind]; rfl, by simp [g4], by simp [g5], fun j s s' hs hs' => ?_⟩
      cases j with
      | zero =>
        simp only [List.getElem?_cons_zero, Option.some.injEq] at hs hs'
        subst hs hs'
        exact g2
      | succ j =>
        simp only [List.getElem?_cons_succ] at hs hs'
        have := g6 j s s' hs hs'
        rwa [show i + 1 + j = i + (j + 1) by omega] at this

/-- The circuit parameters of two such objects are related path by path. -/
theorem readASOH_alike (h : HV.Alike R m m') {x : Fixed} {a : ASOH} (ha : readASOH x m = .ok a) :
    ∃ b, readASOH x m' = .ok b ∧ ASOHRel R a b := by
  simp only [readASOH, readOCV, bind_ok, pure_ok] at ha
  obtain ⟨mh, h1, mq, h2, qt, h3, ce, h4, mo, h5, ocv, ⟨mr, h6, ref, h7, rt, h8, me, h9, ent, h10, h11⟩, mr0, h12, r0, h13, mc, h14, c0, h15,
    mrc, h16, rcs, h17, hy, h18, ga, h19, h20⟩ := ha
  subst h11 h20
  obtain ⟨mh', g1, e1⟩ := subAt_alike h h1
  obtain ⟨mq', g2, e2⟩ := subAt_alike h h2
  obtain ⟨qt', g3, e3⟩ := arrAt_alike e2 h3
  obtain ⟨ce', g4, e4⟩ := arrAt_alike h h4
  obtain ⟨mo', g5, e5⟩ := subAt_alike h h5
  obtain ⟨mr', g6, e6⟩ := subAt_alike e5 h6
  obtain ⟨ref', g7, e7⟩ := readCurve_alike e6 h7
  obtain ⟨rt', g8, e8⟩ := arrAt_alike e6 h8
  obtain ⟨me', g9, e9⟩ := subAt_alike e5 h9
  obtain ⟨ent', g10, e10⟩ := readCurve_alike e9 h10
  obtain ⟨mr0', g12, e12⟩ := subAt_alike h h12
  obtain ⟨r0', g13, e13⟩ := readRes_alike e12 h13
  obtain ⟨mc', g14, e14⟩ := optAt_alike h h14
  obtain ⟨mrc', g16, e16, e16'⟩ := tupAt_alike h h16
  obtain ⟨rcs', g17, e17, e17', e17''⟩ := readRCs_alike (k := [kRcs]) e16 (fun j c c' hc hc' => by
    rw [Nat.zero_add]; exact e16' j c c' hc hc') h17
  obtain ⟨hy', g18, e18⟩ := readCurve_alike e1 h18
  obtain ⟨ga', g19, e19⟩ := arrAt_alike e1 h19
  have hc : ∃ c0', readC0 x.c0 mc' = .ok c0' ∧ ((c0 = none ∧ c0' = none) ∨ ∃ c c', c0 = some c ∧ c0' = some c' ∧ CurveRel (below R [kC0]) c c') := by
    rcases e14 with ⟨rfl, rfl⟩ | ⟨c, c', rfl, rfl, ec⟩
    · cases h15
      exact ⟨none, rfl, .inl ⟨rfl, rfl⟩⟩
    · simp only [readC0, bind_ok, pure_ok] at h15
      obtain ⟨cu, k1, k2⟩ := h15
      subst k2
      obtain ⟨cu', k3, k4⟩ := readCurve_alike ec k1
      exact ⟨some cu', by simp only [readC0, k3]; rfl, .inr ⟨cu, cu', rfl, rfl, k4⟩⟩
  obtain ⟨c0', g15, e15⟩ := hc
  refine ⟨⟨qt', ce', ⟨ref', rt', ent'⟩, r0', c0', rcs', hy', ga'⟩, ?_, ?_⟩
  · simp only [readASOH, readOCV, g1, g2, g3, g4, g5, g6, g7, g8, g9, g10, g12, g13, g14, g15, g16, g17, g18, g19, ok_bind]; rfl
  · exact ⟨e3, e4, e7, e8, e10, e13, e15, ⟨e17', fun j r r' hr hr' => by
      have := e17'' j r r' hr hr'
      rwa [Nat.zero_add] at this⟩, e18, e19⟩

end Verif.Ecm
