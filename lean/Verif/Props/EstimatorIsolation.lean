import Verif.Proofs.EstimatorIsolation
import Verif.Props.JointForget
/-!
# C143: estimators and the objects of their callers
-/

namespace Verif.EstObjects
open Verif SimObjects Spec

/-! ## Both estimators in terms of values -/

theorem ukf_step_rest {σ : Type} {svd : Mat → Vec × Mat} {f : Ukf σ} {new meas : Dist} {r : Ukf σ × (Gaussian × Gaussian)}
    (h : f.step svd new meas = .ok r) : r.1 = { f with hidden := r.1.hidden, mem := r.1.mem, controls := r.1.controls } := by
  unfold Ukf.step at h
  obtain ⟨s, -, h⟩ := bind_ok.1 h
  obtain ⟨p, -, h⟩ := bind_ok.1 h
  obtain ⟨g, -, h⟩ := bind_ok.1 h
  cases h
  rfl

theorem joint_step_rest {svd : Mat → Vec × Mat} {e : Joint} {u y : Container ℝ} {r : Joint × Gaussian × Gaussian} (h : e.step svd u y = .ok r) :
    ∃ hid ctl, r.1 = { e with filter := { e.filter with hidden := hid, controls := ctl } } := by
  unfold Joint.step at h
  obtain ⟨u1, -, h⟩ := bind_ok.1 h
  obtain ⟨y1, -, h⟩ := bind_ok.1 h
  obtain ⟨u2, -, h⟩ := bind_ok.1 h
  obtain ⟨y2, -, h⟩ := bind_ok.1 h
  obtain ⟨k, ek, h⟩ := bind_ok.1 h
  obtain ⟨a, -, h⟩ := bind_ok.1 h
  obtain ⟨b, -, h⟩ := bind_ok.1 h
  cases h
  exact ⟨k.1.hidden, k.1.controls, congrArg (fun f => ({ e with filter := f } : Joint)) (ukf_step_rest ek)⟩

def JointRefs.owned (e : JointRefs) : Owned := ⟨[e.baseAsoh], [e.baseTransients, e.baseInputs], [e.hidden], [e.controls], [e.covW, e.covV]⟩
def JointRefs.linked (e : JointRefs) (a x u : Nat) : Prop := e.asoh = a ∧ e.transients = x ∧ e.inputs = u

theorem joint_faithful (svd : Mat → Vec × Mat) :
    Faithful (joint svd) (callJoint svd) putJoint (fun h e => JointRefs.view h e) JointRefs.owned JointRefs.linked where
  put_put _ _ _ := rfl
  frame := by
    rintro e c h h' ⟨h1, h2, h3⟩ s
    have a1 := s.asohs e.baseAsoh (by simp [JointRefs.owned])
    have a2 := s.containers e.baseTransients (by simp [JointRefs.owned])
    have a3 := s.containers e.baseInputs (by simp [JointRefs.owned])
    have a4 := s.gaussians e.hidden (by simp [JointRefs.owned])
    have a5 := s.controls e.controls (by simp [JointRefs.owned])
    have a6 := s.arrays e.covW (by simp [JointRefs.owned])
    have a7 := s.arrays e.covV (by simp [JointRefs.owned])
    simp only [JointRefs.view, putJoint, now, a1, a2, a3, a4, a5, a6, a7, h1, h2, h3]
  step_err := by
    intro h e u y x hx
    show JointRefs.step svd h e u y = _
    unfold JointRefs.step
    simp only [callJoint] at hx
    rcases hr : (JointRefs.view h e).step svd (h.containers.val u) (h.containers.val y) with z | r
    · rw [hr] at hx; cases hx; rfl
    · rw [hr] at hx; cases hx
  step_ok := by
    intro h e u y v' res _ _ hx
    simp only [callJoint] at hx
    rcases hr : (JointRefs.view h e).step svd (h.containers.val u) (h.containers.val y) with z | r
    · rw [hr] at hx; cases hx
    rw [hr] at hx
    cases hx
    obtain ⟨hid, ctl, rest⟩ := joint_step_rest hr
    refine ⟨{ e with hidden := h.gaussians.next, controls := h.controls.next },
      { h with gaussians := ((((h.gaussians.alloc r.1.filter.hidden).2.alloc r.2.1).2).alloc r.2.2).2,
               controls := (h.controls.alloc r.1.filter.controls).2 },
      h.gaussians.next + 1, h.gaussians.next + 2, ?_, ?_, ?_, ?_, ⟨⟨?_, ?_⟩, ⟨?_, ?_⟩⟩, ?_, ?_, ?_, ?_, ?_, ?_⟩
    · show JointRefs.step svd h e u y = _
      unfold JointRefs.step
      rw [hr]
      rfl
    · exact ⟨.refl _, .refl _, ((GrowsS.alloc _ _).trans (GrowsS.alloc _ _)).trans (GrowsS.alloc _ _), GrowsS.alloc _ _, .refl _⟩
    · intro t
      simp only [rest]
      simp [JointRefs.view, putJoint, Store.alloc]
      omega
    · simp [Store.alloc]
    · simp [Store.alloc]
    · simp [Store.alloc]
    · simp [Store.alloc]
    · simp [Store.alloc]
    · intro l hl; exact .inl hl
    · intro l hl; exact .inl hl
    · intro l hl
      have : l = h.gaussians.next := by simpa [JointRefs.owned] using hl
      refine .inr ⟨⟨this.ge, ?_⟩, ?_, ?_⟩
      · rw [this]; simp [Store.alloc]; omega
      · omega
      · omega
    · intro l hl
      have : l = h.controls.next := by simpa [JointRefs.owned] using hl
      exact .inr ⟨this.ge, by rw [this]; simp [Store.alloc]⟩
    · intro l hl; exact .inl hl
    · intro a b c hl; exact hl
  estimated_err := by
    intro h e x hx
    show JointRefs.estimated h e = _
    unfold JointRefs.estimated
    simp only [callJoint] at hx
    rcases hr : (JointRefs.view h e).getEstimatedState with z | r
    · rw [hr] at hx; cases hx; rfl
    · rw [hr] at hx; cases hx
  estimated_ok := by
    intro h e v' res hx
    simp only [callJoint] at hx
    rcases hr : (JointRefs.view h e).getEstimatedState with z | r
    · rw [hr] at hx; cases hx
    rw [hr] at hx
    cases hx
    refine ⟨{ h with containers := (h.containers.alloc r.1).2, asohs := (h.asohs.alloc r.2).2 }, h.containers.next, h.asohs.next, ?_,
      ⟨.alloc _ _, .alloc _ _, .refl _, .refl _, .refl _⟩, rfl, ?_, ⟨le_refl _, Nat.lt_succ_self _⟩, le_refl _, Nat.lt_succ_self _⟩
    · show JointRefs.estimated h e = _
      unfold JointRefs.estimated
      rw [hr]
      rfl
    · simp [Store.alloc]
  state_err := by
    intro h e x hx
    cases hx
  state_ok := by
    intro h e v' res hx
    cases hx
    refine ⟨{ h with gaussians := (h.gaussians.copy e.hidden).2 }, h.gaussians.next, rfl, ⟨.refl _, .refl _, .alloc _ _, .refl _, .refl _⟩, rfl, ?_,
      le_refl _, Nat.lt_succ_self _⟩
    simp [Store.alloc, Store.copy, Joint.state, JointRefs.view]

theorem dual_step_rest {svd : Mat → Vec × Mat} {e : Dual} {u y : Container ℝ} {r : Dual × Gaussian × Gaussian} (h : e.step svd u y = .ok r) :
    ∃ ht ct mt ha ca ma, r.1 = { e with trans := { e.trans with hidden := ht, mem := mt, controls := ct },
                                        asoh := { e.asoh with hidden := ha, mem := ma, controls := ca } } := by
  unfold Dual.step at h
  obtain ⟨u1, -, h⟩ := bind_ok.1 h
  obtain ⟨y1, -, h⟩ := bind_ok.1 h
  obtain ⟨post, -, h⟩ := bind_ok.1 h
  obtain ⟨u2, -, h⟩ := bind_ok.1 h
  obtain ⟨y2, -, h⟩ := bind_ok.1 h
  obtain ⟨rt, et, h⟩ := bind_ok.1 h
  obtain ⟨u3, -, h⟩ := bind_ok.1 h
  obtain ⟨y3, -, h⟩ := bind_ok.1 h
  obtain ⟨ra, ea, h⟩ := bind_ok.1 h
  obtain ⟨_, -, h⟩ := bind_ok.1 h
  obtain ⟨_, -, h⟩ := bind_ok.1 h
  obtain ⟨_, -, h⟩ := bind_ok.1 h
  obtain ⟨_, -, h⟩ := bind_ok.1 h
  obtain ⟨_, -, h⟩ := bind_ok.1 h
  cases h
  have h1 : rt.1 = { e.trans with hidden := rt.1.hidden, mem := rt.1.mem, controls := rt.1.controls } :=
    (ukf_step_rest et).trans rfl
  have h2 : ra.1 = { e.asoh with hidden := ra.1.hidden, mem := ra.1.mem, controls := ra.1.controls } :=
    (ukf_step_rest ea).trans rfl
  exact ⟨rt.1.hidden, rt.1.controls, rt.1.mem, ra.1.hidden, ra.1.controls, ra.1.mem,
    congrArg₂ (fun f g => ({ e with trans := f, asoh := g } : Dual)) h1 h2⟩

/-- What the wrappers have been given for the last step does not matter. -/
def blank (e : Dual) : Dual :=
  { e with trans := { e.trans with mem := e.base.asoh }, asoh := { e.asoh with mem := (e.base.transients, e.asoh.mem.2) } }

theorem step_blank (svd : Mat → Vec × Mat) (e : Dual) (u y : Container ℝ) : (blank e).step svd u y = e.step svd u y := rfl
theorem estimated_blank (e : Dual) : (blank e).getEstimatedState = e.getEstimatedState := rfl
theorem state_blank (e : Dual) : (blank e).state = e.state := rfl

def DualRefs.owned (e : DualRefs) : Owned := ⟨[e.baseAsoh], [e.baseTransients, e.baseInputs, e.previousInputs], [e.hiddenT, e.hiddenA],
  [e.controlsT, e.controlsA], [e.covWT, e.covVT, e.covWA, e.covVA]⟩
def DualRefs.linked (e : DualRefs) (a x u : Nat) : Prop := (e.asohAsoh = a ∧ e.cellTransients = x) ∧ e.cellInputs = u ∧ e.asohInputs = u

theorem dual_faithful (svd : Mat → Vec × Mat) :
    Faithful (dual svd) (callDual svd) (fun e t => blank (putDual e t)) (fun h e => blank (DualRefs.view h e)) DualRefs.owned DualRefs.linked where
  put_put _ _ _ := rfl
  frame := by
    rintro e c h h' ⟨⟨h1, h2⟩, h3, h4⟩ s
    have a1 := s.asohs e.baseAsoh (by simp [DualRefs.owned])
    have a2 := s.containers e.baseTransients (by simp [DualRefs.owned])
    have a3 := s.containers e.baseInputs (by simp [DualRefs.owned])
    have a4 := s.containers e.previousInputs (by simp [DualRefs.owned])
    have a5 := s.gaussians e.hiddenT (by simp [DualRefs.owned])
    have a6 := s.gaussians e.hiddenA (by simp [DualRefs.owned])
    have a7 := s.controls e.controlsT (by simp [DualRefs.owned])
    have a8 := s.controls e.controlsA (by simp [DualRefs.owned])
    have a9 := s.arrays e.covWT (by simp [DualRefs.owned])
    have b1 := s.arrays e.covVT (by simp [DualRefs.owned])
    have b2 := s.arrays e.covWA (by simp [DualRefs.owned])
    have b3 := s.arrays e.covVA (by simp [DualRefs.owned])
    simp only [DualRefs.view, blank, putDual, now, a1, a2, a3, a4, a5, a6, a7, a8, a9, b1, b2, b3, h1, h2, h3, h4]
  step_err := by
    intro h e u y x hx
    show DualRefs.step svd h e u y = _
    unfold DualRefs.step
    simp only [callDual, step_blank] at hx
    rcases hr : (DualRefs.view h e).step svd (h.containers.val u) (h.containers.val y) with z | r
    · rw [hr] at hx; cases hx; rfl
    · rw [hr] at hx; cases hx
  step_ok := by
    intro h e u y v' res hoa hox hx
    simp only [callDual, step_blank] at hx
    rcases hr : (DualRefs.view h e).step svd (h.containers.val u) (h.containers.val y) with z | r
    · rw [hr] at hx; cases hx
    rw [hr] at hx
    cases hx
    obtain ⟨ht, ct, mt, ha, ca, ma, rest⟩ := dual_step_rest hr
    refine ⟨{ e with cellAsoh := h.asohs.next, asohTransients := h.containers.next, previousInputs := h.containers.next + 1,
                     hiddenT := h.gaussians.next, hiddenA := h.gaussians.next + 1, controlsT := h.controls.next, controlsA := h.controls.next + 1 },
      { h with asohs := (h.asohs.alloc r.1.trans.mem).2,
               containers := ((h.containers.alloc r.1.asoh.mem.1).2.alloc r.1.asoh.mem.2).2,
               gaussians := ((((h.gaussians.alloc r.1.trans.hidden).2.alloc r.1.asoh.hidden).2.alloc r.2.1).2.alloc r.2.2).2,
               controls := ((h.controls.alloc r.1.trans.controls).2.alloc r.1.asoh.controls).2 },
      h.gaussians.next + 2, h.gaussians.next + 3, ?_, ?_, ?_, ?_, ⟨⟨?_, ?_⟩, ⟨?_, ?_⟩⟩, ?_, ?_, ?_, ?_, ?_, ?_⟩
    · show DualRefs.step svd h e u y = _
      unfold DualRefs.step
      rw [hr]
      rfl
    · exact ⟨.alloc _ _, (GrowsS.alloc _ _).trans (GrowsS.alloc _ _),
        (((GrowsS.alloc _ _).trans (GrowsS.alloc _ _)).trans (GrowsS.alloc _ _)).trans (GrowsS.alloc _ _),
        (GrowsS.alloc _ _).trans (GrowsS.alloc _ _), .refl _⟩
    · intro t
      have k1 := (hoa e.baseAsoh (by simp [DualRefs.owned])).ne
      have k2 := hox e.baseTransients (by simp [DualRefs.owned])
      have k3 := hox e.baseInputs (by simp [DualRefs.owned])
      have k2' : e.baseTransients ≠ h.containers.next + 1 := by omega
      have k3' : e.baseInputs ≠ h.containers.next + 1 := by omega
      simp only [rest]
      simp [DualRefs.view, blank, putDual, Store.alloc, k1, k2.ne, k3.ne, k2', k3']
      rw [if_neg (by omega), if_neg (by omega)]
    · simp [Store.alloc]
    · simp [Store.alloc]
    · simp [Store.alloc]
    · simp [Store.alloc]
    · simp [Store.alloc]
    · intro l hl; exact .inl hl
    · intro l hl
      have : l = e.baseTransients ∨ l = e.baseInputs ∨ l = h.containers.next + 1 := by simpa [DualRefs.owned] using hl
      rcases this with rfl | rfl | rfl
      · exact .inl (by simp [DualRefs.owned])
      · exact .inl (by simp [DualRefs.owned])
      · exact .inr ⟨by omega, by simp [Store.alloc]⟩
    · intro l hl
      have : l = h.gaussians.next ∨ l = h.gaussians.next + 1 := by simpa [DualRefs.owned] using hl
      refine .inr ⟨⟨by omega, ?_⟩, by omega, by omega⟩
      simp [Store.alloc]; omega
    · intro l hl
      have : l = h.controls.next ∨ l = h.controls.next + 1 := by simpa [DualRefs.owned] using hl
      exact .inr ⟨by omega, by simp [Store.alloc]; omega⟩
    · intro l hl; exact .inl hl
    · intro a b c hl; exact hl
  estimated_err := by
    intro h e x hx
    show DualRefs.estimated h e = _
    unfold DualRefs.estimated
    simp only [callDual, estimated_blank] at hx
    rcases hr : (DualRefs.view h e).getEstimatedState with z | r
    · rw [hr] at hx; cases hx; rfl
    · rw [hr] at hx; cases hx
  estimated_ok := by
    intro h e v' res hx
    simp only [callDual, estimated_blank] at hx
    rcases hr : (DualRefs.view h e).getEstimatedState with z | r
    · rw [hr] at hx; cases hx
    rw [hr] at hx
    cases hx
    refine ⟨{ h with containers := (h.containers.alloc r.1).2, asohs := (h.asohs.alloc r.2).2 }, h.containers.next, h.asohs.next, ?_,
      ⟨.alloc _ _, .alloc _ _, .refl _, .refl _, .refl _⟩, rfl, ?_, ⟨le_refl _, Nat.lt_succ_self _⟩, le_refl _, Nat.lt_succ_self _⟩
    · show DualRefs.estimated h e = _
      unfold DualRefs.estimated
      rw [hr]
      rfl
    · simp [Store.alloc]
  state_err := by
    intro h e x hx
    show DualRefs.state h e = _
    unfold DualRefs.state
    simp only [callDual, state_blank] at hx
    rcases hr : (DualRefs.view h e).state with z | r
    · rw [hr] at hx; cases hx; rfl
    · rw [hr] at hx; cases hx
  state_ok := by
    intro h e v' res hx
    simp only [callDual, state_blank] at hx
    rcases hr : (DualRefs.view h e).state with z | r
    · rw [hr] at hx; cases hx
    rw [hr] at hx
    cases hx
    refine ⟨{ h with gaussians := (h.gaussians.alloc r).2 }, h.gaussians.next, ?_, ⟨.refl _, .refl _, .alloc _ _, .refl _, .refl _⟩, rfl, ?_,
      le_refl _, Nat.lt_succ_self _⟩
    · show DualRefs.state h e = _
      unfold DualRefs.state
      rw [hr]
      rfl
    · simp [Store.alloc]

theorem following_blank (svd : Mat → Vec × Mat) (cs : List (Templates × Call)) : ∀ {v v' : Dual}, blank v = blank v' →
    following (callDual svd) (fun e t => blank (putDual e t)) v cs = following (callDual svd) putDual v' cs := by
  induction cs with
  | nil => intros; rfl
  | cons c cs ih =>
    obtain ⟨t, c⟩ := c
    intro v v' h
    have hp : blank (putDual v t) = blank (putDual v' t) := by
      show blank (putDual (blank v) t) = blank (putDual (blank v') t)
      rw [h]
    rw [following, following]
    cases c with
    | step u y =>
      simp only [callDual]
      rw [hp, step_blank]
      rcases Dual.step svd (putDual v' t) u y with x | r
      · rfl
      · simp only [ok_bind]
        show (do let rs ← following _ _ r.1 cs; return _) = (do let rs ← following _ _ r.1 cs; return _)
        rw [ih rfl]
    | estimated =>
      simp only [callDual]
      rw [hp, estimated_blank]
      rcases Dual.getEstimatedState (putDual v' t) with x | r
      · rfl
      · simp only [ok_bind]
        show (do let rs ← following _ _ (blank (putDual v' t)) cs; return _) = (do let rs ← following _ _ (putDual v' t) cs; return _)
        rw [ih (v := blank (putDual v' t)) (v' := putDual v' t) rfl]
    | state =>
      simp only [callDual]
      rw [hp, state_blank]
      rcases Dual.state (putDual v' t) with x | r
      · rfl
      · simp only [ok_bind]
        show (do let rs ← following _ _ (blank (putDual v' t)) cs; return _) = (do let rs ← following _ _ (putDual v' t) cs; return _)
        rw [ih (v := blank (putDual v' t)) (v' := putDual v' t) rfl]

/-! ## Right after building an estimator -/

theorem joint_fields {w : JointWrapper} {cov : Mat ⊕ (Mat × Mat)} {inputsCov noise noiseT noiseA sensor : Option Mat} {tune : Tuning} {v : Joint}
    (h : Joint.fromWrapper w cov inputsCov noise noiseT noiseA sensor tune = .ok v) :
    v.wrapper = w ∧ v.filter.model = w.toWrapper ∧ v.base.asoh = w.asoh ∧ v.base.transients = w.transients ∧ v.base.inputs = w.inputs := by
  obtain ⟨_, _, _, _, _, _, _, _, f, -, -, -, -, -, -, -, -, h9, h10, h11, h12⟩ := Joint.fromWrapper_inv h
  obtain ⟨-, b1, b2, b3, -⟩ := Online.make_ok h12
  obtain ⟨c1, -⟩ := Ukf.C53_constructed _ _ _ _ _ _ _ _ _ h9
  exact ⟨h10, by rw [h11]; exact c1, b1, b2, b3⟩

theorem base_fields {cell : Cell} {asoh : HV ℝ} {tr inp : Container ℝ} {c1 c2 c3 : Operator} {b : BaseWrapper}
    (h : BaseWrapper.make cell asoh tr inp c1 c2 c3 = .ok b) : b.asoh = asoh ∧ b.transients = tr ∧ b.inputs = inp := by
  unfold BaseWrapper.make at h
  obtain ⟨ba, -, h⟩ := bind_ok.1 h
  split at h
  · cases h
  obtain ⟨bt, -, h⟩ := bind_ok.1 h
  split at h
  · cases h
  obtain ⟨y, -, h⟩ := bind_ok.1 h
  obtain ⟨v, -, h⟩ := bind_ok.1 h
  cases h
  exact ⟨rfl, rfl, rfl⟩

theorem refs_mem {l : List (Option Nat)} {k : Nat} (h : k ∈ refs l) : some k ∈ l := by
  unfold refs at h
  obtain ⟨a, ha, rfl⟩ := List.mem_filterMap.1 h
  exact ha

section
variable {h : Heap} {cell : Cell} {names : Option (List Name)} {deg : Degradation} {hiddenConv controlConv outputConv : Operator}
  {asoh transients inputs cov : Nat} {inputsCov noise sensor : Option Nat} {tune : Tuning}

theorem startJoint_agree {w : World JointRefs}
    (hstart : startJoint h cell names deg hiddenConv controlConv outputConv asoh transients inputs cov inputsCov noise sensor tune = .ok w)
    (ha : asoh < h.asohs.next) (hx : transients < h.containers.next) (hu : inputs < h.containers.next) (hne : transients ≠ inputs)
    (hc : cov < h.arrays.next) (ho : ∀ o ∈ [inputsCov, noise, sensor], ∀ l, o = some l → l < h.arrays.next) :
    ∃ W v, JointWrapper.make cell (h.asohs.val asoh) (h.containers.val transients) (h.containers.val inputs) names deg hiddenConv controlConv
        outputConv = .ok W ∧
      Joint.fromWrapper W (.inl (h.arrays.val cov)) (inputsCov.map h.arrays.val) (noise.map h.arrays.val) none none (sensor.map h.arrays.val) tune
        = .ok v ∧
      w.seen = [] ∧ Agree (fun h e => JointRefs.view h e) putJoint JointRefs.owned JointRefs.linked w v
        ⟨h.asohs.val asoh, h.containers.val transients, h.containers.val inputs⟩ [] := by
  unfold startJoint at hstart
  obtain ⟨W, hW, hstart⟩ := bind_ok.1 hstart
  obtain ⟨v, hv, hstart⟩ := bind_ok.1 hstart
  refine ⟨W, v, hW, hv, ?_⟩
  cases hstart
  obtain ⟨f1, f2, f3, f4, f5⟩ := joint_fields hv
  obtain ⟨b, hb, hW'⟩ := bind_ok.1 hW
  obtain ⟨_, -, hW'⟩ := bind_ok.1 hW'
  obtain ⟨_, -, hW'⟩ := bind_ok.1 hW'
  obtain ⟨g1, g2, g3⟩ := base_fields hb
  cases hW'
  have harr : ∀ l ∈ cov :: refs [inputsCov, noise, sensor], l < h.arrays.next := by
    intro l hl
    rcases List.mem_cons.1 hl with rfl | hl
    · exact hc
    · exact ho _ (refs_mem hl) l rfl
  refine ⟨rfl, ⟨rfl, rfl, rfl⟩, ⟨⟨?_, ?_⟩, ⟨?_, ?_⟩, ⟨?_, ?_⟩, ⟨?_, ?_⟩, ⟨?_, ?_⟩⟩, ⟨?_, ?_, ?_, ?_, ?_, ?_, ?_, ?_, ?_, ?_⟩, ?_⟩
  · simp [JointRefs.owned, Store.copy, Store.alloc]
  · simp [JointRefs.owned, Store.copy, Store.alloc, Caller.asohs] <;> omega
  · simp [JointRefs.owned, Store.copy, Store.alloc]
  · simp [JointRefs.owned, Store.copy, Store.alloc, Caller.containers, Caller.mine] <;> omega
  · simp [JointRefs.owned, Store.alloc]
  · simp
  · simp [JointRefs.owned, Store.alloc]
  · simp
  · simp [JointRefs.owned, Store.alloc]
  · intro l hl hm
    have h1 := harr l hm
    have h2 : l = h.arrays.next ∨ l = h.arrays.next + 1 := by simpa [JointRefs.owned, Store.alloc] using hl
    omega
  · simp [Store.copy, Store.alloc] <;> omega
  · simp [Store.copy, Store.alloc] <;> omega
  · simp [Store.copy, Store.alloc, Caller.mine] <;> omega
  · simpa [Caller.mine] using hne
  · simp [Store.copy, Store.alloc] <;> omega
  · simp [Store.copy, Store.alloc, Caller.mine] <;> omega
  · simp
  · simp
  · simp
  · intro l hl
    have := harr l hl
    simp [Store.alloc] <;> omega
  · have n1 : asoh ≠ h.asohs.next := by omega
    have n2 : transients ≠ h.containers.next := by omega
    have n3 : inputs ≠ h.containers.next := by omega
    have n4 : transients ≠ h.containers.next + 1 := by omega
    have n5 : inputs ≠ h.containers.next + 1 := by omega
    simp only [f1] at f3 f4 f5
    simp only [g1, g2, g3] at f3 f4 f5
    simp [JointRefs.view, putJoint, Store.copy, Store.alloc, n1, n2, n3, n4, n5, ← f3, ← f4, ← f5]

/-- C143.  A joint estimator built from the caller's objects (which are different objects) returns to every program of the caller what an estimator
returns whose wrapper is given the values these objects have at the time of the call: changing anything else has no effect. -/
theorem C143_joint_follows {w : World JointRefs}
    (hstart : startJoint h cell names deg hiddenConv controlConv outputConv asoh transients inputs cov inputsCov noise sensor tune = .ok w)
    (ha : asoh < h.asohs.next) (hx : transients < h.containers.next) (hu : inputs < h.containers.next) (hne : transients ≠ inputs)
    (hc : cov < h.arrays.next) (ho : ∀ o ∈ [inputsCov, noise, sensor], ∀ l, o = some l → l < h.arrays.next) :
    ∃ W v, JointWrapper.make cell (h.asohs.val asoh) (h.containers.val transients) (h.containers.val inputs) names deg hiddenConv controlConv
        outputConv = .ok W ∧
      Joint.fromWrapper W (.inl (h.arrays.val cov)) (inputsCov.map h.arrays.val) (noise.map h.arrays.val) none none (sensor.map h.arrays.val) tune
        = .ok v ∧
      ∀ svd ops, (exec (joint svd) w ops).map (·.seen) =
        following (callJoint svd) putJoint v (calls ⟨h.asohs.val asoh, h.containers.val transients, h.containers.val inputs⟩ [] ops) := by
  obtain ⟨W, v, h1, h2, h3, h4⟩ := startJoint_agree hstart ha hx hu hne hc ho
  refine ⟨W, v, h1, h2, fun svd ops => ?_⟩
  rw [exec_following (joint_faithful svd) _ h4, h3]
  rcases following (callJoint svd) putJoint v _ with e | r <;> rfl

end

section
variable {h : Heap} {cell : Cell} {names : Option (List Name)} {deg : Degradation}
  {hiddenConv controlConv outputConv hiddenConvA controlConvA outputConvA : Operator}
  {asoh transients inputs covT covA : Nat} {inputsCov noiseT noiseA sensor : Option Nat} {tuneT tuneA : Tuning}

theorem startDual_agree {w : World DualRefs}
    (hstart : startDual h cell names deg hiddenConv controlConv outputConv hiddenConvA controlConvA outputConvA asoh transients inputs covT covA
      inputsCov noiseT noiseA sensor tuneT tuneA = .ok w)
    (ha : asoh < h.asohs.next) (hx : transients < h.containers.next) (hu : inputs < h.containers.next) (hne : transients ≠ inputs)
    (hc : covT < h.arrays.next) (hc' : covA < h.arrays.next)
    (ho : ∀ o ∈ [inputsCov, noiseT, noiseA, sensor], ∀ l, o = some l → l < h.arrays.next) :
    ∃ cw aw v, CellWrapper.make cell (h.asohs.val asoh) (h.containers.val transients) (h.containers.val inputs) hiddenConv controlConv outputConv
        = .ok cw ∧
      DegradationWrapper.make cell (h.asohs.val asoh) (h.containers.val transients) (h.containers.val inputs) names deg hiddenConvA controlConvA
        outputConvA = .ok aw ∧
      Dual.fromWrappers cw aw (h.arrays.val covT) (h.arrays.val covA) (inputsCov.map h.arrays.val) (noiseT.map h.arrays.val)
        (noiseA.map h.arrays.val) (sensor.map h.arrays.val) tuneT tuneA = .ok v ∧
      w.seen = [] ∧ Agree (fun h e => blank (DualRefs.view h e)) (fun e t => blank (putDual e t)) DualRefs.owned DualRefs.linked w v
        ⟨h.asohs.val asoh, h.containers.val transients, h.containers.val inputs⟩ [] := by
  unfold startDual at hstart
  obtain ⟨cw, hcw, hstart⟩ := bind_ok.1 hstart
  obtain ⟨aw, haw, hstart⟩ := bind_ok.1 hstart
  obtain ⟨v, hv, hstart⟩ := bind_ok.1 hstart
  refine ⟨cw, aw, v, hcw, haw, hv, ?_⟩
  cases hstart
  obtain ⟨_, _, _, _, _, _, -, -, -, -, -, -, -, -, f1, f2, f3, f4, f5, f6, f7⟩ := Dual.fromWrappers_ok hv
  obtain ⟨-, i1, i2, i3, -⟩ := Online.make_ok f7
  obtain ⟨b, hb, hcw⟩ := bind_ok.1 hcw
  obtain ⟨_, -, hcw⟩ := bind_ok.1 hcw
  obtain ⟨g1, g2, g3⟩ := base_fields hb
  obtain ⟨b', hb', haw⟩ := bind_ok.1 haw
  obtain ⟨_, -, haw⟩ := bind_ok.1 haw
  obtain ⟨_, -, haw⟩ := bind_ok.1 haw
  obtain ⟨k1, k2, k3⟩ := base_fields hb'
  cases hcw
  cases haw
  have harr : ∀ l ∈ covT :: covA :: refs [inputsCov, noiseT, noiseA, sensor], l < h.arrays.next := by
    intro l hl
    rcases List.mem_cons.1 hl with rfl | hl
    · exact hc
    rcases List.mem_cons.1 hl with rfl | hl
    · exact hc'
    · exact ho _ (refs_mem hl) l rfl
  have n1 : asoh ≠ h.asohs.next := by omega
  have n2 : transients ≠ h.containers.next := by omega
  have n3 : inputs ≠ h.containers.next := by omega
  have n4 : transients ≠ h.containers.next + 1 := by omega
  have n5 : inputs ≠ h.containers.next + 1 := by omega
  have n6 : transients ≠ h.containers.next + 1 + 1 := by omega
  have n7 : inputs ≠ h.containers.next + 1 + 1 := by omega
  refine ⟨rfl, ⟨⟨rfl, rfl⟩, rfl, rfl⟩, ⟨⟨?_, ?_⟩, ⟨?_, ?_⟩, ⟨?_, ?_⟩, ⟨?_, ?_⟩, ⟨?_, ?_⟩⟩, ⟨?_, ?_, ?_, ?_, ?_, ?_, ?_, ?_, ?_, ?_⟩, ?_⟩
  · simp [DualRefs.owned, Store.copy, Store.alloc]
  · simp [DualRefs.owned, Store.copy, Store.alloc, Caller.asohs] <;> omega
  · simp [DualRefs.owned, Store.copy, Store.alloc] <;> omega
  · simp [DualRefs.owned, Store.copy, Store.alloc, Caller.containers, Caller.mine] <;> omega
  · simp [DualRefs.owned, Store.alloc] <;> omega
  · simp
  · simp [DualRefs.owned, Store.alloc] <;> omega
  · simp
  · simp [DualRefs.owned, Store.alloc] <;> omega
  · intro l hl hm
    have h1 := harr l hm
    have h2 : l = h.arrays.next ∨ l = h.arrays.next + 1 ∨ l = h.arrays.next + 1 + 1 ∨ l = h.arrays.next + 1 + 1 + 1 := by
      simpa [DualRefs.owned, Store.alloc] using hl
    omega
  · simp [Store.copy, Store.alloc, n1, n2, n3, n4, n5, n6, n7] <;> omega
  · simp [Store.copy, Store.alloc, n1, n2, n3, n4, n5, n6, n7] <;> omega
  · simp [Store.copy, Store.alloc, Caller.mine, n1, n2, n3, n4, n5, n6, n7] <;> omega
  · simpa [Caller.mine] using hne
  · simp [Store.copy, Store.alloc, n1, n2, n3, n4, n5, n6, n7] <;> omega
  · simp [Store.copy, Store.alloc, Caller.mine, n1, n2, n3, n4, n5, n6, n7] <;> omega
  · simp
  · simp
  · simp
  · intro l hl
    have := harr l hl
    simp [Store.alloc] <;> omega
  · simp only [g1, g2, g3, k1, k2, k3] at i1 i2 i3 f6
    have e1 : v.asoh.mem.2 = h.containers.val inputs := by rw [f6]
    simp [DualRefs.view, putDual, blank, Store.copy, Store.alloc, n1, n2, n3, n4, n5, n6, n7, ← i1, ← i2, ← i3, e1]
    refine ⟨?_, ?_, fun e => absurd e (by omega)⟩
    · rw [if_neg (by omega)]
    · rw [if_neg (by omega), if_neg (by omega)]

/-- C143.  A dual estimator built from the caller's objects returns to every program of the caller what an estimator returns whose wrappers are given
the values these objects have at the time of the call. -/
theorem C143_dual_follows {w : World DualRefs}
    (hstart : startDual h cell names deg hiddenConv controlConv outputConv hiddenConvA controlConvA outputConvA asoh transients inputs covT covA
      inputsCov noiseT noiseA sensor tuneT tuneA = .ok w)
    (ha : asoh < h.asohs.next) (hx : transients < h.containers.next) (hu : inputs < h.containers.next) (hne : transients ≠ inputs)
    (hc : covT < h.arrays.next) (hc' : covA < h.arrays.next)
    (ho : ∀ o ∈ [inputsCov, noiseT, noiseA, sensor], ∀ l, o = some l → l < h.arrays.next) :
    ∃ cw aw v, CellWrapper.make cell (h.asohs.val asoh) (h.containers.val transients) (h.containers.val inputs) hiddenConv controlConv outputConv
        = .ok cw ∧
      DegradationWrapper.make cell (h.asohs.val asoh) (h.containers.val transients) (h.containers.val inputs) names deg hiddenConvA controlConvA
        outputConvA = .ok aw ∧
      Dual.fromWrappers cw aw (h.arrays.val covT) (h.arrays.val covA) (inputsCov.map h.arrays.val) (noiseT.map h.arrays.val)
        (noiseA.map h.arrays.val) (sensor.map h.arrays.val) tuneT tuneA = .ok v ∧
      ∀ svd ops, (exec (dual svd) w ops).map (·.seen) =
        following (callDual svd) putDual v (calls ⟨h.asohs.val asoh, h.containers.val transients, h.containers.val inputs⟩ [] ops) := by
  obtain ⟨cw, aw, v, h1, h2, h3, h4, h5⟩ := startDual_agree hstart ha hx hu hne hc hc' ho
  refine ⟨cw, aw, v, h1, h2, h3, fun svd ops => ?_⟩
  rw [exec_following (dual_faithful svd) _ h5, h4, following_blank svd _ rfl]
  rcases following (callDual svd) putDual v _ with e | r <;> rfl

end

/-! ## Changes that have no effect -/

theorem following_undisturbed {V : Type} {call : V → Call → Except Err (V × Result)} {put : V → Templates → V} {I : V → Prop} {P : Templates → Prop}
    (hput : ∀ v t t', put (put v t) t' = put v t')
    (hkey : ∀ v t c, I v → P t → call (put v t) c = (call v c).map fun r => (put r.1 t, r.2))
    (hI : ∀ v c r, I v → call v c = .ok r → I r.1) : ∀ (cs : List (Templates × Call)) {v v' : V}, I v → (∀ t, put v' t = put v t) →
      (∀ p ∈ cs, P p.1) → following call put v' cs = Spec.undisturbed call v (cs.map (·.2))
  | [], _, _, _, _, _ => rfl
  | (t, c) :: cs, v, v', hv, he, hP => by
    rw [List.map_cons, following, Spec.undisturbed, he, hkey v t c hv (hP _ List.mem_cons_self)]
    rcases hr : call v c with e | r
    · rfl
    · show (do let rs ← following call put (put r.1 t) cs; return r.2 :: rs) = (do let rs ← Spec.undisturbed call r.1 (cs.map (·.2)); return r.2 :: rs)
      rw [following_undisturbed hput hkey hI cs (hI v c r hv hr) (fun t' => hput _ _ _) fun p hp => hP p (List.mem_cons_of_mem _ hp)]

/-- Templates with other values of what is estimated. -/
structure Near (names : List Name) (t₀ t : Templates) : Prop where
  asoh : t.asoh = t₀.asoh ∨ ∃ v : List ℝ, t₀.asoh.makeCopy (.d1 v) (some names) = .ok t.asoh
  transients : SameLayout t.transients t₀.transients
  inputs : SameLayout t.inputs t₀.inputs

theorem calls_near {names : List Name} {t₀ : Templates} : ∀ (ops : List Op) (t : Templates) (vals : List (Container ℝ)), Near names t₀ t →
    (∀ op ∈ ops, Harmless names t₀ op) → ∀ p ∈ calls t vals ops, Near names t₀ p.1
  | [], _, _, _, _ => by simp [calls]
  | op :: ops, t, vals, ht, hop => by
    have ih := fun t' vals' ht' => calls_near ops t' vals' ht' fun op h => hop op (List.mem_cons_of_mem _ h)
    have h0 := hop op List.mem_cons_self
    cases op with
    | make v => exact ih _ _ ht
    | setMine k v =>
      cases k with
      | zero => exact ih _ _ ⟨ht.asoh, ht.transients, h0⟩
      | succ k => exact ih _ _ ht
    | setAsoh m => exact ih _ _ ⟨.inr h0, ht.transients, ht.inputs⟩
    | setTransients v => exact ih _ _ ⟨ht.asoh, h0, ht.inputs⟩
    | setArray => exact ih _ _ ht
    | setGotTransients => exact ih _ _ ht
    | setGotAsoh => exact ih _ _ ht
    | setGotGaussian => exact ih _ _ ht
    | step i j =>
      intro p hp
      rw [calls] at hp
      split at hp
      · rcases List.mem_cons.1 hp with rfl | hp
        · exact ht
        · exact ih _ _ ht p hp
      · exact ih _ _ ht p hp
    | estimated =>
      intro p hp
      rcases List.mem_cons.1 hp with rfl | hp
      · exact ht
      · exact ih _ _ ht p hp
    | state =>
      intro p hp
      rcases List.mem_cons.1 hp with rfl | hp
      · exact ht
      · exact ih _ _ ht p hp

theorem near_override {names : List Name} {t₀ t : Templates} (h : Near names t₀ t) (hw : t₀.asoh.WF) (hup : ∀ n ∈ names, n ∈ t₀.asoh.updatableNames)
    (hnd : names.Nodup) (v : Vals ℝ) : t.asoh.makeCopy v (some names) = t₀.asoh.makeCopy v (some names) := by
  rcases h.asoh with e | ⟨v', e⟩
  · rw [e]
  · exact makeCopy_override hw hup hnd e v

section
variable {W : JointWrapper} {t : Templates}

theorem near_joint_inputs (hw : W.asoh.WF) (hup : ∀ n ∈ W.names, n ∈ W.asoh.updatableNames) (hnd : W.names.Nodup)
    (ht : Near W.names ⟨W.asoh, W.transients, W.inputs⟩ t) :
    JointWrapper.createInputs { W with asoh := t.asoh, transients := t.transients, inputs := t.inputs } = W.createInputs := by
  funext X
  unfold JointWrapper.createInputs
  refine congrArg _ (funext fun j => ?_)
  show (do
    let asoh ← t.asoh.makeCopy (.d2 (j.toArr2.cols W.nTransients j.toArr2.ncol)) (some W.names)
    return (asoh, t.transients.makeCopy (.d2 (j.toArr2.cols 0 W.nTransients))) : Except Err (HV ℝ × Container ℝ)) = _
  rw [near_override ht hw hup hnd, makeCopy_layout ht.transients]

theorem near_toInputs {b : BaseWrapper} {a : HV ℝ} {x u : Container ℝ} (h : SameLayout u b.inputs) :
    BaseWrapper.toInputs { b with asoh := a, transients := x, inputs := u } = b.toInputs := by
  funext v
  unfold BaseWrapper.toInputs
  refine congrArg _ (funext fun j => ?_)
  show pure (u.makeCopy _) = _
  rw [makeCopy_layout h]

theorem near_joint_model (hw : W.asoh.WF) (hup : ∀ n ∈ W.names, n ∈ W.asoh.updatableNames) (hnd : W.names.Nodup)
    (ht : Near W.names ⟨W.asoh, W.transients, W.inputs⟩ t) :
    JointWrapper.toWrapper { W with asoh := t.asoh, transients := t.transients, inputs := t.inputs } = W.toWrapper := by
  have e := near_joint_inputs hw hup hnd ht
  have e0 : BaseWrapper.toInputs { W.toBaseWrapper with asoh := t.asoh, transients := t.transients, inputs := t.inputs } = W.toInputs :=
    near_toInputs ht.inputs
  have e1 : JointWrapper.update { W with asoh := t.asoh, transients := t.transients, inputs := t.inputs } = W.update := by
    funext X u u'
    unfold JointWrapper.update
    rw [e, e0]
  have e2 : JointWrapper.predict { W with asoh := t.asoh, transients := t.transients, inputs := t.inputs } = W.predict := by
    funext X u
    unfold JointWrapper.predict
    rw [e, e0]
    rfl
  unfold JointWrapper.toWrapper
  rw [e1, e2]

theorem joint_put (hw : W.asoh.WF) (hup : ∀ n ∈ W.names, n ∈ W.asoh.updatableNames) (hnd : W.names.Nodup)
    (ht : Near W.names ⟨W.asoh, W.transients, W.inputs⟩ t) {v : Joint} (hv : v.wrapper = W) (hm : v.filter.model = W.toWrapper) :
    putJoint v t = { v with wrapper := { W with asoh := t.asoh, transients := t.transients, inputs := t.inputs } } := by
  unfold putJoint
  simp only [hv, near_joint_model hw hup hnd ht, ← hm]

theorem joint_kept {svd : Mat → Vec × Mat} {v : Joint} {c : Call} {r : Joint × Result} (hv : v.wrapper = W)
    (hm : v.filter.model = W.toWrapper) (h : callJoint svd v c = .ok r) : r.1.wrapper = W ∧ r.1.filter.model = W.toWrapper := by
  cases c with
  | step u y =>
    obtain ⟨q, hq, h⟩ := bind_ok.1 h
    cases h
    obtain ⟨hid, ctl, e⟩ := joint_step_rest hq
    show q.1.wrapper = W ∧ q.1.filter.model = W.toWrapper
    rw [e]
    exact ⟨hv, hm⟩
  | estimated =>
    obtain ⟨q, hq, h⟩ := bind_ok.1 h
    cases h
    exact ⟨hv, hm⟩
  | state =>
    cases h
    exact ⟨hv, hm⟩

theorem near_joint_call (hw : W.asoh.WF) (hup : ∀ n ∈ W.names, n ∈ W.asoh.updatableNames) (hnd : W.names.Nodup)
    (ht : Near W.names ⟨W.asoh, W.transients, W.inputs⟩ t) (svd : Mat → Vec × Mat) {v : Joint} (hv : v.wrapper = W)
    (hm : v.filter.model = W.toWrapper) (c : Call) :
    callJoint svd (putJoint v t) c = (callJoint svd v c).map fun r => (putJoint r.1 t, r.2) := by
  have key : callJoint svd (putJoint v t) c = (callJoint svd v c).map fun r =>
      ({ r.1 with wrapper := { W with asoh := t.asoh, transients := t.transients, inputs := t.inputs } }, r.2) := by
    rw [joint_put hw hup hnd ht hv hm]
    obtain ⟨base, wr, f⟩ := v
    cases (show wr = W from hv)
    cases c with
    | step u y =>
      simp only [callJoint, Joint.step]
      rcases convertVals u none with e | u1
      · rfl
      rcases convertVals y none with e | y1
      · rfl
      simp only [ok_bind]
      rcases u1.convert W.controlConv true with e | u2
      · rfl
      simp only [ok_bind]
      rcases y1.convert W.outputConv true with e | y2
      · rfl
      simp only [ok_bind]
      rcases f.step svd u2 y2 with e | r
      · rfl
      simp only [ok_bind]
      rcases r.2.1.convert W.hiddenConv with e | r1
      · rfl
      simp only [ok_bind]
      rcases r.2.2.convert W.outputConv with e | r2
      · rfl
      · rfl
    | estimated =>
      simp only [callJoint, Joint.getEstimatedState, Joint.state, near_joint_inputs hw hup hnd ht]
      rcases W.createInputs (.ofRow f.hidden.mean) with e | r
      · rfl
      · rfl
    | state => rfl
  rw [key]
  rcases hr : callJoint svd v c with e | r
  · rfl
  · obtain ⟨k1, k2⟩ := joint_kept hv hm hr
    show Except.ok (_, _) = Except.ok (_, _)
    rw [joint_put hw hup hnd ht k1 k2]

end

section
variable {cw : CellWrapper} {aw : DegradationWrapper} {t t₀ : Templates}

theorem near_cell_model (hx : SameLayout t.transients cw.transients) (hu : SameLayout t.inputs cw.inputs) :
    CellWrapper.toWrapper { cw with transients := t.transients, inputs := t.inputs } = cw.toWrapper := by
  have e0 : BaseWrapper.toInputs { cw.toBaseWrapper with transients := t.transients, inputs := t.inputs } = cw.toInputs := near_toInputs hu
  have e : t.transients.makeCopy = cw.transients.makeCopy := funext fun v => makeCopy_layout hx v
  have e1 : CellWrapper.update { cw with transients := t.transients, inputs := t.inputs } = cw.update := by
    funext a X u u'
    unfold CellWrapper.update
    rw [e0, e]
  have e2 : CellWrapper.predict { cw with transients := t.transients, inputs := t.inputs } = cw.predict := by
    funext a X u
    unfold CellWrapper.predict
    rw [e0, e]
    rfl
  unfold CellWrapper.toWrapper
  rw [e1, e2]

theorem near_deg_model (hw : aw.asoh.WF) (hup : ∀ n ∈ aw.names, n ∈ aw.asoh.updatableNames) (hnd : aw.names.Nodup) {x : Container ℝ}
    (ht : Near aw.names ⟨aw.asoh, x, aw.inputs⟩ t) :
    DegradationWrapper.toWrapper { aw with asoh := t.asoh, inputs := t.inputs } = aw.toWrapper := by
  have e0 : BaseWrapper.toInputs { aw.toBaseWrapper with asoh := t.asoh, inputs := t.inputs } = aw.toInputs := near_toInputs ht.inputs
  have e : DegradationWrapper.toAsoh { aw with asoh := t.asoh, inputs := t.inputs } = aw.toAsoh := by
    funext X
    unfold DegradationWrapper.toAsoh
    refine congrArg _ (funext fun j => ?_)
    show t.asoh.makeCopy _ (some aw.names) = _
    rw [near_override ht hw hup hnd]
  have e1 : DegradationWrapper.update { aw with asoh := t.asoh, inputs := t.inputs } = aw.update := by
    funext a X u u'
    unfold DegradationWrapper.update
    rw [e0, e]
  have e2 : DegradationWrapper.predict { aw with asoh := t.asoh, inputs := t.inputs } = aw.predict := by
    funext a b X u
    unfold DegradationWrapper.predict
    rw [e0, e]
    rfl
  unfold DegradationWrapper.toWrapper
  rw [e1, e2]

/-- The estimator is made of these wrappers. -/
structure MadeOf (cw : CellWrapper) (aw : DegradationWrapper) (v : Dual) : Prop where
  cellW : v.cellW = cw
  asohW : v.asohW = aw
  trans : v.trans.model = cw.toWrapper
  asoh : v.asoh.model = aw.toWrapper

theorem dual_put (hw : aw.asoh.WF) (hup : ∀ n ∈ aw.names, n ∈ aw.asoh.updatableNames) (hnd : aw.names.Nodup) (hi : cw.inputs = aw.inputs)
    (ht : Near aw.names ⟨aw.asoh, cw.transients, aw.inputs⟩ t) {v : Dual} (hv : MadeOf cw aw v) :
    putDual v t = { v with cellW := { cw with transients := t.transients, inputs := t.inputs }
                           asohW := { aw with asoh := t.asoh, inputs := t.inputs } } := by
  unfold putDual
  simp only [hv.cellW, hv.asohW, near_cell_model ht.transients (hi ▸ ht.inputs), near_deg_model hw hup hnd ht, ← hv.trans, ← hv.asoh]

theorem dual_kept {svd : Mat → Vec × Mat} {v : Dual} {c : Call} {r : Dual × Result} (hv : MadeOf cw aw v)
    (h : callDual svd v c = .ok r) : MadeOf cw aw r.1 := by
  cases c with
  | step u y =>
    obtain ⟨q, hq, h⟩ := bind_ok.1 h
    cases h
    obtain ⟨_, _, _, _, _, _, e⟩ := dual_step_rest hq
    show MadeOf cw aw q.1
    rw [e]
    exact ⟨hv.cellW, hv.asohW, hv.trans, hv.asoh⟩
  | estimated =>
    obtain ⟨q, hq, h⟩ := bind_ok.1 h
    cases h
    exact hv
  | state =>
    obtain ⟨q, hq, h⟩ := bind_ok.1 h
    cases h
    exact hv

theorem near_dual_call (hw : aw.asoh.WF) (hup : ∀ n ∈ aw.names, n ∈ aw.asoh.updatableNames) (hnd : aw.names.Nodup) (hi : cw.inputs = aw.inputs)
    (ht : Near aw.names ⟨aw.asoh, cw.transients, aw.inputs⟩ t) (svd : Mat → Vec × Mat) {v : Dual} (hv : MadeOf cw aw v) (c : Call) :
    callDual svd (putDual v t) c = (callDual svd v c).map fun r => (putDual r.1 t, r.2) := by
  have key : callDual svd (putDual v t) c = (callDual svd v c).map fun r =>
      ({ r.1 with cellW := { cw with transients := t.transients, inputs := t.inputs }
                  asohW := { aw with asoh := t.asoh, inputs := t.inputs } }, r.2) := by
    rw [dual_put hw hup hnd hi ht hv]
    obtain ⟨hc, ha, -, -⟩ := hv
    obtain ⟨base, cw', aw', f, g⟩ := v
    cases (show cw' = cw from hc)
    cases (show aw' = aw from ha)
    have e : Dual.getEstimatedState ⟨base, { cw with transients := t.transients, inputs := t.inputs }, { aw with asoh := t.asoh, inputs := t.inputs }, f, g⟩ =
        Dual.getEstimatedState ⟨base, cw, aw, f, g⟩ := rfl
    have e' : Dual.state ⟨base, { cw with transients := t.transients, inputs := t.inputs }, { aw with asoh := t.asoh, inputs := t.inputs }, f, g⟩ =
        Dual.state ⟨base, cw, aw, f, g⟩ := rfl
    cases c with
    | step u y =>
      simp only [callDual, Dual.step, e]
      rcases convertVals u none with e | u1
      · rfl
      rcases convertVals y none with e | y1
      · rfl
      simp only [ok_bind]
      rcases Dual.getEstimatedState ⟨base, cw, aw, f, g⟩ with e | post
      · rfl
      simp only [ok_bind]
      rcases u1.convert cw.controlConv true with e | u2
      · rfl
      simp only [ok_bind]
      rcases y1.convert cw.outputConv true with e | y2
      · rfl
      simp only [ok_bind]
      rcases Ukf.step svd { f with mem := post.2 } u2 y2 with e | r
      · rfl
      simp only [ok_bind]
      rcases u1.convert aw.controlConv true with e | u3
      · rfl
      simp only [ok_bind]
      rcases y1.convert aw.outputConv true with e | y3
      · rfl
      simp only [ok_bind]
      rcases Ukf.step svd { g with mem := (post.1, g.mem.2) } u3 y3 with e | s
      · rfl
      simp only [ok_bind]
      rcases r.2.1.convert cw.hiddenConv with e | r1
      · rfl
      simp only [ok_bind]
      rcases s.2.1.convert aw.hiddenConv with e | s1
      · rfl
      simp only [ok_bind]
      rcases r.2.2.convert cw.outputConv with e | r2
      · rfl
      simp only [ok_bind]
      rcases s.2.2.convert aw.outputConv with e | s2
      · rfl
      simp only [ok_bind]
      rcases r1.combineWith [.dist s1] with e | z
      · rfl
      · rfl
    | estimated =>
      simp only [callDual, e]
      rcases Dual.getEstimatedState ⟨base, cw, aw, f, g⟩ with e | r
      · rfl
      · rfl
    | state =>
      simp only [callDual, e']
      rcases Dual.state ⟨base, cw, aw, f, g⟩ with e | r
      · rfl
      · rfl
  rw [key]
  rcases hr : callDual svd v c with e | r
  · rfl
  · show Except.ok (_, _) = Except.ok (_, _)
    rw [dual_put hw hup hnd hi ht (dual_kept hv hr)]

end

/-! ## C143 -/

section
variable {h : Heap} {cell : Cell} {names : Option (List Name)} {deg : Degradation} {hiddenConv controlConv outputConv : Operator}
  {asoh transients inputs cov : Nat} {inputsCov noise sensor : Option Nat} {tune : Tuning}

theorem joint_undisturbed {A : HV ℝ} {x u : Container ℝ} {cov : Mat} {inputsCov noise sensor : Option Mat} {W : JointWrapper} {v : Joint}
    (h1 : JointWrapper.make cell A x u names deg hiddenConv controlConv outputConv = .ok W)
    (h2 : Joint.fromWrapper W (.inl cov) inputsCov noise none none sensor tune = .ok v) {ns : List Name}
    (hns : names.getD A.updatableNames = ns) (hwf : A.WF) (hup : ∀ n ∈ ns, n ∈ A.updatableNames) (hnd : ns.Nodup) (svd : Mat → Vec × Mat)
    (ops : List Op) (hops : ∀ op ∈ ops, Harmless ns ⟨A, x, u⟩ op) :
    following (callJoint svd) putJoint v (calls ⟨A, x, u⟩ [] ops) = Spec.undisturbed (callJoint svd) v ((calls ⟨A, x, u⟩ [] ops).map (·.2)) := by
  obtain ⟨f1, f2, -⟩ := joint_fields h2
  obtain ⟨b, hb, hW⟩ := bind_ok.1 h1
  obtain ⟨_, -, hW⟩ := bind_ok.1 hW
  obtain ⟨_, -, hW⟩ := bind_ok.1 hW
  obtain ⟨g1, g2, g3⟩ := base_fields hb
  obtain ⟨e1, e2, e3, e4⟩ : W.asoh = A ∧ W.transients = x ∧ W.inputs = u ∧ W.names = ns := by
    rw [← Except.ok.inj hW]
    exact ⟨g1, g2, g3, hns⟩
  have hn := calls_near (names := ns) ops _ [] ⟨.inl rfl, rfl, rfl⟩ hops
  clear hW hb h1 hns hops
  subst e1 e2 e3 e4
  have k1 : ∀ v t c, (v.wrapper = W ∧ v.filter.model = W.toWrapper) → Near W.names ⟨W.asoh, W.transients, W.inputs⟩ t →
      callJoint svd (putJoint v t) c = (callJoint svd v c).map fun r => (putJoint r.1 t, r.2) :=
    fun v t c hv ht => near_joint_call hwf hup hnd ht svd hv.1 hv.2 c
  have k2 : ∀ v c r, (v.wrapper = W ∧ v.filter.model = W.toWrapper) → callJoint svd v c = .ok r →
      r.1.wrapper = W ∧ r.1.filter.model = W.toWrapper := fun v c r hv hr => joint_kept hv.1 hv.2 hr
  exact following_undisturbed (I := fun v => v.wrapper = W ∧ v.filter.model = W.toWrapper)
    (P := Near W.names ⟨W.asoh, W.transients, W.inputs⟩) (joint_faithful svd).put_put k1 k2 _ ⟨f1, f2⟩ (fun _ => rfl) hn

/-- C143, the part that holds, for joint estimation: whatever the caller does to its objects and to what it got back, as long as it changes nothing of
the state of health the estimator was built from but estimated values and keeps the layout of the other two objects, the estimator returns what one
returns that shares nothing with anybody.  (Missing: changes of other values of the state of health, see `C143_fixed_parameter_is_live`.) -/
theorem C143_joint_isolated_partial {w : World JointRefs}
    (hstart : startJoint h cell names deg hiddenConv controlConv outputConv asoh transients inputs cov inputsCov noise sensor tune = .ok w)
    (ha : asoh < h.asohs.next) (hx : transients < h.containers.next) (hu : inputs < h.containers.next) (hne : transients ≠ inputs)
    (hc : cov < h.arrays.next) (ho : ∀ o ∈ [inputsCov, noise, sensor], ∀ l, o = some l → l < h.arrays.next) {ns : List Name}
    (hns : names.getD (h.asohs.val asoh).updatableNames = ns) (hwf : (h.asohs.val asoh).WF) (hup : ∀ n ∈ ns, n ∈ (h.asohs.val asoh).updatableNames)
    (hnd : ns.Nodup) :
    ∃ W v, JointWrapper.make cell (h.asohs.val asoh) (h.containers.val transients) (h.containers.val inputs) names deg hiddenConv controlConv
        outputConv = .ok W ∧
      Joint.fromWrapper W (.inl (h.arrays.val cov)) (inputsCov.map h.arrays.val) (noise.map h.arrays.val) none none (sensor.map h.arrays.val) tune
        = .ok v ∧
      let t : Templates := ⟨h.asohs.val asoh, h.containers.val transients, h.containers.val inputs⟩
      ∀ svd ops, (∀ op ∈ ops, Harmless ns t op) →
        (exec (joint svd) w ops).map (·.seen) = Spec.undisturbed (callJoint svd) v ((calls t [] ops).map (·.2)) := by
  obtain ⟨W, v, h1, h2, h3⟩ := C143_joint_follows hstart ha hx hu hne hc ho
  refine ⟨W, v, h1, h2, fun svd ops hops => ?_⟩
  rw [h3]
  exact joint_undisturbed h1 h2 hns hwf hup hnd svd ops hops

end

section
variable {h : Heap} {cell : Cell} {names : Option (List Name)} {deg : Degradation}
  {hiddenConv controlConv outputConv hiddenConvA controlConvA outputConvA : Operator}
  {asoh transients inputs covT covA : Nat} {inputsCov noiseT noiseA sensor : Option Nat} {tuneT tuneA : Tuning}

theorem dual_undisturbed {A : HV ℝ} {x u : Container ℝ} {covT covA : Mat} {inputsCov noiseT noiseA sensor : Option Mat} {cw : CellWrapper}
    {aw : DegradationWrapper} {v : Dual} (h1 : CellWrapper.make cell A x u hiddenConv controlConv outputConv = .ok cw)
    (h1' : DegradationWrapper.make cell A x u names deg hiddenConvA controlConvA outputConvA = .ok aw)
    (h2 : Dual.fromWrappers cw aw covT covA inputsCov noiseT noiseA sensor tuneT tuneA = .ok v) {ns : List Name}
    (hns : names.getD A.updatableNames = ns) (hwf : A.WF) (hup : ∀ n ∈ ns, n ∈ A.updatableNames) (hnd : ns.Nodup) (svd : Mat → Vec × Mat)
    (ops : List Op) (hops : ∀ op ∈ ops, Harmless ns ⟨A, x, u⟩ op) :
    following (callDual svd) putDual v (calls ⟨A, x, u⟩ [] ops) = Spec.undisturbed (callDual svd) v ((calls ⟨A, x, u⟩ [] ops).map (·.2)) := by
  obtain ⟨_, _, _, _, _, _, -, -, -, -, -, -, -, -, f1, f2, f3, f4, -⟩ := Dual.fromWrappers_ok h2
  obtain ⟨b, hb, hW⟩ := bind_ok.1 h1
  obtain ⟨_, -, hW⟩ := bind_ok.1 hW
  obtain ⟨g1, g2, g3⟩ := base_fields hb
  obtain ⟨b', hb', hW'⟩ := bind_ok.1 h1'
  obtain ⟨_, -, hW'⟩ := bind_ok.1 hW'
  obtain ⟨_, -, hW'⟩ := bind_ok.1 hW'
  obtain ⟨k1, k2, k3⟩ := base_fields hb'
  obtain ⟨e2, e3⟩ : cw.transients = x ∧ cw.inputs = u := by
    rw [← Except.ok.inj hW]
    exact ⟨g2, g3⟩
  obtain ⟨e1, e4, e5⟩ : aw.asoh = A ∧ aw.inputs = u ∧ aw.names = ns := by
    rw [← Except.ok.inj hW']
    exact ⟨k1, k3, hns⟩
  have hn := calls_near (names := ns) ops _ [] ⟨.inl rfl, rfl, rfl⟩ hops
  clear hW hb h1 hW' hb' h1' hns hops
  subst e1 e2 e4 e5
  have k1 : ∀ v t c, MadeOf cw aw v → Near aw.names ⟨aw.asoh, cw.transients, aw.inputs⟩ t →
      callDual svd (putDual v t) c = (callDual svd v c).map fun r => (putDual r.1 t, r.2) :=
    fun v t c hv ht => near_dual_call hwf hup hnd e3 ht svd hv c
  have k2 : ∀ v c r, MadeOf cw aw v → callDual svd v c = .ok r → MadeOf cw aw r.1 := fun v c r hv hr => dual_kept hv hr
  have k0 : ∀ v t t', putDual (putDual v t) t' = putDual v t' := fun _ _ _ => rfl
  exact following_undisturbed (I := MadeOf cw aw) (P := Near aw.names ⟨aw.asoh, cw.transients, aw.inputs⟩) k0 k1 k2 _
    ⟨f1, f2, f3, f4⟩ (fun _ => rfl) hn

/-- C143, the part that holds, for dual estimation.  (Missing as for joint estimation.) -/
theorem C143_dual_isolated_partial {w : World DualRefs}
    (hstart : startDual h cell names deg hiddenConv controlConv outputConv hiddenConvA controlConvA outputConvA asoh transients inputs covT covA
      inputsCov noiseT noiseA sensor tuneT tuneA = .ok w)
    (ha : asoh < h.asohs.next) (hx : transients < h.containers.next) (hu : inputs < h.containers.next) (hne : transients ≠ inputs)
    (hc : covT < h.arrays.next) (hc' : covA < h.arrays.next)
    (ho : ∀ o ∈ [inputsCov, noiseT, noiseA, sensor], ∀ l, o = some l → l < h.arrays.next) {ns : List Name}
    (hns : names.getD (h.asohs.val asoh).updatableNames = ns) (hwf : (h.asohs.val asoh).WF) (hup : ∀ n ∈ ns, n ∈ (h.asohs.val asoh).updatableNames)
    (hnd : ns.Nodup) :
    ∃ cw aw v, CellWrapper.make cell (h.asohs.val asoh) (h.containers.val transients) (h.containers.val inputs) hiddenConv controlConv outputConv
        = .ok cw ∧
      DegradationWrapper.make cell (h.asohs.val asoh) (h.containers.val transients) (h.containers.val inputs) names deg hiddenConvA controlConvA
        outputConvA = .ok aw ∧
      Dual.fromWrappers cw aw (h.arrays.val covT) (h.arrays.val covA) (inputsCov.map h.arrays.val) (noiseT.map h.arrays.val)
        (noiseA.map h.arrays.val) (sensor.map h.arrays.val) tuneT tuneA = .ok v ∧
      let t : Templates := ⟨h.asohs.val asoh, h.containers.val transients, h.containers.val inputs⟩
      ∀ svd ops, (∀ op ∈ ops, Harmless ns t op) →
        (exec (dual svd) w ops).map (·.seen) = Spec.undisturbed (callDual svd) v ((calls t [] ops).map (·.2)) := by
  obtain ⟨cw, aw, v, h1, h2, h3, h4⟩ := C143_dual_follows hstart ha hx hu hne hc hc' ho
  refine ⟨cw, aw, v, h1, h2, h3, fun svd ops hops => ?_⟩
  rw [h4]
  exact dual_undisturbed h1 h2 h3 hns hwf hup hnd svd ops hops

end

end Verif.EstObjects
