import Verif.Model.Simulator
/-!
# Simulator history, evolution in pieces, no degradation (C39, C40, C43)
-/

namespace Verif
variable {I X A Y : Type}

/-! ## Specification -/

/-- Entries `k` and `k+1` of the histories are one step of the models apart. -/
def OneStep (m : CellModel I X A Y) (d : DegradationModel I X A Y) (h : History I X A Y) (k : Nat) : Prop :=
  ∃ i x a i' x' a' y',
    h.inputs[k]? = some i ∧ h.transients[k]? = some x ∧ h.asohs[k]? = some a ∧
    h.inputs[k + 1]? = some i' ∧ h.transients[k + 1]? = some x' ∧ h.asohs[k + 1]? = some a' ∧
    h.measurements[k + 1]? = some y' ∧
    m.update i i' x a = .ok x' ∧ m.output i' x' a = .ok y' ∧ d.update a i' x' y' = .ok a'

/-! ## Steps -/

namespace Simulator

theorem step_ok {s s' : Simulator I X A Y} {i : I} {x : X} {y : Y} (h : s.step i = (s', .ok (x, y))) :
    ∃ a, s.model.update s.input i s.transient s.asoh = .ok x ∧ s.model.output i x s.asoh = .ok y ∧
      s.degradation.update s.asoh i x y = .ok a ∧
      s' = ⟨s.model, s.degradation, a, x, i, y, s.history.map fun h => push h i x a y⟩ := by
  unfold step at h
  split at h
  · simp at h
  · next x' hx =>
    split at h
    · simp at h
    · next y' hy =>
      split at h
      · simp at h
      · next a ha =>
        simp only [Prod.mk.injEq, Except.ok.injEq] at h
        obtain ⟨h1, rfl, rfl⟩ := h
        exact ⟨a, hx, hy, ha, h1.symm⟩

theorem evolve_cons_ok {s s' : Simulator I X A Y} {i : I} {is : List I} {ys : List Y}
    (h : s.evolve (i :: is) = (s', .ok ys)) :
    ∃ s₁ x y zs, s.step i = (s₁, .ok (x, y)) ∧ s₁.evolve is = (s', .ok zs) ∧ ys = y :: zs := by
  rw [evolve] at h
  split at h
  · simp at h
  · next s₁ x y hs =>
    split at h
    · simp at h
    · next s₂ zs he =>
      simp only [Prod.mk.injEq, Except.ok.injEq] at h
      exact ⟨s₁, x, y, zs, hs, by rw [he, h.1], h.2.symm⟩

/-- The histories describe a run that ends in the present state of the simulator. -/
structure Faithful (s : Simulator I X A Y) (h : History I X A Y) (n : Nat) : Prop where
  li : h.inputs.length = n + 1
  lx : h.transients.length = n + 1
  la : h.asohs.length = n + 1
  ly : h.measurements.length = n + 1
  ei : h.inputs[n]? = some s.input
  ex : h.transients[n]? = some s.transient
  ea : h.asohs[n]? = some s.asoh
  ey : h.measurements[n]? = some s.measurement
  steps : ∀ k < n, OneStep s.model s.degradation h k

theorem oneStep_push {m : CellModel I X A Y} {d : DegradationModel I X A Y} {h : History I X A Y} {k : Nat} {i x a y}
    (hk : OneStep m d h k) : OneStep m d (push h i x a y) k := by
  obtain ⟨i0, x0, a0, i1, x1, a1, y1, h1, h2, h3, h4, h5, h6, h7, h8⟩ := hk
  have ap : ∀ {β : Type} (l : List β) (b v : β) (j : Nat), l[j]? = some v → (l ++ [b])[j]? = some v := by
    intro β l b v j hj
    rw [List.getElem?_append_left (List.getElem?_eq_some_iff.1 hj).1, hj]
  exact ⟨i0, x0, a0, i1, x1, a1, y1, ap _ _ _ _ h1, ap _ _ _ _ h2, ap _ _ _ _ h3, ap _ _ _ _ h4, ap _ _ _ _ h5,
    ap _ _ _ _ h6, ap _ _ _ _ h7, h8⟩

theorem faithful_step {s s' : Simulator I X A Y} {h : History I X A Y} {n : Nat} {i x y} (hf : Faithful s h n)
    (hs : s.step i = (s', .ok (x, y))) (hh : s.history = some h) :
    ∃ a, s'.history = some (push h i x a y) ∧ Faithful s' (push h i x a y) (n + 1) ∧ s'.model = s.model ∧
      s'.degradation = s.degradation := by
  obtain ⟨a, hx, hy, ha, rfl⟩ := step_ok hs
  refine ⟨a, by simp [hh], ?_, rfl, rfl⟩
  have last : ∀ {β : Type} (l : List β) (b : β), l.length = n + 1 → (l ++ [b])[n + 1]? = some b := by
    intro β l b hl
    rw [← hl]; simp
  have keep : ∀ {β : Type} (l : List β) (b : β), l.length = n + 1 → (l ++ [b])[n]? = l[n]? := by
    intro β l b hl
    rw [List.getElem?_append_left (by omega)]
  refine ⟨by simp [push, hf.li], by simp [push, hf.lx], by simp [push, hf.la], by simp [push, hf.ly],
    last _ _ hf.li, last _ _ hf.lx, last _ _ hf.la, last _ _ hf.ly, ?_⟩
  intro k hk
  rcases Nat.lt_succ_iff_lt_or_eq.1 hk with hk | rfl
  · exact oneStep_push (hf.steps k hk)
  · exact ⟨s.input, s.transient, s.asoh, i, x, a, y, (keep _ _ hf.li).trans hf.ei, (keep _ _ hf.lx).trans hf.ex,
      (keep _ _ hf.la).trans hf.ea, last _ _ hf.li, last _ _ hf.lx, last _ _ hf.la, last _ _ hf.ly, hx, hy, ha⟩

theorem faithful_evolve {s s' : Simulator I X A Y} {h : History I X A Y} {n : Nat} {is : List I} {ys : List Y}
    (hf : Faithful s h n) (hh : s.history = some h) (he : s.evolve is = (s', .ok ys)) :
    ∃ h', s'.history = some h' ∧ Faithful s' h' (n + is.length) ∧ s'.model = s.model ∧ s'.degradation = s.degradation ∧
      h'.inputs = h.inputs ++ is ∧ h'.measurements = h.measurements ++ ys ∧
      h'.transients[0]? = h.transients[0]? ∧ h'.asohs[0]? = h.asohs[0]? := by
  induction is generalizing s h n ys with
  | nil =>
    simp only [evolve, Prod.mk.injEq, Except.ok.injEq] at he
    obtain ⟨rfl, rfl⟩ := he
    exact ⟨h, hh, by simpa using hf, rfl, rfl, by simp, by simp, rfl, rfl⟩
  | cons i is ih =>
    obtain ⟨s₁, x, y, zs, hs, he', rfl⟩ := evolve_cons_ok he
    obtain ⟨a, hh₁, hf₁, hm, hd⟩ := faithful_step hf hs hh
    obtain ⟨h', hh', hf', hm', hd', hi, hy, hx0, ha0⟩ := ih hf₁ hh₁ he'
    have zero : ∀ {β : Type} (l : List β) (b : β), l.length = n + 1 → (l ++ [b])[0]? = l[0]? := by
      intro β l b hl
      rw [List.getElem?_append_left (by omega)]
    exact ⟨h', hh', by rw [List.length_cons, ← Nat.add_assoc, Nat.add_right_comm]; exact hf', hm'.trans hm, hd'.trans hd,
      by simp [hi, push], by simp [hy, push], hx0.trans (zero _ _ hf.lx), ha0.trans (zero _ _ hf.la)⟩

theorem faithful_init {m : CellModel I X A Y} {d : DegradationModel I X A Y} {a : A} {x : X} {i : I}
    {s : Simulator I X A Y} (h : init m d a x i true = .ok s) :
    ∃ y, m.output i x a = .ok y ∧ s = ⟨m, d, a, x, i, y, some ⟨[i], [x], [a], [y]⟩⟩ ∧
      Faithful s ⟨[i], [x], [a], [y]⟩ 0 := by
  unfold init at h
  split at h
  · simp at h
  · next y hy =>
    simp only [if_true, Except.ok.injEq] at h
    subst h
    exact ⟨y, hy, rfl, rfl, rfl, rfl, rfl, rfl, rfl, rfl, rfl, by simp⟩

end Simulator

/-! ## C39 -/

/-- C39: with `keep_history`, after any sequence of steps every history has one entry more than there were steps; the inputs are
the initial one followed by those given; entry 0 is the initial state with its own measurement; entries `k` and `k+1` are one
step of the models apart (transient updated under inputs `k`, `k+1` and state of health `k`; measurement of the new transient and
input under state of health `k`); the last entries are the simulator's present state; the measurements returned are those
recorded. -/
theorem C39_history_faithful (m : CellModel I X A Y) (d : DegradationModel I X A Y) (a₀ : A) (x₀ : X) (i₀ : I)
    (s₀ s : Simulator I X A Y) (inputs : List I) (ys : List Y)
    (hinit : Simulator.init m d a₀ x₀ i₀ true = .ok s₀) (hrun : s₀.evolve inputs = (s, .ok ys)) :
    ∃ h, s.history = some h ∧
      h.inputs.length = inputs.length + 1 ∧ h.transients.length = inputs.length + 1 ∧
      h.asohs.length = inputs.length + 1 ∧ h.measurements.length = inputs.length + 1 ∧
      h.inputs = i₀ :: inputs ∧ h.transients[0]? = some x₀ ∧ h.asohs[0]? = some a₀ ∧
      (∃ y₀, m.output i₀ x₀ a₀ = .ok y₀ ∧ h.measurements = y₀ :: ys) ∧
      (∀ k < inputs.length, OneStep m d h k) ∧
      h.inputs.getLast? = some s.input ∧ h.transients.getLast? = some s.transient ∧
      h.asohs.getLast? = some s.asoh ∧ h.measurements.getLast? = some s.measurement := by
  obtain ⟨y₀, hy₀, rfl, hf⟩ := Simulator.faithful_init hinit
  obtain ⟨h, hh, hF, hm, hd, hi, hy, hx0, ha0⟩ := Simulator.faithful_evolve hf rfl hrun
  simp only [Nat.zero_add] at hF
  have steps := hF.steps
  rw [hm, hd] at steps
  have last : ∀ {β : Type} (l : List β), l.length = inputs.length + 1 → l.getLast? = l[inputs.length]? := by
    intro β l hl
    rw [List.getLast?_eq_getElem?, hl, Nat.add_sub_cancel]
  exact ⟨h, hh, hF.li, hF.lx, hF.la, hF.ly, by simpa using hi, by simpa using hx0, by simpa using ha0,
    ⟨y₀, hy₀, by simpa using hy⟩, steps, (last _ hF.li).trans hF.ei, (last _ hF.lx).trans hF.ex,
    (last _ hF.la).trans hF.ea, (last _ hF.ly).trans hF.ey⟩

namespace SimulatorDemo

/-- A tank: the state grows by the input, the output is state plus health, each step costs one unit of health; the input 13
cannot be simulated. -/
def model : CellModel Int Int Int Int where
  update prev new x _ := if new = 13 then .error .valueError else .ok (x + prev + new)
  output new x a := .ok (x + new + a)

def wear : DegradationModel Int Int Int Int := ⟨fun a _ _ _ => .ok (a - 1)⟩

/-- The hypotheses of `C39_history_faithful` are met by a run of three steps. -/
example : ∃ s₀ s ys, Simulator.init model wear 100 0 1 true = .ok s₀ ∧ s₀.evolve [2, 3, 4] = (s, .ok ys) ∧
    ys = [105, 110, 117] ∧ s.asoh = 97 ∧ s.transient = 15 :=
  ⟨_, _, _, rfl, rfl, rfl, rfl, rfl⟩

end SimulatorDemo

/-! ## C40 -/

/-- The simulator without its history. -/
def Simulator.forget (s : Simulator I X A Y) : Simulator I X A Y := { s with history := none }

/-- C40: evolving over `a ++ b` is evolving over `a` and then over `b`: the same simulator results, with the measurements of
both in order; when a step raises in either piece, the same exception is raised and the simulator is the same. -/
theorem C40_evolve_append (s : Simulator I X A Y) (a b : List I) :
    s.evolve (a ++ b) =
      match s.evolve a with
      | (s₁, .error e) => (s₁, .error e)
      | (s₁, .ok ys) =>
        match s₁.evolve b with
        | (s₂, .error e) => (s₂, .error e)
        | (s₂, .ok zs) => (s₂, .ok (ys ++ zs)) := by
  induction a generalizing s with
  | nil =>
    simp only [List.nil_append, Simulator.evolve]
    rcases s.evolve b with ⟨s', _ | ys⟩ <;> rfl
  | cons i is ih =>
    simp only [List.cons_append, Simulator.evolve]
    rcases s.step i with ⟨s', _ | ⟨x, y⟩⟩
    · rfl
    · simp only [ih]
      rcases s'.evolve is with ⟨s₁, _ | ys⟩
      · rfl
      · simp only
        rcases s₁.evolve b with ⟨s₂, _ | zs⟩ <;> rfl

theorem Simulator.forget_step (s : Simulator I X A Y) (i : I) :
    s.forget.step i = ((s.step i).1.forget, (s.step i).2) := by
  unfold Simulator.step Simulator.forget
  simp only
  rcases s.model.update s.input i s.transient s.asoh with _ | x
  · rfl
  · simp only
    rcases s.model.output i x s.asoh with _ | y
    · rfl
    · simp only
      rcases s.degradation.update s.asoh i x y with _ | a <;> rfl

/-- C40: keeping the history is invisible: a simulator that keeps it and one that does not are created under the same conditions,
and over any inputs they return the same measurements (or raise the same exception) and end in the same state. -/
theorem C40_history_invisible (m : CellModel I X A Y) (d : DegradationModel I X A Y) (a : A) (x : X) (i : I) (inputs : List I) :
    (∀ e, Simulator.init m d a x i true = .error e ↔ Simulator.init m d a x i false = .error e) ∧
    ∀ s t, Simulator.init m d a x i true = .ok s → Simulator.init m d a x i false = .ok t →
      (s.evolve inputs).2 = (t.evolve inputs).2 ∧
      (t.evolve inputs).1 = { (s.evolve inputs).1 with history := none } := by
  have key : ∀ (s : Simulator I X A Y), s.forget.evolve inputs = ((s.evolve inputs).1.forget, (s.evolve inputs).2) := by
    induction inputs with
    | nil => intro s; rfl
    | cons j js ih =>
      intro s
      simp only [Simulator.evolve, Simulator.forget_step]
      rcases s.step j with ⟨s', _ | ⟨x, y⟩⟩
      · rfl
      · simp only [ih]
        rcases s'.evolve js with ⟨s₁, _ | ys⟩ <;> rfl
  constructor
  · intro e
    unfold Simulator.init
    rcases m.output i x a with _ | y <;> simp
  · intro s t hs ht
    unfold Simulator.init at hs ht
    rcases hy : m.output i x a with _ | y
    · simp [hy] at hs
    · simp only [hy, if_true, Except.ok.injEq] at hs
      simp only [hy, Bool.false_eq_true, if_false, Except.ok.injEq] at ht
      have e : t = s.forget := by rw [← hs, ← ht]; rfl
      rw [e, key]
      exact ⟨rfl, rfl⟩

/-- C40: a step that raises leaves the history as it was. -/
theorem C40_failed_step_keeps_history (s : Simulator I X A Y) (i : I) (e : Err) (h : (s.step i).2 = .error e) :
    (s.step i).1.history = s.history := by
  unfold Simulator.step at h ⊢
  rcases hx : s.model.update s.input i s.transient s.asoh with _ | x
  · rfl
  · simp only [hx] at h ⊢
    rcases hy : s.model.output i x s.asoh with _ | y
    · rfl
    · simp only [hy] at h ⊢
      rcases ha : s.degradation.update s.asoh i x y with _ | a
      · rfl
      · simp [ha] at h

/-- C40: when evolving fails, the inputs split into those that succeeded, the one that raised, and the rest; the history is that
of the successful ones alone. -/
theorem C40_failed_evolve_keeps_history (s : Simulator I X A Y) (inputs : List I) (e : Err)
    (h : (s.evolve inputs).2 = .error e) :
    ∃ done i rest s₁ ys, inputs = done ++ i :: rest ∧ s.evolve done = (s₁, .ok ys) ∧ (s₁.step i).2 = .error e ∧
      (s.evolve inputs).1.history = s₁.history := by
  induction inputs generalizing s with
  | nil => simp [Simulator.evolve] at h
  | cons i is ih =>
    rcases hs : s.step i with ⟨s', e' | ⟨x, y⟩⟩
    · simp only [Simulator.evolve, hs, Except.error.injEq] at h
      subst h
      refine ⟨[], i, is, s, [], rfl, rfl, by rw [hs], ?_⟩
      simp only [Simulator.evolve, hs]
      have := C40_failed_step_keeps_history s i e' (by rw [hs])
      rwa [hs] at this
    · have h' : (s'.evolve is).2 = .error e := by
        simp only [Simulator.evolve, hs] at h
        rcases hh : s'.evolve is with ⟨s₁, e' | ys⟩
        · simpa [hh] using h
        · simp [hh] at h
      obtain ⟨done, j, rest, s₁, ys, hi, he, hj, hhist⟩ := ih s' h'
      refine ⟨i :: done, j, rest, s₁, y :: ys, by rw [hi]; rfl, by simp only [Simulator.evolve, hs, he], hj, ?_⟩
      rw [← hhist]
      simp only [Simulator.evolve, hs]
      rcases s'.evolve is with ⟨s₂, _ | zs⟩ <;> rfl

/-- What C40 does not promise, and the code does not do: a failed step can leave the simulator in a new state (here the
transient state and the input of the step whose measurement could not be computed), so a caller who goes on after the exception
continues from there while the history has no such entry. -/
theorem C40_failed_step_may_advance_state :
    ∃ (s : Simulator Int Int Int Int) (i : Int) (e : Err), (s.step i).2 = .error e ∧ (s.step i).1.transient ≠ s.transient ∧
      (s.step i).1.history = s.history := by
  refine ⟨⟨⟨fun _ _ x _ => .ok (x + 1), fun _ _ _ => .error .valueError⟩, NoDegradation _ _ _ _, 0, 0, 0, 0, some ⟨[0], [0], [0], [0]⟩⟩,
    0, .valueError, rfl, ?_, rfl⟩
  simp [Simulator.step]

namespace SimulatorDemo

/-- Evolving in two pieces, and a run that fails at its third input. -/
example : ∃ s₀ s ys, Simulator.init model wear 100 0 1 true = .ok s₀ ∧ s₀.evolve ([2, 3] ++ [4]) = (s, .ok ys) :=
  ⟨_, _, _, rfl, rfl⟩

example : ∃ s₀, Simulator.init model wear 100 0 1 true = .ok s₀ ∧ (s₀.evolve [2, 3, 13, 4]).2 = .error .valueError :=
  ⟨_, rfl, rfl⟩

end SimulatorDemo

/-! ## C43 -/

/-- C43: with the default degradation model the state of health after any inputs, also when a step raises, is the initial one,
and so is every recorded state of health. -/
theorem C43_no_degradation (m : CellModel I X A Y) (a : A) (x : X) (i : I) (keep : Bool) (s : Simulator I X A Y)
    (hinit : Simulator.init m (NoDegradation I X A Y) a x i keep = .ok s) (inputs : List I) :
    (s.evolve inputs).1.asoh = a ∧ ∀ h, (s.evolve inputs).1.history = some h → ∀ b ∈ h.asohs, b = a := by
  have key : ∀ (s : Simulator I X A Y), s.degradation = NoDegradation I X A Y → s.asoh = a →
      (∀ h, s.history = some h → ∀ b ∈ h.asohs, b = a) →
      (s.evolve inputs).1.asoh = a ∧ ∀ h, (s.evolve inputs).1.history = some h → ∀ b ∈ h.asohs, b = a := by
    clear hinit s
    induction inputs with
    | nil => intro s _ ha hh; exact ⟨ha, hh⟩
    | cons j js ih =>
      intro s hd ha hh
      have step : (s.step j).1.degradation = NoDegradation I X A Y ∧ (s.step j).1.asoh = a ∧
          ∀ h, (s.step j).1.history = some h → ∀ b ∈ h.asohs, b = a := by
        unfold Simulator.step
        rcases s.model.update s.input j s.transient s.asoh with _ | x'
        · exact ⟨hd, ha, hh⟩
        · simp only
          rcases s.model.output j x' s.asoh with _ | y'
          · exact ⟨hd, ha, hh⟩
          · simp only [hd, NoDegradation]
            refine ⟨trivial, ha, ?_⟩
            intro h e b hb
            rcases hs : s.history with _ | h0
            · simp [hs] at e
            · simp only [hs, Option.map_some, Option.some.injEq] at e
              subst e
              simp only [Simulator.push, List.mem_append, List.mem_singleton] at hb
              rcases hb with hb | hb
              · exact hh h0 hs b hb
              · exact hb.trans ha
      simp only [Simulator.evolve]
      rcases hs : s.step j with ⟨s', _ | ⟨x', y'⟩⟩
      · rw [hs] at step; exact step.2
      · rw [hs] at step
        have := ih s' step.1 step.2.1 step.2.2
        simp only
        rcases he : s'.evolve js with ⟨s₁, _ | ys⟩ <;> rw [he] at this <;> exact this
  unfold Simulator.init at hinit
  rcases hy : m.output i x a with _ | y
  · simp [hy] at hinit
  · simp only [hy, Except.ok.injEq] at hinit
    subst hinit
    refine key _ rfl rfl ?_
    intro h e b hb
    cases keep
    · cases e
    · cases e
      simpa using hb

/-- The hypothesis of `C43_no_degradation` on a concrete simulator. -/
example : ∃ s, Simulator.init SimulatorDemo.model (NoDegradation _ _ _ _) 100 0 1 true = .ok s ∧
    (s.evolve [5, 6, 7]).2 = .ok [111, 123, 137] ∧ (s.evolve [5, 6, 7]).1.asoh = 100 := ⟨_, rfl, rfl, rfl⟩

end Verif
