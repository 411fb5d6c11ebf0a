import Verif.Spec.EstimatorIsolation
import Verif.Props.SimulatorIsolation
/-!
# Estimators and the objects of their callers: the simulation argument (C143)
-/

namespace Verif.EstObjects
open Verif SimObjects Spec

/-- Nothing that exists is changed. -/
structure GrowsS {α : Type} (s s' : Store α) : Prop where
  next : s.next ≤ s'.next
  val : ∀ l < s.next, s'.val l = s.val l

namespace GrowsS
variable {α : Type} {s s' s'' : Store α}

theorem refl (s : Store α) : GrowsS s s := ⟨le_refl _, fun _ _ => rfl⟩

theorem alloc (s : Store α) (v : α) : GrowsS s (s.alloc v).2 := ⟨Nat.le_succ _, fun _ hl => s.alloc_old v hl⟩

theorem trans (h : GrowsS s s') (h' : GrowsS s' s'') : GrowsS s s'' :=
  ⟨h.next.trans h'.next, fun l hl => (h'.val l (hl.trans_le h.next)).trans (h.val l hl)⟩

end GrowsS

structure Grows (h h' : Heap) : Prop where
  asohs : GrowsS h.asohs h'.asohs
  containers : GrowsS h.containers h'.containers
  gaussians : GrowsS h.gaussians h'.gaussians
  controls : GrowsS h.controls h'.controls
  arrays : GrowsS h.arrays h'.arrays

/-- References to objects of each kind. -/
structure Owned where
  asohs : List Nat
  containers : List Nat
  gaussians : List Nat
  controls : List Nat
  arrays : List Nat

/-- The objects have the same values. -/
structure Same (o : Owned) (h h' : Heap) : Prop where
  asohs : ∀ l ∈ o.asohs, h'.asohs.val l = h.asohs.val l
  containers : ∀ l ∈ o.containers, h'.containers.val l = h.containers.val l
  gaussians : ∀ l ∈ o.gaussians, h'.gaussians.val l = h.gaussians.val l
  controls : ∀ l ∈ o.controls, h'.controls.val l = h.controls.val l
  arrays : ∀ l ∈ o.arrays, h'.arrays.val l = h.arrays.val l

/-- The references exist, and none of them is among these. -/
structure Apart {α : Type} (s : Store α) (foreign l : List Nat) : Prop where
  lt : ∀ k ∈ l, k < s.next
  sep : ∀ k ∈ l, k ∉ foreign

namespace Apart
variable {α : Type} {s s' : Store α} {f l : List Nat}

theorem grows (h : Apart s f l) (g : GrowsS s s') : Apart s' f l := ⟨fun k hk => (h.lt k hk).trans_le g.next, h.sep⟩

theorem foreign (h : Apart s f l) {f' : List Nat} (hf : ∀ k ∈ f', k ∉ f → s.next ≤ k) : Apart s f' l :=
  ⟨h.lt, fun k hk hm => absurd (h.lt k hk) (not_lt.2 (hf k hm (h.sep k hk)))⟩

theorem write (h : Apart s f l) (k : Nat) (v : α) : Apart (s.write k v) f l := ⟨h.lt, h.sep⟩

theorem val_write (h : Apart s f l) {k : Nat} (hk : k ∈ f) (v : α) : ∀ j ∈ l, (s.write k v).val j = s.val j :=
  fun j hj => s.write_other v fun e => h.sep j hj (e ▸ hk)

theorem val_grows (h : Apart s f l) (g : GrowsS s s') : ∀ j ∈ l, s'.val j = s.val j := fun j hj => g.val j (h.lt j hj)

end Apart

/-- The references of the caller. -/
def Caller.asohs (c : Caller) : List Nat := c.asoh :: c.gotAsohs
def Caller.containers (c : Caller) : List Nat := c.transients :: (c.mine ++ c.gotTransients)

structure Safe (h : Heap) (c : Caller) (o : Owned) : Prop where
  asohs : Apart h.asohs c.asohs o.asohs
  containers : Apart h.containers c.containers o.containers
  gaussians : Apart h.gaussians c.gotGaussians o.gaussians
  controls : Apart h.controls [] o.controls
  arrays : Apart h.arrays c.arrays o.arrays

theorem Safe.same_grows {h h' : Heap} {c : Caller} {o : Owned} (s : Safe h c o) (g : Grows h h') : Same o h h' :=
  ⟨s.asohs.val_grows g.asohs, s.containers.val_grows g.containers, s.gaussians.val_grows g.gaussians, s.controls.val_grows g.controls,
    s.arrays.val_grows g.arrays⟩

/-- The caller's own objects: they exist, the inputs and measurements and the transient state are different objects, what was returned is something else,
and these are the values. -/
structure Tidy (h : Heap) (c : Caller) (t : Templates) (vals : List (Container ℝ)) : Prop where
  asoh : h.asohs.val c.asoh = t.asoh
  transients : h.containers.val c.transients = t.transients
  mine : c.mine.map h.containers.val = t.inputs :: vals
  distinct : (c.transients :: c.mine).Nodup
  asoh_lt : c.asoh < h.asohs.next
  lt : ∀ l ∈ c.transients :: c.mine, l < h.containers.next
  gotAsohs : ∀ l ∈ c.gotAsohs, l ≠ c.asoh ∧ l < h.asohs.next
  gotTransients : ∀ l ∈ c.gotTransients, l ∉ c.transients :: c.mine ∧ l < h.containers.next
  gotGaussians : ∀ l ∈ c.gotGaussians, l < h.gaussians.next
  arrays : ∀ l ∈ c.arrays, l < h.arrays.next

theorem Tidy.grows {h h' : Heap} {c : Caller} {t : Templates} {vals : List (Container ℝ)} (k : Tidy h c t vals) (g : Grows h h') : Tidy h' c t vals := by
  refine ⟨(g.asohs.val _ k.asoh_lt).trans k.asoh, (g.containers.val _ (k.lt _ List.mem_cons_self)).trans k.transients, ?_, k.distinct,
    k.asoh_lt.trans_le g.asohs.next, fun l hl => (k.lt l hl).trans_le g.containers.next,
    fun l hl => ⟨(k.gotAsohs l hl).1, (k.gotAsohs l hl).2.trans_le g.asohs.next⟩,
    fun l hl => ⟨(k.gotTransients l hl).1, (k.gotTransients l hl).2.trans_le g.containers.next⟩,
    fun l hl => (k.gotGaussians l hl).trans_le g.gaussians.next, fun l hl => (k.arrays l hl).trans_le g.arrays.next⟩
  rw [← k.mine]
  exact List.map_congr_left fun l hl => g.containers.val l (k.lt l (List.mem_cons_of_mem _ hl))

/-- The templates as the heap has them. -/
def now (h : Heap) (c : Caller) : Templates := ⟨h.asohs.val c.asoh, h.containers.val c.transients, h.containers.val c.inputs⟩

theorem Tidy.now_eq {h : Heap} {c : Caller} {t : Templates} {vals : List (Container ℝ)} (k : Tidy h c t vals) : now h c = t := by
  have := k.mine
  unfold Caller.mine at this
  rw [List.map_cons] at this
  unfold now
  rw [k.asoh, k.transients, (List.cons.inj this).1]

theorem Tidy.value {h : Heap} {c : Caller} {t : Templates} {vals : List (Container ℝ)} (k : Tidy h c t vals) (i : Nat) :
    (t.inputs :: vals)[i]? = (c.mine[i]?).map h.containers.val := by rw [← k.mine, List.getElem?_map]

/-- Fresh objects of a call. -/
def Fresh (lo hi : Nat) (l : Nat) : Prop := lo ≤ l ∧ l < hi

/-- An estimator made of references that behaves like one that is a value, apart from its templates. -/
structure Faithful {E V : Type} (M : Methods E) (call : V → Call → Except Err (V × Result)) (put : V → Templates → V) (sight : Heap → E → V)
    (owned : E → Owned) (linked : E → Nat → Nat → Nat → Prop) : Prop where
  put_put : ∀ v t t', put (put v t) t' = put v t'
  frame : ∀ {e c h h'}, linked e c.asoh c.transients c.inputs → Same (owned e) h h' → sight h' e = put (sight h e) (now h' c)
  step_err : ∀ {h e u y x}, call (sight h e) (.step (h.containers.val u) (h.containers.val y)) = .error x → M.step h e u y = .error x
  step_ok : ∀ {h e u y v' res}, (∀ l ∈ (owned e).asohs, l < h.asohs.next) → (∀ l ∈ (owned e).containers, l < h.containers.next) →
    call (sight h e) (.step (h.containers.val u) (h.containers.val y)) = .ok (v', res) →
    ∃ e' h' est out, M.step h e u y = .ok (e', h', est, out) ∧ Grows h h' ∧ (∀ t, put (sight h' e') t = put v' t) ∧
      res = .step (h'.gaussians.val est) (h'.gaussians.val out) ∧
      (Fresh h.gaussians.next h'.gaussians.next est ∧ Fresh h.gaussians.next h'.gaussians.next out) ∧
      (∀ l ∈ (owned e').asohs, l ∈ (owned e).asohs ∨ Fresh h.asohs.next h'.asohs.next l) ∧
      (∀ l ∈ (owned e').containers, l ∈ (owned e).containers ∨ Fresh h.containers.next h'.containers.next l) ∧
      (∀ l ∈ (owned e').gaussians, l ∈ (owned e).gaussians ∨ (Fresh h.gaussians.next h'.gaussians.next l ∧ l ≠ est ∧ l ≠ out)) ∧
      (∀ l ∈ (owned e').controls, l ∈ (owned e).controls ∨ Fresh h.controls.next h'.controls.next l) ∧
      (∀ l ∈ (owned e').arrays, l ∈ (owned e).arrays ∨ Fresh h.arrays.next h'.arrays.next l) ∧
      ∀ a b c, linked e a b c → linked e' a b c
  estimated_err : ∀ {h e x}, call (sight h e) .estimated = .error x → M.estimated h e = .error x
  estimated_ok : ∀ {h e v' res}, call (sight h e) .estimated = .ok (v', res) →
    ∃ h' x a, M.estimated h e = .ok (h', x, a) ∧ Grows h h' ∧ sight h e = v' ∧ res = .estimated (h'.containers.val x) (h'.asohs.val a) ∧
      Fresh h.containers.next h'.containers.next x ∧ Fresh h.asohs.next h'.asohs.next a
  state_err : ∀ {h e x}, call (sight h e) .state = .error x → M.state h e = .error x
  state_ok : ∀ {h e v' res}, call (sight h e) .state = .ok (v', res) →
    ∃ h' g, M.state h e = .ok (h', g) ∧ Grows h h' ∧ sight h e = v' ∧ res = .state (h'.gaussians.val g) ∧ Fresh h.gaussians.next h'.gaussians.next g

section
variable {E V : Type} {M : Methods E} {call : V → Call → Except Err (V × Result)} {put : V → Templates → V} {sight : Heap → E → V}
  {owned : E → Owned} {linked : E → Nat → Nat → Nat → Prop}

/-- The two programs agree. -/
structure Agree (sight : Heap → E → V) (put : V → Templates → V) (owned : E → Owned) (linked : E → Nat → Nat → Nat → Prop) (w : World E) (v : V)
    (t : Templates) (vals : List (Container ℝ)) : Prop where
  link : linked w.est w.caller.asoh w.caller.transients w.caller.inputs
  safe : Safe w.heap w.caller (owned w.est)
  tidy : Tidy w.heap w.caller t vals
  same : sight w.heap w.est = put v t

theorem Agree.change (F : Faithful M call put sight owned linked) {w : World E} {v : V} {t t' : Templates} {vals vals' : List (Container ℝ)}
    (a : Agree sight put owned linked w v t vals) {h' : Heap} {c' : Caller} {s' : List Result}
    (hc : c'.asoh = w.caller.asoh ∧ c'.transients = w.caller.transients ∧ c'.inputs = w.caller.inputs)
    (hs : Same (owned w.est) w.heap h') (hsafe : Safe h' c' (owned w.est)) (ht : Tidy h' c' t' vals') :
    Agree sight put owned linked ⟨h', w.est, c', s'⟩ v t' vals' := by
  obtain ⟨h1, h2, h3⟩ := hc
  have hl : linked w.est c'.asoh c'.transients c'.inputs := by rw [h1, h2, h3]; exact a.link
  refine ⟨hl, hsafe, ht, ?_⟩
  show sight h' w.est = put v t'
  rw [F.frame hl hs, a.same, F.put_put, ht.now_eq]

theorem nodup_map_write {α : Type} (s : Store α) (v : α) : ∀ (refs : List Nat) (k l : Nat), refs.Nodup → refs[k]? = some l →
    refs.map (s.write l v).val = (refs.map s.val).set k v
  | [], k, l, _, h => by simp at h
  | r :: refs, 0, l, hn, h => by
    obtain rfl : r = l := by simpa using h
    rw [List.map_cons, List.map_cons, List.set_cons_zero, s.write_same]
    exact congrArg _ (List.map_congr_left fun j hj => s.write_other v fun e => (List.nodup_cons.1 hn).1 (e ▸ hj))
  | r :: refs, k + 1, l, hn, h => by
    have h' : refs[k]? = some l := by simpa using h
    rw [List.map_cons, List.map_cons, List.set_cons_succ, nodup_map_write s v refs k l (List.nodup_cons.1 hn).2 h']
    rw [s.write_other v fun e => (List.nodup_cons.1 hn).1 (by rw [e]; exact List.mem_of_getElem? h')]

theorem Safe.writeContainer {h : Heap} {c : Caller} {o : Owned} (s : Safe h c o) {l : Nat} (hl : l ∈ c.containers) (v : Container ℝ) :
    Same o h { h with containers := h.containers.write l v } ∧ Safe { h with containers := h.containers.write l v } c o :=
  ⟨⟨fun _ _ => rfl, s.containers.val_write hl v, fun _ _ => rfl, fun _ _ => rfl, fun _ _ => rfl⟩,
    s.asohs, s.containers.write l v, s.gaussians, s.controls, s.arrays⟩

theorem Safe.writeAsoh {h : Heap} {c : Caller} {o : Owned} (s : Safe h c o) {l : Nat} (hl : l ∈ c.asohs) (v : HV ℝ) :
    Same o h { h with asohs := h.asohs.write l v } ∧ Safe { h with asohs := h.asohs.write l v } c o :=
  ⟨⟨s.asohs.val_write hl v, fun _ _ => rfl, fun _ _ => rfl, fun _ _ => rfl, fun _ _ => rfl⟩,
    s.asohs.write l v, s.containers, s.gaussians, s.controls, s.arrays⟩

theorem Safe.writeGaussian {h : Heap} {c : Caller} {o : Owned} (s : Safe h c o) {l : Nat} (hl : l ∈ c.gotGaussians) (v : Gaussian) :
    Same o h { h with gaussians := h.gaussians.write l v } ∧ Safe { h with gaussians := h.gaussians.write l v } c o :=
  ⟨⟨fun _ _ => rfl, fun _ _ => rfl, s.gaussians.val_write hl v, fun _ _ => rfl, fun _ _ => rfl⟩,
    s.asohs, s.containers, s.gaussians.write l v, s.controls, s.arrays⟩

theorem Safe.writeArray {h : Heap} {c : Caller} {o : Owned} (s : Safe h c o) {l : Nat} (hl : l ∈ c.arrays) (v : Mat) :
    Same o h { h with arrays := h.arrays.write l v } ∧ Safe { h with arrays := h.arrays.write l v } c o :=
  ⟨⟨fun _ _ => rfl, fun _ _ => rfl, fun _ _ => rfl, fun _ _ => rfl, s.arrays.val_write hl v⟩,
    s.asohs, s.containers, s.gaussians, s.controls, s.arrays.write l v⟩

/-- An operation that is no call changes nothing but the caller's objects. -/
theorem act_silent (F : Faithful M call put sight owned linked) {w : World E} {v : V} {t : Templates} {vals : List (Container ℝ)}
    (a : Agree sight put owned linked w v t vals) (op : Op) (hop : ∀ i j, op ≠ .step i j) (hop' : op ≠ .estimated) (hop'' : op ≠ .state) :
    ∃ w' t' vals', act M w op = .ok w' ∧ w'.seen = w.seen ∧ Agree sight put owned linked w' v t' vals' ∧
      ∀ ops, calls t vals (op :: ops) = calls t' vals' ops := by
  have k := a.tidy
  cases op with
  | step i j => exact absurd rfl (hop i j)
  | estimated => exact absurd rfl hop'
  | state => exact absurd rfl hop''
  | make x =>
    have g := GrowsS.alloc w.heap.containers x
    have g' : Grows w.heap { w.heap with containers := (w.heap.containers.alloc x).2 } := ⟨.refl _, g, .refl _, .refl _, .refl _⟩
    have k' := k.grows g'
    refine ⟨_, t, vals ++ [x], rfl, rfl, a.change F ⟨rfl, rfl, rfl⟩ (a.safe.same_grows g') ?_ ?_, fun _ => rfl⟩
    · refine ⟨a.safe.asohs, ?_, a.safe.gaussians, a.safe.controls, a.safe.arrays⟩
      refine (a.safe.containers.foreign (f' := w.caller.transients :: ((w.caller.inputs :: (w.caller.made ++ [w.heap.containers.next])) ++ w.caller.gotTransients))
        fun l hl hn => ?_).grows g
      simp only [Caller.containers, Caller.mine, List.mem_cons, List.mem_append, List.not_mem_nil, or_false] at hl hn
      have : l = w.heap.containers.next := by tauto
      exact this.ge
    · refine ⟨k'.asoh, k'.transients, ?_, ?_, k'.asoh_lt, ?_, k'.gotAsohs, ?_, k'.gotGaussians, k'.arrays⟩
      · show (w.caller.inputs :: (w.caller.made ++ [w.heap.containers.next])).map _ = _
        have e : (w.caller.inputs :: w.caller.made).map (w.heap.containers.alloc x).2.val = t.inputs :: vals := k'.mine
        rw [← List.cons_append, List.map_append]
        refine (congrArg₂ (· ++ ·) e (congrArg (fun z => [z]) (Store.alloc_new w.heap.containers x))).trans rfl
      · show (w.caller.transients :: w.caller.inputs :: (w.caller.made ++ [w.heap.containers.next])).Nodup
        rw [← List.cons_append, ← List.cons_append]
        refine List.nodup_append.2 ⟨k.distinct, List.nodup_singleton _, fun l hl b hb => ?_⟩
        rw [List.mem_singleton.1 hb]
        exact (k.lt l hl).ne
      · intro l hl
        have hl : l ∈ (w.caller.transients :: w.caller.inputs :: w.caller.made) ++ [w.heap.containers.next] := by
          simpa [Caller.mine] using hl
        rcases List.mem_append.1 hl with hl | hl
        · exact k'.lt l hl
        · rw [List.mem_singleton.1 hl]; exact Nat.lt_succ_self _
      · intro l hl
        refine ⟨fun hm => ?_, (k'.gotTransients l hl).2⟩
        have hm : l ∈ (w.caller.transients :: w.caller.inputs :: w.caller.made) ++ [w.heap.containers.next] := by
          simpa [Caller.mine] using hm
        rcases List.mem_append.1 hm with hm | hm
        · exact (k.gotTransients l hl).1 hm
        · exact absurd (k.gotTransients l hl).2 (by rw [List.mem_singleton.1 hm]; exact lt_irrefl _)
  | setMine i x =>
    cases hi : w.caller.mine[i]? with
    | none =>
      refine ⟨w, t, vals, by simp only [act, hi], rfl, a, fun ops => ?_⟩
      cases i with
      | zero => simp [Caller.mine] at hi
      | succ i =>
        have := k.value (i + 1)
        rw [hi] at this
        rw [calls, List.set_eq_of_length_le]
        simpa using this
    | some l =>
      have hm := List.mem_of_getElem? hi
      obtain ⟨s1, s2⟩ := a.safe.writeContainer (l := l) (by unfold Caller.containers; simp [hm]) x
      have hd := List.nodup_cons.1 k.distinct
      have hv := nodup_map_write w.heap.containers x _ _ _ hd.2 hi
      rw [k.mine] at hv
      have key : ∀ t' vals', t'.asoh = t.asoh → t'.transients = t.transients → (t.inputs :: vals).set i x = t'.inputs :: vals' →
          Tidy { w.heap with containers := w.heap.containers.write l x } w.caller t' vals' := fun t' vals' e1 e2 e3 =>
        ⟨k.asoh.trans e1.symm, (Eq.trans (w.heap.containers.write_other (k := w.caller.transients) (l := l) x (by rintro rfl; exact hd.1 hm)) k.transients).trans e2.symm, hv.trans e3, k.distinct,
          k.asoh_lt, k.lt, k.gotAsohs, k.gotTransients, k.gotGaussians, k.arrays⟩
      cases i with
      | zero =>
        have A := a.change (s' := w.seen) F ⟨rfl, rfl, rfl⟩ s1 s2 (key { t with inputs := x } vals rfl rfl rfl)
        refine ⟨_, _, _, ?_, ?_, A, fun _ => rfl⟩
        · simp only [act, hi]
        · rfl
      | succ i =>
        have A := a.change (s' := w.seen) F ⟨rfl, rfl, rfl⟩ s1 s2 (key t (vals.set i x) rfl rfl rfl)
        refine ⟨_, _, _, ?_, ?_, A, fun _ => rfl⟩
        · simp only [act, hi]
        · rfl
  | setAsoh m =>
    obtain ⟨s1, s2⟩ := a.safe.writeAsoh (l := w.caller.asoh) (by simp [Caller.asohs]) m
    refine ⟨_, { t with asoh := m }, vals, rfl, rfl, a.change F ⟨rfl, rfl, rfl⟩ s1 s2 ?_, fun _ => rfl⟩
    exact ⟨w.heap.asohs.write_same _ _, k.transients, k.mine, k.distinct, k.asoh_lt, k.lt, k.gotAsohs, k.gotTransients, k.gotGaussians, k.arrays⟩
  | setTransients x =>
    obtain ⟨s1, s2⟩ := a.safe.writeContainer (l := w.caller.transients) (by simp [Caller.containers]) x
    refine ⟨_, { t with transients := x }, vals, rfl, rfl, a.change F ⟨rfl, rfl, rfl⟩ s1 s2 ?_, fun _ => rfl⟩
    refine ⟨k.asoh, w.heap.containers.write_same _ _, ?_, k.distinct, k.asoh_lt, k.lt, k.gotAsohs, k.gotTransients, k.gotGaussians, k.arrays⟩
    refine Eq.trans (List.map_congr_left fun l hl => w.heap.containers.write_other x ?_) k.mine
    rintro rfl
    exact (List.nodup_cons.1 k.distinct).1 hl
  | setArray i A =>
    cases hi : w.caller.arrays[i]? with
    | none => exact ⟨w, t, vals, by simp only [act, hi], rfl, a, fun ops => rfl⟩
    | some l =>
      obtain ⟨s1, s2⟩ := a.safe.writeArray (List.mem_of_getElem? hi) A
      have A := a.change (s' := w.seen) (t' := t) (vals' := vals) F ⟨rfl, rfl, rfl⟩ s1 s2
        ⟨k.asoh, k.transients, k.mine, k.distinct, k.asoh_lt, k.lt, k.gotAsohs, k.gotTransients, k.gotGaussians, k.arrays⟩
      refine ⟨_, _, _, ?_, ?_, A, fun _ => rfl⟩
      · simp only [act, hi]
      · rfl
  | setGotTransients i x =>
    cases hi : w.caller.gotTransients[i]? with
    | none => exact ⟨w, t, vals, by simp only [act, hi], rfl, a, fun ops => rfl⟩
    | some l =>
      have hm := List.mem_of_getElem? hi
      obtain ⟨s1, s2⟩ := a.safe.writeContainer (l := l) (by unfold Caller.containers; simp [hm]) x
      have hn := (k.gotTransients l hm).1
      have A := a.change (s' := w.seen) (t' := t) (vals' := vals) F ⟨rfl, rfl, rfl⟩ s1 s2
        ⟨k.asoh, Eq.trans (w.heap.containers.write_other x (by rintro rfl; exact hn List.mem_cons_self)) k.transients,
          Eq.trans (List.map_congr_left fun j hj => w.heap.containers.write_other x (by rintro rfl; exact hn (List.mem_cons_of_mem _ hj))) k.mine,
          k.distinct, k.asoh_lt, k.lt, k.gotAsohs, k.gotTransients, k.gotGaussians, k.arrays⟩
      refine ⟨_, _, _, ?_, ?_, A, fun _ => rfl⟩
      · simp only [act, hi]
      · rfl
  | setGotAsoh i m =>
    cases hi : w.caller.gotAsohs[i]? with
    | none => exact ⟨w, t, vals, by simp only [act, hi], rfl, a, fun ops => rfl⟩
    | some l =>
      have hm := List.mem_of_getElem? hi
      obtain ⟨s1, s2⟩ := a.safe.writeAsoh (l := l) (by unfold Caller.asohs; simp [hm]) m
      have A := a.change (s' := w.seen) (t' := t) (vals' := vals) F ⟨rfl, rfl, rfl⟩ s1 s2
        ⟨Eq.trans (w.heap.asohs.write_other m (Ne.symm (k.gotAsohs l hm).1)) k.asoh, k.transients, k.mine, k.distinct, k.asoh_lt, k.lt, k.gotAsohs,
          k.gotTransients, k.gotGaussians, k.arrays⟩
      refine ⟨_, _, _, ?_, ?_, A, fun _ => rfl⟩
      · simp only [act, hi]
      · rfl
  | setGotGaussian i g =>
    cases hi : w.caller.gotGaussians[i]? with
    | none => exact ⟨w, t, vals, by simp only [act, hi], rfl, a, fun ops => rfl⟩
    | some l =>
      obtain ⟨s1, s2⟩ := a.safe.writeGaussian (List.mem_of_getElem? hi) g
      have A := a.change (s' := w.seen) (t' := t) (vals' := vals) F ⟨rfl, rfl, rfl⟩ s1 s2
        ⟨k.asoh, k.transients, k.mine, k.distinct, k.asoh_lt, k.lt, k.gotAsohs, k.gotTransients, k.gotGaussians, k.arrays⟩
      refine ⟨_, _, _, ?_, ?_, A, fun _ => rfl⟩
      · simp only [act, hi]
      · rfl

/-- What a call does. -/
theorem act_call (F : Faithful M call put sight owned linked) {w : World E} {v : V} {t : Templates} {vals : List (Container ℝ)}
    (a : Agree sight put owned linked w v t vals) (op : Op) (c : Call) (hop : ∀ ops, calls t vals (op :: ops) = (t, c) :: calls t vals ops) :
    (∃ x, call (put v t) c = .error x ∧ act M w op = .error x) ∨
    ∃ v' res w', call (put v t) c = .ok (v', res) ∧ act M w op = .ok w' ∧ w'.seen = w.seen ++ [res] ∧ Agree sight put owned linked w' v' t vals := by
  have k := a.tidy
  have put_now : ∀ v', put (put v' t) t = put v' t := fun v' => F.put_put v' t t
  rcases e : call (put v t) c with x | ⟨v', res⟩
  · refine .inl ⟨x, rfl, ?_⟩
    rw [← a.same] at e
    cases op with
    | step i j =>
      have hc := hop []
      simp only [calls, k.value] at hc
      cases hi : w.caller.mine[i]? with
      | none => simp [hi, calls] at hc
      | some u =>
        cases hj : w.caller.mine[j]? with
        | none => simp [hi, hj, calls] at hc
        | some y =>
          rw [hi, hj] at hc
          simp only [Option.map_some, List.cons.injEq, Prod.mk.injEq, true_and, and_true] at hc
          subst hc
          simp only [act, hi, hj, F.step_err e]
          rfl
    | estimated =>
      have hc := hop []
      simp only [calls, List.cons.injEq, Prod.mk.injEq, true_and, and_true] at hc
      subst hc
      simp only [act, F.estimated_err e]
      rfl
    | state =>
      have hc := hop []
      simp only [calls, List.cons.injEq, Prod.mk.injEq, true_and, and_true] at hc
      subst hc
      simp only [act, F.state_err e]
      rfl
    | setMine i x => cases i <;> exact absurd (hop []) (by simp [calls])
    | _ => exact absurd (hop []) (by simp [calls])
  · rw [← a.same] at e
    refine .inr ?_
    cases op with
    | step i j =>
      have hc := hop []
      simp only [calls, k.value] at hc
      cases hi : w.caller.mine[i]? with
      | none => simp [hi, calls] at hc
      | some u =>
        cases hj : w.caller.mine[j]? with
        | none => simp [hi, hj, calls] at hc
        | some y =>
          rw [hi, hj] at hc
          simp only [Option.map_some, List.cons.injEq, Prod.mk.injEq, true_and, and_true] at hc
          subst hc
          obtain ⟨e', h', est, out, h1, g, h2, h3, ⟨h4, h5⟩, o1, o2, o3, o4, o5, hl⟩ := F.step_ok a.safe.asohs.lt a.safe.containers.lt e
          refine ⟨v', res, ⟨h', e', { w.caller with gotGaussians := w.caller.gotGaussians ++ [est, out] }, w.seen ++ [res]⟩, rfl, ?_, rfl, ?_⟩
          · simp only [act, hi, hj, h1]
            rw [h3]
            rfl
          · have k' := k.grows g
            have s := a.safe
            refine ⟨hl _ _ _ a.link, ⟨⟨?_, ?_⟩, ⟨?_, ?_⟩, ⟨?_, ?_⟩, ⟨?_, ?_⟩, ⟨?_, ?_⟩⟩,
              ⟨k'.asoh, k'.transients, k'.mine, k'.distinct, k'.asoh_lt, k'.lt, k'.gotAsohs, k'.gotTransients, ?_, k'.arrays⟩, ?_⟩
            · intro l hl
              rcases o1 l hl with hl | hl
              · exact (s.asohs.lt l hl).trans_le g.asohs.next
              · exact hl.2
            · intro l hl hm
              rcases o1 l hl with hl | hl
              · exact s.asohs.sep l hl hm
              · rcases List.mem_cons.1 hm with rfl | hm
                · exact absurd k.asoh_lt (not_lt.2 hl.1)
                · exact absurd (k.gotAsohs l hm).2 (not_lt.2 hl.1)
            · intro l hl
              rcases o2 l hl with hl | hl
              · exact (s.containers.lt l hl).trans_le g.containers.next
              · exact hl.2
            · intro l hl hm
              rcases o2 l hl with hl | hl
              · exact s.containers.sep l hl hm
              · have : l ∈ (w.caller.transients :: w.caller.mine) ++ w.caller.gotTransients := by simpa [Caller.containers, Caller.mine] using hm
                rcases List.mem_append.1 this with hm | hm
                · exact absurd (k.lt l hm) (not_lt.2 hl.1)
                · exact absurd (k.gotTransients l hm).2 (not_lt.2 hl.1)
            · intro l hl
              rcases o3 l hl with hl | hl
              · exact (s.gaussians.lt l hl).trans_le g.gaussians.next
              · exact hl.1.2
            · intro l hl hm
              rcases List.mem_append.1 hm with hm | hm
              · rcases o3 l hl with hl | hl
                · exact s.gaussians.sep l hl hm
                · exact absurd (k.gotGaussians l hm) (not_lt.2 hl.1.1)
              · have hm : l = est ∨ l = out := by simpa using hm
                rcases o3 l hl with ho | hl
                · rcases hm with rfl | rfl
                  · exact absurd (s.gaussians.lt l ho) (not_lt.2 h4.1)
                  · exact absurd (s.gaussians.lt l ho) (not_lt.2 h5.1)
                · exact hm.elim hl.2.1 hl.2.2
            · intro l hl
              rcases o4 l hl with hl | hl
              · exact (s.controls.lt l hl).trans_le g.controls.next
              · exact hl.2
            · intro l _ hm
              simp at hm
            · intro l hl
              rcases o5 l hl with hl | hl
              · exact (s.arrays.lt l hl).trans_le g.arrays.next
              · exact hl.2
            · intro l hl hm
              rcases o5 l hl with hl | hl
              · exact s.arrays.sep l hl hm
              · exact absurd (k.arrays l hm) (not_lt.2 hl.1)
            · intro l hl
              rcases List.mem_append.1 hl with hl | hl
              · exact k'.gotGaussians l hl
              · have hl : l = est ∨ l = out := by simpa using hl
                rcases hl with rfl | rfl
                · exact h4.2
                · exact h5.2
            · show sight h' e' = put v' t
              have hn : now h' w.caller = t := k'.now_eq
              have := F.frame (c := w.caller) (h := h') (h' := h') (hl _ _ _ a.link)
                ⟨fun _ _ => rfl, fun _ _ => rfl, fun _ _ => rfl, fun _ _ => rfl, fun _ _ => rfl⟩
              rw [this, hn, h2 t]
    | estimated =>
      have hc := hop []
      simp only [calls, List.cons.injEq, Prod.mk.injEq, true_and, and_true] at hc
      subst hc
      obtain ⟨h', x, m, h1, g, h2, h3, h4, h5⟩ := F.estimated_ok e
      refine ⟨v', res, _, rfl, (by simp only [act, h1]; rfl), (by rw [h3]), ?_⟩
      have k' := k.grows g
      have A := a.change (s' := w.seen) (c' := { w.caller with gotTransients := w.caller.gotTransients ++ [x], gotAsohs := w.caller.gotAsohs ++ [m] })
        (t' := t) (vals' := vals) F ⟨rfl, rfl, rfl⟩ (a.safe.same_grows g) ?_ ?_
      · refine ⟨A.link, A.safe, A.tidy, ?_⟩
        show sight h' w.est = put v' t
        rw [← h2, a.same, put_now]
        exact A.same
      · have s := a.safe
        refine ⟨(s.asohs.foreign fun l hl hn => ?_).grows g.asohs, (s.containers.foreign fun l hl hn => ?_).grows g.containers,
          s.gaussians.grows g.gaussians, s.controls.grows g.controls, s.arrays.grows g.arrays⟩
        · simp only [Caller.asohs, List.mem_cons, List.mem_append, List.not_mem_nil, or_false] at hl hn
          have : l = m := by tauto
          exact this ▸ h5.1
        · simp only [Caller.containers, Caller.mine, List.mem_cons, List.mem_append, List.not_mem_nil, or_false] at hl hn
          have : l = x := by tauto
          exact this ▸ h4.1
      · refine ⟨k'.asoh, k'.transients, k'.mine, k'.distinct, k'.asoh_lt, k'.lt, ?_, ?_, k'.gotGaussians, k'.arrays⟩
        · intro l hl
          rcases List.mem_append.1 hl with hl | hl
          · exact k'.gotAsohs l hl
          · rw [List.mem_singleton.1 hl]
            exact ⟨fun e => absurd (e ▸ k.asoh_lt : m < _) (not_lt.2 h5.1), h5.2⟩
        · intro l hl
          rcases List.mem_append.1 hl with hl | hl
          · exact k'.gotTransients l hl
          · rw [List.mem_singleton.1 hl]
            exact ⟨fun hm => absurd (k.lt x hm) (not_lt.2 h4.1), h4.2⟩
    | state =>
      have hc := hop []
      simp only [calls, List.cons.injEq, Prod.mk.injEq, true_and, and_true] at hc
      subst hc
      obtain ⟨h', x, h1, g, h2, h3, h4⟩ := F.state_ok e
      refine ⟨v', res, _, rfl, (by simp only [act, h1]; rfl), (by rw [h3]), ?_⟩
      have k' := k.grows g
      have A := a.change (s' := w.seen) (c' := { w.caller with gotGaussians := w.caller.gotGaussians ++ [x] })
        (t' := t) (vals' := vals) F ⟨rfl, rfl, rfl⟩ (a.safe.same_grows g) ?_ ?_
      · refine ⟨A.link, A.safe, A.tidy, ?_⟩
        show sight h' w.est = put v' t
        rw [← h2, a.same, put_now]
        exact A.same
      · have s := a.safe
        refine ⟨s.asohs.grows g.asohs, s.containers.grows g.containers, (s.gaussians.foreign fun l hl hn => ?_).grows g.gaussians,
          s.controls.grows g.controls, s.arrays.grows g.arrays⟩
        rcases List.mem_append.1 hl with hl | hl
        · exact absurd hl hn
        · rw [List.mem_singleton.1 hl]; exact h4.1
      · refine ⟨k'.asoh, k'.transients, k'.mine, k'.distinct, k'.asoh_lt, k'.lt, k'.gotAsohs, k'.gotTransients, ?_, k'.arrays⟩
        intro l hl
        rcases List.mem_append.1 hl with hl | hl
        · exact k'.gotGaussians l hl
        · rw [List.mem_singleton.1 hl]; exact h4.2
    | setMine i x => cases i <;> exact absurd (hop []) (by simp [calls])
    | _ => exact absurd (hop []) (by simp [calls])

theorem exec_following (F : Faithful M call put sight owned linked) (ops : List Op) : ∀ {w : World E} {v : V} {t : Templates}
    {vals : List (Container ℝ)}, Agree sight put owned linked w v t vals →
    (exec M w ops).map (·.seen) = (following call put v (calls t vals ops)).map (w.seen ++ ·) := by
  induction ops with
  | nil =>
    intro w v t vals _
    show Except.ok w.seen = Except.ok (w.seen ++ [])
    rw [List.append_nil]
  | cons op ops ih =>
    intro w v t vals a
    by_cases hc : ∃ c, ∀ ops, calls t vals (op :: ops) = (t, c) :: calls t vals ops
    · obtain ⟨c, hc⟩ := hc
      rw [hc ops]
      rcases act_call F a op c hc with ⟨x, h1, h2⟩ | ⟨v', res, w', h1, h2, h3, h4⟩
      · rw [exec, following, h1, h2]; rfl
      · rw [exec, following, h1, h2]
        show (exec M w' ops).map (·.seen) = _
        rw [ih h4, h3]
        show _ = Except.map _ (do
          let rs ← following call put v' (calls t vals ops)
          return res :: rs)
        rcases following call put v' (calls t vals ops) with x | rs
        · rfl
        · exact congrArg Except.ok (List.append_assoc w.seen [res] rs)
    · by_cases hs : (∀ i j, op ≠ .step i j) ∧ op ≠ .estimated ∧ op ≠ .state
      · obtain ⟨w', t', vals', h1, h2, h3, h4⟩ := act_silent F a op hs.1 hs.2.1 hs.2.2
        rw [exec, h1, h4]
        show (exec M w' ops).map (·.seen) = _
        rw [ih h3, h2]
      · cases op with
        | step i j =>
          have hi := a.tidy.value i
          have hj := a.tidy.value j
          have key : act M w (.step i j) = .ok w ∧ calls t vals (.step i j :: ops) = calls t vals ops := by
            cases ei : w.caller.mine[i]? with
            | none =>
              rw [ei] at hi
              simp only [act, calls, ei, hi, Option.map_none]
              trivial
            | some u =>
              cases ej : w.caller.mine[j]? with
              | none =>
                rw [ei] at hi
                rw [ej] at hj
                simp only [act, calls, ei, ej, hi, hj, Option.map_none]
                trivial
              | some y =>
                refine absurd ⟨.step (w.heap.containers.val u) (w.heap.containers.val y), fun ops => ?_⟩ hc
                rw [calls, hi, hj, ei, ej]
                rfl
          rw [exec, key.1, key.2]
          exact ih a
        | estimated => exact absurd ⟨.estimated, fun _ => rfl⟩ hc
        | state => exact absurd ⟨.state, fun _ => rfl⟩ hc
        | _ => simp at hs

end

end Verif.EstObjects
