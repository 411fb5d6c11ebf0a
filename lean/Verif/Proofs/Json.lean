import Verif.Spec.Json
import Verif.Props.Dimensions
/-!
# Reading what was written
-/

namespace Verif
namespace Json
variable {α : Type}

theorem arrays_map {β : Type} (f : β → Doc α) (g : β → NDArray α) (l : List β) (h : ∀ b ∈ l, array (f b) = .ok (g b)) :
    array.arrays (l.map f) = .ok (l.map g) := by
  induction l with
  | nil => rfl
  | cons b l ih =>
    rw [List.map_cons, array.arrays, h b List.mem_cons_self, ih fun c hc => h c (List.mem_cons_of_mem _ hc)]
    rfl

theorem chunks_mem_length {w : Nat} : ∀ {n : Nat} {l : List α}, l.length = n * w → ∀ r ∈ NDArray.chunks w n l, r.length = w :=
  NDArray.chunks_length

theorem array_tolist : ∀ (s : List Nat) (data : List α) (h : data.length = s.foldr (· * ·) 1), 0 ∉ s.dropLast →
    array (tolist s data) = .ok ⟨s, data, h⟩
  | [], [x], _, _ => rfl
  | [], [], h, _ => by simp at h
  | [], _ :: _ :: _, h, _ => by simp at h
  | n :: s, data, h, h0 => by
    have hlen : data.length = n * s.foldr (· * ·) 1 := by simpa using h
    have hs : 0 ∉ s.dropLast := by
      intro hm
      apply h0
      cases s with
      | nil => simp at hm
      | cons a t => exact List.mem_cons_of_mem _ hm
    have hp := NDArray.chunks_length hlen
    rw [tolist, array]
    rw [← List.attach_map_subtype_val (NDArray.chunks (s.foldr (· * ·) 1) n data), List.map_map,
      arrays_map (g := fun r => ⟨s, r.1, hp r.1 r.2⟩) _ _ fun r _ => array_tolist s r.1 (hp r.1 r.2) hs]
    show stack _ = _
    have hflat : ((NDArray.chunks (s.foldr (· * ·) 1) n data).attach.map
        fun r => (⟨s, r.1, hp r.1 r.2⟩ : NDArray α)).flatMap (·.data) = data := by
      rw [List.flatMap_map]
      show (NDArray.chunks (s.foldr (· * ·) 1) n data).attach.flatMap (fun r => r.1) = _
      rw [List.flatMap_subtype (g := id) (hf := by intros; rfl), List.unattach_attach, List.flatMap_id, NDArray.chunks_flatten hlen]
    have hn : ((NDArray.chunks (s.foldr (· * ·) 1) n data).attach.map
        fun r => (⟨s, r.1, hp r.1 r.2⟩ : NDArray α)).length = n := by
      rw [List.length_map, List.length_attach, NDArray.chunks_nrow]
    have hsh : ∀ a ∈ ((NDArray.chunks (s.foldr (· * ·) 1) n data).attach.map
        fun r => (⟨s, r.1, hp r.1 r.2⟩ : NDArray α)), a.shape = s := by
      intro a ha
      obtain ⟨r, _, rfl⟩ := List.mem_map.1 ha
      rfl
    generalize ((NDArray.chunks (s.foldr (· * ·) 1) n data).attach.map
        fun r => (⟨s, r.1, hp r.1 r.2⟩ : NDArray α)) = l at hflat hn hsh
    cases l with
    | nil =>
      have hn0 : n = 0 := by simpa using hn.symm
      subst hn0
      have hsn : s = [] := by
        cases s with
        | nil => rfl
        | cons a t => exact absurd (by simp) h0
      subst hsn
      have hd : data = [] := by simpa using hflat.symm
      subst hd
      rfl
    | cons a l =>
      have ha := hsh a List.mem_cons_self
      rw [stack, dif_pos fun b hb => by rw [hsh b (List.mem_cons_of_mem _ hb), ha]]
      congr 1
      apply NDArray.ext'
      · show (l.length + 1) :: a.shape = n :: s
        rw [ha, ← hn, List.length_cons]
      · exact hflat

/-- A 2D array with one column is read back. -/
theorem scalar_back {x : NDArray α} {n : Nat} (h : x.shape = [n, 1]) :
    (do enforceDimensions (← array (tolist x.shape x.data)) 0) = .ok x := by
  have hw := x.wf
  rw [h] at hw
  have hd : x.data.length = n := by simpa using hw
  have key : ∀ z : NDArray α, z.data = x.data → (z.shape.filter (· ≠ 1)).length ≤ 1 → enforceDimensions z 0 = .ok x := by
    intro z hz hs
    obtain ⟨y, h1, h2, h3⟩ := (C17_scalar z).2 hs
    rw [h1]
    congr 1
    apply NDArray.ext'
    · rw [h2, h, hz, hd]
    · rw [h3, hz]
  by_cases hn : n = 0
  · subst hn
    have hnil : x.data = [] := List.eq_nil_of_length_eq_zero hd
    rw [h, hnil]
    show enforceDimensions (⟨[0], [], rfl⟩ : NDArray α) 0 = _
    exact key _ hnil.symm (by simp)
  · have : array (tolist x.shape x.data) = .ok ⟨x.shape, x.data, x.wf⟩ :=
      array_tolist _ _ _ (by rw [h]; simpa using fun e => hn e.symm)
    rw [this]
    show enforceDimensions (⟨x.shape, x.data, x.wf⟩ : NDArray α) 0 = _
    refine key _ rfl ?_
    rw [h]
    by_cases h1 : n = 1 <;> simp [h1]

theorem list_back {x : NDArray α} (h2 : 2 ≤ x.shape.length) (h0 : 0 ∉ x.shape.dropLast) :
    (do enforceDimensions (← array (tolist x.shape x.data)) 1) = .ok x := by
  rw [array_tolist _ _ x.wf h0]
  show enforceDimensions x 1 = _
  obtain ⟨y, e1, _, _, e4, _⟩ := C17_list x
  rw [e1, e4 h2]

theorem texts_back (ns : List Name) : texts (ns.map (Doc.str (α := α))) = .ok ns := by
  induction ns with
  | nil => rfl
  | cons n ns ih => rw [List.map_cons, texts, ih]; rfl

theorem tolist_cons_ne_null {n : Nat} {s : List Nat} {data : List α} : ∃ ds, tolist (n :: s) data = .list ds := ⟨_, rfl⟩

/-- One value: what is written is read back, unless pinpoints are set. -/
def Back (check : Cls → Obj α → Bool) (a : Ann) (v : Val α) : Prop :=
  ∃ d, dump a v = .ok d ∧ (¬ Pinned a v → load check a d = .ok v) ∧ (Pinned a v → ∃ e, load check a d = .error e)

/-- The fields of an object within a larger one. -/
def BackFields (check : Cls → Obj α → Bool) (c : Cls) (o : Obj α) : Prop :=
  ∀ o0 : Obj α, (∀ p ∈ o, assoc p.1 o0 = some p.2) → ∃ kvs : List (Name × Doc α), dumpFields c o0 = .ok kvs ∧
    kvs.map Prod.fst = o.map Prod.fst ∧ ∀ kvs0 : List (Name × Doc α), (∀ p ∈ kvs, assoc p.1 kvs0 = some p.2) →
      (¬ PinnedFields c o → loadFields check c kvs0 = .ok o) ∧ (PinnedFields c o → ∃ e, loadFields check c kvs0 = .error e)

theorem assoc_of_nodup {β : Type} {l : List (Name × β)} (h : (l.map Prod.fst).Nodup) : ∀ p ∈ l, assoc p.1 l = some p.2 := by
  induction l with
  | nil => simp
  | cons q l ih =>
    rw [List.map_cons, List.nodup_cons] at h
    intro p hp
    rcases List.mem_cons.1 hp with rfl | hpl
    · simp [assoc]
    · have : q.1 ≠ p.1 := fun e => h.1 (e ▸ List.mem_map_of_mem hpl)
      obtain ⟨q1, q2⟩ := q
      simp only [assoc]
      rw [if_neg this]
      exact ih h.2 p hpl

theorem FitsFields.names {check : Cls → Obj α → Bool} : ∀ {c : Cls} {o : Obj α}, FitsFields check c o → o.map Prod.fst = c.names
  | .nil, o, h => by simp only [FitsFields] at h; subst h; rfl
  | .field n a rest, o, h => by
    simp only [FitsFields] at h
    obtain ⟨v, o', rfl, -, h'⟩ := h
    simp only [List.map_cons, Cls.names, FitsFields.names h']

theorem Cls.Distinct.nodup : ∀ {c : Cls}, c.Distinct → c.names.Nodup
  | .nil, _ => by simp [Cls.names]
  | .field n a rest, h => by
    simp only [Cls.Distinct] at h
    simp only [Cls.names, List.nodup_cons]
    exact ⟨h.1, Cls.Distinct.nodup h.2.2⟩

/-- A whole object: what is written is read back, unless pinpoints are set. -/
theorem BackFields.obj {check : Cls → Obj α → Bool} {c : Cls} {o : Obj α} (hb : BackFields check c o) (hd : c.Distinct)
    (hf : FitsFields check c o) : ∃ kvs, dumpFields c o = .ok kvs ∧
      (¬ PinnedFields c o → loadFields check c kvs = .ok o) ∧ (PinnedFields c o → ∃ e, loadFields check c kvs = .error e) := by
  have hn : (o.map Prod.fst).Nodup := by rw [hf.names]; exact hd.nodup
  obtain ⟨kvs, h1, h2, h3⟩ := hb o (assoc_of_nodup hn)
  exact ⟨kvs, h1, h3 kvs (assoc_of_nodup (by rw [h2]; exact hn))⟩

theorem tuple_back {check : Cls → Obj α → Bool} {c : Cls} (os : List (Obj α))
    (h : ∀ o ∈ os, check c o = true ∧ ∃ kvs, dumpFields c o = .ok kvs ∧
      (¬ PinnedFields c o → loadFields check c kvs = .ok o) ∧ (PinnedFields c o → ∃ e, loadFields check c kvs = .error e)) :
    ∃ ds, (os.mapM fun o => do return Doc.obj (← dumpFields c o)) = .ok ds ∧
      ((¬ ∃ o ∈ os, PinnedFields c o) → (ds.mapM fun d => do
        let o ← loadFields check c (← members d)
        if check c o then return o else .error .valueError) = .ok os) ∧
      ((∃ o ∈ os, PinnedFields c o) → ∃ e, (ds.mapM fun d => do
        let o ← loadFields check c (← members d)
        if check c o then return o else .error .valueError) = .error e) := by
  induction os with
  | nil => exact ⟨[], rfl, fun _ => rfl, fun ⟨o, ho, _⟩ => by simp at ho⟩
  | cons o os ih =>
    obtain ⟨hc, kvs, k1, k2, k3⟩ := h o List.mem_cons_self
    obtain ⟨ds, d1, d2, d3⟩ := ih fun o' ho' => h o' (List.mem_cons_of_mem _ ho')
    refine ⟨.obj kvs :: ds, ?_, ?_, ?_⟩
    · rw [List.mapM_cons, k1, d1]; rfl
    · intro hp
      have p1 : ¬ PinnedFields c o := fun hpo => hp ⟨o, List.mem_cons_self, hpo⟩
      have p2 : ¬ ∃ o ∈ os, PinnedFields c o := fun ⟨o', ho', hpo⟩ => hp ⟨o', List.mem_cons_of_mem _ ho', hpo⟩
      rw [List.mapM_cons, d2 p2]
      show (do
        let o' ← (do
          let o' ← loadFields check c kvs
          if check c o' then return o' else .error .valueError : Except Err (Obj α))
        let os' ← (Except.ok os : Except Err _)
        return o' :: os') = _
      rw [k2 p1]
      simp only [bind, Except.bind, hc, if_true]
      rfl
    · intro hp
      rw [List.mapM_cons]
      by_cases p1 : PinnedFields c o
      · obtain ⟨e, he⟩ := k3 p1
        refine ⟨e, ?_⟩
        show (do
          let o' ← (do
            let o' ← loadFields check c kvs
            if check c o' then return o' else .error .valueError : Except Err (Obj α))
          let os' ← _
          return o' :: os') = _
        rw [he]
        rfl
      · have p2 : ∃ o ∈ os, PinnedFields c o := by
          obtain ⟨o', ho', hpo⟩ := hp
          rcases List.mem_cons.1 ho' with rfl | ho'
          · exact absurd hpo p1
          · exact ⟨o', ho', hpo⟩
        obtain ⟨e, he⟩ := d3 p2
        refine ⟨e, ?_⟩
        rw [he]
        show (do
          let o' ← (do
            let o' ← loadFields check c kvs
            if check c o' then return o' else .error .valueError : Except Err (Obj α))
          let os' ← (Except.error e : Except Err _)
          return o' :: os') = _
        rw [k2 p1]
        simp only [bind, Except.bind, hc, if_true]
        rfl

theorem obj_back {check : Cls → Obj α → Bool} {c : Cls} {o : Obj α} (hc : check c o = true) (hd : c.Distinct)
    (hf : FitsFields check c o) (hb : BackFields check c o) : ∃ kvs, dumpFields c o = .ok kvs ∧
      (¬ PinnedFields c o → loadJson check c (.obj kvs) = .ok o) ∧
      (PinnedFields c o → ∃ e, loadJson check c (.obj kvs) = .error e) := by
  obtain ⟨kvs, k1, k2, k3⟩ := hb.obj hd hf
  refine ⟨kvs, k1, fun hp => ?_, fun hp => ?_⟩
  · show (do
      let o ← loadFields check c kvs
      if check c o then return o else .error .valueError : Except Err (Obj α)) = _
    rw [k2 hp]
    simp only [bind, Except.bind, hc, if_true]
    rfl
  · obtain ⟨e, he⟩ := k3 hp
    refine ⟨e, ?_⟩
    show (do
      let o ← loadFields check c kvs
      if check c o then return o else .error .valueError : Except Err (Obj α)) = _
    rw [he]
    rfl

theorem load_model {check : Cls → Obj α → Bool} {c : Cls} {kvs : List (Name × Doc α)} :
    load check (.model c) (.obj kvs) = (loadJson check c (.obj kvs)).map .obj := by
  rw [load, loadJson]
  simp only [members, bind, Except.bind]
  cases h : loadFields check c kvs with
  | error e => rfl
  | ok o => by_cases hc : check c o = true <;> simp [hc, Except.map, pure, Except.pure]

theorem load_optModel {check : Cls → Obj α → Bool} {c : Cls} {kvs : List (Name × Doc α)} :
    load check (.optModel c) (.obj kvs) = (loadJson check c (.obj kvs)).map .obj := by
  rw [load, loadJson]
  · simp only [members, bind, Except.bind]
    cases h : loadFields check c kvs with
    | error e => rfl
    | ok o => by_cases hc : check c o = true <;> simp [hc, Except.map, pure, Except.pure]
  · simp

mutual
theorem back (check : Cls → Obj α → Bool) : ∀ (a : Ann) (v : Val α), a.Distinct → Fits check a v → Back check a v
  | .scalar, v, _, h => by
    simp only [Fits] at h
    obtain ⟨x, n, rfl, hs⟩ := h
    refine ⟨tolist x.shape x.data, by simp only [dump], fun _ => ?_, fun hp => by simp [Pinned] at hp⟩
    have := scalar_back hs
    rw [load]
    cases ha : array (tolist x.shape x.data) with
    | error e => rw [ha] at this; cases this
    | ok z => rw [ha] at this; simp only [bind, Except.bind] at this ⊢; rw [this]; rfl
  | .optScalar, v, _, h => by
    simp only [Fits] at h
    rcases h with rfl | ⟨x, n, rfl, hs⟩
    · exact ⟨.null, by simp only [dump], fun _ => by simp only [load], fun hp => by simp [Pinned] at hp⟩
    · refine ⟨tolist x.shape x.data, by simp only [dump], fun _ => ?_, fun hp => by simp [Pinned] at hp⟩
      have := scalar_back hs
      rw [load]
      · cases ha : array (tolist x.shape x.data) with
        | error e => rw [ha] at this; cases this
        | ok z => rw [ha] at this; simp only [bind, Except.bind] at this ⊢; rw [this]; rfl
      · rw [hs]; simp [tolist]
  | .list, v, _, h => by
    simp only [Fits] at h
    obtain ⟨x, rfl, h2, h0⟩ := h
    refine ⟨tolist x.shape x.data, by simp only [dump], fun _ => ?_, fun hp => by simp [Pinned] at hp⟩
    have := list_back h2 h0
    rw [load]
    cases ha : array (tolist x.shape x.data) with
    | error e => rw [ha] at this; cases this
    | ok z => rw [ha] at this; simp only [bind, Except.bind] at this ⊢; rw [this]; rfl
  | .ndarray, v, _, h => by
    simp only [Fits] at h
    rcases h with rfl | ⟨x, n, rfl, hs⟩
    · exact ⟨.null, by simp only [dump], fun _ => by simp only [load], fun hp => by simp [Pinned] at hp⟩
    · refine ⟨tolist x.shape x.data, by simp only [dump], fun hp => by simp [Pinned] at hp, fun _ => ⟨.valueError, ?_⟩⟩
      rw [hs]
      simp only [tolist, load]
  | .number, v, _, h => by
    simp only [Fits] at h
    rcases h with rfl | ⟨x, rfl⟩
    · exact ⟨.null, by simp only [dump], fun _ => by simp only [load], fun hp => by simp [Pinned] at hp⟩
    · exact ⟨.num x, by simp only [dump], fun _ => by simp only [load], fun hp => by simp [Pinned] at hp⟩
  | .text, v, _, h => by
    simp only [Fits] at h
    obtain ⟨s, rfl⟩ := h
    exact ⟨.str s, by simp only [dump], fun _ => by simp only [load], fun hp => by simp [Pinned] at hp⟩
  | .names, v, _, h => by
    simp only [Fits] at h
    obtain ⟨ns, rfl⟩ := h
    refine ⟨.list (ns.map .str), by simp only [dump], fun _ => ?_, fun hp => by simp [Pinned] at hp⟩
    simp only [load, texts_back]
    rfl
  | .model c, v, hd, h => by
    simp only [Fits] at h
    simp only [Ann.Distinct] at hd
    obtain ⟨o, rfl, hf, hc⟩ := h
    obtain ⟨kvs, k1, k2, k3⟩ := obj_back hc hd hf (backFields check c o hd hf)
    refine ⟨.obj kvs, by simp only [dump, k1]; rfl, fun hp => ?_, fun hp => ?_⟩
    · rw [load_model, k2 fun hq => hp (by simp only [Pinned]; exact ⟨o, rfl, hq⟩)]; rfl
    · simp only [Pinned] at hp
      obtain ⟨o', e, hq⟩ := hp
      cases e
      obtain ⟨e, he⟩ := k3 hq
      exact ⟨e, by rw [load_model, he]; rfl⟩
  | .optModel c, v, hd, h => by
    simp only [Fits] at h
    simp only [Ann.Distinct] at hd
    rcases h with rfl | ⟨o, rfl, hf, hc⟩
    · exact ⟨.null, by simp only [dump], fun _ => by simp only [load], fun hp => by simp [Pinned] at hp⟩
    · obtain ⟨kvs, k1, k2, k3⟩ := obj_back hc hd hf (backFields check c o hd hf)
      refine ⟨.obj kvs, by simp only [dump, k1]; rfl, fun hp => ?_, fun hp => ?_⟩
      · rw [load_optModel, k2 fun hq => hp (by simp only [Pinned]; exact ⟨o, rfl, hq⟩)]; rfl
      · simp only [Pinned] at hp
        obtain ⟨o', e, hq⟩ := hp
        cases e
        obtain ⟨e, he⟩ := k3 hq
        exact ⟨e, by rw [load_optModel, he]; rfl⟩
  | .tuple c, v, hd, h => by
    simp only [Fits] at h
    simp only [Ann.Distinct] at hd
    obtain ⟨os, rfl, hos⟩ := h
    obtain ⟨ds, d1, d2, d3⟩ := tuple_back os fun o ho =>
      ⟨(hos o ho).2, (backFields check c o hd (hos o ho).1).obj hd (hos o ho).1⟩
    refine ⟨.list ds, by simp only [dump]; rw [d1]; rfl, fun hp => ?_, fun hp => ?_⟩
    · rw [load, d2 fun hq => hp (by simp only [Pinned]; exact ⟨os, rfl, hq⟩)]; rfl
    · simp only [Pinned] at hp
      obtain ⟨os', e, hq⟩ := hp
      cases e
      obtain ⟨e, he⟩ := d3 hq
      exact ⟨e, by rw [load, he]; rfl⟩

theorem backFields (check : Cls → Obj α → Bool) : ∀ (c : Cls) (o : Obj α), c.Distinct → FitsFields check c o → BackFields check c o
  | .nil, o, _, h => by
    simp only [FitsFields] at h
    subst h
    intro o0 _
    exact ⟨[], rfl, rfl, fun kvs0 _ => ⟨fun _ => rfl, fun hp => by simp [PinnedFields] at hp⟩⟩
  | .field n a rest, o, hd, h => by
    simp only [FitsFields] at h
    simp only [Cls.Distinct] at hd
    obtain ⟨v, o', rfl, hv, ho'⟩ := h
    intro o0 h0
    obtain ⟨d, d1, d2, d3⟩ := back check a v hd.2.1 hv
    obtain ⟨kvs, k1, k2, k3⟩ := backFields check rest o' hd.2.2 ho' o0 fun p hp => h0 p (List.mem_cons_of_mem _ hp)
    have ha : assoc n o0 = some v := h0 (n, v) List.mem_cons_self
    refine ⟨(n, d) :: kvs, ?_, by simp [k2], fun kvs0 hk => ?_⟩
    · simp only [dumpFields, ha, d1, k1]; rfl
    · have hka : assoc n kvs0 = some d := hk (n, d) List.mem_cons_self
      obtain ⟨q1, q2⟩ := k3 kvs0 fun p hp => hk p (List.mem_cons_of_mem _ hp)
      constructor
      · intro hp
        have p1 : ¬ Pinned a v := fun hq => hp (by simp only [PinnedFields]; exact ⟨n, v, o', rfl, .inl hq⟩)
        have p2 : ¬ PinnedFields rest o' := fun hq => hp (by simp only [PinnedFields]; exact ⟨n, v, o', rfl, .inr hq⟩)
        simp only [loadFields, hka, d2 p1, q1 p2]
        rfl
      · intro hp
        by_cases p1 : Pinned a v
        · obtain ⟨e, he⟩ := d3 p1
          exact ⟨e, by simp only [loadFields, hka, he]; rfl⟩
        · have p2 : PinnedFields rest o' := by
            simp only [PinnedFields] at hp
            obtain ⟨n', v', o'', e, hq⟩ := hp
            cases e
            exact hq.resolve_left p1
          obtain ⟨e, he⟩ := q2 p2
          exact ⟨e, by simp only [loadFields, hka, d2 p1, he]; rfl⟩
end

end Json
end Verif
