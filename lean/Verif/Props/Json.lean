import Verif.Proofs.Json
/-!
# States and parameters written as JSON (C95)
-/

namespace Verif
namespace Json
variable {α : Type}

/-- C95.  An object that is exactly of its class can always be written as JSON.  What is written is read back as the same object if no
pinpoints of an interpolated parameter are set anywhere in it, and cannot be read if some are.  The property asks that every object is read
back. -/
theorem C95_read_back_partial (check : Cls → Obj α → Bool) (c : Cls) (hd : c.Distinct) (o : Obj α) (hf : FitsFields check c o)
    (hc : check c o = true) : ∃ d, dumpJson c o = .ok d ∧ (loadJson check c d = .ok o ↔ ¬ PinnedFields c o) ∧
      (PinnedFields c o → ∃ e, loadJson check c d = .error e) := by
  obtain ⟨kvs, k1, k2, k3⟩ := obj_back hc hd hf (backFields check c o hd hf)
  refine ⟨.obj kvs, by simp only [dumpJson, dump, k1]; rfl, ⟨fun h hp => ?_, k2⟩, k3⟩
  obtain ⟨e, he⟩ := k3 hp
  rw [he] at h
  cases h

theorem ecmAsoh_distinct : ecmAsoh.Distinct := by
  simp [ecmAsoh, health, cls, interpolated, resistance, Cls.Distinct, Ann.Distinct, Cls.names]

theorem ecmTransient_distinct : ecmTransient.Distinct := by
  simp [ecmTransient, cls, Cls.Distinct, Ann.Distinct, Cls.names]

theorem theveninTransient_distinct : theveninTransient.Distinct := by
  simp [theveninTransient, cls, Cls.Distinct, Ann.Distinct, Cls.names]

/-- C95, transient states: those of both models are always read back. -/
theorem C95_transients_read_back (check : Cls → Obj α → Bool) (o : Obj α) :
    (FitsFields check ecmTransient o → check ecmTransient o = true →
      ∃ d, dumpJson ecmTransient o = .ok d ∧ loadJson check ecmTransient d = .ok o) ∧
    (FitsFields check theveninTransient o → check theveninTransient o = true →
      ∃ d, dumpJson theveninTransient o = .ok d ∧ loadJson check theveninTransient d = .ok o) := by
  constructor
  · intro hf hc
    obtain ⟨d, h1, h2, -⟩ := C95_read_back_partial check ecmTransient ecmTransient_distinct o hf hc
    exact ⟨d, h1, h2.2 (by simp [ecmTransient, cls, PinnedFields, Pinned])⟩
  · intro hf hc
    obtain ⟨d, h1, h2, -⟩ := C95_read_back_partial check theveninTransient theveninTransient_distinct o hf hc
    exact ⟨d, h1, h2.2 (by simp [theveninTransient, cls, PinnedFields, Pinned])⟩

/-- C95 fails for every interpolated parameter that has been evaluated: before, its JSON form is read back; afterwards, it cannot be read.
`rest` are the fields of a subclass, e.g. those of `Resistance`. -/
theorem C95_evaluation_makes_unreadable (check : Cls → Obj α → Bool) (rest : List (String × Ann))
    (hd : (interpolated rest).Distinct) (hr : ∀ o : Obj α, ¬ PinnedFields (cls rest) o) (upd : List Name) (values : NDArray α)
    (style : Name) (more : Obj α)
    (hf : FitsFields check (interpolated rest) (("updatable".toList, .names upd) :: ("base_values".toList, .arr values) ::
      ("soc_pinpoints".toList, .none) :: ("interpolation_style".toList, .text style) :: more))
    (points : NDArray α) (n : Nat) (hp : points.shape = [n]) :
    let o : Obj α := ("updatable".toList, .names upd) :: ("base_values".toList, .arr values) ::
      ("soc_pinpoints".toList, .none) :: ("interpolation_style".toList, .text style) :: more
    check (interpolated rest) o = true → check (interpolated rest) (evaluate points o) = true →
    (∃ d, dumpJson (interpolated rest) o = .ok d ∧ loadJson check (interpolated rest) d = .ok o) ∧
      ∃ d e, dumpJson (interpolated rest) (evaluate points o) = .ok d ∧ loadJson check (interpolated rest) d = .error e := by
  intro o hc1 hc2
  have hpin : ¬ PinnedFields (interpolated rest) o := by
    simp [o, interpolated, health, cls, PinnedFields, Pinned, hr]
  have hmore : evaluate points more = more := by
    have hn : (o.map Prod.fst).Nodup := by rw [FitsFields.names hf]; exact hd.nodup
    have hnot : "soc_pinpoints".toList ∉ more.map Prod.fst := by
      simp only [o, List.map_cons, List.nodup_cons, List.mem_cons] at hn
      exact fun hm => hn.2.2.1 (.inr hm)
    refine (List.map_congr_left (g := id) ?_).trans (List.map_id more)
    intro p hpm
    have hne : p.1 ≠ "soc_pinpoints".toList := fun e => hnot (e ▸ List.mem_map_of_mem hpm)
    show (if p.1 = _ then _ else p) = p
    rw [if_neg hne]
  have he : evaluate points o = ("updatable".toList, .names upd) :: ("base_values".toList, .arr values) ::
      ("soc_pinpoints".toList, .arr points) :: ("interpolation_style".toList, .text style) :: more := by
    show _ :: _ :: _ :: _ :: evaluate points more = _
    rw [hmore]
    rfl
  constructor
  · obtain ⟨d, h1, h2, -⟩ := C95_read_back_partial check _ hd o hf hc1
    exact ⟨d, h1, h2.2 hpin⟩
  · have hf' : FitsFields check (interpolated rest) (evaluate points o) := by
      rw [he]
      simp only [interpolated, health, cls, FitsFields] at hf ⊢
      obtain ⟨v1, o1, e1, f1, v2, o2, e2, f2, v3, o3, e3, f3, v4, o4, e4, f4, f5⟩ := hf
      cases e1; cases e2; cases e3; cases e4
      exact ⟨_, _, rfl, f1, _, _, rfl, f2, _, _, rfl, by simp only [Fits]; exact .inr ⟨_, n, rfl, hp⟩, _, _, rfl, f4, f5⟩
    obtain ⟨d, h1, -, h3⟩ := C95_read_back_partial check _ hd (evaluate points o) hf' hc2
    obtain ⟨e, h4⟩ := h3 (by
      rw [he]
      simp only [interpolated, health, cls, PinnedFields]
      exact ⟨_, _, _, rfl, .inr ⟨_, _, _, rfl, .inr ⟨_, _, _, rfl, .inl (by simp [Pinned])⟩⟩⟩)
    exact ⟨d, e, h1, h4⟩

theorem backJson (check : Cls → Obj α → Bool) (c : Cls) (hd : c.Distinct) (o : Obj α) (hf : FitsFields check c o)
    (hp : ¬ PinnedFields c o) : ∃ d, dumpJson c o = .ok d ∧ (check c o = true → loadJson check c d = .ok o) := by
  obtain ⟨kvs, k1, k2, -⟩ := (backFields check c o hd hf).obj hd hf
  refine ⟨.obj kvs, by simp only [dumpJson, dump, k1]; rfl, fun hc => ?_⟩
  show (do
    let o ← loadFields check c kvs
    if check c o then return o else .error .valueError : Except Err (Obj α)) = _
  rw [k2 hp]
  simp only [bind, Except.bind, hc, if_true]
  rfl

/-- The part of an object that is written where the annotation says `HealthVariable` without further fields. -/
def onlyUpdatable (o : Obj α) : Obj α := o.take 1

theorem dump_base (ns : List Name) (o : Obj α) :
    dumpFields (health []) (("updatable".toList, .names ns) :: o) = .ok [("updatable".toList, .list (ns.map .str))] := by
  simp only [health, cls, dumpFields, assoc, dump, if_true]
  rfl

theorem dump_base_take (os : List (Obj α)) (h : ∀ o ∈ os, ∃ (ns : List Name) (o' : Obj α), o = ("updatable".toList, .names ns) :: o') :
    dump (.tuple (health [])) (.tuple os) = dump (.tuple (health [])) (.tuple (os.map onlyUpdatable)) := by
  simp only [dump]
  congr 1
  induction os with
  | nil => rfl
  | cons o os ih =>
    obtain ⟨ns, o', rfl⟩ := h o List.mem_cons_self
    rw [List.map_cons, List.mapM_cons, List.mapM_cons, ih fun o ho => h o (List.mem_cons_of_mem _ ho)]
    congr 1

/-- Each field of a class is written alike for two objects. -/
def Alike : Cls → Obj α → Obj α → Prop
  | .nil, _, _ => True
  | .field n a rest, o, o' => (∃ v v', assoc n o = some v ∧ assoc n o' = some v' ∧ dump a v = dump a v') ∧ Alike rest o o'

theorem dumpFields_alike : ∀ {c : Cls} {o o' : Obj α}, Alike c o o' → dumpFields c o = dumpFields c o'
  | .nil, _, _, _ => rfl
  | .field n a rest, o, o', h => by
    obtain ⟨⟨v, v', h1, h2, h3⟩, h4⟩ := h
    simp only [dumpFields, h1, h2, h3, dumpFields_alike h4]

theorem theveninAsoh_distinct : theveninAsoh.Distinct := by
  simp [theveninAsoh, health, cls, Cls.Distinct, Ann.Distinct, Cls.names]

/-- The fields of a `TheveninASOH` (moirae/models/thevenin/state.py:13-37). -/
def theveninObj (upd : List Name) (cap mass cp hth ath : NDArray α) (ocv : Obj α) (r c : List (Obj α)) : Obj α :=
  [("updatable".toList, .names upd), ("capacity".toList, .arr cap), ("mass".toList, .arr mass), ("c_p".toList, .arr cp),
    ("h_thermal".toList, .arr hth), ("a_therm".toList, .arr ath), ("ocv".toList, .obj ocv), ("r".toList, .tuple r),
    ("c".toList, .tuple c)]

/-- C95 fails for Thevenin circuits: whatever the open circuit voltage, the resistances and the capacitances are, nothing of them is
written but the names of their updatable parameters.  What is read back has neither polynomials nor other fields. -/
theorem C95_thevenin_coefficients_lost (check : Cls → Obj α → Bool)
    (hcheck : ∀ ns, check (health []) [("updatable".toList, .names ns)] = true)
    (upd : List Name) (cap mass cp hth ath : NDArray α) (hs : ∀ x ∈ [cap, mass, cp, hth, ath], ∃ n, x.shape = [n, 1])
    (ocv : Obj α) (r c : List (Obj α))
    (hu : ∀ o ∈ ocv :: (r ++ c), ∃ (ns : List Name) (o' : Obj α), o = ("updatable".toList, .names ns) :: o') :
    let bare := theveninObj upd cap mass cp hth ath (onlyUpdatable ocv) (r.map onlyUpdatable) (c.map onlyUpdatable)
    ∃ d, dumpJson theveninAsoh (theveninObj upd cap mass cp hth ath ocv r c) = .ok d ∧ dumpJson theveninAsoh bare = .ok d ∧
      (check theveninAsoh bare = true → loadJson check theveninAsoh d = .ok bare) := by
  intro bare
  have hr : ∀ o ∈ r, ∃ (ns : List Name) (o' : Obj α), o = ("updatable".toList, .names ns) :: o' := fun o ho => hu o (by simp [ho])
  have hc : ∀ o ∈ c, ∃ (ns : List Name) (o' : Obj α), o = ("updatable".toList, .names ns) :: o' := fun o ho => hu o (by simp [ho])
  obtain ⟨ns, ocv', rfl⟩ := hu ocv (by simp)
  have hocv : dump (.model (health [])) (.obj (("updatable".toList, .names ns) :: ocv')) =
      dump (.model (health [])) (.obj (onlyUpdatable (("updatable".toList, .names ns) :: ocv'))) := by
    simp only [dump, dump_base]
    show _ = (do return Doc.obj (← dumpFields (health []) (("updatable".toList, .names ns) :: [])))
    rw [dump_base]
  have hsame : dumpJson theveninAsoh (theveninObj upd cap mass cp hth ath (("updatable".toList, .names ns) :: ocv') r c) =
      dumpJson theveninAsoh bare := by
    have hal : Alike theveninAsoh (theveninObj upd cap mass cp hth ath (("updatable".toList, .names ns) :: ocv') r c) bare := by
      show Alike (cls _) _ _
      simp only [cls, Alike, bare]
      have hA : ∀ (o : Obj α) (r c : List (Obj α)), let t := theveninObj upd cap mass cp hth ath o r c
          assoc "updatable".toList t = some (.names upd) ∧ assoc "capacity".toList t = some (.arr cap) ∧
          assoc "mass".toList t = some (.arr mass) ∧ assoc "c_p".toList t = some (.arr cp) ∧
          assoc "h_thermal".toList t = some (.arr hth) ∧ assoc "a_therm".toList t = some (.arr ath) ∧
          assoc "ocv".toList t = some (.obj o) ∧ assoc "r".toList t = some (.tuple r) ∧ assoc "c".toList t = some (.tuple c) := by
        intro o r c
        simp [theveninObj, assoc]
      obtain ⟨a1, a2, a3, a4, a5, a6, a7, a8, a9⟩ := hA (("updatable".toList, .names ns) :: ocv') r c
      obtain ⟨b1, b2, b3, b4, b5, b6, b7, b8, b9⟩ :=
        hA (onlyUpdatable (("updatable".toList, .names ns) :: ocv')) (r.map onlyUpdatable) (c.map onlyUpdatable)
      exact ⟨⟨_, _, a1, b1, rfl⟩, ⟨_, _, a2, b2, rfl⟩, ⟨_, _, a3, b3, rfl⟩, ⟨_, _, a4, b4, rfl⟩, ⟨_, _, a5, b5, rfl⟩,
        ⟨_, _, a6, b6, rfl⟩, ⟨_, _, a7, b7, hocv⟩, ⟨_, _, a8, b8, dump_base_take r hr⟩, ⟨_, _, a9, b9, dump_base_take c hc⟩, trivial⟩
    simp only [dumpJson, dump, dumpFields_alike hal]
  have hfits : FitsFields check theveninAsoh bare := by
    have hpart : ∀ o : Obj α, (∃ (ns : List Name) (o' : Obj α), o = ("updatable".toList, .names ns) :: o') →
        FitsFields check (health []) (onlyUpdatable o) ∧ check (health []) (onlyUpdatable o) = true := by
      rintro o ⟨ns, o', rfl⟩
      exact ⟨by simp [health, cls, FitsFields, Fits, onlyUpdatable], hcheck ns⟩
    have hs1 := hs cap (by simp)
    have hs2 := hs mass (by simp)
    have hs3 := hs cp (by simp)
    have hs4 := hs hth (by simp)
    have hs5 := hs ath (by simp)
    have hro : ∀ o ∈ r.map onlyUpdatable, FitsFields check (health []) o ∧ check (health []) o = true := by
      intro o ho
      obtain ⟨o', ho', rfl⟩ := List.mem_map.1 ho
      exact hpart o' (hr o' ho')
    have hco : ∀ o ∈ c.map onlyUpdatable, FitsFields check (health []) o ∧ check (health []) o = true := by
      intro o ho
      obtain ⟨o', ho', rfl⟩ := List.mem_map.1 ho
      exact hpart o' (hc o' ho')
    have hoc := hpart _ ⟨ns, ocv', rfl⟩
    show FitsFields check (cls _) _
    simp only [cls, FitsFields, bare, theveninObj]
    refine ⟨_, _, rfl, ?_, _, _, rfl, ?_, _, _, rfl, ?_, _, _, rfl, ?_, _, _, rfl, ?_, _, _, rfl, ?_, _, _, rfl, ?_, _, _, rfl, ?_,
      _, _, rfl, ?_, rfl⟩
    · simp [Fits]
    · obtain ⟨n, h⟩ := hs1; simp [Fits, h]
    · obtain ⟨n, h⟩ := hs2; simp [Fits, h]
    · obtain ⟨n, h⟩ := hs3; simp [Fits, h]
    · obtain ⟨n, h⟩ := hs4; simp [Fits, h]
    · obtain ⟨n, h⟩ := hs5; simp [Fits, h]
    · simp only [Fits]; exact ⟨_, rfl, hoc⟩
    · simp only [Fits]; exact ⟨_, rfl, hro⟩
    · simp only [Fits]; exact ⟨_, rfl, hco⟩
  have hpin : ¬ PinnedFields theveninAsoh bare := by
    simp [theveninAsoh, health, cls, PinnedFields, Pinned]
  obtain ⟨d, h1, h2⟩ := backJson check theveninAsoh theveninAsoh_distinct bare hfits hpin
  exact ⟨d, by rw [hsame]; exact h1, h1, h2⟩

/-! ## Examples -/

section Lemmas
variable {check : Cls → Obj α → Bool} {n n' : Name} {a : Ann} {c : Cls} {v : Val α} {o : Obj α} {os : List (Obj α)} {x : NDArray α}

theorem fits_nil : FitsFields check .nil ([] : Obj α) := by simp only [FitsFields]

theorem fits_cons : FitsFields check (.field n a c) ((n', v) :: o) ↔ n' = n ∧ Fits check a v ∧ FitsFields check c o := by
  simp only [FitsFields]
  constructor
  · rintro ⟨v, o, e, h⟩; cases e; exact ⟨rfl, h⟩
  · rintro ⟨rfl, h⟩; exact ⟨_, _, rfl, h⟩

theorem fits_model : Fits check (.model c) (.obj o) ↔ FitsFields check c o ∧ check c o = true := by
  simp only [Fits]
  constructor
  · rintro ⟨o, e, h⟩; cases e; exact h
  · exact fun h => ⟨_, rfl, h⟩

theorem fits_optModel : Fits check (.optModel c) (.obj o) ↔ FitsFields check c o ∧ check c o = true := by
  simp only [Fits]
  constructor
  · rintro (e | ⟨o, e, h⟩)
    · cases e
    · cases e; exact h
  · exact fun h => .inr ⟨_, rfl, h⟩

theorem fits_tuple : Fits check (.tuple c) (.tuple os) ↔ ∀ o ∈ os, FitsFields check c o ∧ check c o = true := by
  simp only [Fits]
  constructor
  · rintro ⟨os, e, h⟩; cases e; exact h
  · exact fun h => ⟨_, rfl, h⟩

theorem fits_scalar : Fits check .scalar (.arr x) ↔ ∃ n, x.shape = [n, 1] := by
  simp only [Fits]
  constructor
  · rintro ⟨x, n, e, h⟩; cases e; exact ⟨n, h⟩
  · rintro ⟨n, h⟩; exact ⟨_, n, rfl, h⟩

theorem fits_list : Fits check .list (.arr x) ↔ 2 ≤ x.shape.length ∧ 0 ∉ x.shape.dropLast := by
  simp only [Fits]
  constructor
  · rintro ⟨x, e, h⟩; cases e; exact h
  · exact fun h => ⟨_, rfl, h⟩

theorem fits_text {s : Name} : Fits check .text (.text s) := by simp only [Fits]; exact ⟨_, rfl⟩

theorem fits_names {ns : List Name} : Fits check .names (.names ns) := by simp only [Fits]; exact ⟨_, rfl⟩

theorem fits_num {r : α} : Fits check .number (.num r) := by simp only [Fits]; exact .inr ⟨_, rfl⟩

theorem fits_noArray : Fits check .ndarray .none := by simp [Fits]

theorem fits_noScalar : Fits check .optScalar .none := by simp [Fits]

theorem pinned_cons : PinnedFields (.field n a c) ((n', v) :: o) ↔ Pinned a v ∨ PinnedFields c o := by
  simp only [PinnedFields]
  constructor
  · rintro ⟨_, v, o, e, h⟩; cases e; exact h
  · exact fun h => ⟨_, _, _, rfl, h⟩

theorem pinned_nil : ¬ PinnedFields .nil o := by simp [PinnedFields]

theorem pinned_model : Pinned (.model c) (.obj o) ↔ PinnedFields c o := by
  simp only [Pinned]
  constructor
  · rintro ⟨o, e, h⟩; cases e; exact h
  · exact fun h => ⟨_, rfl, h⟩

theorem pinned_optModel : Pinned (.optModel c) (.obj o) ↔ PinnedFields c o := by
  simp only [Pinned]
  constructor
  · rintro ⟨o, e, h⟩; cases e; exact h
  · exact fun h => ⟨_, rfl, h⟩

theorem pinned_tuple : Pinned (.tuple c) (.tuple os) ↔ ∃ o ∈ os, PinnedFields c o := by
  simp only [Pinned]
  constructor
  · rintro ⟨os, e, h⟩; cases e; exact h
  · exact fun h => ⟨_, rfl, h⟩

end Lemmas

/-- A 2D array with one row (test data). -/
def row1 (l : List Int) : NDArray Int := ⟨[1, l.length], l, by simp⟩

/-- The fields of an interpolated parameter (test data). -/
def interp1 (l : List Int) (pins : Val Int) (more : Obj Int) : Obj Int :=
  ("updatable".toList, .names ["base_values".toList]) :: ("base_values".toList, .arr (row1 l)) :: ("soc_pinpoints".toList, pins) ::
    ("interpolation_style".toList, .text "linear".toList) :: more

/-- The further fields of a resistance (test data). -/
def resist1 : Obj Int := [("reference_temperature".toList, .num 25), ("temperature_dependence_factor".toList, .arr (row1 [0]))]

/-- An `ECMASOH` with two RC elements and a series capacitor, whose series resistance may have pinpoints (test data). -/
def asoh1 (pins : Val Int) : Obj Int :=
  [("updatable".toList, .names []),
   ("q_t".toList, .obj [("updatable".toList, .names ["base_values".toList]), ("base_values".toList, .arr (row1 [10]))]),
   ("ce".toList, .arr (row1 [1])),
   ("ocv".toList, .obj [("updatable".toList, .names []),
     ("ocv_ref".toList, .obj (interp1 [3, 4] .none [("reference_temperature".toList, .arr (row1 [25]))])),
     ("ocv_ent".toList, .obj (interp1 [0] .none []))]),
   ("r0".toList, .obj (interp1 [1, 2, 3] pins resist1)),
   ("c0".toList, .obj (interp1 [7] .none [])),
   ("rc_elements".toList, .tuple
     [[("updatable".toList, .names []), ("r".toList, .obj (interp1 [1] .none resist1)), ("c".toList, .obj (interp1 [2] .none []))],
      [("updatable".toList, .names []), ("r".toList, .obj (interp1 [3, 4] .none resist1)), ("c".toList, .obj (interp1 [5] .none []))]]),
   ("h0".toList, .obj (interp1 [0] .none [("gamma".toList, .arr (row1 [50]))]))]

/-- The transient states of both models, with two RC elements, are read back. -/
example : (∃ d, dumpJson ecmTransient [("soc".toList, .arr (row1 [1])), ("q0".toList, .arr (row1 [2])), ("i_rc".toList, .arr (row1 [3, 4])),
      ("hyst".toList, .arr (row1 [0]))] = .ok d ∧ loadJson (fun _ _ => true) ecmTransient d = .ok
      [("soc".toList, .arr (row1 [1])), ("q0".toList, .arr (row1 [2])), ("i_rc".toList, .arr (row1 [3, 4])), ("hyst".toList, .arr (row1 [0]))]) ∧
    ∃ d, dumpJson theveninTransient [("soc".toList, .arr (row1 [1])), ("temp".toList, .arr (row1 [298])), ("eta".toList, .arr (row1 [3, 4]))] = .ok d ∧
      loadJson (fun _ _ => true) theveninTransient d = .ok
        [("soc".toList, .arr (row1 [1])), ("temp".toList, .arr (row1 [298])), ("eta".toList, .arr (row1 [3, 4]))] := by
  refine ⟨(C95_transients_read_back (fun _ _ => true) _).1 ?_ rfl, (C95_transients_read_back (fun _ _ => true) _).2 ?_ rfl⟩
  · simp [ecmTransient, cls, row1, fits_nil, fits_cons, fits_scalar, fits_list, Fits]
  · simp [theveninTransient, cls, row1, fits_nil, fits_cons, fits_scalar, fits_list]

theorem asoh1_fits (pins : Val Int) (h : pins = .none ∨ ∃ x n, pins = .arr x ∧ x.shape = [n]) :
    FitsFields (fun _ _ => true) ecmAsoh (asoh1 pins) := by
  have hp : Fits (fun _ _ => true) .ndarray pins := by simp only [Fits]; exact h
  simp [ecmAsoh, asoh1, health, cls, interpolated, resistance, interp1, resist1, row1, hp, fits_nil, fits_cons, fits_model, fits_optModel,
    fits_tuple, fits_scalar, fits_list, fits_text, fits_names, fits_num, fits_noArray]

/-- The circuit is read back without pinpoints, and cannot be read once the series resistance has some. -/
example : (∃ d, dumpJson ecmAsoh (asoh1 .none) = .ok d ∧ loadJson (fun _ _ => true) ecmAsoh d = .ok (asoh1 .none)) ∧
    ∃ d e, dumpJson ecmAsoh (asoh1 (.arr ⟨[3], [0, 1, 2], rfl⟩)) = .ok d ∧ loadJson (fun _ _ => true) ecmAsoh d = .error e := by
  constructor
  · obtain ⟨d, h1, h2, -⟩ := C95_read_back_partial (fun _ _ => true) ecmAsoh ecmAsoh_distinct (asoh1 .none)
      (asoh1_fits _ (.inl rfl)) rfl
    refine ⟨d, h1, h2.2 ?_⟩
    simp [ecmAsoh, asoh1, health, cls, interpolated, resistance, interp1, resist1, pinned_cons, pinned_nil, pinned_model,
      pinned_optModel, pinned_tuple, Pinned.eq_1, Pinned.eq_5]
  · obtain ⟨d, h1, -, h3⟩ := C95_read_back_partial (fun _ _ => true) ecmAsoh ecmAsoh_distinct (asoh1 (.arr ⟨[3], [0, 1, 2], rfl⟩))
      (asoh1_fits _ (.inr ⟨_, 3, rfl, rfl⟩)) rfl
    obtain ⟨e, he⟩ := h3 (by
      simp [ecmAsoh, asoh1, health, cls, interpolated, resistance, interp1, resist1, pinned_cons, pinned_nil, pinned_model,
        pinned_optModel, pinned_tuple, Pinned.eq_1, Pinned.eq_5])
    exact ⟨d, e, h1, he⟩

/-- A resistance is read back until it is evaluated. -/
example : (∃ d, dumpJson resistance (interp1 [1, 2, 3] .none resist1) = .ok d ∧
      loadJson (fun _ _ => true) resistance d = .ok (interp1 [1, 2, 3] .none resist1)) ∧
    ∃ d e, dumpJson resistance (evaluate ⟨[3], [0, 1, 2], rfl⟩ (interp1 [1, 2, 3] .none resist1)) = .ok d ∧
      loadJson (fun _ _ => true) resistance d = .error e :=
  C95_evaluation_makes_unreadable (fun _ _ => true) [("reference_temperature", .number), ("temperature_dependence_factor", .scalar)]
    (by simp [health, cls, interpolated, Cls.Distinct, Ann.Distinct, Cls.names]) (by simp [cls, PinnedFields, Pinned]) _ (row1 [1, 2, 3]) _ resist1
    (by simp [health, cls, interpolated, resist1, row1, fits_nil, fits_cons, fits_scalar, fits_list, fits_text, fits_names, fits_num,
      fits_noArray]) ⟨[3], [0, 1, 2], rfl⟩ 3 rfl rfl rfl

/-- A transient state of a batch of three cells with a circuit of two RC elements and no series capacitor. -/
example : let o : Obj Int := [("soc".toList, .arr ⟨[3, 1], [0, 1, 2], rfl⟩), ("q0".toList, .none),
      ("i_rc".toList, .arr ⟨[3, 2], [1, 2, 3, 4, 5, 6], rfl⟩), ("hyst".toList, .arr ⟨[1, 1], [0], rfl⟩)]
    ∃ d, dumpJson ecmTransient o = .ok d ∧ loadJson (fun _ _ => true) ecmTransient d = .ok o :=
  (C95_transients_read_back (fun _ _ => true) _).1 (by simp [ecmTransient, cls, fits_nil, fits_cons, fits_scalar, fits_list, fits_noScalar]) rfl

/-- Two circuits with different open circuit voltages have the same JSON form. -/
example : let o (l : List Int) : Obj Int := (theveninObj [] (row1 [1]) (row1 [1]) (row1 [1150]) (row1 [12]) (row1 [1])
      [("updatable".toList, .names []), ("coeffs".toList, .arr (row1 l))] [] [])
    o [3, 1] ≠ o [4] ∧ dumpJson theveninAsoh (o [3, 1]) = dumpJson theveninAsoh (o [4]) := by
  refine ⟨by simp [theveninObj, row1], ?_⟩
  have key := fun l : List Int => C95_thevenin_coefficients_lost (fun _ _ => true) (fun _ => rfl) [] (row1 [1]) (row1 [1]) (row1 [1150])
    (row1 [12]) (row1 [1]) (by simp [row1]) [("updatable".toList, .names []), ("coeffs".toList, .arr (row1 l))] [] []
    (by simp)
  obtain ⟨d, h1, h2, -⟩ := key [3, 1]
  obtain ⟨d', h3, h4, -⟩ := key [4]
  have : dumpJson theveninAsoh _ = .ok d' := h4
  rw [h1, h3, ← h2, ← this]
  rfl

end Json
end Verif
