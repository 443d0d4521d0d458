import Verif.TypedDict.Classes

/-! # Properties of typed dictionaries -/

namespace Verif.TypedDict

variable {T V : Type}

/-- The dictionary with the keys and values. -/
def Dict.of (xs : List (String × V)) : Dict V := fun k => (xs.find? fun x => x.1 = k).map (·.2)

instance (td : TD T) : Decidable (Distinct td) := by unfold Distinct; infer_instance

instance (td : TD Set) (xs : List (String × Nat)) : Decidable (Fits Set.has td (Dict.of xs)) :=
  decidable_of_iff
    ((∀ m ∈ td.named, m.required = true → Dict.of xs m.name ≠ none) ∧
      (∀ m ∈ td.named, ∀ v ∈ Dict.of xs m.name, m.ty.has v) ∧
      ∀ e ∈ td.extra, ∀ x ∈ xs, (∀ m ∈ td.named, m.name ≠ x.1) → ∀ v ∈ Dict.of xs x.1, e.ty.has v)
    ⟨fun h => ⟨h.1, h.2.1, fun e he k v hk hv => by
      have hm : ∃ x ∈ xs, x.1 = k := by
        unfold Dict.of at hv
        rw [Option.map_eq_some_iff] at hv
        obtain ⟨x, hx, _⟩ := hv
        exact ⟨x, List.mem_of_find?_eq_some hx, by have := List.find?_some hx; simpa using this⟩
      obtain ⟨x, hx, rfl⟩ := hm
      exact h.2.2 e he x hx hk v hv⟩,
    fun h => ⟨h.required, h.named, fun e he x hx hk v hv => h.extra e he x.1 v hk hv⟩⟩

/-! ## C123: typed dicts stay right -/

/-- Whatever a program does with a dictionary through the types that are accepted for it, it has the
values that all these types say. -/
theorem views_stay_right_partial (o : Ops T) (has : T → V → Prop) (ho : Means o has) (root : View T)
    (hroot : root.Distinct) (vs : List (View T)) (d : Dict V) (h : CheckedFair o has root vs d) :
    ∀ w ∈ vs, FitsView has w d := by
  obtain ⟨h1, h2⟩ := reach_right ho hroot h
  intro w hw
  obtain ⟨h3, h4⟩ := h1 w hw
  exact (fitsView_iff h3).mpr fun k => (h4 k).fits (h2 k)

/-- A member that a typed dict declares can be read through every view, whatever was done. -/
theorem required_keys_stay_partial (o : Ops T) (has : T → V → Prop) (ho : Means o has) (root : View T)
    (hroot : root.Distinct) (vs : List (View T)) (d : Dict V) (h : CheckedFair o has root vs d)
    (td : TD T) (htd : .td td ∈ vs) (m : Member T) (hm : m ∈ td.named) (hr : m.required = true) :
    ∃ v, d m.name = some v ∧ has m.ty v := by
  have := views_stay_right_partial o has ho root hroot vs d h _ htd
  cases hv : d m.name with
  | none => exact absurd hv (this.required m hm hr)
  | some v => exact ⟨v, rfl, this.named m hm v hv⟩

/-- A movie with a title and a year that can be missing. -/
def movie : TD Set where
  named := [⟨"title", some [0, 1], true, false⟩, ⟨"year", some [2, 3], false, false⟩]
  definedAt := 1

/-- Only the title, which is read-only. -/
def titled : TD Set where
  named := [⟨"title", some [0, 1, 2], true, true⟩]
  definedAt := 2

/-- The year can be written. -/
def dated : TD Set where
  named := [⟨"year", some [3, 2], false, false⟩]
  definedAt := 3

/-- A run of the program: the dictionary is used as `Titled`, `Dated` and `Mapping[str, object]`, the
year is set through `Dated`. -/
example : ∃ vs, CheckedFair sets Set.has (.td movie) vs ((Dict.of [("title", 1)]).put "year" 3) ∧
    .td dated ∈ vs ∧ .td titled ∈ vs ∧ .mapping none ∈ vs := by
  refine ⟨[.mapping none, .td dated, .td titled, .td movie], ?_, by simp, by simp, by simp⟩
  refine .act (a := .td dated) (x := .set (.lits "year" []) (some [3])) ?_ (by simp)
    ⟨by decide, trivial⟩ (.set (by simp [Key.has]) (by decide))
  refine .cast (b := .td movie) (.cast (b := .td movie) (.cast (b := .td movie) (.start ?_) (by simp)
    ⟨by decide, ⟨nofun, nofun, nofun, nofun⟩, by decide⟩) (by simp)
    ⟨by decide, ⟨nofun, nofun, nofun, nofun⟩, by decide⟩) (by simp) ⟨by decide, trivial⟩
  show Fits Set.has movie (Dict.of [("title", 1)])
  decide

/-- A closed typed dict accepts a closed typed dict with more keys: the names of the other one are
looked up with `find_entry`, which has no entry for the extra items of a closed typed dict, and then
nothing is checked. -/
theorem closed_accepts_more_keys_violation : ∃ (root a : TD Set) (d : Dict Nat),
    Checked sets Set.has (.td root) [.td a, .td root] d ∧ Distinct root ∧ Distinct a ∧
      ¬ Fits Set.has a d := by
  refine ⟨{ named := [⟨"x", some [0], true, false⟩, ⟨"y", some [1], true, false⟩],
            extra := some ⟨some [], false⟩, definedAt := 1 },
    { named := [⟨"x", some [0], true, false⟩], extra := some ⟨some [], false⟩, definedAt := 2 },
    Dict.of [("x", 0), ("y", 1)], ?_, by decide, by decide, by decide⟩
  refine .cast (.start (root := .td _) ?_) (List.mem_singleton.mpr rfl) (by decide)
  show Fits Set.has _ _
  decide

/-- Extra items that are read-only are accepted for extra items that can be written, so a typed dict
gets values that do not fit. -/
theorem extra_items_written_violation : ∃ (root a : TD Set) (vs : List (View Set)) (d : Dict Nat),
    Checked sets Set.has (.td root) vs d ∧ .td a ∈ vs ∧ .td root ∈ vs ∧ ¬ Fits Set.has root d := by
  refine ⟨{ named := [], extra := some ⟨some [0], false⟩, definedAt := 1 },
    { named := [], extra := some ⟨some [0, 1], false⟩, definedAt := 3 },
    [.td { named := [], extra := some ⟨some [0, 1], false⟩, definedAt := 3 },
     .td { named := [], extra := some ⟨some [0, 1], true⟩, definedAt := 2 },
     .td { named := [], extra := some ⟨some [0], false⟩, definedAt := 1 }],
    (Dict.of []).put "k" 1, ?_, by simp, by simp, ?_⟩
  · refine .act (a := .td { named := [], extra := some ⟨some [0, 1], false⟩, definedAt := 3 })
      (x := .set (.lits "k" []) (some [1])) ?_ (by simp) (by decide)
      (.set (by simp [Key.has]) (by decide))
    refine .cast (b := .td { named := [], extra := some ⟨some [0, 1], true⟩, definedAt := 2 })
      (.cast (b := .td { named := [], extra := some ⟨some [0], false⟩, definedAt := 1 })
        (.start ?_) (by simp) (by decide)) (by simp) (by decide)
    show Fits Set.has _ (Dict.of [])
    decide
  · intro h
    have := h.extra _ rfl "k" 1 (by simp) (by simp [Dict.put])
    revert this
    decide

/-- A read-only member is accepted for extra items that can be written. -/
theorem read_only_member_written_violation :
    ∃ (root a : TD Set) (vs : List (View Set)) (d : Dict Nat),
      Checked sets Set.has (.td root) vs d ∧ .td a ∈ vs ∧ .td root ∈ vs ∧ ¬ Fits Set.has root d := by
  refine ⟨{ named := [⟨"x", some [0], false, false⟩], extra := some ⟨some [0, 1], false⟩,
            definedAt := 1 },
    { named := [], extra := some ⟨some [0, 1], false⟩, definedAt := 3 },
    [.td { named := [], extra := some ⟨some [0, 1], false⟩, definedAt := 3 },
     .td { named := [⟨"x", some [0, 1], false, true⟩], extra := some ⟨some [0, 1], false⟩,
           definedAt := 2 },
     .td { named := [⟨"x", some [0], false, false⟩], extra := some ⟨some [0, 1], false⟩,
           definedAt := 1 }],
    (Dict.of []).put "x" 1, ?_, by simp, by simp, ?_⟩
  · refine .act (a := .td { named := [], extra := some ⟨some [0, 1], false⟩, definedAt := 3 })
      (x := .set (.lits "x" []) (some [1])) ?_ (by simp) (by decide)
      (.set (by simp [Key.has]) (by decide))
    refine .cast (b := .td { named := [⟨"x", some [0, 1], false, true⟩],
                             extra := some ⟨some [0, 1], false⟩, definedAt := 2 })
      (.cast (b := .td { named := [⟨"x", some [0], false, false⟩],
                         extra := some ⟨some [0, 1], false⟩, definedAt := 1 })
        (.start ?_) (by simp) (by decide)) (by simp) (by decide)
    show Fits Set.has _ (Dict.of [])
    decide
  · intro h
    have := h.named ⟨"x", some [0], false, false⟩ (by simp) 1 (by simp [Dict.put])
    revert this
    decide

/-- `setdefault` is accepted for read-only members, so that a member gets a value that does not fit
the type of another view of the dictionary. -/
theorem setdefault_read_only_violation : ∃ (root a : TD Set) (d : Dict Nat),
    Checked sets Set.has (.td root) [.td a, .td root] d ∧ ¬ Fits Set.has root d := by
  refine ⟨{ named := [⟨"x", some [0], false, false⟩], definedAt := 1 },
    { named := [⟨"x", some [0, 1], false, true⟩], definedAt := 2 },
    (Dict.of []).put "x" 1, ?_, ?_⟩
  · refine .act (a := .td { named := [⟨"x", some [0, 1], false, true⟩], definedAt := 2 })
      (x := .setDefault (.lits "x" []) (some [1])) ?_ (by simp) (by decide)
      (.default (by simp [Key.has]) (by decide) (by decide))
    refine .cast (.start (root := .td _) ?_) (List.mem_singleton.mpr rfl) (by decide)
    show Fits Set.has _ (Dict.of [])
    decide
  · intro h
    have := h.named ⟨"x", some [0], false, false⟩ (by simp) 1 (by simp [Dict.put])
    revert this
    decide

/-- `update` with another typed dict does not check the types of the members. -/
theorem update_types_violation : ∃ (root : TD Set) (d : Dict Nat),
    Checked sets Set.has (.td root) [.td root] d ∧ ¬ Fits Set.has root d := by
  refine ⟨{ named := [⟨"x", some [0], true, false⟩] }, fun k => ((Dict.of [("x", 1)]) k).or
    (Dict.of [("x", 0)] k), ?_, ?_⟩
  · refine .act (a := .td { named := [⟨"x", some [0], true, false⟩] })
      (x := .update { named := [⟨"x", some [1], true, false⟩] }) ?_ (by simp) (by decide)
      (.update (by decide))
    refine .start ?_
    show Fits Set.has _ (Dict.of [("x", 0)])
    decide
  · intro h
    have := h.named ⟨"x", some [0], true, false⟩ (by simp) 1 (by decide)
    revert this
    decide

/-! ## C124: types of values that are read -/

theorem fits_slot {has : T → V → Prop} {td : TD T} (hd : Distinct td) {d : Dict V}
    (h : Fits has td d) {k : String} {v : V} (hv : d k = some v) : (tdSlot has td k).ty v :=
  ((fits_iff hd).mp h k).2 v hv

/-- `d[key]` has the type that is inferred. -/
theorem getItem_has_type (o : Ops T) (has : T → V → Prop) (td : TD T) (hd : Distinct td) (d : Dict V)
    (h : Fits has td d) (k : String) (t : T) (ht : getItem o td k = some t) (v : V)
    (hv : d k = some v) : has t v := by
  unfold getItem at ht
  rw [Option.map_eq_some_iff] at ht
  obtain ⟨e, he, rfl⟩ := ht
  have := fits_slot hd h hv
  rw [entry_slot he] at this
  exact this

/-- `d[key]` is accepted for exactly the keys that a dictionary can have: those of the members, and
all if there are extra items. -/
theorem getItem_accepted_iff (o : Ops T) (td : TD T) (k : String) :
    (getItem o td k).isSome = true ↔
      (∃ m ∈ td.named, m.name = k) ∨ ∃ e, td.extra = some e ∧ o.isNever e.ty = false := by
  unfold getItem
  rw [Option.isSome_map]
  cases hf : findEntry o td k with
  | none =>
    obtain ⟨h1, h2⟩ := entry_none hf
    simp only [Option.isSome_none, Bool.false_eq_true, false_iff, not_or, not_exists, not_and]
    exact ⟨fun m hm => find_none.mp h1 m hm, fun e he hn => by rw [h2 e he] at hn; cases hn⟩
  | some e =>
    simp only [Option.isSome_some, true_iff]
    unfold findEntry at hf
    split at hf
    · next m hm => exact .inl ⟨m, (find_spec hm).1, (find_spec hm).2⟩
    · split at hf
      · next x hx =>
        split at hf
        · cases hf
        · next hn => exact .inr ⟨x, hx, by simpa using hn⟩
      · cases hf

/-- The types of literal keys. -/
theorem found_has {o : Ops T} {has : T → V → Prop} (ho : Means o has) (f : String → T) (k : String)
    (ks : List String) (x : String) (hx : x ∈ k :: ks) (v : V) (hv : has (f x) v) :
    has (ks.foldl (fun t k => o.union t (f k)) (f k)) v := by
  have : ks.foldl (fun t k => o.union t (f k)) (f k) = (ks.map f).foldl o.union (f k) := by
    rw [List.foldl_map]
  rw [this]
  apply foldl_union ho
  rcases List.mem_cons.mp hx with rfl | hx
  · exact .inl hv
  · exact .inr ⟨f x, List.mem_map.mpr ⟨x, hx, rfl⟩, hv⟩

theorem entry_or_object {o : Ops T} {has : T → V → Prop} (ho : Means o has) {td : TD T}
    (hd : Distinct td) {d : Dict V} (h : Fits has td d) {k : String} {v : V} (hv : d k = some v) :
    has (match findEntry o td k with
      | some e => e.ty
      | none => o.object) v := by
  cases he : findEntry o td k with
  | none => exact ho.object
  | some e =>
    have := fits_slot hd h hv
    rw [entry_slot he] at this
    exact this

theorem missing_default {o : Ops T} {has : T → V → Prop} (ho : Means o has) {td : TD T}
    (hd : Distinct td) {d : Dict V} (h : Fits has td d) {k : String} {ks : List String} {x : String}
    (hx : x ∈ k :: ks) (hn : d x = none) :
    ((k :: ks).any (fun k => match findEntry o td k with
      | some e => !e.required
      | none => false) = true) ∨
    ∀ v, has (match findEntry o td x with
      | some e => e.ty
      | none => o.object) v := by
  cases he : findEntry o td x with
  | none => exact .inr fun v => ho.object
  | some e =>
    left
    refine List.any_eq_true.mpr ⟨x, hx, ?_⟩
    simp only [he]
    have := ((fits_iff hd).mp h x).1
    rw [entry_slot he] at this
    cases hr : e.required
    · rfl
    · exact absurd hn (this hr)

/-- `d.get(key, default)` has the type that is inferred, if the key is there and if it is not. -/
theorem get_has_type (o : Ops T) (has : T → V → Prop) (ho : Means o has) (td : TD T)
    (hd : Distinct td) (d : Dict V) (h : Fits has td d) (key : Key) (k : String) (hk : key.has k)
    (default : T) (v : V) (hv : d k = some v ∨ d k = none ∧ has default v) :
    has (get o td key default) v := by
  cases key with
  | lits k1 ks =>
    unfold get
    simp only
    rcases hv with hv | ⟨hn, hv⟩
    · have := found_has ho (fun k => match findEntry o td k with
        | some e => e.ty
        | none => o.object) k1 ks k hk v (entry_or_object ho hd h hv)
      split
      · exact ho.union (.inl this)
      · exact this
    · rcases missing_default ho hd h hk hn with hm | hm
      · split
        · exact ho.union (.inr hv)
        · next hc => exact absurd hm hc
      · have := found_has ho (fun k => match findEntry o td k with
          | some e => e.ty
          | none => o.object) k1 ks k hk v (hm v)
        split
        · exact ho.union (.inl this)
        · exact this
  | str =>
    unfold get
    simp only
    split
    · next he =>
      obtain ⟨e, he⟩ := Option.isSome_iff_exists.mp he
      rcases hv with hv | ⟨_, hv⟩
      · exact ho.union (.inl (union_has ho he (fits_slot hd h hv)))
      · exact ho.union (.inr hv)
    · exact ho.object

/-- `d.pop(key)` and `d.pop(key, default)` have the type that is inferred. -/
theorem pop_has_type (o : Ops T) (has : T → V → Prop) (ho : Means o has) (td : TD T)
    (hd : Distinct td) (d : Dict V) (h : Fits has td d) (key : Key) (k : String) (hk : key.has k)
    (default : Option T) (v : V)
    (hv : d k = some v ∨ d k = none ∧ ∃ t, default = some t ∧ has t v) :
    has (pop o td key default) v := by
  cases key with
  | lits k1 ks =>
    unfold pop
    simp only
    have hfound : (∀ w, d k = some w → has (ks.foldl (fun t k => o.union t (match findEntry o td k with
        | some e => e.ty
        | none => o.object)) (match findEntry o td k1 with
        | some e => e.ty
        | none => o.object)) w) := fun w hw =>
      found_has ho (fun k => match findEntry o td k with
        | some e => e.ty
        | none => o.object) k1 ks k hk w (entry_or_object ho hd h hw)
    rcases hv with hv | ⟨hn, t, rfl, hv⟩
    · cases default with
      | none => exact hfound v hv
      | some t =>
        simp only
        split
        · exact ho.union (.inl (hfound v hv))
        · exact hfound v hv
    · simp only
      rcases missing_default ho hd h hk hn with hm | hm
      · split
        · exact ho.union (.inr hv)
        · next hc => exact absurd hm hc
      · have := found_has ho (fun k => match findEntry o td k with
          | some e => e.ty
          | none => o.object) k1 ks k hk v (hm v)
        split
        · exact ho.union (.inl this)
        · exact this
  | str =>
    unfold pop
    simp only
    split
    · next he =>
      obtain ⟨e, he⟩ := Option.isSome_iff_exists.mp he
      rcases hv with hv | ⟨_, t, rfl, hv⟩
      · exact ho.union (.inl (union_has ho he (fits_slot hd h hv)))
      · exact ho.union (.inr hv)
    · exact ho.object

/-- `d.setdefault(key, default)` has the type that is inferred. -/
theorem setDefault_has_type (o : Ops T) (has : T → V → Prop) (ho : Means o has) (td : TD T)
    (hd : Distinct td) (d : Dict V) (h : Fits has td d) (k1 : String) (ks : List String) (k : String)
    (hk : k ∈ k1 :: ks) (default : T) (v : V) (hv : d k = some v ∨ d k = none ∧ has default v) :
    has (setDefaultType o td k1 ks default) v := by
  unfold setDefaultType
  simp only
  rcases hv with hv | ⟨_, hv⟩
  · exact ho.union (.inl (found_has ho (fun k => match findEntry o td k with
      | some e => e.ty
      | none => o.object) k1 ks k hk v (entry_or_object ho hd h hv)))
  · exact ho.union (.inr hv)

/-- The elements of `d.values()` and `d.items()`, and the result of `d.popitem()`, have the type that
is inferred. -/
theorem values_have_type (o : Ops T) (has : T → V → Prop) (ho : Means o has) (td : TD T)
    (hd : Distinct td) (d : Dict V) (h : Fits has td d) (k : String) (v : V) (hv : d k = some v) :
    has (valueType o td) v := by
  unfold valueType
  split
  · next he =>
    obtain ⟨e, he⟩ := Option.isSome_iff_exists.mp he
    exact union_has ho he (fits_slot hd h hv)
  · exact ho.object

/-- The types of the values of the movie. -/
example : Distinct movie ∧ Fits Set.has movie (Dict.of [("title", 1)]) ∧
    get sets movie (.lits "year" []) (some [0]) = some [2, 3, 0] ∧
    get sets movie (.lits "title" []) (some [7]) = some [0, 1] ∧
    pop sets movie (.lits "year" ["title"]) none = some [2, 3, 0, 1] ∧
    getItem sets movie "title" = some (some [0, 1]) ∧
    getItem sets movie "length" = none ∧
    setDefaultType sets movie "year" [] (some [4]) = some [2, 3, 4] ∧
    valueType sets movie = none ∧
    valueType sets { movie with extra := some ⟨some [5], false⟩ } = some [0, 1, 2, 3, 5] := by
  decide

/-! ## C125: calls -/

/-- A call is accepted if, and only if, all keys are known and have types that fit, and all required
keys are there. -/
theorem call_accepted_iff (o : Ops T) (td : TD T) (hd : Distinct td) (args : List (String × T)) :
    checkCall o td args = [] ↔
      (∀ a ∈ args, (∃ m ∈ td.named, m.name = a.1 ∧ o.sub m.ty a.2 = true) ∨
        (∀ m ∈ td.named, m.name ≠ a.1) ∧
          ∃ e, td.extra = some e ∧ o.isNever e.ty = false ∧ o.sub e.ty a.2 = true) ∧
      ∀ m ∈ td.named, m.required = true → ∃ a ∈ args, a.1 = m.name := by
  unfold checkCall
  simp only [List.append_eq_nil_iff, List.map_eq_nil_iff]
  have hextra : ∀ (l : List String) (i : CallIssue),
      (if l.isEmpty = true then [] else [i]) = [] ↔ l = [] := by
    intro l i
    cases l <;> simp
  rw [hextra, hextra, List.map_eq_nil_iff, List.map_eq_nil_iff, List.filter_eq_nil_iff,
    List.filter_eq_nil_iff, List.filter_eq_nil_iff]
  constructor
  · rintro ⟨⟨h1, h2⟩, h3⟩
    refine ⟨fun a ha => ?_, fun m hm hr => ?_⟩
    · have ha1 := h1 a ha
      have ha2 := h2 a ha
      cases he : findEntry o td a.1 with
      | none => simp [he] at ha2
      | some e =>
        simp only [he, Bool.not_eq_true', Bool.not_eq_false] at ha1
        unfold findEntry at he
        split at he
        · next m hm =>
          cases he
          exact .inl ⟨m, (find_spec hm).1, (find_spec hm).2, ha1⟩
        · next hm =>
          split at he
          · next x hx =>
            split at he
            · cases he
            · next hn =>
              cases he
              exact .inr ⟨find_none.mp hm, x, hx, by simpa using hn, ha1⟩
          · cases he
    · have := h3 m hm
      simp only [hr, Bool.true_and, Bool.not_eq_true', Bool.not_eq_false] at this
      obtain ⟨a, ha, he⟩ := List.any_eq_true.mp this
      exact ⟨a, ha, by simpa using he⟩
  · rintro ⟨h1, h2⟩
    have hentry : ∀ a ∈ args, ∃ e, findEntry o td a.1 = some e ∧ o.sub e.ty a.2 = true := by
      intro a ha
      rcases h1 a ha with ⟨m, hm, hn, hs⟩ | ⟨hn, e, he, hv, hs⟩
      · have hf := find_of_mem hd hm
        rw [hn] at hf
        exact ⟨_, entry_named hf, hs⟩
      · exact ⟨_, entry_extra (find_none.mpr hn) he hv, hs⟩
    refine ⟨⟨fun a ha => ?_, fun a ha => ?_⟩, fun m hm => ?_⟩
    · obtain ⟨e, he, hs⟩ := hentry a ha
      simp [he, hs]
    · obtain ⟨e, he, hs⟩ := hentry a ha
      simp [he]
    · cases hr : m.required
      · simp
      · obtain ⟨a, ha, he⟩ := h2 m hm hr
        simp only [Bool.true_and, Bool.not_eq_true', Bool.not_eq_false]
        exact List.any_eq_true.mpr ⟨a, ha, by simpa using he⟩

/-- The dictionary that an accepted call makes fits the typed dict. -/
theorem call_makes_fitting (o : Ops T) (has : T → V → Prop) (ho : Means o has) (td : TD T)
    (hd : Distinct td) (args : List (String × T × V)) (hv : ∀ a ∈ args, has a.2.1 a.2.2)
    (h : checkCall o td (args.map fun a => (a.1, a.2.1)) = []) :
    Fits has td (Dict.of (args.map fun a => (a.1, a.2.2))) := by
  obtain ⟨h1, h2⟩ := (call_accepted_iff o td hd _).mp h
  have hof : ∀ k v, Dict.of (args.map fun a => (a.1, a.2.2)) k = some v →
      ∃ a ∈ args, a.1 = k ∧ a.2.2 = v := by
    intro k v hk
    unfold Dict.of at hk
    rw [Option.map_eq_some_iff] at hk
    obtain ⟨x, hx, rfl⟩ := hk
    obtain ⟨a, ha, rfl⟩ := List.mem_map.mp (List.mem_of_find?_eq_some hx)
    exact ⟨a, ha, by have := List.find?_some hx; simpa using this, rfl⟩
  refine ⟨fun m hm hr hn => ?_, fun m hm v hk => ?_, fun e he k v hk hkv => ?_⟩
  · obtain ⟨x, hx, hxn⟩ := h2 m hm hr
    obtain ⟨a, ha, rfl⟩ := List.mem_map.mp hx
    unfold Dict.of at hn
    rw [Option.map_eq_none_iff, List.find?_eq_none] at hn
    exact absurd (by simpa using hxn)
      (hn (a.1, a.2.2) (List.mem_map.mpr ⟨a, ha, rfl⟩))
  · obtain ⟨a, ha, h3, rfl⟩ := hof _ _ hk
    rcases h1 _ (List.mem_map.mpr ⟨a, ha, rfl⟩) with ⟨n, hn, hnn, hs⟩ | ⟨hno, _⟩
    · have e1 := find_of_mem hd hn
      have e2 := find_of_mem hd hm
      simp only at hnn
      rw [hnn, h3, e2] at e1
      cases e1
      exact ho.sub hs (hv a ha)
    · exact absurd h3.symm (hno m hm)
  · obtain ⟨a, ha, rfl, rfl⟩ := hof _ _ hkv
    rcases h1 _ (List.mem_map.mpr ⟨a, ha, rfl⟩) with ⟨n, hn, hnn, hs⟩ | ⟨_, e', he', _, hs⟩
    · exact absurd hnn (hk n hn)
    · rw [he] at he'
      cases he'
      exact ho.sub hs (hv a ha)

/-- A call with missing keys makes no dictionary that fits. -/
theorem missing_keys_do_not_fit (o : Ops T) (has : T → V → Prop) (td : TD T)
    (args : List (String × T × V)) (ks : List String)
    (h : .missingKeys ks ∈ checkCall o td (args.map fun a => (a.1, a.2.1))) :
    ks ≠ [] ∧ (∀ k ∈ ks, ∃ m ∈ td.named, m.name = k ∧ m.required = true) ∧
      ¬ Fits has td (Dict.of (args.map fun a => (a.1, a.2.2))) := by
  unfold checkCall at h
  simp only [List.mem_append, List.mem_map] at h
  rcases h with (⟨_, _, h⟩ | h) | h
  · cases h
  · split at h
    · cases h
    · simp at h
  · split at h
    · cases h
    · next hne =>
      rw [List.mem_singleton] at h
      cases h
      have hmem : ∀ m ∈ td.named.filter (fun m => m.required && !(args.map fun a => (a.1, a.2.1)).any
          fun a => a.1 = m.name), m ∈ td.named ∧ m.required = true ∧ ∀ a ∈ args, a.1 ≠ m.name := by
        intro m hm
        rw [List.mem_filter, Bool.and_eq_true] at hm
        refine ⟨hm.1, hm.2.1, fun a ha he => ?_⟩
        have := hm.2.2
        simp only [Bool.not_eq_true'] at this
        have h2 := List.any_eq_false.mp this (a.1, a.2.1) (List.mem_map.mpr ⟨a, ha, rfl⟩)
        simp [he] at h2
      refine ⟨fun hn => hne (by rw [hn]; rfl), fun k hk => ?_, fun hf => ?_⟩
      · obtain ⟨m, hm, rfl⟩ := List.mem_map.mp hk
        obtain ⟨h1, h2, _⟩ := hmem m hm
        exact ⟨m, h1, rfl, h2⟩
      · cases hl : td.named.filter (fun m => m.required && !(args.map fun a => (a.1, a.2.1)).any
          fun a => a.1 = m.name) with
        | nil => exact hne (by rw [hl]; rfl)
        | cons m ms =>
          obtain ⟨h1, h2, h3⟩ := hmem m (by rw [hl]; simp)
          apply hf.required m h1 h2
          unfold Dict.of
          rw [Option.map_eq_none_iff, List.find?_eq_none]
          intro x hx
          obtain ⟨a, ha, rfl⟩ := List.mem_map.mp hx
          simpa using h3 a ha

/-- Calls of the movie. -/
example : checkCall sets movie [("title", some [1])] = [] ∧
    checkCall sets movie [("year", some [2]), ("title", some [0]), ("x", some [0])] =
      [.extraKeys ["x"]] ∧
    checkCall sets movie [("year", some [9])] = [.incompatible "year", .missingKeys ["title"]] ∧
    checkCall sets { movie with extra := some ⟨some [5], false⟩ }
      [("title", some [0]), ("x", some [5])] = [] := by
  decide

/-! ## C126: classes -/

/-- The members of a class have different names. -/
theorem class_members_distinct (o : Ops T) (c : ClassDef T) : Distinct (initMembers o c).1 :=
  init_distinct o c

/-- A typed dict that is defined without issues can be used as its base classes. -/
theorem subclass_usable_as_base_partial (o : Ops T) (has : T → V → Prop) (ho : Means o has)
    (c : ClassDef T) (h : (initMembers o c).2 = []) (b : TD T) (hb : b ∈ c.bases) (hd : Distinct b)
    (hx : b.extra = none ∨ c.bases = [b]) (hc : c.closed = some true → c.extraItems = none) :
    UsableAs o has (initMembers o c).1 b :=
  above_usable ho hd (init_distinct o c) fun k => class_above ho hb h hx hc k

/-- It is accepted for its base classes, if they have no extra items. -/
theorem subclass_accepted_for_base_partial (o : Ops T) (hrefl : ∀ t, o.sub t t = true)
    (hsame : ∀ t, o.same t t = true)
    (htrans : ∀ a b c, o.sub a b = true → o.sub b c = true → o.sub a c = true)
    (c : ClassDef T) (h : (initMembers o c).2 = []) (b : TD T) (hb : b ∈ c.bases)
    (hx : b.extra = none) : isSuperTypeOf o b (initMembers o c).1 = true := by
  have hi := h
  simp only [initMembers, List.append_eq_nil_iff] at hi
  obtain ⟨⟨h1, _⟩, _⟩ := hi
  have h4 : (c.bases.foldl (fun g b => merge g b.named) ({} : Gatherer T)).issues = [] := by
    have : ∀ (e : Option (Extra T)) (ms : List (Member T)) (g : Gatherer T),
        (ms.foldl (addMember o e) g).issues = [] → g.issues = [] := by
      intro e ms
      induction ms with
      | nil => intro g h; exact h
      | cons b ms ih => intro g h; exact addMember_issues (ih _ h)
    exact this _ _ _ h1
  obtain ⟨_, h6⟩ := merges_clean h4
  have hdist : ((c.bases.foldl (fun g b => merge g b.named) ({} : Gatherer T)).members.map
      (·.name)).Nodup := by
    have : ∀ (bs : List (TD T)) (g : Gatherer T), (g.members.map (·.name)).Nodup →
        ((bs.foldl (fun g b => merge g b.named) g).members.map (·.name)).Nodup := by
      intro bs
      induction bs with
      | nil => intro g h; exact h
      | cons b bs ih => intro g h; exact ih _ (merge_distinct _ h)
    exact this _ _ (by simp)
  unfold isSuperTypeOf extraFits
  rw [hx]
  simp only [Bool.and_true]
  refine List.all_eq_true.mpr fun m hm => ?_
  have hmem : m ∈ (c.bases.foldl (fun g b => merge g b.named) ({} : Gatherer T)).members := by
    rw [h6]
    exact List.mem_append_right _ (List.mem_flatten.mpr ⟨b.named, List.mem_map.mpr ⟨b, hb, rfl⟩, hm⟩)
  obtain ⟨n, hn, hcase⟩ := addMembers_keep htrans h1 (find_of_mem hdist hmem)
  unfold memberFits
  rw [entry_named (td := (initMembers o c).1) hn]
  simp only
  rcases hcase with rfl | ⟨r1, r2, r3⟩
  · cases n.readOnly <;> simp [hrefl, hsame]
  · rw [r1]
    cases hq : m.required
    · simp [r3]
    · rw [r2 hq]
      simp [r3]

/-- A class with two bases, that narrows a read-only member and adds one. -/
example :
    let c : ClassDef Set := {
      bases := [titled, dated],
      members := [⟨"title", some [0], true, false⟩, ⟨"stars", some [5], true, false⟩] }
    initMembers sets c = ({ named := [⟨"title", some [0], true, false⟩,
      ⟨"year", some [3, 2], false, false⟩, ⟨"stars", some [5], true, false⟩] }, []) ∧
    (∀ b ∈ c.bases, Distinct b ∧ b.extra = none) ∧
    (∀ b ∈ c.bases, isSuperTypeOf sets b (initMembers sets c).1 = true) := by
  decide

/-- A class that closes a base with read-only extra items. -/
example :
    let b : TD Set := { named := [⟨"x", some [0], true, false⟩], extra := some ⟨some [1, 2], true⟩ }
    let c : ClassDef Set := {
      bases := [b], members := [⟨"y", some [2], false, false⟩], closed := some true }
    initMembers sets c = ({
      named := [⟨"x", some [0], true, false⟩, ⟨"y", some [2], false, false⟩],
      extra := some ⟨some [], false⟩ }, []) ∧ isSuperTypeOf sets b (initMembers sets c).1 = true := by
  decide

/-- What is not accepted. -/
example :
    let b : TD Set := { named := [⟨"x", some [0], true, false⟩], extra := some ⟨some [1, 2], false⟩ }
    (initMembers sets { bases := [b], members := [⟨"x", some [0], true, false⟩,
      ⟨"y", some [1, 2], true, false⟩, ⟨"z", some [1], false, false⟩,
      ⟨"r", some [1, 2], false, true⟩, ⟨"r", some [1, 2], false, false⟩] }).2 =
      [.overwritingWhileExtending "x", .requiredButExtra "y", .notAssignableToExtra "z",
       .readOnlyButExtra "r", .duplicate "r"] ∧
    (initMembers sets { bases := [b, b], members := [], closed := some false }).2 =
      [.overwritingWhileMerging "x", .closeFalseExtra] ∧
    (initMembers sets { bases := [b], members := [], extraItems := some ⟨some [1], false⟩ }).2 =
      [.extraChange] ∧
    (initMembers sets { bases := [b], members := [], closed := some true }).2 =
      [.closeNonReadOnly] := by
  decide

/-- With two bases, the extra items of one of them are lost without an issue, and members of one base
are not compared with the extra items of the other one: values of the class do not fit the base. -/
theorem two_bases_extra_items_violation : ∃ (c : ClassDef Set) (b : TD Set) (d : Dict Nat),
    (initMembers sets c).2 = [] ∧ b ∈ c.bases ∧ Fits Set.has (initMembers sets c).1 d ∧
      ¬ Fits Set.has b d ∧ isSuperTypeOf sets b (initMembers sets c).1 = false :=
  ⟨{ bases := [{ named := [], extra := some ⟨some [0], false⟩ },
               { named := [], extra := some ⟨some [1], false⟩ }], members := [] },
    { named := [], extra := some ⟨some [0], false⟩ }, Dict.of [("k", 1)],
    by decide, by decide, by decide, by decide, by decide⟩

/-- The same for a closed base: a class inherits a closed typed dict and has the members of the other
base. -/
theorem two_bases_closed_violation : ∃ (c : ClassDef Set) (b : TD Set) (d : Dict Nat),
    (initMembers sets c).2 = [] ∧ b ∈ c.bases ∧ b.extra = some ⟨some [], false⟩ ∧
      Fits Set.has (initMembers sets c).1 d ∧ ¬ Fits Set.has b d :=
  ⟨{ bases := [{ named := [⟨"x", some [0], true, false⟩], extra := some ⟨some [], false⟩ },
               { named := [⟨"y", some [1], true, false⟩] }], members := [] },
    { named := [⟨"x", some [0], true, false⟩], extra := some ⟨some [], false⟩ },
    Dict.of [("x", 0), ("y", 1)],
    by decide, by decide, by decide, by decide, by decide⟩

/-- A required member that is added to a base with read-only extra items is accepted in the class, but
then the class is not accepted for its base. -/
theorem required_member_not_accepted_violation : ∃ (c : ClassDef Set) (b : TD Set),
    (initMembers sets c).2 = [] ∧ c.bases = [b] ∧
      isSuperTypeOf sets b (initMembers sets c).1 = false :=
  ⟨{ bases := [{ named := [], extra := some ⟨some [0], true⟩ }],
     members := [⟨"x", some [0], true, false⟩] },
    { named := [], extra := some ⟨some [0], true⟩ }, by decide, by decide, by decide⟩

/-! ## C127: joins and meets -/

/-- The join of typed dicts can be used for both, if one of them has no extra items. -/
theorem join_usable_partial (o : Ops T) (has : T → V → Prop) (ho : Means o has) (a b : TD T)
    (ha : Distinct a) (hb : Distinct b) (hx : a.extra = none ∨ b.extra = none) :
    UsableAs o has a (join o a b) ∧ UsableAs o has b (join o a b) := by
  have he : (join o a b).extra = none := by
    unfold join
    rcases hx with hx | hx
    · simp only [hx]
    · simp only [hx]
      cases a.extra <;> rfl
  exact ⟨above_usable ho (join_distinct ha hb) ha fun k => (join_above ho ha hb he k).1,
    above_usable ho (join_distinct ha hb) hb fun k => (join_above ho ha hb he k).2⟩

/-- The join keeps all members that both typed dicts have. -/
theorem join_keeps_common (o : Ops T) (a b : TD T) (m1 m2 : Member T) (h1 : m1 ∈ a.named)
    (h2 : m2 ∈ b.named) (hn : m1.name = m2.name) (hr : m1.required = m2.required)
    (hs : o.same m1.ty m2.ty = true) :
    ⟨m1.name, m1.ty, m1.required, m1.readOnly || m2.readOnly⟩ ∈ (join o a b).named := by
  unfold join
  simp only [List.mem_flatten, List.mem_map]
  refine ⟨_, ⟨m1, h1, rfl⟩, ?_⟩
  simp only [List.mem_map, List.mem_filter, Bool.and_eq_true, decide_eq_true_eq, beq_iff_eq]
  exact ⟨m2, ⟨h2, ⟨hn, hr⟩, hs⟩, rfl⟩

/-- The meet of typed dicts without extra items can be used as both. -/
theorem meet_usable_partial (o : Ops T) (has : T → V → Prop) (ho : Means o has) (a b c : TD T)
    (ha : Distinct a) (hb : Distinct b) (hax : a.extra = none) (hbx : b.extra = none)
    (h : meet o a b = some c) : UsableAs o has c a ∧ UsableAs o has c b := by
  have hc := (meet_above (has := has) ho h ha hax hbx "").1
  exact ⟨above_usable ho ha hc fun k => (meet_above ho h ha hax hbx k).2.1,
    above_usable ho hb hc fun k => (meet_above ho h ha hax hbx k).2.2⟩

/-- The join and the meet of two movies. -/
example :
    let a : TD Set := { movie with named := movie.named ++ [⟨"stars", some [5], true, true⟩] }
    let b : TD Set := { named := [⟨"stars", some [5], true, false⟩, ⟨"year", some [2], false, false⟩,
      ⟨"title", some [1, 0], true, false⟩] }
    Distinct a ∧ Distinct b ∧ (join sets a b).named =
      [⟨"title", some [0, 1], true, false⟩, ⟨"stars", some [5], true, true⟩] ∧
    meet sets a b = none ∧
    (meet sets a { named := [⟨"x", some [0], true, false⟩, ⟨"title", some [1, 0], true, false⟩] }) =
      some { named := a.named ++ [⟨"x", some [0], true, false⟩], definedAt := 1 } := by
  decide

/-- The join of typed dicts with extra items keeps the extra items but not the members with other
types, so that values of the typed dicts do not fit the join. -/
theorem join_extra_items_violation : ∃ (a b : TD Set) (d : Dict Nat),
    Distinct a ∧ Distinct b ∧ Fits Set.has a d ∧ ¬ Fits Set.has (join sets a b) d :=
  ⟨{ named := [⟨"x", some [1], true, false⟩], extra := some ⟨some [0], false⟩ },
    { named := [], extra := some ⟨some [0], false⟩ }, Dict.of [("x", 1)],
    by decide, by decide, by decide, by decide⟩

/-- The join has the definition of the first typed dict, and typed dicts with the same definition are
not compared: the join is accepted for the first typed dict, which has more members. -/
theorem join_accepted_violation : ∃ (a b : TD Set) (d : Dict Nat),
    a.extra = none ∧ b.extra = none ∧ Distinct a ∧ Distinct b ∧
      matchesTypedDict sets a (join sets a b) = true ∧ Fits Set.has b d ∧
      Fits Set.has (join sets a b) d ∧ ¬ Fits Set.has a d :=
  ⟨{ named := [⟨"x", some [1], true, false⟩], definedAt := 1 },
    { named := [], definedAt := 2 }, Dict.of [],
    by decide, by decide, by decide, by decide, by decide, by decide, by decide, by decide⟩

/-- The meet loses the extra items, so that its values do not fit the typed dicts. -/
theorem meet_extra_items_violation : ∃ (a b c : TD Set) (d : Dict Nat),
    Distinct a ∧ Distinct b ∧ meet sets a b = some c ∧ Fits Set.has c d ∧ ¬ Fits Set.has a d :=
  ⟨{ named := [⟨"x", some [1], true, false⟩], extra := some ⟨some [], false⟩ },
    { named := [⟨"y", some [0], true, false⟩] },
    { named := [⟨"x", some [1], true, false⟩, ⟨"y", some [0], true, false⟩] },
    Dict.of [("x", 1), ("y", 0)], by decide, by decide, by decide, by decide, by decide⟩

/-! ## C128: narrowing by `in` -/

/-- A value of the typed dict; a final one without extra items has no subclasses that could add
keys. -/
structure FitsFinal (has : T → V → Prop) (td : TD T) (d : Dict V) : Prop where
  fits : Fits has td d
  final : td.final = true → td.extra = none → ∀ k, (∀ m ∈ td.named, m.name ≠ k) → d k = none

/-- `if key in d` keeps the typed dict in the branch that is executed. -/
theorem in_narrowing_keeps_partial (o : Ops T) (has : T → V → Prop) (ho : Means o has) (td : TD T)
    (d : Dict V) (h : FitsFinal has td d)
    (hx : td.final = true → ∀ e, td.extra = some e → o.isNever e.ty = true)
    (k : String) (ks : List String) (x : String) (hk : x ∈ k :: ks) :
    (d x ≠ none → (narrowIn td k ks).1 = true) ∧ (d x = none → (narrowIn td k ks).2 = true) := by
  have hall : ∀ (p : String → Bool) (l : List String), (l.filter p).length = l.length →
      ∀ y ∈ l, p y = true := by
    intro p l hl y hy
    exact List.length_filter_eq_length_iff.mp hl y hy
  unfold narrowIn
  simp only
  constructor
  · intro hs
    split
    · rfl
    · simp only [Bool.or_eq_true, Bool.not_eq_true', bne_iff_ne, ne_eq]
      cases hf : td.final with
      | false => exact .inl rfl
      | true =>
        right
        intro hlen
        have := hall _ _ hlen x hk
        have hno : ∀ m ∈ td.named, m.name ≠ x := by
          apply find_none.mp
          simpa [findMember] using this
        cases he : td.extra with
        | none => exact hs (h.final hf he x hno)
        | some e =>
          cases hv : d x with
          | none => exact hs hv
          | some v => exact ho.never (hx hf e he) (h.fits.extra e he x v hno hv)
  · intro hn
    split
    · next hlen =>
      have := hall _ _ hlen x hk
      cases hf : findMember td x with
      | none => simp [hf] at this
      | some m =>
        simp only [hf] at this
        obtain ⟨hm, rfl⟩ := find_spec hf
        exact absurd hn (h.fits.required m hm this)
    · rfl

/-- Both branches are kept or not. -/
example : narrowIn movie "title" [] = (true, false) ∧ narrowIn movie "year" ["title"] = (true, true) ∧
    narrowIn { movie with final := true } "x" [] = (false, true) ∧
    narrowIn { movie with final := true } "x" ["year"] = (true, true) ∧
    narrowIn movie "x" [] = (true, true) ∧
    FitsFinal Set.has { movie with final := true } (Dict.of [("title", 0), ("year", 2)]) := by
  refine ⟨by decide, by decide, by decide, by decide, by decide, by decide, fun _ _ k hk => ?_⟩
  have h1 := hk ⟨"title", some [0, 1], true, false⟩ (by simp [movie])
  have h2 := hk ⟨"year", some [2, 3], false, false⟩ (by simp [movie])
  simp only at h1 h2
  simp [Dict.of, h1, h2]

/-- A final typed dict with extra items is removed in the branch in which it has a key that is not a
member. -/
theorem in_narrowing_extra_items_violation : ∃ (td : TD Set) (d : Dict Nat) (k : String),
    Distinct td ∧ Fits Set.has td d ∧ td.final = true ∧ d k ≠ none ∧
      (narrowIn td k []).1 = false :=
  ⟨{ named := [], extra := some ⟨some [0], false⟩, final := true }, Dict.of [("k", 0)], "k",
    by decide, by decide, by decide, by decide, by decide⟩

/-! ## C129: assignability is a preorder -/

/-- A typed dict is accepted for itself. -/
theorem accepted_refl (o : Ops T) (hsub : ∀ t, o.sub t t = true) (hsame : ∀ t, o.same t t = true)
    (td : TD T) (hd : Distinct td) : isSuperTypeOf o td td = true := by
  have hentry : ∀ m ∈ td.named, findEntry o td m.name = some ⟨true, m.ty, m.required, m.readOnly⟩ :=
    fun m hm => entry_named (find_of_mem hd hm)
  unfold isSuperTypeOf
  rw [Bool.and_eq_true]
  constructor
  · refine List.all_eq_true.mpr fun m hm => ?_
    unfold memberFits
    rw [hentry m hm]
    cases m.readOnly <;> simp [hsub, hsame]
  · unfold extraFits
    cases he : td.extra with
    | none => rfl
    | some e =>
      simp only [Bool.and_eq_true]
      refine ⟨by split <;> simp [hsub, hsame], List.all_eq_true.mpr fun m hm => ?_⟩
      rw [hentry m hm]
      rfl

/-- What is accepted for a typed dict that is accepted for a third one is accepted for that, if there
are no extra items. -/
theorem accepted_trans_partial (o : Ops T)
    (hsub : ∀ a b c, o.sub a b = true → o.sub b c = true → o.sub a c = true)
    (hsame : ∀ a b c, o.same a b = true → o.same b c = true → o.same a c = true)
    (hss : ∀ a b, o.same a b = true → o.sub a b = true) (a b c : TD T)
    (ha : a.extra = none) (hb : b.extra = none)
    (h1 : isSuperTypeOf o a b = true) (h2 : isSuperTypeOf o b c = true) :
    isSuperTypeOf o a c = true := by
  unfold isSuperTypeOf at *
  rw [Bool.and_eq_true] at *
  refine ⟨List.all_eq_true.mpr fun m hm => ?_, by unfold extraFits; rw [ha]⟩
  have h3 := List.all_eq_true.mp h1.1 m hm
  unfold memberFits at h3
  cases hf : b.named.find? fun n => n.name = m.name with
  | none => simp [findEntry, hf, hb] at h3
  | some n =>
    rw [entry_named hf] at h3
    obtain ⟨hn, hnn⟩ := find_spec hf
    have h4 := List.all_eq_true.mp h2.1 n hn
    unfold memberFits at h4 ⊢
    rw [hnn] at h4
    cases he : findEntry o c m.name with
    | none => simp [he] at h4
    | some e =>
      simp only [he] at h4
      simp only at h3 ⊢
      cases r1 : m.readOnly <;> cases q1 : m.required <;> cases r2 : n.readOnly <;>
        cases q2 : n.required <;> cases r3 : e.readOnly <;> cases q3 : e.required <;>
        simp [r1, q1, r2, q2, r3, q3] at h3 h4 ⊢
      all_goals first
        | exact hsame _ _ _ h3 h4
        | exact hsub _ _ _ h3 h4
        | exact hsub _ _ _ h3 (hss _ _ h4)

/-- Three typed dicts. -/
example : isSuperTypeOf sets { named := [⟨"title", some [0, 1, 2, 3], false, true⟩] } titled = true ∧
    isSuperTypeOf sets titled movie = true ∧ isSuperTypeOf sets movie titled = false := by
  decide

/-- With extra items, a typed dict is accepted for one that is accepted for a third one, but not for
that: a member that is not required can be used for read-only extra items, but a required one not. -/
theorem accepted_trans_violation : ∃ a b c : TD Set,
    Distinct a ∧ Distinct b ∧ Distinct c ∧ isSuperTypeOf sets a b = true ∧
      isSuperTypeOf sets b c = true ∧ isSuperTypeOf sets a c = false :=
  ⟨{ named := [], extra := some ⟨some [0], true⟩ },
    { named := [⟨"x", some [0], false, true⟩], extra := some ⟨some [0], true⟩ },
    { named := [⟨"x", some [0], true, true⟩], extra := some ⟨some [0], true⟩ },
    by decide, by decide, by decide, by decide, by decide, by decide⟩

/-! ## C130: what is accepted is not less than what is safe -/

/-- `d[k] = v`, `del d[k]` and `d.setdefault(k, v)` are accepted for a member that is not read-only,
and in the case of `del` not required, if the type of the value fits. -/
theorem member_operations_accepted (o : Ops T) (td : TD T) (hd : Distinct td) (m : Member T)
    (hm : m ∈ td.named) (hr : m.readOnly = false) (t : T) (ht : o.sub m.ty t = true) :
    accepts o td (.set (.lits m.name []) t) = true ∧
      accepts o td (.setDefault (.lits m.name []) t) = true ∧
      (accepts o td (.delete (.lits m.name [])) = true ↔ m.required = false) := by
  have he := entry_named (o := o) (find_of_mem hd hm)
  simp [accepts, setItem, setDefaultItem, deleteItem, he, hr, ht]

/-- The same for the extra items. -/
theorem extra_operations_accepted (o : Ops T) (td : TD T) (e : Extra T) (he : td.extra = some e)
    (hn : o.isNever e.ty = false) (hr : e.readOnly = false) (k : String)
    (hk : ∀ m ∈ td.named, m.name ≠ k) (t : T) (ht : o.sub e.ty t = true) :
    accepts o td (.set (.lits k []) t) = true ∧ accepts o td (.setDefault (.lits k []) t) = true ∧
      accepts o td (.delete (.lits k [])) = true := by
  have he := entry_extra (find_none.mpr hk) he hn
  simp [accepts, setItem, setDefaultItem, deleteItem, he, hr, ht]

/-- A typed dict all of whose members can be removed can be cleared, if it cannot have members that
are not known. -/
theorem clear_accepted_iff (o : Ops T) (td : TD T) :
    accepts o td .clear = true ↔
      (∃ e, td.extra = some e ∧ e.readOnly = false) ∧
        ∀ m ∈ td.named, m.required = false ∧ m.readOnly = false := by
  unfold accepts canBeEmptied
  rw [Bool.and_eq_true]
  cases he : td.extra with
  | none => simp
  | some e => simp

/-- A typed dict that is a `dict[str, t]` is accepted for it. -/
theorem dict_accepted (o : Ops T) (td : TD T) (e : Extra T) (he : td.extra = some e)
    (hr : e.readOnly = false)
    (hm : ∀ m ∈ td.named, m.required = false ∧ m.readOnly = false ∧ o.same e.ty m.ty = true) (t : T)
    (ht : o.same t e.ty = true) : matchesView o (.dict t) (.td td) = true := by
  have : canBeOverwrittenWith o td = some e.ty := by
    unfold canBeOverwrittenWith
    simp only [he, hr, Bool.not_false, Bool.true_and]
    rw [if_pos]
    refine List.all_eq_true.mpr fun m h => ?_
    obtain ⟨h1, h2, h3⟩ := hm m h
    simp [h1, h2, h3]
  simp [matchesView, this, ht]

/-- The year of the movie can be set and deleted, the title only set. -/
example : accepts sets movie (.set (.lits "year" []) (some [3])) = true ∧
    accepts sets movie (.delete (.lits "year" [])) = true ∧
    accepts sets movie (.set (.lits "title" []) (some [0])) = true ∧
    accepts sets movie (.delete (.lits "title" [])) = false ∧
    accepts sets movie .clear = false ∧
    accepts sets { named := [⟨"x", some [0], false, false⟩], extra := some ⟨some [0], false⟩ } .clear =
      true ∧
    matchesView sets (.dict (some [0])) (.td { named := [⟨"x", some [0], false, false⟩],
                                               extra := some ⟨some [0], false⟩ }) = true := by
  decide

end Verif.TypedDict
