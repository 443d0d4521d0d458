import Verif.TypedDict.Spec

/-! # Keys one by one

A type gives every key a slot: whether it is required, whether it is read-only, and its values.
Keys that a typed dict without extra items does not know are read-only and can have any value. -/

namespace Verif.TypedDict

variable {T V : Type}

/-- What a type says about a key. -/
structure Slot (V : Type) where
  required : Bool
  readOnly : Bool
  ty : V → Prop

/-- The slot of a typed dict. -/
def tdSlot (has : T → V → Prop) (td : TD T) (k : String) : Slot V :=
  match td.named.find? fun m => m.name = k with
  | some m => ⟨m.required, m.readOnly, has m.ty⟩
  | none =>
    match td.extra with
    | some e => ⟨false, e.readOnly, has e.ty⟩
    | none => ⟨false, true, fun _ => True⟩

/-- The slot of a type. -/
def slot (has : T → V → Prop) : View T → String → Slot V
  | .td td, k => tdSlot has td k
  | .dict t, _ => ⟨false, false, has t⟩
  | .mapping t, _ => ⟨false, true, has t⟩

/-- A key with the second slot can be used with the first one. -/
def Above (s t : Slot V) : Prop :=
  if s.readOnly then (s.required = true → t.required = true) ∧ ∀ v, t.ty v → s.ty v
  else t.readOnly = false ∧ s.required = t.required ∧ ∀ v, s.ty v ↔ t.ty v

/-- A value, or no value, that fits a slot. -/
def SlotFits (s : Slot V) (x : Option V) : Prop :=
  (s.required = true → x ≠ none) ∧ ∀ v, x = some v → s.ty v

theorem Above.refl (s : Slot V) : Above s s := by
  unfold Above
  split
  · exact ⟨id, fun _ => id⟩
  · next h => exact ⟨by simpa using h, rfl, fun _ => .rfl⟩

theorem Above.trans {s t u : Slot V} (h1 : Above s t) (h2 : Above t u) : Above s u := by
  unfold Above at *
  cases hs : s.readOnly
  · simp only [hs, Bool.false_eq_true, if_false] at h1 ⊢
    rw [h1.1] at h2
    simp only [Bool.false_eq_true, if_false] at h2
    exact ⟨h2.1, h1.2.1.trans h2.2.1, fun v => (h1.2.2 v).trans (h2.2.2 v)⟩
  · simp only [hs, if_true] at h1 ⊢
    cases ht : t.readOnly
    · simp only [ht, Bool.false_eq_true, if_false] at h2
      exact ⟨fun h => h2.2.1 ▸ h1.1 h, fun v hv => h1.2 v ((h2.2.2 v).mpr hv)⟩
    · simp only [ht, if_true] at h2
      exact ⟨fun h => h2.1 (h1.1 h), fun v hv => h1.2 v (h2.2 v hv)⟩

theorem Above.fits {s t : Slot V} (h : Above s t) {x : Option V} (hx : SlotFits t x) :
    SlotFits s x := by
  unfold Above at h
  split at h
  · exact ⟨fun hr => hx.1 (h.1 hr), fun v hv => h.2 v (hx.2 v hv)⟩
  · exact ⟨fun hr => hx.1 (h.2.1 ▸ hr), fun v hv => (h.2.2 v).mpr (hx.2 v hv)⟩

theorem Above.back {s t : Slot V} (h : Above s t) (hs : s.readOnly = false) {x : Option V}
    (hx : SlotFits s x) : SlotFits t x := by
  unfold Above at h
  rw [if_neg (by simp [hs])] at h
  exact ⟨fun hr => hx.1 (h.2.1 ▸ hr), fun v hv => (h.2.2 v).mp (hx.2 v hv)⟩

/-! ## Members -/

theorem find_of_mem {ms : List (Member T)} (hd : (ms.map (·.name)).Nodup) {m : Member T}
    (h : m ∈ ms) : ms.find? (fun c => c.name = m.name) = some m := by
  induction ms with
  | nil => cases h
  | cons a ms ih =>
    rw [List.map_cons, List.nodup_cons] at hd
    rw [List.find?_cons]
    by_cases ha : a.name = m.name
    · simp only [ha, decide_true]
      rcases List.mem_cons.mp h with rfl | h
      · rfl
      · exact absurd (List.mem_map.mpr ⟨m, h, ha.symm⟩) hd.1
    · simp only [ha, decide_false]
      rcases List.mem_cons.mp h with rfl | h
      · exact absurd rfl ha
      · exact ih hd.2 h

theorem find_spec {ms : List (Member T)} {k : String} {m : Member T}
    (h : ms.find? (fun c => c.name = k) = some m) : m ∈ ms ∧ m.name = k :=
  ⟨List.mem_of_find?_eq_some h, by have := List.find?_some h; simpa using this⟩

theorem find_none {ms : List (Member T)} {k : String} :
    ms.find? (fun c => c.name = k) = none ↔ ∀ m ∈ ms, m.name ≠ k := by
  simp [List.find?_eq_none]

theorem tdSlot_named {has : T → V → Prop} {td : TD T} {k : String} {m : Member T}
    (h : td.named.find? (fun c => c.name = k) = some m) :
    tdSlot has td k = ⟨m.required, m.readOnly, has m.ty⟩ := by
  rw [tdSlot, h]

theorem tdSlot_extra {has : T → V → Prop} {td : TD T} {k : String} {e : Extra T}
    (h : td.named.find? (fun c => c.name = k) = none) (he : td.extra = some e) :
    tdSlot has td k = ⟨false, e.readOnly, has e.ty⟩ := by
  rw [tdSlot, h, he]

theorem tdSlot_open {has : T → V → Prop} {td : TD T} {k : String}
    (h : td.named.find? (fun c => c.name = k) = none) (he : td.extra = none) :
    tdSlot has td k = ⟨false, true, fun _ => True⟩ := by
  rw [tdSlot, h, he]

theorem fits_iff {has : T → V → Prop} {td : TD T} (hd : Distinct td) {d : Dict V} :
    Fits has td d ↔ ∀ k, SlotFits (tdSlot has td k) (d k) := by
  constructor
  · intro h k
    cases hf : td.named.find? fun m => m.name = k with
    | some m =>
      obtain ⟨hm, rfl⟩ := find_spec hf
      rw [tdSlot_named hf]
      exact ⟨h.required m hm, h.named m hm⟩
    | none =>
      cases he : td.extra with
      | some e =>
        rw [tdSlot_extra hf he]
        exact ⟨nofun, fun v hv => h.extra e he k v (find_none.mp hf) hv⟩
      | none =>
        rw [tdSlot_open hf he]
        exact ⟨nofun, fun _ _ => trivial⟩
  · intro h
    refine ⟨fun m hm hr => ?_, fun m hm => ?_, fun e he k v hk hv => ?_⟩
    · have := h m.name
      rw [tdSlot_named (find_of_mem hd hm)] at this
      exact this.1 hr
    · have := h m.name
      rw [tdSlot_named (find_of_mem hd hm)] at this
      exact this.2
    · have := h k
      rw [tdSlot_extra (find_none.mpr hk) he] at this
      exact this.2 v hv

theorem fitsView_iff {has : T → V → Prop} {w : View T} (hd : w.Distinct) {d : Dict V} :
    FitsView has w d ↔ ∀ k, SlotFits (slot has w k) (d k) := by
  cases w with
  | td td => exact fits_iff hd
  | dict t =>
    exact ⟨fun h k => ⟨nofun, h k⟩, fun h k => (h k).2⟩
  | mapping t =>
    exact ⟨fun h k => ⟨nofun, h k⟩, fun h k => (h k).2⟩

/-! ## Entries -/

theorem entry_slot {o : Ops T} {has : T → V → Prop} {td : TD T} {k : String} {e : Entry T}
    (h : findEntry o td k = some e) : tdSlot has td k = ⟨e.required, e.readOnly, has e.ty⟩ := by
  unfold findEntry at h
  unfold tdSlot
  cases hf : td.named.find? fun m => m.name = k with
  | some m =>
    simp only [hf, Option.some.injEq] at h ⊢
    rw [← h]
  | none =>
    simp only [hf] at h ⊢
    cases he : td.extra with
    | none => simp [he] at h
    | some x =>
      simp only [he] at h ⊢
      split at h
      · cases h
      · cases h; rfl

theorem entry_none {o : Ops T} {td : TD T} {k : String} (h : findEntry o td k = none) :
    td.named.find? (fun m => m.name = k) = none ∧
      ∀ e, td.extra = some e → o.isNever e.ty = true := by
  unfold findEntry at h
  cases hf : td.named.find? fun m => m.name = k with
  | some m => simp [hf] at h
  | none =>
    refine ⟨rfl, fun e he => ?_⟩
    simp only [hf, he] at h
    split at h
    · assumption
    · cases h

theorem entry_extra {o : Ops T} {td : TD T} {k : String} {e : Extra T}
    (h : td.named.find? (fun m => m.name = k) = none) (he : td.extra = some e)
    (hn : o.isNever e.ty = false) : findEntry o td k = some ⟨false, e.ty, false, e.readOnly⟩ := by
  unfold findEntry
  simp [h, he, hn]

theorem entry_named {o : Ops T} {td : TD T} {k : String} {m : Member T}
    (h : td.named.find? (fun m => m.name = k) = some m) :
    findEntry o td k = some ⟨true, m.ty, m.required, m.readOnly⟩ := by
  unfold findEntry
  simp [h]

/-! ## Casts -/

theorem memberFits_above {o : Ops T} {has : T → V → Prop} (ho : Means o has) {m : Member T}
    {b : TD T} (h : memberFits o m b = true) :
    Above ⟨m.required, m.readOnly, has m.ty⟩ (tdSlot has b m.name) := by
  unfold memberFits at h
  cases he : findEntry o b m.name with
  | none => simp [he] at h
  | some e =>
    rw [entry_slot he]
    simp only [he] at h
    unfold Above
    simp only
    cases hr : m.readOnly <;> cases hq : m.required <;> cases her : e.readOnly <;>
      cases heq : e.required <;> simp [hr, hq, her, heq] at h ⊢
    all_goals first
      | exact fun v hv => ho.sub h hv
      | exact fun v => ho.same h

theorem isSuper_above {o : Ops T} {has : T → V → Prop} (ho : Means o has) {a b : TD T}
    (h : isSuperTypeOf o a b = true) (hf : CastFair o a b) (k : String) :
    Above (tdSlot has a k) (tdSlot has b k) := by
  unfold isSuperTypeOf at h
  rw [Bool.and_eq_true] at h
  obtain ⟨h1, h2⟩ := h
  cases ha : a.named.find? fun m => m.name = k with
  | some m =>
    obtain ⟨hm, rfl⟩ := find_spec ha
    rw [tdSlot_named ha]
    exact memberFits_above ho (List.all_eq_true.mp h1 m hm)
  | none =>
    cases hae : a.extra with
    | none =>
      rw [tdSlot_open ha hae]
      simp [Above]
    | some e1 =>
      rw [tdSlot_extra ha hae]
      unfold extraFits at h2
      simp only [hae] at h2
      cases hbe : b.extra with
      | none => simp [hbe] at h2
      | some e2 =>
        simp only [hbe, Bool.and_eq_true] at h2
        cases hb : b.named.find? fun m => m.name = k with
        | none =>
          rw [tdSlot_extra hb hbe]
          unfold Above
          cases hr : e1.readOnly
          · have := hf.writable e1 e2 hae hbe hr
            simp only [hr, Bool.false_eq_true, if_false] at h2 ⊢
            exact ⟨this, trivial, fun v => ho.same h2.1⟩
          · simp only [hr, if_true] at h2 ⊢
            exact ⟨nofun, fun v hv => ho.sub h2.1 hv⟩
        | some m2 =>
          obtain ⟨hm2, rfl⟩ := find_spec hb
          rw [tdSlot_named hb]
          have h3 := List.all_eq_true.mp h2.2 m2 hm2
          cases hn : o.isNever e1.ty with
          | true =>
            obtain ⟨n, hn1, hn2⟩ := hf.closed e1 hae hn m2 hm2
            exact absurd hn2 (find_none.mp ha n hn1)
          | false =>
            rw [entry_extra ha hae hn] at h3
            simp only [Bool.false_eq_true, if_false] at h3
            cases hq : m2.required
            · simp only [hq, Bool.false_eq_true, if_false] at h3
              unfold Above
              cases hr : e1.readOnly
              · have := hf.writableNames e1 hae hr m2 hm2 (find_none.mp ha)
                simp only [hr, Bool.false_eq_true, if_false] at h3 ⊢
                exact ⟨this, trivial, fun v => ho.same h3⟩
              · simp only [hr, if_true] at h3 ⊢
                exact ⟨nofun, fun v hv => ho.sub h3 hv⟩
            · simp [hq] at h3

theorem overwritten_above {o : Ops T} {has : T → V → Prop} (ho : Means o has) {b : TD T} {t : T}
    (h : canBeOverwrittenWith o b = some t) (k : String) :
    Above ⟨false, false, has t⟩ (tdSlot has b k) := by
  unfold canBeOverwrittenWith at h
  cases he : b.extra with
  | none => simp [he] at h
  | some e =>
    simp only [he] at h
    split at h
    · next hc =>
      cases h
      simp only [Bool.and_eq_true, Bool.not_eq_true', List.all_eq_true] at hc
      cases hb : b.named.find? fun m => m.name = k with
      | none =>
        rw [tdSlot_extra hb he]
        simp [Above, hc.1]
      | some m =>
        rw [tdSlot_named hb]
        obtain ⟨⟨h1, h2⟩, h3⟩ := hc.2 m (find_spec hb).1
        simp only [Above, Bool.false_eq_true, if_false, h1, h2, true_and]
        exact fun v => ho.same h3
    · cases h

theorem foldl_union {o : Ops T} {has : T → V → Prop} (ho : Means o has) (ts : List T) (t : T) (v : V)
    (h : has t v ∨ ∃ u ∈ ts, has u v) : has (ts.foldl o.union t) v := by
  induction ts generalizing t with
  | nil =>
    rcases h with h | ⟨_, h, _⟩
    · exact h
    · cases h
  | cons u ts ih =>
    apply ih
    rcases h with h | ⟨x, hx, h⟩
    · exact .inl (ho.union (.inl h))
    · rcases List.mem_cons.mp hx with rfl | hx
      · exact .inl (ho.union (.inr h))
      · exact .inr ⟨x, hx, h⟩

/-- A value for a key is in the union of all types, unless the key may have any value. -/
theorem union_has {o : Ops T} {has : T → V → Prop} (ho : Means o has) {td : TD T} {e : Extra T}
    (he : td.extra = some e) {k : String} {v : V} (h : (tdSlot has td k).ty v) :
    has (unionOfAllTypes o td) v := by
  apply foldl_union ho
  right
  cases hf : td.named.find? fun m => m.name = k with
  | some m =>
    rw [tdSlot_named hf] at h
    exact ⟨m.ty, List.mem_append_left _ (List.mem_map.mpr ⟨m, (find_spec hf).1, rfl⟩), h⟩
  | none =>
    rw [tdSlot_extra hf he] at h
    exact ⟨e.ty, List.mem_append_right _ (by simp [he]), h⟩

theorem cast_above {o : Ops T} {has : T → V → Prop} (ho : Means o has) {a b : View T}
    (h : matchesView o a b = true) (hf : ViewFair o a b) (k : String) :
    Above (slot has a k) (slot has b k) := by
  cases a with
  | td a =>
    cases b with
    | td b =>
      simp only [matchesView, matchesTypedDict, Bool.or_eq_true, beq_iff_eq] at h
      rcases h with h | h
      · obtain ⟨h1, h2⟩ := hf.1.definition h
        have : tdSlot has a k = tdSlot has b k := by unfold tdSlot; rw [h1, h2]
        show Above (tdSlot has a k) (tdSlot has b k)
        rw [this]
        exact .refl _
      · exact isSuper_above ho h hf.1 k
    | dict t => simp [matchesView] at h
    | mapping t => simp [matchesView] at h
  | dict v =>
    cases b with
    | td b =>
      simp only [matchesView] at h
      split at h
      · next t ht =>
        refine Above.trans ?_ (overwritten_above ho ht k)
        simp only [slot, Above, Bool.false_eq_true, if_false, true_and]
        exact fun v => ho.same h
      · cases h
    | dict w =>
      simp only [slot, Above, Bool.false_eq_true, if_false, true_and]
      exact fun v => ho.same h
    | mapping t => simp [matchesView] at h
  | mapping t =>
    show Above ⟨false, true, has t⟩ _
    unfold Above
    simp only [if_true]
    refine ⟨nofun, fun v hv => ?_⟩
    cases b with
    | td b =>
      simp only [matchesView, Bool.or_eq_true, Bool.and_eq_true] at h
      rcases h with h | ⟨h1, h2⟩
      · exact ho.sub h ho.object
      · obtain ⟨e, he⟩ := Option.isSome_iff_exists.mp h1
        exact ho.sub h2 (union_has ho he hv)
    | dict w => exact ho.sub h hv
    | mapping w => exact ho.sub h hv

/-! ## Actions -/

/-- All keys that are changed can be written, and get something that fits. -/
def Changes (has : T → V → Prop) (a : View T) (d d' : Dict V) : Prop :=
  ∀ k, d' k = d k ∨ (slot has a k).readOnly = false ∧ SlotFits (slot has a k) (d' k)

theorem changes_put {has : T → V → Prop} {a : View T} {d : Dict V} {k : String} {v : V}
    (h1 : (slot has a k).readOnly = false) (h2 : (slot has a k).ty v) :
    Changes has a d (d.put k v) := by
  intro x
  by_cases hx : x = k
  · subst hx
    right
    refine ⟨h1, ?_, ?_⟩
    · simp [Dict.put]
    · intro w hw
      simp only [Dict.put, if_true, Option.some.injEq] at hw
      subst hw
      exact h2
  · left
    simp [Dict.put, hx]

theorem changes_remove {has : T → V → Prop} {a : View T} {d : Dict V} {k : String}
    (h1 : (slot has a k).readOnly = false) (h2 : (slot has a k).required = false) :
    Changes has a d (d.remove k) := by
  intro x
  by_cases hx : x = k
  · subst hx
    right
    refine ⟨h1, ?_, ?_⟩
    · intro h; rw [h2] at h; cases h
    · intro w hw
      simp [Dict.remove] at hw
  · left
    simp [Dict.remove, hx]

theorem emptied_slot {has : T → V → Prop} {td : TD T} (h : canBeEmptied td = true) (k : String) :
    (tdSlot has td k).readOnly = false ∧ (tdSlot has td k).required = false := by
  unfold canBeEmptied at h
  cases he : td.extra with
  | none => simp [he] at h
  | some e =>
    simp only [he, Bool.and_eq_true, Bool.not_eq_true', List.all_eq_true] at h
    cases hf : td.named.find? fun m => m.name = k with
    | some m =>
      rw [tdSlot_named hf]
      exact (h.2 m (find_spec hf).1).symm
    | none =>
      rw [tdSlot_extra hf he]
      exact ⟨h.1, rfl⟩

theorem changes_clear {has : T → V → Prop} {a : View T} {d : Dict V}
    (h : ∀ k, (slot has a k).readOnly = false ∧ (slot has a k).required = false) :
    Changes has a d fun _ => none := by
  intro k
  right
  exact ⟨(h k).1, by rw [(h k).2]; nofun, nofun⟩

theorem accepts_set {o : Ops T} {has : T → V → Prop} (ho : Means o has) {td : TD T} {key : Key}
    {ty : T} {k : String} {v : V} (h : setItem o td key ty = true) (hk : key.has k)
    (hv : has ty v) : (tdSlot has td k).readOnly = false ∧ (tdSlot has td k).ty v := by
  unfold setItem at h
  split at h
  · next k' =>
    simp only [Key.has, List.mem_singleton] at hk
    subst hk
    split at h
    · next e he =>
      simp only [Bool.and_eq_true, Bool.not_eq_true'] at h
      rw [entry_slot he]
      exact ⟨h.1, ho.sub h.2 hv⟩
    · cases h
  · cases h
  · split at h
    · next t ht =>
      have := overwritten_above ho ht k
      simp only [Above, Bool.false_eq_true, if_false] at this
      exact ⟨this.1, (this.2.2 v).mp (ho.sub h hv)⟩
    · cases h

theorem accepts_delete {o : Ops T} {has : T → V → Prop} {td : TD T} {key : Key} {k : String}
    (h : deleteItem o td key = true) (hk : key.has k) :
    (tdSlot has td k).readOnly = false ∧ (tdSlot has td k).required = false := by
  unfold deleteItem at h
  split at h
  · have := List.all_eq_true.mp h k hk
    split at this
    · next e he =>
      rw [entry_slot he]
      simpa [and_comm] using this
    · cases this
  · exact emptied_slot h k

theorem accepts_setDefault {o : Ops T} {has : T → V → Prop} (ho : Means o has) {td : TD T} {key : Key}
    {ty : T} {k : String} {v : V} (h : setDefaultItem o td key ty = true)
    (hf : ActFair o (.td td) (.setDefault key ty)) (hk : key.has k) (hv : has ty v) :
    (tdSlot has td k).readOnly = false ∧ (tdSlot has td k).ty v := by
  unfold setDefaultItem at h
  split at h
  · next k1 ks =>
    have := List.all_eq_true.mp h k hk
    split at this
    · next e he =>
      have hs := entry_slot (has := has) he
      refine ⟨?_, by rw [hs]; exact ho.sub this hv⟩
      cases hn : td.named.find? fun m => m.name = k with
      | some m =>
        obtain ⟨hm, rfl⟩ := find_spec hn
        rw [tdSlot_named hn]
        exact hf.1 m hm hk
      | none =>
        cases hx : td.extra with
        | some x =>
          rw [tdSlot_extra hn hx]
          exact hf.2 x hx ⟨k, hk, find_none.mp hn⟩
        | none => simp [findEntry, hn, hx] at he
    · cases this
  · cases h

theorem accepts_update {o : Ops T} {has : T → V → Prop} (ho : Means o has) {td arg : TD T}
    (hd : Distinct td) (h : updateItems o td arg = true) (hf : ActFair o (.td td) (.update arg))
    {u : Dict V} (hu : Fits has arg u) {k : String} {v : V} (hk : u k = some v) :
    (tdSlot has td k).readOnly = false ∧ (tdSlot has td k).ty v := by
  obtain ⟨⟨e, he, hne⟩, hf⟩ := hf
  cases hn : arg.named.find? fun m => m.name = k with
  | none => exact absurd (hu.extra e he k v (find_none.mp hn) hk) (ho.never hne)
  | some m =>
    obtain ⟨hm, rfl⟩ := find_spec hn
    obtain ⟨n, hn1, hn2, hn3⟩ := hf m hm
    have hfind := find_of_mem hd hn1
    rw [hn2] at hfind
    have hv := hu.named m hm v hk
    rw [tdSlot_named hfind]
    refine ⟨?_, ho.sub hn3 hv⟩
    unfold updateItems at h
    rw [Bool.and_eq_true] at h
    have := List.all_eq_true.mp h.1 m hm
    rw [entry_named hfind] at this
    simp only [Bool.not_eq_true', Bool.and_eq_false_iff] at this
    rcases this with this | this
    · exact this
    · exact absurd hv (ho.never (by simpa using this))

theorem act_changes {o : Ops T} {has : T → V → Prop} (ho : Means o has) {a : View T} {x : Action T}
    {d d' : Dict V} (hd : a.Distinct) (h : acceptsView o a x = true) (hf : ActFair o a x)
    (hr : Runs has d x d') : Changes has a d d' := by
  cases a with
  | td td =>
    cases hr with
    | set hk hv =>
      obtain ⟨h1, h2⟩ := accepts_set ho h hk hv
      exact changes_put h1 h2
    | delete hk =>
      obtain ⟨h1, h2⟩ := accepts_delete (has := has) h hk
      exact changes_remove h1 h2
    | keep => exact fun k => .inl rfl
    | default hk hn hv =>
      obtain ⟨h1, h2⟩ := accepts_setDefault ho h hf hk hv
      exact changes_put h1 h2
    | popItem =>
      obtain ⟨h1, h2⟩ := emptied_slot (has := has) h _
      exact changes_remove h1 h2
    | clear => exact changes_clear fun k => emptied_slot (has := has) h k
    | @update arg u hu =>
      intro k
      cases hk : u k with
      | none => left; simp [hk]
      | some v =>
        right
        obtain ⟨h1, h2⟩ := accepts_update ho hd h hf hu hk
        exact ⟨h1, by simp [hk], fun w hw => by
          simp only [hk, Option.some_or, Option.some.injEq] at hw
          subst hw
          exact h2⟩
  | dict t =>
    cases hr with
    | set hk hv => exact changes_put rfl (ho.sub h hv)
    | delete hk => exact changes_remove rfl rfl
    | keep => exact fun k => .inl rfl
    | default hk hn hv => exact changes_put rfl (ho.sub h hv)
    | popItem => exact changes_remove rfl rfl
    | clear => exact changes_clear fun k => ⟨rfl, rfl⟩
    | update => simp [acceptsView] at h
  | mapping t => simp [acceptsView] at h

/-- All types are above the first one, which fits. -/
theorem reach_right {o : Ops T} {has : T → V → Prop} (ho : Means o has) {root : View T}
    (hroot : root.Distinct) {vs : List (View T)} {d : Dict V} (h : CheckedFair o has root vs d) :
    (∀ w ∈ vs, w.Distinct ∧ ∀ k, Above (slot has w k) (slot has root k)) ∧
      ∀ k, SlotFits (slot has root k) (d k) := by
  induction h with
  | start h =>
    refine ⟨fun w hw => ?_, (fitsView_iff hroot).mp h⟩
    rw [List.mem_singleton] at hw
    subst hw
    exact ⟨hroot, fun k => .refl _⟩
  | @cast vs d a b _ hb hc ih =>
    refine ⟨fun w hw => ?_, ih.2⟩
    rcases List.mem_cons.mp hw with rfl | hw
    · refine ⟨?_, fun k => (cast_above ho hc.1 hc.2 k).trans ((ih.1 _ hb).2 k)⟩
      cases w with
      | td a =>
        rcases b with b | t | t
        · exact hc.2.2
        · simp [matchesView] at hc
        · simp [matchesView] at hc
      | dict => trivial
      | mapping => trivial
    · exact ih.1 w hw
  | act _ ha hx hr ih =>
    refine ⟨ih.1, fun k => ?_⟩
    obtain ⟨hd, hab⟩ := ih.1 _ ha
    rcases act_changes ho hd hx.1 hx.2 hr k with h | ⟨h1, h2⟩
    · rw [h]; exact ih.2 k
    · exact (hab k).back h1 h2

end Verif.TypedDict
