import Verif.Mapping.Spec
import Verif.Pattern.Props

/-!
# Mapping patterns (lemmas)
-/

namespace Verif.Mapping

open Verif.Pattern

variable {B V : Type} {r : Run B V} {w : World B}

/-! ## Typed dicts -/

theorem find_some {d : Dict B} {s : Nat} {f : Member B} (h : d.find s = some f) :
    f ∈ d.members ∧ f.name = s :=
  ⟨List.mem_of_find?_eq_some h, by simpa using List.find?_some h⟩

theorem find_none {d : Dict B} {s : Nat} (h : d.find s = none) : ∀ f ∈ d.members, f.name ≠ s := by
  intro f hf
  have := List.find?_eq_none.mp h f hf
  simpa using this

theorem fallback_has (hs : Sound r w) {d : Dict B} {m : V → Option V} (hd : DictHas r d m)
    {k x : V} (hk : m k = some x) : Has r.base (d.fallback w) x := by
  unfold Dict.fallback
  cases he : d.extra with
  | none =>
    simp only [Option.isSome_none, Bool.false_eq_true, if_false]
    exact has_single.mpr (hs.base.object x)
  | some E =>
    simp only [Option.isSome_some, if_true, Dict.all, he, Option.getD_some]
    by_cases hm : ∃ f ∈ d.members, k = r.text f.name
    · obtain ⟨f, hf, rfl⟩ := hm
      exact has_left (has_flatMap hf (hd.member f hf x hk))
    · exact has_right (hd.extra E he k x hk (fun f hf e => hm ⟨f, hf, e⟩))

theorem literal_there (hs : Sound r w) {d : Dict B} {m : V → Option V} (hd : DictHas r d m)
    {s : Nat} {x : V} (hk : m (r.text s) = some x) :
    ∃ (T : Un B) (sure : Bool), d.literal w s = some (T, sure) ∧ Has r.base T x := by
  unfold Dict.literal
  cases hf : d.find s with
  | some f =>
    obtain ⟨hmem, rfl⟩ := find_some hf
    exact ⟨f.type, f.required, rfl, hd.member f hmem x hk⟩
  | none =>
    have hn := find_none hf
    by_cases hc : d.closed = true
    · exfalso
      unfold Dict.closed at hc
      cases he : d.extra with
      | none => simp [he] at hc
      | some E =>
        have hE : E = [] := by simpa [he] using hc
        have := hd.extra E he (r.text s) x hk
          (fun f hf' e => hn f hf' (hs.textInj _ _ e).symm)
        rw [hE] at this
        exact this
    · simp only [hc, Bool.false_eq_true, if_false]
      exact ⟨_, _, rfl, fallback_has hs hd hk⟩

theorem literal_sure {d : Dict B} {m : V → Option V} (hd : DictHas r d m)
    {s : Nat} {T : Un B} (h : d.literal w s = some (T, true)) : ∃ (x : V), m (r.text s) = some x := by
  unfold Dict.literal at h
  cases hf : d.find s with
  | some f =>
    obtain ⟨hmem, rfl⟩ := find_some hf
    simp only [hf, Option.some.injEq, Prod.mk.injEq] at h
    exact hd.required f hmem h.2
  | none =>
    simp only [hf] at h
    split at h <;> simp at h

/-- The type of the value of a key. -/
theorem entry_has (hs : Sound r w) {d : Dict B} {m : V → Option V} (hd : DictHas r d m)
    {k : Key} {x : V} (hk : m (k.val r) = some x) {T : Un B} {sure : Bool}
    (he : d.entry w k = some (T, sure)) : Has r.base T x := by
  cases k with
  | number n => simp [Dict.entry] at he
  | text s =>
    obtain ⟨U, b, hl, hU⟩ := literal_there hs hd (s := s) hk
    simp only [Dict.entry, hl, Option.some.injEq, Prod.mk.injEq] at he
    exact he.1 ▸ hU
  | dotted k =>
    obtain ⟨t, ht, htk⟩ := hs.dotted k
    simp only [Dict.entry] at he
    split at he
    · rename_i s hts
      rw [hts] at ht
      obtain rfl := List.mem_singleton.mp ht
      have hk' : m (r.text s) = some x := by
        have : r.dotted k = r.text s := htk
        rw [← this]; exact hk
      obtain ⟨U, b, hl, hU⟩ := literal_there hs hd hk'
      simp only [hl, Option.some.injEq, Prod.mk.injEq] at he
      exact he.1 ▸ hU
    · split at he
      · simp only [Option.some.injEq, Prod.mk.injEq] at he
        exact he.1 ▸ fallback_has hs hd hk
      · cases he

/-- A key that is there is not ruled out. -/
theorem entry_there (hs : Sound r w) {d : Dict B} {m : V → Option V} (hd : DictHas r d m)
    {k : Key} (hok : KeyOk r w k) {x : V} (hk : m (k.val r) = some x) :
    ∃ (T : Un B) (sure : Bool), d.entry w k = some (T, sure) := by
  cases k with
  | number n => exact absurd (hd.keys _ _ hk) (hs.number n)
  | text s =>
    obtain ⟨U, b, hl, _⟩ := literal_there hs hd (s := s) hk
    exact ⟨U, b, hl⟩
  | dotted k =>
    obtain ⟨t, ht, htk⟩ := hs.dotted k
    simp only [Dict.entry]
    split
    · rename_i s hts
      rw [hts] at ht
      obtain rfl := List.mem_singleton.mp ht
      have hk' : m (r.text s) = some x := by
        have : r.dotted k = r.text s := htk
        rw [← this]; exact hk
      obtain ⟨U, b, hl, _⟩ := literal_there hs hd hk'
      exact ⟨U, b, hl⟩
    · rcases hok with h | h
      · have : mightBeString (w.dotted k) = true := by
          simp only [mightBeString, List.all_eq_true, bne_iff_ne]
          exact h
        simp [this]
      · exact absurd (hd.keys _ _ hk) h

/-- A key that is sure to be there is there. -/
theorem entry_sure (hs : Sound r w) {d : Dict B} {m : V → Option V} (hd : DictHas r d m)
    {k : Key} {T : Un B} (he : d.entry w k = some (T, true)) :
    ∃ (x : V), m (k.val r) = some x := by
  cases k with
  | number n => simp [Dict.entry] at he
  | text s => exact literal_sure hd he
  | dotted k =>
    obtain ⟨t, ht, htk⟩ := hs.dotted k
    simp only [Dict.entry] at he
    split at he
    · rename_i s hts
      rw [hts] at ht
      obtain rfl := List.mem_singleton.mp ht
      have h : r.dotted k = r.text s := htk
      have := literal_sure hd he
      simp only [Key.val, h]
      exact this
    · split at he <;> simp at he

/-! ## Patterns -/

theorem mem_gather {f : Ty B → Res B} {T : Un B} {t : Ty B} (ht : t ∈ T) :
    (∀ u ∈ (f t).truthy, u ∈ (gather (T.map f)).truthy) ∧
    (∀ u ∈ (f t).falsey, u ∈ (gather (T.map f)).falsey) ∧
    ∀ c ∈ (f t).caps, c ∈ (gather (T.map f)).caps := by
  have hm : f t ∈ T.map f := List.mem_map_of_mem ht
  simp only [gather, List.mem_flatMap]
  exact ⟨fun u hu => ⟨_, hm, hu⟩, fun u hu => ⟨_, hm, hu⟩, fun u hu => ⟨_, hm, hu⟩⟩

theorem flatMap_self {α : Type} {f : α → List α} : ∀ {l : List α}, (∀ a ∈ l, f a = [a]) →
    l.flatMap f = l
  | [], _ => rfl
  | a :: l, h => by
    rw [List.flatMap_cons, h a List.mem_cons_self,
      flatMap_self fun b hb => h b (List.mem_cons_of_mem _ hb)]
    rfl

/-- If all keys are there, the loop is not left. -/
theorem dictEntries_there (hs : Sound r w) {d : Dict B} {m : V → Option V} (hd : DictHas r d m) :
    ∀ (es : List (Key × MPat)) (σ : Binds V), (∀ e ∈ es, KeyOk r w e.1) →
      MatchesEntries r es m σ → ∃ (sure : Bool), (dictEntries w es d).1 = some sure
  | [], _, _, _ => ⟨true, by simp [dictEntries]⟩
  | (k, p) :: es, σ, hok, hm => by
    simp only [MatchesEntries] at hm
    obtain ⟨x, σ1, σ2, hx, _, hm, _⟩ := hm
    obtain ⟨T, sure, he⟩ := entry_there hs hd (hok _ List.mem_cons_self) hx
    obtain ⟨s, ih⟩ := dictEntries_there hs hd es σ2 (fun e h => hok e (List.mem_cons_of_mem _ h)) hm
    simp only [dictEntries, he, ih]
    exact ⟨_, rfl⟩

theorem keysOkAll_keys : ∀ {es : List (Key × MPat)}, KeysOkAll r w es → ∀ e ∈ es, KeyOk r w e.1
  | [], _, e, h => by cases h
  | (k, p) :: es, h, e, he => by
    simp only [KeysOkAll] at h
    rcases List.mem_cons.mp he with rfl | he
    · exact h.1
    · exact keysOkAll_keys h.2.2 e he

mutual

theorem else_map (hs : Sound r w) : ∀ (p : MPat), Plain (ArgsTotal r.base) p → Plain Starless p →
    ∀ (T : Un B) (v : V), Has r.base T v → Fails r p v → Has r.base (guards w p T).falsey v
  | .plain p, ha, hst, T, v, hv, hf => by
    simp only [Plain] at ha hst
    simp only [guards]
    exact else_partial hs.base ha (.inl hst) hv (fun σ hm => hf σ (by simpa only [Matches] using hm))
  | .map es rest, ha, hst, T, v, hv, hf => by
    simp only [Plain] at ha hst
    obtain ⟨t, ht, htv⟩ := has_iff.mp hv
    simp only [guards]
    refine has_iff.mpr ⟨t, (mem_gather ht).2.1 t ?_, htv⟩
    cases hk : w.kind t with
    | any => simp
    | other value key => simp
    | dict d =>
      simp only [dictPart]
      cases he : (dictEntries w es d).1 with
      | none => simp
      | some sure =>
        cases sure with
        | false => simp
        | true =>
          exfalso
          obtain ⟨m, hm, hd⟩ := hs.dict t d v hk htv
          obtain ⟨σ, hσ⟩ := entries_sure hs es ha hst d m hd he
          cases rest with
          | none =>
            exact hf (σ ++ []) (by simp only [Matches]; exact ⟨m, σ, [], hm, hσ, rfl, rfl⟩)
          | some n =>
            classical
            let m' : V → Option V := fun k => if k ∈ es.map (·.1.val r) then none else m k
            obtain ⟨x, hx⟩ := hs.fresh m'
            refine hf (σ ++ [(n, x)]) ?_
            simp only [Matches]
            refine ⟨m, σ, [(n, x)], hm, hσ, rfl, m', x, ⟨?_, ?_⟩, hx, rfl⟩
            · intro k hk; simp only [m', if_pos hk]
            · intro k hk; simp only [m', if_neg hk]

theorem entries_sure (hs : Sound r w) : ∀ (es : List (Key × MPat)), PlainAll (ArgsTotal r.base) es →
    PlainAll Starless es → ∀ (d : Dict B) (m : V → Option V), DictHas r d m →
    (dictEntries w es d).1 = some true → ∃ (σ : Binds V), MatchesEntries r es m σ
  | [], _, _, _, _, _, _ => ⟨[], by simp only [MatchesEntries]⟩
  | (k, p) :: es, ha, hst, d, m, hd, he => by
    simp only [PlainAll] at ha hst
    simp only [dictEntries] at he
    cases hk : d.entry w k with
    | none => simp [hk] at he
    | some Ts =>
      obtain ⟨T, sure⟩ := Ts
      simp only [hk, Option.map_eq_some_iff, Bool.and_eq_true] at he
      obtain ⟨s, h1, ⟨rfl, h2⟩, rfl⟩ := he
      obtain ⟨x, hx⟩ := entry_sure hs hd hk
      have hT := entry_has hs hd hx hk
      obtain ⟨σ2, hσ2⟩ := entries_sure hs es ha.2 hst.2 d m hd h1
      by_cases hp : ∃ (σ1 : Binds V), Matches r p x σ1
      · obtain ⟨σ1, hσ1⟩ := hp
        exact ⟨σ1 ++ σ2, by simp only [MatchesEntries]; exact ⟨x, σ1, σ2, hx, hσ1, hσ2, rfl⟩⟩
      · have := else_map hs p ha.1 hst.1 T x hT (fun σ h => hp ⟨σ, h⟩)
        rw [List.isEmpty_iff.mp h2] at this
        exact this.elim

end

/-- The type of `**rest` fits. -/
theorem rest_bound (hs : Sound r w) {K T : Un B} {m m' : V → Option V} {ks : List V}
    (hw : Without m m' ks) (hm : ∀ (k x : V), m k = some x → Has r.base K k ∧ Has r.base T x)
    {d : V} (hd : r.newDict m' d) : r.base.leafHas (w.dictOf K T) d := by
  refine hs.dictOf K T m' d hd (fun k x hx => ?_)
  by_cases hk : k ∈ ks
  · rw [hw.1 k hk] at hx; cases hx
  · rw [hw.2 k hk] at hx; exact hm k x hx

mutual

theorem names_map (hs : Sound r w) (hsame : SameArgs r.base w.base) (hk : ArgsKnown w.base) :
    ∀ (p : MPat), Plain (OrsTotal r.base) p → Plain Starless p → KeysOk r w p →
    (Restless p ∨ Uniform r w) → ∀ (T : Un B) (v : V) (σ : Binds V), Has r.base T v →
    Matches r p v σ → Bound r.base σ (guards w p T).caps
  | .plain p, ho, hst, hkeys, hrest, T, v, σ, hv, hm => by
    simp only [Plain] at ho hst
    simp only [guards]
    exact names_partial hs.base hsame hk ho (.inl hst) hv (by simpa only [Matches] using hm)
  | .map es rest, ho, hst, hkeys, hrest, T, v, σ, hv, hm => by
    simp only [Plain] at ho hst
    simp only [KeysOk] at hkeys
    simp only [Matches] at hm
    obtain ⟨m, σ1, σ2, hmv, hes, rfl, hσ2⟩ := hm
    obtain ⟨t, ht, htv⟩ := has_iff.mp hv
    have hrest' : RestlessAll es ∨ Uniform r w := hrest.imp (fun h => h.2) id
    simp only [guards]
    refine bound_mono (mem_gather ht).2.2 ?_
    cases hkt : w.kind t with
    | any =>
      refine bound_append (names_entries hs hsame hk es ho hst hkeys hrest' _ m σ1
        (fun e _ x _ => has_single.mpr (hs.base.any x)) hes) ?_
      cases rest with
      | none => obtain rfl := hσ2; exact bound_nil
      | some n =>
        obtain ⟨m', d, _, _, rfl⟩ := hσ2
        exact bound_one (has_single.mpr (hs.base.any d))
    | other value key =>
      obtain ⟨hval, hkey⟩ := hs.other t value key v m hkt htv hmv
      refine bound_append (names_entries hs hsame hk es ho hst hkeys hrest' _ m σ1 ?_ hes) ?_
      · intro e he x hx
        cases hv' : value (es.map (·.1)) with
        | none => exact has_single.mpr (hs.base.object x)
        | some U => exact hval _ U hv' e.1 (List.mem_map_of_mem he) x hx
      · cases rest with
        | none => obtain rfl := hσ2; exact bound_nil
        | some n =>
          obtain ⟨m', d, hw, hd, rfl⟩ := hσ2
          refine bound_one (has_single.mpr (rest_bound hs hw ?_ hd))
          intro k x hx
          constructor
          · cases hk' : key with
            | none => exact has_single.mpr (hs.base.object k)
            | some K => exact hkey K hk' k x hx
          · cases hv' : value (es.map (·.1)) with
            | none => exact has_single.mpr (hs.base.object x)
            | some U =>
              rcases hrest with h | h
              · simp [Restless] at h
              · exact h t value key v m hkt htv hmv _ U hv' k x hx
    | dict d =>
      obtain ⟨m0, hm0, hd⟩ := hs.dict t d v hkt htv
      rw [hmv] at hm0
      obtain rfl := Option.some.inj hm0
      obtain ⟨sure, hsure⟩ := dictEntries_there hs hd es σ1 (keysOkAll_keys hkeys) hes
      simp only [dictPart, hsure]
      refine bound_append (names_dict hs hsame hk es ho hst hkeys hrest' d m σ1 hd hes) ?_
      cases rest with
      | none => obtain rfl := hσ2; exact bound_nil
      | some n =>
        obtain ⟨m', x, hw, hx, rfl⟩ := hσ2
        refine bound_one (has_single.mpr (rest_bound hs hw ?_ hx))
        intro k y hy
        exact ⟨has_single.mpr (hs.str k (hd.keys k y hy)), fallback_has hs hd hy⟩

theorem names_entries (hs : Sound r w) (hsame : SameArgs r.base w.base) (hk : ArgsKnown w.base) :
    ∀ (es : List (Key × MPat)), PlainAll (OrsTotal r.base) es → PlainAll Starless es →
    KeysOkAll r w es → (RestlessAll es ∨ Uniform r w) → ∀ (T : Un B) (m : V → Option V)
    (σ : Binds V), (∀ e ∈ es, ∀ (x : V), m (e.1.val r) = some x → Has r.base T x) →
    MatchesEntries r es m σ → Bound r.base σ (entries w es T)
  | [], _, _, _, _, _, _, σ, _, hm => by
    simp only [MatchesEntries] at hm
    subst hm
    exact bound_nil
  | (k, p) :: es, ho, hst, hkeys, hrest, T, m, σ, hT, hm => by
    simp only [PlainAll] at ho hst
    simp only [KeysOkAll] at hkeys
    simp only [MatchesEntries] at hm
    obtain ⟨x, σ1, σ2, hx, hp, hes, rfl⟩ := hm
    simp only [entries]
    exact bound_append
      (names_map hs hsame hk p ho.1 hst.1 hkeys.2.1 (hrest.imp (fun h => h.1) id) T x σ1
        (hT _ List.mem_cons_self x hx) hp)
      (names_entries hs hsame hk es ho.2 hst.2 hkeys.2.2 (hrest.imp (fun h => h.2) id) T m σ2
        (fun e he => hT e (List.mem_cons_of_mem _ he)) hes)

theorem names_dict (hs : Sound r w) (hsame : SameArgs r.base w.base) (hk : ArgsKnown w.base) :
    ∀ (es : List (Key × MPat)), PlainAll (OrsTotal r.base) es → PlainAll Starless es →
    KeysOkAll r w es → (RestlessAll es ∨ Uniform r w) → ∀ (d : Dict B) (m : V → Option V)
    (σ : Binds V), DictHas r d m →
    MatchesEntries r es m σ → Bound r.base σ (dictEntries w es d).2
  | [], _, _, _, _, _, _, σ, _, hm => by
    simp only [MatchesEntries] at hm
    subst hm
    exact bound_nil
  | (k, p) :: es, ho, hst, hkeys, hrest, d, m, σ, hd, hm => by
    simp only [PlainAll] at ho hst
    simp only [KeysOkAll] at hkeys
    simp only [MatchesEntries] at hm
    obtain ⟨x, σ1, σ2, hx, hp, hes, rfl⟩ := hm
    obtain ⟨T, sure, he⟩ := entry_there hs hd hkeys.1 hx
    simp only [dictEntries, he]
    exact bound_append
      (names_map hs hsame hk p ho.1 hst.1 hkeys.2.1 (hrest.imp (fun h => h.1) id) T x σ1
        (entry_has hs hd hx he) hp)
      (names_dict hs hsame hk es ho.2 hst.2 hkeys.2.2 (hrest.imp (fun h => h.2) id) d m σ2
        hd hes)

end

end Verif.Mapping
