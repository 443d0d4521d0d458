/-
How the lists of entries of the flow analysis change, one key at a time.
-/
import Verif.Flow.Spec

namespace Verif.Flow

section
variable {Ty P V : Type} {O : Ops Ty P} {S : Sem Ty V P}

/-! ### Lists of entries -/

theorem find_nil (k : Key) : find k ([] : List (Entry Ty)) = none := rfl

theorem find_cons (k : Key) (e : Entry Ty) (es : List (Entry Ty)) :
    find k (e :: es) = if e.key = k then some e else find k es := by
  unfold find
  rw [List.find?_cons]
  by_cases h : e.key = k <;> simp [h]

theorem find_key {k : Key} {es : List (Entry Ty)} {e : Entry Ty} (h : find k es = some e) :
    e.key = k := by
  unfold find at h
  have := List.find?_some h
  simpa using this

theorem find_mem {k : Key} {es : List (Entry Ty)} {e : Entry Ty} (h : find k es = some e) :
    e ∈ es := List.mem_of_find?_eq_some h

theorem find_none_iff {k : Key} {es : List (Entry Ty)} :
    find k es = none ↔ ∀ e ∈ es, e.key ≠ k := by
  unfold find
  simp

theorem find_append (k : Key) (as bs : List (Entry Ty)) :
    find k (as ++ bs) = (find k as).or (find k bs) := by
  unfold find
  rw [List.find?_append]

/-- No key has two entries. -/
def Uniq (es : List (Entry Ty)) : Prop := es.Pairwise (fun a b => a.key ≠ b.key)

theorem uniq_nil : Uniq ([] : List (Entry Ty)) := List.Pairwise.nil

theorem find_of_mem {es : List (Entry Ty)} (hu : Uniq es) {e : Entry Ty} (h : e ∈ es) :
    find e.key es = some e := by
  induction es with
  | nil => cases h
  | cons a as ih =>
    rw [find_cons]
    rcases List.mem_cons.mp h with rfl | h'
    · simp
    · have := (List.pairwise_cons.mp hu).1 e h'
      rw [if_neg this]
      exact ih (List.pairwise_cons.mp hu).2 h'

theorem find_upsert (k : Key) (f : Entry Ty → Entry Ty) (new : Entry Ty)
    (es : List (Entry Ty)) (hf : ∀ e, e.key = new.key → (f e).key = new.key) :
    find k (upsert f new es) =
      if new.key = k then
        some (match find k es with
          | some e => f e
          | none => new)
      else find k es := by
  induction es with
  | nil =>
    simp only [upsert, find_cons, find_nil]
  | cons a as ih =>
    simp only [upsert]
    by_cases ha : a.key = new.key
    · rw [if_pos ha, find_cons, find_cons, hf a ha, ha]
      by_cases hk : new.key = k <;> simp [hk]
    · rw [if_neg ha, find_cons, find_cons, ih]
      by_cases hk : new.key = k
      · have : a.key ≠ k := fun h => ha (h.trans hk.symm)
        rw [if_pos hk, if_neg this, if_pos hk]
        simp only [if_neg this]
      · rw [if_neg hk, if_neg hk]

theorem mem_upsert {f : Entry Ty → Entry Ty} {new : Entry Ty} {es : List (Entry Ty)}
    {e : Entry Ty} (h : e ∈ upsert f new es) :
    e = new ∨ e ∈ es ∨ ∃ e0 ∈ es, e0.key = new.key ∧ e = f e0 := by
  induction es with
  | nil =>
    simp only [upsert, List.mem_singleton] at h
    exact Or.inl h
  | cons a as ih =>
    simp only [upsert] at h
    by_cases ha : a.key = new.key
    · rw [if_pos ha] at h
      rcases List.mem_cons.mp h with rfl | h'
      · exact Or.inr (Or.inr ⟨a, by simp, ha, rfl⟩)
      · exact Or.inr (Or.inl (by simp [h']))
    · rw [if_neg ha] at h
      rcases List.mem_cons.mp h with rfl | h'
      · exact Or.inr (Or.inl (by simp))
      · rcases ih h' with h1 | h1 | ⟨e0, h1, h2⟩
        · exact Or.inl h1
        · exact Or.inr (Or.inl (by simp [h1]))
        · exact Or.inr (Or.inr ⟨e0, by simp [h1], h2⟩)

theorem uniq_upsert {f : Entry Ty → Entry Ty} {new : Entry Ty} {es : List (Entry Ty)}
    (hf : ∀ e, e.key = new.key → (f e).key = new.key) (hu : Uniq es) :
    Uniq (upsert f new es) := by
  induction es with
  | nil => exact List.pairwise_singleton _ _
  | cons a as ih =>
    have hu' := List.pairwise_cons.mp hu
    simp only [upsert]
    by_cases ha : a.key = new.key
    · rw [if_pos ha]
      refine List.pairwise_cons.mpr ⟨?_, hu'.2⟩
      intro b hb
      rw [hf a ha, ← ha]
      exact hu'.1 b hb
    · rw [if_neg ha]
      refine List.pairwise_cons.mpr ⟨?_, ih hu'.2⟩
      intro b hb
      rcases mem_upsert hb with rfl | h1 | ⟨e0, h1, h2, rfl⟩
      · exact ha
      · exact hu'.1 b h1
      · rw [hf e0 h2]; exact ha

theorem find_invalidate (k a : Key) (es : List (Entry Ty)) :
    find k (invalidate a es) = if k.isChildOf a = true then none else find k es := by
  induction es with
  | nil => simp [invalidate, find_nil]
  | cons e es ih =>
    unfold invalidate at ih ⊢
    rw [List.filter_cons]
    by_cases he : e.key.isChildOf a = true
    · rw [if_neg (by simp [he]), ih, find_cons]
      by_cases hk : k.isChildOf a = true
      · rw [if_pos hk, if_pos hk]
      · have : e.key ≠ k := fun h => hk (h ▸ he)
        rw [if_neg hk, if_neg hk, if_neg this]
    · rw [if_pos (by simpa using he), find_cons, ih, find_cons]
      by_cases hk : k.isChildOf a = true
      · have : e.key ≠ k := fun h => he (h ▸ hk)
        rw [if_pos hk, if_pos hk, if_neg this]
      · rw [if_neg hk, if_neg hk]

theorem mem_invalidate {a : Key} {es : List (Entry Ty)} {e : Entry Ty}
    (h : e ∈ invalidate a es) : e ∈ es := (List.mem_filter.mp h).1

theorem uniq_invalidate {a : Key} {es : List (Entry Ty)} (hu : Uniq es) :
    Uniq (invalidate a es) := List.Pairwise.filter _ hu

theorem find_handled (k a : Key) (es : List (Entry Ty)) :
    find k (handled a es) =
      if a = k then (find k es).map (fun e => { e with mods := false }) else find k es := by
  induction es with
  | nil => simp [handled, find_nil]
  | cons e es ih =>
    simp only [handled]
    by_cases he : e.key = a
    · rw [if_pos he, find_cons, find_cons]
      by_cases hk : a = k <;> simp [he, hk]
    · rw [if_neg he, find_cons, find_cons, ih]
      by_cases hk : a = k
      · have : e.key ≠ k := fun h => he (h.trans hk.symm)
        simp [hk, this]
      · simp [hk]

theorem mem_handled {a : Key} {es : List (Entry Ty)} {e : Entry Ty} (h : e ∈ handled a es) :
    e ∈ es ∨ ∃ e0 ∈ es, e = { e0 with mods := false } := by
  induction es with
  | nil => cases h
  | cons x xs ih =>
    simp only [handled] at h
    split at h
    · rcases List.mem_cons.mp h with rfl | h'
      · exact Or.inr ⟨x, by simp, rfl⟩
      · exact Or.inl (by simp [h'])
    · rcases List.mem_cons.mp h with rfl | h'
      · exact Or.inl (by simp)
      · rcases ih h' with h1 | ⟨e0, h1, h2⟩
        · exact Or.inl (by simp [h1])
        · exact Or.inr ⟨e0, by simp [h1], h2⟩

theorem handled_keys (a : Key) (es : List (Entry Ty)) :
    (handled a es).map (·.key) = es.map (·.key) := by
  induction es with
  | nil => rfl
  | cons x xs ih =>
    simp only [handled]
    split
    · rfl
    · simp [ih]

theorem uniq_iff (es : List (Entry Ty)) : Uniq es ↔ (es.map (·.key)).Pairwise (· ≠ ·) := by
  unfold Uniq
  rw [List.pairwise_map]

theorem uniq_handled {a : Key} {es : List (Entry Ty)} (hu : Uniq es) : Uniq (handled a es) := by
  rw [uniq_iff, handled_keys, ← uniq_iff]
  exact hu

/-! ### Values -/

theorem covers_union_left (L : Lawful O S) {a b : Entry Ty} {v : V} (h : Covers S a v) :
    Covers S (union O a b) v := by
  obtain ⟨h1, h2⟩ := h
  refine ⟨by simp [union, h1], ?_⟩
  intro t ht
  simp only [union, h1] at ht
  cases hb : b.deleted with
  | true => rw [hb] at ht; exact h2 t ht
  | false =>
    rw [hb] at ht
    simp only [simplifiedUnion] at ht
    cases hka : a.kind with
    | none => rw [hka] at ht; cases ht
    | some s =>
      cases hkb : b.kind with
      | none => rw [hka, hkb] at ht; cases ht
      | some u =>
        rw [hka, hkb] at ht
        cases ht
        exact L.join v s u (Or.inl (h2 s hka))

theorem covers_union_right (L : Lawful O S) {a b : Entry Ty} {v : V} (h : Covers S b v) :
    Covers S (union O a b) v := by
  obtain ⟨h1, h2⟩ := h
  refine ⟨by simp [union, h1], ?_⟩
  intro t ht
  simp only [union, h1] at ht
  cases hb : a.deleted with
  | true => rw [hb] at ht; exact h2 t ht
  | false =>
    rw [hb] at ht
    simp only [simplifiedUnion] at ht
    cases hka : a.kind with
    | none => rw [hka] at ht; cases ht
    | some s =>
      cases hkb : b.kind with
      | none => rw [hka, hkb] at ht; cases ht
      | some u =>
        rw [hka, hkb] at ht
        cases ht
        exact L.join v s u (Or.inr (h2 u hkb))

theorem covers_mods {e : Entry Ty} {v : V} (b : Bool) :
    Covers S { e with mods := b } v ↔ Covers S e v := Iff.rfl

/-! ### What the frames claim -/

variable (S) in
/-- Like `Allowed`, for the first entry of the key; `A` are the keys the program
assigns. -/
def Says (A : Key → Prop) (k : Key) (v : V) : List (Frame Ty) → Prop
  | [] => True
  | f :: fs =>
    match find k f.entries with
    | none => Says A k v fs
    | some e => Covers S e v ∧ ((e.mods = true ∧ A k) ∨ Says A k v fs)

variable {A : Key → Prop}

theorem says_none {k : Key} {v : V} {f : Frame Ty} {fs : List (Frame Ty)}
    (h : find k f.entries = none) : Says S A k v (f :: fs) ↔ Says S A k v fs := by
  simp only [Says, h]

theorem says_some {k : Key} {v : V} {f : Frame Ty} {fs : List (Frame Ty)} {e : Entry Ty}
    (h : find k f.entries = some e) :
    Says S A k v (f :: fs) ↔ Covers S e v ∧ ((e.mods = true ∧ A k) ∨ Says S A k v fs) := by
  simp only [Says, h]

/-- A key that is never assigned is right in every frame. -/
theorem says_tail {k : Key} {v : V} {f : Frame Ty} {fs : List (Frame Ty)} (hk : ¬ A k)
    (h : Says S A k v (f :: fs)) : Says S A k v fs := by
  cases hf : find k f.entries with
  | none => exact (says_none hf).mp h
  | some e =>
    rcases ((says_some hf).mp h).2 with h' | h'
    · exact absurd h'.2 hk
    · exact h'

theorem lookup_cons (f : Frame Ty) (fs : List (Frame Ty)) (k : Key) :
    lookup (f :: fs) k = (find k f.entries).or (lookup fs k) := by
  unfold lookup
  rw [List.findSome?_cons]
  cases find k f.entries <;> rfl

theorem says_lookup {k : Key} {v : V} {fs : List (Frame Ty)} {e : Entry Ty}
    (h : Says S A k v fs) (he : lookup fs k = some e) : Covers S e v := by
  induction fs with
  | nil => simp [lookup] at he
  | cons f fs ih =>
    rw [lookup_cons] at he
    cases hf : find k f.entries with
    | none =>
      rw [hf] at he
      exact ih ((says_none hf).mp h) he
    | some e' =>
      rw [hf] at he
      cases he
      exact ((says_some hf).mp h).1

theorem lookup_key {k : Key} {fs : List (Frame Ty)} {e : Entry Ty}
    (he : lookup fs k = some e) : e.key = k := by
  unfold lookup at he
  obtain ⟨f, _, h⟩ := List.exists_of_findSome?_eq_some he
  exact find_key h

theorem says_allowed {k : Key} {v : V} {fs : List (Frame Ty)} (h : Says S A k v fs) :
    Allowed S k v fs := by
  induction fs with
  | nil => trivial
  | cons f fs ih =>
    cases hf : find k f.entries with
    | none => exact Or.inr ⟨find_none_iff.mp hf, ih ((says_none hf).mp h)⟩
    | some e =>
      obtain ⟨h1, h2⟩ := (says_some hf).mp h
      refine Or.inl ⟨e, find_mem hf, find_key hf, h1, ?_⟩
      rcases h2 with h2 | h2
      · exact Or.inl h2.1
      · exact Or.inr (ih h2)

theorem allowed_says {k : Key} {v : V} {fs : List (Frame Ty)} (hk : A k)
    (hu : ∀ f ∈ fs, Uniq f.entries) (h : Allowed S k v fs) : Says S A k v fs := by
  induction fs with
  | nil => trivial
  | cons f fs ih =>
    have ih' := ih (fun g hg => hu g (by simp [hg]))
    rcases h with ⟨e, h1, rfl, h2, h3⟩ | ⟨h1, h2⟩
    · rw [says_some (find_of_mem (hu f (by simp)) h1)]
      refine ⟨h2, ?_⟩
      rcases h3 with h3 | h3
      · exact Or.inl ⟨h3, hk⟩
      · exact Or.inr (ih' h3)
    · rw [says_none (find_none_iff.mpr h1)]
      exact ih' h2

end
end Verif.Flow
