/-
Merging frames of the flow analysis keeps what either of them says.
-/
import Verif.Flow.Basic

namespace Verif.Flow

section
variable {Ty P V : Type} {O : Ops Ty P} {S : Sem Ty V P} {A M D : Key → Prop}

/-- Entries as they appear while a program is analysed: one for each key, only
of keys of the program (`M`), and marked as deleted only for the names the
program deletes (`D`). -/
structure EntriesOk (M D : Key → Prop) (es : List (Entry Ty)) : Prop where
  uniq : Uniq es
  keys : ∀ e ∈ es, M e.key
  deleted : ∀ e ∈ es, e.deleted = true → D e.key

theorem entriesOk_nil : EntriesOk M D ([] : List (Entry Ty)) :=
  ⟨uniq_nil, by simp, by simp⟩

/-- The keys the program assigns (`A`) are apart from its other keys. -/
structure Apart (A M D : Key → Prop) : Prop where
  below : ∀ a k, A a → M k → k.isChildOf a = false
  above : ∀ a k, A a → M k → a.isChildOf k = false
  mentioned : ∀ a, A a → M a
  deleted : ∀ a, D a → A a

/-- The names the program deletes have an entry. -/
def HasD (D : Key → Prop) (frames : List (Frame Ty)) : Prop :=
  ∀ k, D k → (lookup frames k).isSome = true

theorem says_of_entries {k : Key} {v : V} {z : Frame Ty} {R : List (Frame Ty)}
    (hc : ∀ e ∈ z.entries, e.key = k → Covers S e v)
    (h : Says S A k v R ∨
      ((∃ e, find k z.entries = some e ∧ e.mods = true) ∧ A k)) : Says S A k v (z :: R) := by
  cases hf : find k z.entries with
  | none =>
    rw [says_none hf]
    rcases h with h | ⟨⟨e, h, _⟩, _⟩
    · exact h
    · rw [hf] at h; cases h
  | some e =>
    rw [says_some hf]
    refine ⟨hc e (find_mem hf) (find_key hf), ?_⟩
    rcases h with h | ⟨⟨e', h, h1⟩, h2⟩
    · exact Or.inr h
    · rw [hf] at h; cases h; exact Or.inl ⟨h1, h2⟩

/-! ### `mergeKey` -/

theorem union_key (a b : Entry Ty) : (union O a b).key = a.key := rfl

theorem mergeKey_key (R : List (Frame Ty)) (e : Entry Ty) : (mergeKey O R e).key = e.key := by
  unfold mergeKey
  cases h : lookup R e.key with
  | none => rfl
  | some e0 =>
    have h' := lookup_key h
    simpa [union] using h'

theorem mergeKey_mods (R : List (Frame Ty)) (e : Entry Ty) (h : e.mods = true) :
    (mergeKey O R e).mods = true := by
  unfold mergeKey
  cases lookup R e.key with
  | none => exact h
  | some e0 => simp [union, h]

theorem mergeKey_deleted (R : List (Frame Ty)) (e : Entry Ty)
    (h : (mergeKey O R e).deleted = true) : e.deleted = true := by
  unfold mergeKey at h
  cases h' : lookup R e.key with
  | none => rw [h'] at h; exact h
  | some e0 => rw [h'] at h; simp [union] at h; exact h.2

theorem covers_mergeKey_new (L : Lawful O S) {R : List (Frame Ty)} {e : Entry Ty} {v : V}
    (h : Covers S e v) : Covers S (mergeKey O R e) v := by
  unfold mergeKey
  cases lookup R e.key with
  | none => exact ⟨h.1, fun t ht => by cases ht⟩
  | some e0 => exact covers_union_right L h

theorem covers_mergeKey_old (L : Lawful O S) {R : List (Frame Ty)} {e : Entry Ty} {v : V}
    (hd : HasD D R) (he : e.deleted = true → D e.key) (h : Says S A e.key v R) :
    Covers S (mergeKey O R e) v := by
  unfold mergeKey
  cases hl : lookup R e.key with
  | none =>
    refine ⟨?_, fun t ht => by cases ht⟩
    cases hdel : e.deleted with
    | false => exact hdel
    | true =>
      have := hd _ (he hdel)
      rw [hl] at this
      cases this
  | some e0 => exact covers_union_left L (says_lookup h hl)

/-! ### `mergeOr` -/

/-- An entry that no longer counts as an assignment. -/
def unmod (e : Entry Ty) : Entry Ty := { e with mods := false }

theorem orX_mem {R : List (Frame Ty)} {opt : Bool} {xs : List (Entry Ty)} (hx : Uniq xs) :
    ∀ {acc ys : List (Entry Ty)} {E : Entry Ty},
    E ∈ (xs.foldl (orStepX O R opt) (acc, ys)).1 →
    E ∈ acc ∨ ∃ xe ∈ xs, (∃ ye, find xe.key ys = some ye ∧ E = union O xe ye) ∨
      (find xe.key ys = none ∧ xe.mods = true ∧
        (opt = true ∧ E = xe ∨ opt = false ∧ E = mergeKey O R xe)) := by
  induction xs with
  | nil => intro acc ys E h; exact Or.inl h
  | cons x xs ih =>
    intro acc ys E h
    have hx' := List.pairwise_cons.mp hx
    rw [List.foldl_cons] at h
    have key : ∀ {acc' ys'}, orStepX O R opt (acc, ys) x = (acc', ys') →
        (∀ k, k ≠ x.key → find k ys' = find k ys) →
        (∀ e ∈ acc', e ∈ acc ∨ (∃ ye, find x.key ys = some ye ∧ e = union O x ye) ∨
          (find x.key ys = none ∧ x.mods = true ∧
            (opt = true ∧ e = x ∨ opt = false ∧ e = mergeKey O R x))) →
        E ∈ acc ∨ ∃ xe ∈ x :: xs, (∃ ye, find xe.key ys = some ye ∧ E = union O xe ye) ∨
          (find xe.key ys = none ∧ xe.mods = true ∧
            (opt = true ∧ E = xe ∨ opt = false ∧ E = mergeKey O R xe)) := by
      intro acc' ys' hs hy ha
      rw [hs] at h
      rcases ih hx'.2 h with h1 | ⟨xe, h1, h2⟩
      · rcases ha E h1 with h2 | h2
        · exact Or.inl h2
        · exact Or.inr ⟨x, by simp, h2⟩
      · refine Or.inr ⟨xe, by simp [h1], ?_⟩
        rw [hy xe.key (fun hh => hx'.1 xe h1 hh.symm)] at h2
        exact h2
    cases hf : find x.key ys with
    | some y =>
      refine key (acc' := acc ++ [union O x y]) (ys' := handled x.key ys)
        (by simp [orStepX, hf]) ?_ ?_
      · intro k hk
        rw [find_handled, if_neg (fun h => hk h.symm)]
      · intro e he
        rcases List.mem_append.mp he with h1 | h1
        · exact Or.inl h1
        · exact Or.inr (Or.inl ⟨y, hf, by simpa using h1⟩)
    | none =>
      by_cases hm : x.mods = true
      · cases opt with
        | true =>
          refine key (acc' := acc ++ [x]) (ys' := ys) (by simp [orStepX, hf, hm]) (fun _ _ => rfl) ?_
          intro e he
          rcases List.mem_append.mp he with h1 | h1
          · exact Or.inl h1
          · exact Or.inr (Or.inr ⟨hf, hm, Or.inl ⟨rfl, by simpa using h1⟩⟩)
        | false =>
          refine key (acc' := orAdd O R acc x) (ys' := ys) (by simp [orStepX, hf, hm])
            (fun _ _ => rfl) ?_
          intro e he
          rcases List.mem_append.mp he with h1 | h1
          · exact Or.inl (mem_invalidate h1)
          · exact Or.inr (Or.inr ⟨hf, hm, Or.inr ⟨rfl, by simpa using h1⟩⟩)
      · exact key (acc' := acc) (ys' := ys) (by simp [orStepX, hf, hm]) (fun _ _ => rfl)
          (fun e he => Or.inl he)

theorem orX_rest {R : List (Frame Ty)} {opt : Bool} (k : Key) :
    ∀ (xs acc ys : List (Entry Ty)),
    find k (xs.foldl (orStepX O R opt) (acc, ys)).2 =
      if (find k xs).isSome then (find k ys).map unmod else find k ys := by
  intro xs
  induction xs with
  | nil => intro acc ys; simp [find_nil]
  | cons x xs ih =>
    intro acc ys
    rw [List.foldl_cons]
    have key : ∀ {acc' ys'}, orStepX O R opt (acc, ys) x = (acc', ys') →
        (find k ys' = if x.key = k then (find k ys).map unmod else find k ys) →
        find k (xs.foldl (orStepX O R opt) (orStepX O R opt (acc, ys) x)).2 =
          if (find k (x :: xs)).isSome then (find k ys).map unmod else find k ys := by
      intro acc' ys' hs hy
      rw [hs, ih, hy, find_cons]
      by_cases hk : x.key = k
      · rw [if_pos hk, if_pos hk]
        cases find k ys <;> simp [unmod]
      · rw [if_neg hk, if_neg hk]
    cases hf : find x.key ys with
    | some y =>
      refine key (acc' := acc ++ [union O x y]) (ys' := handled x.key ys)
        (by simp [orStepX, hf]) ?_
      rw [find_handled]
      rfl
    | none =>
      have hn : find k ys = if x.key = k then (find k ys).map unmod else find k ys := by
        by_cases hk : x.key = k
        · rw [if_pos hk, ← hk, hf]; rfl
        · rw [if_neg hk]
      by_cases hm : x.mods = true
      · cases opt with
        | true => exact key (acc' := acc ++ [x]) (ys' := ys) (by simp [orStepX, hf, hm]) hn
        | false =>
          exact key (acc' := orAdd O R acc x) (ys' := ys) (by simp [orStepX, hf, hm]) hn
      · exact key (acc' := acc) (ys' := ys) (by simp [orStepX, hf, hm]) hn

theorem orX_uniq_rest {R : List (Frame Ty)} {opt : Bool} :
    ∀ (xs acc ys : List (Entry Ty)), Uniq ys →
    Uniq (xs.foldl (orStepX O R opt) (acc, ys)).2 := by
  intro xs
  induction xs with
  | nil => intro acc ys h; exact h
  | cons x xs ih =>
    intro acc ys h
    rw [List.foldl_cons]
    have : Uniq (orStepX O R opt (acc, ys) x).2 := by
      unfold orStepX
      split
      · exact uniq_handled h
      · split
        · split <;> exact h
        · exact h
    exact ih _ _ this

theorem mem_orAdd {R : List (Frame Ty)} {acc : List (Entry Ty)} {e E : Entry Ty}
    (hk : E.key.isChildOf e.key = false) (h : E ∈ acc) : E ∈ orAdd O R acc e := by
  unfold orAdd invalidate
  rw [List.mem_append]
  exact Or.inl (List.mem_filter.mpr ⟨h, by simp [hk]⟩)

theorem orX_keep {R : List (Frame Ty)} {opt : Bool} {E : Entry Ty} :
    ∀ (xs acc ys : List (Entry Ty)), (∀ x ∈ xs, E.key.isChildOf x.key = false) → E ∈ acc →
    E ∈ (xs.foldl (orStepX O R opt) (acc, ys)).1 := by
  intro xs
  induction xs with
  | nil => intro acc ys _ h; exact h
  | cons x xs ih =>
    intro acc ys hc h
    rw [List.foldl_cons]
    have : E ∈ (orStepX O R opt (acc, ys) x).1 := by
      unfold orStepX
      split
      · exact List.mem_append_left _ h
      · split
        · split
          · exact List.mem_append_left _ h
          · exact mem_orAdd (hc x (by simp)) h
        · exact h
    exact ih _ _ (fun x hx => hc x (by simp [hx])) this

theorem orX_has {R : List (Frame Ty)} {opt : Bool} {xs : List (Entry Ty)} (hx : Uniq xs)
    {xe : Entry Ty} : ∀ {acc ys : List (Entry Ty)},
    (∀ x ∈ xs, xe.key.isChildOf x.key = false) → xe ∈ xs →
    (xe.mods = true ∨ ∃ ye, find xe.key ys = some ye ∧ ye.mods = true) →
    ∃ E ∈ (xs.foldl (orStepX O R opt) (acc, ys)).1, E.key = xe.key ∧ E.mods = true := by
  induction xs with
  | nil => intro acc ys _ h; cases h
  | cons x xs ih =>
    intro acc ys hc h hm
    have hx' := List.pairwise_cons.mp hx
    rw [List.foldl_cons]
    rcases List.mem_cons.mp h with rfl | h'
    · have : ∃ E ∈ (orStepX O R opt (acc, ys) xe).1, E.key = xe.key ∧ E.mods = true := by
        unfold orStepX
        cases hf : find xe.key ys with
        | some y =>
          refine ⟨union O xe y, by simp, rfl, ?_⟩
          rcases hm with hm | ⟨ye, h1, h2⟩
          · simp [union, hm]
          · rw [hf] at h1; cases h1; simp [union, h2]
        | none =>
          rcases hm with hm | ⟨ye, h1, _⟩
          · simp only [hm, if_true]
            cases opt with
            | true => exact ⟨xe, by simp, rfl, hm⟩
            | false =>
              exact ⟨mergeKey O R xe, by simp [orAdd], mergeKey_key _ _, mergeKey_mods _ _ hm⟩
          · rw [hf] at h1; cases h1
      obtain ⟨E, h1, h2, h3⟩ := this
      refine ⟨E, ?_, h2, h3⟩
      exact orX_keep xs _ _ (fun x hx => h2 ▸ hc x (by simp [hx])) h1
    · have hne : xe.key ≠ x.key := fun hh => hx'.1 xe h' hh.symm
      have hstep : find xe.key (orStepX O R opt (acc, ys) x).2 = find xe.key ys := by
        unfold orStepX
        split
        · rw [find_handled, if_neg (fun hh => hne hh.symm)]
        · split
          · split <;> rfl
          · rfl
      refine ih hx'.2 (acc := (orStepX O R opt (acc, ys) x).1) (ys := (orStepX O R opt (acc, ys) x).2)
        (fun x hx => hc x (by simp [hx])) h' ?_
      rw [hstep]
      exact hm

theorem orY_mem {R : List (Frame Ty)} :
    ∀ (ys acc : List (Entry Ty)) {E : Entry Ty}, E ∈ ys.foldl (orStepY O R) acc →
    E ∈ acc ∨ ∃ ye ∈ ys, ye.mods = true ∧ E = mergeKey O R ye := by
  intro ys
  induction ys with
  | nil => intro acc E h; exact Or.inl h
  | cons y ys ih =>
    intro acc E h
    rw [List.foldl_cons] at h
    rcases ih _ h with h1 | ⟨ye, h1, h2⟩
    · unfold orStepY at h1
      split at h1
      · rename_i hc
        rcases List.mem_append.mp h1 with h2 | h2
        · exact Or.inl (mem_invalidate h2)
        · refine Or.inr ⟨y, by simp, ?_, by simpa using h2⟩
          simp at hc; exact hc.1
      · exact Or.inl h1
    · exact Or.inr ⟨ye, by simp [h1], h2⟩

theorem orY_keep {R : List (Frame Ty)} {E : Entry Ty} :
    ∀ (ys acc : List (Entry Ty)), (∀ y ∈ ys, E.key.isChildOf y.key = false) → E ∈ acc →
    E ∈ ys.foldl (orStepY O R) acc := by
  intro ys
  induction ys with
  | nil => intro acc _ h; exact h
  | cons y ys ih =>
    intro acc hc h
    rw [List.foldl_cons]
    refine ih _ (fun z hz => hc z (by simp [hz])) ?_
    unfold orStepY
    split
    · exact mem_orAdd (hc y (by simp)) h
    · exact h

theorem orY_has {R : List (Frame Ty)} {ye : Entry Ty} :
    ∀ (ys acc : List (Entry Ty)), (∀ y ∈ ys, ye.key.isChildOf y.key = false) →
    (∀ y ∈ ys, ∀ z ∈ acc, ye.key.isChildOf z.key = false) →
    ye ∈ ys → ye.mods = true → mergeKey O R ye ∈ ys.foldl (orStepY O R) acc := by
  intro ys
  induction ys with
  | nil => intro acc _ _ h; cases h
  | cons y ys ih =>
    intro acc hc ha h hm
    rw [List.foldl_cons]
    rcases List.mem_cons.mp h with rfl | h'
    · refine orY_keep ys _ ?_ ?_
      · intro z hz; rw [mergeKey_key]; exact hc z (by simp [hz])
      · unfold orStepY
        have hany : acc.any (fun e => ye.key.isChildOf e.key) = false := by
          rw [List.any_eq_false]
          intro z hz
          rw [ha ye (by simp) z hz]; simp
        rw [hany, hm]
        simp [orAdd]
    · refine ih _ (fun z hz => hc z (by simp [hz])) ?_ h' hm
      intro y' hy' z hz
      unfold orStepY at hz
      split at hz
      · rcases List.mem_append.mp hz with h2 | h2
        · exact ha y' (by simp [hy']) z (mem_invalidate h2)
        · have : z = mergeKey O R y := by simpa using h2
          rw [this, mergeKey_key]
          exact hc y (by simp)
      · exact ha y' (by simp [hy']) z hz

theorem uniq_append_singleton {es : List (Entry Ty)} {e : Entry Ty} (h : Uniq es)
    (hn : ∀ x ∈ es, x.key ≠ e.key) : Uniq (es ++ [e]) := by
  unfold Uniq
  rw [List.pairwise_append]
  exact ⟨h, List.pairwise_singleton _ _, fun a ha b hb => by
    rw [List.mem_singleton.mp hb]; exact hn a ha⟩

theorem orX_uniq {R : List (Frame Ty)} {opt : Bool} {xs : List (Entry Ty)} (hx : Uniq xs) :
    ∀ {acc ys : List (Entry Ty)}, Uniq acc → (∀ a ∈ acc, ∀ x ∈ xs, a.key ≠ x.key) →
    Uniq (xs.foldl (orStepX O R opt) (acc, ys)).1 := by
  induction xs with
  | nil => intro acc ys h _; exact h
  | cons x xs ih =>
    intro acc ys ha hd
    have hx' := List.pairwise_cons.mp hx
    rw [List.foldl_cons]
    have hax : ∀ a ∈ acc, a.key ≠ x.key := fun a h => hd a h x (by simp)
    have key : ∀ z : Entry Ty, z.key = x.key → ∀ acc' : List (Entry Ty), (∀ a ∈ acc', a ∈ acc) →
        Uniq acc' → Uniq (acc' ++ [z]) ∧ ∀ a ∈ acc' ++ [z], ∀ x' ∈ xs, a.key ≠ x'.key := by
      intro z hz acc' hs hu
      refine ⟨uniq_append_singleton hu (fun a h => hz ▸ hax a (hs a h)), ?_⟩
      intro a h x' hx''
      rcases List.mem_append.mp h with h1 | h1
      · exact hd a (hs a h1) x' (by simp [hx''])
      · have : a = z := by simpa using h1
        rw [this, hz]
        exact hx'.1 x' hx''
    have : Uniq (orStepX O R opt (acc, ys) x).1 ∧
        ∀ a ∈ (orStepX O R opt (acc, ys) x).1, ∀ x' ∈ xs, a.key ≠ x'.key := by
      unfold orStepX
      split
      · exact key (union O x _) rfl acc (fun a h => h) ha
      · split
        · split
          · exact key x rfl acc (fun a h => h) ha
          · exact key _ (mergeKey_key _ _) _ (fun a h => mem_invalidate h) (uniq_invalidate ha)
        · exact ⟨ha, fun a h x' hx'' => hd a h x' (by simp [hx''])⟩
    exact ih hx'.2 this.1 this.2

theorem orY_uniq {R : List (Frame Ty)} {ys : List (Entry Ty)} (hy : Uniq ys) :
    ∀ {acc : List (Entry Ty)}, Uniq acc →
    (∀ a ∈ acc, ∀ y ∈ ys, y.mods = true → a.key ≠ y.key) →
    Uniq (ys.foldl (orStepY O R) acc) := by
  induction ys with
  | nil => intro acc h _; exact h
  | cons y ys ih =>
    intro acc ha hd
    have hy' := List.pairwise_cons.mp hy
    rw [List.foldl_cons]
    have : Uniq (orStepY O R acc y) ∧
        ∀ a ∈ orStepY O R acc y, ∀ y' ∈ ys, y'.mods = true → a.key ≠ y'.key := by
      unfold orStepY
      split
      · rename_i hc
        have hm : y.mods = true := by simp at hc; exact hc.1
        refine ⟨uniq_append_singleton (uniq_invalidate ha) ?_, ?_⟩
        · intro a h
          rw [mergeKey_key]
          exact hd a (mem_invalidate h) y (by simp) hm
        · intro a h y' hy'' hm'
          rcases List.mem_append.mp h with h1 | h1
          · exact hd a (mem_invalidate h1) y' (by simp [hy'']) hm'
          · have : a = mergeKey O R y := by simpa using h1
            rw [this, mergeKey_key]
            exact hy'.1 y' hy''
      · exact ⟨ha, fun a h y' hy'' => hd a h y' (by simp [hy''])⟩
    exact ih hy'.2 this.1 this.2

/-- Where the entries of two merged frames come from. -/
theorem mergeOr_mem {R : List (Frame Ty)} {x y : Frame Ty} {opt : Bool}
    (hx : Uniq x.entries) (hy : Uniq y.entries)
    (hxr : x.unreachable = false) (hyr : y.unreachable = false) {E : Entry Ty}
    (h : E ∈ (mergeOr O R x y opt).entries) :
    (∃ xe ∈ x.entries, ∃ ye ∈ y.entries, xe.key = ye.key ∧ E = union O xe ye) ∨
    (∃ xe ∈ x.entries, xe.mods = true ∧ find xe.key y.entries = none ∧
      (opt = true ∧ E = xe ∨ opt = false ∧ E = mergeKey O R xe)) ∨
    (∃ ye ∈ y.entries, ye.mods = true ∧ find ye.key x.entries = none ∧
      E = mergeKey O R ye) := by
  unfold mergeOr at h
  rw [if_neg (by simp [hxr]), if_neg (by simp [hyr])] at h
  rcases orY_mem _ _ h with h1 | ⟨ye, h1, h2, h3⟩
  · rcases orX_mem hx h1 with h2 | ⟨xe, h2, ⟨ye, h3, h4⟩ | ⟨h3, h4, h5⟩⟩
    · cases h2
    · exact Or.inl ⟨xe, h2, ye, find_mem h3, (find_key h3).symm, h4⟩
    · exact Or.inr (Or.inl ⟨xe, h2, h4, h3, h5⟩)
  · have hu := orX_uniq_rest (O := O) (R := R) (opt := opt) x.entries [] y.entries hy
    have hf := find_of_mem hu h1
    rw [orX_rest] at hf
    cases hxk : find ye.key x.entries with
    | some z =>
      rw [hxk] at hf
      simp only [Option.isSome_some, if_true] at hf
      cases hyk : find ye.key y.entries with
      | none => rw [hyk] at hf; cases hf
      | some w =>
        rw [hyk] at hf
        have hw : unmod w = ye := by simpa using hf
        rw [← hw] at h2
        cases h2
    | none =>
      rw [hxk] at hf
      exact Or.inr (Or.inr ⟨ye, find_mem (by simpa using hf), h2, hxk, h3⟩)

theorem mergeOr_uniq {R : List (Frame Ty)} {x y : Frame Ty} {opt : Bool}
    (hx : Uniq x.entries) (hy : Uniq y.entries) : Uniq (mergeOr O R x y opt).entries := by
  unfold mergeOr
  split
  · exact hy
  · split
    · exact hx
    · have hu := orX_uniq_rest (O := O) (R := R) (opt := opt) x.entries [] y.entries hy
      refine orY_uniq hu (orX_uniq hx uniq_nil (by simp)) ?_
      intro a ha y' hy' hm hk
      have hf := find_of_mem hu hy'
      rw [orX_rest] at hf
      have hax : (find y'.key x.entries).isSome = true := by
        rw [← hk]
        rcases orX_mem hx ha with h2 | ⟨xe, h2, ⟨ye, h3, h4⟩ | ⟨h3, h4, h5⟩⟩
        · cases h2
        · rw [h4, union_key, find_of_mem hx h2]; rfl
        · rcases h5 with ⟨_, h5⟩ | ⟨_, h5⟩
          · rw [h5, find_of_mem hx h2]; rfl
          · rw [h5, mergeKey_key, find_of_mem hx h2]; rfl
      rw [if_pos hax] at hf
      cases hyk : find y'.key y.entries with
      | none => rw [hyk] at hf; cases hf
      | some w =>
        rw [hyk] at hf
        have hw : unmod w = y' := by simpa using hf
        rw [← hw] at hm
        cases hm

theorem union_deleted {a b : Entry Ty} (h : (union O a b).deleted = true) :
    a.deleted = true ∧ b.deleted = true := by
  simpa [union] using h

theorem mergeOr_ok {R : List (Frame Ty)} {x y : Frame Ty} {opt : Bool}
    (hx : EntriesOk M D x.entries) (hy : EntriesOk M D y.entries) :
    EntriesOk M D (mergeOr O R x y opt).entries := by
  cases hxr : x.unreachable with
  | true => unfold mergeOr; rw [if_pos hxr]; exact hy
  | false =>
    cases hyr : y.unreachable with
    | true => unfold mergeOr; rw [if_neg (by simp [hxr]), if_pos hyr]; exact hx
    | false =>
      refine ⟨mergeOr_uniq hx.uniq hy.uniq, ?_, ?_⟩
      · intro E hE
        rcases mergeOr_mem hx.uniq hy.uniq hxr hyr hE with
          ⟨xe, h1, ye, _, _, rfl⟩ | ⟨xe, h1, _, _, ⟨_, rfl⟩ | ⟨_, rfl⟩⟩ | ⟨ye, h1, _, _, rfl⟩
        · exact hx.keys xe h1
        · exact hx.keys _ h1
        · rw [mergeKey_key]; exact hx.keys xe h1
        · rw [mergeKey_key]; exact hy.keys ye h1
      · intro E hE hd
        rcases mergeOr_mem hx.uniq hy.uniq hxr hyr hE with
          ⟨xe, h1, ye, _, _, rfl⟩ | ⟨xe, h1, _, _, ⟨_, rfl⟩ | ⟨_, rfl⟩⟩ | ⟨ye, h1, _, _, rfl⟩
        · exact hx.deleted xe h1 (union_deleted hd).1
        · exact hx.deleted _ h1 hd
        · rw [mergeKey_key]; exact hx.deleted xe h1 (mergeKey_deleted _ _ hd)
        · rw [mergeKey_key]; exact hy.deleted ye h1 (mergeKey_deleted _ _ hd)

theorem mergeOr_reach_left {R : List (Frame Ty)} {x y : Frame Ty} {opt : Bool}
    (h : x.unreachable = false) : (mergeOr O R x y opt).unreachable = false := by
  unfold mergeOr
  rw [if_neg (by simp [h])]
  split
  · exact h
  · rfl

theorem mergeOr_reach_right {R : List (Frame Ty)} {x y : Frame Ty} {opt : Bool}
    (h : y.unreachable = false) : (mergeOr O R x y opt).unreachable = false := by
  unfold mergeOr
  split
  · exact h
  · rw [if_neg (by simp [h])]

theorem mergeOr_has {R : List (Frame Ty)} {x y : Frame Ty} {opt : Bool} (ap : Apart A M D)
    (hx : EntriesOk M D x.entries) (hy : EntriesOk M D y.entries)
    (hxr : x.unreachable = false) (hyr : y.unreachable = false) {k : Key} (hk : A k)
    (h : (∃ e ∈ x.entries, e.key = k ∧ e.mods = true) ∨
      (∃ e ∈ y.entries, e.key = k ∧ e.mods = true)) :
    ∃ E, find k (mergeOr O R x y opt).entries = some E ∧ E.mods = true := by
  have hu := mergeOr_uniq (O := O) (R := R) (opt := opt) hx.uniq hy.uniq
  suffices ∃ E ∈ (mergeOr O R x y opt).entries, E.key = k ∧ E.mods = true by
    obtain ⟨E, h1, h2, h3⟩ := this
    exact ⟨E, h2 ▸ find_of_mem hu h1, h3⟩
  unfold mergeOr
  rw [if_neg (by simp [hxr]), if_neg (by simp [hyr])]
  have hcx : ∀ z ∈ x.entries, k.isChildOf z.key = false :=
    fun z hz => ap.above k z.key hk (hx.keys z hz)
  have hrest : ∀ z ∈ (x.entries.foldl (orStepX O R opt) ([], y.entries)).2, M z.key := by
    intro z hz
    have hf := find_of_mem (orX_uniq_rest (O := O) (R := R) (opt := opt) x.entries [] y.entries hy.uniq) hz
    rw [orX_rest] at hf
    split at hf
    · cases hw : find z.key y.entries with
      | none => rw [hw] at hf; cases hf
      | some w =>
        rw [← find_key hw]; exact hy.keys w (find_mem hw)
    · rw [← find_key hf]; exact hy.keys z (find_mem hf)
  have hcy : ∀ z ∈ (x.entries.foldl (orStepX O R opt) ([], y.entries)).2,
      k.isChildOf z.key = false := fun z hz => ap.above k z.key hk (hrest z hz)
  have fromX : (∃ e ∈ x.entries, e.key = k ∧
      (e.mods = true ∨ ∃ ye, find e.key y.entries = some ye ∧ ye.mods = true)) →
      ∃ E ∈ (x.entries.foldl (orStepX O R opt) ([], y.entries)).2.foldl (orStepY O R)
        (x.entries.foldl (orStepX O R opt) ([], y.entries)).1, E.key = k ∧ E.mods = true := by
    rintro ⟨e, h1, rfl, h2⟩
    obtain ⟨E, h3, h4, h5⟩ := orX_has (O := O) (R := R) (opt := opt) hx.uniq
      (acc := []) (ys := y.entries) hcx h1 h2
    exact ⟨E, orY_keep _ _ (fun z hz => h4 ▸ hcy z hz) h3, h4, h5⟩
  rcases h with ⟨e, h1, h2, h3⟩ | ⟨e, h1, rfl, h3⟩
  · exact fromX ⟨e, h1, h2, Or.inl h3⟩
  · cases hxk : find e.key x.entries with
    | some xe =>
      refine fromX ⟨xe, find_mem hxk, find_key hxk, Or.inr ⟨e, ?_, h3⟩⟩
      rw [find_key hxk]
      exact find_of_mem hy.uniq h1
    | none =>
      refine ⟨mergeKey O R e, ?_, mergeKey_key _ _, mergeKey_mods _ _ h3⟩
      refine orY_has _ _ hcy ?_ ?_ h3
      · intro _ _ z hz
        rcases orX_mem hx.uniq hz with h2 | ⟨xe, h2, ⟨ye, h4, h5⟩ | ⟨h4, h5, h6⟩⟩
        · cases h2
        · rw [h5, union_key]; exact hcx xe h2
        · rcases h6 with ⟨_, h6⟩ | ⟨_, h6⟩
          · rw [h6]; exact hcx xe h2
          · rw [h6, mergeKey_key]; exact hcx xe h2
      · have := orX_rest (O := O) (R := R) (opt := opt) e.key x.entries [] y.entries
        rw [hxk] at this
        refine find_mem (k := e.key) ?_
        rw [this]
        simpa using find_of_mem hy.uniq h1

/-- What the first of two merged frames says is kept. -/
theorem says_mergeOr_left (L : Lawful O S) {R : List (Frame Ty)} {x y : Frame Ty} {opt : Bool}
    (ap : Apart A M D) (hd : HasD D R)
    (hx : EntriesOk M D x.entries) (hy : EntriesOk M D y.entries)
    (hxr : x.unreachable = false) {k : Key} {v : V}
    (h : Says S A k v (x :: R)) : Says S A k v (mergeOr O R x y opt :: R) := by
  cases hyr : y.unreachable with
  | true => unfold mergeOr; rw [if_neg (by simp [hxr]), if_pos hyr]; exact h
  | false =>
    have hcov : ∀ xe ∈ x.entries, xe.key = k → Covers S xe v := by
      rintro xe h1 rfl
      exact ((says_some (find_of_mem hx.uniq h1)).mp h).1
    refine says_of_entries ?_ ?_
    · rintro E hE rfl
      rcases mergeOr_mem hx.uniq hy.uniq hxr hyr hE with
        ⟨xe, h1, ye, _, _, rfl⟩ | ⟨xe, h1, _, _, ⟨_, rfl⟩ | ⟨_, rfl⟩⟩ | ⟨ye, h1, h2, h3, rfl⟩
      · exact covers_union_left L (hcov xe h1 rfl)
      · exact hcov _ h1 rfl
      · rw [mergeKey_key] at hcov; exact covers_mergeKey_new L (hcov xe h1 rfl)
      · rw [mergeKey_key] at h
        exact covers_mergeKey_old L hd (hy.deleted ye h1) ((says_none h3).mp h)
    · by_cases hk : A k
      · cases hf : find k x.entries with
        | none => exact Or.inl ((says_none hf).mp h)
        | some xe =>
          rcases ((says_some hf).mp h).2 with h' | h'
          · exact Or.inr ⟨mergeOr_has ap hx hy hxr hyr hk
              (Or.inl ⟨xe, find_mem hf, find_key hf, h'.1⟩), hk⟩
          · exact Or.inl h'
      · exact Or.inl (says_tail hk h)

/-- What the second of two merged frames says is kept. -/
theorem says_mergeOr_right (L : Lawful O S) {R : List (Frame Ty)} {x y : Frame Ty} {opt : Bool}
    (ap : Apart A M D) (hd : HasD D R)
    (hx : EntriesOk M D x.entries) (hy : EntriesOk M D y.entries)
    (hyr : y.unreachable = false)
    (ho : opt = true → ∀ e ∈ x.entries, e.mods = false) {k : Key} {v : V}
    (h : Says S A k v (y :: R)) : Says S A k v (mergeOr O R x y opt :: R) := by
  cases hxr : x.unreachable with
  | true => unfold mergeOr; rw [if_pos hxr]; exact h
  | false =>
    refine says_of_entries ?_ ?_
    · rintro E hE rfl
      rcases mergeOr_mem hx.uniq hy.uniq hxr hyr hE with
        ⟨xe, h1, ye, h2, h3, rfl⟩ | ⟨xe, h1, h2, h3, ⟨h4, rfl⟩ | ⟨_, rfl⟩⟩ | ⟨ye, h1, h2, h3, rfl⟩
      · refine covers_union_right L ?_
        rw [union_key, h3] at h
        exact ((says_some (find_of_mem hy.uniq h2)).mp h).1
      · rw [ho h4 _ h1] at h2; cases h2
      · rw [mergeKey_key] at h
        exact covers_mergeKey_old L hd (hx.deleted xe h1) ((says_none h3).mp h)
      · rw [mergeKey_key] at h
        exact covers_mergeKey_new L ((says_some (find_of_mem hy.uniq h1)).mp h).1
    · by_cases hk : A k
      · cases hf : find k y.entries with
        | none => exact Or.inl ((says_none hf).mp h)
        | some ye =>
          rcases ((says_some hf).mp h).2 with h' | h'
          · exact Or.inr ⟨mergeOr_has ap hx hy hxr hyr hk
              (Or.inr ⟨ye, find_mem hf, find_key hf, h'.1⟩), hk⟩
          · exact Or.inl h'
      · exact Or.inl (says_tail hk h)

end
end Verif.Flow
