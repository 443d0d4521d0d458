/-
Overwriting entries of the frame at the top, and merging the two sides of a
condition into it.
-/
import Verif.Flow.Merge
import Mathlib.Data.List.Forall2

namespace Verif.Flow

section
variable {Ty P V : Type} {O : Ops Ty P} {S : Sem Ty V P} {A M D : Key → Prop}

/-- An entry as it is written by the analysis. -/
structure EntryOk (M D : Key → Prop) (n : Entry Ty) : Prop where
  key : M n.key
  deleted : n.deleted = true → D n.key

theorem EntriesOk.entry {es : List (Entry Ty)} (h : EntriesOk M D es) {e : Entry Ty}
    (he : e ∈ es) : EntryOk M D e := ⟨h.keys e he, h.deleted e he⟩

theorem entriesOk_invalidate {a : Key} {es : List (Entry Ty)} (h : EntriesOk M D es) :
    EntriesOk M D (invalidate a es) :=
  ⟨uniq_invalidate h.uniq, fun e he => h.keys e (mem_invalidate he),
    fun e he => h.deleted e (mem_invalidate he)⟩

theorem entriesOk_upsert {f : Entry Ty → Entry Ty} {new : Entry Ty} {es : List (Entry Ty)}
    (h : EntriesOk M D es) (hn : EntryOk M D new)
    (hf : ∀ e, e.key = new.key → (f e).key = new.key)
    (hd : ∀ e ∈ es, e.key = new.key → (f e).deleted = true → D new.key) :
    EntriesOk M D (upsert f new es) := by
  refine ⟨uniq_upsert hf h.uniq, ?_, ?_⟩
  · intro e he
    rcases mem_upsert he with rfl | h1 | ⟨e0, h1, h2, rfl⟩
    · exact hn.key
    · exact h.keys e h1
    · rw [hf e0 h2]; exact hn.key
  · intro e he hdel
    rcases mem_upsert he with rfl | h1 | ⟨e0, h1, h2, rfl⟩
    · exact hn.deleted hdel
    · exact h.deleted e h1 hdel
    · rw [hf e0 h2]; exact hd e0 h1 h2 hdel

/-! ### The frame at the top -/

theorem overwriteTop_ok {n : Entry Ty} {f : Frame Ty} (h : EntriesOk M D f.entries)
    (hn : EntryOk M D n) : EntriesOk M D (overwriteTop n f).entries :=
  entriesOk_upsert (entriesOk_invalidate h) hn (fun _ _ => rfl) (fun _ _ _ hd => hn.deleted hd)

theorem find_overwriteTop {n : Entry Ty} {f : Frame Ty} (k : Key) :
    find k (overwriteTop n f).entries =
      if n.key = k then some n else if k.isChildOf n.key = true then none else find k f.entries := by
  unfold overwriteTop
  rw [find_upsert k _ _ _ (fun _ _ => rfl), find_invalidate]
  by_cases hk : n.key = k
  · rw [if_pos hk, if_pos hk]
    split <;> rfl
  · rw [if_neg hk, if_neg hk]

theorem says_overwriteTop_here {n : Entry Ty} {f : Frame Ty} {R : List (Frame Ty)} {v : V}
    (h : Covers S n v) (h' : (n.mods = true ∧ A n.key) ∨ Says S A n.key v R) :
    Says S A n.key v (overwriteTop n f :: R) := by
  rw [says_some (e := n) (by rw [find_overwriteTop, if_pos rfl])]
  exact ⟨h, h'⟩

theorem says_overwriteTop_other {n : Entry Ty} {f : Frame Ty} {R : List (Frame Ty)} {k : Key}
    {v : V} (ap : Apart A M D) (hn : M n.key) (hk : n.key ≠ k)
    (h : Says S A k v (f :: R)) : Says S A k v (overwriteTop n f :: R) := by
  have hf := find_overwriteTop (n := n) (f := f) k
  rw [if_neg hk] at hf
  by_cases hc : k.isChildOf n.key = true
  · rw [if_pos hc] at hf
    have hA : ¬ A k := fun ha => by rw [ap.above k n.key ha hn] at hc; cases hc
    rw [says_none hf]
    exact says_tail hA h
  · rw [if_neg hc] at hf
    cases hf' : find k f.entries with
    | none =>
      rw [hf'] at hf
      rw [says_none hf]
      exact (says_none hf').mp h
    | some e =>
      rw [hf'] at hf
      rw [says_some hf]
      exact (says_some hf').mp h

theorem hasD_cons {f : Frame Ty} {R : List (Frame Ty)} (h : HasD D R) : HasD D (f :: R) := by
  intro k hk
  rw [lookup_cons]
  have := h k hk
  cases find k f.entries with
  | none => exact this
  | some e => rfl

theorem hasD_of_find {f f' : Frame Ty} {R : List (Frame Ty)} (h : HasD D (f :: R))
    (hf : ∀ k, D k → (find k f.entries).isSome = true → (find k f'.entries).isSome = true) :
    HasD D (f' :: R) := by
  intro k hk
  have := h k hk
  rw [lookup_cons] at this ⊢
  cases h1 : find k f.entries with
  | none =>
    rw [h1] at this
    cases find k f'.entries with
    | none => exact this
    | some e => rfl
  | some e =>
    have := hf k hk (by rw [h1]; rfl)
    cases h2 : find k f'.entries with
    | none => rw [h2] at this; cases this
    | some e => rfl

theorem hasD_overwriteTop {n : Entry Ty} {f : Frame Ty} {R : List (Frame Ty)}
    (ap : Apart A M D) (hn : M n.key) (h : HasD D (f :: R)) : HasD D (overwriteTop n f :: R) := by
  refine hasD_of_find h ?_
  intro k hk hs
  rw [find_overwriteTop]
  split
  · rfl
  · rw [if_neg (by rw [ap.above k n.key (ap.deleted k hk) hn]; simp)]
    exact hs

/-! ### `overwriteEntries` -/

theorem find_overFold {ow : Bool} {k : Key} {new : List (Entry Ty)} (hu : Uniq new) :
    ∀ (es : List (Entry Ty)),
    (find k new = none →
      find k (new.foldl (fun es n =>
        upsert (fun e => { n with mods := n.mods || (e.mods || ow) }) n es) es) = find k es) ∧
    (∀ n, find k new = some n → ∃ b,
      find k (new.foldl (fun es n =>
        upsert (fun e => { n with mods := n.mods || (e.mods || ow) }) n es) es) =
        some { n with mods := b } ∧ (n.mods = true → b = true) ∧
        (∀ e, find k es = some e → e.mods = true → b = true)) := by
  induction new with
  | nil => intro es; exact ⟨fun _ => rfl, fun n h => by cases h⟩
  | cons m new ih =>
    intro es
    have hu' := List.pairwise_cons.mp hu
    have ih' := ih hu'.2 (upsert (fun e => { m with mods := m.mods || (e.mods || ow) }) m es)
    have hup := find_upsert k (fun e => { m with mods := m.mods || (e.mods || ow) }) m es
      (fun _ _ => rfl)
    rw [List.foldl_cons, find_cons]
    by_cases hk : m.key = k
    · rw [if_pos hk]
      rw [if_pos hk] at hup
      have hnone : find k new = none := by
        rw [find_none_iff]
        intro e he hek
        exact hu'.1 e he (hk.trans hek.symm)
      refine ⟨fun h => (by cases h), ?_⟩
      intro n hn
      cases hn
      rw [ih'.1 hnone, hup]
      cases he : find k es with
      | none =>
        refine ⟨m.mods, ?_, fun h => h, fun e h => by cases h⟩
        rfl
      | some e =>
        refine ⟨m.mods || (e.mods || ow), rfl, fun h => by simp [h], ?_⟩
        intro e' h h'
        cases h
        simp [h']
    · rw [if_neg hk]
      rw [if_neg hk] at hup
      refine ⟨fun h => by rw [ih'.1 h, hup], ?_⟩
      intro n hn
      obtain ⟨b, h1, h2, h3⟩ := ih'.2 n hn
      refine ⟨b, h1, h2, ?_⟩
      rw [hup] at h3
      exact h3

theorem overFold_ok {ow : Bool} {new : List (Entry Ty)} :
    ∀ (es : List (Entry Ty)), EntriesOk M D es → (∀ n ∈ new, EntryOk M D n) →
    EntriesOk M D (new.foldl (fun es n =>
        upsert (fun e => { n with mods := n.mods || (e.mods || ow) }) n es) es) := by
  induction new with
  | nil => intro es h _; exact h
  | cons m new ih =>
    intro es h hn
    rw [List.foldl_cons]
    refine ih _ ?_ (fun n hn' => hn n (by simp [hn']))
    exact entriesOk_upsert h (hn m (by simp)) (fun _ _ => rfl)
      (fun _ _ _ hd => (hn m (by simp)).deleted hd)

theorem find_invFold {k : Key} {new : List (Entry Ty)} : ∀ (es : List (Entry Ty)),
    (find k (new.foldl (fun es n => invalidate n.key es) es) = find k es) ∨
    (find k (new.foldl (fun es n => invalidate n.key es) es) = none ∧
      ∃ n ∈ new, k.isChildOf n.key = true) := by
  induction new with
  | nil => intro es; exact Or.inl rfl
  | cons m new ih =>
    intro es
    rw [List.foldl_cons]
    have h := find_invalidate k m.key es
    rcases ih (invalidate m.key es) with h1 | ⟨h1, n, h2, h3⟩
    · by_cases hc : k.isChildOf m.key = true
      · rw [if_pos hc] at h
        exact Or.inr ⟨h1.trans h, m, by simp, hc⟩
      · rw [if_neg hc] at h
        exact Or.inl (h1.trans h)
    · exact Or.inr ⟨h1, n, by simp [h2], h3⟩

theorem invFold_ok {new : List (Entry Ty)} : ∀ (es : List (Entry Ty)), EntriesOk M D es →
    EntriesOk M D (new.foldl (fun es n => invalidate n.key es) es) := by
  induction new with
  | nil => intro es h; exact h
  | cons m new ih => intro es h; exact ih _ (entriesOk_invalidate h)

theorem overwriteEntries_ok {ow : Bool} {new es : List (Entry Ty)} (hn : EntriesOk M D new)
    (h : EntriesOk M D es) : EntriesOk M D (overwriteEntries new ow es) :=
  overFold_ok _ (invFold_ok _ h) (fun _ he => hn.entry he)

theorem says_overwriteEntries {ow : Bool} {new es : List (Entry Ty)} {R : List (Frame Ty)}
    {u u' u'' : Bool} {k : Key} {v : V} (ap : Apart A M D)
    (hn : EntriesOk M D new) (h : Says S A k v (⟨new, u⟩ :: ⟨es, u'⟩ :: R)) :
    Says S A k v (⟨overwriteEntries new ow es, u''⟩ :: R) := by
  have hfold := find_overFold (ow := ow) (k := k) hn.uniq
    (new.foldl (fun es n => invalidate n.key es) es)
  have hinv := find_invFold (k := k) (new := new) es
  cases hf : find k new with
  | none =>
    have h1 := hfold.1 hf
    replace h : Says S A k v (⟨es, u'⟩ :: R) := (says_none (f := ⟨new, u⟩) hf).mp h
    rcases hinv with h2 | ⟨h2, n, h3, h4⟩
    · cases hes : find k es with
      | none =>
        rw [says_none (f := ⟨overwriteEntries new ow es, u''⟩) (h1.trans (h2.trans hes))]
        exact (says_none (f := ⟨es, u'⟩) hes).mp h
      | some e =>
        rw [says_some (f := ⟨overwriteEntries new ow es, u''⟩) (h1.trans (h2.trans hes))]
        exact (says_some (f := ⟨es, u'⟩) hes).mp h
    · rw [says_none (f := ⟨overwriteEntries new ow es, u''⟩) (h1.trans h2)]
      refine says_tail (fun ha => ?_) h
      rw [ap.above k n.key ha (hn.keys n h3)] at h4
      cases h4
  | some n =>
    obtain ⟨b, h1, h2, h3⟩ := hfold.2 n hf
    obtain ⟨h4, h5⟩ := (says_some (f := ⟨new, u⟩) hf).mp h
    rw [says_some (f := ⟨overwriteEntries new ow es, u''⟩) h1]
    refine ⟨h4, ?_⟩
    rcases h5 with h5 | h5
    · exact Or.inl ⟨h2 h5.1, h5.2⟩
    · by_cases hA : A k
      · cases hes : find k es with
        | none => exact Or.inr ((says_none (f := ⟨es, u'⟩) hes).mp h5)
        | some e =>
          rcases ((says_some (f := ⟨es, u'⟩) hes).mp h5).2 with h6 | h6
          · refine Or.inl ⟨h3 e ?_ h6.1, hA⟩
            rcases hinv with h7 | ⟨_, n', h7, h8⟩
            · rw [h7, hes]
            · rw [ap.above k n'.key hA (hn.keys n' h7)] at h8
              cases h8
          · exact Or.inr h6
      · exact Or.inr (says_tail hA h5)

theorem hasD_overwriteEntries {ow : Bool} {new es : List (Entry Ty)} {R : List (Frame Ty)}
    {u u' : Bool} (ap : Apart A M D) (hn : EntriesOk M D new) (h : HasD D (⟨es, u⟩ :: R)) :
    HasD D (⟨overwriteEntries new ow es, u'⟩ :: R) := by
  refine hasD_of_find h ?_
  intro k hk hs
  have hfold := find_overFold (ow := ow) (k := k) hn.uniq
    (new.foldl (fun es n => invalidate n.key es) es)
  change (find k (overwriteEntries new ow es)).isSome = true
  unfold overwriteEntries
  cases hf : find k new with
  | none =>
    rw [hfold.1 hf]
    rcases find_invFold (k := k) (new := new) es with h2 | ⟨_, n, h3, h4⟩
    · rw [h2]; exact hs
    · rw [ap.above k n.key (ap.deleted k hk) (hn.keys n h3)] at h4
      cases h4
  | some n =>
    obtain ⟨b, h1, _⟩ := hfold.2 n hf
    rw [h1]; rfl

/-! ### States -/

/-- A value is allowed by what is noted for the handlers of a `try`. -/
def TryCov (S : Sem Ty V P) (k : Key) (v : V) (es : List (Entry Ty)) : Prop :=
  ∃ e, find k es = some e ∧ Covers S e v

/-- What is noted for the handlers of a `try` only grows. -/
def TGrow (S : Sem Ty V P) (A : Key → Prop) (es es' : List (Entry Ty)) : Prop :=
  ∀ k, A k → ∀ v, TryCov S k v es → TryCov S k v es'

/-- The states of the analysis of a program. -/
structure WF (M D : Key → Prop) (st : St Ty P) : Prop where
  ne : st.frames ≠ []
  ok : ∀ f ∈ st.frames, EntriesOk M D f.entries
  hasD : HasD D st.frames
  tries : ∀ es ∈ st.tries, EntriesOk M D es ∧ ∀ e ∈ es, e.mods = true
  index : ∀ l, st.loop = some l → l.index < st.frames.length
  loop : ∀ l, st.loop = some l → ∀ f, f ∈ l.breaks ∨ f ∈ l.continues → EntriesOk M D f.entries

/-- What changes apart from the frames. -/
structure Ext (S : Sem Ty V P) (A : Key → Prop) (st st' : St Ty P) : Prop where
  tries : List.Forall₂ (TGrow S A) st.tries st'.tries
  log : ∀ ev ∈ st.log, ev ∈ st'.log
  loop : ∀ l, st.loop = some l → ∃ l', st'.loop = some l' ∧ l'.index = l.index ∧
    ∀ f ∈ l.breaks, f ∈ l'.breaks
  noloop : st.loop = none → st'.loop = none

theorem tgrow_refl (es : List (Entry Ty)) : TGrow S A es es := fun _ _ _ h => h

theorem forall₂_tgrow_refl (tr : List (List (Entry Ty))) : List.Forall₂ (TGrow S A) tr tr := by
  induction tr with
  | nil => exact List.Forall₂.nil
  | cons a as ih => exact List.Forall₂.cons (tgrow_refl a) ih

theorem forall₂_tgrow_trans {a b c : List (List (Entry Ty))} (h : List.Forall₂ (TGrow S A) a b)
    (h' : List.Forall₂ (TGrow S A) b c) : List.Forall₂ (TGrow S A) a c := by
  induction h generalizing c with
  | nil => cases h'; exact List.Forall₂.nil
  | cons h1 _ ih =>
    cases h' with
    | cons h2 h3 => exact List.Forall₂.cons (fun k hk v hv => h2 k hk v (h1 k hk v hv)) (ih h3)

theorem ext_refl (st : St Ty P) : Ext S A st st :=
  ⟨forall₂_tgrow_refl _, fun _ h => h, fun l h => ⟨l, h, rfl, fun _ h => h⟩, fun h => h⟩

theorem Ext.trans {a b c : St Ty P} (h : Ext S A a b) (h' : Ext S A b c) : Ext S A a c := by
  refine ⟨forall₂_tgrow_trans h.tries h'.tries, fun ev he => h'.log ev (h.log ev he), ?_,
    fun hn => h'.noloop (h.noloop hn)⟩
  intro l hl
  obtain ⟨l1, h1, h2, h3⟩ := h.loop l hl
  obtain ⟨l2, h4, h5, h6⟩ := h'.loop l1 h1
  exact ⟨l2, h4, h5.trans h2, fun f hf => h6 f (h3 f hf)⟩

/-- A step of the analysis: it keeps the states well formed and only changes the
frame at the top. -/
structure Step (S : Sem Ty V P) (A M D : Key → Prop) (st st' : St Ty P) : Prop where
  wf : WF M D st'
  ext : Ext S A st st'
  tail : st'.frames.tail = st.frames.tail

theorem step_refl {st : St Ty P} (h : WF M D st) : Step S A M D st st := ⟨h, ext_refl st, rfl⟩

theorem Step.trans {a b c : St Ty P} (h : Step S A M D a b) (h' : Step S A M D b c) :
    Step S A M D a c := ⟨h'.wf, h.ext.trans h'.ext, h'.tail.trans h.tail⟩

theorem WF.cons {st : St Ty P} (h : WF M D st) : ∃ f R, st.frames = f :: R := by
  cases hf : st.frames with
  | nil => exact absurd hf h.ne
  | cons f R => exact ⟨f, R, rfl⟩

theorem Step.length {st st' : St Ty P} (hw : WF M D st) (h : Step S A M D st st') :
    st'.frames.length = st.frames.length := by
  obtain ⟨f, R, h1⟩ := hw.cons
  obtain ⟨f', R', h2⟩ := h.wf.cons
  have := h.tail
  rw [h1, h2] at this
  simp at this
  rw [h1, h2, this]; rfl

/-- Changing only the frame at the top. -/
theorem step_onTop {st : St Ty P} {g : Frame Ty → Frame Ty} (h : WF M D st)
    (hok : ∀ f, EntriesOk M D f.entries → EntriesOk M D (g f).entries)
    (hD : ∀ f R, HasD D (f :: R) → HasD D (g f :: R)) : Step S A M D st (onTop g st) := by
  obtain ⟨f, R, hf⟩ := h.cons
  have hfr : (onTop g st).frames = g f :: R := by simp [onTop, mapTop, hf]
  refine ⟨⟨by rw [hfr]; simp, ?_, ?_, h.tries, ?_, h.loop⟩, ?_, by rw [hfr, hf]; rfl⟩
  · intro f' hf'
    rw [hfr] at hf'
    rcases List.mem_cons.mp hf' with rfl | h1
    · exact hok f (h.ok f (by rw [hf]; simp))
    · exact h.ok f' (by rw [hf]; simp [h1])
  · rw [hfr]; exact hD f R (hf ▸ h.hasD)
  · intro l hl
    have := h.index l hl
    rw [hf] at this
    rw [hfr]; exact this
  · exact ⟨forall₂_tgrow_refl _, fun _ h => h, fun l h => ⟨l, h, rfl, fun _ h => h⟩, fun h => h⟩

theorem step_markUnreachable {st : St Ty P} (h : WF M D st) :
    Step S A M D st (markUnreachable st) :=
  step_onTop h (fun _ hf => hf) (fun _ _ hd => hd)

/-- What is noted for the handlers of a `try`. -/
theorem tryAdd_ok {frames : List (Frame Ty)} {n : Entry Ty} (hn : EntryOk M D n)
    (hm : n.mods = true) {es : List (Entry Ty)} (h : EntriesOk M D es)
    (hmods : ∀ e ∈ es, e.mods = true) :
    EntriesOk M D (tryAdd O frames n es) ∧ ∀ e ∈ tryAdd O frames n es, e.mods = true := by
  unfold tryAdd
  simp only
  have hi := entriesOk_invalidate (a := n.key) h
  have him : ∀ e ∈ invalidate n.key es, e.mods = true := fun e he => hmods e (mem_invalidate he)
  split
  · exact ⟨hi, him⟩
  · have hmk : EntryOk M D (mergeKey O frames n) :=
      ⟨by rw [mergeKey_key]; exact hn.key,
       fun hd => by rw [mergeKey_key]; exact hn.deleted (mergeKey_deleted _ _ hd)⟩
    refine ⟨entriesOk_upsert hi hmk (fun e he => he) ?_, ?_⟩
    · intro e he _ hd
      exact hmk.deleted (union_deleted hd).2
    · intro e he
      rcases mem_upsert he with rfl | h1 | ⟨e0, h1, _, rfl⟩
      · exact mergeKey_mods _ _ hm
      · exact him e h1
      · simp [union, him e0 h1]

theorem find_tryAdd_other {frames : List (Frame Ty)} {n : Entry Ty} {es : List (Entry Ty)}
    {k : Key} (hk : k.isChildOf n.key = false) (hne : n.key ≠ k) :
    find k (tryAdd O frames n es) = find k es := by
  have hi : find k (invalidate n.key es) = find k es := by
    rw [find_invalidate, if_neg (by simp [hk])]
  unfold tryAdd
  simp only
  split
  · exact hi
  · rw [find_upsert k (fun e => union O e (mergeKey O frames n)) _ _ (fun e he => he),
      mergeKey_key, if_neg hne]
    exact hi

theorem tryAdd_grow (L : Lawful O S) {frames : List (Frame Ty)} {n : Entry Ty}
    {es : List (Entry Ty)} (ap : Apart A M D) (hn : M n.key) :
    TGrow S A es (tryAdd O frames n es) := by
  intro k hk v hv
  obtain ⟨e, h1, h2⟩ := hv
  have hc := ap.above k n.key hk hn
  by_cases hne : n.key = k
  · unfold tryAdd
    simp only
    have hi : find k (invalidate n.key es) = some e := by
      rw [find_invalidate, if_neg (by simp [hc]), h1]
    split
    · exact ⟨e, hi, h2⟩
    · refine ⟨union O e (mergeKey O frames n), ?_, covers_union_left L h2⟩
      rw [find_upsert k (fun e => union O e (mergeKey O frames n)) _ _ (fun e he => he),
        mergeKey_key, if_pos hne, hi]
  · exact ⟨e, by rw [find_tryAdd_other hc hne, h1], h2⟩

theorem tryAdd_new (L : Lawful O S) {frames : List (Frame Ty)} {n : Entry Ty}
    {es : List (Entry Ty)} (ap : Apart A M D) (hA : A n.key) (hes : ∀ e ∈ es, M e.key) {v : V}
    (h : Covers S n v) : TryCov S n.key v (tryAdd O frames n es) := by
  unfold tryAdd
  simp only
  have hany : (invalidate n.key es).any (fun e => n.key.isChildOf e.key) = false := by
    rw [List.any_eq_false]
    intro e he
    rw [ap.above n.key e.key hA (hes e (mem_invalidate he))]
    simp
  rw [hany]
  simp only [Bool.false_eq_true, if_false]
  have hc : Covers S (mergeKey O frames n) v := covers_mergeKey_new L h
  have := find_upsert n.key (fun e => union O e (mergeKey O frames n)) (mergeKey O frames n)
    (invalidate n.key es) (fun e he => he)
  rw [mergeKey_key, if_pos rfl] at this
  refine ⟨_, this, ?_⟩
  cases find n.key (invalidate n.key es) with
  | none => exact hc
  | some e => exact covers_union_right L hc

theorem forall₂_map_self {g : List (Entry Ty) → List (Entry Ty)} (tr : List (List (Entry Ty)))
    (h : ∀ es ∈ tr, TGrow S A es (g es)) : List.Forall₂ (TGrow S A) tr (tr.map g) := by
  induction tr with
  | nil => exact List.Forall₂.nil
  | cons a as ih =>
    exact List.Forall₂.cons (h a (by simp)) (ih (fun es he => h es (by simp [he])))

theorem step_overwriteEntry (L : Lawful O S) (ap : Apart A M D) {st : St Ty P} {n : Entry Ty}
    (h : WF M D st) (hn : EntryOk M D n) (hm : n.mods = true) :
    Step S A M D st (overwriteEntry O st n) := by
  obtain ⟨f, R, hf⟩ := h.cons
  have hfr : (overwriteEntry O st n).frames = overwriteTop n f :: R := by
    simp [overwriteEntry, hf]
  refine ⟨⟨by rw [hfr]; simp, ?_, ?_, ?_, ?_, h.loop⟩, ?_, by rw [hfr, hf]; rfl⟩
  · intro f' hf'
    rw [hfr] at hf'
    rcases List.mem_cons.mp hf' with rfl | h1
    · exact overwriteTop_ok (h.ok f (by rw [hf]; simp)) hn
    · exact h.ok f' (by rw [hf]; simp [h1])
  · rw [hfr]; exact hasD_overwriteTop ap hn.key (hf ▸ h.hasD)
  · intro es hes
    simp only [overwriteEntry, List.mem_map] at hes
    obtain ⟨es0, h1, rfl⟩ := hes
    exact tryAdd_ok hn hm (h.tries es0 h1).1 (h.tries es0 h1).2
  · intro l hl
    have := h.index l hl
    rw [hf] at this
    rw [hfr]; exact this
  · refine ⟨?_, fun ev he => he, fun l hl => ⟨l, hl, rfl, fun _ h => h⟩, fun h => h⟩
    exact forall₂_map_self _ (fun es _ => tryAdd_grow L ap hn.key)

/-! ### `mergeConditional` -/

/-- The two lists of entries `mergeStep` works on. -/
theorem step_mergeStep (L : Lawful O S) (ap : Apart A M D) {st : St Ty P}
    {others : List (Entry Ty)} {first : Entry Ty} (h : WF M D st) (hn : EntryOk M D first)
    (ho : EntriesOk M D others) :
    Step S A M D st (mergeStep O (st, others) first).1 ∧
      EntriesOk M D (mergeStep O (st, others) first).2 := by
  unfold mergeStep
  by_cases hm : first.mods = true
  · rw [if_pos hm]
    cases hf : find first.key others with
    | some other =>
      simp only
      refine ⟨step_overwriteEntry L ap h ?_ ?_, ?_⟩
      · have hk : other.key = first.key := find_key hf
        split
        · exact ⟨hn.key, fun hd => hn.deleted (union_deleted hd).1⟩
        · exact ⟨by rw [union_key, hk]; exact hn.key,
            fun hd => by rw [union_key, hk]; exact hn.deleted (union_deleted hd).2⟩
      · split <;> simp [union, hm]
      · refine ⟨uniq_handled ho.uniq, ?_, ?_⟩
        · intro e he
          have : e.key ∈ (handled first.key others).map (·.key) := List.mem_map_of_mem he
          rw [handled_keys] at this
          obtain ⟨e0, h1, h2⟩ := List.mem_map.mp this
          rw [← h2]; exact ho.keys e0 h1
        · intro e he hd
          have hfe := find_of_mem (uniq_handled ho.uniq) he
          rw [find_handled] at hfe
          split at hfe
          · cases hw : find e.key others with
            | none => rw [hw] at hfe; cases hfe
            | some w =>
              rw [hw] at hfe
              have : ({ w with mods := false } : Entry Ty) = e := by simpa using hfe
              rw [← this] at hd ⊢
              exact ho.deleted w (find_mem hw) hd
          · exact ho.deleted e (find_mem hfe) hd
    | none =>
      refine ⟨step_overwriteEntry L ap h ?_ (mergeKey_mods _ _ hm), ho⟩
      exact ⟨by rw [mergeKey_key]; exact hn.key,
        fun hd => by rw [mergeKey_key]; exact hn.deleted (mergeKey_deleted _ _ hd)⟩
  · rw [if_neg hm]
    exact ⟨step_refl h, ho⟩

theorem step_mergeFold (L : Lawful O S) (ap : Apart A M D) {firsts : List (Entry Ty)} :
    ∀ {st : St Ty P} {others : List (Entry Ty)}, WF M D st → (∀ e ∈ firsts, EntryOk M D e) →
    EntriesOk M D others →
    Step S A M D st (firsts.foldl (mergeStep O) (st, others)).1 ∧
      EntriesOk M D (firsts.foldl (mergeStep O) (st, others)).2 := by
  induction firsts with
  | nil => intro st others h _ ho; exact ⟨step_refl h, ho⟩
  | cons a as ih =>
    intro st others h hn ho
    rw [List.foldl_cons]
    have h1 := step_mergeStep L ap h (hn a (by simp)) ho
    have h2 := ih (st := (mergeStep O (st, others) a).1) (others := (mergeStep O (st, others) a).2)
      h1.1.wf (fun e he => hn e (by simp [he])) h1.2
    exact ⟨h1.1.trans h2.1, h2.2⟩

theorem step_mergeConditional (L : Lawful O S) (ap : Apart A M D) {st : St Ty P} {t f : Frame Ty}
    (h : WF M D st) (ht : EntriesOk M D t.entries) (hf : EntriesOk M D f.entries) :
    Step S A M D st (mergeConditional O st t f) := by
  unfold mergeConditional
  have hover : ∀ (new : List (Entry Ty)) (ow : Bool), EntriesOk M D new →
      Step S A M D st (onTop (fun tos =>
        { tos with entries := overwriteEntries new ow tos.entries }) st) := by
    intro new ow hnew
    exact step_onTop h (fun g hg => overwriteEntries_ok hnew hg)
      (fun g R hd => hasD_overwriteEntries ap hnew hd)
  split
  · split
    · exact hover _ _ hf
    · split
      · exact hover _ _ ht
      · exact step_markUnreachable h
  · have h1 := step_mergeFold L ap h (fun e he => ht.entry he) hf
    have h2 := step_mergeFold L ap h1.1.wf (fun e he => h1.2.entry he) ht
    exact h1.1.trans h2.1

/-- An assignment of a merged entry keeps what the frames say about other keys. -/
theorem says_overwriteEntry_other (ap : Apart A M D) {st : St Ty P} {n : Entry Ty}
    {k : Key} {v : V} (hn : M n.key) (hk : n.key ≠ k) (h : Says S A k v st.frames) :
    Says S A k v (overwriteEntry O st n).frames := by
  cases hf : st.frames with
  | nil => simp [overwriteEntry, hf, Says]
  | cons f R =>
    have : (overwriteEntry O st n).frames = overwriteTop n f :: R := by simp [overwriteEntry, hf]
    rw [this]
    exact says_overwriteTop_other ap hn hk (hf ▸ h)

theorem says_overwriteEntry_here {st : St Ty P} {n : Entry Ty} {v : V}
    (h : Covers S n v) (hA : ¬ A n.key → Says S A n.key v st.frames)
    (hm : n.mods = true) : Says S A n.key v (overwriteEntry O st n).frames := by
  cases hf : st.frames with
  | nil => simp [overwriteEntry, hf, Says]
  | cons f R =>
    have : (overwriteEntry O st n).frames = overwriteTop n f :: R := by simp [overwriteEntry, hf]
    rw [this]
    by_cases ha : A n.key
    · exact says_overwriteTop_here h (Or.inl ⟨hm, ha⟩)
    · exact says_overwriteTop_here h (Or.inr (says_tail ha (hf ▸ hA ha)))

theorem says_swap_top {k : Key} {v : V} {es es' : List (Entry Ty)} {u u' : Bool}
    {frames : List (Frame Ty)} (hf : find k es' = find k es)
    (h : Says S A k v (⟨es, u⟩ :: frames)) : Says S A k v (⟨es', u'⟩ :: frames) := by
  simp only [Says] at h ⊢
  rw [hf]
  exact h

/-- What is said below is replaced. -/
theorem says_swap_below {k : Key} {v : V} {f : Frame Ty} {fs fs' : List (Frame Ty)}
    (hfs : Says S A k v fs → Says S A k v fs') (h : Says S A k v (f :: fs)) :
    Says S A k v (f :: fs') := by
  cases hf : find k f.entries with
  | none => rw [says_none hf] at h ⊢; exact hfs h
  | some e =>
    rw [says_some hf] at h ⊢
    exact ⟨h.1, h.2.imp_right hfs⟩

/-- A value the remaining entries allow, one step of the loop. -/
theorem mergeStep_first (L : Lawful O S) (ap : Apart A M D) {st : St Ty P}
    {others rem : List (Entry Ty)} {first : Entry Ty} {k : Key} {v : V} {u : Bool}
    (hn : EntryOk M D first) (hu : Uniq (first :: rem))
    (h : Says S A k v (⟨first :: rem, u⟩ :: st.frames)) :
    Says S A k v (⟨rem, u⟩ :: (mergeStep O (st, others) first).1.frames) := by
  have hu' := List.pairwise_cons.mp hu
  by_cases hk : first.key = k
  · have hfind : find k (first :: rem) = some first := by rw [find_cons, if_pos hk]
    have hrem : find k rem = none := by
      rw [find_none_iff]
      intro e he hek
      exact hu'.1 e he (hk.trans hek.symm)
    rw [says_none (f := ⟨rem, u⟩) hrem]
    obtain ⟨hc, hs⟩ := (says_some (f := ⟨first :: rem, u⟩) hfind).mp h
    subst hk
    unfold mergeStep
    by_cases hm : first.mods = true
    · rw [if_pos hm]
      have hA : ¬ A first.key → Says S A first.key v st.frames :=
        fun ha => hs.resolve_left (fun h => ha h.2)
      cases hf : find first.key others with
      | none =>
        simp only
        have := says_overwriteEntry_here (O := O) (st := st) (n := mergeKey O st.frames first)
          (S := S) (A := A) (covers_mergeKey_new L hc)
          (by rw [mergeKey_key]; exact hA) (mergeKey_mods _ _ hm)
        rw [mergeKey_key] at this
        exact this
      | some other =>
        simp only
        have hok : other.key = first.key := find_key hf
        split
        · exact says_overwriteEntry_here (n := union O first other) (covers_union_left L hc) hA
            (by simp [union, hm])
        · have := says_overwriteEntry_here (O := O) (st := st) (n := union O other first)
            (S := S) (A := A) (covers_union_right L hc)
            (by rw [union_key, hok]; exact hA) (by simp [union, hm])
          rw [union_key, hok] at this
          exact this
    · rw [if_neg hm]
      exact hs.resolve_left (fun h => hm h.1)
  · have hfind : find k (first :: rem) = find k rem := by rw [find_cons, if_neg hk]
    have h1 : Says S A k v (⟨rem, u⟩ :: st.frames) := says_swap_top hfind.symm h
    refine says_swap_below ?_ h1
    intro h2
    unfold mergeStep
    split
    · split
      · rename_i other hf
        have hok : other.key = first.key := find_key hf
        refine says_overwriteEntry_other ap ?_ ?_ h2
        · split
          · exact hn.key
          · rw [union_key, hok]; exact hn.key
        · split
          · exact hk
          · rw [union_key, hok]; exact hk
      · refine says_overwriteEntry_other ap ?_ ?_ h2
        · rw [mergeKey_key]; exact hn.key
        · rw [mergeKey_key]; exact hk
    · exact h2

/-- A value the other entries allow, one step of the loop. -/
theorem mergeStep_other (L : Lawful O S) (ap : Apart A M D) {st : St Ty P}
    {others : List (Entry Ty)} {first : Entry Ty} {k : Key} {v : V} {u : Bool}
    (hd : HasD D st.frames) (hn : EntryOk M D first)
    (h : Says S A k v (⟨others, u⟩ :: st.frames)) :
    Says S A k v (⟨(mergeStep O (st, others) first).2, u⟩ ::
      (mergeStep O (st, others) first).1.frames) := by
  unfold mergeStep
  by_cases hm : first.mods = true
  · rw [if_pos hm]
    by_cases hk : first.key = k
    · subst hk
      cases hf : find first.key others with
      | none =>
        simp only
        have h1 := (says_none (f := ⟨others, u⟩) hf).mp h
        rw [says_none (f := ⟨others, u⟩) hf]
        have := says_overwriteEntry_here (O := O) (st := st) (n := mergeKey O st.frames first)
          (S := S) (A := A) (covers_mergeKey_old L hd hn.deleted h1)
          (by rw [mergeKey_key]; exact fun _ => h1) (mergeKey_mods _ _ hm)
        rw [mergeKey_key] at this
        exact this
      | some other =>
        simp only
        have hok : other.key = first.key := find_key hf
        obtain ⟨hc, hs⟩ := (says_some (f := ⟨others, u⟩) hf).mp h
        have hA : ¬ A first.key → Says S A first.key v st.frames :=
          fun ha => hs.resolve_left (fun h => ha h.2)
        have hnew : Says S A first.key v (overwriteEntry O st
            (if other.mods = true then union O first other else union O other first)).frames := by
          split
          · exact says_overwriteEntry_here (n := union O first other) (covers_union_right L hc) hA
              (by simp [union, hm])
          · have := says_overwriteEntry_here (O := O) (st := st) (n := union O other first)
              (S := S) (A := A) (covers_union_left L hc)
              (by rw [union_key, hok]; exact hA) (by simp [union, hm])
            rw [union_key, hok] at this
            exact this
        have hfh : find first.key (handled first.key others) = some { other with mods := false } := by
          rw [find_handled, if_pos rfl, hf]; rfl
        rw [says_some (f := ⟨handled first.key others, u⟩) hfh]
        exact ⟨hc, Or.inr hnew⟩
    · cases hf : find first.key others with
      | none =>
        simp only
        refine says_swap_below (fun h2 => says_overwriteEntry_other ap ?_ ?_ h2) h
        · rw [mergeKey_key]; exact hn.key
        · rw [mergeKey_key]; exact hk
      | some other =>
        simp only
        have hok : other.key = first.key := find_key hf
        have hfh : find k (handled first.key others) = find k others := by
          rw [find_handled, if_neg hk]
        refine says_swap_top (u := u) hfh ?_
        exact says_swap_below (fun h2 => says_overwriteEntry_other ap (by
          split
          · exact hn.key
          · rw [union_key, hok]; exact hn.key) (by
          split
          · exact hk
          · rw [union_key, hok]; exact hk) h2) h
  · rw [if_neg hm]; exact h

/-- What the frames say is kept when the other entries allow it too. -/
theorem mergeStep_keep (L : Lawful O S) (ap : Apart A M D) {st : St Ty P}
    {others : List (Entry Ty)} {first : Entry Ty} {k : Key} {v : V}
    (hd : HasD D st.frames) (hn : EntryOk M D first)
    (h : Says S A k v st.frames) (hc : ∀ e, find k others = some e → Covers S e v) :
    Says S A k v (mergeStep O (st, others) first).1.frames ∧
      ∀ e, find k (mergeStep O (st, others) first).2 = some e → Covers S e v := by
  unfold mergeStep
  by_cases hm : first.mods = true
  · rw [if_pos hm]
    cases hf : find first.key others with
    | none =>
      simp only
      refine ⟨?_, hc⟩
      by_cases hk : first.key = k
      · subst hk
        have := says_overwriteEntry_here (O := O) (st := st) (n := mergeKey O st.frames first)
          (S := S) (A := A) (covers_mergeKey_old L hd hn.deleted h)
          (by rw [mergeKey_key]; exact fun _ => h) (mergeKey_mods _ _ hm)
        rw [mergeKey_key] at this
        exact this
      · refine says_overwriteEntry_other ap ?_ ?_ h
        · rw [mergeKey_key]; exact hn.key
        · rw [mergeKey_key]; exact hk
    | some other =>
      simp only
      have hok : other.key = first.key := find_key hf
      refine ⟨?_, ?_⟩
      · by_cases hk : first.key = k
        · subst hk
          have hcov := hc other hf
          split
          · exact says_overwriteEntry_here (n := union O first other) (covers_union_right L hcov)
              (fun _ => h) (by simp [union, hm])
          · have := says_overwriteEntry_here (O := O) (st := st) (n := union O other first)
              (S := S) (A := A) (covers_union_left L hcov)
              (by rw [union_key, hok]; exact fun _ => h) (by simp [union, hm])
            rw [union_key, hok] at this
            exact this
        · refine says_overwriteEntry_other ap ?_ ?_ h
          · split
            · exact hn.key
            · rw [union_key, hok]; exact hn.key
          · split
            · exact hk
            · rw [union_key, hok]; exact hk
      · intro e he
        rw [find_handled] at he
        split at he
        · cases hw : find k others with
          | none => rw [hw] at he; cases he
          | some w =>
            rw [hw] at he
            have : ({ w with mods := false } : Entry Ty) = e := by simpa using he
            rw [← this]
            exact hc w hw
        · exact hc e he
  · rw [if_neg hm]; exact ⟨h, hc⟩

theorem mergeFold_keep (L : Lawful O S) (ap : Apart A M D) {firsts : List (Entry Ty)} :
    ∀ {st : St Ty P} {others : List (Entry Ty)} {k : Key} {v : V},
    WF M D st → EntriesOk M D others → (∀ e ∈ firsts, EntryOk M D e) →
    Says S A k v st.frames → (∀ e, find k others = some e → Covers S e v) →
    Says S A k v (firsts.foldl (mergeStep O) (st, others)).1.frames := by
  induction firsts with
  | nil => intro st others k v _ _ _ h _; exact h
  | cons a as ih =>
    intro st others k v hw ho hn h hc
    rw [List.foldl_cons]
    have hs := step_mergeStep L ap hw (hn a (by simp)) ho
    have h1 := mergeStep_keep (O := O) L ap hw.hasD (hn a (by simp)) h hc
    exact ih (st := (mergeStep O (st, others) a).1) (others := (mergeStep O (st, others) a).2)
      hs.1.wf hs.2 (fun e he => hn e (by simp [he])) h1.1 h1.2

theorem mergeFold_first (L : Lawful O S) (ap : Apart A M D) {firsts : List (Entry Ty)} :
    ∀ {st : St Ty P} {others : List (Entry Ty)} {k : Key} {v : V} {u : Bool},
    (∀ e ∈ firsts, EntryOk M D e) → Uniq firsts →
    Says S A k v (⟨firsts, u⟩ :: st.frames) →
    Says S A k v (firsts.foldl (mergeStep O) (st, others)).1.frames := by
  induction firsts with
  | nil => intro st others k v u _ _ h; exact (says_none (f := ⟨[], u⟩) rfl).mp h
  | cons a as ih =>
    intro st others k v u hn hu h
    rw [List.foldl_cons]
    have h1 := mergeStep_first (O := O) (others := others) L ap (hn a (by simp)) hu h
    exact ih (st := (mergeStep O (st, others) a).1) (others := (mergeStep O (st, others) a).2)
      (fun e he => hn e (by simp [he])) (List.pairwise_cons.mp hu).2 h1

theorem mergeFold_other (L : Lawful O S) (ap : Apart A M D) {firsts : List (Entry Ty)} :
    ∀ {st : St Ty P} {others : List (Entry Ty)} {k : Key} {v : V} {u : Bool},
    WF M D st → EntriesOk M D others → (∀ e ∈ firsts, EntryOk M D e) →
    Says S A k v (⟨others, u⟩ :: st.frames) →
    Says S A k v (⟨(firsts.foldl (mergeStep O) (st, others)).2, u⟩ ::
      (firsts.foldl (mergeStep O) (st, others)).1.frames) := by
  induction firsts with
  | nil => intro st others k v u _ _ _ h; exact h
  | cons a as ih =>
    intro st others k v u hw ho hn h
    rw [List.foldl_cons]
    have hs := step_mergeStep L ap hw (hn a (by simp)) ho
    have h1 := mergeStep_other (O := O) L ap hw.hasD (hn a (by simp)) h
    exact ih (st := (mergeStep O (st, others) a).1) (others := (mergeStep O (st, others) a).2)
      hs.1.wf hs.2 (fun e he => hn e (by simp [he])) h1

theorem unreachable_overwriteEntry (st : St Ty P) (n : Entry Ty) :
    isUnreachable (overwriteEntry O st n) = isUnreachable st := by
  unfold isUnreachable overwriteEntry
  cases st.frames <;> rfl

theorem unreachable_mergeFold {firsts : List (Entry Ty)} :
    ∀ {st : St Ty P} {others : List (Entry Ty)},
    isUnreachable (firsts.foldl (mergeStep O) (st, others)).1 = isUnreachable st := by
  induction firsts with
  | nil => intro st others; rfl
  | cons a as ih =>
    intro st others
    rw [List.foldl_cons]
    have : isUnreachable (mergeStep O (st, others) a).1 = isUnreachable st := by
      unfold mergeStep
      split
      · split <;> exact unreachable_overwriteEntry _ _
      · rfl
    rw [← this]
    exact ih

theorem unreachable_onTop_entries {st : St Ty P} {g : Frame Ty → List (Entry Ty)} :
    isUnreachable (onTop (fun f => { f with entries := g f }) st) = isUnreachable st := by
  unfold isUnreachable onTop mapTop
  cases st.frames <;> rfl

theorem unreachable_mergeConditional {st : St Ty P} {t f : Frame Ty}
    (h : t.unreachable = false ∨ f.unreachable = false) :
    isUnreachable (mergeConditional O st t f) = isUnreachable st := by
  unfold mergeConditional
  split
  · split
    · exact unreachable_onTop_entries
    · split
      · exact unreachable_onTop_entries
      · rename_i h1 h2
        simp at h1 h2
        rcases h with h | h
        · rw [h] at h2; cases h2
        · rw [h] at h1; cases h1
  · simp only
    rw [unreachable_mergeFold, unreachable_mergeFold]

theorem says_over_top {st : St Ty P} (ap : Apart A M D) {new : Frame Ty} {ow : Bool}
    {k : Key} {v : V} (hn : EntriesOk M D new.entries)
    (hne : st.frames ≠ []) (h : Says S A k v (new :: st.frames)) :
    Says S A k v (onTop (fun tos =>
      { tos with entries := overwriteEntries new.entries ow tos.entries }) st).frames := by
  cases hf : st.frames with
  | nil => exact absurd hf hne
  | cons f R =>
    have : (onTop (fun tos : Frame Ty =>
      { tos with entries := overwriteEntries new.entries ow tos.entries }) st).frames =
        ⟨overwriteEntries new.entries ow f.entries, f.unreachable⟩ :: R := by
      simp [onTop, mapTop, hf]
    rw [this]
    rw [hf] at h
    exact says_overwriteEntries (u := new.unreachable) (u' := f.unreachable) ap hn h

/-- What the first frame says is kept by the merge. -/
theorem says_mergeConditional_left (L : Lawful O S) (ap : Apart A M D) {st : St Ty P}
    {t f : Frame Ty} {k : Key} {v : V} (hw : WF M D st) (ht : EntriesOk M D t.entries)
    (hf : EntriesOk M D f.entries) (hr : t.unreachable = false)
    (h : Says S A k v (t :: st.frames)) :
    Says S A k v (mergeConditional O st t f).frames := by
  unfold mergeConditional
  cases hfr : f.unreachable with
  | true =>
    simp only [hr, Bool.or_false, if_true, Bool.not_true, Bool.false_eq_true, if_false,
      Bool.not_false]
    exact says_over_top ap ht hw.ne h
  | false =>
    simp only [hr, Bool.or_self, Bool.false_eq_true, if_false]
    have h1 := mergeFold_first (O := O) (others := f.entries) (u := t.unreachable) L ap
      (fun e he => ht.entry he) ht.uniq h
    have hs := step_mergeFold L ap hw (fun e he => ht.entry he) hf
    exact mergeFold_keep L ap hs.1.wf ht (fun e he => hs.2.entry he) h1
      (fun e he => ((says_some he).mp h).1)

/-- What the second frame says is kept by the merge. -/
theorem says_mergeConditional_right (L : Lawful O S) (ap : Apart A M D) {st : St Ty P}
    {t f : Frame Ty} {k : Key} {v : V} (hw : WF M D st) (ht : EntriesOk M D t.entries)
    (hf : EntriesOk M D f.entries) (hr : f.unreachable = false)
    (h : Says S A k v (f :: st.frames)) :
    Says S A k v (mergeConditional O st t f).frames := by
  unfold mergeConditional
  cases htr : t.unreachable with
  | true =>
    simp only [hr, Bool.false_or, if_true, Bool.not_false]
    exact says_over_top ap hf hw.ne h
  | false =>
    simp only [hr, Bool.or_self, Bool.false_eq_true, if_false]
    have hs := step_mergeFold L ap hw (fun e he => ht.entry he) hf
    have h1 := mergeFold_other (O := O) (u := f.unreachable) L ap hw hf
      (fun e he => ht.entry he) h
    exact mergeFold_first L ap (fun e he => hs.2.entry he) hs.2.uniq h1

end
end Verif.Flow
