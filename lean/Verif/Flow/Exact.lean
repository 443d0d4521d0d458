/-
The other direction: for programs without loops and with conditions about
values that have no name, every value of a reported type occurs.
-/
import Verif.Flow.Discipline

namespace Verif.Flow

section
variable {Ty P V : Type} {O : Ops Ty P} {S : Sem Ty V P} {A M : Key → Prop}

/-! ### What merging gives, key by key -/

/-- Entries that stand for assignments to keys of `A`. -/
structure Tidy (A : Key → Prop) (es : List (Entry Ty)) : Prop where
  uniq : Uniq es
  keys : ∀ e ∈ es, A e.key
  mods : ∀ e ∈ es, e.mods = true
  deleted : ∀ e ∈ es, e.deleted = false

/-- No key of `A` is below another. -/
def Level (A M : Key → Prop) : Prop := ∀ a k, A a → M k → k.isChildOf a = false

theorem mergeKey_congr {R R' : List (Frame Ty)} {e : Entry Ty} (h : lookup R e.key = lookup R' e.key) :
    mergeKey O R e = mergeKey O R' e := by
  unfold mergeKey
  rw [h]

theorem overwriteEntry_frames {st : St Ty P} {f : Frame Ty} {R : List (Frame Ty)} (n : Entry Ty)
    (h : st.frames = f :: R) : (overwriteEntry O st n).frames = overwriteTop n f :: R := by
  simp [overwriteEntry, h]

theorem handled_map (k : Key) (es : List (Entry Ty)) :
    (handled k es).map (·.key) = es.map (·.key) := by
  induction es with
  | nil => rfl
  | cons e es ih =>
    simp only [handled]
    split
    · rfl
    · simp [ih]

theorem mergeFold_keys (as : List (Entry Ty)) : ∀ (acc : St Ty P × List (Entry Ty)),
    (as.foldl (mergeStep O) acc).2.map (·.key) = acc.2.map (·.key) := by
  induction as with
  | nil => intro acc; rfl
  | cons a as ih =>
    intro acc
    rw [List.foldl_cons, ih]
    unfold mergeStep
    split
    · split
      · exact handled_map _ _
      · rfl
    · rfl

theorem uniq_keys {as bs : List (Entry Ty)} (h : as.map (·.key) = bs.map (·.key)) (hu : Uniq bs) :
    Uniq as := by
  unfold Uniq at *
  rw [← List.pairwise_map (f := fun e : Entry Ty => e.key) (R := (· ≠ ·))] at hu ⊢
  rw [h]; exact hu

theorem all_keys {as bs : List (Entry Ty)} (h : as.map (·.key) = bs.map (·.key))
    (hu : ∀ e ∈ bs, A e.key) : ∀ e ∈ as, A e.key := by
  intro e he
  have : e.key ∈ bs.map (·.key) := by rw [← h]; exact List.mem_map.mpr ⟨e, he, rfl⟩
  obtain ⟨e', h1, h2⟩ := List.mem_map.mp this
  rw [← h2]; exact hu e' h1

/-- What a step of the merge does to the entries of a key. -/
theorem mergeFold_find (lv : Level A M) : ∀ (as : List (Entry Ty)), Uniq as →
    (∀ e ∈ as, A e.key) → ∀ (st : St Ty P) (es : List (Entry Ty)) (f : Frame Ty)
    (R : List (Frame Ty)), st.frames = f :: R →
    ∃ f', (as.foldl (mergeStep O) (st, es)).1.frames = f' :: R ∧ ∀ k, M k →
      ((∀ e, find k as = some e → e.mods = false) →
        find k f'.entries = find k f.entries ∧
        find k (as.foldl (mergeStep O) (st, es)).2 = find k es) ∧
      (∀ e, find k as = some e → e.mods = true →
        (∀ y, find k es = some y →
          find k f'.entries = some (if y.mods then union O e y else union O y e) ∧
          find k (as.foldl (mergeStep O) (st, es)).2 = some { y with mods := false }) ∧
        (find k es = none →
          find k f'.entries = some (mergeKey O (f :: R) e) ∧
          find k (as.foldl (mergeStep O) (st, es)).2 = none)) := by
  intro as
  induction as with
  | nil =>
    intro _ _ st es f R hf
    exact ⟨f, hf, fun k _ => ⟨fun _ => ⟨rfl, rfl⟩, fun e h => by cases h⟩⟩
  | cons a as ih =>
    intro hu hA st es f R hf
    have hu' := List.pairwise_cons.mp hu
    rw [List.foldl_cons]
    by_cases hm : a.mods = true
    · cases hfe : find a.key es with
      | some y =>
        have hy := find_key hfe
        have hstep : mergeStep O (st, es) a =
            (overwriteEntry O st (if y.mods then union O a y else union O y a),
              handled a.key es) := by
          simp [mergeStep, hm, hfe]
        have hkey : (if y.mods then union O a y else union O y a).key = a.key := by
          split
          · rfl
          · exact hy
        rw [hstep]
        obtain ⟨f', h1, h2⟩ := ih hu'.2 (fun e he => hA e (by simp [he]))
          (overwriteEntry O st (if y.mods then union O a y else union O y a)) (handled a.key es)
          _ R (overwriteEntry_frames _ hf)
        refine ⟨f', h1, ?_⟩
        intro k hk
        obtain ⟨h3, h4⟩ := h2 k hk
        rw [find_overwriteTop, find_handled, hkey] at h3
        rw [find_handled] at h4
        rw [find_cons]
        by_cases hak : a.key = k
        · subst hak
          rw [if_pos rfl]
          have hnone : find a.key as = none := by
            rw [find_none_iff]
            intro e he hek
            exact hu'.1 e he hek.symm
          obtain ⟨h5, h6⟩ := h3 (by rw [hnone]; intro e h; cases h)
          rw [if_pos rfl] at h5
          rw [if_pos rfl, hfe] at h6
          refine ⟨fun h => ?_, ?_⟩
          · have := h a rfl
            rw [hm] at this; cases this
          · intro e he _
            cases he
            refine ⟨?_, fun h => by rw [hfe] at h; cases h⟩
            intro y' hy'
            rw [hfe] at hy'
            cases hy'
            exact ⟨h5, h6⟩
        · rw [if_neg hak] at h3 h4 ⊢
          rw [if_neg hak, if_neg (by
            rw [lv a.key k (hA a (by simp)) hk]; simp)] at h3
          refine ⟨h3, ?_⟩
          intro e he hem
          obtain ⟨h5, h6⟩ := h4 e he hem
          refine ⟨h5, ?_⟩
          intro hn
          obtain ⟨h7, h8⟩ := h6 hn
          refine ⟨?_, h8⟩
          rw [h7]
          congr 1
          refine mergeKey_congr ?_
          rw [find_key he, lookup_cons, lookup_cons, find_overwriteTop, hkey, if_neg hak, if_neg (by
            rw [lv a.key k (hA a (by simp)) hk]; simp)]
      | none =>
        have hstep : mergeStep O (st, es) a =
            (overwriteEntry O st (mergeKey O st.frames a), es) := by
          simp [mergeStep, hm, hfe]
        have hkey : (mergeKey O st.frames a).key = a.key := mergeKey_key _ _
        rw [hstep]
        obtain ⟨f', h1, h2⟩ := ih hu'.2 (fun e he => hA e (by simp [he]))
          (overwriteEntry O st (mergeKey O st.frames a)) es
          _ R (overwriteEntry_frames _ hf)
        refine ⟨f', h1, ?_⟩
        intro k hk
        obtain ⟨h3, h4⟩ := h2 k hk
        rw [find_overwriteTop, hkey] at h3
        rw [find_cons]
        by_cases hak : a.key = k
        · subst hak
          rw [if_pos rfl]
          have hnone : find a.key as = none := by
            rw [find_none_iff]
            intro e he hek
            exact hu'.1 e he hek.symm
          obtain ⟨h5, h6⟩ := h3 (by rw [hnone]; intro e h; cases h)
          rw [if_pos rfl, hf] at h5
          rw [hfe] at h6
          refine ⟨fun h => ?_, ?_⟩
          · have := h a rfl
            rw [hm] at this; cases this
          · intro e he _
            cases he
            exact ⟨fun y h => by (rw [hfe] at h; cases h), fun _ => ⟨h5, h6⟩⟩
        · rw [if_neg hak] at h3 ⊢
          rw [if_neg (by rw [lv a.key k (hA a (by simp)) hk]; simp)] at h3
          refine ⟨h3, ?_⟩
          intro e he hem
          obtain ⟨h5, h6⟩ := h4 e he hem
          refine ⟨h5, ?_⟩
          intro hn
          obtain ⟨h7, h8⟩ := h6 hn
          refine ⟨?_, h8⟩
          rw [h7]
          congr 1
          refine mergeKey_congr ?_
          rw [find_key he, lookup_cons, lookup_cons, find_overwriteTop, hkey, if_neg hak, if_neg (by
            rw [lv a.key k (hA a (by simp)) hk]; simp)]
    · have hstep : mergeStep O (st, es) a = (st, es) := by
        simp [mergeStep, hm]
      rw [hstep]
      obtain ⟨f', h1, h2⟩ := ih hu'.2 (fun e he => hA e (by simp [he])) st es f R hf
      refine ⟨f', h1, ?_⟩
      intro k hk
      obtain ⟨h3, h4⟩ := h2 k hk
      rw [find_cons]
      by_cases hak : a.key = k
      · subst hak
        rw [if_pos rfl]
        have hnone : find a.key as = none := by
          rw [find_none_iff]
          intro e he hek
          exact hu'.1 e he hek.symm
        refine ⟨fun _ => h3 (by rw [hnone]; intro e h; cases h), ?_⟩
        intro e he hem
        cases he
        exact absurd hem hm
      · rw [if_neg hak]
        exact ⟨h3, h4⟩

/-- The entries after merging two frames that can both be left. -/
theorem find_mergeConditional (lv : Level A M) {st : St Ty P} {f : Frame Ty}
    {R : List (Frame Ty)} {x y : Frame Ty} (hf : st.frames = f :: R)
    (hx : Tidy A x.entries) (hy : Tidy A y.entries) (hxr : x.unreachable = false)
    (hyr : y.unreachable = false) :
    ∃ f', (mergeConditional O st x y).frames = f' :: R ∧ ∀ k, M k →
      find k f'.entries =
        match find k x.entries, find k y.entries with
        | some a, some b => some (union O a b)
        | some a, none => some (mergeKey O (f :: R) a)
        | none, some b => some (mergeKey O (f :: R) b)
        | none, none => find k f.entries := by
  obtain ⟨f1, h1, h2⟩ := mergeFold_find (O := O) (P := P) lv x.entries hx.uniq hx.keys st y.entries
    f R hf
  have hu2 : Uniq (x.entries.foldl (mergeStep O) (st, y.entries)).2 :=
    uniq_keys (mergeFold_keys x.entries (st, y.entries)) hy.uniq
  have hk2 : ∀ e ∈ (x.entries.foldl (mergeStep O) (st, y.entries)).2, A e.key :=
    all_keys (mergeFold_keys x.entries (st, y.entries)) hy.keys
  obtain ⟨f2, h3, h4⟩ := mergeFold_find (O := O) (P := P) lv
    (x.entries.foldl (mergeStep O) (st, y.entries)).2 hu2 hk2
    (x.entries.foldl (mergeStep O) (st, y.entries)).1 x.entries f1 R h1
  refine ⟨f2, ?_, ?_⟩
  · unfold mergeConditional
    rw [if_neg (by simp [hxr, hyr])]
    exact h3
  · intro k hk
    obtain ⟨g1, g2⟩ := h2 k hk
    obtain ⟨g3, g4⟩ := h4 k hk
    cases hfx : find k x.entries with
    | some a =>
      have ham := hx.mods a (find_mem hfx)
      obtain ⟨g5, g6⟩ := g2 a hfx ham
      cases hfy : find k y.entries with
      | some b =>
        obtain ⟨g7, g8⟩ := g5 b hfy
        have hbm := hy.mods b (find_mem hfy)
        rw [if_pos hbm] at g7
        obtain ⟨g9, _⟩ := g3 (by
          intro e he
          rw [g8] at he
          cases he
          rfl)
        rw [g9, g7]
      | none =>
        obtain ⟨g7, g8⟩ := g6 hfy
        obtain ⟨g9, _⟩ := g3 (by
          intro e he
          rw [g8] at he
          cases he)
        rw [g9, g7]
    | none =>
      obtain ⟨g5, g6⟩ := g1 (by
        intro e he
        rw [hfx] at he
        cases he)
      cases hfy : find k y.entries with
      | some b =>
        rw [hfy] at g6
        have hbm := hy.mods b (find_mem hfy)
        obtain ⟨g7, _⟩ := (g4 b g6 hbm).2 hfx
        rw [g7]
        simp only [Option.some.injEq]
        refine mergeKey_congr ?_
        rw [find_key hfy, lookup_cons, lookup_cons, g5]
      | none =>
        rw [hfy] at g6
        obtain ⟨g9, _⟩ := g3 (by
          intro e he
          rw [g6] at he
          cases he)
        rw [g9, g5]

/-! ### The entries stay tidy -/

theorem tidy_nil : Tidy A ([] : List (Entry Ty)) := ⟨uniq_nil, by simp, by simp, by simp⟩

theorem tidy_upsert {g : Entry Ty → Entry Ty} {n : Entry Ty} {es : List (Entry Ty)}
    (h : Tidy A es) (hk : A n.key) (hm : n.mods = true) (hd : n.deleted = false)
    (hgk : ∀ e, (g e).key = n.key) (hgm : ∀ e, (g e).mods = true)
    (hgd : ∀ e, (g e).deleted = false) : Tidy A (upsert g n es) := by
  refine ⟨uniq_upsert (fun e _ => hgk e) h.uniq, ?_, ?_, ?_⟩ <;>
  · intro e he
    rcases mem_upsert he with rfl | h1 | ⟨e0, _, _, rfl⟩
    · assumption
    · first
      | exact h.keys e h1
      | exact h.mods e h1
      | exact h.deleted e h1
    · first
      | (rw [hgk]; exact hk)
      | exact hgm e0
      | exact hgd e0

theorem tidy_invalidate {a : Key} {es : List (Entry Ty)} (h : Tidy A es) :
    Tidy A (invalidate a es) :=
  ⟨uniq_invalidate h.uniq, fun e he => h.keys e (mem_invalidate he),
    fun e he => h.mods e (mem_invalidate he), fun e he => h.deleted e (mem_invalidate he)⟩

theorem tidy_overwriteTop {n : Entry Ty} {f : Frame Ty} (h : Tidy A f.entries) (hk : A n.key)
    (hm : n.mods = true) (hd : n.deleted = false) : Tidy A (overwriteTop n f).entries :=
  tidy_upsert (tidy_invalidate h) hk hm hd (fun _ => rfl) (fun _ => hm) (fun _ => hd)

theorem mergeKey_tidy {R : List (Frame Ty)} {e : Entry Ty} (hm : e.mods = true)
    (hd : e.deleted = false) :
    (mergeKey O R e).mods = true ∧ (mergeKey O R e).deleted = false := by
  unfold mergeKey
  cases lookup R e.key with
  | none => exact ⟨hm, hd⟩
  | some e0 => exact ⟨by simp [union, hm], by simp [union, hd]⟩

theorem tidy_mergeFold (as : List (Entry Ty)) (ha : ∀ e ∈ as, A e.key ∧ e.deleted = false) :
    ∀ (acc : St Ty P × List (Entry Ty)) (f : Frame Ty) (R : List (Frame Ty)),
    acc.1.frames = f :: R → Tidy A f.entries →
    ∃ f', (as.foldl (mergeStep O) acc).1.frames = f' :: R ∧ Tidy A f'.entries := by
  induction as with
  | nil => intro acc f R h ht; exact ⟨f, h, ht⟩
  | cons a as ih =>
    intro acc f R h ht
    obtain ⟨hk, hd⟩ := ha a (by simp)
    rw [List.foldl_cons]
    have hih := ih (fun e he => ha e (by simp [he])) (mergeStep O acc a)
    unfold mergeStep at hih ⊢
    by_cases hm : a.mods = true
    · rw [if_pos hm] at hih ⊢
      cases hf : find a.key acc.2 with
      | some y =>
        rw [hf] at hih
        refine hih _ R (overwriteEntry_frames _ h) (tidy_overwriteTop ht ?_ ?_ ?_)
        · split
          · exact hk
          · rw [union_key, find_key hf]; exact hk
        · split <;> simp [union, hm]
        · split <;> simp [union, hd]
      | none =>
        rw [hf] at hih
        refine hih _ R (overwriteEntry_frames _ h) (tidy_overwriteTop ht ?_ ?_ ?_)
        · rw [mergeKey_key]; exact hk
        · exact (mergeKey_tidy hm hd).1
        · exact (mergeKey_tidy hm hd).2
    · rw [if_neg hm] at hih ⊢
      exact hih f R h ht

theorem mergeFold_notDeleted (as : List (Entry Ty)) : ∀ (acc : St Ty P × List (Entry Ty)),
    (∀ e ∈ acc.2, e.deleted = false) →
    ∀ e ∈ (as.foldl (mergeStep O) acc).2, e.deleted = false := by
  induction as with
  | nil => intro acc h; exact h
  | cons a as ih =>
    intro acc h
    rw [List.foldl_cons]
    refine ih _ ?_
    unfold mergeStep
    split
    · split
      · intro e he
        rcases mem_handled he with h1 | ⟨e0, h1, rfl⟩
        · exact h e h1
        · exact h e0 h1
      · exact h
    · exact h

theorem tidy_mergeConditional {st : St Ty P} {f : Frame Ty} {R : List (Frame Ty)} {x y : Frame Ty}
    (hf : st.frames = f :: R) (ht : Tidy A f.entries) (hx : Tidy A x.entries)
    (hy : Tidy A y.entries) (hxr : x.unreachable = false) (hyr : y.unreachable = false) :
    ∃ f', (mergeConditional O st x y).frames = f' :: R ∧ Tidy A f'.entries := by
  unfold mergeConditional
  rw [if_neg (by simp [hxr, hyr])]
  obtain ⟨f1, h1, h2⟩ := tidy_mergeFold (O := O) (P := P) x.entries
    (fun e he => ⟨hx.keys e he, hx.deleted e he⟩) (st, y.entries) f R hf ht
  have hk2 : ∀ e ∈ (x.entries.foldl (mergeStep O) (st, y.entries)).2, A e.key :=
    all_keys (mergeFold_keys x.entries (st, y.entries)) hy.keys
  have hd2 : ∀ e ∈ (x.entries.foldl (mergeStep O) (st, y.entries)).2, e.deleted = false :=
    mergeFold_notDeleted x.entries (st, y.entries) hy.deleted
  exact tidy_mergeFold (O := O) (P := P) _ (fun e he => ⟨hk2 e he, hd2 e he⟩)
    ((x.entries.foldl (mergeStep O) (st, y.entries)).1, x.entries) f1 R h1 h2

theorem tidy_overwriteEntries {new es : List (Entry Ty)} {ow : Bool} (hn : Tidy A new)
    (h : Tidy A es) : Tidy A (overwriteEntries new ow es) := by
  unfold overwriteEntries
  have h1 : ∀ (l : List (Entry Ty)) (es : List (Entry Ty)), Tidy A es →
      Tidy A (l.foldl (fun es n => invalidate n.key es) es) := by
    intro l
    induction l with
    | nil => intro es h; exact h
    | cons a l ih => intro es h; exact ih _ (tidy_invalidate h)
  have h2 : ∀ (l : List (Entry Ty)), (∀ n ∈ l, A n.key ∧ n.mods = true ∧ n.deleted = false) →
      ∀ (es : List (Entry Ty)), Tidy A es →
      Tidy A (l.foldl (fun es n =>
        upsert (fun e => { n with mods := n.mods || (e.mods || ow) }) n es) es) := by
    intro l
    induction l with
    | nil => intro _ es h; exact h
    | cons a l ih =>
      intro hl es h
      obtain ⟨g1, g2, g3⟩ := hl a (by simp)
      refine ih (fun n hn => hl n (by simp [hn])) _ ?_
      exact tidy_upsert h g1 g2 g3 (fun _ => rfl) (fun e => by simp [g2]) (fun _ => g3)
  exact h2 new (fun n hm => ⟨hn.keys n hm, hn.mods n hm, hn.deleted n hm⟩) _ (h1 new es h)

theorem find_overwriteEntries (lv : Level A M) {new es : List (Entry Ty)} {ow : Bool}
    (hn : Tidy A new) {k : Key} (hk : M k) :
    (find k new = none → find k (overwriteEntries new ow es) = find k es) ∧
    (∀ n, find k new = some n → find k (overwriteEntries new ow es) = some n) := by
  unfold overwriteEntries
  have hinv : find k (new.foldl (fun es n => invalidate n.key es) es) = find k es := by
    rcases find_invFold (k := k) (new := new) es with h | ⟨_, n, h1, h2⟩
    · exact h
    · rw [lv n.key k (hn.keys n h1) hk] at h2; cases h2
  obtain ⟨h1, h2⟩ := find_overFold (ow := ow) (k := k) hn.uniq
    (new.foldl (fun es n => invalidate n.key es) es)
  refine ⟨fun h => (h1 h).trans hinv, ?_⟩
  intro n h
  obtain ⟨b, g1, g2, _⟩ := h2 n h
  have hm := hn.mods n (find_mem h)
  rw [g1, g2 hm]
  have : n = { n with mods := true } := by
    cases n
    simp only at hm
    subst hm
    rfl
  rw [← this]

/-! ### Conditions -/

theorem opaque_pure : ∀ {c : Cond Ty P}, c.Opaque S → c.Pure
  | .expr _ _, _ => trivial
  | .test _ _, h => h.elim
  | .not c, h => opaque_pure (c := c) h
  | .and c d, h => ⟨opaque_pure (c := c) h.1, opaque_pure (c := d) h.2⟩
  | .or c d, h => ⟨opaque_pure (c := c) h.1, opaque_pure (c := d) h.2⟩
  | .walrus _ _ _, h => h.elim

/-- The two frames of a condition about values without a name: they say only
whether the condition can hold and can fail. -/
structure Blank (O : Ops Ty P) (S : Sem Ty V P) (c : Cond Ty P) (g : Frame Ty × Frame Ty) :
    Prop where
  left : g.1.entries = []
  right : g.2.entries = []
  pos : g.1.unreachable = false → ∀ env, EvalC O S c env true env
  neg : g.2.unreachable = false → ∀ env, EvalC O S c env false env
  some : g.1.unreachable = false ∨ g.2.unreachable = false

theorem mergeOr_blank {R : List (Frame Ty)} {x y : Frame Ty} {b : Bool} (hx : x.entries = [])
    (hy : y.entries = []) :
    (mergeOr O R x y b).entries = [] ∧
      (mergeOr O R x y b).unreachable = (x.unreachable && y.unreachable) := by
  unfold mergeOr
  cases hxu : x.unreachable with
  | true => simp [hy]
  | false =>
    cases hyu : y.unreachable with
    | true => simp [hx, hxu]
    | false => simp [hx, hy]

theorem mergeAnd_blank {x y : Frame Ty} (hx : x.entries = []) (hy : y.entries = []) :
    (mergeAnd O x y).entries = [] ∧
      (mergeAnd O x y).unreachable = (x.unreachable || y.unreachable) := by
  unfold mergeAnd
  cases hxu : x.unreachable with
  | true => simp [hx, hxu]
  | false =>
    cases hyu : y.unreachable with
    | true => simp [hy, hyu]
    | false => simp [hx, hy, hxu]

theorem withoutEntry_entries (t : Ty) : (fromTypeWithoutEntry O t).entries = [] := by
  unfold fromTypeWithoutEntry
  split <;> rfl

theorem withoutEntry_unreachable (t : Ty) : (fromTypeWithoutEntry O t).unreachable = O.never t := by
  unfold fromTypeWithoutEntry
  cases h : O.never t <;> rfl

theorem blank_guards (L : Lawful O S) (X : Exact S O) : ∀ (c : Cond Ty P), c.Opaque S →
    ∀ st : St Ty P, Blank O S c (guards O c st).2
  | .expr t p, h, st => by
    have hg : (guards O (.expr t p) st).2 = exprGuards O st.frames (.opaque t) p := rfl
    rw [hg]
    unfold exprGuards
    simp only [exprType]
    cases hs : O.split p t with
    | none =>
      refine ⟨rfl, rfl, ?_, ?_, Or.inl rfl⟩
      · intro _ env
        obtain ⟨v, h1, h2⟩ := X.unknown p t hs true
        rw [← h2]; exact .expr h1
      · intro _ env
        obtain ⟨v, h1, h2⟩ := X.unknown p t hs false
        rw [← h2]; exact .expr h1
    | some ab =>
      obtain ⟨a, b⟩ := ab
      simp only
      refine ⟨withoutEntry_entries a, withoutEntry_entries b, ?_, ?_, ?_⟩
      · intro hu env
        rw [withoutEntry_unreachable] at hu
        obtain ⟨v, hv⟩ := X.never a hu
        obtain ⟨h1, h2⟩ := X.split_pos p t a b v hs hv
        rw [← h2]; exact .expr h1
      · intro hu env
        rw [withoutEntry_unreachable] at hu
        obtain ⟨v, hv⟩ := X.never b hu
        obtain ⟨h1, h2⟩ := X.split_neg p t a b v hs hv
        rw [← h2]; exact .expr h1
      · obtain ⟨v, hv⟩ := h
        rw [withoutEntry_unreachable, withoutEntry_unreachable]
        cases hh : S.holds p v with
        | true =>
          have hm := L.split_pos p t a b v hs hv hh
          cases hn : O.never a with
          | true => exact absurd hm (L.never v a hn)
          | false => exact Or.inl rfl
        | false =>
          have hm := L.split_neg p t a b v hs hv hh
          cases hn : O.never b with
          | true => exact absurd hm (L.never v b hn)
          | false => exact Or.inr rfl
  | .test _ _, h, _ => h.elim
  | .not c, h, st => by
    have ih := blank_guards L X c h st
    have hg : (guards O (.not c) st).2 = ((guards O c st).2.2, (guards O c st).2.1) := rfl
    rw [hg]
    exact ⟨ih.right, ih.left, fun hu env => .not (ih.neg hu env),
      fun hu env => .not (ih.pos hu env), ih.some.symm⟩
  | .and c d, h, st => by
    have ih := blank_guards L X c h.1 st
    rw [guards_and (opaque_pure h.1) (opaque_pure h.2)]
    by_cases hu : (guards O c st).2.1.unreachable = true
    · rw [if_pos hu]
      obtain ⟨a1, a2⟩ := mergeAnd_blank (O := O) ih.left (show (Frame.conditional (Ty := Ty)).entries = [] from rfl)
      obtain ⟨b1, b2⟩ := mergeOr_blank (O := O) (R := st.frames) (b := true) ih.right
        (show (Frame.conditional (Ty := Ty)).entries = [] from rfl)
      have hn : (guards O c st).2.2.unreachable = false := by
        rcases ih.some with h1 | h1
        · rw [hu] at h1; cases h1
        · exact h1
      refine ⟨a1, b1, ?_, ?_, ?_⟩
      · intro h; rw [a2, hu] at h; cases h
      · intro _ env; exact .and_short (ih.neg hn env)
      · right; rw [b2, hn]; rfl
    · rw [if_neg hu]
      simp only [Bool.not_eq_true] at hu
      have ih' := blank_guards L X d h.2 { st with frames := (guards O c st).2.1 :: st.frames }
      obtain ⟨a1, a2⟩ := mergeAnd_blank (O := O) ih.left ih'.left
      obtain ⟨b1, b2⟩ := mergeOr_blank (O := O) (R := st.frames) (b := true) ih.right ih'.right
      refine ⟨a1, b1, ?_, ?_, ?_⟩
      · intro h env
        rw [a2, hu] at h
        exact .and_long (ih.pos hu env) (ih'.pos (by simpa using h) env)
      · intro h env
        rw [b2, Bool.and_eq_false_iff] at h
        rcases h with h | h
        · exact .and_short (ih.neg h env)
        · exact .and_long (ih.pos hu env) (ih'.neg h env)
      · rcases ih'.some with h1 | h1
        · left; rw [a2, hu, h1]; rfl
        · right; rw [b2, h1]; simp
  | .or c d, h, st => by
    have ih := blank_guards L X c h.1 st
    rw [guards_or (opaque_pure h.1) (opaque_pure h.2)]
    by_cases hu : (guards O c st).2.2.unreachable = true
    · rw [if_pos hu]
      obtain ⟨a1, a2⟩ := mergeAnd_blank (O := O) ih.right (show (Frame.conditional (Ty := Ty)).entries = [] from rfl)
      obtain ⟨b1, b2⟩ := mergeOr_blank (O := O) (R := st.frames) (b := true) ih.left
        (show (Frame.conditional (Ty := Ty)).entries = [] from rfl)
      have hn : (guards O c st).2.1.unreachable = false := by
        rcases ih.some with h1 | h1
        · exact h1
        · rw [hu] at h1; cases h1
      refine ⟨b1, a1, ?_, ?_, ?_⟩
      · intro _ env; exact .or_short (ih.pos hn env)
      · intro h; rw [a2, hu] at h; cases h
      · left; rw [b2, hn]; rfl
    · rw [if_neg hu]
      simp only [Bool.not_eq_true] at hu
      have ih' := blank_guards L X d h.2 { st with frames := (guards O c st).2.2 :: st.frames }
      obtain ⟨a1, a2⟩ := mergeAnd_blank (O := O) ih.right ih'.right
      obtain ⟨b1, b2⟩ := mergeOr_blank (O := O) (R := st.frames) (b := true) ih.left ih'.left
      refine ⟨b1, a1, ?_, ?_, ?_⟩
      · intro h env
        rw [b2, Bool.and_eq_false_iff] at h
        rcases h with h | h
        · exact .or_short (ih.pos h env)
        · exact .or_long (ih.neg hu env) (ih'.pos h env)
      · intro h env
        rw [a2, hu] at h
        exact .or_long (ih.neg hu env) (ih'.neg (by simpa using h) env)
      · rcases ih'.some with h1 | h1
        · left; rw [b2, h1]; simp
        · right; rw [a2, hu, h1]; rfl
  | .walrus _ _ _, h, _ => h.elim

end
end Verif.Flow
