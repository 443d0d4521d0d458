import Verif.Vfs.NeatNotify

/-! # Histories with documents in directories of the disk: lemmas -/

namespace Verif.Vfs

theorem parentsOk_nil (s : Vfs) : ParentsOk s [] := by intro q h1 h2; exact absurd (List.prefix_nil.mp h2) h1

/-- Looking for a file reads the directories above it. -/
theorem findFile_parents {docs : Docs} {d : Disk} (hl : Listed d) : ∀ (rest : List String) (base : Path) (s : Vfs), Inv docs d s → Mirror docs d s →
    (base = [] ∨ treeGet s.tree base = some (.dir true)) → ParentsOk s base → rest ≠ [] →
    (∀ q, base <+: q → q ≠ base → q <+: base ++ rest → q ≠ base ++ rest → diskGet d q = some .dir) →
    ParentsOk (findFile d base rest s).2 (base ++ rest) := by
  intro rest
  induction rest with
  | nil => intro base s _ _ _ _ h; exact absurd rfl h
  | cons name rest ih =>
    intro base s hi h hb hpar _ hq
    have hpar' := parentsOk_append hb hpar name
    have hne : base ++ [name] ≠ [] := by simp
    cases rest with
    | nil =>
      rw [findFile]
      split <;> exact hpar'
    | cons next more =>
      have happ : base ++ name :: next :: more = (base ++ [name]) ++ next :: more := by simp
      obtain ⟨b, hg⟩ := h.dir _ hne hpar' (hq _ (List.prefix_append _ _) (by simp) ⟨next :: more, by simp⟩ (by simp))
      have hrest : ∀ q, base ++ [name] <+: q → q ≠ base ++ [name] → q <+: (base ++ [name]) ++ next :: more → q ≠ (base ++ [name]) ++ next :: more → diskGet d q = some .dir := by
        intro q h1 h2 h3 h4
        refine hq q ((List.prefix_append _ _).trans h1) ?_ (by rw [happ]; exact h3) (by rw [happ]; exact h4)
        rintro rfl
        have := h1.length_le
        simp at this
        omega
      rw [findFile, hg, happ]
      cases b with
      | true => exact ih (base ++ [name]) s hi h (.inr hg) hpar' (by simp) hrest
      | false =>
        obtain ⟨a1, a2, a3⟩ := readDir_inv hi hg
        exact ih (base ++ [name]) _ a1 (readDir_mirror hi h hl hg) (.inr a2) (a3.parentsOk hpar') (by simp) hrest

theorem load_same_tree (d : Disk) (p : Path) (s : Vfs) : (load d p s).2.tree = (findFile d [] p s).2.tree := by
  rw [load]
  cases hff : findFile d [] p s with
  | mk o s1 =>
    cases o with
    | none => rfl
    | some e =>
      dsimp only
      cases hi : s1.index e with
      | some i =>
        dsimp only
        cases s1.code i with
        | some c => rfl
        | none => dsimp only; cases diskText d p <;> rfl
      | none =>
        dsimp only
        cases diskText d p with
        | none => rfl
        | some text => dsimp only; rw [withAddedFile_new hi]; rfl

/-- A file that is there is found. -/
theorem load_there {docs : Docs} {d : Disk} {s : Vfs} {p : Path} {t : String} (h : Neat docs d s) (hl : Listed d) (hd : DiskOk d) (hp : p ≠ [])
    (ht : expected docs d p = some t) : ∃ i, (load d p s).1 = some i ∧ UsesText (load d p s).2 i p t := by
  cases hdp : docs p with
  | some t' =>
    rw [expected, hdp] at ht
    cases ht
    obtain ⟨i, a, b⟩ := load_open h.inv hdp
    exact ⟨i, by rw [a], by rw [a]; exact b⟩
  | none =>
    have hg := expected_text ht hdp
    obtain ⟨e, he⟩ := (findFile_mirror hl p [] s h.inv h.mirror (.inl rfl) (parentsOk_nil s)).2 (.inr ⟨t, hg⟩) hp
      (fun q _ a b c => hd p _ hg q a b c)
    have hdt : diskText d p = some t := by rw [diskText, hg]
    have hsome : ∃ i, (load d p s).1 = some i := by
      rw [load]
      cases hff : findFile d [] p s with
      | mk o s1 =>
        rw [hff] at he
        cases he
        dsimp only
        cases hi : s1.index e with
        | some i =>
          dsimp only
          cases s1.code i with
          | some c => exact ⟨i, rfl⟩
          | none => rw [hdt]; exact ⟨i, rfl⟩
        | none => rw [hdt]; exact ⟨_, rfl⟩
    obtain ⟨i, hi⟩ := hsome
    obtain ⟨t', h1, h2⟩ := (load_inv p h.inv).2 i hi
    rw [ht] at h2; cases h2
    exact ⟨i, hi, h1⟩

theorem load_at {docs : Docs} {d : Disk} {s : Vfs} {p : Path} {i : Nat} {t : String} (h : Inv docs d s) (hu : UsesText s i p t) : At s p i := by
  obtain ⟨f, a, b, c⟩ := hu
  exact loadedAt' h.base a b c

theorem orderly_append : ∀ (hs1 hs2 : List Happening) (docs : Docs) (d : Disk), DiskOk d → Orderly d (hs1 ++ hs2) →
    Orderly d hs1 ∧ Orderly (outsideAll docs d hs1).2 hs2 ∧ DiskOk (outsideAll docs d hs1).2 := by
  intro hs1
  induction hs1 with
  | nil => intro hs2 docs d hd h; exact ⟨trivial, h, hd⟩
  | cons x hs1 ih =>
    intro hs2 docs d hd h
    obtain ⟨o1, o2, o3⟩ := orderly_cons (docs := docs) h
    obtain ⟨a, b, c⟩ := ih hs2 (outside docs d x).1 (outside docs d x).2 (o3 hd) o2
    rw [outsideAll]
    refine ⟨?_, b, c⟩
    cases x <;> simp only [Orderly] at o1 ⊢ <;> first | exact a | exact ⟨o1.1, o1.2.1, o1.2.2.1, a⟩

theorem tidy_append : ∀ (hs1 hs2 : List Happening) (docs : Docs) (d : Disk), AlwaysHoused docs d (hs1 ++ hs2) →
    AlwaysHoused docs d hs1 ∧ AlwaysHoused (outsideAll docs d hs1).1 (outsideAll docs d hs1).2 hs2 := by
  intro hs1
  induction hs1 with
  | nil => intro hs2 docs d h; exact ⟨tidy_head h, h⟩
  | cons x hs1 ih =>
    intro hs2 docs d h
    obtain ⟨a, b⟩ := ih hs2 _ _ h.2.2
    exact ⟨⟨h.1, h.2.1, a⟩, b⟩

theorem outsideAll_append : ∀ (hs1 hs2 : List Happening) (docs : Docs) (d : Disk),
    outsideAll docs d (hs1 ++ hs2) = outsideAll (outsideAll docs d hs1).1 (outsideAll docs d hs1).2 hs2 := by
  intro hs1
  induction hs1 with
  | nil => intro hs2 docs d; rfl
  | cons x hs1 ih => intro hs2 docs d; rw [List.cons_append, outsideAll, ih, outsideAll]

theorem happenAll_append : ∀ (hs1 hs2 : List Happening) (docs : Docs) (d : Disk) (s s' : Vfs), happenAll docs d (hs1 ++ hs2) s = .ok s' →
    ∃ t, happenAll docs d hs1 s = .ok t ∧ happenAll (outsideAll docs d hs1).1 (outsideAll docs d hs1).2 hs2 t = .ok s' := by
  intro hs1
  induction hs1 with
  | nil => intro hs2 docs d s s' h; exact ⟨s, rfl, h⟩
  | cons x hs1 ih =>
    intro hs2 docs d s s' h
    rw [List.cons_append, happenAll] at h
    rw [happenAll]
    cases h1 : happen d x s with
    | error e => rw [h1] at h; cases h
    | ok s1 =>
      rw [h1] at h
      obtain ⟨t, a, b⟩ := ih hs2 _ _ s1 s' h
      exact ⟨t, a, b⟩

/-- What a recorded read means for the outside. -/
theorem reads_expected {docs : Docs} {d : Disk} {s : Vfs} {i : Nat} {p : Path} {t : String} (h : Inv docs d s) (hr : Reads s i p t) : expected docs d p = some t := by
  obtain ⟨e, j, l, f, h1, h2, _, _, h5, _, h7⟩ := hr
  obtain ⟨f', a, b⟩ := h.base.entryPath p e j h1 h2
  rw [h5] at a; cases a
  exact h.texts j f p t h5 b h7

theorem missing_nothing {docs : Docs} {d : Disk} {s : Vfs} {i : Nat} {p : Path} (h : Neat docs d s) (hr : NotesMissing s i p) : HasNothing docs d p := by
  obtain ⟨l, h1, _⟩ := hr
  obtain ⟨hp, hpar⟩ := h.inv.base.closed p _ h1
  constructor
  · cases hd : docs p with
    | none => rfl
    | some t =>
      obtain ⟨_, _, _, e, a, _⟩ := open_at h.inv hd
      rw [h1] at a; cases a
  · cases hd : diskGet d p with
    | none => rfl
    | some n =>
      cases n with
      | file t =>
        obtain ⟨e, he⟩ := h.mirror.file p t hp hpar hd
        rw [h1] at he; cases he
      | dir =>
        obtain ⟨e, he⟩ := h.mirror.dir p hp hpar hd
        rw [h1] at he; cases he

theorem addMissing_notes {docs : Docs} {d : Disk} {s : Vfs} {i : Nat} {p : Path} (h : Neat docs d s) (hp : p ≠ []) (hpar : ParentsOk s p) (hi : i < s.files.length)
    (hn : HasNothing docs d p) : NotesMissing (addMissing i p s) i p := by
  have hpl := parentsLoaded_of s.tree p [] hp (fun q _ a b c => hpar q a b c)
  have hc : (parentsLoaded s.tree [] p && decide (i < s.files.length)) = true := by rw [hpl]; simpa using hi
  rw [addMissing, if_pos hc]
  cases hg : treeGet s.tree p with
  | none => exact ⟨[i], (treeGet_set _ _ _ _).trans (if_pos rfl), by simp⟩
  | some n =>
    cases n with
    | file e =>
      rcases h.mirror.fileBack p e hg with ⟨t, ht⟩ | ⟨t, ht⟩
      · rw [hn.1] at ht; cases ht
      · rw [hn.2] at ht; cases ht
    | dir b =>
      have := h.mirror.dirBack p b hg
      rw [hn.2] at this; cases this
    | missing inv =>
      obtain ⟨l, rfl, _⟩ := invOk_of_missing h.inv.base hg
      obtain ⟨l', a, b, _⟩ := mem_add (x := i) (rfl : Detail.files l = .files l)
      exact ⟨l', (treeGet_set _ _ _ _).trans ((if_pos rfl).trans (by rw [a])), b⟩

theorem depend_reads {docs : Docs} {d : Disk} {s : Vfs} {i j : Nat} {p : Path} {t : String} (h : Neat docs d s) (hi : i < s.files.length) (hu : UsesText s j p t) :
    Reads (depend i p s) i p t := by
  obtain ⟨e, a, b⟩ := load_at h.inv hu
  obtain ⟨f, hf, hfp, hft⟩ := hu
  obtain ⟨f', hf', hfe⟩ := h.links p e j a b
  rw [hf] at hf'; cases hf'
  have he : e < s.entries.length := h.inv.base.wf.node _ (mem_of_treeGet a) e rfl
  rw [depend, a]
  dsimp only
  rw [if_pos hi]
  cases hinv : s.inv e with
  | invalidatesDb => exact absurd hinv (h.inv.base.noDb e)
  | files l =>
    obtain ⟨l', x, y, _⟩ := mem_add (x := i) hinv
    refine ⟨e, j, l', f, a, ?_, ?_, y, hf, hfe, hft⟩
    · rw [Vfs.addInvalidation, index_setInv]; exact b
    · rw [inv_addInvalidation _ _ _ _ he, if_pos rfl]; exact x

end Verif.Vfs
