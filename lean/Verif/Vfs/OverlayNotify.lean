import Verif.Vfs.OverlayRead

/-! # The overlay: changes of the disk -/

namespace Verif.Vfs

theorem parentsLoaded_of (t : List (Path × Node)) : ∀ (rest : List String) (base : Path), rest ≠ [] →
    (∀ q, base <+: q → q ≠ base → q <+: base ++ rest → q ≠ base ++ rest → treeGet t q = some (.dir true)) → parentsLoaded t base rest = true := by
  intro rest
  induction rest with
  | nil => intro base h; exact absurd rfl h
  | cons name rest ih =>
    intro base _ hpar
    cases rest with
    | nil => rw [parentsLoaded]
    | cons next more =>
      have happ : base ++ name :: next :: more = (base ++ [name]) ++ next :: more := by simp
      have hdir := hpar (base ++ [name]) (List.prefix_append _ _) (by simp) ⟨next :: more, by simp⟩ (by simp)
      rw [parentsLoaded, hdir]
      refine ih (base ++ [name]) (by simp) ?_
      intro q h1 h2 h3 h4
      refine hpar q ((List.prefix_append _ _).trans h1) ?_ (by rw [happ]; exact h3) (by rw [happ]; exact h4)
      rintro rfl
      have := h1.length_le
      simp at this
      omega

/-! ## What is collected -/

theorem collectNode_unloads (s : Vfs) (c : Collected) (x : Path × Node) (i : Nat) :
    i ∈ (collectNode s c x).unloads ↔ i ∈ c.unloads ∨ ∃ e, x.2 = .file e ∧ s.index e = some i ∧ ∀ m ∈ s.mem, m.2 ≠ i := by
  rw [collectNode]
  cases hx : x.2 with
  | file e =>
    dsimp only
    cases hi : s.index e with
    | none =>
      dsimp only
      refine ⟨.inl, ?_⟩
      rintro (h | ⟨e', h1, h2, _⟩)
      · exact h
      · cases h1; rw [hi] at h2; cases h2
    | some k =>
      dsimp only
      cases hm : s.mem.find? (fun m => m.2 == k) with
      | some m =>
        dsimp only
        refine ⟨.inl, ?_⟩
        rintro (h | ⟨e', h1, h2, h3⟩)
        · exact h
        · cases h1; rw [hi] at h2; cases h2
          have := List.find?_some hm
          exact absurd (by simpa using this) (h3 m (List.mem_of_find?_eq_some hm))
      | none =>
        dsimp only
        rw [List.mem_append, List.mem_singleton]
        constructor
        · rintro (h | rfl)
          · exact .inl h
          · refine .inr ⟨e, rfl, hi, ?_⟩
            intro m hmm
            simpa using List.find?_eq_none.mp hm m hmm
        · rintro (h | ⟨e', h1, h2, _⟩)
          · exact .inl h
          · cases h1; rw [hi] at h2; cases h2; exact .inr rfl
  | dir b =>
    refine ⟨.inl, ?_⟩
    rintro (h | ⟨e', h1, _⟩)
    · exact h
    · cases h1
  | missing dd =>
    cases dd with
    | invalidatesDb =>
      refine ⟨.inl, ?_⟩
      rintro (h | ⟨e', h1, _⟩)
      · exact h
      · cases h1
    | files l =>
      refine ⟨.inl, ?_⟩
      rintro (h | ⟨e', h1, _⟩)
      · exact h
      · cases h1

theorem collectNode_reopen (s : Vfs) (c : Collected) (x : Path × Node) (y : Path × Nat) :
    (y ∈ (collectNode s c x).reopen → y ∈ c.reopen ∨ ∃ e, x.2 = .file e ∧ s.index e = some y.2 ∧ y ∈ s.mem) ∧
    (y ∈ c.reopen → y ∈ (collectNode s c x).reopen) ∧
    (∀ e i, x.2 = .file e → s.index e = some i → (∃ m ∈ s.mem, m.2 = i) → ∃ q, (q, i) ∈ (collectNode s c x).reopen) := by
  rw [collectNode]
  cases hx : x.2 with
  | file e =>
    dsimp only
    cases hi : s.index e with
    | none =>
      refine ⟨.inl, id, ?_⟩
      intro e' i h1 h2
      cases h1; rw [hi] at h2; cases h2
    | some k =>
      dsimp only
      cases hm : s.mem.find? (fun m => m.2 == k) with
      | some m =>
        have h4 : m.2 = k := by simpa using List.find?_some hm
        dsimp only
        refine ⟨fun h => ?_, fun h => List.mem_append_left _ h, ?_⟩
        · rcases List.mem_append.mp h with h | h
          · exact .inl h
          · rw [List.mem_singleton] at h
            subst h
            refine .inr ⟨e, rfl, hi, ?_⟩
            have := List.mem_of_find?_eq_some hm
            rw [← h4]; exact this
        · intro e' i h1 h2 _
          cases h1; rw [hi] at h2; cases h2
          exact ⟨m.1, List.mem_append_right _ (List.mem_singleton.mpr rfl)⟩
      | none =>
        refine ⟨.inl, id, ?_⟩
        intro e' i h1 h2 ⟨m, h3, h4⟩
        cases h1; rw [hi] at h2; cases h2
        have := List.find?_eq_none.mp hm m h3
        simp [h4] at this
  | dir b => exact ⟨.inl, id, by intro e i h; cases h⟩
  | missing dd =>
    cases dd with
    | invalidatesDb => exact ⟨.inl, id, by intro e i h; cases h⟩
    | files l => exact ⟨.inl, id, by intro e i h; cases h⟩

theorem collectNode_db (s : Vfs) (c : Collected) (x : Path × Node) (h : x.2 ≠ .missing .invalidatesDb) : (collectNode s c x).db = c.db := by
  rw [collectNode]
  cases hx : x.2 with
  | file e =>
    dsimp only
    cases s.index e with
    | none => rfl
    | some i =>
      dsimp only
      cases s.mem.find? (fun m => m.2 == i) <;> rfl
  | dir b => rfl
  | missing dd =>
    cases dd with
    | invalidatesDb => exact absurd hx h
    | files l => rfl

theorem collect_fold (s : Vfs) : ∀ (l : List (Path × Node)) (c : Collected),
    (∀ i, i ∈ (l.foldl (collectNode s) c).unloads ↔ i ∈ c.unloads ∨ ∃ x ∈ l, ∃ e, x.2 = .file e ∧ s.index e = some i ∧ ∀ m ∈ s.mem, m.2 ≠ i) ∧
    (∀ y, y ∈ (l.foldl (collectNode s) c).reopen → y ∈ c.reopen ∨ ∃ x ∈ l, ∃ e, x.2 = .file e ∧ s.index e = some y.2 ∧ y ∈ s.mem) ∧
    (∀ y, y ∈ c.reopen → y ∈ (l.foldl (collectNode s) c).reopen) ∧
    (∀ x ∈ l, ∀ e i, x.2 = .file e → s.index e = some i → (∃ m ∈ s.mem, m.2 = i) → ∃ q, (q, i) ∈ (l.foldl (collectNode s) c).reopen) ∧
    ((∀ x ∈ l, x.2 ≠ .missing .invalidatesDb) → (l.foldl (collectNode s) c).db = c.db) := by
  intro l
  induction l with
  | nil => intro c; refine ⟨?_, fun y h => .inl h, fun y h => h, ?_, fun _ => rfl⟩ <;> simp
  | cons x l ih =>
    intro c
    rw [List.foldl_cons]
    obtain ⟨h1, h2, h3, h4, h5⟩ := ih (collectNode s c x)
    refine ⟨?_, ?_, ?_, ?_, ?_⟩
    · intro i
      rw [h1, collectNode_unloads]
      constructor
      · rintro ((h | h) | ⟨y, hy, h⟩)
        · exact .inl h
        · exact .inr ⟨x, List.mem_cons_self .., h⟩
        · exact .inr ⟨y, List.mem_cons_of_mem _ hy, h⟩
      · rintro (h | ⟨y, hy, h⟩)
        · exact .inl (.inl h)
        · rcases List.mem_cons.mp hy with rfl | hy
          · exact .inl (.inr h)
          · exact .inr ⟨y, hy, h⟩
    · intro y hy
      rcases h2 y hy with h | ⟨z, hz, h⟩
      · rcases (collectNode_reopen s c x y).1 h with h | h
        · exact .inl h
        · exact .inr ⟨x, List.mem_cons_self .., h⟩
      · exact .inr ⟨z, List.mem_cons_of_mem _ hz, h⟩
    · intro y hy
      exact h3 y ((collectNode_reopen s c x y).2.1 hy)
    · intro z hz e i a b m
      rcases List.mem_cons.mp hz with rfl | hz
      · obtain ⟨q, hq⟩ := (collectNode_reopen s c z ([], 0)).2.2 e i a b m
        exact ⟨q, h3 _ hq⟩
      · exact h4 z hz e i a b m
    · intro h
      rw [h5 (fun y hy => h y (List.mem_cons_of_mem _ hy)), collectNode_db s c x (h x (List.mem_cons_self ..))]

theorem collect_spec {s : Vfs} (p : Path) :
    (∀ i ∈ (collect s p).unloads, ∀ m ∈ s.mem, m.2 ≠ i) ∧
    (∀ y ∈ (collect s p).reopen, y ∈ s.mem ∧ ∃ x ∈ s.tree, p <+: x.1 ∧ ∃ e, x.2 = .file e ∧ s.index e = some y.2) ∧
    (∀ q i, p <+: q → At s q i → i ∈ (collect s p).unloads ∨ ∃ r, (r, i) ∈ (collect s p).reopen) ∧
    ((∀ x ∈ s.tree, x.2 ≠ .missing .invalidatesDb) → (collect s p).db = false) := by
  obtain ⟨h1, h2, _, h4, h5⟩ := collect_fold s (s.tree.filter (fun x => p.isPrefixOf x.1)) ⟨false, [], [], []⟩
  refine ⟨?_, ?_, ?_, ?_⟩
  · intro i hi
    rcases (h1 i).mp hi with h | ⟨x, _, e, _, _, h⟩
    · simp at h
    · exact h
  · intro y hy
    rcases h2 y hy with h | ⟨x, hx, e, a, b, c⟩
    · simp at h
    · obtain ⟨hx1, hx2⟩ := List.mem_filter.mp hx
      exact ⟨c, x, hx1, List.isPrefixOf_iff_prefix.mp hx2, e, a, b⟩
  · rintro q i hq ⟨e, a, b⟩
    have hx : (q, Node.file e) ∈ s.tree.filter (fun x => p.isPrefixOf x.1) :=
      List.mem_filter.mpr ⟨mem_of_treeGet a, List.isPrefixOf_iff_prefix.mpr hq⟩
    by_cases hm : ∃ m ∈ s.mem, m.2 = i
    · exact .inr (h4 _ hx e i rfl b hm)
    · refine .inl ((h1 i).mpr (.inr ⟨_, hx, e, rfl, b, ?_⟩))
      intro m hm1 hm2
      exact hm ⟨m, hm1, hm2⟩
  · intro h
    exact h5 (fun x hx => h x (List.mem_filter.mp hx).1)

/-! ## The loops -/

theorem unloadAll_spec {X} : ∀ (l : List Nat) (s : Vfs) (r : Res) (s' : Vfs), Base X s → unloadAll l s = .ok (r, s') →
    r = .files ∧ Shrinks s s' ∧ (∀ i ∈ l, s'.code i = none) ∧ ∀ k, k ∉ l → s'.files[k]? = s.files[k]? := by
  intro l
  induction l with
  | nil => intro s r s' _ h; rw [unloadAll] at h; cases h; exact ⟨rfl, .refl s, by simp, by simp⟩
  | cons i l ih =>
    intro s r s' hb h
    rw [unloadAll] at h
    cases h1 : invalidateAndUnload i s with
    | error x => rw [h1] at h; cases h
    | ok v =>
      obtain ⟨r1, s1⟩ := v
      rw [h1] at h
      obtain ⟨rfl, hsh, hf⟩ := invalidateAndUnload_spec hb h1
      obtain ⟨rfl, hsh2, hc, hk⟩ := ih s1 r s' (hsh.base hb) h
      have hget : ∀ k, s1.files[k]? = (s.files[k]?).map (fun f => if i = k then { f with code := none } else f) := by
        intro k; rw [hf]; exact files_unload _ i k
      refine ⟨rfl, hsh.trans hsh2, ?_, ?_⟩
      · intro k hk'
        by_cases hkl : k ∈ l
        · exact hc k hkl
        · rcases List.mem_cons.mp hk' with rfl | h'
          · rw [Vfs.code, hk k hkl, hget]
            cases s.files[k]? with
            | none => rfl
            | some f => simp
          · exact hc k h'
      · intro k hk'
        have h1 : k ≠ i := fun h => hk' (by rw [h]; exact List.mem_cons_self ..)
        have h2 : k ∉ l := fun h => hk' (List.mem_cons_of_mem _ h)
        rw [hk k h2, hget]
        cases s.files[k]? with
        | none => rfl
        | some f => rw [Option.map_some, if_neg (fun h => h1 (Eq.symm h))]

theorem invalidateAll_spec {X} : ∀ (l : List Nat) (s : Vfs) (r : Res) (s' : Vfs), Base X s → invalidateAll l s = .ok (r, s') →
    r = .files ∧ Shrinks s s' ∧ s'.files = s.files := by
  intro l
  induction l with
  | nil => intro s r s' _ h; rw [invalidateAll] at h; cases h; exact ⟨rfl, .refl s, rfl⟩
  | cons i l ih =>
    intro s r s' hb h
    rw [invalidateAll] at h
    cases h1 : invalidateFile none i s with
    | error x => rw [h1] at h; cases h
    | ok v =>
      obtain ⟨r1, s1⟩ := v
      rw [h1] at h
      obtain ⟨rfl, hsh, hf⟩ := invalidateFile_spec hb h1
      obtain ⟨rfl, hsh2, hf2⟩ := ih s1 r s' (hsh.base hb) h
      exact ⟨rfl, hsh.trans hsh2, hf2.trans hf⟩

/-- Giving an entry of the tree an index that has its path. -/
theorem base_setIndex {X Y : Nat → Prop} {s : Vfs} (h : Base X s) {q : Path} {e i : Nat} (ht : treeGet s.tree q = some (.file e))
    (hi : ∃ f, s.files[i]? = some f ∧ f.path = some q) (hidx : s.index e = none ∨ s.index e = some i) (hxy : ∀ k, X k → k = i ∨ Y k) :
    Base Y (s.setIndexIfNone e i) := by
  have he : e < s.entries.length := h.wf.node _ (mem_of_treeGet ht) e rfl
  have hidx' : ∀ e', (s.setIndexIfNone e i).index e' = if e = e' then some i else s.index e' := by
    intro e'
    rw [index_setIndexIfNone _ _ _ _ he]
    rcases hidx with h | h <;> rw [h] <;> rfl
  have hinv := inv_setIndexIfNone s e i
  have hlen : (s.setIndexIfNone e i).entries.length = s.entries.length := by simp [Vfs.setIndexIfNone]
  obtain ⟨fi, hfi, hpi⟩ := hi
  refine ⟨⟨?_, ?_, ?_, h.wf.missing, ?_, h.wf.mem⟩, ?_, h.noDbMissing, h.closed, ?_, h.entryUniq, ?_, h.memPath, h.memUniq⟩
  · intro f hf; rw [hlen]; exact h.wf.entry f hf
  · intro x hx k hk
    obtain ⟨e', _, _, h3⟩ := mem_entries_inv hx
    rw [hidx', hk] at h3
    split at h3
    · cases h3; exact (List.getElem?_eq_some_iff.mp hfi).1
    · exact index_lt h h3
  · intro x hx l hl k hk
    obtain ⟨e', _, h3, _⟩ := mem_entries_inv hx
    rw [hinv, hl] at h3
    exact mem_of_inv h.wf h3 k hk
  · intro x hx e' he'; rw [hlen]; exact h.wf.node x hx e' he'
  · intro e'; rw [hinv]; exact h.noDb e'
  · intro q' e' k hq hk
    rw [hidx'] at hk
    split at hk
    · rename_i hee
      subst hee
      cases hk
      have := h.entryUniq q' q _ hq ht
      subst this
      exact ⟨fi, hfi, hpi⟩
    · exact h.entryPath q' e' k hq hk
  · intro k f q' c h1 h2 h3
    by_cases hk : k = i
    · subst hk
      have h1' : s.files[k]? = some f := h1
      rw [hfi] at h1'; cases h1'
      rw [hpi] at h2; cases h2
      exact .inr ⟨e, ht, by rw [hidx', if_pos rfl]⟩
    · rcases h.loadedAt k f q' c h1 h2 h3 with hx | ⟨e', h4, h5⟩
      · rcases hxy k hx with rfl | hy
        · exact absurd rfl hk
        · exact .inl hy
      · refine .inr ⟨e', h4, ?_⟩
        rw [hidx']
        split
        · rename_i hee
          subst hee
          rcases hidx with hn | hn
          · rw [hn] at h5; cases h5
          · rw [hn] at h5; cases h5; exact absurd rfl hk
        · exact h5

theorem reopenAll_spec (d : Disk) : ∀ (l : List (Path × Nat)) (X : Nat → Prop) (s s' : Vfs), Base X s →
    (∀ y ∈ l, y ∈ s.mem) →
    (∀ q e j i, treeGet s.tree q = some (.file e) → s.index e = some j → (q, i) ∈ s.mem → j = i) →
    reopenAll d l s = .ok s' → Base (fun i => X i ∧ ∀ q, (q, i) ∉ l) s' ∧ s'.files = s.files ∧ s'.mem = s.mem := by
  intro l
  induction l with
  | nil => intro X s s' hb _ _ h; rw [reopenAll] at h; cases h; exact ⟨hb.weaken (fun i h => ⟨h, by simp⟩), rfl, rfl⟩
  | cons y l ih =>
    intro X s s' hb hl hr h
    obtain ⟨q, i⟩ := y
    rw [reopenAll] at h
    cases h1 : ensureFile d q s with
    | error x => rw [h1] at h; cases h
    | ok v =>
      obtain ⟨e, inv, s1⟩ := v
      rw [h1] at h
      obtain ⟨hb1, hx1, ht1, _⟩ := ensureFile_spec hb h1
      have hmem := hl (q, i) (List.mem_cons_self ..)
      have hmem1 : (q, i) ∈ s1.mem := by rw [hx1.mem]; exact hmem
      have hr1 : ∀ q e j i, treeGet s1.tree q = some (.file e) → s1.index e = some j → (q, i) ∈ s1.mem → j = i := by
        intro q e j i b c m
        rw [hx1.mem] at m
        rw [hx1.idx] at c
        rcases hx1.fresh q e b with h' | h'
        · exact hr q e j i h' c m
        · rw [h'] at c; cases c
      have hidx : s1.index e = none ∨ s1.index e = some i := by
        cases hi : s1.index e with
        | none => exact .inl rfl
        | some j => exact .inr (by rw [hr1 q e j i ht1 hi hmem1])
      have he : e < s1.entries.length := hb1.wf.node _ (mem_of_treeGet ht1) e rfl
      have hb2 : Base (fun k => X k ∧ k ≠ i) (s1.setIndexIfNone e i) :=
        base_setIndex hb1 ht1 (hb1.memPath q i hmem1) hidx (fun k hk => by
          by_cases h : k = i
          · exact .inl h
          · exact .inr ⟨hk, h⟩)
      obtain ⟨h3, h4, h5⟩ := ih (fun k => X k ∧ k ≠ i) ((s1.setIndexIfNone e i).hook q) s' (base_hook hb2 q) (by
          intro y hy
          show y ∈ s1.mem
          rw [hx1.mem]; exact hl y (List.mem_cons_of_mem _ hy)) (by
          intro q' e' j k b c m
          have b' : treeGet s1.tree q' = some (.file e') := b
          have c' : (s1.setIndexIfNone e i).index e' = some j := c
          have m' : (q', k) ∈ s1.mem := m
          rw [index_setIndexIfNone _ _ _ _ he] at c'
          split at c'
          · rename_i hee
            subst hee
            have hq := hb1.entryUniq q' q _ b' ht1
            subst hq
            have : j = i := by
              rcases hidx with h | h <;> rw [h] at c' <;> cases c' <;> rfl
            rw [this]; exact hb1.memUniq q' i k hmem1 m'
          · exact hr1 q' e' j k b' c' m') h
      refine ⟨h3.weaken ?_, h4.trans hx1.files, h5.trans hx1.mem⟩
      rintro k ⟨⟨a, b⟩, c⟩
      refine ⟨a, fun q' hq' => ?_⟩
      rcases List.mem_cons.mp hq' with h | h
      · cases h; exact b rfl
      · exact c q' h

/-! ## The notification -/

theorem expected_outside {docs : Docs} {d d' : Disk} {p q : Path} (hch : ChangedAt d d' p) (hq : ¬ p <+: q) : expected docs d' q = expected docs d q := by
  rw [expected, expected, hch.1 q hq]

theorem expected_text {docs : Docs} {d : Disk} {q : Path} {c : String} (h : expected docs d q = some c) (hn : docs q = none) : diskGet d q = some (.file c) := by
  rw [expected, hn] at h
  cases hg : diskGet d q with
  | none => rw [hg] at h; cases h
  | some n =>
    rw [hg] at h
    cases n with
    | file t => simp at h; rw [h]
    | dir => cases h

/-- If nothing unopened is loaded at or below a path, a change there changes nothing. -/
theorem texts_of_unloaded {docs : Docs} {d d' : Disk} {s : Vfs} {p : Path} (h : TextsOk (expected docs d) s) (hch : ChangedAt d d' p)
    (hun : ∀ (i : Nat) (f : FileState) q c, s.files[i]? = some f → f.path = some q → f.code = some c → p <+: q → docs q = none → expected docs d' q = some c) :
    TextsOk (expected docs d') s := by
  intro i f q c h1 h2 h3
  have h4 := h i f q c h1 h2 h3
  by_cases hq : p <+: q
  · cases hd : docs q with
    | none => exact hun i f q c h1 h2 h3 hq hd
    | some t => rw [expected_open d' d hd]; exact h4
  · rw [expected_outside hch hq]; exact h4

theorem insertRead_spec {X} {s : Vfs} (h : Base X s) {p : Path} (hf : treeGet s.tree p = none) (hp : p ≠ []) (hpar : ParentsOk s p) (n : DiskNode) :
    Base X (insertRead p n s) ∧ Extends s (insertRead p n s) := by
  have hfree : Free s p := by intro m hm; rw [hf] at hm; cases hm
  cases n with
  | file t => exact ⟨base_addEntry h hfree hp hpar, extends_addEntry hfree⟩
  | dir =>
    exact ⟨base_setNode h hfree hp hpar (by intro e he; cases he) (by intro he; cases he) (by intro l hl; cases hl),
      extends_setNode hfree (by intro e he; cases he)⟩

/-- Removing a part of the tree, replacing it by what is on disk, and the loops after that. -/
theorem replaced_inv {docs : Docs} {d d' : Disk} {s : Vfs} {p : Path} (h : Inv docs d s) (hch : ChangedAt d d' p) (s1 s2 s3 s4 : Vfs) {r2 r3 : Res}
    (hb1 : ∀ X, Base X { s with tree := treeRemove s.tree p } → Base X s1) (hx1 : Extends { s with tree := treeRemove s.tree p } s1)
    (h2 : unloadAll (collect s p).unloads s1 = .ok (r2, s2)) (h3 : invalidateAll (collect s p).invalid s2 = .ok (r3, s3))
    (h4 : reopenAll d' (collect s p).reopen s3 = .ok s4) : r2 = .files ∧ r3 = .files ∧ Inv docs d' s4 := by
  obtain ⟨c1, c2, c3, _⟩ := collect_spec (s := s) p
  have hb0 : Base (fun i => ∃ q, p <+: q ∧ At s q i) { s with tree := treeRemove s.tree p } :=
    base_remove h.base p (fun _ h => h.elim) (fun q i a b => ⟨q, a, b⟩)
  have hbase1 := hb1 _ hb0
  obtain ⟨rfl, hsh2, hun, hkeep⟩ := unloadAll_spec _ _ _ _ hbase1 h2
  have hbase2 := hsh2.base hbase1
  obtain ⟨rfl, hsh3, hf3⟩ := invalidateAll_spec _ _ _ _ hbase2 h3
  have hbase3 := hsh3.base hbase2
  have hmem3 : s3.mem = s.mem := hsh3.mem.trans (hsh2.mem.trans hx1.mem)
  have hsh := hsh2.trans hsh3
  have hopen : ∀ q i, (q, i) ∈ s.mem → At s q i := by
    intro q i hm
    cases hd : docs q with
    | none =>
      have := memGet_none.mp ((h.opened q).2 hd)
      rw [Vfs.isOpen, ← Bool.not_eq_true, List.any_eq_true] at this
      exact absurd ⟨_, hm, by simp⟩ this
    | some t =>
      obtain ⟨j, b1, _, b3⟩ := open_at h hd
      rw [h.base.memUniq q i j hm (memGet_mem b1)]; exact b3
  obtain ⟨hbase4, hf4, hm4⟩ := reopenAll_spec d' _ _ s3 s4 hbase3 (by
      intro y hy
      rw [hmem3]; exact (c2 y hy).1) (by
      intro q e j i b c m
      rw [hsh.tree] at b
      rw [hsh.idx] at c
      rw [hmem3] at m
      rcases hx1.fresh q e b with h' | h'
      · rw [hx1.idx] at c
        exact At.unique (s := s) ⟨e, (treeGet_remove_some h').2, c⟩ (hopen q i m)
      · rw [hx1.idx] at c
        rw [h'] at c; cases c) h4
  refine ⟨rfl, rfl, ?_⟩
  have hfiles4 : s4.files = s2.files := hf4.trans hf3
  have hcode4 : ∀ i, s4.code i = s2.code i := code_congr hfiles4
  refine ⟨hbase4.strengthen ?_, ?_, ?_⟩
  · rintro i ⟨⟨q, a, b⟩, c⟩
    rcases c3 q i a b with h' | ⟨r, hr⟩
    · exact .inl (by rw [hcode4]; exact hun i h')
    · exact absurd hr (c r)
  · intro i f q c a1 a2 a3
    have hnot : i ∉ (collect s p).unloads := by
      intro hi
      have := hun i hi
      rw [← hcode4, code_eq a1, a3] at this
      cases this
    have a1' : s.files[i]? = some f := by
      rw [hfiles4, hkeep i hnot, hx1.files] at a1
      exact a1
    have ht := h.texts i f q c a1' a2 a3
    by_cases hq : p <+: q
    · have hat := loadedAt' h.base a1' a2 a3
      rcases c3 q i hq hat with h' | ⟨r, hr⟩
      · exact absurd h' hnot
      · have hrm := (c2 _ hr).1
        obtain ⟨f', b1, b2⟩ := h.base.memPath r i hrm
        rw [a1'] at b1; cases b1
        rw [a2] at b2; cases b2
        cases hd : docs q with
        | none =>
          have := memGet_none.mp ((h.opened q).2 hd)
          rw [Vfs.isOpen, ← Bool.not_eq_true, List.any_eq_true] at this
          exact absurd ⟨_, hrm, by simp⟩ this
        | some t => rw [expected_open d' d hd]; exact ht
    · rw [expected_outside hch hq]; exact ht
  · intro q
    have hmq : s4.memGet q = s.memGet q := memGet_congr (hm4.trans hmem3) q
    rw [hmq]
    refine ⟨fun t ht => ?_, (h.opened q).2⟩
    obtain ⟨j, b1, b2⟩ := (h.opened q).1 t ht
    refine ⟨j, b1, ?_⟩
    have hnot : j ∉ (collect s p).unloads := fun hj => c1 j hj _ (memGet_mem b1) rfl
    rw [hcode4, ← b2, Vfs.code, Vfs.code, hkeep j hnot, hx1.files]


theorem notify_inv {docs : Docs} {d d' : Disk} {s : Vfs} {p : Path} {r : Res} {s' : Vfs} (h : Inv docs d s) (hd : DiskOk d) (hp : p ≠ [])
    (hch : ChangedAt d d' p) (hok : notify d' p s = .ok (r, s')) : r = .files ∧ Inv docs d' s' := by
  have hbelow : ∀ {i : Nat} {f : FileState} {q : Path} {c : String}, s.files[i]? = some f → f.path = some q → f.code = some c → p <+: q →
      (q = p ∧ At s p i) ∨ (q ≠ p ∧ treeGet s.tree p = some (.dir true)) := by
    intro i f q c h1 h2 h3 hq
    have hat := loadedAt' h.base h1 h2 h3
    by_cases hqp : q = p
    · subst hqp; exact .inl ⟨rfl, hat⟩
    · obtain ⟨e, a, _⟩ := hat
      exact .inr ⟨hqp, (h.base.closed q _ a).2 p hp hq (fun h => hqp h.symm)⟩
  rw [notify] at hok
  split at hok
  · -- the document is open
    rename_i hopen
    cases hok
    refine ⟨rfl, h.disk (texts_of_unloaded h.texts hch ?_)⟩
    intro i f q c h1 h2 h3 hq hn
    have hdp : ∃ t, docs p = some t := by
      cases hdp : docs p with
      | none => rw [memGet_none.mp ((h.opened p).2 hdp)] at hopen; cases hopen
      | some t => exact ⟨t, rfl⟩
    obtain ⟨t, hdp⟩ := hdp
    rcases hbelow h1 h2 h3 hq with ⟨rfl, _⟩ | ⟨_, hdir⟩
    · rw [hdp] at hn; cases hn
    · obtain ⟨_, _, _, e, a, _⟩ := open_at h hdp
      rw [a] at hdir; cases hdir
  · rename_i hnopen
    have hdp : docs p = none := by
      cases hdp : docs p with
      | none => rfl
      | some t =>
        obtain ⟨i, hi, _⟩ := (h.opened p).1 t hdp
        have : s.memGet p = none := memGet_none.mpr (by simpa using hnopen)
        rw [this] at hi; cases hi
    split at hok
    · -- a directory above was never read
      rename_i hpl
      cases hok
      refine ⟨rfl, h.disk (texts_of_unloaded h.texts hch ?_)⟩
      intro i f q c h1 h2 h3 hq _
      exfalso
      have hpar : ParentsOk s p := by
        obtain ⟨e, a, _⟩ := loadedAt' h.base h1 h2 h3
        intro r a1 a2 a3
        refine (h.base.closed q _ a).2 r a1 (a2.trans hq) ?_
        rintro rfl
        exact a3 (a2.eq_of_length (Nat.le_antisymm a2.length_le hq.length_le))
      have := parentsLoaded_of s.tree p [] hp (fun q _ a b c => hpar q a b c)
      rw [this] at hpl
      cases hpl
    · rename_i hpl
      have hpl' : parentsLoaded s.tree [] p = true := by simpa using hpl
      obtain ⟨_, hpar⟩ := parentsOk_of_loaded hpl'
      have hsame : ∀ s1 : Vfs, Base (fun _ => False) s1 → Extends s s1 → TextsOk (expected docs d') s →
          (⟨false, [], [], []⟩, s1) = replaceNode d' p s → r = .files ∧ Inv docs d' s' := by
        intro s1 hb1 hx1 ht1 he
        rw [← he] at hok
        simp [unloadAll, invalidateAll, reopenAll] at hok
        obtain ⟨rfl, rfl⟩ := hok
        exact ⟨rfl, (h.disk ht1).extends hb1 hx1⟩
      have hremoved : ∀ s1 : Vfs, (∀ X, Base X { s with tree := treeRemove s.tree p } → Base X s1) → Extends { s with tree := treeRemove s.tree p } s1 →
          (collect s p, s1) = replaceNode d' p s → r = .files ∧ Inv docs d' s' := by
        intro s1 hb1 hx1 he
        rw [← he] at hok
        simp only [(collect_spec (s := s) p).2.2.2 h.base.noDbMissing, Bool.false_eq_true, if_false] at hok
        cases h2 : unloadAll (collect s p).unloads s1 with
        | error x => rw [h2] at hok; cases hok
        | ok v =>
          obtain ⟨r2, s2⟩ := v
          rw [h2] at hok
          have hr2 : r2 = .files := (unloadAll_spec _ _ _ _ (hb1 _ (base_remove h.base p (fun _ h => h.elim) (fun q i a b => (⟨q, a, b⟩ : ∃ q, p <+: q ∧ At s q i)))) h2).1
          subst hr2
          simp only at hok
          cases h3 : invalidateAll (collect s p).invalid s2 with
          | error x => rw [h3] at hok; cases hok
          | ok v =>
            obtain ⟨r3, s3⟩ := v
            rw [h3] at hok
            cases r3 with
            | db =>
              obtain ⟨_, hsh2, _⟩ := unloadAll_spec _ _ _ _ (hb1 _ (base_remove h.base p (fun _ h => h.elim) (fun q i a b => (⟨q, a, b⟩ : ∃ q, p <+: q ∧ At s q i)))) h2
              have := (invalidateAll_spec _ _ _ _ (hsh2.base (hb1 _ (base_remove h.base p (fun _ h => h.elim) (fun q i a b => (⟨q, a, b⟩ : ∃ q, p <+: q ∧ At s q i))))) h3).1
              cases this
            | files =>
              simp only at hok
              cases h4 : reopenAll d' (collect s p).reopen s3 with
              | error x => rw [h4] at hok; cases hok
              | ok s4 =>
                rw [h4] at hok
                cases hok
                exact ⟨rfl, (replaced_inv h hch s1 s2 s3 s' hb1 hx1 h2 h3 h4).2.2⟩
      have hbs := h.base
      have hrm_none : treeGet (treeRemove s.tree p) p = none := by rw [treeGet_remove, if_pos (List.prefix_refl p)]
      have hrm_par : ParentsOk { s with tree := treeRemove s.tree p } p := by
        intro q a b c
        show treeGet (treeRemove s.tree p) q = _
        rw [treeGet_remove, if_neg (fun hpq => c (b.eq_of_length (Nat.le_antisymm b.length_le hpq.length_le)))]
        exact hpar q a b c
      have hreplace : ∀ new, (collect s p, insertRead p new { s with tree := treeRemove s.tree p }) = replaceNode d' p s → r = .files ∧ Inv docs d' s' :=
        fun new he => hremoved _ (fun X hX => (insertRead_spec hX hrm_none hp hrm_par new).1)
          (insertRead_spec (base_remove h.base p (fun _ h => h.elim) (fun q i a b => (⟨q, a, b⟩ : ∃ q, p <+: q ∧ At s q i))) hrm_none hp hrm_par new).2 he
      have hfree_texts : (∀ e, treeGet s.tree p ≠ some (.file e)) → treeGet s.tree p ≠ some (.dir true) → TextsOk (expected docs d') s := by
        intro hnf hnd
        refine texts_of_unloaded h.texts hch ?_
        intro i f q c h1 h2 h3 hq _
        rcases hbelow h1 h2 h3 hq with ⟨_, e, a, _⟩ | ⟨_, a⟩
        · exact absurd a (hnf e)
        · exact absurd a hnd
      cases hold : treeGet s.tree p with
      | none =>
        have htx := hfree_texts (by intro e he; rw [hold] at he; cases he) (by intro he; rw [hold] at he; cases he)
        cases hnew : diskGet d' p with
        | none => exact hsame s hbs (.refl s) htx (by rw [replaceNode, hold, hnew])
        | some new =>
          obtain ⟨a, b⟩ := insertRead_spec hbs hold hp hpar new
          exact hsame _ a b htx (by rw [replaceNode, hold, hnew])
      | some old =>
        cases hnew : diskGet d' p with
        | none =>
          cases old with
          | missing m =>
            exact hsame s hbs (.refl s) (hfree_texts (by intro e he; rw [hold] at he; cases he) (by intro he; rw [hold] at he; cases he))
              (by rw [replaceNode, hold, hnew])
          | file e => exact hremoved _ (fun X hX => hX) (.refl _) (by rw [replaceNode, hold, hnew])
          | dir b => exact hremoved _ (fun X hX => hX) (.refl _) (by rw [replaceNode, hold, hnew])
        | some new =>
          cases old with
          | missing m =>
            exact hreplace new (by rw [replaceNode, hold, hnew]; cases new <;> simp [matchesCurrent])
          | dir b =>
            cases new with
            | file t => exact hreplace (.file t) (by rw [replaceNode, hold, hnew]; simp [matchesCurrent])
            | dir =>
              refine hsame s hbs (.refl s) (texts_of_unloaded h.texts hch ?_) (by rw [replaceNode, hold, hnew])
              intro i f q c h1 h2 h3 hq hn
              have hex := h.texts i f q c h1 h2 h3
              rcases hbelow h1 h2 h3 hq with ⟨_, e, a, _⟩ | ⟨hne, _⟩
              · rw [hold] at a; cases a
              · have hg := expected_text hex hn
                have hdir := hd q _ hg p hp hq (fun h => hne h.symm)
                rw [← hex, expected, expected, hch.2 hdir hnew q]
          | file e =>
            cases hmc : matchesCurrent s (.file e) new with
            | false => exact hreplace new (by rw [replaceNode, hold, hnew]; simp [hmc])
            | true =>
              refine hsame s hbs (.refl s) (texts_of_unloaded h.texts hch ?_) (by rw [replaceNode, hold, hnew]; simp [hmc])
              intro i f q c h1 h2 h3 hq hn
              rcases hbelow h1 h2 h3 hq with ⟨rfl, e', a, b⟩ | ⟨_, a⟩
              · rw [hold] at a; cases a
                cases new with
                | dir => simp [matchesCurrent] at hmc
                | file t =>
                  simp [matchesCurrent, b] at hmc
                  rw [code_eq h1, h3] at hmc
                  cases hmc
                  rw [expected_none hdp, diskText, hnew]
              · rw [hold] at a; cases a

end Verif.Vfs
