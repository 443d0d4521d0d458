import Verif.Vfs.Neat

/-! # Changes of the disk keep the tree in order -/

namespace Verif.Vfs

/-! ## What is collected -/

theorem collectNode_invalid_eq (s : Vfs) (c : Collected) (x : Path × Node) :
    (∀ i ∈ c.invalid, i ∈ (collectNode s c x).invalid) ∧
    (∀ l i, x.2 = .missing (.files l) → i ∈ l → i ∈ (collectNode s c x).invalid) ∧
    (∀ e i, x.2 = .file e → s.index e = some i → (∃ m ∈ s.mem, m.2 = i) → i ∈ (collectNode s c x).invalid) := by
  rw [collectNode]
  cases hx : x.2 with
  | file e =>
    dsimp only
    cases hi : s.index e with
    | none => exact ⟨fun _ h => h, (by intro l i h; cases h), by intro e' i h1 h2; cases h1; rw [hi] at h2; cases h2⟩
    | some k =>
      dsimp only
      cases hm : s.mem.find? (fun m => m.2 == k) with
      | some m =>
        refine ⟨fun _ h => List.mem_append_left _ h, (by intro l i h; cases h), ?_⟩
        intro e' i h1 h2 _
        cases h1; rw [hi] at h2; cases h2
        exact List.mem_append_right _ (List.mem_singleton.mpr rfl)
      | none =>
        refine ⟨fun _ h => h, (by intro l i h; cases h), ?_⟩
        intro e' i h1 h2 ⟨m, h3, h4⟩
        cases h1; rw [hi] at h2; cases h2
        have := List.find?_eq_none.mp hm m h3
        simp [h4] at this
  | dir b => exact ⟨fun _ h => h, (by intro l i h; cases h), by intro e i h; cases h⟩
  | missing dd =>
    cases dd with
    | invalidatesDb => exact ⟨fun _ h => h, (by intro l i h; cases h), by intro e i h; cases h⟩
    | files l =>
      refine ⟨fun _ h => List.mem_append_left _ h, ?_, by intro e i h; cases h⟩
      intro l' i h1 h2
      cases h1
      exact List.mem_append_right _ h2

theorem collect_fold_invalid (s : Vfs) : ∀ (l : List (Path × Node)) (c : Collected),
    (∀ i ∈ c.invalid, i ∈ (l.foldl (collectNode s) c).invalid) ∧
    (∀ x ∈ l, ∀ l' i, x.2 = .missing (.files l') → i ∈ l' → i ∈ (l.foldl (collectNode s) c).invalid) ∧
    (∀ x ∈ l, ∀ e i, x.2 = .file e → s.index e = some i → (∃ m ∈ s.mem, m.2 = i) → i ∈ (l.foldl (collectNode s) c).invalid) := by
  intro l
  induction l with
  | nil => intro c; exact ⟨fun _ h => h, by simp, by simp⟩
  | cons x l ih =>
    intro c
    rw [List.foldl_cons]
    obtain ⟨h1, h2, h3⟩ := ih (collectNode s c x)
    obtain ⟨a1, a2, a3⟩ := collectNode_invalid_eq s c x
    refine ⟨fun i hi => h1 i (a1 i hi), ?_, ?_⟩
    · intro y hy l' i a b
      rcases List.mem_cons.mp hy with rfl | hy
      · exact h1 i (a2 l' i a b)
      · exact h2 y hy l' i a b
    · intro y hy e i a b m
      rcases List.mem_cons.mp hy with rfl | hy
      · exact h1 i (a3 e i a b m)
      · exact h3 y hy e i a b m

theorem collect_missing {s : Vfs} {p q : Path} {i : Nat} (hq : p <+: q) (h : NotesMissing s i q) : i ∈ (collect s p).invalid := by
  obtain ⟨l, h1, h2⟩ := h
  exact (collect_fold_invalid s _ _).2.1 (q, _) (List.mem_filter.mpr ⟨mem_of_treeGet h1, List.isPrefixOf_iff_prefix.mpr hq⟩) l i rfl h2

theorem collect_at {s : Vfs} {p q : Path} {i : Nat} (hq : p <+: q) (h : At s q i) : i ∈ (collect s p).unloads ∨ i ∈ (collect s p).invalid := by
  obtain ⟨e, a, b⟩ := h
  have hx : (q, Node.file e) ∈ s.tree.filter (fun x => p.isPrefixOf x.1) :=
    List.mem_filter.mpr ⟨mem_of_treeGet a, List.isPrefixOf_iff_prefix.mpr hq⟩
  by_cases hm : ∃ m ∈ s.mem, m.2 = i
  · exact .inr ((collect_fold_invalid s _ _).2.2 _ hx e i rfl b hm)
  · refine .inl (((collect_fold s _ _).1 i).mpr (.inr ⟨_, hx, e, rfl, b, ?_⟩))
    intro m hm1 hm2
    exact hm ⟨m, hm1, hm2⟩

/-- Documents that are in the tree are put back to where they are. -/
theorem reopenAll_same {X} (d : Disk) : ∀ (l : List (Path × Nat)) (s s' : Vfs), Base X s → (∀ y ∈ l, At s y.1 y.2) → reopenAll d l s = .ok s' →
    s'.tree = s.tree ∧ (∀ e, s'.index e = s.index e) ∧ (∀ e, s'.inv e = s.inv e) ∧ s'.files = s.files ∧ s'.marks = s.marks := by
  intro l
  induction l with
  | nil => intro s s' _ _ h; rw [reopenAll] at h; cases h; exact ⟨rfl, fun _ => rfl, fun _ => rfl, rfl, rfl⟩
  | cons y l ih =>
    intro s s' hb hl h
    obtain ⟨q, i⟩ := y
    obtain ⟨e, ht, hi⟩ := hl (q, i) (List.mem_cons_self ..)
    rw [reopenAll, ensureFile_found d hb ht] at h
    have he : e < s.entries.length := hb.wf.node _ (mem_of_treeGet ht) e rfl
    have hidx : ∀ e', (s.setIndexIfNone e i).index e' = s.index e' := by
      intro e'
      rw [index_setIndexIfNone _ _ _ _ he, hi]
      split
      · rename_i hee; subst hee; exact hi.symm
      · rfl
    have hb2 := base_hook (base_setIndex (Y := X) hb ht (hb.entryPath q e i ht hi) (.inr hi) (fun k hk => .inr hk)) q
    obtain ⟨h1, h2, h3, h4, h5⟩ := ih _ s' hb2 (by
      intro y hy
      obtain ⟨e', a, b⟩ := hl y (List.mem_cons_of_mem _ hy)
      exact ⟨e', a, (hidx e').trans b⟩) h
    exact ⟨h1, fun e' => (h2 e').trans (hidx e'), fun e' => (h3 e').trans (inv_setIndexIfNone s e i e'), h4, h5⟩

/-- The tree shows the new disk if the node at the reported path does. -/
theorem Mirror.disk {docs : Docs} {d d' : Disk} {s s' : Vfs} {p : Path} (h : Mirror docs d s) (hb' : Base (fun _ => False) s')
    (ho : ∀ q, ¬ p <+: q → treeGet s'.tree q = treeGet s.tree q) (hch : ChangedAt d d' p) (hp : p ≠ []) (hn : treeGet s'.tree p ≠ some (.dir true))
    (h1 : ∀ t, ParentsOk s' p → diskGet d' p = some (.file t) → ∃ e, treeGet s'.tree p = some (.file e))
    (h2 : ParentsOk s' p → diskGet d' p = some .dir → ∃ b, treeGet s'.tree p = some (.dir b))
    (h3 : ∀ e, treeGet s'.tree p = some (.file e) → HasFile docs d' p)
    (h4 : ∀ b, treeGet s'.tree p = some (.dir b) → diskGet d' p = some .dir) : Mirror docs d' s' := by
  have hpar : ∀ q, ¬ p <+: q → ParentsOk s' q → ParentsOk s q := by
    intro q hq hs r a b c
    rw [← ho r (fun hr => hq (hr.trans b))]
    exact hs r a b c
  have hbelow : ∀ q, p <+: q → q ≠ p → ¬ ParentsOk s' q ∧ treeGet s'.tree q = none := by
    intro q hq hqp
    refine ⟨fun hs => hn (hs p hp hq (fun h => hqp h.symm)), ?_⟩
    cases hg : treeGet s'.tree q with
    | none => rfl
    | some n => exact absurd ((hb'.closed q n hg).2 p hp hq (fun h => hqp h.symm)) hn
  refine ⟨?_, ?_, ?_, ?_⟩
  · intro q t a b c
    by_cases hq : p <+: q
    · by_cases hqp : q = p
      · subst hqp; exact h1 t b c
      · exact absurd b (hbelow q hq hqp).1
    · rw [ho q hq]
      exact h.file q t a (hpar q hq b) (by rw [← hch.1 q hq]; exact c)
  · intro q a b c
    by_cases hq : p <+: q
    · by_cases hqp : q = p
      · subst hqp; exact h2 b c
      · exact absurd b (hbelow q hq hqp).1
    · rw [ho q hq]
      exact h.dir q a (hpar q hq b) (by rw [← hch.1 q hq]; exact c)
  · intro q e a
    by_cases hq : p <+: q
    · by_cases hqp : q = p
      · subst hqp; exact h3 e a
      · rw [(hbelow q hq hqp).2] at a; cases a
    · rw [ho q hq] at a
      rcases h.fileBack q e a with h' | h'
      · exact .inl h'
      · exact .inr (by rw [hch.1 q hq]; exact h')
  · intro q b a
    by_cases hq : p <+: q
    · by_cases hqp : q = p
      · subst hqp; exact h4 b a
      · rw [(hbelow q hq hqp).2] at a; cases a
    · rw [ho q hq] at a
      rw [hch.1 q hq]; exact h.dirBack q b a

theorem mem_at {docs : Docs} {d : Disk} {s : Vfs} (h : Inv docs d s) {q : Path} {i : Nat} (hm : (q, i) ∈ s.mem) : (∃ t, docs q = some t) ∧ At s q i := by
  cases hd : docs q with
  | none =>
    have := memGet_none.mp ((h.opened q).2 hd)
    rw [Vfs.isOpen, ← Bool.not_eq_true, List.any_eq_true] at this
    exact absurd ⟨_, hm, by simp⟩ this
  | some t =>
    obtain ⟨j, b1, _, b3⟩ := open_at h hd
    rw [h.base.memUniq q i j hm (memGet_mem b1)]; exact ⟨⟨t, rfl⟩, b3⟩

/-- Removing a part of the tree, replacing it by what is on disk, and the loops after that. -/
theorem replaced_neat {docs : Docs} {d d' : Disk} {s : Vfs} {p : Path} (h : Neat docs d s) (hh : Housed docs d') (hp : p ≠ []) (hdp : docs p = none)
    (hk : ∀ b, treeGet s.tree p = some (.dir b) → diskGet d' p ≠ some .dir) (s1 s2 s3 s4 : Vfs) {r2 r3 : Res}
    (hb1 : ∀ X, Base X { s with tree := treeRemove s.tree p } → Base X s1) (hx1 : Extends { s with tree := treeRemove s.tree p } s1)
    (ho : ∀ q, ¬ p <+: q → treeGet s1.tree q = treeGet s.tree q)
    (h2 : unloadAll (collect s p).unloads s1 = .ok (r2, s2)) (h3 : invalidateAll (collect s p).invalid s2 = .ok (r3, s3))
    (h4 : reopenAll d' (collect s p).reopen s3 = .ok s4) : s4.tree = s1.tree ∧ Links s4 ∧ Guards s s4 := by
  obtain ⟨c1, c2, c3, _⟩ := collect_spec (s := s) p
  have hb0 : Base (fun i => ∃ q, p <+: q ∧ At s q i) { s with tree := treeRemove s.tree p } :=
    base_remove h.inv.base p (fun _ h => h.elim) (fun q i a b => ⟨q, a, b⟩)
  have hbase1 := hb1 _ hb0
  obtain ⟨_, hsh2, _, _⟩ := unloadAll_spec _ _ _ _ hbase1 h2
  have hbase2 := hsh2.base hbase1
  obtain ⟨_, hsh3, _⟩ := invalidateAll_spec _ _ _ _ hbase2 h3
  have hbase3 := hsh3.base hbase2
  have hsh := hsh2.trans hsh3
  obtain ⟨k2, m2⟩ := unloadAll_kept _ _ _ _ hbase1 h2
  obtain ⟨k3, m3, n3⟩ := invalidateAll_kept _ _ _ _ hbase2 h3
  -- no open document is in the removed part
  have hre : ∀ y ∈ (collect s p).reopen, At s3 y.1 y.2 := by
    intro y hy
    obtain ⟨⟨t, ht⟩, e, a, b⟩ := mem_at h.inv (c2 y hy).1
    have hnp : ¬ p <+: y.1 := by
      intro hpy
      have hne : p ≠ y.1 := by rintro rfl; rw [ht] at hdp; cases hdp
      exact hk true ((h.inv.base.closed y.1 _ a).2 p hp hpy hne) ((hh y.1 t ht).2 p hp hpy hne)
    refine ⟨e, ?_, ?_⟩
    · rw [hsh.tree, ho y.1 hnp]; exact a
    · rw [hsh.idx, hx1.idx]; exact b
  obtain ⟨t4, i4, v4, f4, ma4⟩ := reopenAll_same d' _ s3 s4 hbase3 hre h4
  have k4 : Kept s3 s4 := kept_inv ma4 (fun e i h => by rw [i4]; exact h) v4 (sameTexts_of f4)
  have kk : Kept s1 s4 := k2.trans (k3.trans k4)
  have htree : s4.tree = s1.tree := t4.trans hsh.tree
  have hl1 : Links s1 := links_extends hx1 (links_remove p h.links)
  have hl4 : Links s4 := links_same t4 i4 (fun i f hf => ⟨f, by rw [f4]; exact hf, rfl⟩) (links_shrinks hsh hl1)
  have hm1 : ∃ m, s1.marks = s.marks ++ m := ⟨[], by rw [hx1.marks]; simp⟩
  have hfiles1 : s1.files = s.files := hx1.files
  have hbelow : ∀ i q e j l, p <+: q → treeGet s.tree q = some (.file e) → s.index e = some j → s.inv e = .files l → i ∈ l → MarkedIn s s4 i := by
    intro i q e j l hq a b c g
    have c1' : s1.inv e = .files l := by rw [hx1.inv]; exact c
    obtain ⟨f, hf, hfe⟩ := h.links q e j a b
    have hf1 : s1.files[j]? = some f := by rw [hfiles1]; exact hf
    refine MarkedIn.right hm1 ?_
    rcases collect_at hq (⟨e, a, b⟩ : At s q j) with hj | hj
    · exact (m2 j hj f l i hf1 (by rw [hfe]; exact c1') g).left (k3.trans k4).marks
    · rcases k2.inv e l i c1' g with ⟨l', x, y⟩ | x
      · obtain ⟨f', u, v⟩ := entry_shrinks hsh2 hf1
        exact ((n3 j hj f' l' i u (by rw [v, hfe]; exact x) y).left k4.marks).right k2.marks
      · exact x.left (k3.trans k4).marks
  refine ⟨htree, hl4, marks_trans hm1 kk.marks, ?_, ?_, ?_⟩
  · intro i q hn
    by_cases hq : p <+: q
    · exact .inr (((m3 i (collect_missing hq hn)).left k4.marks).right k2.marks |>.right hm1)
    · obtain ⟨l, a, b⟩ := hn
      exact .inl ⟨l, by rw [htree, ho q hq]; exact a, b⟩
  · rintro i q ⟨e, j, l, a, b, c, g⟩
    have c1' : s1.inv e = .files l := by rw [hx1.inv]; exact c
    by_cases hq : p <+: q
    · exact .inr (hbelow i q e j l hq a b c g)
    · rcases kk.inv e l i c1' g with ⟨l', x, y⟩ | x
      · exact .inl ⟨e, j, l', by rw [htree, ho q hq]; exact a, kk.idx e j (by rw [hx1.idx]; exact b), x, y⟩
      · exact .inr (x.right hm1)
  · rintro i q t ⟨e, j, l, f, a, b, c, g, u, v, w⟩
    by_cases hq : p <+: q
    · exact .inr (hbelow i q e j l hq a b c g)
    · rcases kk.reads (i := i) (p := q) (t := t) (by rw [htree]) ⟨e, j, l, f, (ho q hq).trans a, by rw [hx1.idx]; exact b, by rw [hx1.inv]; exact c, g,
          by rw [hfiles1]; exact u, v, w⟩ with x | x
      · exact .inl x
      · exact .inr (x.right hm1)

theorem notify_neat {docs : Docs} {d d' : Disk} {s : Vfs} {p : Path} {r : Res} {s' : Vfs} (h : Neat docs d s) (hd : DiskOk d) (hh : Housed docs d') (hp : p ≠ [])
    (hch : ChangedAt d d' p) (hok : notify d' p s = .ok (r, s')) : Neat docs d' s' ∧ Guards s s' := by
  have hinv := (notify_inv h.inv hd hp hch hok).2
  have hbs := h.inv.base
  rw [notify] at hok
  split at hok
  · -- the document is open
    rename_i hopen
    cases hok
    have hdp : ∃ t, docs p = some t := by
      cases hdp : docs p with
      | none => rw [memGet_none.mp ((h.inv.opened p).2 hdp)] at hopen; cases hopen
      | some t => exact ⟨t, rfl⟩
    obtain ⟨t, hdp⟩ := hdp
    obtain ⟨_, _, _, e, a, _⟩ := open_at h.inv hdp
    refine ⟨⟨hinv, h.mirror.disk hbs (fun _ _ => rfl) hch hp ?_ ?_ ?_ ?_ ?_, h.links⟩, .refl s⟩
    · rw [a]; intro hc; cases hc
    · exact fun _ _ _ => ⟨e, a⟩
    · exact fun _ hc => absurd hc (hh p t hdp).1
    · exact fun _ _ => .inl ⟨t, hdp⟩
    · intro b hb; rw [a] at hb; cases hb
  · rename_i hnopen
    have hdp : docs p = none := by
      cases hdp : docs p with
      | none => rfl
      | some t =>
        obtain ⟨i, hi, _⟩ := (h.inv.opened p).1 t hdp
        have : s.memGet p = none := memGet_none.mpr (by simpa using hnopen)
        rw [this] at hi; cases hi
    split at hok
    · -- a directory above was never read
      rename_i hpl
      cases hok
      have hnpar : ¬ ParentsOk s p := by
        intro hpar
        have := parentsLoaded_of s.tree p [] hp (fun q _ a b c => hpar q a b c)
        rw [this] at hpl
        cases hpl
      have hnone : treeGet s.tree p = none := by
        cases hg : treeGet s.tree p with
        | none => rfl
        | some n => exact absurd (hbs.closed p n hg).2 hnpar
      refine ⟨⟨hinv, h.mirror.disk hbs (fun _ _ => rfl) hch hp ?_ ?_ ?_ ?_ ?_, h.links⟩, .refl s⟩
      · rw [hnone]; intro hc; cases hc
      · exact fun _ hc => absurd hc hnpar
      · exact fun hc => absurd hc hnpar
      · intro e he; rw [hnone] at he; cases he
      · intro e he; rw [hnone] at he; cases he
    · rename_i hpl
      have hpl' : parentsLoaded s.tree [] p = true := by simpa using hpl
      obtain ⟨_, hpar⟩ := parentsOk_of_loaded hpl'
      have hsame : ∀ s1 : Vfs, Base (fun _ => False) s1 → Extends s s1 → (∀ i q, NotesMissing s i q → NotesMissing s1 i q) →
          (Base (fun _ => False) s' → s'.tree = s1.tree → Mirror docs d' s') →
          (⟨false, [], [], []⟩, s1) = replaceNode d' p s → Neat docs d' s' ∧ Guards s s' := by
        intro s1 hb1 hx1 hm1 hmir he
        rw [← he] at hok
        simp [unloadAll, invalidateAll, reopenAll] at hok
        obtain ⟨rfl, rfl⟩ := hok
        exact ⟨⟨hinv, hmir hinv.base rfl, links_extends hx1 h.links⟩, extends_guards hx1 hm1⟩
      have hremoved : ∀ s1 : Vfs, (∀ X, Base X { s with tree := treeRemove s.tree p } → Base X s1) → Extends { s with tree := treeRemove s.tree p } s1 →
          (∀ q, ¬ p <+: q → treeGet s1.tree q = treeGet s.tree q) →
          (∀ b, treeGet s.tree p = some (.dir b) → diskGet d' p ≠ some .dir) →
          (Base (fun _ => False) s' → s'.tree = s1.tree → Mirror docs d' s') →
          (collect s p, s1) = replaceNode d' p s → Neat docs d' s' ∧ Guards s s' := by
        intro s1 hb1 hx1 ho hk hmir he
        rw [← he] at hok
        simp only [(collect_spec (s := s) p).2.2.2 hbs.noDbMissing, Bool.false_eq_true, if_false] at hok
        have hb0 := hb1 _ (base_remove hbs p (fun _ h => h.elim) (fun q i a b => (⟨q, a, b⟩ : ∃ q, p <+: q ∧ At s q i)))
        cases h2 : unloadAll (collect s p).unloads s1 with
        | error x => rw [h2] at hok; cases hok
        | ok v =>
          obtain ⟨r2, s2⟩ := v
          rw [h2] at hok
          obtain ⟨rfl, hsh2, _⟩ := unloadAll_spec _ _ _ _ hb0 h2
          simp only at hok
          cases h3 : invalidateAll (collect s p).invalid s2 with
          | error x => rw [h3] at hok; cases hok
          | ok v =>
            obtain ⟨r3, s3⟩ := v
            rw [h3] at hok
            obtain ⟨rfl, _⟩ := invalidateAll_spec _ _ _ _ (hsh2.base hb0) h3
            simp only at hok
            cases h4 : reopenAll d' (collect s p).reopen s3 with
            | error x => rw [h4] at hok; cases hok
            | ok s4 =>
              rw [h4] at hok
              cases hok
              obtain ⟨a, b, c⟩ := replaced_neat h hh hp hdp hk s1 s2 s3 s' hb1 hx1 ho h2 h3 h4
              exact ⟨⟨hinv, hmir hinv.base a, b⟩, c⟩
      have hrm_none : treeGet (treeRemove s.tree p) p = none := by rw [treeGet_remove, if_pos (List.prefix_refl p)]
      have hrm_out : ∀ q, ¬ p <+: q → treeGet (treeRemove s.tree p) q = treeGet s.tree q := by
        intro q hq; rw [treeGet_remove, if_neg hq]
      have hrm_par : ParentsOk { s with tree := treeRemove s.tree p } p := by
        intro q a b c
        exact (hrm_out q (fun hpq => c (b.eq_of_length (Nat.le_antisymm b.length_le hpq.length_le)))).trans (hpar q a b c)
      -- the node that is read from disk
      have hins_out : ∀ (new : DiskNode) (t : Vfs) q, q ≠ p → treeGet (insertRead p new t).tree q = treeGet t.tree q := by
        intro new t q hq
        cases new with
        | file x => exact (treeGet_set _ _ _ _).trans (if_neg (fun h => hq h.symm))
        | dir => exact (treeGet_set _ _ _ _).trans (if_neg (fun h => hq h.symm))
      have hins_mirror : ∀ (new : DiskNode) (t : Vfs), diskGet d' p = some new → (∀ q, ¬ p <+: q → treeGet t.tree q = treeGet s.tree q) →
          Base (fun _ => False) s' → s'.tree = (insertRead p new t).tree → Mirror docs d' s' := by
        intro new t hnew hto hb' ht'
        have hout : ∀ q, ¬ p <+: q → treeGet s'.tree q = treeGet s.tree q := by
          intro q hq
          rw [ht', hins_out new t q (by rintro rfl; exact hq (List.prefix_refl _))]
          exact hto q hq
        cases new with
        | file x =>
          have hself : treeGet s'.tree p = some (.file t.entries.length) := by
            rw [ht']; exact (treeGet_set _ _ _ _).trans (if_pos rfl)
          refine h.mirror.disk hb' hout hch hp ?_ (fun _ _ _ => ⟨_, hself⟩) ?_ (fun _ _ => .inr ⟨x, hnew⟩) ?_
          · rw [hself]; intro hc; cases hc
          · intro _ hc; rw [hnew] at hc; cases hc
          · intro b hb; rw [hself] at hb; cases hb
        | dir =>
          have hself : treeGet s'.tree p = some (.dir false) := by
            rw [ht']; exact (treeGet_set _ _ _ _).trans (if_pos rfl)
          refine h.mirror.disk hb' hout hch hp ?_ ?_ (fun _ _ => ⟨_, hself⟩) ?_ (fun _ _ => hnew)
          · rw [hself]; intro hc; cases hc
          · intro t _ hc; rw [hnew] at hc; cases hc
          · intro b hb; rw [hself] at hb; cases hb
      have hreplace : ∀ new, diskGet d' p = some new → (∀ b, treeGet s.tree p = some (.dir b) → diskGet d' p ≠ some .dir) →
          (collect s p, insertRead p new { s with tree := treeRemove s.tree p }) = replaceNode d' p s → Neat docs d' s' ∧ Guards s s' := by
        intro new hnew hk he
        refine hremoved _ (fun X hX => (insertRead_spec hX hrm_none hp hrm_par new).1)
          (insertRead_spec (base_remove hbs p (fun _ h => h.elim) (fun q i a b => (⟨q, a, b⟩ : ∃ q, p <+: q ∧ At s q i))) hrm_none hp hrm_par new).2
          ?_ hk (fun hb' ht' => hins_mirror new _ hnew hrm_out hb' ht') he
        intro q hq
        rw [hins_out new _ q (by rintro rfl; exact hq (List.prefix_refl _))]
        exact hrm_out q hq
      have hstay : (∀ b, treeGet s.tree p ≠ some (.dir b)) → (∀ e, treeGet s.tree p = some (.file e) → HasFile docs d' p) →
          (∀ t, diskGet d' p = some (.file t) → ∃ e, treeGet s.tree p = some (.file e)) → (diskGet d' p ≠ some .dir) →
          Base (fun _ => False) s' → s'.tree = s.tree → Mirror docs d' s' := by
        intro a1 a2 a3 a4 hb' ht'
        refine h.mirror.disk hb' (fun q _ => by rw [ht']) hch hp ?_ ?_ ?_ ?_ ?_
        · rw [ht']; exact a1 true
        · rw [ht']; exact fun t _ ht => a3 t ht
        · exact fun _ hc => absurd hc a4
        · rw [ht']; exact a2
        · rw [ht']; exact fun b hb => absurd hb (a1 b)
      cases hold : treeGet s.tree p with
      | none =>
        cases hnew : diskGet d' p with
        | none =>
          refine hsame s hbs (.refl s) (fun _ _ h => h) (hstay ?_ ?_ ?_ ?_) (by rw [replaceNode, hold, hnew])
          · intro b hb; rw [hold] at hb; cases hb
          · intro b hb; rw [hold] at hb; cases hb
          · intro b hb; rw [hnew] at hb; cases hb
          · intro hb; rw [hnew] at hb; cases hb
        | some new =>
          obtain ⟨a, b⟩ := insertRead_spec hbs hold hp hpar new
          refine hsame _ a b ?_ (fun hb' ht' => hins_mirror new s hnew (fun _ _ => rfl) hb' ht') (by rw [replaceNode, hold, hnew])
          rintro i q ⟨l, x, y⟩
          exact ⟨l, by rw [hins_out new s q (by rintro rfl; rw [hold] at x; cases x)]; exact x, y⟩
      | some old =>
        cases hnew : diskGet d' p with
        | none =>
          have hgone : ∀ b, treeGet s.tree p = some (.dir b) → diskGet d' p ≠ some .dir := by
            intro b _ hc; rw [hnew] at hc; cases hc
          have hrmir : Base (fun _ => False) s' → s'.tree = treeRemove s.tree p → Mirror docs d' s' := by
            intro hb' ht'
            have hself : treeGet s'.tree p = none := by rw [ht']; exact hrm_none
            refine h.mirror.disk hb' (fun q hq => by rw [ht']; exact hrm_out q hq) hch hp ?_ ?_ ?_ ?_ ?_
            · rw [hself]; intro hc; cases hc
            · intro t _ hc; rw [hnew] at hc; cases hc
            · intro _ hc; rw [hnew] at hc; cases hc
            · intro e he; rw [hself] at he; cases he
            · intro e he; rw [hself] at he; cases he
          cases old with
          | missing m =>
            refine hsame s hbs (.refl s) (fun _ _ h => h) (hstay ?_ ?_ ?_ ?_) (by rw [replaceNode, hold, hnew])
            · intro b hb; rw [hold] at hb; cases hb
            · intro b hb; rw [hold] at hb; cases hb
            · intro b hb; rw [hnew] at hb; cases hb
            · intro hb; rw [hnew] at hb; cases hb
          | file e => exact hremoved _ (fun X hX => hX) (.refl _) hrm_out hgone hrmir (by rw [replaceNode, hold, hnew])
          | dir b => exact hremoved _ (fun X hX => hX) (.refl _) hrm_out hgone hrmir (by rw [replaceNode, hold, hnew])
        | some new =>
          cases old with
          | missing m =>
            refine hreplace new hnew ?_ (by rw [replaceNode, hold, hnew]; cases new <;> simp [matchesCurrent])
            intro b hb; rw [hold] at hb; cases hb
          | dir b =>
            cases new with
            | file t =>
              refine hreplace (.file t) hnew ?_ (by rw [replaceNode, hold, hnew]; simp [matchesCurrent])
              intro b _ hc; rw [hnew] at hc; cases hc
            | dir =>
              refine hsame s hbs (.refl s) (fun _ _ h => h) ?_ (by rw [replaceNode, hold, hnew])
              intro hb' ht'
              have hall := hch.2 (h.mirror.dirBack p b hold) hnew
              have hm := h.mirror.congr ht'
              refine ⟨?_, ?_, ?_, ?_⟩
              · intro q t x y z; rw [hall] at z; exact hm.file q t x y z
              · intro q x y z; rw [hall] at z; exact hm.dir q x y z
              · intro q e x
                rcases hm.fileBack q e x with h' | h'
                · exact .inl h'
                · exact .inr (by rw [hall]; exact h')
              · intro q e x; rw [hall]; exact hm.dirBack q e x
          | file e =>
            cases hmc : matchesCurrent s (.file e) new with
            | false =>
              refine hreplace new hnew ?_ (by rw [replaceNode, hold, hnew]; simp [hmc])
              intro b hb; rw [hold] at hb; cases hb
            | true =>
              cases new with
              | dir => simp [matchesCurrent] at hmc
              | file t =>
                refine hsame s hbs (.refl s) (fun _ _ h => h) (hstay ?_ ?_ ?_ ?_) (by rw [replaceNode, hold, hnew]; simp [hmc])
                · intro b hb; rw [hold] at hb; cases hb
                · exact fun _ _ => .inr ⟨t, hnew⟩
                · exact fun _ _ => ⟨e, hold⟩
                · intro hb; rw [hnew] at hb; cases hb

/-! ## Histories -/

theorem start_neat {d : Disk} (hl : Listed d) : Neat (fun _ => none) d (Vfs.start d) := by
  have hinv := start_inv d
  refine ⟨hinv, ?_, ?_⟩
  · have key : ∀ p, ParentsOk (Vfs.start d) p → p ≠ [] → p.dropLast = [] := by
      intro p hpar hp
      by_cases hc : p.dropLast = []
      · exact hc
      · exfalso
        obtain ⟨x, y, rest, rfl⟩ : ∃ x y rest, p = x :: y :: rest := by
          cases p with
          | nil => exact absurd rfl hp
          | cons x p =>
            cases p with
            | nil => exact absurd rfl hc
            | cons y rest => exact ⟨x, y, rest, rfl⟩
        have h1 := hpar [x] (by simp) ⟨y :: rest, rfl⟩ (by simp)
        cases hg : diskGet d [x] with
        | none => rw [Vfs.start, readChildren_absent [] d _ [x] hg] at h1; simp [treeGet] at h1
        | some n =>
          rcases readChildren_there [] d { entries := [], files := [], tree := [], mem := [], marks := [], hooks := [] } [x] n hl hg (by simp) rfl with ⟨t, e, _, h2⟩ | ⟨_, h2⟩
          · rw [Vfs.start, h2] at h1; cases h1
          · rw [Vfs.start, h2] at h1; cases h1
    refine ⟨?_, ?_, ?_, ?_⟩
    · intro p t hp hpar hg
      rcases readChildren_there [] d { entries := [], files := [], tree := [], mem := [], marks := [], hooks := [] } p _ hl hg hp (key p hpar hp) with ⟨_, e, _, h2⟩ | ⟨h, _⟩
      · exact ⟨e, h2⟩
      · cases h
    · intro p hp hpar hg
      rcases readChildren_there [] d { entries := [], files := [], tree := [], mem := [], marks := [], hooks := [] } p _ hl hg hp (key p hpar hp) with ⟨_, e, h, _⟩ | ⟨_, h2⟩
      · cases h
      · exact ⟨false, h2⟩
    · intro p e he
      have hp := (hinv.base.closed p _ he).1
      have hdl := key p (hinv.base.closed p _ he).2 hp
      cases hg : diskGet d p with
      | none => rw [Vfs.start, readChildren_absent [] d _ p hg] at he; simp [treeGet] at he
      | some n =>
        rcases readChildren_there [] d { entries := [], files := [], tree := [], mem := [], marks := [], hooks := [] } p n hl hg hp hdl with ⟨t, _, rfl, _⟩ | ⟨rfl, h2⟩
        · exact .inr ⟨t, hg⟩
        · rw [Vfs.start, h2] at he; cases he
    · intro p b he
      have hp := (hinv.base.closed p _ he).1
      have hdl := key p (hinv.base.closed p _ he).2 hp
      cases hg : diskGet d p with
      | none => rw [Vfs.start, readChildren_absent [] d _ p hg] at he; simp [treeGet] at he
      | some n =>
        rcases readChildren_there [] d { entries := [], files := [], tree := [], mem := [], marks := [], hooks := [] } p n hl hg hp hdl with ⟨t, _, rfl, h2⟩ | ⟨rfl, h2⟩
        · rw [Vfs.start, h2] at he; cases he
        · rfl
  · intro p e i h1 h2
    have hlt := index_lt hinv.base h2
    have hx := (readChildren_spec (X := fun _ => False) [] d { entries := [], files := [], tree := [], mem := [], marks := [], hooks := [] }
      (by refine ⟨⟨?_, ?_, ?_, ?_, ?_, ?_⟩, ?_, ?_, ?_, ?_, ?_, ?_, ?_, ?_⟩ <;> simp [treeGet, Vfs.inv, Detail.empty]) (.inl rfl)
      (by intro q a b; exact absurd (List.prefix_nil.mp b) a) (by intro q _ _ n hn; simp [treeGet] at hn)).2
    have hf : (Vfs.start d).files = [] := hx.files
    rw [hf] at hlt
    simp at hlt

theorem tidy_head {docs : Docs} {d : Disk} {hs : List Happening} (h : AlwaysHoused docs d hs) : Housed docs d ∧ Listed d := by
  cases hs with
  | nil => exact h
  | cons x hs => exact ⟨h.1, h.2.1⟩

theorem happen_neat {docs : Docs} {d : Disk} {x : Happening} {s s' : Vfs} (h : Neat docs d s) (hd : DiskOk d) (hl : Listed d) (ho : Orderly d [x]) (hn : ∀ p, x ≠ .preload p)
    (hh : Housed (outside docs d x).1 (outside docs d x).2) (hok : happen d x s = .ok s') :
    Neat (outside docs d x).1 (outside docs d x).2 s' ∧ Guards s s' := by
  cases x with
  | edit p text =>
    obtain ⟨⟨r, s2⟩, a, rfl⟩ := map_ok hok
    exact store_neat h hl (hh p text (if_pos rfl)).2 a
  | close p =>
    obtain ⟨⟨r, s2⟩, a, rfl⟩ := map_ok hok
    exact close_neat h a
  | disk p d' =>
    obtain ⟨⟨r, s2⟩, a, rfl⟩ := map_ok hok
    exact notify_neat h hd hh ho.1 ho.2.2.1 a
  | need p => cases hok; exact load_neat p h hl
  | preload p => exact absurd rfl (hn p)
  | mention p => cases hok; exact reserve_neat p h hl
  | depend i p => cases hok; exact depend_neat i p h
  | missing i p => cases hok; exact addMissing_neat i p h

theorem orderly_cons {d : Disk} {docs : Docs} {x : Happening} {hs : List Happening} (h : Orderly d (x :: hs)) :
    Orderly d [x] ∧ Orderly (outside docs d x).2 hs ∧ (DiskOk d → DiskOk (outside docs d x).2) := by
  cases x <;> simp only [Orderly, outside] at h ⊢ <;> first | exact ⟨trivial, h, id⟩ | exact ⟨⟨h.1, h.2.1, h.2.2.1, trivial⟩, h.2.2.2, fun _ => h.2.1⟩

theorem happenAll_neat : ∀ (hs : List Happening) (docs : Docs) (d : Disk) (s s' : Vfs), Neat docs d s → DiskOk d → Orderly d hs → AlwaysHoused docs d hs →
    (∀ p, Happening.preload p ∉ hs) → happenAll docs d hs s = .ok s' → Neat (outsideAll docs d hs).1 (outsideAll docs d hs).2 s' ∧ Guards s s' := by
  intro hs
  induction hs with
  | nil => intro docs d s s' h _ _ _ _ hok; rw [happenAll] at hok; cases hok; exact ⟨h, .refl s⟩
  | cons x hs ih =>
    intro docs d s s' h hd ho ht hn hok
    rw [happenAll] at hok
    cases h1 : happen d x s with
    | error e => rw [h1] at hok; cases hok
    | ok s1 =>
      rw [h1] at hok
      rw [outsideAll]
      obtain ⟨o1, o2, o3⟩ := orderly_cons (docs := docs) ho
      obtain ⟨a, b⟩ := happen_neat h hd ht.2.1 o1 (fun p hp => hn p (by rw [hp]; exact List.mem_cons_self ..)) (tidy_head ht.2.2).1 h1
      obtain ⟨c, e⟩ := ih _ _ s1 s' a (o3 hd) o2 ht.2.2 (fun p hp => hn p (List.mem_cons_of_mem _ hp)) hok
      exact ⟨c, b.trans e⟩

end Verif.Vfs
