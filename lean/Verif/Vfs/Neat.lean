import Verif.Vfs.Guard

/-! # Every happening keeps the tree in order -/

namespace Verif.Vfs

/-- The virtual file system is in order. -/
structure Neat (docs : Docs) (d : Disk) (s : Vfs) : Prop where
  inv : Inv docs d s
  mirror : Mirror docs d s
  links : Links s

theorem links_extends {s s' : Vfs} (hx : Extends s s') (h : Links s) : Links s' := by
  intro p e i h1 h2
  rw [hx.idx] at h2
  rw [hx.files]
  rcases hx.fresh p e h1 with h3 | h3
  · exact h p e i h3 h2
  · rw [h3] at h2; cases h2

theorem links_shrinks {s s' : Vfs} (hx : Shrinks s s') (h : Links s) : Links s' := by
  intro p e i h1 h2
  rw [hx.tree] at h1
  rw [hx.idx] at h2
  obtain ⟨f, h3, h4⟩ := h p e i h1 h2
  obtain ⟨f', h5, h6⟩ := entry_shrinks hx h3
  exact ⟨f', h5, h6.trans h4⟩

theorem links_remove {s : Vfs} (p : Path) (h : Links s) : Links { s with tree := treeRemove s.tree p } :=
  fun q e i h1 h2 => h q e i (treeGet_remove_some h1).2 h2

theorem links_same {s s' : Vfs} (ht : s'.tree = s.tree) (hi : ∀ e, s'.index e = s.index e)
    (hf : ∀ (i : Nat) f, s.files[i]? = some f → ∃ f', s'.files[i]? = some f' ∧ f'.entry = f.entry) (h : Links s) : Links s' := by
  intro p e i h1 h2
  rw [ht] at h1
  rw [hi] at h2
  obtain ⟨f, h3, h4⟩ := h p e i h1 h2
  obtain ⟨f', h5, h6⟩ := hf i f h3
  exact ⟨f', h5, h6.trans h4⟩

theorem links_setFile {X} {s : Vfs} (hb : Base X s) (h : Links s) {p : Path} {e i : Nat} {text : Option String} (ht : treeGet s.tree p = some (.file e)) (hi : At s p i) :
    Links { s with files := s.files.set i ⟨some p, e, text⟩ } := by
  intro q e' k h1 h2
  have h1' : treeGet s.tree q = some (.file e') := h1
  have h2' : s.index e' = some k := h2
  obtain ⟨f0, hf0, hp0⟩ := hi.path hb
  have hlt : i < s.files.length := (List.getElem?_eq_some_iff.mp hf0).1
  show ∃ f, (s.files.set i ⟨some p, e, text⟩)[k]? = some f ∧ f.entry = e'
  rw [files_set _ hlt]
  by_cases hk : i = k
  · subst hk
    obtain ⟨f1, hf1, hp1⟩ := hb.entryPath q e' i h1' h2'
    rw [hf0] at hf1; cases hf1
    rw [hp0] at hp1; cases hp1
    rw [ht] at h1'; cases h1'
    exact ⟨_, if_pos rfl, rfl⟩
  · rw [if_neg hk]
    exact h q e' k h1' h2'

theorem links_newFile {s : Vfs} (h : Links s) {p : Path} {e : Nat} {text : Option String} (he : e < s.entries.length) (hi : s.index e = none) :
    Links { s.setIndexIfNone e s.files.length with files := s.files ++ [⟨some p, e, text⟩] } := by
  intro q e' k h1 h2
  have h1' : treeGet s.tree q = some (.file e') := h1
  have h2' : (s.setIndexIfNone e s.files.length).index e' = some k := h2
  rw [index_setIndexIfNone _ _ _ _ he, hi] at h2'
  show ∃ f, (s.files ++ [⟨some p, e, text⟩])[k]? = some f ∧ f.entry = e'
  by_cases hee : e = e'
  · subst hee
    rw [if_pos rfl] at h2'
    cases h2'
    exact ⟨⟨some p, e, text⟩, by simp, rfl⟩
  · rw [if_neg hee] at h2'
    obtain ⟨f, h3, h4⟩ := h q e' k h1' h2'
    exact ⟨f, by rw [List.getElem?_append_left (List.getElem?_eq_some_iff.mp h3).1]; exact h3, h4⟩

theorem kept_newFile {s : Vfs} {p : Path} {e : Nat} {text : Option String} (he : e < s.entries.length) (hi : s.index e = none) :
    Kept s { s.setIndexIfNone e s.files.length with files := s.files ++ [⟨some p, e, text⟩] } := by
  refine kept_inv rfl ?_ ?_ ?_
  · intro e' i h
    show (s.setIndexIfNone e s.files.length).index e' = _
    rw [index_setIndexIfNone _ _ _ _ he]
    split
    · rename_i hee; subst hee; rw [hi] at h; cases h
    · exact h
  · exact inv_setIndexIfNone s e s.files.length
  · intro j f t hj ht
    exact ⟨f, (List.getElem?_append_left (List.getElem?_eq_some_iff.mp hj).1).trans hj, rfl, ht⟩

theorem sameTexts_update (s : Vfs) (i : Nat) (text : String) : SameTexts s (s.update i text) := by
  intro j f t hj ht
  rw [Vfs.update, getElem?_modify', hj]
  split
  · exact ⟨_, rfl, rfl, by simp [ht]⟩
  · exact ⟨f, rfl, rfl, ht⟩

/-! ## Opening and editing -/

theorem storeExisting_neat {X} {s : Vfs} {p : Path} {text : String} {e i : Nat} {r : Res} {s' : Vfs}
    (hb : Base X s) (hl : Links s) (he : treeGet s.tree p = some (.file e)) (ha : At s p i)
    (hok : storeExisting p text e .empty i s = .ok (r, s')) : s'.tree = s.tree ∧ Links s' ∧ Kept s s' := by
  rw [storeExisting] at hok
  split at hok
  · cases hok; exact ⟨rfl, hl, .refl s⟩
  · cases h1 : invalidateAndUnload i s with
    | error x => rw [h1] at hok; cases hok
    | ok v =>
      obtain ⟨r1, s1⟩ := v
      rw [h1] at hok
      obtain ⟨rfl, hsh, hfiles⟩ := invalidateAndUnload_spec hb h1
      obtain ⟨hk, _⟩ := invalidateAndUnload_kept hb h1
      simp only [if_neg (show ¬ (Res.files = Res.db) by intro h; cases h)] at hok
      cases h2 : invalidateFiles (some i) .empty { s1 with files := s1.files.set i ⟨some p, e, some text⟩ } with
      | error x => rw [h2] at hok; cases hok
      | ok v =>
        obtain ⟨r2, s4⟩ := v
        rw [h2] at hok
        cases hok
        have hb1 := hsh.base hb
        have ha1 : At s1 p i := hsh.at.mpr ha
        have he1 : treeGet s1.tree p = some (.file e) := by rw [hsh.tree]; exact he
        have hlen : e < s1.entries.length := by rw [hsh.len]; exact hb.wf.node _ (mem_of_treeGet he) e rfl
        have hb3 := base_setFile (text := some text) hb1 ha1 hlen
        obtain ⟨_, hsh2, _⟩ := invalidateFiles_spec hb3 (invOk_empty _) h2
        obtain ⟨hk2, _⟩ := invalidateFiles_kept hb3 h2
        have hst : SameTexts s1 { s1 with files := s1.files.set i ⟨some p, e, some text⟩ } := by
          intro j f t hj ht
          have hij : i ≠ j := by
            rintro rfl
            have hu := files_unload s i i
            rw [← hfiles, hj] at hu
            cases hsf : s.files[i]? with
            | none => rw [hsf] at hu; cases hu
            | some g => rw [hsf, Option.map_some, if_pos rfl] at hu; cases hu; cases ht
          exact ⟨f, (List.getElem?_set_ne hij).trans hj, rfl, ht⟩
        refine ⟨hsh2.tree.trans hsh.tree, links_shrinks hsh2 (links_setFile hb1 (links_shrinks hsh hl) he1 ha1), ?_⟩
        exact hk.trans ((kept_same (s := s1) (s' := { s1 with files := s1.files.set i ⟨some p, e, some text⟩ }) rfl rfl hst).trans hk2)

theorem store_neat {docs : Docs} {d : Disk} {s : Vfs} {p : Path} {text : String} {r : Res} {s' : Vfs} (h : Neat docs d s) (hl : Listed d)
    (hh : ∀ q, q ≠ [] → q <+: p → q ≠ p → diskGet d q = some .dir)
    (hok : store d p text s = .ok (r, s')) : Neat (fun q => if q = p then some text else docs q) d s' ∧ Guards s s' := by
  have hinv := (store_inv h.inv hok).2
  have key : ∀ s1 : Vfs, Mirror (fun q => if q = p then some text else docs q) d s1 → s'.tree = s1.tree → Links s' → Guards s s' →
      Neat (fun q => if q = p then some text else docs q) d s' ∧ Guards s s' :=
    fun s1 hm ht hlk hg => ⟨⟨hinv, hm.congr ht, hlk⟩, hg⟩
  rw [store] at hok
  cases h1 : ensureFile d p s with
  | error x => rw [h1] at hok; cases hok
  | ok v =>
    obtain ⟨e, inv, s1⟩ := v
    rw [h1] at hok
    simp only at hok
    obtain ⟨hb1, hx1, ht1, hd1⟩ := ensureFile_spec h.inv.base h1
    have hm1 := ensureFile_mirror hl text h.inv h.mirror hh h1
    have hl1 := links_extends hx1 h.links
    have hi1 : Inv docs d s1 := h.inv.extends hb1 hx1
    -- a file that has an index was in the tree before
    have hold : treeGet s.tree p = some (.file e) → inv = .empty ∧ s1 = s := by
      intro ho
      rw [ensureFile_found d h.inv.base ho] at h1
      cases h1
      exact ⟨rfl, rfl⟩
    cases hm : s1.memGet p with
    | some i =>
      rw [hm] at hok
      have hdoc : ∃ t, docs p = some t := by
        cases hdp : docs p with
        | none => rw [(hi1.opened p).2 hdp] at hm; cases hm
        | some t => exact ⟨t, rfl⟩
      obtain ⟨t, hdp⟩ := hdoc
      obtain ⟨j, hj, _, hat⟩ := open_at h.inv hdp
      have hj' : s1.memGet p = some j := by rw [memGet_congr hx1.mem]; exact hj
      rw [hm] at hj'; cases hj'
      have ho : treeGet s.tree p = some (.file e) := by
        obtain ⟨e0, a, b⟩ := hat
        have := hx1.kept p e0 i a b
        rw [ht1] at this; cases this
        exact a
      obtain ⟨rfl, rfl⟩ := hold ho
      obtain ⟨a, b, c⟩ := storeExisting_neat (s := s1.hook p) (base_hook hb1 p) hl1 ht1 hat hok
      refine key s1 hm1 a b (Kept.guards ?_ a)
      exact (kept_same (s := s1) (s' := s1.hook p) rfl rfl (sameTexts_of rfl)).trans c
    | none =>
      rw [hm] at hok
      cases hi : s1.index e with
      | some i =>
        rw [hi] at hok
        have hat : At s1 p i := ⟨e, ht1, hi⟩
        have ho : treeGet s.tree p = some (.file e) := by
          rcases hx1.fresh p e ht1 with h' | h'
          · exact h'
          · rw [hx1.idx] at hi; rw [h'] at hi; cases hi
        obtain ⟨rfl, rfl⟩ := hold ho
        obtain ⟨a, b, c⟩ := storeExisting_neat (s := (s1.memSet p i).hook p) (base_hook (base_memSet hb1 (hat.path hb1)) p) hl1 ht1 hat hok
        refine key s1 hm1 a b (Kept.guards ?_ a)
        exact (kept_same (s := s1) (s' := (s1.memSet p i).hook p) rfl rfl (sameTexts_of rfl)).trans c
      | none =>
        rw [hi] at hok
        have hih : (s1.hook p).index e = none := hi
        simp only [withAddedFile_new hih] at hok
        have he : e < s1.entries.length := hb1.wf.node _ (mem_of_treeGet ht1) e rfl
        have hb2 := base_newFile (text := some text) (base_hook hb1 p) (e := e) ht1 hih
        have hat2 := at_new (s := s1.hook p) ht1 he hih ⟨some p, e, some text⟩
        have hb3 := base_memSet hb2 (hat2.path hb2)
        obtain ⟨l, rfl, hll⟩ := hd1
        have hd3 : InvOk (Vfs.memSet { (s1.hook p).setIndexIfNone e (s1.hook p).files.length with
            files := (s1.hook p).files ++ [⟨some p, e, some text⟩] } p (s1.hook p).files.length) (.files l) := by
          refine ⟨l, rfl, fun k hk => ?_⟩
          show k < (s1.files ++ [_]).length
          have := hll k hk
          rw [hx1.files]
          simp
          omega
        obtain ⟨_, hsh, _⟩ := invalidateFiles_spec hb3 hd3 hok
        obtain ⟨hk, hmk⟩ := invalidateFiles_kept hb3 hok
        have htree : s'.tree = s1.tree := hsh.tree
        have hk1 : Kept s1 s' :=
          (kept_same (s := s1) (s' := s1.hook p) rfl rfl (sameTexts_of rfl)).trans ((kept_newFile (s := s1.hook p) (p := p) (text := some text) he hih).trans
            ((kept_same (s := { (s1.hook p).setIndexIfNone e (s1.hook p).files.length with
            files := (s1.hook p).files ++ [⟨some p, e, some text⟩] }) (s' := Vfs.memSet { (s1.hook p).setIndexIfNone e (s1.hook p).files.length with
            files := (s1.hook p).files ++ [⟨some p, e, some text⟩] } p (s1.hook p).files.length) rfl rfl (sameTexts_of rfl)).trans hk))
        have hl2 := links_newFile (s := s1.hook p) (p := p) (text := some text) hl1 he hih
        refine key s1 hm1 htree (links_shrinks hsh hl2) ⟨?_, ?_, ?_, ?_⟩
        · exact marks_trans ⟨[], by rw [hx1.marks]; simp⟩ hk1.marks
        · intro i q hn
          rcases ensure_missing d p [] s e (.files l) s1 h.inv.base (.inl rfl) (by intro q h1 h2; exact absurd (List.prefix_nil.mp h2) h1) h1 i q hn with h' | ⟨l', h', hi'⟩
          · rcases (hk1.guards htree).missing i q h' with h'' | h''
            · exact .inl h''
            · exact .inr (h''.right ⟨[], by rw [hx1.marks]; simp⟩)
          · cases h'
            exact .inr (MarkedIn.right (t := Vfs.memSet { (s1.hook p).setIndexIfNone e (s1.hook p).files.length with
              files := (s1.hook p).files ++ [⟨some p, e, some text⟩] } p (s1.hook p).files.length) ⟨[], by
                show s1.marks = _
                rw [hx1.marks]; simp⟩ (hmk i hi'))
        · intro i q hn
          rcases (hk1.guards htree).file i q (notesFile_extends hx1 hn) with h'' | h''
          · exact .inl h''
          · exact .inr (h''.right ⟨[], by rw [hx1.marks]; simp⟩)
        · intro i q t hn
          rcases (hk1.guards htree).reads i q t (reads_extends hx1 hn) with h'' | h''
          · exact .inl h''
          · exact .inr (h''.right ⟨[], by rw [hx1.marks]; simp⟩)

/-! ## Closing -/

theorem Mirror.closeOnDisk {docs : Docs} {d : Disk} {s s' : Vfs} {p : Path} (h : Mirror docs d s) (ht : s'.tree = s.tree)
    (hd : docs p = none ∨ ∃ t, diskGet d p = some (.file t)) : Mirror (fun q => if q = p then none else docs q) d s' := by
  refine ⟨(h.congr ht).file, (h.congr ht).dir, ?_, (h.congr ht).dirBack⟩
  intro q e hq
  rcases (h.congr ht).fileBack q e hq with ⟨t, h1⟩ | h1
  · by_cases hqp : q = p
    · subst hqp
      rcases hd with hd | hd
      · rw [hd] at h1; cases h1
      · exact .inr hd
    · exact .inl ⟨t, (if_neg hqp).trans h1⟩
  · exact .inr h1

theorem close_neat {docs : Docs} {d : Disk} {s : Vfs} {p : Path} {r : Res} {s' : Vfs} (h : Neat docs d s)
    (hok : close d p s = .ok (r, s')) : Neat (fun q => if q = p then none else docs q) d s' ∧ Guards s s' := by
  have hinv := (close_inv h.inv hok).2
  rw [close] at hok
  cases hm : s.memGet p with
  | none =>
    rw [hm] at hok
    cases hok
    have hdp : docs p = none := by
      cases hd : docs p with
      | none => rfl
      | some t =>
        obtain ⟨i, h1, _⟩ := (h.inv.opened p).1 t hd
        rw [hm] at h1; cases h1
    exact ⟨⟨hinv, h.mirror.closeOnDisk rfl (.inl hdp), h.links⟩, .refl s⟩
  | some i =>
    rw [hm] at hok
    have hdoc : ∃ t, docs p = some t := by
      cases hdp : docs p with
      | none => rw [(h.inv.opened p).2 hdp] at hm; cases hm
      | some t => exact ⟨t, rfl⟩
    obtain ⟨t, hdp⟩ := hdoc
    obtain ⟨j, hj, hcj, ha⟩ := open_at h.inv hdp
    rw [hm] at hj; cases hj
    obtain ⟨fi, hfi, hpi⟩ := ha.path h.inv.base
    have hb1 := base_memFilter h.inv.base p
    cases hd : diskText d p with
    | some text =>
      have hdisk : ∃ t, diskGet d p = some (.file t) := by
        rw [diskText] at hd
        split at hd
        · rename_i t ht; exact ⟨t, ht⟩
        · cases hd
      rw [hd] at hok
      simp only at hok
      split at hok
      · cases hok
        refine ⟨⟨hinv, h.mirror.closeOnDisk rfl (.inr hdisk), h.links⟩, ?_⟩
        exact (kept_same (s := s) (s' := { s with mem := s.mem.filter (fun m => m.1 != p) }) rfl rfl (sameTexts_of rfl)).guards rfl
      · rw [updateFile] at hok
        cases hu : invalidateAndUnload i { s with mem := s.mem.filter (fun m => m.1 != p) } with
        | error x => rw [hu] at hok; cases hok
        | ok v =>
          obtain ⟨r1, s1⟩ := v
          rw [hu] at hok
          cases hok
          obtain ⟨rfl, hsh, hfiles⟩ := invalidateAndUnload_spec hb1 hu
          obtain ⟨hk, _⟩ := invalidateAndUnload_kept hb1 hu
          have hl1 : Links s1 := links_shrinks hsh h.links
          have hsame : ∀ (k : Nat) f, s1.files[k]? = some f → ∃ f', (s1.update i text).files[k]? = some f' ∧ f'.entry = f.entry := by
            intro k f hf
            rw [Vfs.update, getElem?_modify', hf]
            split
            · exact ⟨_, rfl, rfl⟩
            · exact ⟨f, rfl, rfl⟩
          refine ⟨⟨hinv, h.mirror.closeOnDisk hsh.tree (.inr hdisk), links_same (s := s1) rfl (fun _ => rfl) hsame hl1⟩, ?_⟩
          refine Kept.guards ?_ hsh.tree
          exact (kept_same (s := s) (s' := { s with mem := s.mem.filter (fun m => m.1 != p) }) rfl rfl (sameTexts_of rfl)).trans
            (hk.trans (kept_same (s := s1) (s' := s1.update i text) rfl rfl (sameTexts_update s1 i text)))
    | none =>
      rw [hd] at hok
      simp only [hfi, hpi] at hok
      obtain ⟨e, he, hie⟩ := ha
      rw [unloadTree] at hok
      simp only [he] at hok
      have hpne : p ≠ [] := (h.inv.base.closed p _ he).1
      have hnobelow : ∀ q n, treeGet s.tree q = some n → p <+: q → q = p := by
        intro q n h1 hpq
        by_cases hq : q = p
        · exact hq
        · have := (h.inv.base.closed q _ h1).2 p hpne hpq (fun h => hq h.symm)
          rw [he] at this; cases this
      have hbX : Base (fun k => k = i) { { s with mem := s.mem.filter (fun m => m.1 != p) } with tree := treeRemove s.tree p } := by
        refine base_remove (s := { s with mem := s.mem.filter (fun m => m.1 != p) }) hb1 p (fun _ h => h.elim) ?_
        rintro q k hpq ⟨e', h1, h2⟩
        obtain rfl := hnobelow q _ h1 hpq
        exact At.unique (s := s) ⟨e', h1, h2⟩ ⟨e, he, hie⟩
      obtain ⟨rfl, hsh, hfiles⟩ := invalidateAndUnload_spec hbX hok
      obtain ⟨hk, hmk⟩ := invalidateAndUnload_kept hbX hok
      have hnot : ∀ t, diskGet d p ≠ some (.file t) := by
        intro t ht
        rw [diskText, ht] at hd; cases hd
      have htree : ∀ q, treeGet s'.tree q = if p <+: q then none else treeGet s.tree q := by
        intro q; rw [hsh.tree]; exact treeGet_remove _ _ _
      have htree' : ∀ q, q ≠ p → treeGet s'.tree q = treeGet s.tree q := by
        intro q hq
        rw [htree]
        split
        · rename_i hpq
          cases hg : treeGet s.tree q with
          | none => rfl
          | some n => exact absurd (hnobelow q n hg hpq) hq
        · rfl
      refine ⟨⟨hinv, h.mirror.removeFile hnot (by intro b hb; rw [he] at hb; cases hb) ?_ htree', ?_⟩, hk.marks, ?_, ?_, ?_⟩
      · rw [htree, if_pos (List.prefix_refl p)]
      · exact links_shrinks hsh (links_remove p h.links)
      · rintro k q ⟨l, h1, h2⟩
        exact .inl ⟨l, by rw [htree' q (by rintro rfl; rw [he] at h1; cases h1)]; exact h1, h2⟩
      · rintro k q ⟨e', j, l, h1, h2, h3, h4⟩
        by_cases hq : q = p
        · subst hq
          rw [he] at h1; cases h1
          obtain ⟨f, hf, hfe⟩ := h.links q e i he hie
          exact .inr (hmk f l k hf (by rw [hfe]; exact h3) h4)
        · rcases hk.inv e' l k h3 h4 with ⟨l', h5, h6⟩ | h5
          · exact .inl ⟨e', j, l', by rw [htree' q hq]; exact h1, hk.idx e' j h2, h5, h6⟩
          · exact .inr h5
      · intro k q x hr
        by_cases hq : q = p
        · subst hq
          obtain ⟨e', j, l, f, h1, h2, h3, h4, h5, h6, h7⟩ := hr
          rw [he] at h1; cases h1
          rw [hie] at h2; cases h2
          exact .inr (hmk f l k h5 (by rw [h6]; exact h3) h4)
        · exact hk.reads (s := { { s with mem := s.mem.filter (fun m => m.1 != p) } with tree := treeRemove s.tree p })
            (by rw [hsh.tree]) (by
              obtain ⟨e', j, l, f, h1, h2, h3, h4, h5, h6, h7⟩ := hr
              refine ⟨e', j, l, f, ?_, h2, h3, h4, h5, h6, h7⟩
              have := htree' q hq
              rw [hsh.tree] at this
              exact this.trans h1)

/-! ## What the analysis does -/

theorem load_neat {docs : Docs} {d : Disk} {s : Vfs} (p : Path) (h : Neat docs d s) (hl : Listed d) :
    Neat docs d (load d p s).2 ∧ Guards s (load d p s).2 := by
  have hinv := (load_inv p h.inv).1
  have hpar0 : ParentsOk s [] := by intro q h1 h2; exact absurd (List.prefix_nil.mp h2) h1
  obtain ⟨hb1, hx1, ht1⟩ := findFile_spec d p [] s h.inv.base (.inl rfl) hpar0
  have hm1 := (findFile_mirror hl p [] s h.inv h.mirror (.inl rfl) hpar0).1
  have hg1 := findFile_guards d p [] s h.inv.base (.inl rfl) hpar0
  have hl1 := links_extends hx1 h.links
  have key : ∀ s' : Vfs, (load d p s).2 = s' → s'.tree = (findFile d [] p s).2.tree → Links s' → Kept (findFile d [] p s).2 s' →
      Neat docs d (load d p s).2 ∧ Guards s (load d p s).2 := by
    intro s' he ht hk hkept
    exact ⟨⟨hinv, by rw [he]; exact hm1.congr ht, by rw [he]; exact hk⟩, by rw [he]; exact hg1.trans (hkept.guards ht)⟩
  cases hff : findFile d [] p s with
  | mk o s1 =>
    rw [hff] at hb1 hx1 ht1 hl1 key
    cases o with
    | none => exact key s1 (by rw [load, hff]) rfl hl1 (.refl _)
    | some e =>
      have ht := ht1 e rfl
      simp only at ht hl1 hb1 hx1
      rw [List.nil_append] at ht
      have he : e < s1.entries.length := hb1.wf.node _ (mem_of_treeGet ht) e rfl
      cases hie : s1.index e with
      | some i =>
        cases hc : s1.code i with
        | some c => exact key s1 (by rw [load, hff]; simp only [hie, hc]) rfl hl1 (.refl _)
        | none =>
          cases hd : diskText d p with
          | none => exact key s1 (by rw [load, hff]; simp only [hie, hc, hd]) rfl hl1 (.refl _)
          | some text =>
            refine key (s1.update i text) (by rw [load, hff]; simp only [hie, hc, hd]) rfl (links_same (s := s1) rfl (fun _ => rfl) ?_ hl1) (kept_same rfl rfl (sameTexts_update s1 i text))
            intro k f hf
            rw [Vfs.update, getElem?_modify', hf]
            split
            · exact ⟨_, rfl, rfl⟩
            · exact ⟨f, rfl, rfl⟩
      | none =>
        cases hd : diskText d p with
        | none => exact key s1 (by rw [load, hff]; simp only [hie, hd]) rfl hl1 (.refl _)
        | some text =>
          exact key { s1.setIndexIfNone e s1.files.length with files := s1.files ++ [⟨some p, e, some text⟩] }
            (by rw [load, hff]; simp only [hie, hd, withAddedFile_new hie]) rfl (links_newFile hl1 he hie) (kept_newFile he hie)

theorem reserve_neat {docs : Docs} {d : Disk} {s : Vfs} (p : Path) (h : Neat docs d s) (hl : Listed d) :
    Neat docs d (reserve d p s) ∧ Guards s (reserve d p s) := by
  have hinv := reserve_inv p h.inv
  have hpar0 : ParentsOk s [] := by intro q h1 h2; exact absurd (List.prefix_nil.mp h2) h1
  obtain ⟨hb1, hx1, ht1⟩ := findFile_spec d p [] s h.inv.base (.inl rfl) hpar0
  have hm1 := (findFile_mirror hl p [] s h.inv h.mirror (.inl rfl) hpar0).1
  have hg1 := findFile_guards d p [] s h.inv.base (.inl rfl) hpar0
  have hl1 := links_extends hx1 h.links
  have key : ∀ s' : Vfs, reserve d p s = s' → s'.tree = (findFile d [] p s).2.tree → Links s' → Kept (findFile d [] p s).2 s' →
      Neat docs d (reserve d p s) ∧ Guards s (reserve d p s) := by
    intro s' he ht hk hkept
    exact ⟨⟨hinv, by rw [he]; exact hm1.congr ht, by rw [he]; exact hk⟩, by rw [he]; exact hg1.trans (hkept.guards ht)⟩
  cases hff : findFile d [] p s with
  | mk o s1 =>
    rw [hff] at hb1 hx1 ht1 hl1 key
    cases o with
    | none => exact key s1 (by rw [reserve, hff]) rfl hl1 (.refl _)
    | some e =>
      have ht := ht1 e rfl
      simp only at ht hl1 hb1 hx1
      rw [List.nil_append] at ht
      have he : e < s1.entries.length := hb1.wf.node _ (mem_of_treeGet ht) e rfl
      cases hie : s1.index e with
      | some i => exact key s1 (by rw [reserve, hff]; simp only [hie]) rfl hl1 (.refl _)
      | none =>
        exact key { s1.setIndexIfNone e s1.files.length with files := s1.files ++ [⟨some p, e, none⟩] }
          (by rw [reserve, hff]; simp only [hie]) rfl (links_newFile hl1 he hie) (kept_newFile he hie)

theorem mem_add {d : Detail} {l : List Nat} {x : Nat} (h : d = .files l) : ∃ l', d.add x = .files l' ∧ x ∈ l' ∧ ∀ y ∈ l, y ∈ l' := by
  subst h
  rw [Detail.add]
  refine ⟨_, rfl, ?_, ?_⟩
  · split
    · assumption
    · simp
  · intro y hy
    split
    · exact hy
    · exact List.mem_append_left _ hy

theorem kept_addInvalidation {s : Vfs} {e i : Nat} (he : e < s.entries.length) : Kept s (s.addInvalidation e i) := by
  refine ⟨⟨[], by simp [Vfs.addInvalidation, Vfs.setInv]⟩, ?_, ?_, fun e' l k j f t _ _ a b c => .inl ⟨f, a, b, c⟩⟩
  · intro e' k h
    rw [Vfs.addInvalidation, index_setInv]; exact h
  · intro e' l k hl hk
    left
    rw [inv_addInvalidation _ _ _ _ he]
    by_cases hee : e = e'
    · subst hee
      rw [if_pos rfl]
      obtain ⟨l', h1, _, h2⟩ := mem_add (x := i) hl
      exact ⟨l', h1, h2 k hk⟩
    · rw [if_neg hee]; exact ⟨l, hl, hk⟩

theorem addInvalidation_neat {docs : Docs} {d : Disk} {s : Vfs} {e i : Nat} (h : Neat docs d s) (he : e < s.entries.length) (hi : i < s.files.length) :
    Neat docs d (s.addInvalidation e i) ∧ Guards s (s.addInvalidation e i) := by
  have hk := kept_addInvalidation (i := i) he
  refine ⟨⟨h.inv.same (base_addInvalidation h.inv.base he hi) rfl rfl, h.mirror.congr rfl, ?_⟩, hk.guards rfl⟩
  exact links_same (s := s) rfl (fun e' => by rw [Vfs.addInvalidation, index_setInv]) (fun k f hf => ⟨f, hf, rfl⟩) h.links

theorem depend_neat {docs : Docs} {d : Disk} {s : Vfs} (i : Nat) (p : Path) (h : Neat docs d s) : Neat docs d (depend i p s) ∧ Guards s (depend i p s) := by
  rw [depend]
  split
  · rename_i e he
    split
    · rename_i hlt
      exact addInvalidation_neat h (h.inv.base.wf.node _ (mem_of_treeGet he) e rfl) hlt
    · exact ⟨h, .refl s⟩
  · exact ⟨h, .refl s⟩

theorem addMissing_neat {docs : Docs} {d : Disk} {s : Vfs} (i : Nat) (p : Path) (h : Neat docs d s) : Neat docs d (addMissing i p s) ∧ Guards s (addMissing i p s) := by
  have hinv := addMissing_inv i p h.inv
  have key : ∀ inv : Detail, addMissing i p s = { s with tree := treeSet s.tree p (.missing inv) } →
      ((∀ e, treeGet s.tree p ≠ some (.file e)) ∧ ∀ b, treeGet s.tree p ≠ some (.dir b)) →
      (∀ l k, treeGet s.tree p = some (.missing (.files l)) → k ∈ l → ∃ l', inv = .files l' ∧ k ∈ l') →
      Neat docs d (addMissing i p s) ∧ Guards s (addMissing i p s) := by
    intro inv he hold hk
    have hself : treeGet (addMissing i p s).tree p = some (.missing inv) := by
      rw [he]; exact (treeGet_set _ _ _ _).trans (if_pos rfl)
    have ho : ∀ q, q ≠ p → treeGet (addMissing i p s).tree q = treeGet s.tree q := by
      intro q hq; rw [he]; exact (treeGet_set _ _ _ _).trans (if_neg (fun hh => hq hh.symm))
    refine ⟨⟨hinv, h.mirror.setMissing hold hself ho, ?_⟩, ?_, ?_, ?_, ?_⟩
    · intro q e k h1 h2
      have hq : q ≠ p := by rintro rfl; rw [hself] at h1; cases h1
      rw [ho q hq] at h1
      rw [he] at h2 ⊢
      exact h.links q e k h1 h2
    · exact ⟨[], by rw [he]; simp⟩
    · rintro k q ⟨l, h1, h2⟩
      left
      by_cases hq : q = p
      · subst hq
        obtain ⟨l', rfl, h4⟩ := hk l k h1 h2
        exact ⟨l', hself, h4⟩
      · exact ⟨l, by rw [ho q hq]; exact h1, h2⟩
    · rintro k q ⟨e, j, l, h1, h2, h3, h4⟩
      left
      have hq : q ≠ p := by rintro rfl; exact hold.1 e h1
      exact ⟨e, j, l, by rw [ho q hq]; exact h1, by rw [he]; exact h2, by rw [he]; exact h3, h4⟩
    · rintro k q t ⟨e, j, l, f, h1, h2, h3, h4, h5, h6, h7⟩
      left
      have hq : q ≠ p := by rintro rfl; exact hold.1 e h1
      exact ⟨e, j, l, f, by rw [ho q hq]; exact h1, by rw [he]; exact h2, by rw [he]; exact h3, h4, by rw [he]; exact h5, h6, h7⟩
  by_cases hc : (parentsLoaded s.tree [] p && decide (i < s.files.length)) = true
  · have hc2 := hc
    rw [Bool.and_eq_true] at hc
    have hlt : i < s.files.length := by simpa using hc.2
    cases hg : treeGet s.tree p with
    | none =>
      refine key (.files [i]) ?_ ?_ ?_
      · rw [addMissing, if_pos hc2, hg]
      · exact ⟨(by intro e he; rw [hg] at he; cases he), (by intro e he; rw [hg] at he; cases he)⟩
      · intro l k h1; rw [hg] at h1; cases h1
    | some n =>
      cases n with
      | file e =>
        rw [addMissing, if_pos hc2, hg]
        exact addInvalidation_neat h (h.inv.base.wf.node _ (mem_of_treeGet hg) e rfl) hlt
      | dir b => rw [addMissing, if_pos hc2, hg]; exact ⟨h, .refl s⟩
      | missing inv =>
        refine key (inv.add i) ?_ ?_ ?_
        · rw [addMissing, if_pos hc2, hg]
        · exact ⟨(by intro e he; rw [hg] at he; cases he), (by intro e he; rw [hg] at he; cases he)⟩
        · intro l k h1 h2
          rw [hg] at h1; cases h1
          obtain ⟨l', a, _, b⟩ := mem_add (x := i) (rfl : Detail.files l = .files l)
          exact ⟨l', a, b k h2⟩
  · rw [addMissing, if_neg hc]
    exact ⟨h, .refl s⟩

end Verif.Vfs
