import Verif.Vfs.RecoverySpec

/-! # Recovery: the open documents are carried over -/

namespace Verif.Vfs

/-- The documents that are open after carrying over files. -/
def addDocs (docs : Docs) : List RecoveryFile → Docs
  | [] => docs
  | f :: fs => addDocs (if f.isOpen then (fun q => if q = f.path then some f.text else docs q) else docs) fs

theorem at_setIndex_of_ne {s : Vfs} (hb : Base (fun _ => False) s) {p q : Path} {e : Nat} (ht : treeGet s.tree p = some (.file e)) (hi : s.index e = none) (hpq : q ≠ p)
    (x : FileState) {i : Nat} (h : At { s.setIndexIfNone e s.files.length with files := s.files ++ [x] } q i) : At s q i := by
  obtain ⟨e', h1, h2⟩ := h
  have h1' : treeGet s.tree q = some (.file e') := h1
  have h2' : (s.setIndexIfNone e s.files.length).index e' = some i := h2
  have he : e < s.entries.length := hb.wf.node _ (mem_of_treeGet ht) e rfl
  rw [index_setIndexIfNone _ _ _ _ he] at h2'
  by_cases hee : e = e'
  · subst hee
    exact absurd (hb.entryUniq q p e h1' ht) hpq
  · rw [if_neg hee] at h2'
    exact ⟨e', h1', h2'⟩

/-- A file that is added with its text. -/
def added (s : Vfs) (p : Path) (e : Nat) (text : Option String) : Vfs :=
  { s.setIndexIfNone e s.files.length with files := s.files ++ [⟨some p, e, text⟩] }

theorem added_file {s : Vfs} {p : Path} {e : Nat} {text : Option String} {k : Nat} {f : FileState} (hk : k ≠ s.files.length)
    (h : (added s p e text).files[k]? = some f) : s.files[k]? = some f := by
  have a1 : (s.files ++ [(⟨some p, e, text⟩ : FileState)])[k]? = some f := h
  have hlt : k < (s.files ++ [(⟨some p, e, text⟩ : FileState)]).length := (List.getElem?_eq_some_iff.mp a1).1
  have hlt' : k < s.files.length := by simp at hlt; omega
  rw [List.getElem?_append_left hlt'] at a1
  exact a1

theorem addedOpen_inv {docs : Docs} {d : Disk} {s : Vfs} {p : Path} {text : String} {e : Nat} (h : Inv docs d s)
    (ht : treeGet s.tree p = some (.file e)) (hi : s.index e = none) :
    Inv (fun q => if q = p then some text else docs q) d ((added s p e (some text)).memSet p s.files.length) := by
  have he : e < s.entries.length := h.base.wf.node _ (mem_of_treeGet ht) e rfl
  have hb2 := base_newFile (text := some text) h.base (e := e) ht hi
  have hat2 := at_new (s := s) ht he hi ⟨some p, e, some text⟩
  have hb3 := base_memSet hb2 (hat2.path hb2)
  refine inv_stored (i := s.files.length) hb3 hat2 ?_ ?_ ?_ ?_
  · rw [memGet_set, if_pos rfl]
  · have := code_append s e ⟨some p, e, some text⟩ s.files.length
    rw [if_pos rfl] at this
    exact this
  · intro k f q c hk a1 a2 a3
    exact h.texts k f q c (added_file hk a1) a2 a3
  · intro q hq
    rw [memGet_set, if_neg (fun h => hq h.symm)]
    refine ⟨fun t htq => ?_, (h.opened q).2⟩
    obtain ⟨j, b1, b2⟩ := (h.opened q).1 t htq
    refine ⟨j, b1, ?_⟩
    have hj := h.base.wf.mem _ (memGet_mem b1)
    have := code_append s e ⟨some p, e, some text⟩ j
    rw [if_neg (Nat.ne_of_lt hj)] at this
    exact this.trans b2

theorem addedRead_inv {docs : Docs} {d : Disk} {s : Vfs} {p : Path} {text : String} {e : Nat} (h : Inv docs d s)
    (ht : treeGet s.tree p = some (.file e)) (hi : s.index e = none) (hex : expected docs d p = some text) :
    Inv docs d (added s p e (some text)) := by
  refine inv_loaded (i := s.files.length) (p := p) (text := text) h (base_newFile (text := some text) h.base (e := e) ht hi) rfl ?_ ?_ ?_ hex
  · intro k hk
    refine ⟨?_, fun f c a _ => added_file hk a⟩
    have := code_append s e ⟨some p, e, some text⟩ k
    rw [if_neg hk] at this
    exact this
  · rw [Vfs.code, List.getElem?_eq_none (Nat.le_refl _)]
  · refine ⟨⟨some p, e, some text⟩, ?_, rfl, rfl⟩
    show (s.files ++ [_])[s.files.length]? = _
    simp

theorem addedUnread_inv {docs : Docs} {d : Disk} {s : Vfs} {p : Path} {e : Nat} (h : Inv docs d s)
    (ht : treeGet s.tree p = some (.file e)) (hi : s.index e = none) :
    Inv docs d (added s p e none) := by
  refine ⟨base_newFile (text := none) h.base (e := e) ht hi, ?_, ?_⟩
  · intro k f q c a1 a2 a3
    by_cases hk : k = s.files.length
    · subst hk
      have a1' : (s.files ++ [(⟨some p, e, none⟩ : FileState)])[s.files.length]? = some f := a1
      simp at a1'
      subst a1'
      cases a3
    · exact h.texts k f q c (added_file hk a1) a2 a3
  · intro q
    refine ⟨fun t htq => ?_, (h.opened q).2⟩
    obtain ⟨j, b1, b2⟩ := (h.opened q).1 t htq
    refine ⟨j, b1, ?_⟩
    have hj := h.base.wf.mem _ (memGet_mem b1)
    have := code_append s e ⟨some p, e, none⟩ j
    rw [if_neg (Nat.ne_of_lt hj)] at this
    exact this.trans b2

theorem Extends.at_back {s s' : Vfs} (h : Extends s s') {q : Path} {i : Nat} (ha : At s' q i) : At s q i := by
  obtain ⟨e, a, b⟩ := ha
  rw [h.idx] at b
  rcases h.fresh q e a with c | c
  · exact ⟨e, c, b⟩
  · rw [c] at b; cases b

theorem loadRecovery_inv (d : Disk) : ∀ (fs : List RecoveryFile) (docs : Docs) (s s' : Vfs), Inv docs d s →
    (∀ f ∈ fs, f.invalidatesDb = false) → (fs.map (·.path)).Nodup → (∀ f ∈ fs, (∀ i, ¬ At s f.path i) ∧ docs f.path = none) →
    (∀ f ∈ fs, f.isOpen = false → diskText d f.path = some f.text) → loadRecovery d fs s = .ok s' → Inv (addDocs docs fs) d s' := by
  intro fs
  induction fs with
  | nil => intro docs s s' h _ _ _ _ hok; rw [loadRecovery] at hok; cases hok; exact h
  | cons f fs ih =>
    intro docs s s' h hdb hnd hfree hdisk hok
    rw [loadRecovery] at hok
    cases h1 : ensureFile d f.path s with
    | error x => rw [h1] at hok; cases hok
    | ok v =>
      obtain ⟨e, inv, s1⟩ := v
      rw [h1] at hok
      simp only [hdb f (List.mem_cons_self ..), Bool.false_and, Bool.false_eq_true, if_false] at hok
      obtain ⟨hb1, hx1, ht1, _⟩ := ensureFile_spec h.base h1
      have hi1 : Inv docs d s1 := h.extends hb1 hx1
      have hno := hfree f (List.mem_cons_self ..)
      have hidx : s1.index e = none := by
        cases hc : s1.index e with
        | none => rfl
        | some i => exact absurd (hx1.at_back ⟨e, ht1, hc⟩) (hno.1 i)
      rw [withAddedFile_new hidx] at hok
      have hnd' : (fs.map (·.path)).Nodup := (List.nodup_cons.mp hnd).2
      have hne : ∀ g ∈ fs, g.path ≠ f.path := by
        intro g hg heq
        exact (List.nodup_cons.mp hnd).1 (List.mem_map.mpr ⟨g, hg, heq⟩)
      have hat : ∀ g ∈ fs, ∀ i, ¬ At (added s1 f.path e (some f.text)) g.path i := by
        intro g hg i ha
        exact (hfree g (List.mem_cons_of_mem _ hg)).1 i (hx1.at_back (at_setIndex_of_ne hb1 ht1 hidx (hne g hg) _ ha))
      rw [addDocs]
      have hdb' := fun g (hg : g ∈ fs) => hdb g (List.mem_cons_of_mem _ hg)
      have hdisk' := fun g (hg : g ∈ fs) => hdisk g (List.mem_cons_of_mem _ hg)
      cases ho : f.isOpen with
      | true =>
        simp only [ho, if_true] at hok
        rw [if_pos rfl]
        refine ih _ _ _ (addedOpen_inv hi1 ht1 hidx) hdb' hnd' ?_ hdisk' hok
        intro g hg
        refine ⟨hat g hg, ?_⟩
        show (if g.path = f.path then _ else _) = _
        rw [if_neg (hne g hg)]
        exact (hfree g (List.mem_cons_of_mem _ hg)).2
      | false =>
        simp only [ho, Bool.false_eq_true, if_false] at hok
        rw [if_neg (by simp)]
        refine ih _ _ _ (addedRead_inv hi1 ht1 hidx ?_) hdb' hnd' ?_ hdisk' hok
        · rw [expected_none hno.2]
          exact hdisk f (List.mem_cons_self ..) ho
        · intro g hg
          exact ⟨hat g hg, (hfree g (List.mem_cons_of_mem _ hg)).2⟩

/-! ## The files of a project -/

theorem mem_intoRecovery {s : Vfs} {r : RecoveryFile} (h : r ∈ intoRecovery s) :
    ∃ i : Nat, ∃ f : FileState, s.files[i]? = some f ∧ f.path = some r.path ∧ f.code = some r.text ∧ r.isOpen = s.isOpen (some r.path) ∧
      r.invalidatesDb = (s.inv f.entry == .invalidatesDb) := by
  obtain ⟨f, hf, hr⟩ := List.mem_filterMap.mp h
  obtain ⟨i, hi⟩ := List.mem_iff_getElem?.mp hf
  cases hp : f.path with
  | none => rw [hp] at hr; cases hr
  | some p =>
    cases hc : f.code with
    | none => rw [hp, hc] at hr; cases hr
    | some t =>
      rw [hp, hc] at hr
      cases hr
      exact ⟨i, f, hi, hp, hc, rfl, rfl⟩

/-- The list of the files that are carried over has every path once. -/
theorem nodup_recovery (g : FileState → Option RecoveryFile) (hg : ∀ f r, g f = some r → f.path = some r.path ∧ f.code = some r.text) :
    ∀ (l : List FileState),
    (∀ (i j : Nat) (f f' : FileState) p c c', l[i]? = some f → l[j]? = some f' → f.path = some p → f'.path = some p → f.code = some c → f'.code = some c' → i = j) →
    ((l.filterMap g).map (·.path)).Nodup := by
  intro l
  induction l with
  | nil => intro _; simp
  | cons x l ih =>
    intro h
    have h' := ih (fun i j f f' p c c' a1 a2 a3 a4 a5 a6 => by
      have := h (i + 1) (j + 1) f f' p c c' (by simpa using a1) (by simpa using a2) a3 a4 a5 a6
      omega)
    rw [List.filterMap_cons]
    cases hx : g x with
    | none => exact h'
    | some r =>
      simp only [List.map_cons, List.nodup_cons]
      refine ⟨?_, h'⟩
      intro hm
      obtain ⟨r', hr', heq⟩ := List.mem_map.mp hm
      obtain ⟨f', hf', hgf⟩ := List.mem_filterMap.mp hr'
      obtain ⟨j, hj⟩ := List.mem_iff_getElem?.mp hf'
      obtain ⟨a1, a2⟩ := hg _ _ hx
      obtain ⟨b1, b2⟩ := hg _ _ hgf
      have := h 0 (j + 1) x f' r.path _ _ (by simp) (by simpa using hj) a1 (by rw [b1, heq]) a2 b2
      omega

theorem recovery_nodup {docs : Docs} {d : Disk} {s : Vfs} (h : Inv docs d s) : ((intoRecovery s).map (·.path)).Nodup := by
  refine nodup_recovery _ ?_ s.files ?_
  · intro f r hr
    cases hp : f.path with
    | none => simp [hp] at hr
    | some p =>
      cases hc : f.code with
      | none => simp [hp, hc] at hr
      | some t =>
        simp only [hp, hc, Option.some.injEq] at hr
        cases hr
        exact ⟨rfl, rfl⟩
  · intro i j f f' p c c' a1 a2 a3 a4 a5 a6
    exact (loadedAt' h.base a1 a3 a5).unique (loadedAt' h.base a2 a4 a6)

theorem start_files (d : Disk) : (Vfs.start d).files = [] := by
  have hm : ∀ (d : Disk) (s : Vfs), (d.foldl (readChild []) s).files = s.files := by
    intro d
    induction d with
    | nil => intro s; rfl
    | cons x d ih =>
      intro s
      rw [List.foldl_cons, ih, readChild]
      split
      · cases x.2 <;> rfl
      · rfl
  rw [Vfs.start, hm]

theorem addDocs_spec : ∀ (fs : List RecoveryFile) (docs : Docs) (p : Path), (fs.map (·.path)).Nodup →
    ((∀ f ∈ fs, f.path = p → f.isOpen = true → addDocs docs fs p = some f.text) ∧ ((∀ f ∈ fs, f.path = p → f.isOpen = false) → addDocs docs fs p = docs p)) := by
  intro fs
  induction fs with
  | nil => intro docs p _; exact ⟨(fun f hf => by simp at hf), fun _ => rfl⟩
  | cons x fs ih =>
    intro docs p hnd
    obtain ⟨hx, hnd'⟩ := List.nodup_cons.mp hnd
    have hne : ∀ g ∈ fs, g.path ≠ x.path := fun g hg heq => hx (List.mem_map.mpr ⟨g, hg, heq⟩)
    rw [addDocs]
    refine ⟨?_, ?_⟩
    · intro f hf hp ho
      rcases List.mem_cons.mp hf with rfl | hf
      · rw [(ih _ p hnd').2 (fun g hg hgp => absurd (hgp.trans hp.symm) (hne g hg)), ho, if_pos rfl, if_pos hp.symm]
      · exact (ih _ p hnd').1 f hf hp ho
    · intro hall
      rw [(ih _ p hnd').2 (fun g hg hgp => hall g (List.mem_cons_of_mem _ hg) hgp)]
      cases ho : x.isOpen with
      | false => rfl
      | true =>
        rw [if_pos rfl, if_neg]
        intro heq
        have := hall x (List.mem_cons_self ..) heq.symm
        rw [ho] at this
        cases this

theorem isOpen_of_docs {docs : Docs} {d : Disk} {s : Vfs} (h : Inv docs d s) (p : Path) : s.isOpen (some p) = (docs p).isSome := by
  cases hd : docs p with
  | none => exact memGet_none.mp ((h.opened p).2 hd)
  | some t =>
    obtain ⟨i, h1, _⟩ := (h.opened p).1 t hd
    cases ho : s.isOpen (some p) with
    | true => rfl
    | false => rw [memGet_none.mpr ho] at h1; cases h1

theorem addDocs_recovery {docs : Docs} {d : Disk} {s : Vfs} (h : Inv docs d s) : addDocs (fun _ => none) (intoRecovery s) = docs := by
  funext p
  have hs := addDocs_spec (intoRecovery s) (fun _ => none) p (recovery_nodup h)
  cases hd : docs p with
  | none =>
    refine hs.2 ?_
    intro f hf hfp
    obtain ⟨i, g, _, _, _, ho, _⟩ := mem_intoRecovery hf
    rw [ho, isOpen_of_docs h, hfp, hd]; rfl
  | some t =>
    obtain ⟨i, h1, h2⟩ := (h.opened p).1 t hd
    obtain ⟨f, hf, hc⟩ := code_some h2
    obtain ⟨f', hf', hp'⟩ := h.base.memPath p i (memGet_mem h1)
    rw [hf] at hf'; cases hf'
    have hm : (⟨p, t, s.inv f.entry == .invalidatesDb, s.isOpen (some p)⟩ : RecoveryFile) ∈ intoRecovery s := by
      refine List.mem_filterMap.mpr ⟨f, List.mem_of_getElem? hf, ?_⟩
      simp only [hp', hc]
    refine hs.1 _ hm rfl ?_
    show s.isOpen (some p) = true
    rw [isOpen_of_docs h, hd]; rfl

theorem recover_inv {docs : Docs} {d : Disk} {s s' : Vfs} (h : Inv docs d s) (hok : recover d s = .ok s') : Inv docs d s' := by
  have := loadRecovery_inv d (intoRecovery s) _ _ s' (start_inv d) ?_ (recovery_nodup h) ?_ ?_ hok
  · rw [addDocs_recovery h] at this; exact this
  · intro f hf
    obtain ⟨i, g, _, _, _, _, hi⟩ := mem_intoRecovery hf
    rw [hi]
    simpa using h.base.noDb g.entry
  · intro f hf
    refine ⟨?_, rfl⟩
    intro i ha
    obtain ⟨g, hg, _⟩ := ha.path (start_inv d).base
    rw [start_files] at hg
    simp at hg
  · intro f hf ho
    obtain ⟨i, g, h1, h2, h3, h4, _⟩ := mem_intoRecovery hf
    have := h.texts i g f.path f.text h1 h2 h3
    rw [expected_none] at this
    · exact this
    · rw [h4, isOpen_of_docs h] at ho
      cases hd : docs f.path with
      | none => rfl
      | some t => rw [hd] at ho; cases ho

theorem Inv.hooks {docs : Docs} {d : Disk} {s : Vfs} (h : Inv docs d s) (l : List Path) : Inv docs d { s with hooks := l } :=
  h.same ⟨⟨h.base.wf.entry, h.base.wf.index, h.base.wf.dependents, h.base.wf.missing, h.base.wf.node, h.base.wf.mem⟩, h.base.noDb, h.base.noDbMissing, h.base.closed,
    h.base.entryPath, h.base.entryUniq, h.base.loadedAt, h.base.memPath, h.base.memUniq⟩ rfl rfl

theorem restart_inv {docs : Docs} {d : Disk} {s s' : Vfs} (h : Inv docs d s) (hok : restart d s = .ok s') :
    Inv docs d s' ∧ ∀ p t, docs p = some t → p ∈ s'.hooks := by
  rw [restart] at hok
  cases h1 : recover d s with
  | error x => rw [h1] at hok; cases hok
  | ok s1 =>
    rw [h1] at hok
    cases hok
    refine ⟨(recover_inv h h1).hooks _, ?_⟩
    intro p t hp
    refine List.mem_append_left _ (List.mem_filterMap.mpr ?_)
    obtain ⟨i, a1, _⟩ := (h.opened p).1 t hp
    obtain ⟨f, hf, hfp⟩ := h.base.memPath p i (memGet_mem a1)
    refine ⟨f, List.mem_of_getElem? hf, ?_⟩
    simp only [hfp, isOpen_of_docs h, hp, Option.isSome_some, if_true]

end Verif.Vfs
