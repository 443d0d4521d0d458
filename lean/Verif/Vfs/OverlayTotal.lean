import Verif.Vfs.OverlayProps

/-! # The overlay: histories without a crash -/

namespace Verif.Vfs

/-- Every node of the tree is where nodes of its kind may be. -/
def KindsOk (K : Path → Prop) (s : Vfs) : Prop :=
  ∀ q n, treeGet s.tree q = some n → (∀ e, n = .file e → ¬ K q) ∧ (∀ b, n = .dir b → K q)

theorem kinds_tree {K} {s s' : Vfs} (h : KindsOk K s) (ht : s'.tree = s.tree) : KindsOk K s' := by
  intro q n hq; rw [ht] at hq; exact h q n hq

theorem kinds_set {K} {s : Vfs} (h : KindsOk K s) {p : Path} {n : Node} (hn : (∀ e, n = .file e → ¬ K p) ∧ (∀ b, n = .dir b → K p)) :
    KindsOk K { s with tree := treeSet s.tree p n } := by
  intro q m hq
  have hq' : treeGet (treeSet s.tree p n) q = some m := hq
  rw [treeGet_set] at hq'
  split at hq'
  · rename_i hpq; subst hpq; cases hq'; exact hn
  · exact h q m hq'

theorem kinds_remove {K} {s : Vfs} (h : KindsOk K s) (p : Path) : KindsOk K { s with tree := treeRemove s.tree p } :=
  fun q n hq => h q n (treeGet_remove_some hq).2

theorem kinds_addEntry {K} {s : Vfs} (h : KindsOk K s) {p : Path} (hp : ¬ K p) : KindsOk K (s.addEntry p) := by
  have := kinds_set (p := p) (n := .file s.entries.length) h ⟨(fun _ _ => hp), (fun _ hb => by cases hb)⟩
  exact kinds_tree this rfl

theorem kinds_readChildren {K} (p : Path) : ∀ (d : Disk), DiskKinds K d → ∀ (s : Vfs), KindsOk K s → KindsOk K (d.foldl (readChild p) s) := by
  intro d
  induction d with
  | nil => intro _ s h; exact h
  | cons x d ih =>
    intro hd s h
    rw [List.foldl_cons]
    refine ih (fun y hy => hd y (List.mem_cons_of_mem _ hy)) _ ?_
    rw [readChild]
    have hx := hd x (List.mem_cons_self ..)
    split
    · cases hn : x.2 with
      | file t => exact kinds_addEntry h (hx.1 ⟨t, hn⟩)
      | dir => exact kinds_set h ⟨(fun _ he => by cases he), (fun _ _ => hx.2 hn)⟩
    · exact h

theorem kinds_readDir {K} {d : Disk} (hd : DiskKinds K d) {p : Path} (hp : K p) {s : Vfs} (h : KindsOk K s) : KindsOk K (readDir d p s) :=
  kinds_readChildren p d hd _ (kinds_set h ⟨(fun _ he => by cases he), (fun _ _ => hp)⟩)

theorem ensure_total {K} {d : Disk} (hd : DiskKinds K d) : ∀ (rest : List String) (base : Path) (s : Vfs), KindsOk K s → rest ≠ [] → ¬ K (base ++ rest) →
    (∀ q, base <+: q → q ≠ base → q <+: base ++ rest → q ≠ base ++ rest → K q) →
    ∃ e inv s', ensureDirsAndFile d base rest s = .ok (e, inv, s') ∧ KindsOk K s' := by
  intro rest
  induction rest with
  | nil => intro base s _ h; exact absurd rfl h
  | cons name rest ih =>
    intro base s h _ hk hpre
    cases rest with
    | nil =>
      rw [ensureDirsAndFile, ensureFileIn]
      cases hg : treeGet s.tree (base ++ [name]) with
      | none => exact ⟨_, _, _, rfl, kinds_addEntry h hk⟩
      | some n =>
        cases n with
        | file e => exact ⟨_, _, _, rfl, h⟩
        | missing m => exact ⟨_, _, _, rfl, kinds_addEntry h hk⟩
        | dir b => exact absurd ((h _ _ hg).2 b rfl) hk
    | cons next more =>
      have happ : base ++ name :: next :: more = (base ++ [name]) ++ next :: more := by simp
      have hdir := hpre (base ++ [name]) (List.prefix_append _ _) (by simp) ⟨next :: more, by simp⟩ (by simp)
      have hpre' : ∀ q, base ++ [name] <+: q → q ≠ base ++ [name] → q <+: base ++ [name] ++ next :: more → q ≠ base ++ [name] ++ next :: more → K q := by
        intro q h1 h2 h3 h4
        refine hpre q ((List.prefix_append _ _).trans h1) ?_ (by rw [happ]; exact h3) (by rw [happ]; exact h4)
        rintro rfl
        have := h1.length_le
        simp at this
        omega
      rw [happ] at hk
      obtain ⟨e1, i1, s1, hok1, hk1⟩ := ih (base ++ [name]) s h (by simp) hk hpre'
      obtain ⟨e2, i2, s2, hok2, hk2⟩ := ih (base ++ [name]) (readDir d (base ++ [name]) s) (kinds_readDir hd hdir h) (by simp) hk hpre'
      rw [ensureDirsAndFile]
      cases hg : treeGet s.tree (base ++ [name]) with
      | none => exact ⟨_, _, _, hok2, hk2⟩
      | some n =>
        cases n with
        | file e => exact absurd hdir ((h _ _ hg).1 e rfl)
        | dir b =>
          cases b with
          | true => exact ⟨_, _, _, hok1, hk1⟩
          | false => exact ⟨_, _, _, hok2, hk2⟩
        | missing m =>
          dsimp only
          rw [hok2]
          exact ⟨_, _, _, rfl, hk2⟩

theorem ensureFile_total {K} {d : Disk} (hd : DiskKinds K d) {s : Vfs} (h : KindsOk K s) {p : Path} (hp : DocPath K p) :
    ∃ e inv s', ensureFile d p s = .ok (e, inv, s') ∧ KindsOk K s' :=
  ensure_total hd p [] s h hp.1 hp.2.1 (fun q _ a b c => hp.2.2 q a b c)

theorem findFile_kinds {K} {d : Disk} (hd : DiskKinds K d) : ∀ (rest : List String) (base : Path) (s : Vfs), KindsOk K s →
    KindsOk K (findFile d base rest s).2 := by
  intro rest
  induction rest with
  | nil => intro base s h; rw [findFile]; exact h
  | cons name rest ih =>
    intro base s h
    cases rest with
    | nil =>
      rw [findFile]
      cases treeGet s.tree (base ++ [name]) with
      | none => exact h
      | some n => cases n <;> exact h
    | cons next more =>
      rw [findFile]
      cases hg : treeGet s.tree (base ++ [name]) with
      | none => exact h
      | some n =>
        cases n with
        | file e => exact h
        | missing m => exact h
        | dir b =>
          cases b with
          | true => exact ih _ s h
          | false => exact ih _ _ (kinds_readDir hd ((h _ _ hg).2 false rfl) h)

theorem invalidateAndUnload_total {s : Vfs} (hw : WellFormed s) {i : Nat} (hi : i < s.files.length) : ∃ r s', invalidateAndUnload i s = .ok (r, s') := by
  obtain ⟨r, s', h, _⟩ := edit_invalidates_dependents s hw i hi
  exact ⟨r, s', h⟩

theorem invalidateFile_total {s : Vfs} (hw : WellFormed s) (orig : Option Nat) {i : Nat} (hi : i < s.files.length) :
    ∃ r s', invalidateFile orig i s = .ok (r, s') :=
  byIndex_total orig (s.entries.length + 1) i s hw.bounded hi (Nat.lt_succ_of_le (work_le s))

theorem invalidateFiles_total' {s : Vfs} (hw : WellFormed s) (orig : Option Nat) {d : Detail} (hd : InvOk s d) :
    ∃ r s', invalidateFiles orig d s = .ok (r, s') := by
  obtain ⟨l, rfl, hl⟩ := hd
  exact invalidateFiles_total hw.bounded hl

/-- Kinds, for the tree and for the open documents. -/
structure Tidy (K : Path → Prop) (s : Vfs) : Prop where
  kinds : KindsOk K s
  docs : ∀ m ∈ s.mem, DocPath K m.1

theorem Shrinks.tidy {K} {s s' : Vfs} (h : Shrinks s s') (ht : Tidy K s) : Tidy K s' :=
  ⟨kinds_tree ht.kinds h.tree, by rw [h.mem]; exact ht.docs⟩

theorem storeExisting_total {K} {s : Vfs} {p : Path} {e i : Nat} {inv : Detail} (text : String)
    (hb : Base (fun _ => False) s) (he : treeGet s.tree p = some (.file e)) (ha : At s p i) (hd : InvOk s inv) (ht : Tidy K s) :
    ∃ r s', storeExisting p text e inv i s = .ok (r, s') ∧ Tidy K s' := by
  rw [storeExisting]
  split
  · exact ⟨_, _, rfl, ht⟩
  · obtain ⟨f, hf, _⟩ := ha.path hb
    obtain ⟨r, s1, h1⟩ := invalidateAndUnload_total hb.wf (List.getElem?_eq_some_iff.mp hf).1
    obtain ⟨rfl, hsh, hfiles⟩ := invalidateAndUnload_spec hb h1
    have hb1 := hsh.base hb
    have ha1 : At s1 p i := hsh.at.mpr ha
    have hlen : e < s1.entries.length := by rw [hsh.len]; exact hb.wf.node _ (mem_of_treeGet he) e rfl
    have hb3 := base_setFile (text := some text) hb1 ha1 hlen
    have hd3 : InvOk { s1 with files := s1.files.set i ⟨some p, e, some text⟩ } inv := by
      obtain ⟨l, rfl, hl⟩ := hd
      refine ⟨l, rfl, fun k hk => ?_⟩
      show k < (s1.files.set i _).length
      rw [List.length_set, hsh.flen]; exact hl k hk
    obtain ⟨r2, s4, h2⟩ := invalidateFiles_total' hb3.wf (some i) hd3
    obtain ⟨rfl, hsh2, _⟩ := invalidateFiles_spec hb3 hd3 h2
    rw [h1]
    simp only [if_neg (show ¬ (Res.files = Res.db) by intro h; cases h)]
    rw [h2]
    refine ⟨_, _, rfl, hsh2.tidy ⟨?_, ?_⟩⟩
    · exact kinds_tree (hsh.tidy ht).kinds rfl
    · exact (hsh.tidy ht).docs

theorem store_total {K} {docs : Docs} {d : Disk} {s : Vfs} {p : Path} (text : String) (h : Inv docs d s) (hd : DiskKinds K d) (ht : Tidy K s)
    (hp : DocPath K p) : ∃ r s', store d p text s = .ok (r, s') ∧ Tidy K s' := by
  obtain ⟨e, inv, s1, h1, hk1⟩ := ensureFile_total hd ht.kinds hp
  obtain ⟨hb1, hx1, ht1, hd1⟩ := ensureFile_spec h.base h1
  have hi1 : Inv docs d s1 := h.extends hb1 hx1
  have hd1' : InvOk s1 inv := by
    obtain ⟨l, rfl, hl⟩ := hd1
    exact ⟨l, rfl, by rw [hx1.files]; exact hl⟩
  have htidy1 : Tidy K s1 := ⟨hk1, by rw [hx1.mem]; exact ht.docs⟩
  rw [store, h1]
  dsimp only
  cases hm : s1.memGet p with
  | some i =>
    have hdoc : ∃ t, docs p = some t := by
      cases hdp : docs p with
      | none => rw [(hi1.opened p).2 hdp] at hm; cases hm
      | some t => exact ⟨t, rfl⟩
    obtain ⟨t, hdp⟩ := hdoc
    obtain ⟨j, hj, _, hat⟩ := open_at hi1 hdp
    rw [hm] at hj; cases hj
    exact storeExisting_total (s := s1.hook p) text (base_hook hb1 p) ht1 hat hd1' ⟨kinds_tree hk1 rfl, htidy1.docs⟩
  | none =>
    dsimp only
    have hmem : ∀ i, ∀ m ∈ (s1.memSet p i).mem, DocPath K m.1 := by
      intro i m hmm
      rcases List.mem_cons.mp hmm with rfl | hmm
      · exact hp
      · exact htidy1.docs m (List.mem_filter.mp hmm).1
    cases hi : s1.index e with
    | some i =>
      have hat : At s1 p i := ⟨e, ht1, hi⟩
      exact storeExisting_total (s := (s1.memSet p i).hook p) text (base_hook (base_memSet hb1 (hat.path hb1)) p) ht1 hat hd1'
        ⟨kinds_tree hk1 rfl, hmem i⟩
    | none =>
      have hih : (s1.hook p).index e = none := hi
      simp only [withAddedFile_new hih]
      have he : e < s1.entries.length := hb1.wf.node _ (mem_of_treeGet ht1) e rfl
      have hb2 := base_newFile (text := some text) (base_hook hb1 p) (e := e) ht1 hih
      have hat2 := at_new (s := s1.hook p) ht1 he hih ⟨some p, e, some text⟩
      have hb3 := base_memSet hb2 (hat2.path hb2)
      have hd3 : InvOk (Vfs.memSet { (s1.hook p).setIndexIfNone e (s1.hook p).files.length with
          files := (s1.hook p).files ++ [⟨some p, e, some text⟩] } p (s1.hook p).files.length) inv := by
        obtain ⟨l, rfl, hl⟩ := hd1'
        refine ⟨l, rfl, fun k hk => ?_⟩
        show k < (s1.files ++ [_]).length
        have := hl k hk
        simp
        omega
      obtain ⟨r2, s4, h2⟩ := invalidateFiles_total' hb3.wf (some (s1.hook p).files.length) hd3
      obtain ⟨rfl, hsh2, _⟩ := invalidateFiles_spec hb3 hd3 h2
      exact ⟨_, _, h2, hsh2.tidy ⟨kinds_tree hk1 rfl, hmem s1.files.length⟩⟩

theorem close_total {K} {docs : Docs} {d : Disk} {s : Vfs} (p : Path) (h : Inv docs d s) (ht : Tidy K s) :
    ∃ r s', close d p s = .ok (r, s') ∧ Tidy K s' := by
  rw [close]
  cases hm : s.memGet p with
  | none => exact ⟨_, _, rfl, ht⟩
  | some i =>
    dsimp only
    obtain ⟨fi, hfi, hpi⟩ := h.base.memPath p i (memGet_mem hm)
    have hlt : i < s.files.length := (List.getElem?_eq_some_iff.mp hfi).1
    have hb1 := base_memFilter h.base p
    have htidy1 : Tidy K { s with mem := s.mem.filter (fun m => m.1 != p) } :=
      ⟨kinds_tree ht.kinds rfl, fun m hm => ht.docs m (List.mem_filter.mp hm).1⟩
    cases hd : diskText d p with
    | some text =>
      dsimp only
      split
      · exact ⟨_, _, rfl, htidy1⟩
      · obtain ⟨r, s1, h1⟩ := invalidateAndUnload_total hb1.wf (i := i) hlt
        obtain ⟨rfl, hsh, _⟩ := invalidateAndUnload_spec hb1 h1
        rw [updateFile, h1]
        exact ⟨_, _, rfl, kinds_tree (hsh.tidy htidy1).kinds rfl, (hsh.tidy htidy1).docs⟩
    | none =>
      simp only [hfi, hpi]
      have hbX : Base (fun _ => True) (unloadTree p { s with mem := s.mem.filter (fun m => m.1 != p) }) := by
        rw [unloadTree]
        split
        · exact base_remove hb1 p (fun _ _ => trivial) (fun _ _ _ _ => trivial)
        · exact hb1.weaken (fun _ _ => trivial)
      have htidy2 : Tidy K (unloadTree p { s with mem := s.mem.filter (fun m => m.1 != p) }) := by
        rw [unloadTree]
        split
        · exact ⟨kinds_remove htidy1.kinds p, htidy1.docs⟩
        · exact htidy1
      have hlt2 : i < (unloadTree p { s with mem := s.mem.filter (fun m => m.1 != p) }).files.length := by
        rw [unloadTree]
        split <;> exact hlt
      obtain ⟨r, s1, h1⟩ := invalidateAndUnload_total hbX.wf hlt2
      obtain ⟨rfl, hsh, _⟩ := invalidateAndUnload_spec hbX h1
      exact ⟨_, _, h1, hsh.tidy htidy2⟩

theorem load_tree (d : Disk) (p : Path) (s : Vfs) : (load d p s).2.tree = (findFile d [] p s).2.tree ∧ (load d p s).2.mem = (findFile d [] p s).2.mem := by
  rw [load]
  cases findFile d [] p s with
  | mk o s1 =>
    cases o with
    | none => exact ⟨rfl, rfl⟩
    | some e =>
      dsimp only
      cases hi : s1.index e with
      | some i =>
        dsimp only
        cases s1.code i with
        | some c => exact ⟨rfl, rfl⟩
        | none => cases diskText d p <;> exact ⟨rfl, rfl⟩
      | none =>
        dsimp only
        cases diskText d p with
        | none => exact ⟨rfl, rfl⟩
        | some t => simp only [withAddedFile_new hi]; exact ⟨rfl, rfl⟩

theorem reserve_tree (d : Disk) (p : Path) (s : Vfs) : (reserve d p s).tree = (findFile d [] p s).2.tree ∧ (reserve d p s).mem = (findFile d [] p s).2.mem := by
  rw [reserve]
  cases findFile d [] p s with
  | mk o s1 =>
    cases o with
    | none => exact ⟨rfl, rfl⟩
    | some e =>
      dsimp only
      cases hi : s1.index e with
      | some i => exact ⟨rfl, rfl⟩
      | none => exact ⟨rfl, rfl⟩

theorem findFile_tidy {K} {docs : Docs} {d d1 : Disk} {s : Vfs} (p : Path) (h : Inv docs d1 s) (hd : DiskKinds K d) (ht : Tidy K s) :
    Tidy K (findFile d [] p s).2 := by
  obtain ⟨_, hx1, _⟩ := findFile_spec d p [] s h.base (.inl rfl) (by intro q h1 h2; exact absurd (List.prefix_nil.mp h2) h1)
  exact ⟨findFile_kinds hd p [] s ht.kinds, by rw [hx1.mem]; exact ht.docs⟩

theorem depend_tidy {K} {s : Vfs} (i : Nat) (p : Path) (ht : Tidy K s) : Tidy K (depend i p s) := by
  rw [depend]
  split
  · split
    · exact ⟨kinds_tree ht.kinds rfl, ht.docs⟩
    · exact ht
  · exact ht

theorem addMissing_tidy {K} {s : Vfs} (i : Nat) (p : Path) (ht : Tidy K s) : Tidy K (addMissing i p s) := by
  rw [addMissing]
  split
  · split
    · exact ⟨kinds_set ht.kinds ⟨(fun _ h => by cases h), (fun _ h => by cases h)⟩, ht.docs⟩
    · exact ⟨kinds_tree ht.kinds rfl, ht.docs⟩
    · exact ht
    · exact ⟨kinds_set ht.kinds ⟨(fun _ h => by cases h), (fun _ h => by cases h)⟩, ht.docs⟩
  · exact ht

theorem unloadAll_total {X} : ∀ (l : List Nat) (s : Vfs), Base X s → (∀ i ∈ l, i < s.files.length) → ∃ r s', unloadAll l s = .ok (r, s') := by
  intro l
  induction l with
  | nil => intro s _ _; exact ⟨_, _, rfl⟩
  | cons i l ih =>
    intro s hb hl
    obtain ⟨r, s1, h1⟩ := invalidateAndUnload_total hb.wf (hl i (List.mem_cons_self ..))
    obtain ⟨rfl, hsh, _⟩ := invalidateAndUnload_spec hb h1
    rw [unloadAll, h1]
    exact ih s1 (hsh.base hb) (fun k hk => by rw [hsh.flen]; exact hl k (List.mem_cons_of_mem _ hk))

theorem invalidateAll_total {X} : ∀ (l : List Nat) (s : Vfs), Base X s → (∀ i ∈ l, i < s.files.length) → ∃ r s', invalidateAll l s = .ok (r, s') := by
  intro l
  induction l with
  | nil => intro s _ _; exact ⟨_, _, rfl⟩
  | cons i l ih =>
    intro s hb hl
    obtain ⟨r, s1, h1⟩ := invalidateFile_total hb.wf none (hl i (List.mem_cons_self ..))
    obtain ⟨rfl, hsh, _⟩ := invalidateFile_spec hb h1
    rw [invalidateAll, h1]
    exact ih s1 (hsh.base hb) (fun k hk => by rw [hsh.flen]; exact hl k (List.mem_cons_of_mem _ hk))

theorem reopenAll_total {K} {d : Disk} (hd : DiskKinds K d) : ∀ (l : List (Path × Nat)) (s : Vfs), KindsOk K s → (∀ y ∈ l, DocPath K y.1) →
    ∃ s', reopenAll d l s = .ok s' ∧ KindsOk K s' := by
  intro l
  induction l with
  | nil => intro s h _; exact ⟨_, rfl, h⟩
  | cons y l ih =>
    intro s h hl
    obtain ⟨q, i⟩ := y
    obtain ⟨e, inv, s1, h1, hk1⟩ := ensureFile_total hd h (hl _ (List.mem_cons_self ..))
    rw [reopenAll, h1]
    exact ih _ (kinds_tree hk1 rfl) (fun y hy => hl y (List.mem_cons_of_mem _ hy))

theorem readDir_mem (d : Disk) (p : Path) (s : Vfs) : (readDir d p s).mem = s.mem := by
  have : ∀ (d : Disk) (s : Vfs), (d.foldl (readChild p) s).mem = s.mem := by
    intro d
    induction d with
    | nil => intro s; rfl
    | cons x d ih =>
      intro s
      rw [List.foldl_cons, ih, readChild]
      split
      · cases x.2 <;> rfl
      · rfl
  exact this d _

theorem ensure_mem (d : Disk) : ∀ (rest : List String) (base : Path) (s : Vfs) (e : Nat) (inv : Detail) (s' : Vfs),
    ensureDirsAndFile d base rest s = .ok (e, inv, s') → s'.mem = s.mem := by
  intro rest
  induction rest with
  | nil => intro base s e inv s' h; rw [ensureDirsAndFile] at h; cases h
  | cons name rest ih =>
    intro base s e inv s' h
    cases rest with
    | nil =>
      rw [ensureDirsAndFile, ensureFileIn] at h
      cases hg : treeGet s.tree (base ++ [name]) with
      | none => rw [hg] at h; cases h; rfl
      | some n => rw [hg] at h; cases n <;> cases h <;> rfl
    | cons next more =>
      rw [ensureDirsAndFile] at h
      cases hg : treeGet s.tree (base ++ [name]) with
      | none => rw [hg] at h; exact (ih _ _ _ _ _ h).trans (readDir_mem ..)
      | some n =>
        rw [hg] at h
        cases n with
        | file e => cases h
        | dir b =>
          cases b with
          | true => exact ih _ _ _ _ _ h
          | false => exact (ih _ _ _ _ _ h).trans (readDir_mem ..)
        | missing m =>
          dsimp only at h
          cases hr : ensureDirsAndFile d (base ++ [name]) (next :: more) (readDir d (base ++ [name]) s) with
          | error x => rw [hr] at h; cases h
          | ok v =>
            obtain ⟨e1, i1, s1⟩ := v
            rw [hr] at h
            cases h
            exact (ih _ _ _ _ _ hr).trans (readDir_mem ..)

theorem reopenAll_mem (d : Disk) : ∀ (l : List (Path × Nat)) (s s' : Vfs), reopenAll d l s = .ok s' → s'.mem = s.mem := by
  intro l
  induction l with
  | nil => intro s s' h; rw [reopenAll] at h; cases h; rfl
  | cons y l ih =>
    intro s s' h
    obtain ⟨q, i⟩ := y
    rw [reopenAll] at h
    cases h1 : ensureFile d q s with
    | error x => rw [h1] at h; cases h
    | ok v =>
      obtain ⟨e, inv, s1⟩ := v
      rw [h1] at h
      exact (ih _ _ h).trans (ensure_mem d q [] s e inv s1 h1)

theorem collectNode_invalid (s : Vfs) (c : Collected) (x : Path × Node) (i : Nat) (h : i ∈ (collectNode s c x).invalid) :
    i ∈ c.invalid ∨ (∃ e, s.index e = some i) ∨ ∃ l, x.2 = .missing (.files l) ∧ i ∈ l := by
  rw [collectNode] at h
  cases hx : x.2 with
  | file e =>
    rw [hx] at h
    dsimp only at h
    cases hi : s.index e with
    | none => rw [hi] at h; exact .inl h
    | some k =>
      rw [hi] at h
      dsimp only at h
      cases hm : s.mem.find? (fun m => m.2 == k) with
      | none => rw [hm] at h; exact .inl h
      | some m =>
        rw [hm] at h
        rcases List.mem_append.mp h with h | h
        · exact .inl h
        · rw [List.mem_singleton.mp h]; exact .inr (.inl ⟨e, hi⟩)
  | dir b => rw [hx] at h; exact .inl h
  | missing dd =>
    rw [hx] at h
    cases dd with
    | invalidatesDb => exact .inl h
    | files l =>
      rcases List.mem_append.mp h with h | h
      · exact .inl h
      · exact .inr (.inr ⟨l, rfl, h⟩)

theorem collect_invalid (s : Vfs) : ∀ (l : List (Path × Node)) (c : Collected) (i : Nat), i ∈ (l.foldl (collectNode s) c).invalid →
    i ∈ c.invalid ∨ (∃ e, s.index e = some i) ∨ ∃ x ∈ l, ∃ m, x.2 = .missing (.files m) ∧ i ∈ m := by
  intro l
  induction l with
  | nil => intro c i h; exact .inl h
  | cons x l ih =>
    intro c i h
    rw [List.foldl_cons] at h
    rcases ih _ i h with h | h | ⟨y, hy, h⟩
    · rcases collectNode_invalid s c x i h with h | h | h
      · exact .inl h
      · exact .inr (.inl h)
      · exact .inr (.inr ⟨x, List.mem_cons_self .., h⟩)
    · exact .inr (.inl h)
    · exact .inr (.inr ⟨y, List.mem_cons_of_mem _ hy, h⟩)

theorem collect_bounded {X} {s : Vfs} (h : Base X s) (p : Path) :
    (∀ i ∈ (collect s p).unloads, i < s.files.length) ∧ (∀ i ∈ (collect s p).invalid, i < s.files.length) := by
  constructor
  · intro i hi
    rcases ((collect_fold s (s.tree.filter (fun x => p.isPrefixOf x.1)) ⟨false, [], [], []⟩).1 i).mp hi with h' | ⟨x, _, e, _, h', _⟩
    · simp at h'
    · exact index_lt h h'
  · intro i hi
    rcases collect_invalid s _ _ i hi with h' | ⟨e, h'⟩ | ⟨x, hx, m, hm, h'⟩
    · simp at h'
    · exact index_lt h h'
    · exact h.wf.missing x (List.mem_filter.mp hx).1 m hm i h'

theorem diskGet_kind {K} {d : Disk} (hd : DiskKinds K d) {p : Path} {n : DiskNode} (h : diskGet d p = some n) :
    ((∃ t, n = .file t) → ¬ K p) ∧ (n = .dir → K p) := by
  rw [diskGet] at h
  obtain ⟨x, hx, rfl⟩ := Option.map_eq_some_iff.mp h
  have h1 := List.mem_of_find?_eq_some hx
  have h2 := List.find?_some hx
  have : x.1 = p := by simpa using h2
  rw [← this]; exact hd x h1

theorem insertRead_kinds {K} {d : Disk} (hd : DiskKinds K d) {p : Path} {n : DiskNode} (hn : diskGet d p = some n) {s : Vfs} (h : KindsOk K s) :
    KindsOk K (insertRead p n s) := by
  have hk := diskGet_kind hd hn
  cases n with
  | file t => exact kinds_addEntry h (hk.1 ⟨t, rfl⟩)
  | dir => exact kinds_set h ⟨(fun _ he => by cases he), (fun _ _ => hk.2 rfl)⟩

theorem replaceNode_spec {K} {docs : Docs} {d d' : Disk} {s : Vfs} {p : Path} (h : Inv docs d s) (hd : DiskKinds K d') (ht : Tidy K s) (hp : p ≠ [])
    (hpar : ParentsOk s p) :
    (∃ X, Base X (replaceNode d' p s).2) ∧ Tidy K (replaceNode d' p s).2 ∧ (replaceNode d' p s).2.files = s.files ∧
      ((replaceNode d' p s).1 = ⟨false, [], [], []⟩ ∨ (replaceNode d' p s).1 = collect s p) := by
  have hrm : Base (fun _ => True) { s with tree := treeRemove s.tree p } := base_remove h.base p (fun _ _ => trivial) (fun _ _ _ _ => trivial)
  have hrm_none : treeGet (treeRemove s.tree p) p = none := by rw [treeGet_remove, if_pos (List.prefix_refl p)]
  have hrm_par : ParentsOk { s with tree := treeRemove s.tree p } p := by
    intro q a b c
    show treeGet (treeRemove s.tree p) q = _
    rw [treeGet_remove, if_neg (fun hpq => c (b.eq_of_length (Nat.le_antisymm b.length_le hpq.length_le)))]
    exact hpar q a b c
  have hins : ∀ n, diskGet d' p = some n → (∃ X, Base X (insertRead p n { s with tree := treeRemove s.tree p })) ∧
      Tidy K (insertRead p n { s with tree := treeRemove s.tree p }) ∧ (insertRead p n { s with tree := treeRemove s.tree p }).files = s.files := by
    intro n hn
    obtain ⟨a, b⟩ := insertRead_spec hrm hrm_none hp hrm_par n
    exact ⟨⟨_, a⟩, ⟨insertRead_kinds hd hn (kinds_remove ht.kinds p), by rw [b.mem]; exact ht.docs⟩, b.files⟩
  have hsame : (∃ X, Base X s) ∧ Tidy K s ∧ s.files = s.files := ⟨⟨_, h.base⟩, ht, rfl⟩
  have hrem : (∃ X, Base X { s with tree := treeRemove s.tree p }) ∧ Tidy K { s with tree := treeRemove s.tree p } ∧ s.files = s.files :=
    ⟨⟨_, hrm⟩, ⟨kinds_remove ht.kinds p, ht.docs⟩, rfl⟩
  rw [replaceNode]
  cases hold : treeGet s.tree p with
  | none =>
    cases hnew : diskGet d' p with
    | none => exact ⟨hsame.1, hsame.2.1, rfl, .inl rfl⟩
    | some n =>
      obtain ⟨a, b⟩ := insertRead_spec h.base hold hp hpar n
      exact ⟨⟨_, a⟩, ⟨insertRead_kinds hd hnew ht.kinds, by rw [b.mem]; exact ht.docs⟩, b.files, .inl rfl⟩
  | some old =>
    cases hnew : diskGet d' p with
    | none =>
      cases old with
      | missing m => exact ⟨hsame.1, hsame.2.1, rfl, .inl rfl⟩
      | file e => exact ⟨hrem.1, hrem.2.1, rfl, .inr rfl⟩
      | dir b => exact ⟨hrem.1, hrem.2.1, rfl, .inr rfl⟩
    | some n =>
      obtain ⟨a, b, c⟩ := hins n hnew
      cases old with
      | missing m =>
        cases n <;> exact ⟨a, b, c, .inr rfl⟩
      | file e =>
        cases hmc : matchesCurrent s (.file e) n with
        | true => simp only [hmc, if_true]; exact ⟨hsame.1, hsame.2.1, trivial, .inl trivial⟩
        | false => simp only [hmc, Bool.false_eq_true, if_false]; exact ⟨a, b, c, .inr trivial⟩
      | dir bb =>
        cases n with
        | dir => exact ⟨hsame.1, hsame.2.1, rfl, .inl rfl⟩
        | file t => exact ⟨a, b, c, .inr rfl⟩

theorem notify_total {K} {docs : Docs} {d d' : Disk} {s : Vfs} {p : Path} (h : Inv docs d s) (hd : DiskKinds K d') (ht : Tidy K s) :
    ∃ r s', notify d' p s = .ok (r, s') ∧ Tidy K s' := by
  rw [notify]
  split
  · exact ⟨_, _, rfl, ht⟩
  · split
    · exact ⟨_, _, rfl, ht⟩
    · rename_i hpl
      obtain ⟨hp, hpar⟩ := parentsOk_of_loaded (s := s) (p := p) (by simpa using hpl)
      obtain ⟨⟨X, hb1⟩, ht1, hf1, hc⟩ := replaceNode_spec h hd ht hp hpar
      obtain ⟨c1, c2, c3, c4⟩ := collect_spec (s := s) p
      obtain ⟨b1, b2⟩ := collect_bounded h.base p
      cases hrn : replaceNode d' p s with
      | mk c s1 =>
        rw [hrn] at hb1 ht1 hf1 hc
        dsimp only at hb1 ht1 hf1 hc ⊢
        have hdb : c.db = false := by
          rcases hc with rfl | rfl
          · rfl
          · exact c4 h.base.noDbMissing
        have hun : ∀ i ∈ c.unloads, i < s1.files.length := by
          rw [hf1]
          rcases hc with rfl | rfl
          · intro i hi; simp at hi
          · exact b1
        have hin : ∀ i ∈ c.invalid, i < s1.files.length := by
          rw [hf1]
          rcases hc with rfl | rfl
          · intro i hi; simp at hi
          · exact b2
        have hre : ∀ y ∈ c.reopen, DocPath K y.1 := by
          rcases hc with rfl | rfl
          · intro i hi; simp at hi
          · intro y hy; exact ht.docs y (c2 y hy).1
        simp only [hdb, Bool.false_eq_true, if_false]
        obtain ⟨r2, s2, h2⟩ := unloadAll_total c.unloads s1 hb1 hun
        obtain ⟨rfl, hsh2, _⟩ := unloadAll_spec _ _ _ _ hb1 h2
        have hb2 := hsh2.base hb1
        obtain ⟨r3, s3, h3⟩ := invalidateAll_total c.invalid s2 hb2 (by rw [hsh2.flen]; exact hin)
        obtain ⟨rfl, hsh3, _⟩ := invalidateAll_spec _ _ _ _ hb2 h3
        have ht3 := hsh3.tidy (hsh2.tidy ht1)
        obtain ⟨s4, h4, hk4⟩ := reopenAll_total hd c.reopen s3 ht3.kinds hre
        rw [h2]
        simp only [h3, h4]
        refine ⟨_, _, rfl, hk4, ?_⟩
        rw [reopenAll_mem _ _ _ _ h4]
        exact ht3.docs

theorem happenAll_total {K : Path → Prop} : ∀ (hs : List Happening) (docs : Docs) (d : Disk) (s : Vfs), Inv docs d s → DiskOk d → DiskKinds K d →
    Tidy K s → Orderly d hs → (∀ p, Happening.preload p ∉ hs) → Settled K hs → ∃ s', happenAll docs d hs s = .ok s' := by
  intro hs
  induction hs with
  | nil => intro docs d s _ _ _ _ _ _ _; exact ⟨s, rfl⟩
  | cons x hs ih =>
    intro docs d s h hd hk ht ho hn hse
    have hn' : ∀ p, Happening.preload p ∉ hs := fun p hp => hn p (List.mem_cons_of_mem _ hp)
    have hse' : Settled K hs := fun y hy => hse y (List.mem_cons_of_mem _ hy)
    have hx := hse x (List.mem_cons_self ..)
    cases x with
    | edit p text =>
      obtain ⟨r, s1, h1, ht1⟩ := store_total text h hk ht hx
      rw [happenAll, happen, h1]
      exact ih _ _ _ (store_inv h h1).2 hd hk ht1 ho hn' hse'
    | close p =>
      obtain ⟨r, s1, h1, ht1⟩ := close_total (d := d) p h ht
      rw [happenAll, happen, h1]
      exact ih _ _ _ (close_inv h h1).2 hd hk ht1 ho hn' hse'
    | disk p d' =>
      obtain ⟨r, s1, h1, ht1⟩ := notify_total (p := p) h hx ht
      rw [happenAll, happen, h1]
      exact ih _ _ _ (notify_inv h hd ho.1 ho.2.2.1 h1).2 ho.2.1 hx ht1 ho.2.2.2 hn' hse'
    | need p =>
      have hf := findFile_tidy p h hk ht
      refine ih _ _ _ (load_inv p h).1 hd hk ⟨kinds_tree hf.kinds (load_tree d p s).1, ?_⟩ ho hn' hse'
      rw [(load_tree d p s).2]; exact hf.docs
    | preload p => exact absurd (List.mem_cons_self ..) (hn p)
    | mention p =>
      have hf := findFile_tidy p h hk ht
      refine ih _ _ _ (reserve_inv p h) hd hk ⟨kinds_tree hf.kinds (reserve_tree d p s).1, ?_⟩ ho hn' hse'
      rw [(reserve_tree d p s).2]; exact hf.docs
    | depend i p => exact ih _ _ _ (depend_inv i p h) hd hk (depend_tidy i p ht) ho hn' hse'
    | missing i p => exact ih _ _ _ (addMissing_inv i p h) hd hk (addMissing_tidy i p ht) ho hn' hse'

/-- **C16, no crash.** If no path is a file at one time and a directory at another, every history
runs. `K` are the places of directories. -/
theorem overlay_runs (K : Path → Prop) (d0 : Disk) (hd : DiskOk d0) (hk : DiskKinds K d0) (hs : List Happening) (ho : Orderly d0 hs)
    (hn : ∀ p, Happening.preload p ∉ hs) (hse : Settled K hs) : ∃ s, happenAll (fun _ => none) d0 hs (Vfs.start d0) = .ok s := by
  refine happenAll_total hs _ d0 _ (start_inv d0) hd hk ⟨?_, ?_⟩ ho hn hse
  · refine kinds_readChildren [] d0 hk _ ?_
    intro q n hq
    simp [treeGet] at hq
  · have hm : ∀ (d : Disk) (s : Vfs), (d.foldl (readChild []) s).mem = s.mem := by
      intro d
      induction d with
      | nil => intro s; rfl
      | cons x d ih =>
        intro s
        rw [List.foldl_cons, ih, readChild]
        split
        · cases x.2 <;> rfl
        · rfl
    intro m h
    rw [Vfs.start, hm] at h
    simp at h

end Verif.Vfs
