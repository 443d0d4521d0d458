import Verif.Vfs.RecoveryStep

/-!
# C28: crash recovery keeps open documents

The theorems range over all histories of notifications, requests, changes of the disk with their
notification, changes of the configuration, and panics between two operations or while a document is
parsed.
-/

namespace Verif.Vfs

theorem happen_inv {docs : Docs} {d : Disk} {s s' : Vfs} {h : Happening} (hi : Inv docs d s) (hd : DiskOk d) (ho : Watched d [.happens h])
    (hok : happen d h s = .ok s') : Inv (docsAfter docs (.happens h)) (diskAfter d (.happens h)) s' ∧ DiskOk (diskAfter d (.happens h)) := by
  cases h with
  | edit p text =>
    obtain ⟨⟨r, s2⟩, a, rfl⟩ := map_ok hok
    exact ⟨(store_inv hi a).2, hd⟩
  | close p =>
    obtain ⟨⟨r, s2⟩, a, rfl⟩ := map_ok hok
    exact ⟨(close_inv hi a).2, hd⟩
  | disk p d' =>
    obtain ⟨⟨r, s2⟩, a, rfl⟩ := map_ok hok
    exact ⟨(notify_inv hi hd ho.1 ho.2.2.1 a).2, ho.2.1⟩
  | need p => cases hok; exact ⟨(load_inv p hi).1, hd⟩
  | preload p => exact ho.elim
  | mention p => cases hok; exact ⟨reserve_inv p hi, hd⟩
  | depend i p => cases hok; exact ⟨depend_inv i p hi, hd⟩
  | missing i p => cases hok; exact ⟨addMissing_inv i p hi, hd⟩

/-- The documents of the server are those of the editor, but for texts that could not be parsed. -/
def Agree (server editor : Docs) (broken : Path → Bool) : Prop :=
  ∀ p, server p = editor p ∨ (broken p = true ∧ server p = none)

theorem Agree.step {server editor : Docs} {broken : Path → Bool} (h : Agree server editor broken) (x : Happening) :
    Agree (docsAfter server (.happens x)) (docsAfter editor (.happens x)) (brokenAfter broken (.happens x)) := by
  intro q
  cases x with
  | edit p text =>
    simp only [docsAfter, brokenAfter]
    by_cases hq : q = p
    · simp only [if_pos hq]; exact .inl trivial
    · simp only [if_neg hq]; exact h q
  | close p =>
    simp only [docsAfter, brokenAfter]
    by_cases hq : q = p
    · simp only [if_pos hq]; exact .inl trivial
    · simp only [if_neg hq]; exact h q
  | disk p d' => exact h q
  | need p => exact h q
  | preload p => exact h q
  | mention p => exact h q
  | depend i p => exact h q
  | missing i p => exact h q

theorem watched_cons {d : Disk} {h : Happening} {es : List Incident} (hw : Watched d (.happens h :: es)) :
    Watched d [.happens h] ∧ Watched (diskAfter d (.happens h)) es := by
  cases h with
  | disk p d' => exact ⟨⟨hw.1, hw.2.1, hw.2.2.1, trivial⟩, hw.2.2.2⟩
  | preload p => exact hw.elim
  | edit p text => exact ⟨trivial, hw⟩
  | close p => exact ⟨trivial, hw⟩
  | need p => exact ⟨trivial, hw⟩
  | mention p => exact ⟨trivial, hw⟩
  | depend i p => exact ⟨trivial, hw⟩
  | missing i p => exact ⟨trivial, hw⟩

/-- One incident. -/
theorem react_inv {server editor : Docs} {broken : Path → Bool} {d : Disk} {s s' : Vfs} {x : Incident} (hi : Inv server d s)
    (ha : Agree server editor broken) (hd : DiskOk d) (ho : Watched d [x]) (hok : react d x s = .ok s') :
    ∃ server', Inv server' (diskAfter d x) s' ∧ Agree server' (docsAfter editor x) (brokenAfter broken x) ∧ DiskOk (diskAfter d x) := by
  cases x with
  | happens h =>
    obtain ⟨a, b⟩ := happen_inv hi hd ho hok
    exact ⟨_, a, ha.step h, b⟩
  | panic => exact ⟨server, (restart_inv hi hok).1, ha, hd⟩
  | panicParsing p text =>
    rw [react] at hok
    cases h1 : storeUntilParse d p text s with
    | error e => rw [h1] at hok; cases hok
    | ok s1 =>
      rw [h1] at hok
      obtain ⟨server', a, b, c, _⟩ := restart_parsing hi h1 hok
      refine ⟨server', a, ?_, hd⟩
      intro q
      simp only [docsAfter, brokenAfter]
      by_cases hq : q = p
      · subst hq
        simp only [if_true]
        rcases c with c | c
        · exact .inl c
        · exact .inr ⟨trivial, c⟩
      · simp only [if_neg hq, b q hq]; exact ha q
  | panicUnread p d' => exact ho.elim
  | watchError => exact ho.elim

theorem watched_step {d : Disk} {x : Incident} {es : List Incident} (hw : Watched d (x :: es)) : Watched d [x] ∧ Watched (diskAfter d x) es := by
  cases x with
  | happens h => exact watched_cons hw
  | panic => exact ⟨trivial, hw⟩
  | panicParsing p text => exact ⟨trivial, hw⟩
  | panicUnread p d' => exact hw.elim
  | watchError => exact hw.elim

theorem reactAll_inv : ∀ (es : List Incident) (server editor : Docs) (broken : Path → Bool) (d : Disk) (s s' : Vfs), Inv server d s →
    Agree server editor broken → DiskOk d → Watched d es → reactAll d es s = .ok s' →
    ∃ server', Inv server' (diskAfterAll d es) s' ∧ Agree server' (docsAfterAll editor es) (brokenAfterAll broken es) ∧ DiskOk (diskAfterAll d es) := by
  intro es
  induction es with
  | nil => intro server editor broken d s s' hi ha hd _ hok; cases hok; exact ⟨server, hi, ha, hd⟩
  | cons x es ih =>
    intro server editor broken d s s' hi ha hd hw hok
    rw [reactAll] at hok
    obtain ⟨w1, w2⟩ := watched_step hw
    cases h1 : react d x s with
    | error e => rw [h1] at hok; cases hok
    | ok s1 =>
      rw [h1] at hok
      obtain ⟨server', a, b, c⟩ := react_inv hi ha hd w1 h1
      exact ih server' _ _ _ _ _ a b c w2 hok

/-- **C28.** After every history with any number of panics and changes of the configuration: every
document that the editor has open is open in the server and has the text of the editor, unless
parsing that very text panicked. Every text in use is the text that the editor has for the path, or
the text on disk if the editor has none or its text could not be parsed.

Missing: texts that cannot be parsed (`parse_panic_violation`), errors of the watcher
(`watch_error_violation`), and reports that were not read before the panic
(`unread_report_violation`). -/
theorem recovery_partial (d0 : Disk) (hd : DiskOk d0) (es : List Incident) (hw : Watched d0 es) (s : Vfs) (hok : reactAll d0 es (Vfs.start d0) = .ok s)
    (docs : Docs) (hdocs : docs = docsAfterAll (fun _ => none) es) (d : Disk) (hdisk : d = diskAfterAll d0 es)
    (broken : Path → Bool) (hbroken : broken = brokenAfterAll (fun _ => false) es) :
    (∀ p text, docs p = some text → broken p = false →
      OpenPath s p ∧ ∃ i, (load d p s).1 = some i ∧ UsesText (load d p s).2 i p text) ∧
    (∀ i p text, UsesText s i p text → docs p = some text ∨ ((docs p = none ∨ broken p = true) ∧ diskGet d p = some (.file text))) := by
  obtain ⟨server, hi, ha, _⟩ := reactAll_inv es (fun _ => none) (fun _ => none) (fun _ => false) d0 _ s (start_inv d0) (fun _ => .inl rfl) hd hw hok
  rw [← hdisk] at hi
  rw [← hdocs, ← hbroken] at ha
  refine ⟨?_, ?_⟩
  · intro p text hp hb
    rcases ha p with h | ⟨h, _⟩
    · rw [hp] at h
      obtain ⟨i, a, b⟩ := load_open hi h
      obtain ⟨j, hj, _⟩ := (hi.opened p).1 text h
      exact ⟨⟨j, memGet_mem hj⟩, i, by rw [a], by rw [a]; exact b⟩
    · rw [hb] at h; cases h
  · rintro i p text ⟨f, a, b, c⟩
    have he := hi.texts i f p text a b c
    cases hs : server p with
    | some t =>
      rw [expected, hs] at he
      cases he
      rcases ha p with h | ⟨_, h⟩
      · exact .inl (by rw [← h, hs])
      · rw [hs] at h; cases h
    | none =>
      refine .inr ⟨?_, expected_text he hs⟩
      rcases ha p with h | ⟨h, _⟩
      · exact .inl (by rw [← h, hs])
      · exact .inr h

/-- **C28, diagnostics.** After a panic, the diagnostics of every open document will be published
again. -/
theorem recovery_announces (d0 : Disk) (hd : DiskOk d0) (es : List Incident) (hw : Watched d0 es) (s : Vfs)
    (hok : reactAll d0 (es ++ [.panic]) (Vfs.start d0) = .ok s) :
    ∀ p text, docsAfterAll (fun _ => none) es p = some text → brokenAfterAll (fun _ => false) es p = false → p ∈ s.hooks := by
  have hsplit : ∀ (es : List Incident) (d : Disk) (s0 s : Vfs), reactAll d (es ++ [.panic]) s0 = .ok s →
      ∃ s1, reactAll d es s0 = .ok s1 ∧ restart (diskAfterAll d es) s1 = .ok s := by
    intro es
    induction es with
    | nil =>
      intro d s0 s h
      refine ⟨s0, rfl, ?_⟩
      rw [List.nil_append, reactAll, react] at h
      cases h1 : restart d s0 with
      | error e => rw [h1] at h; cases h
      | ok s1 => rw [h1] at h; cases h; exact h1
    | cons x es ih =>
      intro d s0 s h
      rw [List.cons_append, reactAll] at h
      rw [reactAll]
      cases h1 : react d x s0 with
      | error e => rw [h1] at h; cases h
      | ok s1 => rw [h1] at h; exact ih _ _ _ h
  obtain ⟨s1, h1, h2⟩ := hsplit es d0 _ s hok
  obtain ⟨server, hi, ha, _⟩ := reactAll_inv es (fun _ => none) (fun _ => none) (fun _ => false) d0 _ s1 (start_inv d0) (fun _ => .inl rfl) hd hw h1
  intro p text hp hb
  rcases ha p with h | ⟨h, _⟩
  · exact (restart_inv hi h2).2 p text (by rw [h, hp])
  · rw [hb] at h; cases h

/-! ## The recovery itself does not panic -/

theorem loadRecovery_total {K} {d : Disk} (hd : DiskKinds K d) : ∀ (fs : List RecoveryFile) (s : Vfs), Tidy K s → (∀ f ∈ fs, DocPath K f.path) →
    ∃ s', loadRecovery d fs s = .ok s' ∧ Tidy K s' := by
  intro fs
  induction fs with
  | nil => intro s h _; exact ⟨s, rfl, h⟩
  | cons f fs ih =>
    intro s h hf
    obtain ⟨e, inv, s1, h1, hk1⟩ := ensureFile_total hd h.kinds (hf f (List.mem_cons_self ..))
    have hm1 : s1.mem = s.mem := ensure_mem d _ _ _ _ _ _ h1
    rw [loadRecovery, h1]
    dsimp only
    have key : ∀ s2 : Vfs, s2.tree = s1.tree → s2.mem = s1.mem →
        ∃ s', loadRecovery d fs (if f.isOpen then (withAddedFile e f.path f.text s2).2.memSet f.path (withAddedFile e f.path f.text s2).1
          else (withAddedFile e f.path f.text s2).2) = .ok s' ∧ Tidy K s' := by
      intro s2 ht hm
      have ht3 : (withAddedFile e f.path f.text s2).2.tree = s1.tree ∧ (withAddedFile e f.path f.text s2).2.mem = s1.mem := by
        rw [withAddedFile]
        cases s2.index e with
        | none => exact ⟨ht, hm⟩
        | some i => exact ⟨ht, hm⟩
      refine ih _ ?_ (fun g hg => hf g (List.mem_cons_of_mem _ hg))
      split
      · refine ⟨kinds_tree hk1 ht3.1, ?_⟩
        intro m hmm
        rcases List.mem_cons.mp hmm with rfl | hmm
        · exact hf f (List.mem_cons_self ..)
        · have := (List.mem_filter.mp hmm).1
          rw [ht3.2, hm1] at this
          exact h.docs m this
      · refine ⟨kinds_tree hk1 ht3.1, ?_⟩
        rw [ht3.2, hm1]; exact h.docs
    refine key _ ?_ ?_ <;> (split <;> rfl)

theorem start_tidy {K} {d : Disk} (hk : DiskKinds K d) : Tidy K (Vfs.start d) := by
  refine ⟨?_, ?_⟩
  · refine kinds_readChildren [] d hk _ ?_
    intro q n hq
    simp [treeGet] at hq
  · intro m h
    have := (start_inv d).base.wf.mem m h
    rw [start_files] at this
    simp at this

theorem restart_total {K} {d : Disk} {s : Vfs} (hd : DiskKinds K d) (hb : Base (fun _ => False) s) (hk : KindsOk K s) :
    ∃ s', restart d s = .ok s' ∧ Tidy K s' := by
  have hpaths : ∀ f ∈ intoRecovery s, DocPath K f.path := by
    intro f hf
    obtain ⟨i, g, h1, h2, h3, _⟩ := mem_intoRecovery hf
    obtain ⟨e, h4, _⟩ := loadedAt' hb h1 h2 h3
    obtain ⟨h5, h6⟩ := hb.closed _ _ h4
    refine ⟨h5, (hk _ _ h4).1 e rfl, ?_⟩
    intro q a b c
    exact (hk _ _ (h6 q a b c)).2 true rfl
  obtain ⟨s', h1, h2⟩ := loadRecovery_total hd _ _ (start_tidy hd) hpaths
  rw [restart, recover, h1]
  exact ⟨_, rfl, ⟨kinds_tree h2.kinds rfl, h2.docs⟩⟩

theorem storeUntilParse_total {K} {docs : Docs} {d : Disk} {s : Vfs} {p : Path} (text : String) (h : Inv docs d s) (hd : DiskKinds K d) (ht : Tidy K s)
    (hp : DocPath K p) : ∃ s', storeUntilParse d p text s = .ok s' ∧ Base (fun _ => False) s' ∧ KindsOk K s' := by
  obtain ⟨e, inv, s1, h1, hk1⟩ := ensureFile_total hd ht.kinds hp
  obtain ⟨hb1, hx1, ht1, _⟩ := ensureFile_spec h.base h1
  have hi1 : Inv docs d s1 := h.extends hb1 hx1
  have hun : ∀ (s2 : Vfs) (i : Nat), Base (fun _ => False) s2 → s2.tree = s1.tree → i < s2.files.length →
      ∃ s', (invalidateAndUnload i s2).map (·.2) = .ok s' ∧ Base (fun _ => False) s' ∧ KindsOk K s' := by
    intro s2 i hb2 ht2 hi2
    obtain ⟨r, s3, h3⟩ := invalidateAndUnload_total hb2.wf hi2
    obtain ⟨_, hsh, _⟩ := invalidateAndUnload_spec hb2 h3
    rw [h3]
    exact ⟨s3, rfl, hsh.base hb2, kinds_tree hk1 (by rw [hsh.tree, ht2])⟩
  rw [storeUntilParse, h1]
  dsimp only
  cases hm : s1.memGet p with
  | some i =>
    dsimp only
    split
    · exact ⟨_, rfl, base_hook hb1 p, kinds_tree hk1 rfl⟩
    · exact hun _ i (base_hook hb1 p) rfl (hb1.wf.mem _ (memGet_mem hm))
  | none =>
    dsimp only
    cases hi : s1.index e with
    | some i =>
      have hat : At s1 p i := ⟨e, ht1, hi⟩
      have hbm := base_hook (base_memSet hb1 (hat.path hb1)) p
      dsimp only
      split
      · exact ⟨_, rfl, hbm, kinds_tree hk1 rfl⟩
      · exact hun _ i hbm rfl (index_lt hb1 hi)
    | none => exact ⟨_, rfl, base_newFile (text := none) (base_hook hb1 p) (e := e) ht1 hi, kinds_tree hk1 rfl⟩

theorem happen_total {K : Path → Prop} {docs : Docs} {d : Disk} {s : Vfs} {x : Happening} (h : Inv docs d s) (hk : DiskKinds K d)
    (ht : Tidy K s) (hn : ∀ p, x ≠ .preload p) (hse : SettledEvents K [.happens x]) :
    ∃ s', happen d x s = .ok s' ∧ Tidy K s' ∧ DiskKinds K (diskAfter d (.happens x)) := by
  have hx := hse _ (List.mem_cons_self ..)
  cases x with
  | edit p text =>
    obtain ⟨r, s1, h1, ht1⟩ := store_total text h hk ht hx
    rw [happen, h1]
    exact ⟨_, rfl, ht1, hk⟩
  | close p =>
    obtain ⟨r, s1, h1, ht1⟩ := close_total (d := d) p h ht
    rw [happen, h1]
    exact ⟨_, rfl, ht1, hk⟩
  | disk p d' =>
    obtain ⟨r, s1, h1, ht1⟩ := notify_total (p := p) h hx ht
    rw [happen, h1]
    exact ⟨_, rfl, ht1, hx⟩
  | need p =>
    have hf := findFile_tidy p h hk ht
    refine ⟨_, rfl, ⟨kinds_tree hf.kinds (load_tree d p s).1, ?_⟩, hk⟩
    rw [(load_tree d p s).2]; exact hf.docs
  | preload p => exact absurd rfl (hn p)
  | mention p =>
    have hf := findFile_tidy p h hk ht
    refine ⟨_, rfl, ⟨kinds_tree hf.kinds (reserve_tree d p s).1, ?_⟩, hk⟩
    rw [(reserve_tree d p s).2]; exact hf.docs
  | depend i p => exact ⟨_, rfl, depend_tidy i p ht, hk⟩
  | missing i p => exact ⟨_, rfl, addMissing_tidy i p ht, hk⟩

theorem reactAll_total {K : Path → Prop} : ∀ (es : List Incident) (server : Docs) (d : Disk) (s : Vfs), Inv server d s → DiskOk d → DiskKinds K d →
    Tidy K s → Watched d es → SettledEvents K es → ∃ s', reactAll d es s = .ok s' := by
  intro es
  induction es with
  | nil => intro server d s _ _ _ _ _ _; exact ⟨s, rfl⟩
  | cons x es ih =>
    intro server d s hi hd hk ht hw hse
    obtain ⟨w1, w2⟩ := watched_step hw
    have hse' : SettledEvents K es := fun y hy => hse y (List.mem_cons_of_mem _ hy)
    have hse1 : SettledEvents K [x] := by
      intro y hy
      rw [List.mem_singleton] at hy
      subst hy
      exact hse y (List.mem_cons_self ..)
    have key : ∃ s1, react d x s = .ok s1 ∧ Tidy K s1 ∧ DiskKinds K (diskAfter d x) := by
      cases x with
      | happens h =>
        refine happen_total hi hk ht ?_ hse1
        rintro p rfl
        exact w1.elim
      | panic =>
        obtain ⟨s1, a, b⟩ := restart_total hk hi.base ht.kinds
        exact ⟨s1, a, b, hk⟩
      | panicParsing p text =>
        obtain ⟨s1, a, b, c⟩ := storeUntilParse_total text hi hk ht (hse1 _ (List.mem_cons_self ..))
        obtain ⟨s2, a', b'⟩ := restart_total hk b c
        refine ⟨s2, ?_, b', hk⟩
        rw [react, a]
        exact a'
      | panicUnread p d' => exact w1.elim
      | watchError => exact w1.elim
    obtain ⟨s1, a, b, c⟩ := key
    obtain ⟨server', hi', _, hd'⟩ := react_inv (broken := fun _ => false) hi (fun _ => .inl rfl) hd w1 a
    rw [reactAll, a]
    exact ih server' _ _ hi' hd' c b w2 hse'

/-- **C28, no second panic.** If no path is a file at one time and a directory at another, the server
recovers from every panic. `K` are the places of directories. -/
theorem recovery_runs (K : Path → Prop) (d0 : Disk) (hd : DiskOk d0) (hk : DiskKinds K d0) (es : List Incident) (hw : Watched d0 es)
    (hse : SettledEvents K es) : ∃ s, reactAll d0 es (Vfs.start d0) = .ok s :=
  reactAll_total es _ d0 _ (start_inv d0) hd hk (start_tidy hk) hw hse

end Verif.Vfs
