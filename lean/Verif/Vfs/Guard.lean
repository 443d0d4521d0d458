import Verif.Vfs.Mirror

/-! # Recorded dependencies stay until they are used -/

namespace Verif.Vfs

/-- File `i` recorded that nothing is at path `p`. -/
def NotesMissing (s : Vfs) (i : Nat) (p : Path) : Prop := ∃ l, treeGet s.tree p = some (.missing (.files l)) ∧ i ∈ l

/-- File `i` recorded that it depends on the file at path `p`. -/
def NotesFile (s : Vfs) (i : Nat) (p : Path) : Prop :=
  ∃ e j l, treeGet s.tree p = some (.file e) ∧ s.index e = some j ∧ s.inv e = .files l ∧ i ∈ l

/-- File `i` recorded that it depends on the file at path `p`, which has been read with text `t`. -/
def Reads (s : Vfs) (i : Nat) (p : Path) (t : String) : Prop :=
  ∃ e j l f, treeGet s.tree p = some (.file e) ∧ s.index e = some j ∧ s.inv e = .files l ∧ i ∈ l ∧
    s.files[j]? = some f ∧ f.entry = e ∧ f.code = some t

/-- Files in the tree and their states share the entry. -/
def Links (s : Vfs) : Prop := ∀ p e i, treeGet s.tree p = some (.file e) → s.index e = some i → ∃ f, s.files[i]? = some f ∧ f.entry = e

/-- Recorded dependencies stay or lead to an invalidation. -/
structure Guards (s s' : Vfs) : Prop where
  marks : ∃ m, s'.marks = s.marks ++ m
  missing : ∀ i p, NotesMissing s i p → NotesMissing s' i p ∨ MarkedIn s s' i
  file : ∀ i p, NotesFile s i p → NotesFile s' i p ∨ MarkedIn s s' i
  reads : ∀ i p t, Reads s i p t → Reads s' i p t ∨ MarkedIn s s' i

/-- The dependents recorded in entries stay or are invalidated. -/
structure Kept (s s' : Vfs) : Prop where
  marks : ∃ m, s'.marks = s.marks ++ m
  idx : ∀ e i, s.index e = some i → s'.index e = some i
  inv : ∀ e l i, s.inv e = .files l → i ∈ l → (∃ l', s'.inv e = .files l' ∧ i ∈ l') ∨ MarkedIn s s' i
  text : ∀ e l i (j : Nat) f t, s.inv e = .files l → i ∈ l → s.files[j]? = some f → f.entry = e → f.code = some t →
    (∃ f', s'.files[j]? = some f' ∧ f'.entry = e ∧ f'.code = some t) ∨ MarkedIn s s' i

theorem MarkedIn.left {s t u : Vfs} {i : Nat} (h : MarkedIn s t i) (hm : ∃ m, u.marks = t.marks ++ m) : MarkedIn s u i := by
  obtain ⟨m, o, h1, h2⟩ := h
  obtain ⟨m', h3⟩ := hm
  exact ⟨m ++ m', o, by rw [h3, h1, List.append_assoc], List.mem_append_left _ h2⟩

theorem MarkedIn.right {s t u : Vfs} {i : Nat} (hm : ∃ m, t.marks = s.marks ++ m) (h : MarkedIn t u i) : MarkedIn s u i := by
  obtain ⟨m, o, h1, h2⟩ := h
  obtain ⟨m', h3⟩ := hm
  exact ⟨m' ++ m, o, by rw [h1, h3, List.append_assoc], List.mem_append_right _ h2⟩

theorem marks_trans {s t u : Vfs} (h1 : ∃ m, t.marks = s.marks ++ m) (h2 : ∃ m, u.marks = t.marks ++ m) : ∃ m, u.marks = s.marks ++ m := by
  obtain ⟨m, h1⟩ := h1
  obtain ⟨m', h2⟩ := h2
  exact ⟨m ++ m', by rw [h2, h1, List.append_assoc]⟩

theorem Guards.refl (s : Vfs) : Guards s s := ⟨⟨[], by simp⟩, fun _ _ h => .inl h, fun _ _ h => .inl h, fun _ _ _ h => .inl h⟩

theorem Guards.trans {s t u : Vfs} (h1 : Guards s t) (h2 : Guards t u) : Guards s u := by
  refine ⟨marks_trans h1.marks h2.marks, ?_, ?_, ?_⟩
  · intro i p h
    rcases h1.missing i p h with h | h
    · rcases h2.missing i p h with h | h
      · exact .inl h
      · exact .inr (h.right h1.marks)
    · exact .inr (h.left h2.marks)
  · intro i p h
    rcases h1.file i p h with h | h
    · rcases h2.file i p h with h | h
      · exact .inl h
      · exact .inr (h.right h1.marks)
    · exact .inr (h.left h2.marks)
  · intro i p t h
    rcases h1.reads i p t h with h | h
    · rcases h2.reads i p t h with h | h
      · exact .inl h
      · exact .inr (h.right h1.marks)
    · exact .inr (h.left h2.marks)

theorem Kept.refl (s : Vfs) : Kept s s :=
  ⟨⟨[], by simp⟩, fun _ _ h => h, fun _ l _ h hi => .inl ⟨l, h, hi⟩, fun _ _ _ _ f _ _ _ hf he ht => .inl ⟨f, hf, he, ht⟩⟩

theorem Kept.trans {s t u : Vfs} (h1 : Kept s t) (h2 : Kept t u) : Kept s u := by
  refine ⟨marks_trans h1.marks h2.marks, fun e i h => h2.idx e i (h1.idx e i h), ?_, ?_⟩
  · intro e l i hl hi
    rcases h1.inv e l i hl hi with ⟨l', hl', hi'⟩ | h
    · rcases h2.inv e l' i hl' hi' with h | h
      · exact .inl h
      · exact .inr (h.right h1.marks)
    · exact .inr (h.left h2.marks)
  · intro e l i j f x hl hi hf he hx
    rcases h1.inv e l i hl hi with ⟨l', hl', hi'⟩ | h
    · rcases h1.text e l i j f x hl hi hf he hx with ⟨f', a, b, c⟩ | h
      · rcases h2.text e l' i j f' x hl' hi' a b c with h | h
        · exact .inl h
        · exact .inr (h.right h1.marks)
      · exact .inr (h.left h2.marks)
    · exact .inr (h.left h2.marks)

theorem Kept.reads {s s' : Vfs} (h : Kept s s') {i : Nat} {p : Path} {t : String} (ht : treeGet s'.tree p = treeGet s.tree p) (hr : Reads s i p t) :
    Reads s' i p t ∨ MarkedIn s s' i := by
  obtain ⟨e, j, l, f, h1, h2, h3, h4, h5, h6, h7⟩ := hr
  rcases h.inv e l i h3 h4 with ⟨l', h8, h9⟩ | h'
  · rcases h.text e l i j f t h3 h4 h5 h6 h7 with ⟨f', a, b, c⟩ | h'
    · exact .inl ⟨e, j, l', f', ht.trans h1, h.idx e j h2, h8, h9, a, b, c⟩
    · exact .inr h'
  · exact .inr h'

theorem Kept.guards {s s' : Vfs} (h : Kept s s') (ht : s'.tree = s.tree) : Guards s s' := by
  refine ⟨h.marks, ?_, ?_, fun i p t hr => h.reads (by rw [ht]) hr⟩
  · rintro i p ⟨l, h1, h2⟩
    exact .inl ⟨l, by rw [ht]; exact h1, h2⟩
  · rintro i p ⟨e, j, l, h1, h2, h3, h4⟩
    rcases h.inv e l i h3 h4 with ⟨l', h5, h6⟩ | h
    · exact .inl ⟨e, j, l', by rw [ht]; exact h1, h.idx e j h2, h5, h6⟩
    · exact .inr h

/-- Texts stay. -/
def SameTexts (s s' : Vfs) : Prop :=
  ∀ (j : Nat) f t, s.files[j]? = some f → f.code = some t → ∃ f', s'.files[j]? = some f' ∧ f'.entry = f.entry ∧ f'.code = some t

theorem sameTexts_of {s s' : Vfs} (h : s'.files = s.files) : SameTexts s s' := fun j f t a b => ⟨f, by rw [h]; exact a, rfl, b⟩

theorem kept_inv {s s' : Vfs} (hm : s'.marks = s.marks) (hx : ∀ e i, s.index e = some i → s'.index e = some i) (hi : ∀ e, s'.inv e = s.inv e)
    (hf : SameTexts s s') : Kept s s' := by
  refine ⟨⟨[], by simp [hm]⟩, hx, fun e l i h hl => .inl ⟨l, by rw [hi]; exact h, hl⟩, ?_⟩
  intro e l i j f t _ _ a b c
  obtain ⟨f', x, y, z⟩ := hf j f t a c
  exact .inl ⟨f', x, y.trans b, z⟩

theorem kept_same {s s' : Vfs} (hm : s'.marks = s.marks) (he : s'.entries = s.entries) (hf : SameTexts s s') : Kept s s' :=
  kept_inv hm (fun e i h => by rw [Vfs.index, he]; exact h) (fun e => by rw [Vfs.inv, Vfs.inv, he]) hf

/-! ## Propagation -/

theorem Post.kept {orig roots s s'} (h : Post orig roots s .files s') : Kept s s' ∧ ∀ i, roots i → MarkedIn s s' i := by
  obtain ⟨m, hk, b1, _, _, _, b5, b6, _⟩ := h.grow
  have hmk : ∀ i, i ∈ m.map (·.1) → MarkedIn s s' i := by
    intro i hi
    obtain ⟨x, hx, rfl⟩ := List.mem_map.mp hi
    exact ⟨m, x.2, b1, hx⟩
  refine ⟨⟨⟨m, b1⟩, fun e i hi => by rw [h.idx]; exact hi, ?_, fun e l i j f t _ _ a b c => .inl ⟨f, by rw [h.files]; exact a, b, c⟩⟩, fun i hi => hmk i (b5 rfl i hi)⟩
  intro e l i hl hi
  rcases b6 e with h' | ⟨l', h1, _, h3, _⟩
  · exact .inl ⟨l, h' ▸ hl, hi⟩
  · rw [hl] at h1; cases h1
    exact .inr (hmk i (h3 rfl i hi))

theorem Post.dependents {orig roots s s'} (h : Post orig roots s .files s') {i j : Nat} {f : FileState} {l : List Nat} (hi : roots i) (hf : s.files[i]? = some f)
    (hl : s.inv f.entry = .files l) (hj : j ∈ l) : MarkedIn s s' j := by
  obtain ⟨m, hk, b1, _, _, b4, b5, b6, _⟩ := h.grow
  obtain ⟨x, hx, rfl⟩ := List.mem_map.mp (b5 rfl i hi)
  obtain ⟨f', hf', he⟩ := b4 rfl x hx
  rw [hf] at hf'; cases hf'
  rcases b6 f.entry with h' | ⟨l', h1, _, h3, _⟩
  · rw [he, hl] at h'; cases h'; simp at hj
  · rw [hl] at h1; cases h1
    obtain ⟨y, hy, rfl⟩ := List.mem_map.mp (h3 rfl j hj)
    exact ⟨m, y.2, b1, hy⟩

theorem invalidateFiles_kept {X} {orig : Option Nat} {l : List Nat} {s : Vfs} {r : Res} {s' : Vfs} (hb : Base X s)
    (h : invalidateFiles orig (.files l) s = .ok (r, s')) : Kept s s' ∧ ∀ i ∈ l, MarkedIn s s' i := by
  have hp := invalidateFiles_files hb.wf.entry h
  obtain rfl := hp.res hb
  exact hp.kept

theorem invalidateFile_kept {X} {i : Nat} {s : Vfs} {r : Res} {s' : Vfs} (hb : Base X s)
    (h : invalidateFile none i s = .ok (r, s')) : Kept s s' ∧ MarkedIn s s' i ∧
      ∀ f l j, s.files[i]? = some f → s.inv f.entry = .files l → j ∈ l → MarkedIn s s' j := by
  have hp := post_byIndex none _ i s r s' hb.wf.entry h
  obtain rfl := hp.res hb
  exact ⟨hp.kept.1, hp.kept.2 i rfl, fun f l j h1 h2 h3 => hp.dependents rfl h1 h2 h3⟩

theorem invalidateAndUnload_kept {X} {i : Nat} {s : Vfs} {r : Res} {s' : Vfs} (hb : Base X s)
    (h : invalidateAndUnload i s = .ok (r, s')) : Kept s s' ∧
      ∀ f l j, s.files[i]? = some f → s.inv f.entry = .files l → j ∈ l → MarkedIn s s' j := by
  cases hfs : s.files[i]? with
  | none => rw [invalidateAndUnload, hfs] at h; cases h
  | some fs =>
    rw [invalidateAndUnload_eq hfs] at h
    have he := hb.wf.entry fs (List.mem_of_getElem? hfs)
    cases hd : s.inv fs.entry with
    | invalidatesDb => exact absurd hd (hb.noDb _)
    | files l =>
      rw [hd] at h
      have hsh : Shrinks s (started s i fs.entry) := (unload_shrinks s i).trans (setInv_shrinks (s.unload i) fs.entry he)
      have hb' := hsh.base hb
      have h' : invalidateFiles (some i) (.files l) (started s i fs.entry) = .ok (r, s') := h
      obtain ⟨hk, hm⟩ := invalidateFiles_kept hb' h'
      have hms : ∀ j, MarkedIn (started s i fs.entry) s' j → MarkedIn s s' j := fun j hj => hj
      refine ⟨⟨hk.marks, fun e k hek => hk.idx e k (by rw [hsh.idx]; exact hek), ?_, ?_⟩, ?_⟩
      · intro e l' k hl hk'
        by_cases hee : fs.entry = e
        · subst hee
          rw [hd] at hl; cases hl
          exact .inr (hms k (hm k hk'))
        · rcases hk.inv e l' k (by rw [inv_started he, if_neg hee]; exact hl) hk' with h | h
          · exact .inl h
          · exact .inr (hms k h)
      · intro e l' k j f t hl hk' hj hje hjt
        by_cases hee : fs.entry = e
        · subst hee
          rw [hd] at hl; cases hl
          exact .inr (hms k (hm k hk'))
        · have hij : i ≠ j := by rintro rfl; rw [hfs] at hj; cases hj; exact hee hje
          rcases hk.text e l' k j f t (by rw [inv_started he, if_neg hee]; exact hl) hk' (by
              show (s.unload i).files[j]? = _
              rw [files_unload, hj, Option.map_some, if_neg hij]) hje hjt with h | h
          · exact .inl h
          · exact .inr (hms k h)
      · intro f l' j h1 h2 h3
        cases h1
        rw [hd] at h2; cases h2
        exact hms j (hm j h3)

theorem entry_shrinks {s s' : Vfs} (h : Shrinks s s') {i : Nat} {f : FileState} (hf : s.files[i]? = some f) :
    ∃ f', s'.files[i]? = some f' ∧ f'.entry = f.entry := by
  obtain ⟨f', h1, _, h2, _⟩ := h.fwd hf
  exact ⟨f', h1, h2⟩

theorem unloadAll_kept {X} : ∀ (l : List Nat) (s : Vfs) (r : Res) (s' : Vfs), Base X s → unloadAll l s = .ok (r, s') →
    Kept s s' ∧ ∀ i ∈ l, ∀ f l' j, s.files[i]? = some f → s.inv f.entry = .files l' → j ∈ l' → MarkedIn s s' j := by
  intro l
  induction l with
  | nil => intro s r s' _ h; rw [unloadAll] at h; cases h; exact ⟨.refl s, by simp⟩
  | cons i l ih =>
    intro s r s' hb h
    rw [unloadAll] at h
    cases h1 : invalidateAndUnload i s with
    | error x => rw [h1] at h; cases h
    | ok v =>
      obtain ⟨r1, s1⟩ := v
      rw [h1] at h
      obtain ⟨rfl, hsh, _⟩ := invalidateAndUnload_spec hb h1
      obtain ⟨hk1, hm1⟩ := invalidateAndUnload_kept hb h1
      obtain ⟨hk2, hm2⟩ := ih s1 r s' (hsh.base hb) h
      refine ⟨hk1.trans hk2, ?_⟩
      intro k hk f l' j a b c
      rcases List.mem_cons.mp hk with rfl | hk
      · exact (hm1 f l' j a b c).left hk2.marks
      · rcases hk1.inv f.entry l' j b c with ⟨l2, h3, h4⟩ | h3
        · obtain ⟨f', a1, a2⟩ := entry_shrinks hsh a
          exact (hm2 k hk f' l2 j a1 (by rw [a2]; exact h3) h4).right hk1.marks
        · exact h3.left hk2.marks

theorem invalidateAll_kept {X} : ∀ (l : List Nat) (s : Vfs) (r : Res) (s' : Vfs), Base X s → invalidateAll l s = .ok (r, s') →
    Kept s s' ∧ (∀ i ∈ l, MarkedIn s s' i) ∧ ∀ i ∈ l, ∀ f l' j, s.files[i]? = some f → s.inv f.entry = .files l' → j ∈ l' → MarkedIn s s' j := by
  intro l
  induction l with
  | nil => intro s r s' _ h; rw [invalidateAll] at h; cases h; exact ⟨.refl s, by simp, by simp⟩
  | cons i l ih =>
    intro s r s' hb h
    rw [invalidateAll] at h
    cases h1 : invalidateFile none i s with
    | error x => rw [h1] at h; cases h
    | ok v =>
      obtain ⟨r1, s1⟩ := v
      rw [h1] at h
      obtain ⟨rfl, hsh, _⟩ := invalidateFile_spec hb h1
      obtain ⟨hk1, hi1, hm1⟩ := invalidateFile_kept hb h1
      obtain ⟨hk2, hi2, hm2⟩ := ih s1 r s' (hsh.base hb) h
      refine ⟨hk1.trans hk2, ?_, ?_⟩
      · intro k hk
        rcases List.mem_cons.mp hk with rfl | hk
        · exact hi1.left hk2.marks
        · exact (hi2 k hk).right hk1.marks
      · intro k hk f l' j a b c
        rcases List.mem_cons.mp hk with rfl | hk
        · exact (hm1 f l' j a b c).left hk2.marks
        · rcases hk1.inv f.entry l' j b c with ⟨l2, h3, h4⟩ | h3
          · obtain ⟨f', a1, a2⟩ := entry_shrinks hsh a
            exact (hm2 k hk f' l2 j a1 (by rw [a2]; exact h3) h4).right hk1.marks
          · exact h3.left hk2.marks

/-! ## Reading and making files -/

theorem readChildren_marks (p : Path) : ∀ (d : Disk) (s : Vfs), (d.foldl (readChild p) s).marks = s.marks := by
  intro d
  induction d with
  | nil => intro s; rfl
  | cons x d ih =>
    intro s
    rw [List.foldl_cons, ih, readChild]
    split
    · cases x.2 <;> rfl
    · rfl

/-- Nodes other than the directory that is read stay. -/
theorem readDir_keeps {X} (d : Disk) {s : Vfs} (hb : Base X s) {p : Path} (hf : Free s p) (hp : p ≠ []) {q : Path} {n : Node} (hq : treeGet s.tree q = some n) (hqp : q ≠ p) :
    treeGet (readDir d p s).tree q = some n := by
  have hc : ¬ (q ≠ [] ∧ q.dropLast = p) := by
    rintro ⟨h1, h2⟩
    obtain ⟨h3, h4⟩ := dropLast_prefix h1 h2
    have := (hb.closed q n hq).2 p hp h3 h4
    rcases hf _ this with ⟨_, h⟩ | h | ⟨_, h, _⟩ <;> cases h
  rw [readDir, readChildren_other p d _ q hc]
  exact ((treeGet_set _ _ _ _).trans (if_neg (fun h => hqp h.symm))).trans hq

theorem notesFile_extends {s s' : Vfs} (hx : Extends s s') {i : Nat} {p : Path} (h : NotesFile s i p) : NotesFile s' i p := by
  obtain ⟨e, j, l, h1, h2, h3, h4⟩ := h
  exact ⟨e, j, l, hx.kept p e j h1 h2, by rw [hx.idx]; exact h2, by rw [hx.inv]; exact h3, h4⟩

theorem reads_extends {s s' : Vfs} (hx : Extends s s') {i : Nat} {p : Path} {t : String} (h : Reads s i p t) : Reads s' i p t := by
  obtain ⟨e, j, l, f, h1, h2, h3, h4, h5, h6, h7⟩ := h
  exact ⟨e, j, l, f, hx.kept p e j h1 h2, by rw [hx.idx]; exact h2, by rw [hx.inv]; exact h3, h4, by rw [hx.files]; exact h5, h6, h7⟩

theorem extends_guards {s s' : Vfs} (hx : Extends s s') (hm : ∀ i p, NotesMissing s i p → NotesMissing s' i p) : Guards s s' :=
  ⟨⟨[], by rw [hx.marks]; simp⟩, fun i p h => .inl (hm i p h), fun i p h => .inl (notesFile_extends hx h), fun i p t h => .inl (reads_extends hx h)⟩

theorem readDir_guards {X} (d : Disk) {s : Vfs} (hb : Base X s) {p : Path} (hp : treeGet s.tree p = some (.dir false)) : Guards s (readDir d p s) := by
  obtain ⟨h1, h2⟩ := hb.closed p _ hp
  have hf : Free s p := by intro n hn; rw [hp] at hn; cases hn; exact .inr (.inl rfl)
  refine extends_guards (readDir_spec d hb h1 hf h2).2.1 ?_
  rintro i q ⟨l, h3, h4⟩
  exact ⟨l, readDir_keeps d hb hf h1 h3 (by rintro rfl; rw [hp] at h3; cases h3), h4⟩

theorem findFile_guards {X} (d : Disk) : ∀ (rest : List String) (base : Path) (s : Vfs), Base X s →
    (base = [] ∨ treeGet s.tree base = some (.dir true)) → ParentsOk s base → Guards s (findFile d base rest s).2 := by
  intro rest
  induction rest with
  | nil => intro base s h _ _; rw [findFile]; exact .refl s
  | cons name rest ih =>
    intro base s h hb hpar
    have hpar' := parentsOk_append hb hpar name
    have hne : base ++ [name] ≠ [] := by simp
    cases rest with
    | nil =>
      rw [findFile]
      split <;> exact .refl s
    | cons next more =>
      rw [findFile]
      cases hg : treeGet s.tree (base ++ [name]) with
      | none => exact .refl s
      | some n =>
        cases n with
        | file e => exact .refl s
        | missing dd => exact .refl s
        | dir b =>
          cases b with
          | true => exact ih (base ++ [name]) s h (.inr hg) hpar'
          | false =>
            have hf : Free s (base ++ [name]) := by intro n hn; rw [hg] at hn; cases hn; exact .inr (.inl rfl)
            obtain ⟨h1, h2, h3⟩ := readDir_spec d h hne hf hpar'
            exact (readDir_guards d h hg).trans (ih (base ++ [name]) _ h1 (.inr h3) (h2.parentsOk hpar'))

/-- What is recorded as missing stays, or is handed over with the file that is made. -/
theorem ensure_missing {X} (d : Disk) : ∀ (rest : List String) (base : Path) (s : Vfs) (e : Nat) (inv : Detail) (s' : Vfs), Base X s →
    (base = [] ∨ treeGet s.tree base = some (.dir true)) → ParentsOk s base → ensureDirsAndFile d base rest s = .ok (e, inv, s') →
    ∀ i p, NotesMissing s i p → NotesMissing s' i p ∨ ∃ l, inv = .files l ∧ i ∈ l := by
  intro rest
  induction rest with
  | nil => intro base s e inv s' _ _ _ hok; rw [ensureDirsAndFile] at hok; cases hok
  | cons name rest ih =>
    intro base s e inv s' h hb hpar hok i p hn
    have hpar' := parentsOk_append hb hpar name
    have hne : base ++ [name] ≠ [] := by simp
    obtain ⟨l, hl, hi⟩ := hn
    cases rest with
    | nil =>
      rw [ensureDirsAndFile, ensureFileIn] at hok
      have hset : ∀ q, q ≠ base ++ [name] → treeGet (s.addEntry (base ++ [name])).tree q = treeGet s.tree q :=
        fun q hqn => (treeGet_set _ _ _ _).trans (if_neg (fun hh => hqn hh.symm))
      cases hg : treeGet s.tree (base ++ [name]) with
      | none =>
        rw [hg] at hok; cases hok
        refine .inl ⟨l, ?_, hi⟩
        rw [hset p (by rintro rfl; rw [hg] at hl; cases hl)]; exact hl
      | some n =>
        rw [hg] at hok
        cases n with
        | file e' => cases hok; exact .inl ⟨l, hl, hi⟩
        | dir b => cases hok
        | missing dd =>
          cases hok
          by_cases hp : p = base ++ [name]
          · subst hp
            rw [hg] at hl; cases hl
            exact .inr ⟨l, rfl, hi⟩
          · exact .inl ⟨l, by rw [hset p hp]; exact hl, hi⟩
    | cons next more =>
      have hnew : Free s (base ++ [name]) → ∀ e inv s', ensureDirsAndFile d (base ++ [name]) (next :: more) (readDir d (base ++ [name]) s) = .ok (e, inv, s') →
          p ≠ base ++ [name] → NotesMissing s' i p ∨ ∃ l, inv = .files l ∧ i ∈ l := by
        intro hf e inv s' hok hp
        obtain ⟨h1, h2, h3⟩ := readDir_spec d h hne hf hpar'
        exact ih (base ++ [name]) _ e inv s' h1 (.inr h3) (h2.parentsOk hpar') hok i p ⟨l, readDir_keeps d h hf hne hl hp, hi⟩
      rw [ensureDirsAndFile] at hok
      cases hg : treeGet s.tree (base ++ [name]) with
      | none =>
        rw [hg] at hok
        exact hnew (by intro n hn; rw [hg] at hn; cases hn) _ _ _ hok (by rintro rfl; rw [hg] at hl; cases hl)
      | some n =>
        rw [hg] at hok
        cases n with
        | file e' => cases hok
        | dir b =>
          cases b with
          | true => exact ih (base ++ [name]) s e inv s' h (.inr hg) hpar' hok i p ⟨l, hl, hi⟩
          | false =>
            exact hnew (by intro n hn; rw [hg] at hn; cases hn; exact .inr (.inl rfl)) _ _ _ hok (by rintro rfl; rw [hg] at hl; cases hl)
        | missing dd =>
          simp only at hok
          cases hr : ensureDirsAndFile d (base ++ [name]) (next :: more) (readDir d (base ++ [name]) s) with
          | error x => rw [hr] at hok; cases hok
          | ok v =>
            obtain ⟨e1, i1, s1⟩ := v
            rw [hr] at hok
            cases hok
            have hf : Free s (base ++ [name]) := by intro n hn; rw [hg] at hn; cases hn; exact .inl ⟨_, rfl⟩
            obtain ⟨h1, h2, h3⟩ := readDir_spec d h hne hf hpar'
            obtain ⟨_, _, _, m1, rfl, _⟩ := ensure_spec d (next :: more) (base ++ [name]) _ e i1 s' h1 (.inr h3) (h2.parentsOk hpar') hr
            obtain ⟨m2, rfl, _⟩ := invOk_of_missing h hg
            have hext : ∀ k, k ∈ m1 ∨ k ∈ m2 → k ∈ m1 ++ m2.filter (fun x => x ∉ m1) := by
              intro k hk
              rcases hk with hk | hk
              · exact List.mem_append_left _ hk
              · by_cases h : k ∈ m1
                · exact List.mem_append_left _ h
                · exact List.mem_append_right _ (List.mem_filter.mpr ⟨hk, by simpa using h⟩)
            by_cases hp : p = base ++ [name]
            · subst hp
              rw [hg] at hl; cases hl
              exact .inr ⟨_, rfl, hext i (.inr hi)⟩
            · rcases hnew hf _ _ _ hr hp with h' | ⟨l', h', hi'⟩
              · exact .inl h'
              · cases h'
                exact .inr ⟨_, rfl, hext i (.inl hi')⟩

theorem ensure_found (d : Disk) : ∀ (rest : List String) (base : Path) (s : Vfs) (e : Nat), treeGet s.tree (base ++ rest) = some (.file e) → rest ≠ [] →
    (∀ q, base <+: q → q ≠ base → q <+: base ++ rest → q ≠ base ++ rest → treeGet s.tree q = some (.dir true)) →
    ensureDirsAndFile d base rest s = .ok (e, .empty, s) := by
  intro rest
  induction rest with
  | nil => intro base s e _ h; exact absurd rfl h
  | cons name rest ih =>
    intro base s e h _ hpar
    cases rest with
    | nil => rw [ensureDirsAndFile, ensureFileIn, h]
    | cons next more =>
      have happ : base ++ name :: next :: more = (base ++ [name]) ++ next :: more := by simp
      have hdir := hpar (base ++ [name]) (List.prefix_append _ _) (by simp) ⟨next :: more, by simp⟩ (by simp)
      rw [ensureDirsAndFile, hdir]
      refine ih (base ++ [name]) s e (by rw [← happ]; exact h) (by simp) ?_
      intro q h1 h2 h3 h4
      refine hpar q ((List.prefix_append _ _).trans h1) ?_ (by rw [happ]; exact h3) (by rw [happ]; exact h4)
      rintro rfl
      have := h1.length_le
      simp at this
      omega

theorem ensureFile_found {X} (d : Disk) {s : Vfs} (hb : Base X s) {p : Path} {e : Nat} (h : treeGet s.tree p = some (.file e)) :
    ensureFile d p s = .ok (e, .empty, s) := by
  obtain ⟨h1, h2⟩ := hb.closed p _ h
  exact ensure_found d p [] s e h h1 (fun q _ a b c => h2 q a b c)

end Verif.Vfs
