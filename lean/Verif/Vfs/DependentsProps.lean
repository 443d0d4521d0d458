import Verif.Vfs.Invalidation

/-!
# Edits invalidate every transitive dependent (C15)

* `edit_invalidates_dependents`: what a change of a file does, for every dependency graph, with
  cycles and with sub files that share the entry of their file.
* `propagation_needs_no_bound`: the fuel of the model plays no role.
* `kept_results_are_current`: after any history of analyses and changes, what is kept of an
  analysis was computed from the current text of every file that it read, directly or through the
  kept analysis of another file.
-/

namespace Verif.Vfs

/-- Changing file `i`. The call returns; it asks for a new database exactly when `i` or one of its
transitive dependents is recorded to invalidate everything; otherwise exactly the transitive
dependents are invalidated, each one naming `i` as the cause, the editor is told about exactly the
open documents among them, file `i` is unloaded and the text of no other file is touched, the
recorded dependents of `i` and of the invalidated files are used up, and no others. -/
theorem edit_invalidates_dependents (s : Vfs) (hw : WellFormed s) (i : Nat) (hi : i < s.files.length) :
    ∃ r s', invalidateAndUnload i s = .ok (r, s') ∧
      (r = .db ↔ WholeDb s i ∨ ∃ k, Dependent s i k ∧ WholeDb s k) ∧
      (r = .db → ∀ p, OpenPath s p → p ∈ s'.hooks) ∧
      (r = .files → ∃ m h, s'.marks = s.marks ++ m ∧ s'.hooks = s.hooks ++ h ∧
        (∀ x ∈ m, x.2 = some i) ∧
        (∀ k, (∃ o, (k, o) ∈ m) ↔ Dependent s i k) ∧
        (∀ p, p ∈ h ↔ OpenPath s p ∧ ∃ k, Dependent s i k ∧ HasPath s k p) ∧
        (∀ k, k = i ∨ Dependent s i k → ∀ b, ¬ Records s' k b) ∧
        (∀ a fa, s.files[a]? = some fa →
          (∀ k fk, k = i ∨ Dependent s i k → s.files[k]? = some fk → fk.entry ≠ fa.entry) →
          ∀ b, Records s' a b ↔ Records s a b)) ∧
      s'.tree = s.tree ∧ s'.mem = s.mem ∧ s'.files.length = s.files.length ∧
      (∀ k f, s.files[k]? = some f → s'.files[k]? = some (if k = i then { f with code := none } else f)) := by
  have hb := hw.bounded
  obtain ⟨fs, hfs⟩ : ∃ fs, s.files[i]? = some fs := ⟨_, List.getElem?_eq_getElem hi⟩
  have he : fs.entry < s.entries.length := hw.entry fs (List.mem_of_getElem? hfs)
  have hlen : ∀ e, (started s i e).files.length = s.files.length := fun e => by
    show (s.unload i).files.length = _
    simp [Vfs.unload]
  have hfiles : ∀ e, ∀ k f, s.files[k]? = some f → (started s i e).files[k]? = some (if k = i then { f with code := none } else f) := by
    intro e k f hk
    show (s.unload i).files[k]? = _
    rw [files_unload, hk]
    by_cases h : i = k
    · subst h; simp
    · simp [h, Ne.symm h]
  rw [invalidateAndUnload_eq hfs]
  cases hd : s.inv fs.entry with
  | invalidatesDb =>
    refine ⟨.db, _, rfl, ⟨fun _ => .inl ((wholeDb_iff s i).mpr ⟨fs, hfs, hd⟩), fun _ => rfl⟩, ?_, ?_, rfl, rfl, hlen 0, hfiles 0⟩
    · rintro _ p ⟨j, hj⟩
      refine List.mem_append_right _ ?_
      exact List.mem_map.mpr ⟨(p, j), hj, rfl⟩
    · intro hr; cases hr
  | files l =>
    have hbs := started_bounded hb (i := i) he
    obtain ⟨r, s', h⟩ := invalidateFiles_total (orig := some i) (l := l) hbs (fun j hj => by
      rw [hlen]; exact hb.2 _ l hd j hj)
    have hp := invalidateFiles_files hbs.1 h
    refine ⟨r, s', h, ?_, ?_, ?_, hp.tree, hp.mem, by rw [hp.files, hlen], ?_⟩
    · constructor
      · intro hr
        obtain ⟨k, hk, hwd⟩ := hp.db hr
        exact .inr ⟨k, (reach_started hfs he hd k).mp hk, (wholeDb_started he hd k).mp hwd⟩
      · intro hor
        cases r with
        | db => rfl
        | files =>
          exfalso
          rcases hor with hwd | ⟨k, hk, hwd⟩
          · rw [wholeDb_iff] at hwd
            obtain ⟨fs', h1, h2⟩ := hwd
            rw [hfs] at h1; cases h1
            rw [hd] at h2; cases h2
          · obtain ⟨_, _, _, _, _, _, hv, _, _⟩ := hp.visited
            exact (hv k ((reach_started hfs he hd k).mpr hk)).1 ((wholeDb_started he hd k).mpr hwd)
    · intro hr p ho
      obtain ⟨_, hk, _, h2, _, _, _, _, _, h8⟩ := hp.grow
      rw [h2]
      refine List.mem_append_right _ ((h8 hr p).mpr ?_)
      rw [isOpen_iff]
      obtain ⟨j, hj⟩ := ho
      exact List.mem_map.mpr ⟨(p, j), hj, rfl⟩
    · rintro rfl
      obtain ⟨m, hk, h1, h2, h3, h4, h5, h6, h7⟩ := hp.visited
      refine ⟨m, hk, h1, h2, h3, ?_, ?_, ?_, ?_⟩
      · intro k
        rw [← reach_started hfs he hd k, ← h4]
        constructor
        · rintro ⟨o, ho⟩; exact List.mem_map.mpr ⟨(k, o), ho, rfl⟩
        · intro hk; obtain ⟨x, hx, rfl⟩ := List.mem_map.mp hk; exact ⟨x.2, hx⟩
      · intro p
        rw [h6]
        simp only [hookOf_started, reach_started hfs he hd]
        constructor
        · rintro ⟨k, hk, ho, hp⟩; exact ⟨ho, k, hk, hp⟩
        · rintro ⟨ho, k, hk, hp⟩; exact ⟨k, hk, ho, hp⟩
      · intro k hk b hr
        rw [records_iff] at hr
        obtain ⟨fk, lk, g1, g2, g3⟩ := hr
        rw [hp.files] at g1
        have hempty : s'.inv fk.entry = .files [] := by
          rcases hk with rfl | hk
          · obtain ⟨f0, g4, g5, _⟩ := files_started_conv s _ _ _ _ g1
            rw [hfs] at g4; cases g4
            exact mono_empty (hp.inv fk.entry) (by rw [inv_started he, g5, if_pos rfl])
          · obtain ⟨f', g4, g5⟩ := (h5 k ((reach_started hfs he hd k).mpr hk)).2
            rw [g1] at g4; cases g4
            exact g5
        rw [hempty] at g2
        cases g2
        simp at g3
      · intro a fa hfa hne b
        have heq : s'.inv fa.entry = s.inv fa.entry := by
          rw [h7 fa.entry, inv_started he, if_neg (hne i fs (.inl rfl) hfs)]
          intro k fk hk hfk
          obtain ⟨f0, g4, g5, _⟩ := files_started_conv s _ _ _ _ hfk
          rw [g5]
          exact hne k f0 (.inr ((reach_started hfs he hd k).mp hk)) g4
        rw [records_iff, records_iff]
        constructor
        · rintro ⟨f, l', g1, g2, g3⟩
          rw [hp.files] at g1
          obtain ⟨f0, g4, g5, _⟩ := files_started_conv s _ _ _ _ g1
          rw [hfa] at g4; cases g4
          exact ⟨fa, l', hfa, by rw [← heq, ← g5]; exact g2, g3⟩
        · rintro ⟨f, l', g1, g2, g3⟩
          rw [hfa] at g1; cases g1
          obtain ⟨f', g4, g5, _⟩ := files_started s i fs.entry a fa hfa
          exact ⟨f', l', by rw [hp.files]; exact g4, by rw [g5, heq]; exact g2, g3⟩
    · intro k f hk
      rw [hp.files]
      exact hfiles _ k f hk

/-- A small project: module 0 is imported by 1, module 1 by 2, and 2 by 0 (a cycle); module 3
imports 2 and is open; module 4 is on its own; 5 is a sub file of 1 and shares its entry. -/
def sample : Vfs :=
  { entries := [⟨some 0, .files [1]⟩, ⟨some 1, .files [2, 5]⟩, ⟨some 2, .files [0, 3]⟩, ⟨some 3, .files []⟩, ⟨some 4, .files []⟩]
    files := [⟨some ["a.py"], 0, some ""⟩, ⟨some ["b.py"], 1, some "import a"⟩, ⟨some ["c.py"], 2, some "import b"⟩,
      ⟨some ["d.py"], 3, some "import c"⟩, ⟨some ["e.py"], 4, some ""⟩, ⟨none, 1, some "int"⟩]
    tree := [], mem := [(["d.py"], 3)], marks := [], hooks := [] }

example : WellFormed sample := by
  refine ⟨?_, ?_, ?_, ?_, ?_, ?_⟩ <;> simp [sample]

example : ∃ s', invalidateAndUnload 0 sample = .ok (.files, s') ∧ s'.marks.map (·.1) = [1, 2, 0, 3, 5] ∧ s'.hooks = [["d.py"]] :=
  ⟨_, rfl, rfl, rfl⟩

/-- More fuel gives the same result: the recursion ends by itself. -/
theorem propagation_needs_no_bound (s : Vfs) (hw : WellFormed s) (orig : Option Nat) (i : Nat) (hi : i < s.files.length) (k : Nat) :
    invalidateByIndex (s.entries.length + 1 + k) orig i s = invalidateFile orig i s ∧ ∃ v, invalidateFile orig i s = .ok v := by
  obtain ⟨r, s', h⟩ := byIndex_total orig (s.entries.length + 1) i s hw.bounded hi (Nat.lt_succ_of_le (work_le s))
  exact ⟨by rw [byIndex_fuel orig _ k i s _ h]; exact h.symm, (r, s'), h⟩

/-! ## Histories of analyses and changes -/

/-- A program state: the virtual file system, a version for the text of each file, and for each
file the (file, version) pairs that its kept analysis was computed from. -/
structure World where
  vfs : Vfs
  version : Nat → Nat
  kept : Nat → Option (List (Nat × Nat))

/-- What happens. -/
inductive Event where
  /-- File `i` is analysed, possibly only in part, and reads the files `ds`: their text and what is
  kept of their analysis. -/
  | analyse (i : Nat) (ds : List Nat)
  /-- File `i` gets a new text. -/
  | change (i : Nat)

/-- Recording `i` as dependent of the files `ds`, as `python_import_with_needs_exact_case` does
(imports.rs 455) for each import. -/
def recordAll (i : Nat) : List Nat → Vfs → Vfs
  | [], s => s
  | d :: ds, s =>
    match s.files[d]? with
    | none => recordAll i ds s
    | some fs => recordAll i ds (s.addInvalidation fs.entry i)

/-- What is read of file `d`. -/
def World.readOf (w : World) (d : Nat) : List (Nat × Nat) := (d, w.version d) :: (w.kept d).getD []

/-- One event. A new database (`InvalidatedDb`) keeps no analysis at all. -/
def World.step (w : World) : Event → World
  | .analyse i ds =>
    { w with
      vfs := recordAll i ds w.vfs
      kept := fun k => if k = i then some ((w.kept i).getD [(i, w.version i)] ++ ds.flatMap w.readOf) else w.kept k }
  | .change i =>
    match invalidateAndUnload i w.vfs with
    | .error _ => w
    | .ok (.db, s') => { vfs := s', version := fun k => if k = i then w.version k + 1 else w.version k, kept := fun _ => none }
    | .ok (.files, s') =>
      { vfs := s'
        version := fun k => if k = i then w.version k + 1 else w.version k
        kept := fun k => if k = i ∨ k ∈ (s'.marks.drop w.vfs.marks.length).map (·.1) then none else w.kept k }

/-- The files of an event exist. -/
def Event.InRange (n : Nat) : Event → Prop
  | .analyse i ds => i < n ∧ ∀ d ∈ ds, d < n
  | .change i => i < n

/-- Every kept analysis was computed from current texts. -/
def Current (w : World) : Prop := ∀ i l, w.kept i = some l → ∀ x ∈ l, x.2 = w.version x.1

theorem inv_add (d : Detail) (x : Nat) (l : List Nat) (h : d.add x = .files l) :
    ∃ l0, d = .files l0 ∧ ∀ y, y ∈ l ↔ y ∈ l0 ∨ y = x := by
  cases d with
  | invalidatesDb => cases h
  | files l0 =>
    refine ⟨l0, rfl, ?_⟩
    rw [Detail.add] at h
    cases h
    intro y
    split
    · rename_i hx
      constructor
      · exact .inl
      · rintro (h | rfl)
        · exact h
        · exact hx
    · simp

/-- An entry invalidates everything or has `i` recorded. -/
def Covers (s : Vfs) (d i : Nat) : Prop := Records s d i ∨ WholeDb s d

/-- `i` is reached from `j`: by recorded steps, or a file recorded to invalidate everything is. -/
inductive Chain (s : Vfs) (j : Nat) : Nat → Prop where
  | refl : Chain s j j
  | step {a b : Nat} : Chain s j a → Covers s a b → Chain s j b

theorem Chain.mono {s t : Vfs} (h : ∀ a b, Covers s a b → Covers t a b) {j i : Nat} (hc : Chain s j i) : Chain t j i := by
  induction hc with
  | refl => exact .refl
  | step _ hs ih => exact .step ih (h _ _ hs)

theorem covers_iff (s : Vfs) (a b : Nat) : Covers s a b ↔ ∃ fs, s.files[a]? = some fs ∧
    (s.inv fs.entry = .invalidatesDb ∨ ∃ l, s.inv fs.entry = .files l ∧ b ∈ l) := by
  rw [Covers, records_iff, wholeDb_iff]
  constructor
  · rintro (⟨fs, l, h1, h2, h3⟩ | ⟨fs, h1, h2⟩)
    · exact ⟨fs, h1, .inr ⟨l, h2, h3⟩⟩
    · exact ⟨fs, h1, .inl h2⟩
  · rintro ⟨fs, h1, h2 | ⟨l, h2, h3⟩⟩
    · exact .inr ⟨fs, h1, h2⟩
    · exact .inl ⟨fs, l, h1, h2, h3⟩

theorem add_covers (s : Vfs) (e i : Nat) (he : e < s.entries.length) (a b : Nat) (h : Covers s a b) : Covers (s.addInvalidation e i) a b := by
  rw [covers_iff] at h ⊢
  obtain ⟨fs, h1, h2⟩ := h
  refine ⟨fs, h1, ?_⟩
  rw [Vfs.addInvalidation, inv_setInv _ _ _ _ he]
  split
  · rename_i hee
    subst hee
    rcases h2 with h2 | ⟨l, h2, h3⟩
    · left; rw [h2]; rfl
    · right
      rw [h2, Detail.add]
      refine ⟨_, rfl, ?_⟩
      split
      · exact h3
      · exact List.mem_append_left _ h3
  · exact h2

theorem add_covers_new (s : Vfs) (d i : Nat) (fs : FileState) (hfs : s.files[d]? = some fs) (he : fs.entry < s.entries.length) :
    Covers (s.addInvalidation fs.entry i) d i := by
  rw [covers_iff]
  refine ⟨fs, hfs, ?_⟩
  rw [Vfs.addInvalidation, inv_setInv _ _ _ _ he, if_pos rfl]
  cases hd : s.inv fs.entry with
  | invalidatesDb => exact .inl rfl
  | files l =>
    right
    rw [Detail.add]
    refine ⟨_, rfl, ?_⟩
    split
    · assumption
    · simp

theorem wellFormed_add {s : Vfs} (hw : WellFormed s) {e i : Nat} (he : e < s.entries.length) (hi : i < s.files.length) :
    WellFormed (s.addInvalidation e i) := by
  have hmod : ∀ x ∈ (s.addInvalidation e i).entries, x ∈ s.entries ∨ ∃ y ∈ s.entries, x.index = y.index ∧ x.inv = (s.inv e).add i := by
    intro x hx
    obtain ⟨j, hj⟩ := List.getElem?_of_mem hx
    rw [Vfs.addInvalidation, Vfs.setInv, getElem?_modify'] at hj
    split at hj
    · obtain ⟨y, hy, rfl⟩ := Option.map_eq_some_iff.mp hj
      exact .inr ⟨y, List.mem_of_getElem? hy, rfl, rfl⟩
    · exact .inl (List.mem_of_getElem? hj)
  have hlen : (s.addInvalidation e i).entries.length = s.entries.length := length_setInv _ _ _
  refine ⟨?_, ?_, ?_, hw.missing, ?_, hw.mem⟩
  · rw [hlen]; exact hw.entry
  · intro x hx j hj
    rcases hmod x hx with h | ⟨y, hy, h1, _⟩
    · exact hw.index x h j hj
    · exact hw.index y hy j (h1 ▸ hj)
  · intro x hx l hl j hj
    rcases hmod x hx with h | ⟨y, hy, _, h2⟩
    · exact hw.dependents x h l hl j hj
    · obtain ⟨l0, h3, h4⟩ := inv_add (s.inv e) i l (h2 ▸ hl)
      rcases (h4 j).mp hj with h | rfl
      · exact hw.bounded.2 e l0 h3 j h
      · exact hi
  · rw [hlen]; exact hw.node

theorem recordAll_spec (i : Nat) : ∀ (ds : List Nat) (s : Vfs), WellFormed s → i < s.files.length → (∀ d ∈ ds, d < s.files.length) →
    WellFormed (recordAll i ds s) ∧ (recordAll i ds s).files = s.files ∧ (recordAll i ds s).marks = s.marks ∧
      (∀ a b, Covers s a b → Covers (recordAll i ds s) a b) ∧ ∀ d ∈ ds, Covers (recordAll i ds s) d i := by
  intro ds
  induction ds with
  | nil => intro s hw _ _; exact ⟨hw, rfl, rfl, fun _ _ h => h, by simp⟩
  | cons d ds ih =>
    intro s hw hi hds
    have hd : d < s.files.length := hds d (by simp)
    obtain ⟨fs, hfs⟩ : ∃ fs, s.files[d]? = some fs := ⟨_, List.getElem?_eq_getElem hd⟩
    have he := hw.entry fs (List.mem_of_getElem? hfs)
    have hw' := wellFormed_add hw he hi
    obtain ⟨a1, a2, a3, a4, a5⟩ := ih (s.addInvalidation fs.entry i) hw' hi (fun x hx => hds x (by simp [hx]))
    rw [recordAll, hfs]
    refine ⟨a1, a2, a3, fun a b h => a4 a b (add_covers s _ i he a b h), ?_⟩
    intro x hx
    rcases List.mem_cons.mp hx with rfl | hx
    · exact a4 _ _ (add_covers_new s _ i fs hfs he)
    · exact a5 x hx

/-- The invariant of histories: kept analyses are current, and linked by recorded dependencies to
every file that they read. -/
structure Linked (w : World) : Prop where
  wf : WellFormed w.vfs
  current : Current w
  chain : ∀ i l, w.kept i = some l → ∀ x ∈ l, Chain w.vfs x.1 i

theorem linked_analyse {w : World} (h : Linked w) (i : Nat) (ds : List Nat) (hr : (Event.analyse i ds).InRange w.vfs.files.length) :
    Linked (w.step (.analyse i ds)) ∧ (w.step (.analyse i ds)).vfs.files.length = w.vfs.files.length := by
  obtain ⟨a1, a2, a3, a4, a5⟩ := recordAll_spec i ds w.vfs h.wf hr.1 hr.2
  have hin : ∀ x, x ∈ (w.kept i).getD [(i, w.version i)] ++ ds.flatMap w.readOf →
      x.2 = w.version x.1 ∧ Chain (recordAll i ds w.vfs) x.1 i := by
    intro x hx
    rcases List.mem_append.mp hx with hx | hx
    · cases hk : w.kept i with
      | none =>
        rw [hk] at hx
        have : x = (i, w.version i) := by simpa using hx
        subst this
        exact ⟨rfl, .refl⟩
      | some l =>
        rw [hk] at hx
        exact ⟨h.current i l hk x hx, (h.chain i l hk x hx).mono a4⟩
    · obtain ⟨d, hd, hx⟩ := List.mem_flatMap.mp hx
      rcases List.mem_cons.mp hx with rfl | hx
      · exact ⟨rfl, .step .refl (a5 d hd)⟩
      · cases hk : w.kept d with
        | none => rw [hk] at hx; simp at hx
        | some l =>
          rw [hk] at hx
          exact ⟨h.current d l hk x hx, .step ((h.chain d l hk x hx).mono a4) (a5 d hd)⟩
  refine ⟨⟨a1, ?_, ?_⟩, by show (recordAll i ds w.vfs).files.length = _; rw [a2]⟩
  · intro k l hk x hx
    by_cases hki : k = i
    · have : some ((w.kept i).getD [(i, w.version i)] ++ ds.flatMap w.readOf) = some l := by
        rw [← hk]; simp [World.step, hki]
      cases this
      exact (hin x hx).1
    · have : w.kept k = some l := by rw [← hk]; simp [World.step, hki]
      exact h.current k l this x hx
  · intro k l hk x hx
    by_cases hki : k = i
    · subst hki
      have : some ((w.kept k).getD [(k, w.version k)] ++ ds.flatMap w.readOf) = some l := by
        rw [← hk]; simp [World.step]
      cases this
      exact (hin x hx).2
    · have : w.kept k = some l := by rw [← hk]; simp [World.step, hki]
      exact (h.chain k l this x hx).mono a4

theorem wellFormed_post {orig roots s r s'} (hp : Post orig roots s r s') (hw : WellFormed s) : WellFormed s' := by
  have hb := hp.bounded hw.bounded
  refine ⟨hb.1, ?_, ?_, ?_, ?_, ?_⟩
  · intro x hx j hj
    obtain ⟨e, he⟩ := List.getElem?_of_mem hx
    have h1 : s'.index e = some j := by rw [Vfs.index, he]; exact hj
    rw [hp.idx, Vfs.index] at h1
    cases hse : s.entries[e]? with
    | none => rw [hse] at h1; cases h1
    | some y =>
      rw [hse] at h1
      rw [hp.files]
      exact hw.index y (List.mem_of_getElem? hse) j h1
  · intro x hx l hl j hj
    obtain ⟨e, he⟩ := List.getElem?_of_mem hx
    exact hb.2 e l (by rw [Vfs.inv, he]; exact hl) j hj
  · rw [hp.tree, hp.files]; exact hw.missing
  · rw [hp.tree, hp.len]; exact hw.node
  · rw [hp.mem, hp.files]; exact hw.mem

theorem wellFormed_started {s : Vfs} (hw : WellFormed s) (i : Nat) {e : Nat} (he : e < s.entries.length) : WellFormed (started s i e) := by
  have hb := started_bounded hw.bounded (i := i) he
  have hlen : (started s i e).files.length = s.files.length := by
    show (s.unload i).files.length = _
    simp [Vfs.unload]
  have hlen2 : (started s i e).entries.length = s.entries.length := length_setInv _ _ _
  refine ⟨hb.1, ?_, ?_, ?_, ?_, ?_⟩
  · intro x hx j hj
    obtain ⟨k, hk⟩ := List.getElem?_of_mem hx
    have h1 : (started s i e).index k = some j := by rw [Vfs.index, hk]; exact hj
    rw [started, index_setInv] at h1
    have h2 : s.index k = some j := h1
    rw [Vfs.index] at h2
    cases hse : s.entries[k]? with
    | none => rw [hse] at h2; cases h2
    | some y =>
      rw [hse] at h2
      rw [hlen]
      exact hw.index y (List.mem_of_getElem? hse) j h2
  · intro x hx l hl j hj
    obtain ⟨k, hk⟩ := List.getElem?_of_mem hx
    exact hb.2 k l (by rw [Vfs.inv, hk]; exact hl) j hj
  · rw [hlen]; exact hw.missing
  · rw [hlen2]; exact hw.node
  · rw [hlen]; exact hw.mem

theorem wellFormed_invalidateAndUnload {s s' : Vfs} {r : Res} {i : Nat} (hw : WellFormed s) (h : invalidateAndUnload i s = .ok (r, s')) : WellFormed s' := by
  cases hfs : s.files[i]? with
  | none => rw [invalidateAndUnload, hfs] at h; cases h
  | some fs =>
    have he := hw.entry fs (List.mem_of_getElem? hfs)
    rw [invalidateAndUnload_eq hfs] at h
    cases hd : s.inv fs.entry with
    | invalidatesDb =>
      rw [hd] at h
      obtain ⟨rfl, rfl⟩ : Res.db = r ∧ { (s.unload i).setInv fs.entry .invalidatesDb with hooks := s.hooks ++ s.mem.map (·.1) } = s' := by
        cases h; exact ⟨rfl, rfl⟩
      have hlen : (s.unload i).files.length = s.files.length := by simp [Vfs.unload]
      have hlen2 : ((s.unload i).setInv fs.entry .invalidatesDb).entries.length = s.entries.length := length_setInv _ _ _
      have hmod : ∀ x ∈ ((s.unload i).setInv fs.entry .invalidatesDb).entries, ∃ y ∈ s.entries, x.index = y.index ∧ (x.inv = y.inv ∨ x.inv = .invalidatesDb) := by
        intro x hx
        obtain ⟨j, hj⟩ := List.getElem?_of_mem hx
        rw [Vfs.setInv, getElem?_modify'] at hj
        split at hj
        · obtain ⟨y, hy, rfl⟩ := Option.map_eq_some_iff.mp hj
          exact ⟨y, List.mem_of_getElem? hy, rfl, .inr rfl⟩
        · exact ⟨x, List.mem_of_getElem? hj, rfl, .inl rfl⟩
      refine ⟨?_, ?_, ?_, ?_, ?_, ?_⟩
      · intro f hf
        have hf' : f ∈ (started s i fs.entry).files := hf
        have := started_entry hw.entry i fs.entry f hf'
        show _ < ((s.unload i).setInv fs.entry .invalidatesDb).entries.length
        rw [hlen2]
        have h3 : (started s i fs.entry).entries.length = s.entries.length := length_setInv _ _ _
        rwa [h3] at this
      · intro x hx j hj
        obtain ⟨y, hy, h1, _⟩ := hmod x hx
        show _ < (s.unload i).files.length
        rw [hlen]; exact hw.index y hy j (h1 ▸ hj)
      · intro x hx l hl j hj
        obtain ⟨y, hy, _, h1 | h1⟩ := hmod x hx
        · show _ < (s.unload i).files.length
          rw [hlen]; exact hw.dependents y hy l (h1 ▸ hl) j hj
        · rw [h1] at hl; cases hl
      · intro n hn l hl j hj
        show _ < (s.unload i).files.length
        rw [hlen]; exact hw.missing n hn l hl j hj
      · intro n hn e hne
        show _ < ((s.unload i).setInv fs.entry .invalidatesDb).entries.length
        rw [hlen2]; exact hw.node n hn e hne
      · intro m hm
        show _ < (s.unload i).files.length
        rw [hlen]; exact hw.mem m hm
    | files l =>
      rw [hd] at h
      have hp := invalidateFiles_files (s := started s i fs.entry) (started_entry hw.entry i fs.entry) h
      exact wellFormed_post hp (wellFormed_started hw i he)

theorem dependent_of_chain {s : Vfs} {i j k : Nat} (hno : ¬ WholeDb s i) (hno' : ∀ k, Dependent s i k → ¬ WholeDb s k)
    (hc : Chain s j k) (hj : j = i ∨ Dependent s i j) : k = i ∨ Dependent s i k := by
  induction hc with
  | refl => exact hj
  | @step a b _ hcov ih =>
    right
    rcases hcov with hr | hwd
    · rcases ih with rfl | hd
      · exact .direct hr
      · exact .step hd hr
    · rcases ih with rfl | hd
      · exact absurd hwd hno
      · exact absurd hwd (hno' _ hd)

theorem linked_change {w : World} (h : Linked w) (i : Nat) (hr : (Event.change i).InRange w.vfs.files.length) :
    Linked (w.step (.change i)) ∧ (w.step (.change i)).vfs.files.length = w.vfs.files.length := by
  obtain ⟨r, s', heq, hdb, _, hfiles, _, _, hlen, htext⟩ := edit_invalidates_dependents w.vfs h.wf i hr
  have hwf := wellFormed_invalidateAndUnload h.wf heq
  cases r with
  | db =>
    have hstep : w.step (.change i) = { vfs := s', version := fun k => if k = i then w.version k + 1 else w.version k, kept := fun _ => none } := by
      rw [World.step, heq]
    rw [hstep]
    exact ⟨⟨hwf, (fun k l hk => by cases hk), (fun k l hk => by cases hk)⟩, hlen⟩
  | files =>
    obtain ⟨m, hk, h1, _, _, h4, _, h6, h7⟩ := hfiles rfl
    have hno : ¬ WholeDb w.vfs i := fun hc => by have := hdb.mpr (.inl hc); cases this
    have hno' : ∀ k, Dependent w.vfs i k → ¬ WholeDb w.vfs k := fun k hd hc => by have := hdb.mpr (.inr ⟨k, hd, hc⟩); cases this
    have hstep : w.step (.change i) =
        { vfs := s'
          version := fun k => if k = i then w.version k + 1 else w.version k
          kept := fun k => if k = i ∨ k ∈ (s'.marks.drop w.vfs.marks.length).map (·.1) then none else w.kept k } := by
      rw [World.step, heq]
    have hdrop : s'.marks.drop w.vfs.marks.length = m := by rw [h1, List.drop_left]
    rw [hstep, hdrop]
    have hmem : ∀ k, k ∈ m.map (·.1) ↔ Dependent w.vfs i k := by
      intro k
      rw [← h4]
      constructor
      · intro hk; obtain ⟨x, hx, rfl⟩ := List.mem_map.mp hk; exact ⟨x.2, hx⟩
      · rintro ⟨o, ho⟩; exact List.mem_map.mpr ⟨(k, o), ho, rfl⟩
    have hkept : ∀ k l, (if k = i ∨ k ∈ m.map (·.1) then none else w.kept k) = some l → w.kept k = some l ∧ k ≠ i ∧ ¬ Dependent w.vfs i k := by
      intro k l hk
      split at hk
      · cases hk
      · rename_i hn
        rw [hmem] at hn
        exact ⟨hk, fun h => hn (.inl h), fun h => hn (.inr h)⟩
    have hnot : ∀ k l, w.kept k = some l → k ≠ i → ¬ Dependent w.vfs i k → ∀ x ∈ l, x.1 ≠ i ∧ ¬ Dependent w.vfs i x.1 := by
      intro k l hk h1 h2 x hx
      have hc := h.chain k l hk x hx
      constructor
      · intro hxi
        rcases dependent_of_chain hno hno' hc (.inl hxi) with h | h
        · exact h1 h
        · exact h2 h
      · intro hxi
        rcases dependent_of_chain hno hno' hc (.inr hxi) with h | h
        · exact h1 h
        · exact h2 h
    refine ⟨⟨hwf, ?_, ?_⟩, hlen⟩
    · intro k l hk x hx
      obtain ⟨g1, g2, g3⟩ := hkept k l hk
      show x.2 = if x.1 = i then _ else _
      rw [if_neg (hnot k l g1 g2 g3 x hx).1]
      exact h.current k l g1 x hx
    · intro k l hk x hx
      obtain ⟨g1, g2, g3⟩ := hkept k l hk
      have hc := h.chain k l g1 x hx
      show Chain s' x.1 k
      have hcov : ∀ a b, Covers w.vfs a b → b ≠ i ∧ ¬ Dependent w.vfs i b → Covers s' a b := by
        intro a b hab hb
        rw [covers_iff] at hab
        obtain ⟨fa, hfa, hor⟩ := hab
        have hsep : ∀ k fk, k = i ∨ Dependent w.vfs i k → w.vfs.files[k]? = some fk → fk.entry ≠ fa.entry := by
          intro c fc hc hfc hee
          rcases hor with hdb' | ⟨la, hla, hb'⟩
          · have hwd : WholeDb w.vfs c := (wholeDb_iff _ _).mpr ⟨fc, hfc, hee ▸ hdb'⟩
            rcases hc with rfl | hc
            · exact hno hwd
            · exact hno' _ hc hwd
          · have hrec : Records w.vfs c b := (records_iff _ _ _).mpr ⟨fc, la, hfc, hee ▸ hla, hb'⟩
            rcases hc with rfl | hc
            · exact hb.2 (.direct hrec)
            · exact hb.2 (.step hc hrec)
        rcases hor with hdb' | ⟨la, hla, hb'⟩
        · right
          have hinv : s'.inv fa.entry = w.vfs.inv fa.entry := by
            have hp : ∃ fs l, w.vfs.files[i]? = some fs ∧ w.vfs.inv fs.entry = .files l := by
              obtain ⟨fs, hfs⟩ : ∃ fs, w.vfs.files[i]? = some fs := ⟨_, List.getElem?_eq_getElem hr⟩
              cases hd : w.vfs.inv fs.entry with
              | invalidatesDb => exact absurd ((wholeDb_iff _ _).mpr ⟨fs, hfs, hd⟩) hno
              | files l => exact ⟨fs, l, hfs, hd⟩
            obtain ⟨fs, l, hfs, hd⟩ := hp
            have he := h.wf.entry fs (List.mem_of_getElem? hfs)
            rw [invalidateAndUnload_eq hfs, hd] at heq
            have hpost := invalidateFiles_files (s := started w.vfs i fs.entry) (started_entry h.wf.entry i fs.entry) heq
            have hne := hsep i fs (.inl rfl) hfs
            rcases hpost.inv fa.entry with hx | ⟨l', hx, _⟩
            · rw [hx, inv_started he, if_neg hne]
            · rw [inv_started he, if_neg hne, hdb'] at hx; cases hx
          rw [wholeDb_iff]
          refine ⟨_, htext a fa hfa, ?_⟩
          have : (if a = i then { fa with code := none } else fa).entry = fa.entry := by split <;> rfl
          rw [this, hinv]; exact hdb'
        · exact .inl ((h7 a fa hfa hsep b).mpr ((records_iff _ _ _).mpr ⟨fa, la, hfa, hla, hb'⟩))
      have hgen : ∀ b, Chain w.vfs x.1 b → b ≠ i ∧ ¬ Dependent w.vfs i b → Chain s' x.1 b := by
        intro b hcb
        induction hcb with
        | refl => intro _; exact .refl
        | @step a b _ hcov' ih =>
          intro hb
          refine .step (ih ?_) (hcov a b hcov' hb)
          constructor
          · rintro rfl
            rcases dependent_of_chain hno hno' (.step .refl hcov') (.inl rfl) with h | h
            · exact hb.1 h
            · exact hb.2 h
          · intro hd
            rcases dependent_of_chain hno hno' (.step .refl hcov') (.inr hd) with h | h
            · exact hb.1 h
            · exact hb.2 h
      exact hgen k hc ⟨g2, g3⟩

/-- After any history of analyses and changes, everything that is kept of an analysis was computed
from the current text of every file it read, directly or through what was kept of other files. -/
theorem kept_results_are_current (w : World) (hw : WellFormed w.vfs) (h0 : ∀ i, w.kept i = none) (es : List Event)
    (hr : ∀ e ∈ es, e.InRange w.vfs.files.length) : Current (es.foldl World.step w) := by
  have h : ∀ (es : List Event) (v : World), Linked v → (∀ e ∈ es, e.InRange v.vfs.files.length) → Linked (es.foldl World.step v) := by
    intro es
    induction es with
    | nil => intro v hv _; exact hv
    | cons e es ih =>
      intro v hv hes
      rw [List.foldl_cons]
      have h1 : Linked (v.step e) ∧ (v.step e).vfs.files.length = v.vfs.files.length := by
        cases e with
        | analyse i ds => exact linked_analyse hv i ds (hes _ (by simp))
        | change i => exact linked_change hv i (hes _ (by simp))
      exact ih _ h1.1 (fun e' he' => by rw [h1.2]; exact hes e' (by simp [he']))
  exact (h es w ⟨hw, (fun i l hk => by rw [h0] at hk; cases hk), (fun i l hk => by rw [h0] at hk; cases hk)⟩ hr).current

/-- Two modules that read each other and a third that reads the second; the first one changes, only
the analysis of an unrelated module is kept. -/
example :
    let w : World := ⟨{ sample with entries := sample.entries.map (fun e => { e with inv := .files [] }) }, fun _ => 0, fun _ => none⟩
    let w' := [Event.analyse 0 [1], .analyse 1 [0], .analyse 2 [1], .analyse 4 [3], .change 0].foldl World.step w
    w'.kept 2 = none ∧ w'.kept 1 = none ∧ w'.kept 4 = some [(4, 0), (3, 0)] := by
  decide +kernel

end Verif.Vfs
