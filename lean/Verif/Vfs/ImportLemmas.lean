import Verif.Vfs.TidyLemmas
import Verif.Vfs.ImportSpec

/-! # Import resolution: lemmas -/

namespace Verif.Vfs

/-- The state of an import: the tree is in order and file `i` exists. -/
structure Going (docs : Docs) (d : Disk) (i : Nat) (s0 s : Vfs) : Prop where
  neat : Neat docs d s
  guards : Guards s0 s
  marks : s.marks = s0.marks
  dirs : ∀ p, treeGet s0.tree p = some (.dir true) → treeGet s.tree p = some (.dir true)
  lt : i < s.files.length

theorem Going.refl {docs : Docs} {d : Disk} {i : Nat} {s : Vfs} (h : Neat docs d s) (hi : i < s.files.length) : Going docs d i s s :=
  ⟨h, .refl s, rfl, fun _ h => h, hi⟩

theorem Going.trans {docs : Docs} {d : Disk} {i : Nat} {s t u : Vfs} (h1 : Going docs d i s t) (h2 : Going docs d i t u) : Going docs d i s u :=
  ⟨h2.neat, h1.guards.trans h2.guards, h2.marks.trans h1.marks, fun p h => h2.dirs p (h1.dirs p h), h2.lt⟩

theorem not_marked {s s' : Vfs} {i : Nat} (h : s'.marks = s.marks) : ¬ MarkedIn s s' i := by
  rintro ⟨m, o, h1, h2⟩
  rw [h] at h1
  have : m = [] := by
    have := congrArg List.length h1
    simp at this
    exact this
  rw [this] at h2
  simp at h2

theorem Going.missing {docs : Docs} {d : Disk} {i : Nat} {s s' : Vfs} (h : Going docs d i s s') {k : Nat} {p : Path} (hn : NotesMissing s k p) : NotesMissing s' k p :=
  (h.guards.missing k p hn).resolve_right (not_marked h.marks)

theorem Going.file {docs : Docs} {d : Disk} {i : Nat} {s s' : Vfs} (h : Going docs d i s s') {k : Nat} {p : Path} (hn : NotesFile s k p) : NotesFile s' k p :=
  (h.guards.file k p hn).resolve_right (not_marked h.marks)

/-! ## Steps -/

theorem entriesOf_going {docs : Docs} {d : Disk} {i : Nat} {s : Vfs} (p : Path) (h : Neat docs d s) (hl : Listed d) (hi : i < s.files.length) :
    Going docs d i s (entriesOf d p s) ∧ ((∃ b, treeGet s.tree p = some (.dir b)) → treeGet (entriesOf d p s).tree p = some (.dir true)) := by
  rw [entriesOf]
  split
  · rename_i hg
    obtain ⟨a1, a2, a3⟩ := readDir_inv h.inv hg
    refine ⟨⟨⟨a1, readDir_mirror h.inv h.mirror hl hg, links_extends a3 h.links⟩, readDir_guards d h.inv.base hg, a3.marks, a3.dirs, by rw [a3.files]; exact hi⟩, fun _ => a2⟩
  · rename_i hg
    refine ⟨.refl h hi, ?_⟩
    rintro ⟨b, hb⟩
    cases b with
    | true => exact hb
    | false => exact absurd hb hg

theorem addMissing_going {docs : Docs} {d : Disk} {i : Nat} {s : Vfs} (p : Path) (h : Neat docs d s) (hi : i < s.files.length) :
    Going docs d i s (addMissing i p s) := by
  obtain ⟨h1, h2⟩ := addMissing_neat i p h
  refine ⟨h1, h2, ?_, ?_, ?_⟩
  · rw [addMissing]
    split
    · split <;> rfl
    · rfl
  · intro q hq
    rw [addMissing]
    split
    · split
      · rename_i hg
        refine (treeGet_set _ _ _ _).trans ?_
        rw [if_neg (by rintro rfl; rw [hg] at hq; cases hq)]; exact hq
      · exact hq
      · exact hq
      · rename_i hg
        refine (treeGet_set _ _ _ _).trans ?_
        rw [if_neg (by rintro rfl; rw [hg] at hq; cases hq)]; exact hq
    · exact hq
  · rw [addMissing]
    split
    · split <;> exact hi
    · exact hi

theorem reserve_going {docs : Docs} {d : Disk} {i : Nat} {s : Vfs} (p : Path) (h : Neat docs d s) (hl : Listed d) (hi : i < s.files.length) :
    Going docs d i s (reserve d p s) := by
  obtain ⟨h1, h2⟩ := reserve_neat p h hl
  obtain ⟨_, hx, _⟩ := findFile_spec d p [] s h.inv.base (.inl rfl) (parentsOk_nil s)
  have hm : (reserve d p s).marks = s.marks ∧ (reserve d p s).tree = (findFile d [] p s).2.tree ∧ i < (reserve d p s).files.length := by
    rw [reserve]
    cases hff : findFile d [] p s with
    | mk o s1 =>
      rw [hff] at hx
      cases o with
      | none => exact ⟨hx.marks, rfl, by rw [hx.files]; exact hi⟩
      | some e =>
        dsimp only
        cases s1.index e with
        | some j => exact ⟨hx.marks, rfl, by rw [hx.files]; exact hi⟩
        | none =>
          refine ⟨hx.marks, rfl, ?_⟩
          show i < (s1.files ++ [_]).length
          rw [hx.files]
          simp
          omega
  exact ⟨h1, h2, hm.1, fun q hq => by rw [hm.2.1]; exact hx.dirs q hq, hm.2.2⟩

theorem depend_going {docs : Docs} {d : Disk} {i : Nat} {s : Vfs} (p : Path) (h : Neat docs d s) (hi : i < s.files.length) :
    Going docs d i s (depend i p s) := by
  obtain ⟨h1, h2⟩ := depend_neat i p h
  refine ⟨h1, h2, ?_, ?_, ?_⟩ <;> rw [depend] <;> split <;> first | rfl | exact hi | exact (fun _ h => h) | skip
  · split <;> rfl
  · split <;> exact (fun _ h => h)
  · split <;> exact hi

theorem takeFile_going {docs : Docs} {d : Disk} {i : Nat} {s : Vfs} (p : Path) (h : Neat docs d s) (hl : Listed d) (hi : i < s.files.length) :
    Going docs d i s (takeFile d i p s) := by
  have h1 := reserve_going p h hl hi
  exact h1.trans (depend_going p h1.neat h1.lt)

theorem isFile_iff (s : Vfs) (p : Path) : isFile s p = true ↔ ∃ e, treeGet s.tree p = some (.file e) := by
  rw [isFile]
  split
  · rename_i e he; exact ⟨fun _ => ⟨e, he⟩, fun _ => rfl⟩
  · rename_i hne
    refine ⟨(fun h => by cases h), ?_⟩
    rintro ⟨e, he⟩
    exact absurd he (hne e)

theorem parentsOk_child' {s : Vfs} {docs : Docs} {d : Disk} (h : Neat docs d s) {p : Path} (hp : p = [] ∨ treeGet s.tree p = some (.dir true)) (name : String) :
    ParentsOk s (p ++ [name]) := by
  refine parentsOk_append hp ?_ name
  rcases hp with rfl | hp
  · exact parentsOk_nil s
  · exact (h.inv.base.closed p _ hp).2

/-- In a directory that was read, the tree has exactly the files that are there. -/
theorem isFile_there {docs : Docs} {d : Disk} {s : Vfs} (h : Neat docs d s) {p : Path} (hp : p = [] ∨ treeGet s.tree p = some (.dir true)) (name : String) :
    isFile s (p ++ [name]) = true ↔ HasFile docs d (p ++ [name]) := by
  rw [isFile_iff]
  constructor
  · rintro ⟨e, he⟩; exact h.mirror.fileBack _ e he
  · rintro (⟨t, ht⟩ | ⟨t, ht⟩)
    · obtain ⟨_, _, _, e, a, _⟩ := open_at h.inv ht
      exact ⟨e, a⟩
    · exact h.mirror.file _ t (by simp) (parentsOk_child' h hp name) ht

/-- In a directory that was read, the tree has exactly the directories that are there. -/
theorem dir_there {docs : Docs} {d : Disk} {s : Vfs} (h : Neat docs d s) {p : Path} (hp : p = [] ∨ treeGet s.tree p = some (.dir true)) (name : String) :
    (∃ b, treeGet s.tree (p ++ [name]) = some (.dir b)) ↔ HasDir d (p ++ [name]) :=
  ⟨fun ⟨b, hb⟩ => h.mirror.dirBack _ b hb, fun hd => h.mirror.dir _ (by simp) (parentsOk_child' h hp name) hd⟩

theorem takeFile_notes {docs : Docs} {d : Disk} {i : Nat} {s : Vfs} {p : Path} (h : Neat docs d s) (hl : Listed d) (hi : i < s.files.length)
    (hf : isFile s p = true) : NotesFile (takeFile d i p s) i p := by
  obtain ⟨e, he⟩ := (isFile_iff s p).mp hf
  obtain ⟨hne, hpar⟩ := h.inv.base.closed p _ he
  have hff := findFile_found d p [] s e he hne (fun q _ a b c => hpar q a b c)
  have hr := reserve_going p h hl hi
  have hidx : ∃ j, (reserve d p s).index e = some j := by
    rw [reserve, hff]
    dsimp only
    cases hi : s.index e with
    | some j => exact ⟨j, hi⟩
    | none =>
      refine ⟨s.files.length, ?_⟩
      show (s.setIndexIfNone e s.files.length).index e = _
      rw [index_setIndexIfNone _ _ _ _ (h.inv.base.wf.node _ (mem_of_treeGet he) e rfl), if_pos rfl, hi]; rfl
  have htree : treeGet (reserve d p s).tree p = some (.file e) := by
    rw [reserve, hff]
    dsimp only
    cases s.index e <;> exact he
  obtain ⟨j, hj⟩ := hidx
  have hlen : e < (reserve d p s).entries.length := hr.neat.inv.base.wf.node _ (mem_of_treeGet htree) e rfl
  rw [takeFile, depend, htree]
  dsimp only
  rw [if_pos hr.lt]
  cases hinv : (reserve d p s).inv e with
  | invalidatesDb => exact absurd hinv (hr.neat.inv.base.noDb e)
  | files l =>
    obtain ⟨l', x, y, _⟩ := mem_add (x := i) hinv
    refine ⟨e, j, l', htree, ?_, ?_, y⟩
    · rw [Vfs.addInvalidation, index_setInv]; exact hj
    · rw [inv_addInvalidation _ _ _ _ hlen, if_pos rfl]; exact x

/-! ## What is recorded -/

/-- A directory without candidates, and without a directory of the name. -/
structure PassedModules (s : Vfs) (i : Nat) (stubs : Bool) (name : String) (p : Path) : Prop where
  py : NotesMissing s i (p ++ [name ++ ".py"])
  pyi : stubs = true → NotesMissing s i (p ++ [name ++ ".pyi"])

/-- What is recorded for an import that found no file. -/
inductive NotedNs (s : Vfs) (i : Nat) (stubs : Bool) (name : String) : List Path → List Path → Prop where
  | nil : NotedNs s i stubs name [] []
  | skip {p rest l} (h : PassedModules s i stubs name p) (hm : NotesMissing s i (p ++ [name])) (hr : NotedNs s i stubs name rest l) :
      NotedNs s i stubs name (p :: rest) l
  | dir {p rest l} (h : PassedModules s i stubs name p) (hi : NotesMissing s i (p ++ [name] ++ ["__init__.pyi"]))
      (hj : NotesMissing s i (p ++ [name] ++ ["__init__.py"])) (hr : NotedNs s i stubs name rest l) :
      NotedNs s i stubs name (p :: rest) ((p ++ [name]) :: l)

/-- What is recorded for an import that found a file. -/
inductive NotedFile (s : Vfs) (i : Nat) (stubs : Bool) (name : String) : List Path → Path → Prop where
  | stub {p rest} (h : NotesFile s i (p ++ [name] ++ ["__init__.pyi"])) : NotedFile s i stubs name (p :: rest) (p ++ [name] ++ ["__init__.pyi"])
  | init {p rest} (h : NotesFile s i (p ++ [name] ++ ["__init__.py"])) (hm : NotesMissing s i (p ++ [name] ++ ["__init__.pyi"])) :
      NotedFile s i stubs name (p :: rest) (p ++ [name] ++ ["__init__.py"])
  | module {p rest f} (h : NotesFile s i f) (hf : f = p ++ [name ++ ".pyi"] ∧ stubs = true ∨ f = p ++ [name ++ ".py"]) :
      NotedFile s i stubs name (p :: rest) f
  | skip {p rest f} (h : PassedModules s i stubs name p) (hm : NotesMissing s i (p ++ [name])) (hr : NotedFile s i stubs name rest f) :
      NotedFile s i stubs name (p :: rest) f
  | dir {p rest f} (h : PassedModules s i stubs name p) (hi : NotesMissing s i (p ++ [name] ++ ["__init__.pyi"]))
      (hj : NotesMissing s i (p ++ [name] ++ ["__init__.py"])) (hr : NotedFile s i stubs name rest f) :
      NotedFile s i stubs name (p :: rest) f

theorem nothing_of {docs : Docs} {d : Disk} {p : Path} (h1 : ¬ HasFile docs d p) (h2 : ¬ HasDir d p) : HasNothing docs d p := by
  constructor
  · cases h : docs p with
    | none => rfl
    | some t => exact absurd (.inl ⟨t, h⟩) h1
  · cases h : diskGet d p with
    | none => rfl
    | some n =>
      cases n with
      | file t => exact absurd (.inr ⟨t, h⟩) h1
      | dir => exact absurd h h2

theorem addMissing_in {docs : Docs} {d : Disk} {i : Nat} {s : Vfs} {p : Path} {name : String} (h : Neat docs d s) (hi : i < s.files.length)
    (hp : p = [] ∨ treeGet s.tree p = some (.dir true)) (hn : HasNothing docs d (p ++ [name])) :
    NotesMissing (addMissing i (p ++ [name]) s) i (p ++ [name]) :=
  addMissing_notes h (by simp) (parentsOk_child' h hp name) hi hn

theorem loadInit_spec {docs : Docs} {d : Disk} {i : Nat} {s : Vfs} {p : Path} (h : Neat docs d s) (hl : Listed d) (hi : i < s.files.length)
    (hp : ∃ b, treeGet s.tree p = some (.dir b)) (r : Option Path) (s' : Vfs) (hr : loadInit d i p s = (r, s')) :
    Going docs d i s s' ∧
    (r = none → ¬ HasFile docs d (p ++ ["__init__.pyi"]) ∧ ¬ HasFile docs d (p ++ ["__init__.py"]) ∧
      (¬ HasDir d (p ++ ["__init__.pyi"]) → NotesMissing s' i (p ++ ["__init__.pyi"])) ∧
      (¬ HasDir d (p ++ ["__init__.py"]) → NotesMissing s' i (p ++ ["__init__.py"]))) ∧
    (∀ f, r = some f → HasFile docs d f ∧ NotesFile s' i f ∧
      (f = p ++ ["__init__.pyi"] ∨ f = p ++ ["__init__.py"] ∧ ¬ HasFile docs d (p ++ ["__init__.pyi"]) ∧
        (¬ HasDir d (p ++ ["__init__.pyi"]) → NotesMissing s' i (p ++ ["__init__.pyi"])))) := by
  obtain ⟨g1, g2⟩ := entriesOf_going (i := i) p h hl hi
  have hp1 := g2 hp
  rw [loadInit] at hr
  simp only at hr
  by_cases hc : isFile (entriesOf d p s) (p ++ ["__init__.pyi"]) = true
  · rw [if_pos hc] at hr
    cases hr
    have hf := (isFile_there g1.neat (.inr hp1) _).mp hc
    refine ⟨g1.trans (takeFile_going _ g1.neat hl g1.lt), (by intro h; cases h), ?_⟩
    intro f hf'
    cases hf'
    exact ⟨hf, takeFile_notes g1.neat hl g1.lt hc, .inl rfl⟩
  · rw [if_neg hc] at hr
    have hnf : ¬ HasFile docs d (p ++ ["__init__.pyi"]) := fun hf => hc ((isFile_there g1.neat (.inr hp1) _).mpr hf)
    have g3 := addMissing_going (p ++ ["__init__.pyi"]) g1.neat g1.lt
    have hp2 := g3.dirs p hp1
    have hn2 : ¬ HasDir d (p ++ ["__init__.pyi"]) → NotesMissing (addMissing i (p ++ ["__init__.pyi"]) (entriesOf d p s)) i (p ++ ["__init__.pyi"]) :=
      fun hd => addMissing_in g1.neat g1.lt (.inr hp1) (nothing_of hnf hd)
    by_cases hc2 : isFile (addMissing i (p ++ ["__init__.pyi"]) (entriesOf d p s)) (p ++ ["__init__.py"]) = true
    · rw [if_pos hc2] at hr
      cases hr
      have hf := (isFile_there g3.neat (.inr hp2) _).mp hc2
      have g4 := takeFile_going (p ++ ["__init__.py"]) g3.neat hl g3.lt
      refine ⟨g1.trans (g3.trans g4), (by intro h; cases h), ?_⟩
      intro f hf'
      cases hf'
      exact ⟨hf, takeFile_notes g3.neat hl g3.lt hc2, .inr ⟨rfl, hnf, fun hd => g4.missing (hn2 hd)⟩⟩
    · rw [if_neg hc2] at hr
      cases hr
      have hnf2 : ¬ HasFile docs d (p ++ ["__init__.py"]) := fun hf => hc2 ((isFile_there g3.neat (.inr hp2) _).mpr hf)
      have g4 := addMissing_going (p ++ ["__init__.py"]) g3.neat g3.lt
      refine ⟨g1.trans (g3.trans g4), fun _ => ⟨hnf, hnf2, fun hd => g4.missing (hn2 hd), fun hd => ?_⟩, by intro f hf; cases hf⟩
      exact addMissing_in g3.neat g3.lt (.inr hp2) (nothing_of hnf2 hd)

theorem noteDirectory_spec {docs : Docs} {d : Disk} {i : Nat} {s : Vfs} {p : Path} {stubs : Bool} {name : String} {had : Bool} (h : Neat docs d s) (hi : i < s.files.length)
    (hp : p = [] ∨ treeGet s.tree p = some (.dir true)) : Going docs d i s (noteDirectory i stubs name p had s) ∧
    ((∀ x ∈ candidates stubs name p, HasNothing docs d x) → PassedModules (noteDirectory i stubs name p had s) i stubs name p) ∧
    (had = false → HasNothing docs d (p ++ [name]) → NotesMissing (noteDirectory i stubs name p had s) i (p ++ [name])) := by
  have keep : ∀ {t u : Vfs}, Going docs d i t u → (p = [] ∨ treeGet t.tree p = some (.dir true)) → (p = [] ∨ treeGet u.tree p = some (.dir true)) := by
    intro t u g hp
    rcases hp with hp | hp
    · exact .inl hp
    · exact .inr (g.dirs p hp)
  have g1 := addMissing_going (i := i) (p ++ [name ++ ".py"]) h hi
  have hp1 := keep g1 hp
  have g2 : Going docs d i (addMissing i (p ++ [name ++ ".py"]) s) (if stubs = true then addMissing i (p ++ [name ++ ".pyi"]) (addMissing i (p ++ [name ++ ".py"]) s) else addMissing i (p ++ [name ++ ".py"]) s) := by
    split
    · exact addMissing_going _ g1.neat g1.lt
    · exact .refl g1.neat g1.lt
  have hp2 := keep g2 hp1
  have g3 : Going docs d i (if stubs = true then addMissing i (p ++ [name ++ ".pyi"]) (addMissing i (p ++ [name ++ ".py"]) s) else addMissing i (p ++ [name ++ ".py"]) s)
      (noteDirectory i stubs name p had s) := by
    rw [noteDirectory]
    cases had with
    | true => exact .refl g2.neat g2.lt
    | false => exact addMissing_going _ g2.neat g2.lt
  refine ⟨g1.trans (g2.trans g3), ?_, ?_⟩
  · intro hn
    refine ⟨g3.missing (g2.missing (addMissing_in h hi hp (hn _ ?_))), ?_⟩
    · simp [candidates]
    · intro hs
      subst hs
      exact g3.missing (addMissing_in g1.neat g1.lt hp1 (hn _ (by simp [candidates])))
  · intro hh hn
    subst hh
    exact addMissing_in g2.neat g2.lt hp2 hn

end Verif.Vfs
