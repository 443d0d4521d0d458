import Verif.Vfs.ImportFrom

/-! # Import resolution: what the recorded dependencies say later -/

namespace Verif.Vfs

theorem FirstFile.unique {docs : Docs} {d : Disk} {l : List Path} {f g : Path} (hf : FirstFile docs d l f) (hg : FirstFile docs d l g) : f = g := by
  obtain ⟨a, b, h1, h2, h3⟩ := hf
  obtain ⟨a', b', k1, k2, k3⟩ := hg
  rw [h1] at k1
  rcases List.append_eq_append_iff.mp k1 with ⟨c, e1, e2⟩ | ⟨c, e1, e2⟩
  · cases c with
    | nil => simp at e2; exact e2.1
    | cons y c =>
      simp at e2
      refine absurd h2 (k3 f ?_)
      rw [e1, e2.1]; simp
  · cases c with
    | nil => simp at e2; exact e2.1.symm
    | cons y c =>
      simp at e2
      refine absurd k2 (h3 g ?_)
      rw [e1, e2.1]; simp

theorem FirstFile.mem {docs : Docs} {d : Disk} {l : List Path} {f : Path} (h : FirstFile docs d l f) : f ∈ l ∧ HasFile docs d f := by
  obtain ⟨a, b, h1, h2, _⟩ := h
  exact ⟨by rw [h1]; simp, h2⟩

theorem FirstFile.extend {docs : Docs} {d : Disk} {l : List Path} {f : Path} (h : FirstFile docs d l f) (l' : List Path) : FirstFile docs d (l ++ l') f := by
  obtain ⟨a, b, h1, h2, h3⟩ := h
  exact ⟨a, b ++ l', by rw [h1]; simp, h2, h3⟩

theorem FirstFile.after {docs : Docs} {d : Disk} {l : List Path} {f : Path} (h : FirstFile docs d l f) {l' : List Path} (hn : ∀ x ∈ l', ¬ HasFile docs d x) :
    FirstFile docs d (l' ++ l) f := by
  obtain ⟨a, b, h1, h2, h3⟩ := h
  refine ⟨l' ++ a, b, by rw [h1]; simp, h2, ?_⟩
  intro x hx
  rcases List.mem_append.mp hx with hx | hx
  · exact hn x hx
  · exact h3 x hx

theorem exists_first {docs : Docs} {d : Disk} {f : Path} : ∀ (a b : List Path), HasFile docs d f → ∃ g, FirstFile docs d (a ++ f :: b) g ∧ (g = f ∨ g ∈ a) := by
  intro a
  induction a with
  | nil => intro b hf; exact ⟨f, ⟨[], b, rfl, hf, by simp⟩, .inl rfl⟩
  | cons x a ih =>
    intro b hf
    by_cases hx : HasFile docs d x
    · exact ⟨x, ⟨[], a ++ f :: b, rfl, hx, by simp⟩, .inr (by simp)⟩
    · obtain ⟨g, hg, hm⟩ := ih b hf
      refine ⟨g, hg.after (l' := [x]) (by simpa using hx), hm.imp_right (fun h => List.mem_cons_of_mem _ h)⟩

theorem notesFile_there {docs : Docs} {d : Disk} {s : Vfs} {i : Nat} {p : Path} (h : Neat docs d s) (hn : NotesFile s i p) : HasFile docs d p := by
  obtain ⟨e, _, _, he, _⟩ := hn
  exact h.mirror.fileBack _ e he

theorem nothing_no_file {docs : Docs} {d : Disk} {p : Path} (h : HasNothing docs d p) : ¬ HasFile docs d p := by
  rintro (⟨t, ht⟩ | ⟨t, ht⟩)
  · rw [h.1] at ht; cases ht
  · rw [h.2] at ht; cases ht

theorem missing_no_file {docs : Docs} {d : Disk} {s : Vfs} {i : Nat} {p : Path} (h : Neat docs d s) (hn : NotesMissing s i p) : ¬ HasFile docs d p :=
  nothing_no_file (missing_nothing h hn)

theorem no_candidates {docs : Docs} {d : Disk} {s : Vfs} {i : Nat} {stubs : Bool} {name : String} {p : Path} (h : Neat docs d s) (hp : PassedModules s i stubs name p)
    (h1 : ¬ HasFile docs d (p ++ [name] ++ ["__init__.pyi"])) (h2 : ¬ HasFile docs d (p ++ [name] ++ ["__init__.py"])) :
    ∀ x ∈ candidates stubs name p, ¬ HasFile docs d x := by
  rw [List.append_assoc] at h1 h2
  intro x hx
  cases hst : stubs with
  | true =>
    rw [hst] at hx
    simp only [candidates, if_true, List.cons_append, List.nil_append, List.mem_cons, List.not_mem_nil, or_false] at hx
    rcases hx with rfl | rfl | rfl | rfl
    · exact h1
    · exact h2
    · exact missing_no_file h (hp.pyi hst)
    · exact missing_no_file h hp.py
  | false =>
    rw [hst] at hx
    simp only [candidates, Bool.false_eq_true, if_false, List.append_nil, List.cons_append, List.nil_append, List.mem_cons, List.not_mem_nil, or_false] at hx
    rcases hx with rfl | rfl | rfl
    · exact h1
    · exact h2
    · exact missing_no_file h hp.py

theorem no_candidates_skip {docs : Docs} {d : Disk} {s : Vfs} {i : Nat} {stubs : Bool} {name : String} {p : Path} (h : Neat docs d s) (hd : DiskOk d) (hh : Housed docs d)
    (hp : PassedModules s i stubs name p) (hm : NotesMissing s i (p ++ [name])) : ∀ x ∈ candidates stubs name p, ¬ HasFile docs d x := by
  have key : ∀ b, ¬ HasFile docs d (p ++ [name] ++ [b]) := by
    intro b hf
    have h1 : diskGet d (p ++ [name]) = some .dir := dir_above hd hh hf
    rw [(missing_nothing h hm).2] at h1; cases h1
  exact no_candidates h hp (key _) (key _)

theorem missing_below {docs : Docs} {d : Disk} {s : Vfs} {i : Nat} {p : Path} {a : String} (h : Neat docs d s) (hp : p ≠ []) (hn : NotesMissing s i (p ++ [a])) :
    diskGet d p = some .dir := by
  obtain ⟨l, h1, _⟩ := hn
  have := (h.inv.base.closed _ _ h1).2 p hp (List.prefix_append _ _) (by intro h; simpa using congrArg List.length h)
  exact h.mirror.dirBack _ true this

/-- The file of a recorded import is still the first one, unless it is a module and a more important
file is in its directory. -/
theorem NotedFile.first {docs : Docs} {d : Disk} {s : Vfs} {i : Nat} {stubs : Bool} {name : String} {dirs : List Path} {f : Path} (h : Neat docs d s) (hd : DiskOk d)
    (hh : Housed docs d) (hn : NotedFile s i stubs name dirs f) :
    ∃ g, FirstFile docs d (dirs.flatMap (candidates stubs name)) g ∧
      (g = f ∨ ∃ p ∈ dirs, (f = p ++ [name ++ ".pyi"] ∨ f = p ++ [name ++ ".py"]) ∧ MoreImportant stubs name p g f) := by
  induction hn with
  | stub h1 =>
    refine ⟨_, ?_, .inl rfl⟩
    rw [List.flatMap_cons]
    exact (first_stub (notesFile_there h h1)).extend _
  | init h1 hm =>
    refine ⟨_, ?_, .inl rfl⟩
    rw [List.flatMap_cons]
    exact (first_init (missing_no_file h hm) (notesFile_there h h1)).extend _
  | @module p rest f h1 hf =>
    have hsplit : ∃ a b, candidates stubs name p = a ++ f :: b := by
      have hmem : f ∈ candidates stubs name p := by
        rcases hf with ⟨rfl, rfl⟩ | rfl <;> simp [candidates]
      exact List.append_of_mem hmem
    obtain ⟨a, b, hab⟩ := hsplit
    obtain ⟨g, hg, hga⟩ := exists_first a b (notesFile_there h h1)
    refine ⟨g, ?_, ?_⟩
    · rw [List.flatMap_cons, hab]; exact hg.extend _
    · rcases hga with hga | hga
      · exact .inl hga
      · exact .inr ⟨p, by simp, hf.imp_left (·.1), a, b, hab, hga⟩
  | skip hp hm _ ih =>
    obtain ⟨g, hg, hor⟩ := ih
    refine ⟨g, ?_, ?_⟩
    · rw [List.flatMap_cons]; exact hg.after (no_candidates_skip h hd hh hp hm)
    · rcases hor with hor | ⟨q, hq, hor⟩
      · exact .inl hor
      · exact .inr ⟨q, List.mem_cons_of_mem _ hq, hor⟩
  | dir hp hi hj _ ih =>
    obtain ⟨g, hg, hor⟩ := ih
    refine ⟨g, ?_, ?_⟩
    · rw [List.flatMap_cons]; exact hg.after (no_candidates h hp (missing_no_file h hi) (missing_no_file h hj))
    · rcases hor with hor | ⟨q, hq, hor⟩
      · exact .inl hor
      · exact .inr ⟨q, List.mem_cons_of_mem _ hq, hor⟩

theorem NotedNs.none_there {docs : Docs} {d : Disk} {s : Vfs} {i : Nat} {stubs : Bool} {name : String} {dirs l : List Path} (h : Neat docs d s) (hd : DiskOk d)
    (hh : Housed docs d) (hn : NotedNs s i stubs name dirs l) :
    (∀ x ∈ dirs.flatMap (candidates stubs name), ¬ HasFile docs d x) ∧ (dirs.map (· ++ [name])).filter (fun p => diskGet d p == some .dir) = l := by
  induction hn with
  | nil => exact ⟨by simp, rfl⟩
  | @skip p rest l hp hm _ ih =>
    refine ⟨?_, ?_⟩
    · intro x hx
      rw [List.flatMap_cons] at hx
      rcases List.mem_append.mp hx with hx | hx
      · exact no_candidates_skip h hd hh hp hm x hx
      · exact ih.1 x hx
    · rw [List.map_cons, List.filter_cons, (missing_nothing h hm).2]
      simpa using ih.2
  | @dir p rest l hp hi hj _ ih =>
    refine ⟨?_, ?_⟩
    · intro x hx
      rw [List.flatMap_cons] at hx
      rcases List.mem_append.mp hx with hx | hx
      · exact no_candidates h hp (missing_no_file h hi) (missing_no_file h hj) x hx
      · exact ih.1 x hx
    · rw [List.map_cons, List.filter_cons, missing_below h (by simp) hi, ih.2]
      simp

theorem NotedFile.keep {s s' : Vfs} {i : Nat} {stubs : Bool} {name : String} {dirs : List Path} {f : Path} (g : Guards s s') (h : NotedFile s i stubs name dirs f)
    (hm : ¬ MarkedIn s s' i) : NotedFile s' i stubs name dirs f := by
  have km : ∀ {p}, NotesMissing s i p → NotesMissing s' i p := fun hn => (g.missing i _ hn).resolve_right hm
  have kf : ∀ {p}, NotesFile s i p → NotesFile s' i p := fun hn => (g.file i _ hn).resolve_right hm
  induction h with
  | stub h => exact .stub (kf h)
  | init h h2 => exact .init (kf h) (km h2)
  | module h hf => exact .module (kf h) hf
  | skip hp h2 _ ih => exact .skip ⟨km hp.py, fun hs => km (hp.pyi hs)⟩ (km h2) ih
  | dir hp h2 h3 _ ih => exact .dir ⟨km hp.py, fun hs => km (hp.pyi hs)⟩ (km h2) (km h3) ih

theorem NotedNs.keep {s s' : Vfs} {i : Nat} {stubs : Bool} {name : String} {dirs l : List Path} (g : Guards s s') (h : NotedNs s i stubs name dirs l)
    (hm : ¬ MarkedIn s s' i) : NotedNs s' i stubs name dirs l := by
  have km : ∀ {p}, NotesMissing s i p → NotesMissing s' i p := fun hn => (g.missing i _ hn).resolve_right hm
  induction h with
  | nil => exact .nil
  | skip hp h2 _ ih => exact .skip ⟨km hp.py, fun hs => km (hp.pyi hs)⟩ (km h2) ih
  | dir hp h2 h3 _ ih => exact .dir ⟨km hp.py, fun hs => km (hp.pyi hs)⟩ (km h2) (km h3) ih

/-- A name resolves to one thing. -/
theorem Resolves.unique {docs : Docs} {d : Disk} {stubs : Bool} {name : String} {dirs : List Path} {r r' : Option (Path ⊕ List Path)}
    (h : Resolves docs d stubs name dirs r) (h' : Resolves docs d stubs name dirs r') : r = r' := by
  have noFirst : ∀ {f}, FirstFile docs d (dirs.flatMap (candidates stubs name)) f → (∀ x ∈ dirs.flatMap (candidates stubs name), ¬ HasFile docs d x) → False :=
    fun hf hn => hn _ hf.mem.1 hf.mem.2
  have noDirs : (∀ p ∈ dirs, ¬ HasDir d (p ++ [name])) → (dirs.map (· ++ [name])).filter (fun p => diskGet d p == some .dir) = [] := by
    intro hn
    rw [List.filter_eq_nil_iff]
    intro q hq
    obtain ⟨p, hp, rfl⟩ := List.mem_map.mp hq
    have := hn p hp
    unfold HasDir at this
    simpa using this
  cases h with
  | file f hf =>
    cases h' with
    | file g hg => rw [hf.unique hg]
    | «namespace» hn _ => exact (noFirst hf hn).elim
    | nothing hn _ => exact (noFirst hf hn).elim
  | «namespace» hn hne =>
    cases h' with
    | file g hg => exact (noFirst hg hn).elim
    | «namespace» _ _ => rfl
    | nothing _ hd => exact absurd (noDirs hd) hne
  | nothing hn hd =>
    cases h' with
    | file g hg => exact (noFirst hg hn).elim
    | «namespace» _ hne => exact absurd (noDirs hd) hne
    | nothing _ _ => rfl

/-! ## Histories with imports -/

/-- A happening, or an import. -/
inductive Deed where
  | event (h : Happening)
  /-- The analysis of file `i` imports `name`. -/
  | «import» (i : Nat) (follow stubs : Bool) (name : String) (dirs : List (Path × Bool))

/-- What happens outside. -/
def Deed.happening : Deed → Option Happening
  | .event h => some h
  | .import .. => none

/-- A directory of the tree, or the workspace. -/
def inTree (s : Vfs) (p : Path) : Bool :=
  p.isEmpty || match treeGet s.tree p with
    | some (.dir _) => true
    | _ => false

/-- An import of a file that exists, over search directories of the tree. The code passes references
to directories, crates/zuban_python/src/imports.rs 350-361. -/
def doImport (d : Disk) (i : Nat) (follow stubs : Bool) (name : String) (dirs : List (Path × Bool)) (s : Vfs) : Vfs :=
  if i < s.files.length then (pythonImport d i follow stubs name (dirs.filter (fun x => inTree s x.1)) s).2 else s

/-- A history with imports. -/
def perform (docs : Docs) (d : Disk) : List Deed → Vfs → Except Fault Vfs
  | [], s => .ok s
  | .event h :: ds, s =>
    match happen d h s with
    | .ok s' => perform (outside docs d h).1 (outside docs d h).2 ds s'
    | .error e => .error e
  | .import i follow stubs name dirs :: ds, s => perform docs d ds (doImport d i follow stubs name dirs s)

theorem inTree_iff (s : Vfs) (p : Path) : inTree s p = true ↔ p = [] ∨ ∃ b, treeGet s.tree p = some (.dir b) := by
  rw [inTree, Bool.or_eq_true, List.isEmpty_iff]
  refine or_congr_right ?_
  split
  · rename_i b hb; exact ⟨fun _ => ⟨b, hb⟩, fun _ => rfl⟩
  · rename_i hn
    refine ⟨(fun h => by cases h), ?_⟩
    rintro ⟨b, hb⟩
    exact absurd hb (hn b)

theorem doImport_neat {docs : Docs} {d : Disk} {i : Nat} {follow stubs : Bool} {name : String} {dirs : List (Path × Bool)} {s : Vfs} (h : Neat docs d s)
    (hl : Listed d) (hd : DiskOk d) (hh : Housed docs d) : Neat docs d (doImport d i follow stubs name dirs s) ∧ Guards s (doImport d i follow stubs name dirs s) := by
  rw [doImport]
  split
  · rename_i hi
    have hdirs : ∀ x ∈ dirs.filter (fun x => inTree s x.1), x.1 = [] ∨ ∃ b, treeGet s.tree x.1 = some (.dir b) := by
      intro x hx
      exact (inTree_iff s x.1).mp (List.mem_filter.mp hx).2
    have := (importFrom_spec (follow := follow) (stubs := stubs) (name := name) hl hd hh _ [] s h hi hdirs _ _ rfl).1
    exact ⟨this.neat, this.guards⟩
  · exact ⟨h, .refl s⟩

theorem perform_neat : ∀ (ds : List Deed) (docs : Docs) (d : Disk) (s s' : Vfs), Neat docs d s → DiskOk d → Orderly d (ds.filterMap Deed.happening) →
    AlwaysHoused docs d (ds.filterMap Deed.happening) → (∀ p, Deed.event (.preload p) ∉ ds) → perform docs d ds s = .ok s' →
    let out := outsideAll docs d (ds.filterMap Deed.happening)
    Neat out.1 out.2 s' ∧ Guards s s' ∧ DiskOk out.2 ∧ Listed out.2 ∧ Housed out.1 out.2 := by
  intro ds
  induction ds with
  | nil => intro docs d s s' h hd _ ht _ hok; rw [perform] at hok; cases hok; exact ⟨h, .refl s, hd, (tidy_head ht).2, (tidy_head ht).1⟩
  | cons x ds ih =>
    intro docs d s s' h hd ho ht hn hok
    cases x with
    | event e =>
      rw [perform] at hok
      have hf : (Deed.event e :: ds).filterMap Deed.happening = e :: ds.filterMap Deed.happening := rfl
      rw [hf] at ho ht ⊢
      cases h1 : happen d e s with
      | error c => rw [h1] at hok; cases hok
      | ok s1 =>
        rw [h1] at hok
        obtain ⟨o1, o2, o3⟩ := orderly_append [e] (ds.filterMap Deed.happening) docs d hd ho
        obtain ⟨t1, t2⟩ := tidy_append [e] (ds.filterMap Deed.happening) docs d ht
        obtain ⟨n1, g1⟩ := happen_neat h hd (tidy_head ht).2 o1 (fun p hp => hn p (by rw [hp]; simp)) (tidy_head t2).1 h1
        obtain ⟨n2, g2, r⟩ := ih _ _ s1 s' n1 o3 o2 t2 (fun p hp => hn p (List.mem_cons_of_mem _ hp)) hok
        exact ⟨n2, g1.trans g2, r⟩
    | «import» i follow stubs name dirs =>
      rw [perform] at hok
      have hf : (Deed.import i follow stubs name dirs :: ds).filterMap Deed.happening = ds.filterMap Deed.happening := rfl
      rw [hf] at ho ht ⊢
      obtain ⟨n1, g1⟩ := doImport_neat (i := i) (follow := follow) (stubs := stubs) (name := name) (dirs := dirs) h (tidy_head ht).2 hd (tidy_head ht).1
      obtain ⟨n2, g2, r⟩ := ih _ _ _ s' n1 hd ho ht (fun p hp => hn p (List.mem_cons_of_mem _ hp)) hok
      exact ⟨n2, g1.trans g2, r⟩

end Verif.Vfs
