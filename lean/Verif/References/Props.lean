import Verif.References.Lemmas

/-!
Properties of the search for references and of renaming: C210 (what is listed), C211 (nothing is
missed), C212 (nothing is listed twice), C213 (declarations only if asked for), C214 (a rename
keeps names together), C215 (what a rename records).
-/
namespace Verif.References
open Spec

/-! ### Programs for the examples -/

/-- A program without names. -/
def noNames : World where
  goto _ _ := []
  isFollowed _ _ := false
  names _ := []
  others _ _ := []
  counterpart _ := none
  inFunction _ _ := false
  isDefinition _ _ := false
  checkedFiles := []
  allFiles := []
  mentions _ _ := true

/-- `c.py` (0) is `foo = 1`, `b.py` (1) is `from c import foo` and `foo`. -/
def oneImport : World :=
  { noNames with
    goto := fun f s => match f, s with
      | 0, 0 => [.tree 0 0]
      | 1, 14 => [.tree 0 0]
      | 1, 18 => [.tree 1 14]
      | _, _ => []
    isFollowed := fun f s => f == 1 && s == 14
    names := fun f => match f with
      | 0 => [(0, "foo")]
      | 1 => [(5, "c"), (14, "foo"), (18, "foo")]
      | _ => []
    isDefinition := fun f s => (f == 0 && s == 0) || (f == 1 && s == 14)
    checkedFiles := [0, 1]
    allFiles := [0, 1] }

/-- The same with `a.py` (2), which is `from b import foo` and `foo`. -/
def twoImports : World :=
  { oneImport with
    goto := fun f s => match f, s with
      | 0, 0 => [.tree 0 0]
      | 1, 14 => [.tree 0 0]
      | 1, 18 => [.tree 1 14]
      | 2, 14 => [.tree 1 14]
      | 2, 18 => [.tree 2 14]
      | _, _ => []
    isFollowed := fun f s => (f == 1 || f == 2) && s == 14
    names := fun f => match f with
      | 0 => [(0, "foo")]
      | 1 => [(5, "c"), (14, "foo"), (18, "foo")]
      | 2 => [(5, "b"), (14, "foo"), (18, "foo")]
      | _ => []
    checkedFiles := [0, 1, 2]
    allFiles := [0, 1, 2] }

theorem apart_of_trees {w : World}
    (hg : ∀ f s n, n ∈ w.goto f s → ∃ g t, n = .tree g t) (hc : ∀ n, w.counterpart n = none) :
    Apart w := by
  have tree : ∀ n, Mentioned w n → ∃ g t, n = Name.tree g t := by
    intro n h
    induction h with
    | name _ => exact ⟨_, _, rfl⟩
    | goto h => exact hg _ _ _ h
    | declaration _ hd ih =>
      cases hd with
      | itself => exact ih
      | other _ _ => exact ⟨_, _, rfl⟩
      | counterpart h => rw [hc] at h; cases h
      | counterpartOther h _ => exact ⟨_, _, rfl⟩
  intro n m hn hm h1 h2
  obtain ⟨g, t, rfl⟩ := tree n hn
  obtain ⟨g', t', rfl⟩ := tree m hm
  simp only [fileOf, startOf] at h1 h2
  rw [h1, h2]

theorem oneImport_apart : Apart oneImport := by
  refine apart_of_trees ?_ (fun _ => rfl)
  intro f s n h
  simp only [oneImport] at h
  split at h <;> first | (rw [List.mem_singleton] at h; exact ⟨_, _, h⟩) | cases h

/-! ### C210 -/

/-- C210, the full claim is that every listed name is a declaration of the symbol, or is the
searched name in a file that is searched and leads to a declaration, for all programs. Missing:
programs in which different things start at the same place (`Apart`, see `clash_violation`), and
names that lead to nothing. -/
theorem listed_refer_partial (w : World) (ha : Apart w) (goal : Goal) (incl : Bool) (f s : Nat)
    (name : String) (n : Name) (h : Symbol w f s n) (m : Name)
    (hm : m ∈ references w goal incl f s name) :
    DeclarationOf w n m ∨
      ∃ g t d, m = .tree g t ∧ Searched w goal f n name g ∧ (t, name) ∈ w.names g ∧
        DeclarationOf w n d ∧ Leads w g t d := by
  rcases (mem_references ha h).1 hm with ⟨g, t, rfl, hs, hc, _, d, hd, hn⟩ | ⟨_, hd, _⟩
  · refine .inr ⟨g, t, d, rfl, hs, hc, hd, ?_⟩
    cases hn with
    | step h => exact .step h
    | through h1 h2 h3 => exact .through h1 h2 (.step h3)
  · exact .inl hd

example : references oneImport .onlyTypeCheckedWorkspaces true 1 18 "foo" =
    [.tree 1 14, .tree 1 18, .tree 0 0] := by decide +kernel

example : Symbol oneImport 1 18 (.tree 0 0) := .imported rfl rfl rfl

/-- C210 is false: `foo.py` is `foo = 1`, and another file is `import foo` and `foo.foo`. Renaming
the module also changes the attribute in `foo.foo`, which is the variable and not the module: a
module has the position of the first byte of its file, which is also the position of the
variable. -/
theorem clash_violation : ∃ (w : World) (n m : Name), Symbol w 1 7 n ∧
    m ∈ references w .onlyTypeCheckedWorkspaces true 1 7 "foo" ∧ ¬ DeclarationOf w n m ∧
    ∀ g t d, m = .tree g t → DeclarationOf w n d → ¬ Leads w g t d := by
  refine ⟨{ noNames with
    goto := fun f s => match f, s with
      | 0, 0 => [.tree 0 0]
      | 1, 7 => [.module 0]
      | 1, 11 => [.tree 1 7]
      | 1, 15 => [.tree 0 0]
      | _, _ => []
    isFollowed := fun f s => f == 1 && s == 7
    names := fun f => match f with
      | 0 => [(0, "foo")]
      | 1 => [(7, "foo"), (11, "foo"), (15, "foo")]
      | _ => []
    checkedFiles := [0, 1] }, .module 0, .tree 1 15, ?_, by decide +kernel, ?_, ?_⟩
  · exact .direct rfl (by intro _ _ h; cases h)
  · intro h
    cases h with
    | other h _ => cases h
    | counterpart h => cases h
    | counterpartOther h _ => cases h
  · intro g t d hm hd hl
    injection hm with h1 h2
    subst h1; subst h2
    have hd' : d = .module 0 := by
      cases hd with
      | itself => rfl
      | other h _ => cases h
      | counterpart h => cases h
      | counterpartOther h _ => cases h
    subst hd'
    cases hl with
    | step h => simp at h
    | through h1 h2 _ =>
      simp at h1
      obtain ⟨rfl, rfl⟩ := h1
      simp at h2

/-! ### C211 -/

/-- C211, the full claim is that every place in the searched files where the name is written and
that leads to a declaration is listed. Missing: names that are imported from a file that imports
them (`chain_violation`), and uses of what a function defines in other files
(`local_violation`). -/
theorem nothing_missed_partial (w : World) (ha : Apart w)
    (hchain : ∀ g t, w.isFollowed g t = true → ∀ h u, Name.tree h u ∈ w.goto g t →
      w.isFollowed h u = false)
    (goal : Goal) (f s : Nat) (name : String) (n : Name) (h : Symbol w f s n)
    (g t : Nat) (hg : Searched w goal f n name g) (ht : (t, name) ∈ w.names g)
    (d : Name) (hd : DeclarationOf w n d) (hl : Leads w g t d)
    (hcur : goal = .onlyCurrentFile → g = f) :
    Name.tree g t ∈ references w goal true f s name := by
  have hnear : Near w g t d := by
    cases hl with
    | step h => exact .step h
    | through h1 h2 h3 =>
      cases h3 with
      | step h3 => exact .through h1 h2 h3
      | through h4 h5 _ =>
        rw [hchain _ _ h2 _ _ h4] at h5
        cases h5
  refine (mem_references ha h).2 ?_
  by_cases hdm : DeclarationOf w n (.tree g t)
  · exact .inr ⟨rfl, hdm, hcur⟩
  · exact .inl ⟨g, t, rfl, hg, ht, hdm, d, hd, hnear⟩

/-- All declarations are listed when they are asked for, whatever else is in the program. -/
theorem declarations_listed (w : World) (goal : Goal) (hg : goal ≠ .onlyCurrentFile) (f s : Nat)
    (name : String) (n : Name) (h : Symbol w f s n) (d : Name) (hd : DeclarationOf w n d) :
    d ∈ references w goal true f s name := by
  obtain ⟨x, _, _, hres, _, heq⟩ := references_of_symbol (goal := goal) (incl := true)
    (name := name) h
  rw [heq, List.mem_append, hres, List.mem_filter, mem_declarationsOf]
  refine .inr ⟨hd, ?_⟩
  cases goal with
  | onlyCurrentFile => exact absurd rfl hg
  | onlyTypeCheckedWorkspaces => rfl
  | allFilesIncludingDependencies => rfl

example : Leads oneImport 1 18 (.tree 0 0) ∧
    Searched oneImport .onlyTypeCheckedWorkspaces 0 (.tree 0 0) "foo" 1 ∧
    Symbol oneImport 0 0 (.tree 0 0) := by
  refine ⟨.through (g := 1) (t := 14) (by decide) rfl (.step (by decide)), ?_, ?_⟩
  · exact .checked (by intro _ _ _; rfl) rfl (by decide) rfl
  · exact .direct (rest := []) rfl (by
      intro g t h
      injection h with h1 h2
      subst h1; subst h2
      exact .inl rfl)

/-- C211 is false: `a.py` imports `foo` from `b.py`, which imports it from `c.py`. The use of `foo`
in `a.py` is not a reference of the definition in `c.py`, although the import in `a.py` is: names
are followed through one import only. Renaming `foo` breaks `a.py`. -/
theorem chain_violation : ∃ (w : World), Apart w ∧ Symbol w 0 0 (.tree 0 0) ∧
    Leads w 2 18 (.tree 0 0) ∧
    Searched w .onlyTypeCheckedWorkspaces 0 (.tree 0 0) "foo" 2 ∧ (18, "foo") ∈ w.names 2 ∧
    Name.tree 2 18 ∉ references w .onlyTypeCheckedWorkspaces true 0 0 "foo" ∧
    Name.tree 2 14 ∈ references w .onlyTypeCheckedWorkspaces true 0 0 "foo" := by
  refine ⟨twoImports, ?_, ?_, ?_, ?_, by decide, by decide +kernel, by decide +kernel⟩
  · refine apart_of_trees ?_ (fun _ => rfl)
    intro f s n h
    simp only [twoImports] at h
    split at h <;> first | (rw [List.mem_singleton] at h; exact ⟨_, _, h⟩) | cases h
  · exact .direct (rest := []) rfl (by
      intro g t h
      injection h with h1 h2
      subst h1; subst h2
      exact .inl rfl)
  · exact .through (g := 2) (t := 14) (by decide) rfl
      (.through (g := 1) (t := 14) (by decide) rfl (.step (by decide)))
  · exact .checked (by intro _ _ _; rfl) rfl (by decide) rfl

/-- C211 is false from the other end as well: for the use of `foo` in `a.py`, the definition in
`c.py` is not found. -/
theorem origin_violation : Leads twoImports 2 18 (.tree 0 0) ∧
    Name.tree 0 0 ∉ references twoImports .onlyTypeCheckedWorkspaces true 2 18 "foo" := by
  refine ⟨?_, by decide +kernel⟩
  exact .through (g := 2) (t := 14) (by decide) rfl
    (.through (g := 1) (t := 14) (by decide) rfl (.step (by decide)))

/-- C211 is false: a function in `b.py` (1) defines a class with the attribute `foo`, uses it and
returns an instance, and `a.py` (0) uses `foo` of the result. For the use in `a.py` the definition
is found in `b.py`, but the use in `b.py` is not searched for, because the attribute is taken for
a local name of `a.py`. -/
theorem local_violation : ∃ (w : World), Apart w ∧ Symbol w 0 10 (.tree 1 30) ∧
    Leads w 1 50 (.tree 1 30) ∧ 1 ∈ w.checkedFiles ∧ (50, "foo") ∈ w.names 1 ∧
    Name.tree 1 30 ∈ references w .onlyTypeCheckedWorkspaces true 0 10 "foo" ∧
    Name.tree 1 50 ∉ references w .onlyTypeCheckedWorkspaces true 0 10 "foo" := by
  refine ⟨{ noNames with
    goto := fun f s => match f, s with
      | 0, 10 => [.tree 1 30]
      | 1, 30 => [.tree 1 30]
      | 1, 50 => [.tree 1 30]
      | _, _ => []
    inFunction := fun f s => f == 1 && s == 30
    names := fun f => match f with
      | 0 => [(10, "foo")]
      | 1 => [(30, "foo"), (50, "foo")]
      | _ => []
    checkedFiles := [0, 1] }, ?_, ?_, ?_, by decide, by decide, by decide +kernel,
    by decide +kernel⟩
  · refine apart_of_trees ?_ (fun _ => rfl)
    intro f s n h
    dsimp only at h
    split at h <;> first | (rw [List.mem_singleton] at h; exact ⟨_, _, h⟩) | cases h
  · exact .direct rfl (fun _ _ _ => .inl rfl)
  · exact .step (by decide)

/-! ### C212 -/

/-- C212: no place is listed twice, so the edits of a rename do not overlap. -/
theorem references_nodup (w : World) (hw : WellFormed w) (goal : Goal) (incl : Bool) (f s : Nat)
    (name : String) : (references w goal incl f s name).Nodup := by
  unfold references
  split
  · simp
  · rename_i d hd
    rw [List.nodup_append]
    have hres : d.results.Nodup ∧ ∀ m, m ∈ d.results → uniquePosition m ∈ d.positions := by
      unfold findDefinitions at hd
      split at hd
      · injection hd with hd
        subst hd
        refine ⟨(nodup_declarationsOf hw _).filter _, ?_⟩
        intro m hm
        exact List.mem_cons_of_mem _ (List.mem_map.2 ⟨m, (List.mem_filter.1 hm).1, rfl⟩)
      · split at hd
        · injection hd with hd
          subst hd
          exact ⟨by simp, by intro m hm; rw [List.mem_singleton.1 hm]; exact List.mem_singleton.2 rfl⟩
        · cases hd
    refine ⟨nodup_search hw, hres.1, ?_⟩
    intro a ha b hb hab
    subst hab
    exact not_position_of_mem_search ha (hres.2 a hb)

theorem oneImport_wellFormed : WellFormed oneImport where
  checked := by decide
  all := by decide
  names := by
    intro f
    simp only [oneImport]
    split <;> decide
  others := by intro f s; simp [oneImport, noNames]
  counterpart := by intro n o h; cases h

example : (references oneImport .onlyTypeCheckedWorkspaces true 0 0 "foo").length = 3 := by
  decide +kernel

/-! ### C213 -/

/-- C213, the full claim is that no declaration of the name is listed if declarations are not asked
for, even for names that lead to nothing. Missing: those (`undeclared_violation`). -/
theorem no_declarations_partial (w : World) (ha : Apart w) (goal : Goal) (f s : Nat)
    (name : String) (n : Name) (h : Symbol w f s n) (m : Name)
    (hm : m ∈ references w goal false f s name) : ¬ DeclarationOf w n m := by
  rcases (mem_references ha h).1 hm with ⟨g, t, _, _, _, hnd, _⟩ | ⟨hf, _⟩
  · exact hnd
  · cases hf

/-- Leaving the declarations out changes nothing else. -/
theorem without_declarations (w : World) (goal : Goal) (f s : Nat) (name : String) (n : Name)
    (h : Symbol w f s n) :
    ∃ l, references w goal true f s name = references w goal false f s name ++ l ∧
      ∀ d, d ∈ l → DeclarationOf w n d := by
  obtain ⟨d1, h1, hp1, hr1, hg1, e1⟩ := references_of_symbol (goal := goal) (incl := true)
    (name := name) h
  obtain ⟨d2, h2, hp2, hr2, hg2, e2⟩ := references_of_symbol (goal := goal) (incl := false)
    (name := name) h
  refine ⟨d1.results, ?_, ?_⟩
  · have hnil : d2.results = [] := by
      rw [hr2]
      simp [shouldAdd]
    have hs : search w d1 goal f name = search w d2 goal f name := by
      unfold search
      rw [hp1, hp2, hg1, hg2]
    rw [e1, e2, hnil, List.append_nil, hs]
  · intro d hd
    rw [hr1, List.mem_filter] at hd
    exact mem_declarationsOf.1 hd.1

example : references oneImport .onlyTypeCheckedWorkspaces false 0 0 "foo" =
    [.tree 1 14, .tree 1 18] := by decide +kernel

/-- C213 is false: for the name of an import that cannot be resolved, the import itself is listed
although declarations are not asked for. -/
theorem undeclared_violation : ∃ (w : World), w.isDefinition 0 20 = true ∧ w.goto 0 20 = [] ∧
    references w .onlyTypeCheckedWorkspaces false 0 20 "foo" = [.tree 0 24, .tree 0 20] := by
  refine ⟨{ noNames with
    goto := fun f s => if f == 0 && s == 24 then [.tree 0 20] else []
    names := fun f => if f == 0 then [(5, "missing"), (20, "foo"), (24, "foo")] else []
    isDefinition := fun f s => f == 0 && s == 20
    checkedFiles := [0] }, by decide, by decide, by decide +kernel⟩

/-! ### C214 -/

/-- C214, the full claim is that a use of a name and what it leads to are renamed together, or both
are not. Missing: uses that lead to more than one thing (`union_violation`), imports of imports
(`chain_violation`), and names of functions. -/
theorem rename_links_partial (w : World) (ha : Apart w)
    (hchain : ∀ g t, w.isFollowed g t = true → ∀ h u, Name.tree h u ∈ w.goto g t →
      w.isFollowed h u = false)
    (f s : Nat) (name new : String) (hne : name ≠ new) (n : Name) (hs : Symbol w f s n)
    (hglobal : ∀ g t, n = .tree g t → w.inFunction g t = false)
    (c : RenameChanges) (hc : rename w f s name new = some c)
    (g t h u : Nat) (ht : (t, name) ∈ w.names g) (hu : (u, name) ∈ w.names h)
    (hg : g ∈ w.checkedFiles ∧ w.mentions g name = true)
    (hh : h ∈ w.checkedFiles ∧ w.mentions h name = true)
    (hnd : ¬ DeclarationOf w n (.tree g t))
    (honly : w.goto g t = [.tree h u])
    (hdef : w.isFollowed h u = false → w.goto h u = [.tree h u]) :
    Changed c g t ↔ Changed c h u := by
  have key : ∀ x y, Changed c x y ↔
      Name.tree x y ∈ references w .onlyTypeCheckedWorkspaces true f s name := by
    intro x y
    unfold rename at hc
    rw [if_neg (by simpa using hne)] at hc
    dsimp only at hc
    split at hc
    · cases hc
    · injection hc with hc
      rw [← hc, changed_foldl]
      constructor
      · rintro (⟨l, hl, _⟩ | h)
        · cases hl
        · exact h
      · exact .inr
  rw [key, key, mem_references ha hs, mem_references ha hs]
  have searched : ∀ {x}, x ∈ w.checkedFiles ∧ w.mentions x name = true →
      Searched w .onlyTypeCheckedWorkspaces f n name x := fun hx => .checked hglobal rfl hx.1 hx.2
  constructor
  · rintro (⟨g', t', he, _, _, _, d, hd, hnear⟩ | ⟨_, hd, _⟩)
    · injection he with h1 h2
      subst h1; subst h2
      by_cases hdu : DeclarationOf w n (.tree h u)
      · exact .inr ⟨rfl, hdu, by intro h; cases h⟩
      · refine .inl ⟨h, u, rfl, searched hh, hu, hdu, d, hd, ?_⟩
        cases hnear with
        | step hm =>
          rw [honly, List.mem_singleton] at hm
          rw [hm] at hd
          exact absurd hd hdu
        | through h1 h2 h3 =>
          rw [honly, List.mem_singleton] at h1
          injection h1 with h4 h5
          subst h4; subst h5
          exact .step h3
    · exact absurd hd hnd
  · rintro (⟨h', u', he, _, _, hdu, d, hd, hnear⟩ | ⟨_, hd, _⟩)
    · injection he with h1 h2
      subst h1; subst h2
      refine .inl ⟨g, t, rfl, searched hg, ht, hnd, d, hd, ?_⟩
      cases hf : w.isFollowed h u with
      | false =>
        exfalso
        have hgo := hdef hf
        cases hnear with
        | step hm =>
          rw [hgo, List.mem_singleton] at hm
          rw [hm] at hd
          exact hdu hd
        | through h1 h2 _ =>
          rw [hgo, List.mem_singleton] at h1
          injection h1 with h4 h5
          subst h4; subst h5
          rw [hf] at h2
          cases h2
      | true =>
        cases hnear with
        | step hm => exact .through (by rw [honly]; exact List.mem_singleton.2 rfl) hf hm
        | through h1 h2 _ =>
          rw [hchain _ _ hf _ _ h1] at h2
          cases h2
    · refine .inl ⟨g, t, rfl, searched hg, ht, hnd, _, hd, .step ?_⟩
      rw [honly]
      exact List.mem_singleton.2 rfl

example : rename oneImport 0 0 "foo" "bar" = some ⟨[(1, [14, 18]), (0, [0])], []⟩ := by
  decide +kernel

example : oneImport.goto 1 18 = [.tree 1 14] ∧ oneImport.isFollowed 1 14 = true ∧
    (∀ h u, Name.tree h u ∈ oneImport.goto 1 14 → oneImport.isFollowed h u = false) := by
  refine ⟨rfl, rfl, ?_⟩
  intro h u hm
  rw [show oneImport.goto 1 14 = [.tree 0 0] from rfl, List.mem_singleton] at hm
  injection hm with h1 h2
  subst h1; subst h2
  rfl

/-- C214 is false: `x` is of the type `A | B`, and both classes have the attribute `foo`. Renaming
`foo` of `A` also renames it in `x.foo`, but not `foo` of `B`, which `x.foo` leads to as well. The
same happens for a rename on `x.foo`. -/
theorem union_violation : ∃ (w : World) (c : RenameChanges), Apart w ∧ WellFormed w ∧
    Symbol w 0 10 (.tree 0 10) ∧ rename w 0 10 "foo" "bar" = some c ∧
    rename w 0 50 "foo" "bar" = some c ∧
    Name.tree 0 30 ∈ w.goto 0 50 ∧ Changed c 0 50 ∧ ¬ Changed c 0 30 := by
  refine ⟨{ noNames with
    goto := fun f s => match f, s with
      | 0, 10 => [.tree 0 10]
      | 0, 30 => [.tree 0 30]
      | 0, 50 => [.tree 0 10, .tree 0 30]
      | _, _ => []
    names := fun f => match f with
      | 0 => [(10, "foo"), (30, "foo"), (50, "foo")]
      | _ => []
    checkedFiles := [0] }, ⟨[(0, [50, 10])], []⟩, ?_, ?_, ?_, by decide +kernel,
    by decide +kernel, by decide, ⟨[50, 10], by decide, by decide⟩, ?_⟩
  · refine apart_of_trees ?_ (fun _ => rfl)
    intro f s n h
    dsimp only at h
    split at h
    · rw [List.mem_singleton] at h; exact ⟨_, _, h⟩
    · rw [List.mem_singleton] at h; exact ⟨_, _, h⟩
    · rcases List.mem_cons.1 h with h | h
      · exact ⟨_, _, h⟩
      · rw [List.mem_singleton] at h; exact ⟨_, _, h⟩
    · cases h
  · constructor
    · exact List.nodup_cons.2 ⟨by simp, by simp⟩
    · exact List.nodup_nil
    · intro f
      dsimp only
      split <;> decide
    · intro f s
      simp [noNames]
    · intro n o h
      cases h
  · exact .direct rfl (fun _ _ _ => .inl rfl)
  · rintro ⟨l, hl, hs⟩
    simp at hl
    subst hl
    simp at hs

/-! ### C215 -/

/-- C215: a rename to another name changes exactly the references: the names in the code at their
places, and modules by renaming their files. Every file is listed once, and no place twice. It is
an error if and only if there is no reference. -/
theorem rename_records (w : World) (f s : Nat) (name new : String) (hne : name ≠ new) :
    (rename w f s name new = none ↔
      references w .onlyTypeCheckedWorkspaces true f s name = []) ∧
    ∀ c, rename w f s name new = some c →
      (∀ g t, Changed c g t ↔
        Name.tree g t ∈ references w .onlyTypeCheckedWorkspaces true f s name) ∧
      (∀ g, g ∈ c.fileRenames ↔
        Name.module g ∈ references w .onlyTypeCheckedWorkspaces true f s name) ∧
      (c.changes.map (·.1)).Nodup ∧
      (WellFormed w → ∀ g l, (g, l) ∈ c.changes → l.Nodup) := by
  unfold rename
  rw [if_neg (by simpa using hne)]
  dsimp only
  constructor
  · constructor
    · intro h
      split at h
      · rename_i h'
        simpa using h'
      · cases h
    · intro h
      rw [h]
      rfl
  · intro c hc
    split at hc
    · cases hc
    · injection hc with hc
      subst hc
      refine ⟨?_, ?_, keys_foldl (by simp), ?_⟩
      · intro g t
        rw [changed_foldl]
        constructor
        · rintro (⟨l, hl, _⟩ | h)
          · cases hl
          · exact h
        · exact .inr
      · intro g
        rw [fileRenames_foldl]
        constructor
        · rintro (h | h)
          · cases h
          · exact h
        · exact .inr
      · intro hw
        refine nodup_foldl (by simp) (by intro g l h; cases h) (references_nodup w hw _ _ _ _ _) ?_
        rintro g t _ ⟨l, hl, _⟩
        cases hl

/-- C215: a rename to the same name changes nothing. -/
theorem rename_same (w : World) (f s : Nat) (name : String) :
    rename w f s name name = some ⟨[], []⟩ := by
  unfold rename
  rw [if_pos (beq_self_eq_true name)]

example : rename twoImports 0 0 "foo" "bar" = some ⟨[(1, [14, 18]), (2, [14]), (0, [0])], []⟩ := by
  decide +kernel

end Verif.References
