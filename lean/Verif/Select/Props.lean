import Verif.Select.Lemmas

/-!
# Properties of the selection of files
-/

namespace Verif.Select

variable (w : World)

/-! ## C194: without arguments -/

/-- Walking a directory adds exactly the selected files, and it leaves the `.gitignore` files as they were. -/
theorem walk_directory (root rel : Path) (es : Entries) (s : State) (hs : s.gitignores = []) :
    (handleEntries w root rel es s).gitignores = [] ∧
    ∀ f, f ∈ (handleEntries w root rel es s).files ↔ f ∈ s.files ∨ Spec.Selected w (root ++ rel) rel es f := by
  rw [handleEntries_eq, hs]
  refine ⟨hs, fun f => ?_⟩
  simp only [State.more, List.mem_append, mem_outDir_iff]

theorem search_all (wss : List Workspace) :
    (∀ fs, search w wss [] [] = some fs →
      ∀ f, f ∈ fs ↔ Spec.InWorkspaces w (fun ws => ws.checked = true) wss f) ∧
    (search w wss [] [] = none ↔ ¬ ∃ f, Spec.InWorkspaces w (fun ws => ws.checked = true) wss f) := by
  have key : ∀ f, f ∈ outWss w (·.checked) wss ↔ Spec.InWorkspaces w (fun ws => ws.checked = true) wss f := by
    intro f; rw [mem_outWss]; rfl
  have e : search w wss [] [] = if outWss w (·.checked) wss = [] then none else some (outWss w (·.checked) wss) := by
    unfold search searchAll
    rw [handleWorkspaces_eq w _ wss _ rfl]
    change (if _ then _ else _) = _
    simp only [List.isEmpty_nil, Bool.and_self, if_true]
    change (if (State.more ⟨[], false, []⟩ (outWss w (·.checked) wss)).added = true then _ else _) = _
    cases h : outWss w (·.checked) wss with
    | nil => simp [State.more]
    | cons a l => simp [State.more]; rw [← h]; rfl
  rw [e]
  constructor
  · intro fs h
    split at h
    · simp at h
    · cases h; exact key
  · constructor
    · intro h
      split at h
      · rename_i hn
        rintro ⟨f, hf⟩
        rw [← key, hn] at hf; simp at hf
      · simp at h
    · intro h
      rw [if_pos]
      cases hl : outWss w (·.checked) wss with
      | nil => rfl
      | cons a l => exact absurd ⟨a, (key a).1 (by rw [hl]; simp)⟩ h

/-! ## C195: directories that are named -/

theorem noIgnore (h : w.useGitignore = false) (abs : Path) (up : List (Path × Entries)) (p : Path) (b : Bool) :
    ¬ Spec.IgnoredBy w abs up p b := by
  rintro ⟨h', _⟩; simp [h] at h'

theorem open_iff (h : w.useGitignore = false) (abs rel : Path) {es : Entries} {up : List (Path × Entries)} {p : Path}
    {cur : Entries} (hb : Spec.Below es up p cur) :
    Spec.Open w abs rel up ↔ ∀ q, q ≠ [] → q <+: p → w.excluded (rel ++ q) = false := by
  induction hb with
  | here =>
    constructor
    · intro _ q hq hp; simp at hp; exact absurd hp hq
    · intro _; exact .here es
  | step up p cur n sub hb hm ih =>
    constructor
    · intro ho q hq hp
      obtain ⟨ho, h1, _⟩ := open_step w ho (below_ne hb)
      rw [List.prefix_concat_iff] at hp
      rcases hp with rfl | hp
      · exact h1
      · exact ih.1 ho q hq hp
    · intro ho
      refine .step _ _ (ih.2 fun q hq hp => ho q hq (hp.trans (List.prefix_append _ _))) ?_ (noIgnore w h _ _ _ _)
      exact ho _ (by simp) (List.prefix_refl _)

theorem below_append {es mid cur : Entries} {up up' : List (Path × Entries)} {p r : Path} (h : Spec.Below es up p mid)
    (h' : Spec.Below mid up' r cur) : ∃ up'', Spec.Below es up'' (p ++ r) cur := by
  induction h' with
  | here => exact ⟨up, by simpa using h⟩
  | step up' r cur n sub _ hm ih =>
    obtain ⟨up'', ih⟩ := ih
    exact ⟨_, by rw [← List.append_assoc]; exact .step up'' (p ++ r) cur n sub ih hm⟩

theorem below_split {es cur : Entries} {up : List (Path × Entries)} {q : Path} (h : Spec.Below es up q cur) :
    ∀ p r, q = p ++ r → ∃ up' mid up'', Spec.Below es up' p mid ∧ Spec.Below mid up'' r cur := by
  induction h with
  | here =>
    intro p r hq
    obtain ⟨rfl, rfl⟩ : p = [] ∧ r = [] := by simpa using hq.symm
    exact ⟨_, _, _, .here, .here⟩
  | step up q cur n sub hb hm ih =>
    intro p r hq
    rcases List.eq_nil_or_concat r with rfl | ⟨r, m, rfl⟩
    · simp at hq; subst hq
      exact ⟨_, _, _, .step up q cur n sub hb hm, .here⟩
    · simp only [List.concat_eq_append] at hq
      rw [← List.append_assoc] at hq
      obtain ⟨h1, h2⟩ := List.append_inj' hq rfl
      simp at h2; subst h2
      obtain ⟨up', mid, up'', h3, h4⟩ := ih p r h1
      exact ⟨up', mid, _, h3, by simpa using Spec.Below.step up'' r cur n sub h4 hm⟩

theorem nodup_unique {es : Entries} (h : (es.map (·.1)).Nodup) {n : Name} {a b : Entry} (ha : (n, a) ∈ es)
    (hb : (n, b) ∈ es) : a = b := by
  induction es with
  | nil => simp at ha
  | cons e es ih =>
    simp only [List.map_cons, List.nodup_cons, List.mem_map, not_exists, not_and] at h
    rcases List.mem_cons.1 ha with ha | ha <;> rcases List.mem_cons.1 hb with hb | hb
    · rw [← ha] at hb; exact (Prod.mk.inj hb).2.symm
    · exact absurd (by rw [← ha]) (h.1 (n, b) hb)
    · exact absurd (by rw [← hb]) (h.1 (n, a) ha)
    · exact ih h.2 ha hb

theorem below_unique {es mid mid' : Entries} {up up' : List (Path × Entries)} {p : Path} (hu : Spec.Unique es)
    (h : Spec.Below es up p mid) (h' : Spec.Below es up' p mid') : mid = mid' := by
  induction h generalizing up' mid' with
  | here =>
    generalize hp : ([] : Path) = p at h'
    cases h' with
    | here => rfl
    | step up p cur n sub _ _ => simp at hp
  | step up p cur n sub hb hm ih =>
    generalize hp : p ++ [n] = p' at h'
    cases h' with
    | here => simp at hp
    | step up1 p1 cur1 n1 sub1 hb1 hm1 =>
      obtain ⟨rfl, h2⟩ := List.append_inj' hp rfl
      simp at h2; subst h2
      have := ih hb1; subst this
      have := nodup_unique (hu _ _ _ hb) hm hm1
      cases this; rfl

/-- If `.gitignore` files are not used, then the files of a directory that is named are those that are below it when
everything is checked. -/
theorem named_directory_partial (hg : w.useGitignore = false) (root : Path) (es : Entries) (hu : Spec.Unique es)
    (up : List (Path × Entries)) (p : Path) (cur : Entries) (hb : Spec.Below es up p cur)
    (ho : Spec.Open w root [] up) (f : Path) :
    f ∈ (handleEntries w root p cur ⟨[], false, []⟩).files ↔
      Spec.Selected w root [] es f ∧ ∃ rest, rest ≠ [] ∧ f = root ++ p ++ rest := by
  rw [(walk_directory w root p cur ⟨[], false, []⟩ rfl).2 f]
  simp only [List.not_mem_nil, false_or]
  rw [open_iff w hg _ _ hb] at ho
  constructor
  · rintro ⟨up1, r, cur1, n, hb1, rfl, hm, h1, h2, h3, ho1, h4⟩
    rw [open_iff w hg _ _ hb1] at ho1
    obtain ⟨up2, hb2⟩ := below_append hb hb1
    refine ⟨⟨up2, p ++ r, cur1, n, hb2, by simp, hm, h1, h2, by simpa using h3, ?_, noIgnore w hg _ _ _ _⟩,
      r ++ [n], by simp, by simp⟩
    rw [open_iff w hg _ _ hb2]
    intro q hq hp
    rcases List.prefix_or_prefix_of_prefix hp (List.prefix_append p r) with h | h
    · exact ho q hq h
    · obtain ⟨t, rfl⟩ := h
      rw [List.prefix_append_right_inj] at hp
      cases t with
      | nil => simpa using ho _ hq (by simp)
      | cons x t => simpa using ho1 (x :: t) (by simp) hp
  · rintro ⟨⟨up1, q, cur1, n, hb1, hf, hm, h1, h2, h3, ho1, h4⟩, rest, hr, rfl⟩
    rw [open_iff w hg _ _ hb1] at ho1
    rcases List.eq_nil_or_concat rest with rfl | ⟨r, m, rfl⟩
    · exact absurd rfl hr
    · simp only [List.concat_eq_append, List.append_assoc, List.append_cancel_left_eq] at hf
      rw [← List.append_assoc] at hf
      obtain ⟨h5, h6⟩ := List.append_inj' hf rfl
      simp at h6; subst h6
      subst h5
      obtain ⟨up', mid, up'', h7, h8⟩ := below_split hb1 p r rfl
      have := below_unique hu hb h7; subst this
      refine ⟨up'', r, cur1, m, h8, by simp, hm, h1, h2, by simpa using h3, ?_, noIgnore w hg _ _ _ _⟩
      rw [open_iff w hg _ _ h8]
      intro t ht htr
      simpa using ho1 (p ++ t) (by simp [ht]) ((List.prefix_append_right_inj p).2 htr)

/-- The full statement: a directory that is named has the files that are checked in it otherwise. -/
def NamedDirectoriesAreConsistent : Prop :=
  ∀ (w : World) (root : Path) (es : Entries) (up : List (Path × Entries)) (p : Path) (cur : Entries),
    Spec.Unique es → Spec.Below es up p cur → Spec.Open w root [] up →
    ∀ f, f ∈ (handleEntries w root p cur ⟨[], false, []⟩).files → Spec.Selected w root [] es f

namespace Example

def a : Name := ⟨0, .py⟩
def src : Name := ⟨1, .other⟩
def gitignoreName : Name := ⟨2, .other⟩

/-- `.gitignore` number 0 has the pattern `0.py`, number 1 has `!0.py`. -/
def world : World where
  excluded := fun _ => false
  matched := fun g p _ => if p.getLast? = some a then (if g = 0 then .ignore else .keep) else .no
  useGitignore := true

/-- A project with a `.gitignore`, and a directory with a file. -/
def inner : Entries := [(a, .file)]
def project : Entries := [(gitignoreName, .gitignore 0), (src, .dir false inner)]

theorem below : Spec.Below project [([src], inner), ([], project)] [src] inner :=
  .step [([], project)] [] project src inner .here (by simp [project])

/-- All directories of the project. -/
theorem below_project {up : List (Path × Entries)} {p : Path} {cur : Entries} (h : Spec.Below project up p cur) :
    (up = [([], project)] ∧ p = [] ∧ cur = project) ∨
    (up = [([src], inner), ([], project)] ∧ p = [src] ∧ cur = inner) := by
  induction h with
  | here => exact .inl ⟨rfl, rfl, rfl⟩
  | step up p cur n sub _ hm ih =>
    rcases ih with ⟨rfl, rfl, rfl⟩ | ⟨rfl, rfl, rfl⟩
    · simp [project] at hm
      obtain ⟨rfl, rfl⟩ := hm
      exact .inr ⟨rfl, rfl, rfl⟩
    · simp [inner] at hm

theorem unique_project : Spec.Unique project := by
  intro up p cur h
  rcases below_project h with ⟨_, _, rfl⟩ | ⟨_, _, rfl⟩ <;> decide

theorem hasIgnore_project : Spec.HasIgnore project 0 := ⟨[], gitignoreName, [(src, .dir false inner)], rfl, by simp⟩

theorem open_project : Spec.Open world [] [] [([src], inner), ([], project)] := by
  refine .step _ _ (.here _) rfl ?_
  rintro ⟨_, d, hd, g, hg, hm⟩
  have : ([] ++ [src] : Path).getLast? ≠ some a := by decide
  simp [world, src, a] at hm

end Example

/-- In a project whose `.gitignore` has the pattern `0.py`, the file `src/0.py` is not checked. But it is checked by
`zuban check src`: only `.gitignore` files below the directory that is named are used. -/
theorem named_directory_violation : ¬ NamedDirectoriesAreConsistent := by
  intro h
  have := h Example.world [] Example.project _ _ _ Example.unique_project Example.below Example.open_project
    [Example.src, Example.a] (by
      rw [(walk_directory _ [] _ _ _ rfl).2]
      refine .inr ⟨[([], Example.inner)], [], Example.inner, Example.a, .here, rfl, by simp [Example.inner], .inl rfl,
        by simp [Example.inner, Example.a], rfl, .here _, ?_⟩
      rintro ⟨_, d, hd, g, ⟨pre, n, post, he, _⟩, _⟩
      simp at hd; subst hd
      have : (n, Entry.gitignore g) ∈ Example.inner := by
        have e : Example.inner = pre ++ (n, Entry.gitignore g) :: post := he
        rw [e]; simp
      simp [Example.inner] at this)
  obtain ⟨up, p, cur, n, hb, hf, hm, _, _, _, _, hi⟩ := this
  rcases Example.below_project hb with ⟨rfl, rfl, rfl⟩ | ⟨rfl, rfl, rfl⟩
  · simp at hf
  · simp at hf; subst hf
    exact hi ⟨rfl, _, by simp; exact .inr rfl, 0, Example.hasIgnore_project, by decide⟩

/-- The hypotheses of `named_directory_partial` are met. -/
example : ([Example.src, Example.a] : Path) ∈
    (handleEntries { Example.world with useGitignore := false } [] [Example.src] Example.inner ⟨[], false, []⟩).files := by
  decide

/-! ## C196: Git's rule -/

/-- The full statement: what a `.gitignore` says is what Git makes of it. -/
def IgnoresLikeGit : Prop :=
  ∀ (w : World) (abs p : Path) (b : Bool) (gs : List Nat) (up : List (Path × Entries)), w.useGitignore = true →
    InForce w gs up → (ignored w gs (abs ++ p) b = true ↔ Spec.GitIgnores w abs p b up)

/-- A `.gitignore` has the pattern `0.py`; the one in the directory `src` has `!0.py`. Git does not ignore `src/0.py`, but
the file is not checked. -/
theorem git_violation : ¬ IgnoresLikeGit := by
  intro h
  let sub : Entries := [(Example.gitignoreName, .gitignore 1), (Example.a, .file)]
  have i1 : Spec.HasIgnore sub 1 := ⟨[], Example.gitignoreName, [(Example.a, .file)], rfl, by simp⟩
  have hf := inForce_step Example.world (inForce_here Example.world Example.project) [Example.src] sub
  have := (h Example.world [] [Example.src, Example.a] false _ _ rfl hf).1 (by decide)
  cases this with
  | here _ _ g hg hm =>
    have := hasIgnore_unique i1 hg; subst this
    exact absurd hm (by decide)
  | above _ _ hn _ => exact absurd (hn 1 i1) (by decide)

/-- Without patterns that have a `!` paths are ignored as by Git. -/
theorem git_partial (abs p : Path) (b : Bool) (gs : List Nat) (up : List (Path × Entries)) (hg : w.useGitignore = true)
    (hk : ∀ d ∈ up, ∀ g, Spec.HasIgnore d.2 g → w.matched g (abs ++ p) b ≠ .keep) (hf : InForce w gs up) :
    ignored w gs (abs ++ p) b = true ↔ Spec.GitIgnores w abs p b up := by
  rw [ignored_iff w hf]
  clear hf
  have aux : (∃ d ∈ up, ∃ g, Spec.HasIgnore d.2 g ∧ w.matched g (abs ++ p) b = .ignore) ↔
      Spec.GitIgnores w abs p b up := by
    constructor
    · intro h
      induction up with
      | nil => simp at h
      | cons d up ih =>
        by_cases hd : ∃ g, Spec.HasIgnore d.2 g ∧ w.matched g (abs ++ p) b = .ignore
        · obtain ⟨g, h1, h2⟩ := hd
          exact .here d up g h1 h2
        · obtain ⟨e, he, g, h1, h2⟩ := h
          rcases List.mem_cons.1 he with rfl | he
          · exact absurd ⟨g, h1, h2⟩ hd
          · refine .above d up ?_ (ih (fun d hd => hk d (List.mem_cons_of_mem _ hd)) ⟨e, he, g, h1, h2⟩)
            intro g' hg'
            have := hk d (List.mem_cons_self ..) g' hg'
            cases hm : w.matched g' (abs ++ p) b with
            | no => rfl
            | keep => exact absurd hm this
            | ignore => exact absurd ⟨g', hg', hm⟩ hd
    · intro h
      induction h with
      | here d up g h1 h2 => exact ⟨d, List.mem_cons_self .., g, h1, h2⟩
      | above d up _ _ ih =>
        obtain ⟨e, he, r⟩ := ih (fun d hd => hk d (List.mem_cons_of_mem _ hd))
        exact ⟨e, List.mem_cons_of_mem _ he, r⟩
  rw [← aux]
  constructor
  · rintro ⟨_, h⟩; exact h
  · intro h; exact ⟨hg, h⟩

/-- A path that is not ignored, although there is a `.gitignore`. -/
example : InForce Example.world ([] ++ (gitignoreOf Example.world Example.project).toList) [([], Example.project)] :=
  inForce_here _ _

/-! ## C197: arguments -/

theorem outFound_iff (x : Found) (f : Path) : f ∈ outFound w x ↔ Spec.FoundFile w x f := by
  cases x with
  | dir root rel es => exact mem_outDir_iff w root rel es f
  | file g => simp [outFound, Spec.FoundFile]
  | nothing => simp [outFound, Spec.FoundFile]

theorem outArg_iff (wss : List Workspace) (a : Arg) (f : Path) : f ∈ outArg w wss a ↔ Spec.ArgFile w wss a f := by
  unfold outArg Spec.ArgFile
  cases a.found with
  | dir root rel es => exact outFound_iff w _ f
  | file g => exact outFound_iff w _ f
  | nothing =>
    have inside : ∀ ws : Workspace, a.path.isPrefixOf ws.root = true ↔ Spec.Inside a ws := by
      intro ws
      rw [List.isPrefixOf_iff_prefix]
      exact ⟨fun ⟨r, h⟩ => ⟨r, h.symm⟩, fun ⟨r, h⟩ => ⟨r, h.symm⟩⟩
    have k1 : ∀ g, g ∈ outWss w (fun ws => ws.checked && a.path.isPrefixOf ws.root) wss ↔
        Spec.InWorkspaces w (fun ws => ws.checked = true ∧ Spec.Inside a ws) wss g := by
      intro g
      rw [mem_outWss]
      simp only [Bool.and_eq_true, inside]; rfl
    have k2 : ∀ g, g ∈ outWss w (fun ws => a.path.isPrefixOf ws.root) wss ↔
        Spec.InWorkspaces w (Spec.Inside a) wss g := by
      intro g
      rw [mem_outWss]
      simp only [inside]; rfl
    have ne : ∀ l : List Path, l ≠ [] ↔ ∃ g, g ∈ l := by
      intro l; cases l with
      | nil => simp
      | cons x l => simp
    simp only [← k1, ← k2, ← ne, ← outFound_iff]
    split
    · rename_i h; simp [h]
    · rename_i h
      have h := Decidable.not_not.1 h
      rw [h]
      split
      · rename_i h2; simp [h2]
      · rename_i h2
        have h2 := Decidable.not_not.1 h2
        simp [h2]

theorem outEntry_file_iff (root rel : Path) (parent : Entries) (n : Name) (f : Path) :
    f ∈ outEntry w [] root rel parent n .file ↔ f = root ++ rel ++ [n] ∧ (n.ending = .py ∨ n.ending = .pyi) ∧
      ¬ (n.ending = .py ∧ (⟨n.stem, .pyi⟩, Entry.file) ∈ parent) ∧ w.excluded (rel ++ [n]) = false := by
  rw [← overwritten_iff, outEntry]
  have hs := skipFile_false w (rel ++ [n]) n
  have hi : ignored w [] (root ++ rel ++ [n]) false = false := rfl
  simp only [hi]
  split
  · rename_i h
    simp only [Bool.and_eq_true, Bool.not_eq_true'] at h
    have := hs.1 h.1.1
    simp [this, h.1.2]
  · rename_i h
    constructor
    · simp
    · rintro ⟨_, h1, h2, h3⟩
      exact absurd (by simp [hs.2 ⟨h1, h3⟩, h2]) h

theorem outEntry_dir_iff (root rel : Path) (parent : Entries) (n : Name) (nested : Bool) (es : Entries) (f : Path) :
    f ∈ outEntry w [] root rel parent n (.dir nested es) ↔ nested = false ∧ w.excluded (rel ++ [n]) = false ∧
      Spec.Selected w (root ++ rel ++ [n]) (rel ++ [n]) es f := by
  have e := mem_outDir_iff w root (rel ++ [n]) es f
  rw [← List.append_assoc] at e
  rw [← e, outEntry]
  have hi : ignored w [] (root ++ rel ++ [n]) true = false := rfl
  simp only [hi]
  cases nested <;> cases w.excluded (rel ++ [n]) <;> simp [outDir]

mutual
  theorem globOut_sound (glob : Path → Bool) (root rel : Path) (parent : Entries) (n : Name) :
      (e : Entry) → (n, e) ∈ parent → ∀ f ∈ globOut w [] glob root rel parent n e,
        Spec.GlobFile w (fun p => glob p = true) root rel parent f
    | .file, hm, f, hf => by
      rw [globOut] at hf
      split at hf
      · rename_i hg
        obtain ⟨rfl, h1, h2, h3⟩ := (outEntry_file_iff w root rel parent n f).1 hf
        exact .file root rel parent n hm hg h1 h2 h3
      · simp at hf
    | .dir nested es, hm, f, hf => by
      rw [globOut] at hf
      split at hf
      · rename_i hg
        obtain ⟨rfl, h1, h2⟩ := (outEntry_dir_iff w root rel parent n nested es f).1 hf
        exact .dir root rel parent n es f hm hg h1 h2
      · rename_i hg
        split at hf
        · rename_i hn; subst hn
          exact .nested root rel parent n es f hm hg
            (globOuts_sound glob (root ++ rel ++ [n]) [] es es (fun _ h => h) f hf)
        · rename_i hn
          have hn : nested = false := by simpa using hn
          subst hn
          exact .inside root rel parent n es f hm hg (globOuts_sound glob root (rel ++ [n]) es es (fun _ h => h) f hf)
    | .gitignore _, _, f, hf => by simp [globOut] at hf
    | .missing, _, f, hf => by simp [globOut] at hf
  theorem globOuts_sound (glob : Path → Bool) (root rel : Path) (parent : Entries) :
      (es : Entries) → (∀ e ∈ es, e ∈ parent) → ∀ f ∈ globOuts w [] glob root rel parent es,
        Spec.GlobFile w (fun p => glob p = true) root rel parent f
    | [], _, f, hf => by simp [globOuts] at hf
    | (n, e) :: es, hsub, f, hf => by
      rw [globOuts] at hf
      rcases List.mem_append.1 hf with hf | hf
      · exact globOut_sound glob root rel parent n e (hsub _ (List.mem_cons_self ..)) f hf
      · exact globOuts_sound glob root rel parent es (fun e he => hsub e (List.mem_cons_of_mem _ he)) f hf
end

theorem globOuts_iff (glob : Path → Bool) (root rel : Path) (es : Entries) (f : Path) :
    f ∈ globOuts w [] glob root rel es es ↔ Spec.GlobFile w (fun p => glob p = true) root rel es f := by
  constructor
  · exact globOuts_sound w glob root rel es es (fun _ h => h) f
  · intro h
    induction h with
    | file root rel es n hm hg h1 h2 h3 =>
      rw [mem_globOuts]
      refine ⟨_, hm, ?_⟩
      rw [globOut, if_pos hg, outEntry_file_iff]
      exact ⟨rfl, h1, h2, h3⟩
    | dir root rel es n sub f hm hg h1 h2 =>
      rw [mem_globOuts]
      refine ⟨_, hm, ?_⟩
      rw [globOut, if_pos hg, outEntry_dir_iff]
      exact ⟨rfl, h1, h2⟩
    | inside root rel es n sub f hm hg _ ih =>
      rw [mem_globOuts]
      refine ⟨_, hm, ?_⟩
      rw [globOut, if_neg hg]
      exact ih
    | nested root rel es n sub f hm hg _ ih =>
      rw [mem_globOuts]
      refine ⟨_, hm, ?_⟩
      rw [globOut, if_neg hg]
      exact ih

theorem globWss_iff (globs : List (Path → Bool)) (wss : List Workspace) (f : Path) :
    f ∈ globWss w (fun p => globs.any fun g => g p) wss ↔ Spec.PatternFile w globs wss f := by
  simp only [globWss, List.mem_flatMap, List.mem_filter, globOuts_iff, Spec.PatternFile, List.any_eq_true]
  constructor
  · rintro ⟨a, ⟨h1, h2⟩, h3⟩; exact ⟨a, h1, h2, h3⟩
  · rintro ⟨a, h1, h2, h3⟩; exact ⟨a, ⟨h1, h2⟩, h3⟩

/-- With arguments exactly the files are checked that the paths and the patterns stand for. Every path stands for a file,
and there is a file for the patterns. -/
theorem search_arguments (wss : List Workspace) (args : List Arg) (globs : List (Path → Bool))
    (hne : args ≠ [] ∨ globs ≠ []) (fs : List Path) (h : search w wss args globs = some fs) :
    (∀ f, f ∈ fs ↔ (∃ a ∈ args, Spec.ArgFile w wss a f) ∨ Spec.PatternFile w globs wss f) ∧
    (∀ a ∈ args, ∃ f ∈ fs, Spec.ArgFile w wss a f) ∧
    (globs ≠ [] → ∃ f ∈ fs, Spec.PatternFile w globs wss f) := by
  have hc : (args.isEmpty && globs.isEmpty) = false := by
    rcases hne with h | h
    · cases args with
      | nil => exact absurd rfl h
      | cons _ _ => rfl
    · cases globs with
      | nil => exact absurd rfl h
      | cons _ _ => simp
  unfold search at h
  rw [hc] at h
  simp only [Bool.false_eq_true, if_false] at h
  cases hs : searchArgs w wss args ⟨[], false, []⟩ with
  | none => simp [hs] at h
  | some s =>
    obtain ⟨h1, h2, h3⟩ := searchArgs_some w wss args _ s rfl hs
    have hargs : ∀ f, f ∈ s.files ↔ ∃ a ∈ args, Spec.ArgFile w wss a f := by
      intro f; rw [h2]; simp [List.mem_flatMap, outArg_iff]
    have hex : ∀ a ∈ args, ∃ f ∈ s.files, Spec.ArgFile w wss a f := by
      intro a ha
      cases hl : outArg w wss a with
      | nil => exact absurd hl (h3 a ha)
      | cons x l =>
        have : Spec.ArgFile w wss a x := (outArg_iff w wss a x).1 (by rw [hl]; simp)
        exact ⟨x, (hargs x).2 ⟨a, ha, this⟩, this⟩
    rw [hs] at h
    simp only at h
    split at h
    · rename_i hg
      have hg : globs = [] := by simpa using hg
      cases h
      subst hg
      refine ⟨fun f => ?_, hex, by simp⟩
      rw [hargs, ← globWss_iff]
      have : f ∉ globWss w (fun p => ([] : List (Path → Bool)).any fun g => g p) wss := by
        rw [globWss_iff]
        rintro ⟨ws, _, _, hf⟩
        generalize ([] : Path) = rel at hf
        generalize ws.root = root at hf
        generalize ws.entries = es at hf
        induction hf with
        | file root rel es n hm hg => simp at hg
        | dir root rel es n sub f hm hg => simp at hg
        | inside root rel es n sub f hm hg _ ih => exact ih
        | nested root rel es n sub f hm hg _ ih => exact ih
      exact ⟨.inl, fun h => h.resolve_right this⟩
    · rw [searchGlobs_eq w _ wss { s with added := false } h1] at h
      split at h
      · rename_i hadd
        cases h
        have hmem : ∀ f, f ∈ (State.more { s with added := false }
            (globWss w (fun p => globs.any fun g => g p) wss)).files ↔
            (∃ a ∈ args, Spec.ArgFile w wss a f) ∨ Spec.PatternFile w globs wss f := by
          intro f
          simp only [State.more, List.mem_append, hargs, globWss_iff]
        refine ⟨hmem, ?_, ?_⟩
        · intro a ha
          obtain ⟨f, _, hf⟩ := hex a ha
          exact ⟨f, (hmem f).2 (.inl ⟨a, ha, hf⟩), hf⟩
        · intro _
          cases hl : globWss w (fun p => globs.any fun g => g p) wss with
          | nil => simp [State.more, hl] at hadd
          | cons x l =>
            have : Spec.PatternFile w globs wss x := (globWss_iff w globs wss x).1 (by rw [hl]; simp)
            rw [← hl]
            exact ⟨x, (hmem x).2 (.inr this), this⟩
      · simp at h

/-- There is an error exactly if a path stands for no file, or the patterns for none. -/
theorem search_arguments_error (wss : List Workspace) (args : List Arg) (globs : List (Path → Bool))
    (hne : args ≠ [] ∨ globs ≠ []) :
    search w wss args globs = none ↔
      (∃ a ∈ args, ¬ ∃ f, Spec.ArgFile w wss a f) ∨ (globs ≠ [] ∧ ¬ ∃ f, Spec.PatternFile w globs wss f) := by
  constructor
  · intro h
    unfold search at h
    split at h
    · rename_i hc
      simp at hc
      rcases hne with h' | h'
      · exact absurd hc.1 h'
      · exact absurd hc.2 h'
    · split at h
      · rename_i hs
        obtain ⟨a, ha, h'⟩ := searchArgs_none w wss args _ rfl hs
        refine .inl ⟨a, ha, ?_⟩
        rintro ⟨f, hf⟩
        rw [← outArg_iff, h'] at hf; simp at hf
      · rename_i s hs
        obtain ⟨h1, h2, h3⟩ := searchArgs_some w wss args _ s rfl hs
        split at h
        · simp at h
        · rename_i hg
          simp only [searchGlobs_eq w _ wss { s with added := false } h1] at h
          split at h
          · simp at h
          · rename_i hadd
            refine .inr ⟨by simpa using hg, ?_⟩
            rintro ⟨f, hf⟩
            rw [← globWss_iff] at hf
            cases hl : globWss w (fun p => globs.any fun g => g p) wss with
            | nil => rw [hl] at hf; simp at hf
            | cons x l => simp [State.more, hl] at hadd
  · intro h
    cases hs : search w wss args globs with
    | none => rfl
    | some fs =>
      obtain ⟨_, h2, h3⟩ := search_arguments w wss args globs hne fs hs
      rcases h with ⟨a, ha, h⟩ | ⟨hg, h⟩
      · obtain ⟨f, _, hf⟩ := h2 a ha; exact absurd ⟨f, hf⟩ h
      · obtain ⟨f, _, hf⟩ := h3 hg; exact absurd ⟨f, hf⟩ h

/-- A file that is named is checked even if it is excluded and ignored. -/
theorem named_file (wss : List Workspace) (args : List Arg) (globs : List (Path → Bool)) (a : Arg) (ha : a ∈ args) (f : Path)
    (hf : a.found = .file f) (fs : List Path) (h : search w wss args globs = some fs) : f ∈ fs := by
  refine ((search_arguments w wss args globs (.inl (List.ne_nil_of_mem ha)) fs h).1 f).2 (.inl ⟨a, ha, ?_⟩)
  simp [Spec.ArgFile, hf, Spec.FoundFile]

namespace Example

def ws : Workspace := ⟨[⟨9, .other⟩], true, project⟩
def argFile : Arg := ⟨[⟨9, .other⟩, src, a], .file [⟨9, .other⟩, src, a], .nothing⟩
def argNothing : Arg := ⟨[⟨8, .other⟩], .nothing, .nothing⟩

/-- There is nothing to check, for the only file is ignored. But it can be named. -/
example : search world [ws] [] [] = none := by decide +kernel
example : search world [ws] [argFile] [] = some [[⟨9, .other⟩, src, a]] := by decide +kernel
example : search world [ws] [argFile, argNothing] [] = none := by decide +kernel
example : search { world with useGitignore := false } [ws] [] [] = some [[⟨9, .other⟩, src, a]] := by decide +kernel

end Example

/-- The full statement: patterns stand only for files that are checked without arguments. -/
def PatternsAreConsistent : Prop :=
  ∀ (w : World) (wss : List Workspace) (globs : List (Path → Bool)) (fs : List Path), globs ≠ [] →
    search w wss [] globs = some fs → ∀ f ∈ fs, Spec.InWorkspaces w (fun ws => ws.checked = true) wss f

/-- `.gitignore` has the pattern `0.py`, and `src/0.py` is not checked. But it is checked by `zuban check '**/*.py'`: no
`.gitignore` above a match is used. -/
theorem patterns_violation : ¬ PatternsAreConsistent := by
  intro h
  have e : search Example.world [Example.ws] [] [fun p => p.getLast? == some Example.a] =
      some [[⟨9, .other⟩, Example.src, Example.a]] := by decide +kernel
  have h' := h Example.world [Example.ws] _ _ (by simp) e _ (List.mem_singleton.2 rfl)
  have n : search Example.world [Example.ws] [] [] = none := by decide +kernel
  exact (search_all Example.world [Example.ws]).2.1 n ⟨_, h'⟩

/-- If `.gitignore` files are not used, all that is in an excluded directory is excluded, and there are no nested workspaces,
then all files that a pattern stands for are
also checked without arguments. -/
theorem patterns_partial (hg : w.useGitignore = false) (hx : ∀ p q, w.excluded p = true → w.excluded (p ++ q) = true)
    (glob : Path → Prop) (root : Path) (es0 : Entries)
    (hn : ∀ up p cur, Spec.Below es0 up p cur → ∀ n sub, (n, Entry.dir true sub) ∉ cur) (f : Path) :
    Spec.GlobFile w glob root [] es0 f → Spec.Selected w root [] es0 f := by
  have gen : ∀ root' rel es, Spec.GlobFile w glob root' rel es f → root' = root →
      (∃ up, Spec.Below es0 up rel es) → Spec.Selected w root [] es0 f := by
    intro root' rel es h
    have opened : ∀ {up p cur}, Spec.Below es0 up p cur → ∀ q, w.excluded (p ++ q) = false → Spec.Open w root [] up := by
      intro up p cur hb q hq
      rw [open_iff w hg _ _ hb]
      rintro t _ ⟨u, rfl⟩
      cases hc : w.excluded t with
      | false => exact hc
      | true => rw [List.append_assoc, hx t (u ++ q) hc] at hq; simp at hq
    induction h with
    | file root' rel es n hm _ h1 h2 h3 =>
      rintro rfl ⟨up, hb⟩
      exact ⟨up, rel, es, n, hb, rfl, hm, h1, h2, h3, opened hb [n] h3, noIgnore w hg _ _ _ _⟩
    | dir root' rel es n sub f hm _ h1 h2 =>
      rintro rfl ⟨up, hb⟩
      obtain ⟨up1, p, cur, m, hb1, rfl, hm1, h3, h4, h5, _, _⟩ := h2
      obtain ⟨up2, hb2⟩ := below_append (.step up rel es n sub hb hm) hb1
      refine ⟨up2, _, cur, m, hb2, by simp, hm1, h3, h4, by simpa using h5, opened hb2 [m] ?_, noIgnore w hg _ _ _ _⟩
      simpa using h5
    | inside root' rel es n sub f hm _ _ ih =>
      rintro rfl ⟨up, hb⟩
      exact ih rfl ⟨_, .step up rel es n sub hb hm⟩
    | nested root' rel es n sub f hm _ _ _ =>
      rintro rfl ⟨up, hb⟩
      exact absurd hm (hn up rel es hb n sub)
  exact fun h => gen root [] es0 h rfl ⟨_, .here⟩

/-- A pattern for the file in the project, without `.gitignore` files. -/
example : Spec.Selected { Example.world with useGitignore := false } [] [] Example.project [Example.src, Example.a] := by
  refine patterns_partial _ rfl (by simp [Example.world]) (fun p => p = [Example.src, Example.a]) [] Example.project ?_ _ ?_
  · intro up p cur hb n sub hm
    rcases Example.below_project hb with ⟨_, _, rfl⟩ | ⟨_, _, rfl⟩
    · simp [Example.project] at hm
    · simp [Example.inner] at hm
  · refine .inside [] [] _ Example.src Example.inner _ (by simp [Example.project]) (by simp) ?_
    exact .file [] [Example.src] _ Example.a (by simp [Example.inner]) rfl (.inl rfl)
      (by simp [Example.inner, Example.a]) rfl

end Verif.Select
