import Verif.Select.Model

/-!
# Files that should be checked

There is no state here: a file is selected because of the directories it is in.
-/

namespace Verif.Select.Spec

variable (w : World)

/-- The `.gitignore` of a directory. -/
def HasIgnore (es : Entries) (g : Nat) : Prop :=
  ∃ pre n post, es = pre ++ (n, Entry.gitignore g) :: post ∧ ∀ e ∈ pre, ∀ g' : Nat, e.2 ≠ .gitignore g'

/-- `Below es up p cur`: from a directory with the entries `es` the path `p` leads to a directory with the entries `cur`.
`up` has all directories on the way, also the first and the last one, each with its path. -/
inductive Below (es : Entries) : List (Path × Entries) → Path → Entries → Prop
  | here : Below es [([], es)] [] es
  | step (up : List (Path × Entries)) (p : Path) (cur : Entries) (n : Name) (sub : Entries) :
    Below es up p cur → (n, Entry.dir false sub) ∈ cur → Below es ((p ++ [n], sub) :: up) (p ++ [n]) sub

/-- A `.gitignore` in one of these directories ignores a path. -/
def IgnoredBy (abs : Path) (up : List (Path × Entries)) (p : Path) (isDir : Bool) : Prop :=
  w.useGitignore = true ∧ ∃ d ∈ up, ∃ g, HasIgnore d.2 g ∧ w.matched g (abs ++ p) isDir = .ignore

/-- All directories on the way may be entered: none is excluded, none is ignored by a `.gitignore` above it. -/
inductive Open (abs rel : Path) : List (Path × Entries) → Prop
  | here (es : Entries) : Open abs rel [([], es)]
  | step (d : Path × Entries) (up : List (Path × Entries)) :
    Open abs rel up → w.excluded (rel ++ d.1) = false → ¬ IgnoredBy w abs up d.1 true → Open abs rel (d :: up)

/-- The file `p/n` below a directory is to be checked. `abs` is the absolute path of the directory, `rel` the one in its
workspace. -/
structure Selected (abs rel : Path) (es : Entries) (f : Path) : Prop where
  intro ::
  ex : ∃ up p cur n, Below es up p cur ∧ f = abs ++ p ++ [n] ∧ (n, Entry.file) ∈ cur ∧
    -- It is a Python file
    (n.ending = .py ∨ n.ending = .pyi) ∧
    -- There is no stub beside it
    ¬ (n.ending = .py ∧ (⟨n.stem, .pyi⟩, Entry.file) ∈ cur) ∧
    -- Nothing is excluded
    w.excluded (rel ++ (p ++ [n])) = false ∧
    Open w abs rel up ∧
    ¬ IgnoredBy w abs up (p ++ [n]) false

/-- Git's rule: the `.gitignore` that is closest to the path and has a pattern for it decides. -/
inductive GitIgnores (abs p : Path) (isDir : Bool) : List (Path × Entries) → Prop
  | here (d : Path × Entries) (up : List (Path × Entries)) (g : Nat) :
    HasIgnore d.2 g → w.matched g (abs ++ p) isDir = .ignore → GitIgnores abs p isDir (d :: up)
  | above (d : Path × Entries) (up : List (Path × Entries)) :
    (∀ g, HasIgnore d.2 g → w.matched g (abs ++ p) isDir = .no) → GitIgnores abs p isDir up →
    GitIgnores abs p isDir (d :: up)

/-- The files of the workspaces that fulfil a condition. -/
def InWorkspaces (p : Workspace → Prop) (wss : List Workspace) (f : Path) : Prop :=
  ∃ ws ∈ wss, p ws ∧ Selected w ws.root [] ws.entries f

/-- What a directory or a file stands for: a file that is named is checked in any case. -/
def FoundFile : Found → Path → Prop
  | .dir root rel es, f => Selected w (root ++ rel) rel es f
  | .file g, f => f = g
  | .nothing, _ => False

/-- The workspaces in a directory that is named -/
def Inside (a : Arg) (ws : Workspace) : Prop := ∃ rest, ws.root = a.path ++ rest

/-- The files that an argument stands for. -/
def ArgFile (wss : List Workspace) (a : Arg) (f : Path) : Prop :=
  match a.found with
  | .nothing =>
    InWorkspaces w (fun ws => ws.checked = true ∧ Inside a ws) wss f ∨
    ((¬ ∃ g, InWorkspaces w (fun ws => ws.checked = true ∧ Inside a ws) wss g) ∧
      (InWorkspaces w (Inside a) wss f ∨
      (¬ ∃ g, InWorkspaces w (Inside a) wss g) ∧ FoundFile w a.fallback f))
  | x => FoundFile w x f

/-- The files that a pattern stands for. -/
inductive GlobFile (glob : Path → Prop) : Path → Path → Entries → Path → Prop
  | file (root rel : Path) (es : Entries) (n : Name) :
    (n, Entry.file) ∈ es → glob (root ++ rel ++ [n]) → (n.ending = .py ∨ n.ending = .pyi) →
    ¬ (n.ending = .py ∧ (⟨n.stem, .pyi⟩, Entry.file) ∈ es) → w.excluded (rel ++ [n]) = false →
    GlobFile glob root rel es (root ++ rel ++ [n])
  | dir (root rel : Path) (es : Entries) (n : Name) (sub : Entries) (f : Path) :
    (n, Entry.dir false sub) ∈ es → glob (root ++ rel ++ [n]) → w.excluded (rel ++ [n]) = false →
    Selected w (root ++ rel ++ [n]) (rel ++ [n]) sub f → GlobFile glob root rel es f
  | inside (root rel : Path) (es : Entries) (n : Name) (sub : Entries) (f : Path) :
    (n, Entry.dir false sub) ∈ es → ¬ glob (root ++ rel ++ [n]) → GlobFile glob root (rel ++ [n]) sub f →
    GlobFile glob root rel es f
  | nested (root rel : Path) (es : Entries) (n : Name) (sub : Entries) (f : Path) :
    (n, Entry.dir true sub) ∈ es → ¬ glob (root ++ rel ++ [n]) → GlobFile glob (root ++ rel ++ [n]) [] sub f →
    GlobFile glob root rel es f

/-- A file that a pattern stands for. -/
def PatternFile (globs : List (Path → Bool)) (wss : List Workspace) (f : Path) : Prop :=
  ∃ ws ∈ wss, ws.checked = true ∧ GlobFile w (fun p => ∃ g ∈ globs, g p = true) ws.root [] ws.entries f

/-- A directory has no two entries with the same name; also the directories in it. -/
def Unique (es : Entries) : Prop := ∀ up p cur, Below es up p cur → (cur.map (·.1)).Nodup

end Verif.Select.Spec
