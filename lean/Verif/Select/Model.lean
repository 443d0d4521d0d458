/-!
# Which files are checked

Model of crates/zuban_python/src/select_files.rs: directories are walked, files are collected. A file is known by its
absolute path. Loading of files, flags in the files themselves and threads are left out.
-/

namespace Verif.Select

inductive Ending where
  | py
  | pyi
  | other
deriving DecidableEq, Repr

structure Name where
  stem : Nat
  ending : Ending
deriving DecidableEq, Repr

abbrev Path := List Name

/-- What `Gitignore::matched` answers. -/
inductive Match where
  | no
  | ignore
  /-- With `!` -/
  | keep
deriving DecidableEq, Repr

inductive Entry where
  | file
  /-- A directory; it may be a workspace of its own. -/
  | dir (nested : Bool) (entries : List (Name × Entry))
  | gitignore (g : Nat)
  | missing

abbrev Entries := List (Name × Entry)

structure World where
  /-- One of the patterns of `exclude` matches a path that is relative to its workspace. -/
  excluded : Path → Bool
  /-- A `.gitignore`, an absolute path, and whether that is a directory. -/
  matched : Nat → Path → Bool → Match
  /-- The setting `exclude_gitignore` -/
  useGitignore : Bool

/-- `FileSelector`, select_files.rs 59-65. -/
structure State where
  files : List Path
  added : Bool
  gitignores : List Nat

variable (w : World)

/-- `add_file`, select_files.rs 238-246. -/
def State.add (s : State) (f : Path) : State := { s with files := s.files ++ [f], added := true }

/-- `is_path_ignored`, tree.rs 669-671. -/
def isIgnored (g : Nat) (p : Path) (isDir : Bool) : Bool := w.matched g p isDir == .ignore

/-- `ignored_by_gitignore`, select_files.rs 248-256. -/
def ignored (gs : List Nat) (p : Path) (isDir : Bool) : Bool := gs.any fun g => isIgnored w g p isDir

/-- `should_skip_file`, select_files.rs 48-57. -/
def skipFile (rel : Path) (n : Name) : Bool := n.ending == .other || w.excluded rel

def Entry.isFile : Entry → Bool
  | .file => true
  | _ => false

/-- `ignore_py_if_overwritten_by_pyi`, select_files.rs 311-318. -/
def overwritten (es : Entries) (n : Name) : Bool :=
  n.ending == .py && es.any fun e => e.1 == ⟨n.stem, .pyi⟩ && e.2.isFile

def Entry.asGitignore : Entry → Option Nat
  | .gitignore g => some g
  | _ => none

/-- The first `.gitignore` of a directory, select_files.rs 291-296. -/
def gitignoreOf (es : Entries) : Option Nat := if w.useGitignore then es.findSome? fun e => e.2.asGitignore else none

/-- `push`, select_files.rs 298. -/
def State.push (s : State) : Option Nat → State
  | some g => { s with gitignores := s.gitignores ++ [g] }
  | none => s

/-- `pop`, select_files.rs 306-308. -/
def State.pop (s : State) : Option Nat → State
  | some _ => { s with gitignores := s.gitignores.dropLast }
  | none => s

mutual
  /-- `handle_entry`, select_files.rs 258-283, for an entry of the directory `rel` in the workspace `root`. -/
  def handleEntry (root rel : Path) (parent : Entries) (n : Name) : Entry → State → State
    | .file, s =>
      if !skipFile w (rel ++ [n]) n && !overwritten parent n && !ignored w s.gitignores (root ++ rel ++ [n]) false then
        s.add (root ++ rel ++ [n])
      else s
    | .dir nested es, s =>
      if !w.excluded (rel ++ [n]) && !ignored w s.gitignores (root ++ rel ++ [n]) true && !nested then
        (handleList root (rel ++ [n]) es es (s.push (gitignoreOf w es))).pop (gitignoreOf w es)
      else s
    | .gitignore _, s => s
    | .missing, s => s
  /-- The loop in `handle_entries`, select_files.rs 302-304. -/
  def handleList (root rel : Path) (parent : Entries) : Entries → State → State
    | [], s => s
    | e :: es, s => handleList root rel parent es (handleEntry root rel parent e.1 e.2 s)
end

/-- `handle_entries`, select_files.rs 285-309. -/
def handleEntries (root rel : Path) (es : Entries) (s : State) : State :=
  (handleList w root rel es es (s.push (gitignoreOf w es))).pop (gitignoreOf w es)

structure Workspace where
  root : Path
  checked : Bool
  entries : Entries

/-- The workspaces that fulfil a condition, one after the other. -/
def handleWorkspaces (p : Workspace → Bool) (wss : List Workspace) (s : State) : State :=
  (wss.filter p).foldl (fun s ws => handleEntries w ws.root [] ws.entries s) s

/-- `search_all_typechecked_files`, select_files.rs 124-128. -/
def searchAll (wss : List Workspace) (s : State) : State := handleWorkspaces w (·.checked) wss s

/-- What `search_path` finds for a path that is given: a directory of a workspace, a file, or nothing; then
`ensure_fallback` has a last answer. -/
inductive Found where
  | dir (root rel : Path) (entries : Entries)
  | file (f : Path)
  | nothing

structure Arg where
  path : Path
  found : Found
  fallback : Found

/-- `handle_dir` or `add_file`. -/
def handleFound (s : State) : Found → State
  | .dir root rel es => handleEntries w root rel es s
  | .file f => s.add f
  | .nothing => s

/-- A path that is given, select_files.rs 148-195. -/
def handleArg (wss : List Workspace) (a : Arg) (s : State) : State :=
  match a.found with
  | .dir root rel es => handleEntries w root rel es s
  | .file f => s.add f
  | .nothing =>
    let s1 := handleWorkspaces w (fun ws => ws.checked && a.path.isPrefixOf ws.root) wss s
    let s2 := if s1.added then s1 else handleWorkspaces w (fun ws => a.path.isPrefixOf ws.root) wss s1
    if s2.added then s2 else handleFound w s2 a.fallback

/-- `search_in_workspaces` for paths without wildcards, select_files.rs 145-205; `none` is an error. -/
def searchArgs (wss : List Workspace) : List Arg → State → Option State
  | [], s => some s
  | a :: args, s =>
    let s' := handleArg w wss a { s with added := false }
    if s'.added then searchArgs wss args s' else none

/-! ## Patterns with wildcards -/

mutual
  /-- `walk_entries` with the closure, select_files.rs 207-228, and tree.rs 192-201, 516-526: what matches is handled,
  what does not match is entered. The entries of a nested workspace are relative to that workspace. -/
  def globEntry (glob : Path → Bool) (root rel : Path) (parent : Entries) (n : Name) : Entry → State → State
    | .file, s => if glob (root ++ rel ++ [n]) then handleEntry w root rel parent n .file s else s
    | .dir nested es, s =>
      if glob (root ++ rel ++ [n]) then handleEntry w root rel parent n (.dir nested es) s
      else if nested then globList glob (root ++ rel ++ [n]) [] es es s
      else globList glob root (rel ++ [n]) es es s
    | .gitignore _, s => s
    | .missing, s => s
  def globList (glob : Path → Bool) (root rel : Path) (parent : Entries) : Entries → State → State
    | [], s => s
    | e :: es, s => globList glob root rel parent es (globEntry glob root rel parent e.1 e.2 s)
end

/-- The loop over the workspaces, select_files.rs 209-229. -/
def searchGlobs (glob : Path → Bool) (wss : List Workspace) (s : State) : State :=
  (wss.filter (·.checked)).foldl (fun s ws => globList w glob ws.root [] ws.entries ws.entries s) s

/-- `search_in_workspaces`, select_files.rs 130-236; `none` is an error. -/
def search (wss : List Workspace) (args : List Arg) (globs : List (Path → Bool)) : Option (List Path) :=
  if args.isEmpty && globs.isEmpty then
    let s := searchAll w wss ⟨[], false, []⟩
    if s.added then some s.files else none
  else
    match searchArgs w wss args ⟨[], false, []⟩ with
    | none => none
    | some s =>
      if globs.isEmpty then some s.files
      else
        let s' := searchGlobs w (fun p => globs.any fun g => g p) wss { s with added := false }
        if s'.added then some s'.files else none

end Verif.Select
