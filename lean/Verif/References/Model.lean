/-!
Model of the search for references and of renaming:
crates/zuban_python/src/goto.rs 765-1041 and crates/zuban_python/src/lib.rs 326-385.

What `goto_name(false)` finds for a name (goto.rs 490-640) is a parameter of the model, and so are
the names of a file, the other definitions of a name and the file that belongs to a stub.
-/
namespace Verif.References

/-- name.rs 60-70 `Name`: a name in the code of a file, a file as a module, or some other node.
Files are numbers and places in files are byte positions. -/
inductive Name where
  | tree (file start : Nat)
  | module (file : Nat)
  | node (file start : Nat)
  deriving DecidableEq, Repr

/-- name.rs 150-166 `Name::file`. -/
def Name.file : Name → Nat
  | .tree f _ => f
  | .module f => f
  | .node f _ => f

/-- goto.rs 981-983 `to_unique_position` with name.rs 188-208 `name_range`: the file of a name and
where it starts; a module starts at the start of its file. -/
def uniquePosition : Name → Nat × Nat
  | .tree f s => (f, s)
  | .module f => (f, 0)
  | .node f s => (f, s)

/-- What the search asks of the rest of the program. -/
structure World where
  /-- goto.rs 490-640 `goto_name(false)`: where a name in the code leads to, in one step. -/
  goto : Nat → Nat → List Name
  /-- goto.rs 1009-1038: whether a name is one of `from m import foo`, `from m import foo as foo`,
  `import foo`, `import foo as foo`, `global foo` and `nonlocal foo`. -/
  isFollowed : Nat → Nat → Bool
  /-- `Tree::filter_all_names(None)`: the names of a file, with where they start. -/
  names : Nat → List (Nat × String)
  /-- python_file.rs 1159-1194 `OtherDefinitionIterator`: the other definitions of a name that is
  the first definition; nothing for names that are not. -/
  others : Nat → Nat → List Nat
  /-- name.rs 234-248 `goto_non_stub`, `goto_stub`: the name in the other one of a stub and the
  file it describes. -/
  counterpart : Name → Option Name
  /-- goto.rs 800-809: whether a scope around the name is a function or a lambda. -/
  inFunction : Nat → Nat → Bool
  /-- Whether the name is a name definition (`on_name.name_def().is_some()`). -/
  isDefinition : Nat → Nat → Bool
  /-- The Python files of the type checked workspaces (`entries_to_type_check`). -/
  checkedFiles : List Nat
  /-- The Python files of all workspaces. -/
  allFiles : List Nat
  /-- goto.rs 949-957: whether the code of a file matches the regex for the name. -/
  mentions : Nat → String → Bool

/-- goto.rs 987-1006, the callback of `check_name`: a tree name is reported as it is, because `new`
and `old` are the same name; for the other names the function calls itself, which reports them, as
only tree names are followed (goto.rs 1007). -/
def reported (n : Name) : List Name :=
  match n with
  | .tree f s => [.tree f s]
  | .module f => [.module f]
  | .node f s => [.node f s]

/-- goto.rs 985-1041 `follow_goto_if_necessary`: the names it reports, in order. -/
def follow (w : World) (n : Name) : List Name :=
  (match n with
    | .tree f s => if w.isFollowed f s then (w.goto f s).flatMap reported else []
    | .module _ => []
    | .node _ _ => []) ++ [n]

/-- What the search asks about a name in the code: where it leads to, followed. -/
def targets (w : World) (f s : Nat) : List Name := (w.goto f s).flatMap (follow w)

/-- `ReferencesGoal`. -/
inductive Goal where
  | onlyCurrentFile | onlyTypeCheckedWorkspaces | allFilesIncludingDependencies
  deriving DecidableEq, Repr

/-- goto.rs 800-813: whether a definition can be reached from other files. -/
def globallyReachable (w : World) (n : Name) : Bool :=
  match n with
  | .tree f s => !w.inFunction f s
  | .module _ => true
  | .node _ _ => true

/-- goto.rs 828-846: the name and the other definitions of it. -/
def withOthers (w : World) (n : Name) : List Name :=
  n :: (match n with
    | .tree f s => (w.others f s).map (.tree f ·)
    | .module _ => []
    | .node _ _ => [])

/-- goto.rs 815-852: the names that `add_definitions` is called with and the other definitions of
them, in order. -/
def declarationsOf (w : World) (n : Name) : List Name :=
  (match w.counterpart n with
    | some o => withOthers w o
    | none => []) ++ withOthers w n

/-- goto.rs 821-825 `should_add`. It is decided for the name and holds for its other definitions,
which are in the same file. -/
def shouldAdd (goal : Goal) (includeDeclarations : Bool) (current : Nat) (n : Name) : Bool :=
  includeDeclarations &&
    (goal != .onlyCurrentFile || includeDeclarations && n.file == current)

/-- What the first part of the search finds. -/
structure Definitions where
  positions : List (Nat × Nat)
  results : List Name
  reachable : Bool

/-- goto.rs 790-880, the first part: only the first name that is reported is used. -/
def findDefinitions (w : World) (goal : Goal) (includeDeclarations : Bool) (f s : Nat) :
    Option Definitions :=
  match (targets w f s).head? with
  | some n => some
      { positions := uniquePosition n :: (declarationsOf w n).map uniquePosition
        results := (declarationsOf w n).filter (shouldAdd goal includeDeclarations f)
        reachable := globallyReachable w n }
  | none =>
    if w.isDefinition f s then some
      { positions := [uniquePosition (.tree f s)], results := [.tree f s], reachable := false }
    else none

/-- goto.rs 906-941 `find_references_in_file`. -/
def referencesInFile (w : World) (positions : List (Nat × Nat)) (search : String) (file : Nat) :
    List Name :=
  (w.names file).filterMap fun (s, code) =>
    if code == search then
      if (targets w file s).any (fun n => positions.contains (uniquePosition n)) then
        if !positions.contains (uniquePosition (.tree file s)) then some (.tree file s) else none
      else none
    else none

/-- goto.rs 943-979 `find_references_in_workspace_entries`. -/
def referencesInFiles (w : World) (positions : List (Nat × Nat)) (search : String)
    (files : List Nat) : List Name :=
  (files.filter (w.mentions · search)).flatMap (referencesInFile w positions search)

/-- goto.rs 883-900: the files that are searched. -/
def search (w : World) (d : Definitions) (goal : Goal) (f : Nat) (name : String) : List Name :=
  if !d.reachable then referencesInFile w d.positions name f
  else match goal with
    | .onlyCurrentFile => referencesInFile w d.positions name f
    | .onlyTypeCheckedWorkspaces => referencesInFiles w d.positions name w.checkedFiles
    | .allFilesIncludingDependencies => referencesInFiles w d.positions name w.allFiles

/-- goto.rs 781-904 `references` for the name `name` at `s` in the file `f`. -/
def references (w : World) (goal : Goal) (includeDeclarations : Bool) (f s : Nat)
    (name : String) : List Name :=
  match findDefinitions w goal includeDeclarations f s with
  | none => []
  | some d => search w d goal f name ++ d.results

/-- lib.rs 337-340, 376-384 `RenameChanges`: the places that are changed for each file, and the
files that are renamed. -/
structure RenameChanges where
  changes : List (Nat × List Nat)
  fileRenames : List Nat
  deriving DecidableEq, Repr

/-- lib.rs 352-355: `entry(file_index).or_insert_with(Vec::new).push(...)`. The order of the files
of the hash map is not modelled. -/
def pushChange (changes : List (Nat × List Nat)) (f s : Nat) : List (Nat × List Nat) :=
  match changes with
  | [] => [(f, [s])]
  | (g, l) :: rest => if g == f then (g, l ++ [s]) :: rest else (g, l) :: pushChange rest f s

/-- lib.rs 348-361: what is recorded for a reference. -/
def record (c : RenameChanges) (n : Name) : RenameChanges :=
  match n with
  | .tree f s => { c with changes := pushChange c.changes f s }
  | .module f => { c with fileRenames := c.fileRenames ++ [f] }
  | .node _ _ => c

/-- lib.rs 326-385 `references_for_rename`: `none` is the error that there is no definition. -/
def rename (w : World) (f s : Nat) (name new : String) : Option RenameChanges :=
  if name == new then some ⟨[], []⟩
  else
    let refs := references w .onlyTypeCheckedWorkspaces true f s name
    if refs.isEmpty then none else some (refs.foldl record ⟨[], []⟩)

end Verif.References
