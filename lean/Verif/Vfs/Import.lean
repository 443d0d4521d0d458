import Verif.Vfs.Overlay

/-!
# Import resolution

`python_import_with_needs_exact_case` and `load_init_file` of crates/zuban_python/src/imports.rs, over
the tree of the virtual file system. The variant `needs_exact_case` and the special case for
`django-stubs` are left out. Search directories are paths in the tree.
-/

namespace Verif.Vfs

/-- `ImportResult`, imports.rs 27-34, with paths instead of indices. -/
inductive Resolution where
  | file (p : Path)
  /-- `PyTypedMissing` -/
  | untyped (p : Path)
  | namespace (ps : List Path)
  deriving DecidableEq, Repr

/-- `Directory::entries`, crates/vfs/src/tree.rs 265-304: reads a directory that was not read yet. -/
def entriesOf (d : Disk) (p : Path) (s : Vfs) : Vfs :=
  match treeGet s.tree p with
  | some (.dir false) => readDir d p s
  | _ => s

/-- `borrow.get(name)` with a `DirectoryEntry::File`, imports.rs 432-438. -/
def isFile (s : Vfs) (p : Path) : Bool :=
  match treeGet s.tree p with
  | some (.file _) => true
  | _ => false

/-- `search("py.typed").is_some()`, imports.rs 375-377; recorded missing entries count, too. -/
def hasTyped (s : Vfs) (p : Path) : Bool := (treeGet s.tree (p ++ ["py.typed"])).isSome

/-- `ensure_file_index` and `add_invalidation`, imports.rs 545-546, 558-559, 388, 455. -/
def takeFile (d : Disk) (i : Nat) (p : Path) (s : Vfs) : Vfs := depend i p (reserve d p s)

/-- `load_init_file`, imports.rs 527-565: the `__init__` file of directory `p`, for file `i`. -/
def loadInit (d : Disk) (i : Nat) (p : Path) (s : Vfs) : Option Path × Vfs :=
  let s1 := entriesOf d p s
  if isFile s1 (p ++ ["__init__.pyi"]) then (some (p ++ ["__init__.pyi"]), takeFile d i (p ++ ["__init__.pyi"]) s1)
  else
    let s2 := addMissing i (p ++ ["__init__.pyi"]) s1
    if isFile s2 (p ++ ["__init__.py"]) then (some (p ++ ["__init__.py"]), takeFile d i (p ++ ["__init__.py"]) s2)
    else (none, addMissing i (p ++ ["__init__.py"]) s2)

/-- The file that is taken in a directory, imports.rs 430-446. -/
def findModule (stubs : Bool) (name : String) (p : Path) (s : Vfs) : Option Path :=
  if stubs && isFile s (p ++ [name ++ ".pyi"]) then some (p ++ [name ++ ".pyi"])
  else if isFile s (p ++ [name ++ ".py"]) then some (p ++ [name ++ ".py"])
  else none

/-- The missing entries that are recorded for a directory, imports.rs 458-466. -/
def noteDirectory (i : Nat) (stubs : Bool) (name : String) (p : Path) (hadNamespace : Bool) (s : Vfs) : Vfs :=
  let s1 := addMissing i (p ++ [name ++ ".py"]) s
  let s2 := if stubs then addMissing i (p ++ [name ++ ".pyi"]) s1 else s1
  if hadNamespace then s2 else addMissing i (p ++ [name]) s2

/-- `python_import_with_needs_exact_case`, imports.rs 350-486, for importing file `i`. The search
directories come with whether they need a `py.typed`; `ns` are the namespace directories so far. -/
def importFrom (d : Disk) (i : Nat) (follow stubs : Bool) (name : String) : List (Path × Bool) → List Path → Vfs → Option Resolution × Vfs
  | [], ns, s => (if ns.isEmpty then none else some (.namespace ns), s)
  | (p, needs) :: rest, ns, s =>
    let s0 := entriesOf d p s
    let isDir := match treeGet s0.tree (p ++ [name]) with
      | some (.dir _) => true
      | _ => false
    let (init, s1) := if isDir then loadInit d i (p ++ [name]) s0 else (none, s0)
    match init with
    | some f => (some (if needs && !follow && !hasTyped s1 (p ++ [name]) then .untyped f else .file f), s1)
    | none =>
      match findModule stubs name p s1 with
      | some f =>
        if needs && !follow then (some (.untyped f), reserve d f s1)
        else (some (.file f), takeFile d i f s1)
      | none =>
        importFrom d i follow stubs name rest (if isDir then ns ++ [p ++ [name]] else ns) (noteDirectory i stubs name p isDir s1)

/-- `python_import_with_needs_exact_case` without namespace directories at the start. -/
def pythonImport (d : Disk) (i : Nat) (follow stubs : Bool) (name : String) (dirs : List (Path × Bool)) (s : Vfs) : Option Resolution × Vfs :=
  importFrom d i follow stubs name dirs [] s

end Verif.Vfs
