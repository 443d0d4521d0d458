/-!
# Imports of dotted names

Model of how `import a.b.c` and `from ..a import b` are resolved:
crates/zuban_python/src/imports.rs (`ImportResult::import` 48-69, `import_non_stub_for_stub_package`
71-108, `global_import` 179-226, `import_module_by_strings` 228-240,
`namespace_import_with_unloaded_file` 263-324, `python_import_with_needs_exact_case` 345-486,
`load_init_file` 527-565, `find_import_ancestor` 573-612) and
crates/zuban_python/src/file/imports.rs (`global_import` 25-50, `cache_import_dotted_name` 52-134,
`import_from_first_part_calculation_without_loading_file` 205-237, `sub_module` 291-294,
`sub_module_lookup` 296-304, `sub_module_import` 439-483, `is_package_name` 507-509).

In contrast to `Verif.Vfs` the files do not change, so nothing has to be recorded; here it is about
what is found. Left out: the modules `typing` and `django-stubs`, partial stub packages
(`in_partial_stubs`), file systems that ignore case, files that cannot be read, and `__getattr__` in
stubs. `needs_exact_case` makes no difference on file systems that do not ignore case: the directory
is left with its `__init__` file, then `.pyi` comes before `.py`.
-/

namespace Verif.Import

/-- A name of an import. `stubs n` is the name with `-stubs` at its end. -/
inductive Name where
  | plain (s : String)
  | stubs (n : Name)
deriving DecidableEq, Repr

/-- The name of an entry of a directory: `py n` is the name with `.py` at its end, and `typed` is
`py.typed`. -/
inductive Entry where
  | bare (n : Name)
  | py (n : Name)
  | pyi (n : Name)
  | typed
deriving DecidableEq, Repr

/-- A place in a workspace. -/
structure Loc where
  root : Nat
  path : List Entry
deriving DecidableEq, Repr

def Loc.sub (d : Loc) (e : Entry) : Loc := ⟨d.root, d.path ++ [e]⟩

def Loc.parent (p : Loc) : Loc := ⟨p.root, p.path.dropLast⟩

inductive Kind where
  | file
  | dir
deriving DecidableEq, Repr

structure World where
  /-- The files and directories. -/
  kind : Loc → Option Kind
  /-- The workspaces in the order of the search path. -/
  roots : List Nat
  /-- `part_of_site_packages` -/
  site : Nat → Bool
  /-- `WorkspaceKind::Typeshed` -/
  typeshed : Nat → Bool
  /-- `explicit_package_bases` -/
  explicit : Bool
  /-- `follow_untyped_imports` -/
  follow : Bool
  /-- `is_global_binary_extension` -/
  binary : Name → Bool

/-- `ImportResult`, imports.rs 17-23. -/
inductive Result where
  | file (p : Loc)
  | portions (ds : List Loc)
  /-- `PyTypedMissing` -/
  | untyped (p : Loc)
  | binary
deriving DecidableEq, Repr

/-- A result, or `unreachable!`. -/
inductive Out where
  | panic
  | got (r : Option Result)
deriving DecidableEq, Repr

/-- `?` on a result. -/
def Out.andThen (o : Out) (k : Result → Out) : Out :=
  match o with
  | .panic => .panic
  | .got none => .got none
  | .got (some r) => k r

def initName : Name := .plain "__init__"

variable (w : World)

def World.isFile (p : Loc) : Bool := w.kind p == some .file
def World.isDir (p : Loc) : Bool := w.kind p == some .dir

/-- `load_init_file`, imports.rs 527-565. -/
def loadInit (d : Loc) : Option Loc :=
  if w.isFile (d.sub (.pyi initName)) then some (d.sub (.pyi initName))
  else if w.isFile (d.sub (.py initName)) then some (d.sub (.py initName))
  else none

/-- The files of a directory, imports.rs 430-446. -/
def findFile (stubs : Bool) (n : Name) (d : Loc) : Option Loc :=
  if stubs && w.isFile (d.sub (.pyi n)) then some (d.sub (.pyi n))
  else if w.isFile (d.sub (.py n)) then some (d.sub (.py n))
  else none

/-- `python_import_with_needs_exact_case`, imports.rs 345-486. The directories come with whether they
need a `py.typed`; `ns` are the directories for a namespace so far. -/
def search (stubs : Bool) (n : Name) : List (Loc × Bool) → List Loc → Option Result
  | [], ns => if ns.isEmpty then none else some (.portions ns)
  | (d, needs) :: rest, ns =>
    let isDir := w.isDir (d.sub (.bare n))
    match (if isDir then loadInit w (d.sub (.bare n)) else none) with
    | some f =>
      if needs && !w.follow && !w.isFile ((d.sub (.bare n)).sub .typed) then some (.untyped f)
      else some (.file f)
    | none =>
      match findFile w stubs n d with
      | some f => if needs && !w.follow then some (.untyped f) else some (.file f)
      | none => search stubs n rest (if isDir then ns ++ [d.sub (.bare n)] else ns)

/-- `python_import`, imports.rs 336-343. -/
def pythonImport (ds : List Loc) (n : Name) : Option Result :=
  search w true n (ds.map fun d => (d, false)) []

/-- `is_package_name`, file/imports.rs 507-509. -/
def isPackage (p : Loc) : Bool :=
  p.path.getLast? == some (.py initName) || p.path.getLast? == some (.pyi initName)

/-- `sub_module_import`, file/imports.rs 439-483. -/
def subModule (p : Loc) (n : Name) : Option Result :=
  if !isPackage p then none
  else if p.path.length ≤ 1 then
    if w.explicit then none else pythonImport w [p.parent] n
  else pythonImport w [p.parent] n

/-- `ImportResult::import`, imports.rs 48-69. -/
def step (r : Result) (n : Name) : Out :=
  match r with
  | .file p => .got (subModule w p n)
  | .portions ds => .got (pythonImport w ds n)
  | .untyped _ | .binary => .panic

def Loc.ofRoot (r : Nat) : Loc := ⟨r, []⟩

/-- The last part of `import_non_stub_for_stub_package`, imports.rs 104-107. -/
def notItself (from_ : Loc) : Out → Out
  | .got (some (.file f)) => .got (if f = from_ then none else some (.file f))
  | o => o

/-- `import_non_stub_for_stub_package` without a parent, imports.rs 85-103. -/
def nonStubBase : Entry → Option Result
  | .bare (.stubs n) => pythonImport w (w.roots.map .ofRoot) n
  | .bare (.plain s) =>
    search w false (.plain s) ((w.roots.filter fun r => !w.typeshed r).map fun r => (.ofRoot r, false)) []
  | _ => none

/-- The name of a directory as the name of an import. Directories with dots in their names are not
found by imports. -/
def Entry.name : Entry → Name
  | .bare n | .py n | .pyi n => n
  | .typed => .plain "py.typed"

/-- `import_non_stub_for_stub_package`, imports.rs 71-108. The first argument is the path of the
directory, from its end. -/
def nonStub (from_ : Loc) : List Entry → Name → Out
  | [], _ => .got none
  | [top], n => (notItself from_ (.got (nonStubBase w top))).andThen fun r => notItself from_ (step w r n)
  | e :: es, n => (nonStub from_ es e.name).andThen fun r => notItself from_ (step w r n)

/-- The first directory for which there is a result, imports.rs 282-293. -/
def firstNonStub (from_ : Loc) (n : Name) : List Loc → Out
  | [] => .got none
  | d :: ds =>
    match nonStub w from_ d.path.reverse n with
    | .got none => firstNonStub from_ n ds
    | o => o

/-- Whether the name of the entry ends with `-stubs`. -/
def Entry.isStubs : Entry → Bool
  | .bare (.stubs _) => true
  | _ => false

/-- The loop over the parents of a file, imports.rs 296-321. The list is the path of the directory,
from its end. -/
def marked (r : Nat) : List Entry → Bool
  | [] => false
  | e :: es => w.follow || w.isFile (Loc.sub ⟨r, (e :: es).reverse⟩ .typed) || e.isStubs || marked r es

/-- `namespace_import_with_unloaded_file`, imports.rs 263-324. -/
def namespaceImport (from_ : Loc) (ds : List Loc) (n : Name) : Out :=
  let o : Out := match pythonImport w ds n with
    | some r => .got (some r)
    | none => firstNonStub w from_ n ds
  match o with
  | .got (some (.file f)) =>
    .got (some (if marked w f.root f.parent.path.reverse then .file f
      else if w.site f.root then .untyped f else .file f))
  | o => o

/-- The first outer directory without an `__init__` file, imports.rs 205-224. The argument is the path
of the directory, from its end. -/
def outer (r : Nat) : List Entry → Option Loc
  | [] => none
  | e :: es =>
    if (loadInit w ⟨r, (e :: es).reverse⟩).isNone then some ⟨r, (e :: es).reverse⟩ else outer r es

/-- `global_import`, imports.rs 179-226. -/
def globalImport (from_ : Loc) (n : Name) : Option Result :=
  (pythonImport w (w.roots.map .ofRoot) (.stubs n)).or <|
    (search w true n (w.roots.map fun r => (.ofRoot r, w.site r)) []).or <|
      if w.explicit then none
      else (outer w from_.root from_.parent.path.reverse).bind fun d => pythonImport w [d] n

/-- `PythonFile::global_import`, file/imports.rs 25-50. -/
def globalOrBinary (from_ : Loc) (n : Name) : Option Result :=
  (globalImport w from_ n).or (if w.binary n then some .binary else none)

/-- `infer_name` of `cache_import_dotted_name`, file/imports.rs 64-117. -/
def inferName (from_ : Loc) (base : Result) (n : Name) : Out :=
  match base with
  | .file p => .got (subModule w p n)
  | .portions ds => namespaceImport w from_ ds n
  | .untyped p =>
    match subModule w p n with
    | some (.file f) => .got (some (.untyped f))
    | _ => .got (some .binary)
  | .binary => .got (some .binary)

/-- The rest of the names, file/imports.rs 127-130. -/
def follow (from_ : Loc) (o : Out) (ns : List Name) : Out :=
  ns.foldl (fun o n => o.andThen fun r => inferName w from_ r n) o

/-- `cache_import_dotted_name`, file/imports.rs 52-134. -/
def dotted (from_ : Loc) (base : Option Result) : List Name → Out
  | [] => .got base
  | n :: ns =>
    match base with
    | some r => follow w from_ (inferName w from_ r n) ns
    | none => follow w from_ (.got (globalOrBinary w from_ n)) ns

/-- `import_module_by_strings`, imports.rs 228-240. -/
def importStrings (from_ : Loc) : List Name → Out
  | [] => .got none
  | n :: ns =>
    ns.foldl (fun o n => o.andThen fun r => step w r n) (.got (globalImport w from_ n))

/-- `sub_module_lookup`, file/imports.rs 296-304. -/
def subModuleLookup (p : Loc) (n : Name) : Out :=
  match subModule w p n with
  | some (.untyped _) | some .binary => .panic
  | r => .got r

/-- `ImportAncestor`, imports.rs 567-571. -/
inductive Ancestor where
  | found (r : Result)
  | workspace
  | noParent
deriving DecidableEq, Repr

/-- `invalid` of `find_import_ancestor`, imports.rs 575-593. -/
def invalidAncestor (from_ : Loc) (rest : Nat) : Ancestor :=
  if rest = 0 then
    if w.explicit then .workspace
    else
      match loadInit w (.ofRoot from_.root) with
      | some f => .found (.file f)
      | none => .workspace
  else .noParent

/-- The loop of `find_import_ancestor`, imports.rs 594-612: the directory, from its end, and how many
levels are left. -/
def climb (from_ : Loc) : List Entry → Nat → Ancestor
  | [], rest => invalidAncestor w from_ rest
  | e :: es, 0 =>
    .found (match loadInit w ⟨from_.root, (e :: es).reverse⟩ with
      | some f => .file f
      | none => .portions [⟨from_.root, (e :: es).reverse⟩])
  | _ :: es, rest + 1 => climb from_ es rest

/-- `find_import_ancestor`, imports.rs 573-612; the level is at least one. -/
def findAncestor (from_ : Loc) (level : Nat) : Ancestor :=
  climb w from_ from_.parent.path.reverse (level - 1)

/-- `import_from_first_part_calculation_without_loading_file`, file/imports.rs 205-237: whether there
is an error that there is no parent, and the result. -/
def importFrom (from_ : Loc) (level : Nat) (ns : List Name) : Bool × Out :=
  if level = 0 then (false, dotted w from_ none ns)
  else
    match findAncestor w from_ level with
    | .found r => (false, dotted w from_ (some r) ns)
    | .workspace => (true, dotted w from_ none ns)
    | .noParent => (true, .got none)

end Verif.Import
