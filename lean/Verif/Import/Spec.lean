import Verif.Import.Model

/-!
# What imports should find

Of the model only the data is used.
-/

namespace Verif.Import

variable (w : World)

/-! ## Python -/

/-- What Python finds. -/
inductive Module where
  | module (p : Loc)
  | package (d : Loc)
  | portions (ds : List Loc)

/-- A directory has the name as a package. -/
def HasPackage (d : Loc) (n : Name) : Prop :=
  w.kind (d.sub (.bare n)) = some .dir ∧ w.kind ((d.sub (.bare n)).sub (.py (.plain "__init__"))) = some .file

/-- A directory has the name as a module. -/
def HasModule (d : Loc) (n : Name) : Prop := w.kind (d.sub (.py n)) = some .file

/-- A directory has neither. -/
def Misses (d : Loc) (n : Name) : Prop := ¬ HasPackage w d n ∧ ¬ HasModule w d n

/-- `PathFinder` of importlib: the first directory with a package or a module of that name, where
packages come first; otherwise all directories with that name are a namespace. -/
inductive Finds : List Loc → Name → Module → Prop
  | package {pre post d n} : (∀ e ∈ pre, Misses w e n) → HasPackage w d n →
    Finds (pre ++ d :: post) n (.package (d.sub (.bare n)))
  | module {pre post d n} : (∀ e ∈ pre, Misses w e n) → ¬ HasPackage w d n → HasModule w d n →
    Finds (pre ++ d :: post) n (.module (d.sub (.py n)))
  | portions {ds n} : (∀ e ∈ ds, Misses w e n) →
    (ds.filter fun d => w.kind (d.sub (.bare n)) = some .dir) ≠ [] →
    Finds ds n (.portions ((ds.filter fun d => w.kind (d.sub (.bare n)) = some .dir).map fun d =>
      d.sub (.bare n)))

/-- `import a.b.c` of Python: each name is searched in what was found for the one before. -/
inductive Imports : List Name → Module → Prop
  | first {n m} : Finds w (w.roots.map fun r => ⟨r, []⟩) n m → Imports [n] m
  | package {ns d n m} : Imports ns (.package d) → Finds w [d] n m → Imports (ns ++ [n]) m
  | portions {ns ds n m} : Imports ns (.portions ds) → Finds w ds n m → Imports (ns ++ [n]) m

/-- The result of the type checker for it. -/
def Module.result : Module → Result
  | .module p => .file p
  | .package d => .file (d.sub (.py (.plain "__init__")))
  | .portions ds => .portions ds

/-- There are no stubs. -/
structure NoStubs : Prop where
  pyi : ∀ (d : Loc) n, w.kind (d.sub (.pyi n)) ≠ some .file
  dir : ∀ r n, w.kind ⟨r, [.bare (.stubs n)]⟩ ≠ some .dir
  file : ∀ r n, w.kind ⟨r, [.py (.stubs n)]⟩ ≠ some .file

/-! ## The marker `py.typed` -/

/-- Some directory above the file, but not the workspace itself, has the marker or is a directory with
stubs. -/
def Typed (f : Loc) : Prop :=
  ∃ (d : Loc) (rest : List Entry), d.root = f.root ∧ d.path ≠ [] ∧ rest ≠ [] ∧ f.path = d.path ++ rest ∧
    (w.kind (d.sub .typed) = some .file ∨ ∃ n, d.path.getLast? = some (.bare (.stubs n)))

/-! ## Names -/

/-- The first name is the second one, apart from `-stubs` at its end. -/
inductive Stub : Name → Name → Prop
  | refl {n} : Stub n n
  | stubs {m n} : Stub m n → Stub (.stubs m) n

/-- The entry is a directory of that name, or of the stubs for it. -/
def Same (e : Entry) (n : Name) : Prop := ∃ m, e = .bare m ∧ Stub m n

/-- Entries one by one with these names. -/
inductive Sames : List Entry → List Name → Prop
  | nil : Sames [] []
  | cons {u us n ns} : Same u n → Sames us ns → Sames (u :: us) (n :: ns)

/-- The path ends with directories of these names. -/
def Ends (ns : List Name) (d : Loc) : Prop :=
  ∃ (pre us : List Entry), d.path = pre ++ us ∧ Sames us ns

/-- The entry is a file of that name, or of the stubs for it. -/
def SameFile (e : Entry) (n : Name) : Prop := ∃ m, (e = .py m ∨ e = .pyi m) ∧ Stub m n

/-- The file is the module of a dotted name. -/
inductive IsModule : List Name → Loc → Prop
  | file {ns n d e} : Ends ns d → SameFile e n → IsModule (ns ++ [n]) (d.sub e)
  | init {ns d e} : Ends ns d → SameFile e (.plain "__init__") → IsModule ns (d.sub e)

/-- A name as it can be written in an import, other than `__init__`. -/
def Ordinary (n : Name) : Prop := ∃ s, n = .plain s ∧ s ≠ "__init__"

/-! ## Relative imports -/

/-- The package of so many dots, from a file: one dot is the directory of the file. -/
def Above (f : Loc) (level : Nat) (d : Loc) : Prop :=
  d.root = f.root ∧ d.path ≠ [] ∧ ∃ rest : List Entry, f.path = d.path ++ rest ∧ rest.length = level

/-- There is no stub beside a module. -/
def NoStubBeside (w : World) (p : Loc) : Prop := ∀ (d : Loc) (n : Name), p = d.sub (.py n) → w.kind (d.sub (.pyi n)) ≠ some .file

/-- The directories of the stubs of `n`: `r/n-stubs/…` with an `__init__.pyi` in each of them. -/
inductive StubPackage (w : World) (r : Nat) (n : Name) : List Name → Loc → Prop
  | top : w.kind ⟨r, [.bare (.stubs n)]⟩ = some .dir →
    w.kind ⟨r, [.bare (.stubs n), .pyi (.plain "__init__")]⟩ = some .file →
    StubPackage w r n [] ⟨r, [.bare (.stubs n)]⟩
  | sub {ms : List Name} {d : Loc} {k : Name} : StubPackage w r n ms d → w.kind (d.sub (.bare k)) = some .dir →
    w.kind ((d.sub (.bare k)).sub (.pyi (.plain "__init__"))) = some .file →
    StubPackage w r n (ms ++ [k]) (d.sub (.bare k))

/-- Nothing in the directory is named like a stub package. -/
def NoStubPackage (w : World) (r : Nat) (n : Name) : Prop :=
  w.kind ⟨r, [.bare (.stubs n)]⟩ ≠ some .dir ∧ w.kind ⟨r, [.py (.stubs n)]⟩ ≠ some .file ∧
    w.kind ⟨r, [.pyi (.stubs n)]⟩ ≠ some .file

end Verif.Import
