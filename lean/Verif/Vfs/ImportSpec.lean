import Verif.Vfs.MirrorSpec
import Verif.Vfs.Import

/-!
# What an import should resolve to

Stated with the open documents and the disk only.
-/

namespace Verif.Vfs

/-- The files that can provide a module in a directory, the most important one first: a package, a
stub, a module. -/
def candidates (stubs : Bool) (name : String) (dir : Path) : List Path :=
  [dir ++ [name, "__init__.pyi"], dir ++ [name, "__init__.py"]] ++ (if stubs then [dir ++ [name ++ ".pyi"]] else []) ++ [dir ++ [name ++ ".py"]]

/-- The first file of a list that exists. -/
def FirstFile (docs : Docs) (d : Disk) (l : List Path) (f : Path) : Prop :=
  ∃ a b, l = a ++ f :: b ∧ HasFile docs d f ∧ ∀ x ∈ a, ¬ HasFile docs d x

/-- What the name resolves to in the search directories: a file, a namespace of directories or
nothing. -/
inductive Resolves (docs : Docs) (d : Disk) (stubs : Bool) (name : String) (dirs : List Path) : Option (Path ⊕ List Path) → Prop where
  | file (f : Path) (h : FirstFile docs d (dirs.flatMap (candidates stubs name)) f) : Resolves docs d stubs name dirs (some (.inl f))
  | namespace (h : ∀ x ∈ dirs.flatMap (candidates stubs name), ¬ HasFile docs d x)
      (hn : (dirs.map (· ++ [name])).filter (fun p => diskGet d p == some .dir) ≠ []) :
      Resolves docs d stubs name dirs (some (.inr ((dirs.map (· ++ [name])).filter (fun p => diskGet d p == some .dir))))
  | nothing (h : ∀ x ∈ dirs.flatMap (candidates stubs name), ¬ HasFile docs d x) (hn : ∀ p ∈ dirs, ¬ HasDir d (p ++ [name])) :
      Resolves docs d stubs name dirs none

/-- The file or the directories of a resolution. -/
def Resolution.places : Resolution → Path ⊕ List Path
  | .file p => .inl p
  | .untyped p => .inl p
  | .namespace ps => .inr ps

/-- `g` is more important than `f` in a directory. -/
def MoreImportant (stubs : Bool) (name : String) (p g f : Path) : Prop := ∃ a b, candidates stubs name p = a ++ f :: b ∧ g ∈ a

/-- The names that are looked for have the right kind: modules are not directories, and the name
itself is not a file. -/
def PlainDir (docs : Docs) (d : Disk) (stubs : Bool) (name : String) (p : Path) : Prop :=
  (∀ x ∈ candidates stubs name p, ¬ HasDir d x) ∧ ¬ HasFile docs d (p ++ [name])

end Verif.Vfs
