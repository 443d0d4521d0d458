import Verif.Vfs.Overlay
import Verif.Vfs.Spec

/-!
# What the text of a file should be

Independent of the tree, of indices and of entries: there are the documents that the editor has
open, and the disk.
-/

namespace Verif.Vfs

/-- The documents that are open in the editor. -/
abbrev Docs := Path → Option String

/-- What happens outside of the virtual file system, in the order in which it is told about it. -/
inductive Happening where
  /-- The editor opens a document, or changes the text of an open one. -/
  | edit (p : Path) (text : String)
  /-- The editor closes a document. -/
  | close (p : Path)
  /-- The disk changes at a path, and the watcher reports that path. -/
  | disk (p : Path) (d : Disk)
  /-- The analysis needs the file at a path. -/
  | need (p : Path)
  /-- The start of the analysis reads a file that everything depends on. -/
  | preload (p : Path)
  /-- The analysis refers to the file at a path without reading it. -/
  | mention (p : Path)
  /-- The analysis of file `i` records that it depends on the file at path `p`. -/
  | depend (i : Nat) (p : Path)
  /-- The analysis of file `i` records that it depends on nothing being at path `p`. -/
  | missing (i : Nat) (p : Path)

/-- The parents of everything on disk are directories. -/
def DiskOk (d : Disk) : Prop :=
  ∀ p n, diskGet d p = some n → ∀ q, q ≠ [] → q <+: p → q ≠ p → diskGet d q = some .dir

/-- The disk changed at `p` or, if `p` did not stay a directory, below it. A change of a file in a
directory is reported with the path of the file. -/
def ChangedAt (d d' : Disk) (p : Path) : Prop :=
  (∀ q, ¬ p <+: q → diskGet d' q = diskGet d q) ∧
  (diskGet d p = some .dir → diskGet d' p = some .dir → ∀ q, diskGet d' q = diskGet d q)

/-- The text that analysis should use for a path. -/
def expected (docs : Docs) (d : Disk) (p : Path) : Option String :=
  match docs p with
  | some t => some t
  | none =>
    match diskGet d p with
    | some (.file t) => some t
    | _ => none

/-- Editor and disk after a happening. -/
def outside (docs : Docs) (d : Disk) : Happening → Docs × Disk
  | .edit p text => (fun q => if q = p then some text else docs q, d)
  | .close p => (fun q => if q = p then none else docs q, d)
  | .disk _ d' => (docs, d')
  | .need _ => (docs, d)
  | .preload _ => (docs, d)
  | .mention _ => (docs, d)
  | .depend _ _ => (docs, d)
  | .missing _ _ => (docs, d)

/-- Editor and disk after a history. -/
def outsideAll (docs : Docs) (d : Disk) : List Happening → Docs × Disk
  | [] => (docs, d)
  | h :: hs => outsideAll (outside docs d h).1 (outside docs d h).2 hs

/-- The changes of the disk are as described; the workspace itself stays. -/
def Orderly (d : Disk) : List Happening → Prop
  | [] => True
  | .disk p d' :: hs => p ≠ [] ∧ DiskOk d' ∧ ChangedAt d d' p ∧ Orderly d' hs
  | _ :: hs => Orderly d hs

/-- Files on disk are at places for files, directories at places `K` for directories. -/
def DiskKinds (K : Path → Prop) (d : Disk) : Prop := ∀ x ∈ d, ((∃ t, x.2 = .file t) → ¬ K x.1) ∧ (x.2 = .dir → K x.1)

/-- A place for a document. -/
def DocPath (K : Path → Prop) (p : Path) : Prop := p ≠ [] ∧ ¬ K p ∧ ∀ q, q ≠ [] → q <+: p → q ≠ p → K q

/-- In a history, files and directories keep to their places. -/
def Settled (K : Path → Prop) (hs : List Happening) : Prop :=
  ∀ h ∈ hs, match h with
    | .edit p _ => DocPath K p
    | .disk _ d' => DiskKinds K d'
    | _ => True

/-- The text that analysis uses for file `i`, which has path `p`. -/
def UsesText (s : Vfs) (i : Nat) (p : Path) (text : String) : Prop :=
  ∃ f, s.files[i]? = some f ∧ f.path = some p ∧ f.code = some text

end Verif.Vfs
