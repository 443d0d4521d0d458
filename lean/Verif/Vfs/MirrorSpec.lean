import Verif.Vfs.OverlaySpec

/-!
# What the tree of directories should show

The virtual file system keeps a tree of the directories that it has read. It should show the disk
together with the documents of the editor. The documents of the editor are in directories of the
disk in the histories considered here.
-/

namespace Verif.Vfs

/-- The disk has one thing at each path. -/
def Listed (d : Disk) : Prop := (d.map (·.1)).Nodup

/-- Open documents are in directories of the disk, and are not directories of the disk themselves. A
document need not be on disk. -/
def Housed (docs : Docs) (d : Disk) : Prop :=
  ∀ p t, docs p = some t → diskGet d p ≠ some .dir ∧ ∀ q, q ≠ [] → q <+: p → q ≠ p → diskGet d q = some .dir

/-- Open documents are in directories of the disk all the time. -/
def AlwaysHoused (docs : Docs) (d : Disk) : List Happening → Prop
  | [] => Housed docs d ∧ Listed d
  | h :: hs => Housed docs d ∧ Listed d ∧ AlwaysHoused (outside docs d h).1 (outside docs d h).2 hs

/-- There is a file at a path: an open document or a file on disk. -/
def HasFile (docs : Docs) (d : Disk) (p : Path) : Prop := (∃ t, docs p = some t) ∨ ∃ t, diskGet d p = some (.file t)

/-- There is a directory at a path. -/
def HasDir (d : Disk) (p : Path) : Prop := diskGet d p = some .dir

/-- There is nothing at a path. -/
def HasNothing (docs : Docs) (d : Disk) (p : Path) : Prop := docs p = none ∧ diskGet d p = none

/-- File `i` was invalidated between two states. -/
def MarkedIn (s s' : Vfs) (i : Nat) : Prop := ∃ m o, s'.marks = s.marks ++ m ∧ (i, o) ∈ m

end Verif.Vfs
