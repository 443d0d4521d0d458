import Verif.Vfs.Model

/-!
# What the virtual file system promises about dependents

Written over the plain data of the state: which file recorded which other file as its dependent.
-/

namespace Verif.Vfs

/-- File `b` is recorded as depending on file `a`. -/
def Records (s : Vfs) (a b : Nat) : Prop :=
  ∃ fs e l, s.files[a]? = some fs ∧ s.entries[fs.entry]? = some e ∧ e.inv = .files l ∧ b ∈ l

/-- File `b` depends on file `a` through one or more recorded steps. -/
inductive Dependent (s : Vfs) (a : Nat) : Nat → Prop where
  | direct {b : Nat} : Records s a b → Dependent s a b
  | step {b c : Nat} : Dependent s a b → Records s b c → Dependent s a c

/-- A change of file `a` is recorded as a change of everything. -/
def WholeDb (s : Vfs) (a : Nat) : Prop :=
  ∃ fs e, s.files[a]? = some fs ∧ s.entries[fs.entry]? = some e ∧ e.inv = .invalidatesDb

/-- Numbers of files and entries that occur in a state exist. -/
structure WellFormed (s : Vfs) : Prop where
  entry : ∀ fs ∈ s.files, fs.entry < s.entries.length
  index : ∀ e ∈ s.entries, ∀ i, e.index = some i → i < s.files.length
  dependents : ∀ e ∈ s.entries, ∀ l, e.inv = .files l → ∀ i ∈ l, i < s.files.length
  missing : ∀ n ∈ s.tree, ∀ l, n.2 = .missing (.files l) → ∀ i ∈ l, i < s.files.length
  node : ∀ n ∈ s.tree, ∀ e, n.2 = .file e → e < s.entries.length
  mem : ∀ m ∈ s.mem, m.2 < s.files.length

/-- The document with this path is open in the editor. -/
def OpenPath (s : Vfs) (p : Path) : Prop := ∃ i, (p, i) ∈ s.mem

/-- File `i` has path `p`. -/
def HasPath (s : Vfs) (i : Nat) (p : Path) : Prop := ∃ fs, s.files[i]? = some fs ∧ fs.path = some p

end Verif.Vfs
