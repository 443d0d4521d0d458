/-!
# The virtual file system: files, their dependents, the tree of directories

Models the data of `crates/vfs/src/tree.rs` and `crates/vfs/src/vfs.rs` and the propagation of
invalidations between files.

Simplifications:
* a path is the list of its normalised components below one workspace root; sub files (empty
  scheme, vfs.rs 913-925) have no path;
* `Arc<FileEntry>` is an index into a list of entries, shared by the tree and by file states;
* a set of file indices is a list, and the order of iteration of the hash set is the order of the
  list: every theorem is stated for all lists, so for every order;
* the tree is a finite map from paths to nodes, with parents of nodes being directories;
* locks are dropped, the functions below take `&mut self` in Rust;
* the log `marks` records the calls to `VfsFile::invalidate_references_to`, the log `hooks` the
  calls to `VfsHandler::on_invalidated_in_memory_file`.
-/

namespace Verif.Vfs

/-- A normalised path below the workspace root, as components. -/
abbrev Path := List String

/-- `InvalidationDetail<FastHashSet<FileIndex>>`, tree.rs 552-555. -/
inductive Detail where
  | invalidatesDb
  | files (l : List Nat)
  deriving DecidableEq, Repr

/-- `Default for InvalidationDetail`, tree.rs 557-561. -/
def Detail.empty : Detail := .files []

/-- `Invalidations::add`, tree.rs 585-589. -/
def Detail.add (d : Detail) (x : Nat) : Detail :=
  match d with
  | .invalidatesDb => .invalidatesDb
  | .files l => .files (if x ∈ l then l else l ++ [x])

/-- `Invalidations::extend`, tree.rs 591-596. -/
def Detail.extend (d other : Detail) : Detail :=
  match d, other with
  | .files l, .files m => .files (l ++ m.filter (fun x => x ∉ l))
  | _, _ => .invalidatesDb

/-- What `Invalidations::take` leaves behind, tree.rs 598-603. What it returns is the old value. -/
def Detail.afterTake (d : Detail) : Detail :=
  match d with
  | .invalidatesDb => .invalidatesDb
  | .files _ => .empty

/-- `FileEntry`, tree.rs 92-98, without name and parent. -/
structure FileEntry where
  index : Option Nat
  inv : Detail
  deriving DecidableEq, Repr

/-- `FileState`, vfs.rs 899-903. `path = none` is the empty path of a sub file, `code = none` an
empty `OnceLock`. -/
structure FileState where
  path : Option Path
  entry : Nat
  code : Option String
  deriving DecidableEq, Repr

/-- `DirectoryEntry`, tree.rs 159-165, without `Gitignore`. `loaded` says whether the `OnceLock` of
`Directory::entries` (tree.rs 213) is filled. -/
inductive Node where
  | file (entry : Nat)
  | dir (loaded : Bool)
  | missing (inv : Detail)
  deriving DecidableEq, Repr

/-- `Vfs`, vfs.rs 45-50, with the logs. -/
structure Vfs where
  entries : List FileEntry
  files : List FileState
  tree : List (Path × Node)
  mem : List (Path × Nat)
  marks : List (Nat × Option Nat)
  hooks : List Path
  deriving DecidableEq, Repr

/-- `InvalidationResult`, vfs.rs 884-888. -/
inductive Res where
  | files
  | db
  deriving DecidableEq, Repr

/-- `BitOrAssign for InvalidationResult`, vfs.rs 890-897. -/
def Res.or (a b : Res) : Res :=
  match a with
  | .files => b
  | .db => .db

/-- The ways a call can fail: out of fuel, an index out of range (a panic), a directory where a
file should be stored or a file where a directory is needed (`unimplemented!`). -/
inductive Fault where
  | fuel
  | index
  | inTheWay
  deriving DecidableEq, Repr

/-- The invalidations of entry `e`; an `Arc` always points to an entry, so there is a default for
dangling numbers. -/
def Vfs.inv (s : Vfs) (e : Nat) : Detail :=
  match s.entries[e]? with
  | some x => x.inv
  | none => .empty

/-- The file index of entry `e`, `get_file_index`, tree.rs 142-144. -/
def Vfs.index (s : Vfs) (e : Nat) : Option Nat :=
  match s.entries[e]? with
  | some x => x.index
  | none => none

/-- Stores invalidations in an entry. -/
def Vfs.setInv (s : Vfs) (e : Nat) (d : Detail) : Vfs :=
  { s with entries := s.entries.modify e (fun x => { x with inv := d }) }

/-- `FileEntry::add_invalidation`, tree.rs 138-140. -/
def Vfs.addInvalidation (s : Vfs) (e : Nat) (x : Nat) : Vfs := s.setInv e ((s.inv e).add x)

/-- `FileEntry::set_invalidates_db`, tree.rs 577-579. -/
def Vfs.setInvalidatesDb (s : Vfs) (e : Nat) : Vfs := s.setInv e .invalidatesDb

/-- `self.in_memory_files.contains_key(path)`; the empty path of a sub file is never a key. -/
def Vfs.isOpen (s : Vfs) (p : Option Path) : Bool :=
  match p with
  | some p => s.mem.any (fun m => m.1 == p)
  | none => false

/-- `on_invalidated_in_memory_file` for one file, vfs.rs 289-292. -/
def Vfs.hookIfOpen (s : Vfs) (p : Option Path) : Vfs :=
  match p with
  | some q => if s.isOpen p then { s with hooks := s.hooks ++ [q] } else s
  | none => s

/-- The loop of `invalidate_files`, vfs.rs 255-261. `f` is `invalidate_file_by_index`. -/
def invalidateList (f : Nat → Vfs → Except Fault (Res × Vfs)) : List Nat → Vfs → Except Fault (Res × Vfs)
  | [], s => .ok (.files, s)
  | i :: is, s =>
    match f i s with
    | .error x => .error x
    | .ok (.db, s') => .ok (.db, s')
    | .ok (.files, s') => invalidateList f is s'

/-- `invalidate_files`, vfs.rs 238-263. `f` is `invalidate_file_by_index`. -/
def invalidateFilesWith (f : Nat → Vfs → Except Fault (Res × Vfs)) (d : Detail) (s : Vfs) : Except Fault (Res × Vfs) :=
  match d with
  | .invalidatesDb => .ok (.db, { s with hooks := s.hooks ++ s.mem.map (·.1) })
  | .files l => invalidateList f l s

/-- `invalidate_file_by_index`, vfs.rs 265-294. The recursion of the Rust code has no bound; the
fuel is shown never to run out. -/
def invalidateByIndex : Nat → Option Nat → Nat → Vfs → Except Fault (Res × Vfs)
  | 0, _, _, _ => .error .fuel
  | n + 1, orig, i, s =>
    match s.files[i]? with
    | none => .error .index
    | some fs =>
      let taken := s.inv fs.entry
      let s1 := s.setInv fs.entry taken.afterTake
      let s2 := { s1 with marks := s1.marks ++ [(i, orig)] }
      match invalidateFilesWith (invalidateByIndex n orig) taken s2 with
      | .error x => .error x
      | .ok (.db, s3) => .ok (.db, s3)
      | .ok (.files, s3) => .ok (.files, s3.hookIfOpen fs.path)

/-- `invalidate_file_by_index` with enough fuel for every state. -/
def invalidateFile (orig : Option Nat) (i : Nat) (s : Vfs) : Except Fault (Res × Vfs) :=
  invalidateByIndex (s.entries.length + 1) orig i s

/-- `invalidate_files`, vfs.rs 238-263. -/
def invalidateFiles (orig : Option Nat) (d : Detail) (s : Vfs) : Except Fault (Res × Vfs) :=
  invalidateFilesWith (invalidateByIndex (s.entries.length + 1) orig) d s

/-- `FileState::unload`, vfs.rs 1019-1021. -/
def Vfs.unload (s : Vfs) (i : Nat) : Vfs :=
  { s with files := s.files.modify i (fun f => { f with code := none }) }

/-- `invalidate_and_unload_file`, vfs.rs 501-506. -/
def invalidateAndUnload (i : Nat) (s : Vfs) : Except Fault (Res × Vfs) :=
  match s.files[i]? with
  | none => .error .index
  | some fs =>
    let s0 := s.unload i
    let taken := s0.inv fs.entry
    invalidateFiles (some i) taken (s0.setInv fs.entry taken.afterTake)

end Verif.Vfs
