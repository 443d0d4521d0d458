import Verif.Vfs.Model

/-!
# The virtual file system: documents of the editor over the disk

Models `Vfs::store_in_memory_file`, `close_in_memory_file`, `invalidate_path`,
`ensure_file_for_file_entry_with_conditional`, `into_panic_recovery`, `load_panic_recovery` of
vfs.rs, `ensure_dirs_and_file`, `search_potential_parent_for_invalidation` of workspaces.rs and
`Entries::ensure_file`, `unload_file` of tree.rs.

Simplifications on top of those of `Verif.Vfs.Model`:
* one workspace, whose root directory is read at the start; case sensitive names;
* the disk is a finite map from paths to files and directories; names that the reader of
  directories skips (hidden ones, `__pycache__`, ...) are left out of it, symbolic links are left
  out; the watcher is left out;
* `.gitignore` documents are left out;
* directories below a removed directory that were never read are not read when the removed tree is
  walked: reading them gives entries without file index and dependents.
-/

namespace Verif.Vfs

/-- What is on disk at a path. -/
inductive DiskNode where
  | file (text : String)
  | dir
  deriving DecidableEq, Repr

/-- The disk below the workspace root. -/
abbrev Disk := List (Path × DiskNode)

/-- Looks up a path on disk. -/
def diskGet (d : Disk) (p : Path) : Option DiskNode := (d.find? (fun x => x.1 == p)).map (·.2)

/-- `read_and_watch_file`: the text of a file on disk. -/
def diskText (d : Disk) (p : Path) : Option String :=
  match diskGet d p with
  | some (.file t) => some t
  | _ => none

/-- `Entries::search` along a path. -/
def treeGet (t : List (Path × Node)) (p : Path) : Option Node := (t.find? (fun x => x.1 == p)).map (·.2)

/-- Inserts or replaces the node at a path. -/
def treeSet (t : List (Path × Node)) (p : Path) (n : Node) : List (Path × Node) :=
  (p, n) :: t.filter (fun x => x.1 != p)

/-- Removes the node at a path and everything below it. -/
def treeRemove (t : List (Path × Node)) (p : Path) : List (Path × Node) :=
  t.filter (fun x => !p.isPrefixOf x.1)

/-- `FileEntry::new`, tree.rs 113-120: a new entry in the tree, without index and dependents. -/
def Vfs.addEntry (s : Vfs) (p : Path) : Vfs :=
  { s with entries := s.entries ++ [⟨none, .empty⟩], tree := treeSet s.tree p (.file s.entries.length) }

/-- One item of `read_and_watch_dir`, local_fs.rs 69-128, if it is directly in directory `p`. -/
def readChild (p : Path) (s : Vfs) (x : Path × DiskNode) : Vfs :=
  if x.1 ≠ [] ∧ x.1.dropLast = p then
    match x.2 with
    | .file _ => s.addEntry x.1
    | .dir => { s with tree := treeSet s.tree x.1 (.dir false) }
  else s

/-- `Directory::entries` on a directory that was not read yet, tree.rs 263-301. -/
def readDir (d : Disk) (p : Path) (s : Vfs) : Vfs :=
  d.foldl (readChild p) { s with tree := treeSet s.tree p (.dir true) }

/-- `Entries::ensure_file`, tree.rs 364-423. Returns the entry, the dependents of the missing entry
that it replaces, and the state. -/
def ensureFileIn (p : Path) (s : Vfs) : Except Fault (Nat × Detail × Vfs) :=
  match treeGet s.tree p with
  | some (.file e) => .ok (e, .empty, s)
  | some (.missing inv) => .ok (s.entries.length, inv, s.addEntry p)
  | some (.dir _) => .error .inTheWay
  | none => .ok (s.entries.length, .empty, s.addEntry p)

/-- `ensure_dirs_and_file`, workspaces.rs 561-609. `base` is the directory reached so far. -/
def ensureDirsAndFile (d : Disk) (base : Path) (rest : List String) (s : Vfs) : Except Fault (Nat × Detail × Vfs) :=
  match rest with
  | [] => .error .inTheWay
  | [name] => ensureFileIn (base ++ [name]) s
  | name :: next :: more =>
    let p := base ++ [name]
    match treeGet s.tree p with
    | some (.dir true) => ensureDirsAndFile d p (next :: more) s
    | some (.dir false) => ensureDirsAndFile d p (next :: more) (readDir d p s)
    | some (.file _) => .error .inTheWay
    | some (.missing inv) =>
      match ensureDirsAndFile d p (next :: more) (readDir d p s) with
      | .error x => .error x
      | .ok (e, invs, s') => .ok (e, invs.extend inv, s')
    | none => ensureDirsAndFile d p (next :: more) (readDir d p s)

/-- `Workspaces::ensure_file`, workspaces.rs 236-254, in the only workspace. -/
def ensureFile (d : Disk) (p : Path) (s : Vfs) : Except Fault (Nat × Detail × Vfs) := ensureDirsAndFile d [] p s

/-- `FileEntry::with_set_file_index`, tree.rs 146-155, with a known index. -/
def Vfs.setIndexIfNone (s : Vfs) (e i : Nat) : Vfs :=
  { s with entries := s.entries.modify e (fun x => { x with index := some (x.index.getD i) }) }

/-- `FileState::update`, vfs.rs 992-1001: a loaded file stays as it is. -/
def Vfs.update (s : Vfs) (i : Nat) (text : String) : Vfs :=
  { s with files := s.files.modify i (fun f => { f with code := some (f.code.getD text) }) }

/-- `with_added_file`, vfs.rs 840-851, with `add_uninitialized_file_state` 801-824. -/
def withAddedFile (e : Nat) (p : Path) (text : String) (s : Vfs) : Nat × Vfs :=
  match s.index e with
  | some i => (i, s.update i text)
  | none =>
    let i := s.files.length
    (i, { s.setIndexIfNone e i with files := s.files ++ [⟨some p, e, some text⟩] })

/-- `in_memory_file`, vfs.rs 395-400. -/
def Vfs.memGet (s : Vfs) (p : Path) : Option Nat := (s.mem.find? (fun m => m.1 == p)).map (·.2)

/-- `in_memory_files.insert`. -/
def Vfs.memSet (s : Vfs) (p : Path) (i : Nat) : Vfs := { s with mem := (p, i) :: s.mem.filter (fun m => m.1 != p) }

/-- `on_invalidated_in_memory_file`. -/
def Vfs.hook (s : Vfs) (p : Path) : Vfs := { s with hooks := s.hooks ++ [p] }

/-- The text of a file, `FileState::code`, vfs.rs 1011-1013. -/
def Vfs.code (s : Vfs) (i : Nat) : Option String :=
  match s.files[i]? with
  | some f => f.code
  | none => none

/-- The end of `store_in_memory_file` for a document whose file has index `i`, vfs.rs 448-486. -/
def storeExisting (p : Path) (text : String) (e : Nat) (inv : Detail) (i : Nat) (s : Vfs) : Except Fault (Res × Vfs) :=
  if s.code i = some text then .ok (.files, s)
  else
    match invalidateAndUnload i s with
    | .error x => .error x
    | .ok (r, s1) =>
      let s2 := if r = .db then s1.setInvalidatesDb e else s1
      let s3 := { s2 with files := s2.files.set i ⟨some p, e, some text⟩ }
      match invalidateFiles (some i) inv s3 with
      | .error x => .error x
      | .ok (r', s4) => .ok (r.or r', s4)

/-- `store_in_memory_file`, vfs.rs 402-488: the editor opens or changes a document. -/
def store (d : Disk) (p : Path) (text : String) (s : Vfs) : Except Fault (Res × Vfs) :=
  match ensureFile d p s with
  | .error x => .error x
  | .ok (e, inv, s1) =>
    match s1.memGet p with
    | some i => storeExisting p text e inv i (s1.hook p)
    | none =>
      match s1.index e with
      | some i => storeExisting p text e inv i ((s1.memSet p i).hook p)
      | none =>
        let (i, s2) := withAddedFile e p text (s1.hook p)
        invalidateFiles (some i) inv (s2.memSet p i)

/-- `update_file`, vfs.rs 787-798. -/
def updateFile (i : Nat) (text : String) (s : Vfs) : Except Fault (Res × Vfs) :=
  match invalidateAndUnload i s with
  | .error x => .error x
  | .ok (r, s1) => .ok (r, s1.update i text)

/-- `Entries::unload_file`, tree.rs 425-445: removes a file from the tree. -/
def unloadTree (p : Path) (s : Vfs) : Vfs :=
  match treeGet s.tree p with
  | some (.file _) => { s with tree := treeRemove s.tree p }
  | _ => s

/-- `close_in_memory_file`, vfs.rs 508-558: the editor closes a document. An unknown document is an
error without effect. -/
def close (d : Disk) (p : Path) (s : Vfs) : Except Fault (Res × Vfs) :=
  match s.memGet p with
  | none => .ok (.files, s)
  | some i =>
    let s1 := { s with mem := s.mem.filter (fun m => m.1 != p) }
    match diskText d p with
    | some text => if s1.code i = some text then .ok (.files, s1) else updateFile i text s1
    | none =>
      match s1.files[i]? with
      | none => .error .index
      | some f => invalidateAndUnload i (match f.path with | some q => unloadTree q s1 | none => s1)

/-- Reads the directories along a path, as `search_path` does (tree.rs 333-355), and returns the
entry of the file at its end. -/
def findFile (d : Disk) (base : Path) (rest : List String) (s : Vfs) : Option Nat × Vfs :=
  match rest with
  | [] => (none, s)
  | [name] =>
    match treeGet s.tree (base ++ [name]) with
    | some (.file e) => (some e, s)
    | _ => (none, s)
  | name :: next :: more =>
    let p := base ++ [name]
    match treeGet s.tree p with
    | some (.dir true) => findFile d p (next :: more) s
    | some (.dir false) => findFile d p (next :: more) (readDir d p s)
    | _ => (none, s)

/-- `ensure_file_for_file_entry_with_conditional`, vfs.rs 362-393, for the entry at a path, with a
condition that always holds. -/
def load (d : Disk) (p : Path) (s : Vfs) : Option Nat × Vfs :=
  match findFile d [] p s with
  | (none, s1) => (none, s1)
  | (some e, s1) =>
    match s1.index e with
    | some i =>
      match s1.code i with
      | some _ => (some i, s1)
      | none =>
        match diskText d p with
        | none => (none, s1)
        | some text => (some i, s1.update i text)
    | none =>
      match diskText d p with
      | none => (none, s1)
      | some text =>
        let (i, s2) := withAddedFile e p text s1
        (some i, s2)

/-- Preloading a file of typeshed, database.rs 1486-1511: like `load`, but a change of a file that
is new to the file system will invalidate everything (`FileState::new_uninitialized`, vfs.rs
977-990). -/
def preload (d : Disk) (p : Path) (s : Vfs) : Vfs :=
  match findFile d [] p s with
  | (none, _) => (load d p s).2
  | (some e, s1) =>
    match s1.index e, diskText d p with
    | none, some _ => (load d p s).2.setInvalidatesDb e
    | _, _ => (load d p s).2

/-- `ensure_file_index`, vfs.rs 320-326, for the entry at a path: an index without a text. -/
def reserve (d : Disk) (p : Path) (s : Vfs) : Vfs :=
  match findFile d [] p s with
  | (none, s1) => s1
  | (some e, s1) =>
    match s1.index e with
    | some _ => s1
    | none => { s1.setIndexIfNone e s1.files.length with files := s1.files ++ [⟨some p, e, none⟩] }

/-- An import of the file at path `p` found its entry in the tree and records file `i` as
dependent, imports.rs 455, 546 and 559. Indices of files that do not exist are never recorded. -/
def depend (i : Nat) (p : Path) (s : Vfs) : Vfs :=
  match treeGet s.tree p with
  | some (.file e) => if i < s.files.length then s.addInvalidation e i else s
  | _ => s

/-- All directories above the path are in the tree and were read,
`search_potential_parent_for_invalidation`, workspaces.rs 197-232. -/
def parentsLoaded (t : List (Path × Node)) (base : Path) : List String → Bool
  | [] => false
  | [_] => true
  | name :: next :: more =>
    match treeGet t (base ++ [name]) with
    | some (.dir true) => parentsLoaded t (base ++ [name]) (next :: more)
    | _ => false

/-- `add_missing_entry_callback`, tree.rs 447-481, for a name in a directory that was read. -/
def addMissing (i : Nat) (p : Path) (s : Vfs) : Vfs :=
  if parentsLoaded s.tree [] p && i < s.files.length then
    match treeGet s.tree p with
    | some (.missing inv) => { s with tree := treeSet s.tree p (.missing (inv.add i)) }
    | some (.file e) => s.addInvalidation e i
    | some (.dir _) => s
    | none => { s with tree := treeSet s.tree p (.missing (.files [i])) }
  else s

/-- What the walk over a removed part of the tree collects, vfs.rs 637-665. -/
structure Collected where
  db : Bool
  unloads : List Nat
  invalid : List Nat
  reopen : List (Path × Nat)

/-- One node of that walk. -/
def collectNode (s : Vfs) (c : Collected) (x : Path × Node) : Collected :=
  match x.2 with
  | .file e =>
    match s.index e with
    | none => c
    | some i =>
      match s.mem.find? (fun m => m.2 == i) with
      | some m => { c with reopen := c.reopen ++ [(m.1, i)], invalid := c.invalid ++ [i] }
      | none => { c with unloads := c.unloads ++ [i] }
  | .missing .invalidatesDb => { c with db := true }
  | .missing (.files l) => { c with invalid := c.invalid ++ l }
  | .dir _ => c

/-- The walk over the node at `p` and everything below it. -/
def collect (s : Vfs) (p : Path) : Collected :=
  (s.tree.filter (fun x => p.isPrefixOf x.1)).foldl (collectNode s) ⟨false, [], [], []⟩

/-- `matches_current_dir_entry`, vfs.rs 769-785, for a file on disk with this text. -/
def matchesCurrent (s : Vfs) (old : Node) (new : DiskNode) : Bool :=
  match old, new with
  | .file e, .file text =>
    match s.index e with
    | some i => s.code i == some text
    | none => false
  | _, _ => false

/-- Inserts the node read from disk, `read_and_watch_entry` and vfs.rs 704-713. -/
def insertRead (p : Path) (n : DiskNode) (s : Vfs) : Vfs :=
  match n with
  | .file _ => s.addEntry p
  | .dir => { s with tree := treeSet s.tree p (.dir false) }

/-- The change of the tree in `invalidate_path`, vfs.rs 667-731, and what it collects. -/
def replaceNode (d : Disk) (p : Path) (s : Vfs) : Collected × Vfs :=
  let nothing : Collected := ⟨false, [], [], []⟩
  match treeGet s.tree p, diskGet d p with
  | some (.dir _), some .dir => (nothing, s)
  | some old, some new =>
    if matchesCurrent s old new then (nothing, s)
    else (collect s p, insertRead p new { s with tree := treeRemove s.tree p })
  | none, some new => (nothing, insertRead p new s)
  | some (.missing _), none => (nothing, s)
  | some _, none => (collect s p, { s with tree := treeRemove s.tree p })
  | none, none => (nothing, s)

/-- The loop over the files to unload, vfs.rs 740-745. -/
def unloadAll : List Nat → Vfs → Except Fault (Res × Vfs)
  | [], s => .ok (.files, s)
  | i :: is, s =>
    match invalidateAndUnload i s with
    | .error x => .error x
    | .ok (.db, s') => .ok (.db, s')
    | .ok (.files, s') => unloadAll is s'

/-- The loop over the files to invalidate, vfs.rs 746-750. -/
def invalidateAll : List Nat → Vfs → Except Fault (Res × Vfs)
  | [], s => .ok (.files, s)
  | i :: is, s =>
    match invalidateFile none i s with
    | .error x => .error x
    | .ok (.db, s') => .ok (.db, s')
    | .ok (.files, s') => invalidateAll is s'

/-- The loop that puts open documents back into the tree, vfs.rs 753-766. -/
def reopenAll (d : Disk) : List (Path × Nat) → Vfs → Except Fault Vfs
  | [], s => .ok s
  | (q, i) :: rest, s =>
    match ensureFile d q s with
    | .error x => .error x
    | .ok (e, _, s') => reopenAll d rest ((s'.setIndexIfNone e i).hook q)

/-- `invalidate_path`, vfs.rs 591-767: the watcher reports a path. -/
def notify (d : Disk) (p : Path) (s : Vfs) : Except Fault (Res × Vfs) :=
  if s.isOpen (some p) then .ok (.files, s)
  else if !parentsLoaded s.tree [] p then .ok (.files, s)
  else
    let (c, s1) := replaceNode d p s
    if c.db then .ok (.db, s1)
    else
      match unloadAll c.unloads s1 with
      | .error x => .error x
      | .ok (.db, s2) => .ok (.db, s2)
      | .ok (.files, s2) =>
        match invalidateAll c.invalid s2 with
        | .error x => .error x
        | .ok (.db, s3) => .ok (.db, s3)
        | .ok (.files, s3) =>
          match reopenAll d c.reopen s3 with
          | .error x => .error x
          | .ok s4 => .ok (.files, s4)

/-- A new virtual file system: the root directory is read, `Workspaces`. -/
def Vfs.start (d : Disk) : Vfs :=
  d.foldl (readChild []) { entries := [], files := [], tree := [], mem := [], marks := [], hooks := [] }

/-- `RecoveryFile`, vfs.rs 35-40. -/
structure RecoveryFile where
  path : Path
  text : String
  invalidatesDb : Bool
  isOpen : Bool
  deriving DecidableEq, Repr

/-- `into_panic_recovery`, vfs.rs 151-179. -/
def intoRecovery (s : Vfs) : List RecoveryFile :=
  s.files.filterMap fun f =>
    match f.path, f.code with
    | some p, some text => some ⟨p, text, s.inv f.entry == .invalidatesDb, s.isOpen (some p)⟩
    | _, _ => none

/-- `load_panic_recovery`, vfs.rs 181-222. -/
def loadRecovery (d : Disk) : List RecoveryFile → Vfs → Except Fault Vfs
  | [], s => .ok s
  | f :: fs, s =>
    match ensureFile d f.path s with
    | .error x => .error x
    | .ok (e, _, s1) =>
      let s2 := if f.invalidatesDb && (s1.index e).isNone then s1.setInvalidatesDb e else s1
      let (i, s3) := withAddedFile e f.path f.text s2
      loadRecovery d fs (if f.isOpen then s3.memSet f.path i else s3)

/-- A crash and the recovery from it: a new virtual file system with the old files. -/
def recover (d : Disk) (s : Vfs) : Except Fault Vfs := loadRecovery d (intoRecovery s) (Vfs.start d)

end Verif.Vfs
