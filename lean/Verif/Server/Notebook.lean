/-
Model of notebooks in the language server: crates/zubanls/src/notebooks.rs,
crates/zubanls/src/notification_handlers.rs:80-220 and the parts of
crates/zuban_python/src/database.rs:1349-1475 and lib.rs:129-180 they use.

Paths of cells, notebook uris, texts and file indexes are numbers.  Cell documents exist in memory
only, so closing one unloads it and removes its file entry (vfs/src/vfs.rs:545-548); opening the same
path again creates a new file index.  Only cell documents are modelled, no other open documents.
-/
namespace Verif.Server.Notebook

/-- The parts of a `PythonFile` that matter: its text, `super_file` (python_file.rs:120) and
`sub_files.separate_files` (python_file.rs:132). -/
structure File where
  code : Nat
  parent : Option Nat
  subs : List Nat
  deriving DecidableEq

/-- `Notebooks` (notebooks.rs:8-13), `in_memory_files` (vfs.rs) as a map from paths to file indexes,
the loaded files by index, and the next file index. -/
structure State where
  notebooks : Nat → Option (List Nat)
  index : Nat → Option Nat
  files : Nat → Option File
  next : Nat

/-- A map with one entry changed. -/
def upd {α : Type} (f : Nat → α) (k : Nat) (v : α) : Nat → α := fun x => if x = k then v else f x

/-- How a handler ends: `Ok`, an error that is logged (server.rs:747-749), or a panic. -/
inductive Res where
  | ok | bail | panic
  deriving DecidableEq

/-- `Database::store_in_memory_file` (database.rs:1349-1403) with `Vfs::store_in_memory_file`
(vfs.rs:402-488): sets the parent of a file that is already in memory, keeps the file if the text is
the same, otherwise replaces it by a new file without sub files; then registers the file with its
parent.  The dependency invalidation is not modelled. -/
def store (s : State) (path code : Nat) (parent : Option Nat) : State :=
  let files1 := match parent, s.index path with
    | some p, some i =>
      (match s.files i with
       | some f => upd s.files i (some { f with parent := some p })
       | none => s.files)
    | _, _ => s.files
  let stored : State × Nat := match s.index path with
    | some i =>
      let same := match files1 i with
        | some f => f.code == code
        | none => false
      if same then ({ s with files := files1 }, i)
      else ({ s with files := upd files1 i (some { code, parent, subs := [] }) }, i)
    | none =>
      ({ s with files := upd files1 s.next (some { code, parent, subs := [] }),
                index := upd s.index path (some s.next), next := s.next + 1 }, s.next)
  match parent with
  | none => stored.1
  | some p =>
    match stored.1.files p with
    | some f => { stored.1 with files := upd stored.1.files p (some { f with subs := f.subs ++ [stored.2] }) }
    | none => stored.1

/-- `store_in_memory_file_with_parent` (notification_handlers.rs:50-64, lib.rs:155-169). -/
def storeWithParent (s : State) (path code : Nat) (parent : Option Nat) : State × Res :=
  match parent with
  | none => (store s path code none, .ok)
  | some pp =>
    match s.index pp with
    | none => (s, .bail)
    | some p => (store s path code (some p), .ok)

/-- Resetting the parent of some files (database.rs:1455-1458). -/
def orphan (files : Nat → Option File) (subs : List Nat) : Nat → Option File := fun j =>
  match files j with
  | some f => if subs.contains j then some { f with parent := none } else some f
  | none => none

/-- `Database::close_in_memory_file` (database.rs:1446-1475). -/
def closeFile (s : State) (path : Nat) : State × Bool :=
  match s.index path with
  | none => (s, false)
  | some i =>
    let subs := match s.files i with
      | some f => f.subs
      | none => []
    ({ s with files := upd (orphan s.files subs) i none, index := upd s.index path none }, true)

/-- `close_cells` (notification_handlers.rs:126-140); the result is whether all were open. -/
def closeCells (s : State) : List Nat → State × Bool
  | [] => (s, true)
  | p :: ps =>
    let r := closeFile s p
    let r' := closeCells r.1 ps
    (r'.1, r.2 && r'.2)

/-- `Notebooks::add_cell_and_return_parent` (notebooks.rs:32-54); `none` is the error. -/
def addCell (s : State) (url path n : Nat) : Option (State × Option Nat) :=
  match s.notebooks url with
  | none => none
  | some cells =>
    if n > cells.length then none
    else
      let cells' := cells.take n ++ path :: cells.drop n
      some ({ s with notebooks := upd s.notebooks url (some cells') },
        if n > 0 then cells'[n - 1]? else none)

/-- A cell of the client: its document and whether it is a code cell. -/
structure Cell where
  doc : Nat
  code : Bool
  deriving DecidableEq

/-- `new_cells` (notification_handlers.rs:96-124).  `docs` are the opened text documents; the one with
the uri of the cell is taken out. -/
def newCells (s : State) (url : Nat) (docs : List (Nat × Nat)) (n : Nat) : List Cell → State × Res
  | [] => (s, .ok)
  | c :: cs =>
    if c.code then
      match docs.find? fun d => d.1 == c.doc with
      | none => (s, .bail)
      | some d =>
        match addCell s url c.doc n with
        | none => (s, .bail)
        | some (s', parent) =>
          match storeWithParent s' c.doc d.2 parent with
          | (s'', .ok) => newCells s'' url (docs.eraseP fun d => d.1 == c.doc) (n + 1) cs
          | r => r
    else newCells s url docs (n + 1) cs

/-- `handle_did_open_notebook` (notification_handlers.rs:80-94). -/
def openNotebook (s : State) (url : Nat) (cells : List Cell) (docs : List (Nat × Nat)) : State × Res :=
  newCells { s with notebooks := upd s.notebooks url (some []) } url docs 0 cells

/-- `NotebookDocumentCellChangeStructure`. -/
structure Structure where
  start : Nat
  deleteCount : Nat
  cells : Option (List Cell)
  didOpen : List (Nat × Nat)
  didClose : Option (List Nat)

/-- The end of the structure part of `handle_did_change_notebook`
(notification_handlers.rs:176-191): the cell after the new ones gets as its parent the cell with
index `new_end`, which is the cell itself. -/
def relink (s : State) (url newEnd : Nat) : State × Res :=
  match s.notebooks url with
  | none => (s, .bail)
  | some cells =>
    match cells[newEnd]? with
    | none => (s, .ok)
    | some child =>
      match s.index child with
      | none => (s, .bail)
      | some i =>
        match s.files i with
        | none => (s, .panic)
        | some f =>
          match cells[newEnd]? with
          | none => (s, .panic)
          | some parent => storeWithParent s child f.code (some parent)

/-- The structure part of `handle_did_change_notebook` (notification_handlers.rs:152-192). -/
def changeStructure (s : State) (url : Nat) (c : Structure) : State × Res :=
  let newEnd := c.start + ((c.cells.map List.length).getD 0)
  let removed : State × Res := match c.didClose with
    | none => (s, .ok)
    | some closed =>
      let s1 := (closeCells s closed).1
      match s1.notebooks url with
      | none => (s1, .bail)
      | some cells =>
        if c.start + c.deleteCount > cells.length then (s1, .panic)
        else
          let cells' := cells.take c.start ++ cells.drop (c.start + c.deleteCount)
          ({ s1 with notebooks := upd s1.notebooks url (some cells') }, .ok)
  match removed with
  | (s2, .ok) =>
    let added := match c.cells with
      | none => (s2, Res.ok)
      | some cells => newCells s2 url c.didOpen c.start cells
    (match added with
     | (s3, .ok) => relink s3 url newEnd
     | r => r)
  | r => r

/-- The text part of `handle_did_change_notebook` (notification_handlers.rs:200-204, 29-40, lib.rs:133-153):
the new text of the document is given. -/
def changeText (s : State) (path code : Nat) : State × Res :=
  match s.index path with
  | none => (s, .bail)
  | some i =>
    match s.files i with
    | none => (s, .panic)
    | some f => (store s path code f.parent, .ok)

/-- `handle_did_close_notebook` (notification_handlers.rs:208-216). -/
def closeNotebook (s : State) (url : Nat) (docs : List Nat) : State :=
  let s1 := (closeCells s docs).1
  { s1 with notebooks := upd s1.notebooks url none }

/-- Recovery after a panic or a configuration change (server.rs:537-546, vfs.rs:151-222): the files
are recreated from their syntax trees (python_file.rs:253-255), without super files. -/
def recover (s : State) : State :=
  { s with files := fun i => (s.files i).map fun f => { f with parent := none, subs := [] } }

/-- The server before any notebook is opened. -/
def init : State :=
  { notebooks := fun _ => none, index := fun _ => none, files := fun _ => none, next := 0 }

/-- Following `super_file` as `maybe_more_specific_flags` (python_file.rs:875-885) and
`lookup_from_star_import_with_node_index` (name_resolution.rs:829-876) do, `n` steps. -/
def follow (s : State) (i : Nat) : Nat → Option Nat
  | 0 => some i
  | n + 1 =>
    match s.files i with
    | some { parent := some p, .. } => follow s p n
    | _ => none

end Verif.Server.Notebook
