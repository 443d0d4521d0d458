import Verif.Vfs.OverlayViolations

/-!
# The language server over the virtual file system: panics and recovery

Models `GlobalState::recover_from_panic` (server.rs 537-546), the rebuilding of the project at the
start of `event_loop` (server.rs 264-288, 293-428) and the parts of `on_notify_event` (server.rs
566-621) that concern open documents.

Simplifications:
* after a panic, the project is rebuilt at once: `event_loop` calls `project()` before it waits for
  the next message;
* a panic happens either between two operations of the virtual file system, or while the new text
  of a document is parsed inside of `store_in_memory_file`;
* `Vfs.hooks` stands for `changed_in_memory_files`, the documents whose diagnostics will be
  published again; publishing is left out;
* a changed configuration does not change the workspace.
-/

namespace Verif.Vfs

/-- `store_in_memory_file`, vfs.rs 402-488, up to the call of `new_file`, which panics. The text that
is already there is not parsed again: then the call ends as `store` does. -/
def storeUntilParse (d : Disk) (p : Path) (text : String) (s : Vfs) : Except Fault Vfs :=
  match ensureFile d p s with
  | .error x => .error x
  | .ok (e, _, s1) =>
    match s1.memGet p with
    | some i =>
      if s1.code i = some text then .ok (s1.hook p)
      else (invalidateAndUnload i (s1.hook p)).map (·.2)
    | none =>
      match s1.index e with
      | some i =>
        if s1.code i = some text then .ok ((s1.memSet p i).hook p)
        else (invalidateAndUnload i ((s1.memSet p i).hook p)).map (·.2)
      | none =>
        .ok { (s1.hook p).setIndexIfNone e s1.files.length with files := s1.files ++ [⟨some p, e, none⟩] }

/-- The calls of `on_invalidated_in_memory_file` in `into_panic_recovery`, vfs.rs 161-169. -/
def recoveryHooks (s : Vfs) : List Path :=
  s.files.filterMap fun f =>
    match f.path with
    | some p => if s.isOpen (some p) then some p else none
    | none => none

/-- `recover_from_panic`, server.rs 537-546, and `project`, server.rs 420-424: the changed documents
are forgotten, the files of the old project are carried over to a new one. -/
def restart (d : Disk) (s : Vfs) : Except Fault Vfs :=
  match recover d s with
  | .error x => .error x
  | .ok s' => .ok { s' with hooks := recoveryHooks s ++ s'.hooks }

/-- What the server is confronted with. -/
inductive Incident where
  /-- A message, or a report of the watcher. -/
  | happens (h : Happening)
  /-- A handler panics between two operations of the virtual file system, the configuration changes
  (server.rs 578-596), or the server reindexes (server.rs 278-283). -/
  | panic
  /-- The editor opens or changes a document, and parsing its text panics. -/
  | panicParsing (p : Path) (text : String)
  /-- The disk changes at a path, and a handler panics before the report of the watcher is read: the
  receiver of the reports is dropped with the project. The same happens to the reports that follow a
  changed configuration file in one event (the TODO in server.rs 584-588). -/
  | panicUnread (p : Path) (d : Disk)
  /-- The watcher reports an error, server.rs 612-618. -/
  | watchError

/-- What the server does, when the disk is `d` before it. -/
def react (d : Disk) : Incident → Vfs → Except Fault Vfs
  | .happens h, s => happen d h s
  | .panic, s => restart d s
  | .panicParsing p text, s =>
    match storeUntilParse d p text s with
    | .error x => .error x
    | .ok s' => restart d s'
  | .panicUnread _ d', s => restart d' s
  | .watchError, _ => .ok (Vfs.start d)

/-- The disk after an event. -/
def diskAfter (d : Disk) : Incident → Disk
  | .happens (.disk _ d') => d'
  | .panicUnread _ d' => d'
  | _ => d

/-- A history of the server. -/
def reactAll (d : Disk) : List Incident → Vfs → Except Fault Vfs
  | [], s => .ok s
  | e :: es, s =>
    match react d e s with
    | .error x => .error x
    | .ok s' => reactAll (diskAfter d e) es s'

end Verif.Vfs
