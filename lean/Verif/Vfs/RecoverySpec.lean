import Verif.Vfs.Recovery

/-!
# What the editor expects after panics

The documents of the editor do not depend on what happens to the server: they follow from the
notifications that the editor sent.
-/

namespace Verif.Vfs

/-- The documents of the editor after an event. -/
def docsAfter (docs : Docs) : Incident → Docs
  | .happens (.edit p text) => fun q => if q = p then some text else docs q
  | .happens (.close p) => fun q => if q = p then none else docs q
  | .panicParsing p text => fun q => if q = p then some text else docs q
  | _ => docs

/-- The documents of the editor after a history. -/
def docsAfterAll (docs : Docs) : List Incident → Docs
  | [] => docs
  | e :: es => docsAfterAll (docsAfter docs e) es

/-- The disk after a history. -/
def diskAfterAll (d : Disk) : List Incident → Disk
  | [] => d
  | e :: es => diskAfterAll (diskAfter d e) es

/-- Whether parsing the latest text that the editor sent for `p` panicked. -/
def brokenAfter (broken : Path → Bool) : Incident → Path → Bool
  | .happens (.edit p _) => fun q => if q = p then false else broken q
  | .happens (.close p) => fun q => if q = p then false else broken q
  | .panicParsing p _ => fun q => if q = p then true else broken q
  | _ => broken

/-- The same for a history. -/
def brokenAfterAll (broken : Path → Bool) : List Incident → Path → Bool
  | [] => broken
  | e :: es => brokenAfterAll (brokenAfter broken e) es

/-- A history without errors of the watcher and without lost reports, whose changes of the disk are as
described in `Orderly`, and that preloads nothing. -/
def Watched (d : Disk) : List Incident → Prop
  | [] => True
  | .happens (.disk p d') :: es => p ≠ [] ∧ DiskOk d' ∧ ChangedAt d d' p ∧ Watched d' es
  | .happens (.preload _) :: _ => False
  | .panicUnread _ _ :: _ => False
  | .watchError :: _ => False
  | _ :: es => Watched d es

/-- In a history, files and directories keep to their places. -/
def SettledEvents (K : Path → Prop) (es : List Incident) : Prop :=
  ∀ e ∈ es, match e with
    | .happens (.edit p _) => DocPath K p
    | .happens (.disk _ d') => DiskKinds K d'
    | .panicParsing p _ => DocPath K p
    | _ => True

end Verif.Vfs
