/-
Model of paths in the virtual file system: crates/vfs/src/normalized_path.rs,
crates/vfs/src/workspaces.rs (which workspace a path belongs to) and crates/vfs/src/lib.rs (relative
paths), for systems whose only separator is `/`.
-/
namespace Verif.Paths

/-- The pieces of a string between separators. -/
def pieces : List Char → List (List Char)
  | [] => [[]]
  | c :: cs =>
    match pieces cs with
    | [] => [[]]
    | p :: ps => if c = '/' then [] :: p :: ps else (c :: p) :: ps

/-- `std::path::Component` without the prefixes of Windows. -/
inductive Comp where
  | rootDir | curDir | parentDir
  | normal (s : List Char)
  deriving DecidableEq

/-- One piece as a component; empty pieces and `.` are skipped. -/
def ofPiece (p : List Char) : Option Comp :=
  if p = [] ∨ p = ['.'] then none else if p = ['.', '.'] then some .parentDir else some (.normal p)

/-- `Path::components`: a leading separator is the root, a leading `.` of a relative path is kept. -/
def components (path : List Char) : List Comp :=
  (if path.head? = some '/' then [.rootDir] else if (pieces path).head? = some ['.'] then [.curDir] else [])
    ++ (pieces path).filterMap ofPiece

/-- `PathBuf::push` of one component. -/
def push (buf s : List Char) : List Char :=
  if s.head? = some '/' then s
  else if buf = [] ∨ buf.getLast? = some '/' then buf ++ s
  else buf ++ '/' :: s

/-- Split at the last separator. -/
def splitLast : List Char → Option (List Char × List Char)
  | [] => none
  | c :: cs =>
    match splitLast cs with
    | some (a, b) => some (c :: a, b)
    | none => if c = '/' then some ([], cs) else none

/-- `PathBuf::pop`, for buffers without doubled and trailing separators (the buffer of `normalize`
never has them). -/
def pop (buf : List Char) : List Char :=
  match splitLast buf with
  | none => []
  | some ([], _) => ['/']
  | some (a, _) => a

/-- `Component::as_os_str` of the components that are pushed. -/
def osStr : Comp → List Char
  | .rootDir => ['/']
  | .curDir => ['.']
  | .parentDir => ['.', '.']
  | .normal s => s

/-- One step of the loop of `normalize` (normalized_path.rs:87-95). -/
def normalizeStep (buf : List Char) : Comp → List Char
  | .curDir => buf
  | .parentDir => pop buf
  | c => push buf (osStr c)

/-- `normalize` (normalized_path.rs:85-101) and `NormalizedPath::normalize`
(normalized_path.rs:14-27): the path itself if nothing changes. -/
def normalize (path : List Char) : List Char :=
  (components path).foldl normalizeStep []

/-- `VfsHandler::strip_separator_suffix` and `unchecked_abs_path` (lib.rs:60-66, 95-100). -/
def uncheckedAbsPath (path : List Char) : List Char :=
  if path.getLast? = some '/' then path.dropLast else path

/-- `VfsHandler::split_off_first_item` (lib.rs:135-150). -/
def splitOffFirst : List Char → List Char × Option (List Char)
  | [] => ([], none)
  | c :: cs =>
    if c = '/' then ([], some cs)
    else
      let r := splitOffFirst cs
      (c :: r.1, r.2)

/-- `u8::to_ascii_lowercase`. -/
def lower (c : Char) : Char := if 'A' ≤ c ∧ c ≤ 'Z' then Char.ofNat (c.toNat + 32) else c

/-- `match_case` (utils/src/lib.rs:166-172). -/
def matchCase (caseSensitive : Bool) (x y : List Char) : Bool :=
  if caseSensitive then x == y else x.map lower == y.map lower

theorem splitOffFirst_rest_length (path rest : List Char) (h : (splitOffFirst path).2 = some rest) :
    rest.length < path.length := by
  induction path with
  | nil => simp [splitOffFirst] at h
  | cons c cs ih =>
    simp only [splitOffFirst] at h
    split at h
    · cases h; simp
    · have := ih h; simp; omega

/-- `strip_path_prefix` (workspaces.rs:611-630). -/
def stripPathPrefix (caseSensitive : Bool) (path toStrip : List Char) : Option (List Char) :=
  if matchCase caseSensitive (splitOffFirst path).1 (splitOffFirst toStrip).1 then
    match h : (splitOffFirst path).2 with
    | none => none
    | some rest =>
      match (splitOffFirst toStrip).2 with
      | none => some rest
      | some restToStrip => stripPathPrefix caseSensitive rest restToStrip
  else none
termination_by path.length
decreasing_by exact splitOffFirst_rest_length _ _ h

/-- The parts of a `Workspace` that decide which paths it contains (workspaces.rs:401-416). -/
structure Workspace where
  root : List Char
  scheme : String
  deriving DecidableEq

/-- `PathWithScheme`. -/
structure FilePath where
  scheme : String
  path : List Char

/-- `Workspace::strip_path_prefix` (workspaces.rs:528-538). -/
def Workspace.strip (w : Workspace) (caseSensitive : Bool) (p : FilePath) : Option (List Char) :=
  if p.scheme ≠ w.scheme then none else stripPathPrefix caseSensitive p.path w.root

/-- The loop of `strip_short_path_in_workspace` (workspaces.rs:132-142). -/
def shortLoop (caseSensitive : Bool) (p : FilePath) :
    Option (Workspace × List Char) → List Workspace → Option (Workspace × List Char)
  | shortest, [] => shortest
  | shortest, w :: ws =>
    match w.strip caseSensitive p with
    | none => shortLoop caseSensitive p shortest ws
    | some r =>
      let better := match shortest with
        | none => true
        | some (_, s) => decide (s.length > r.length)
      shortLoop caseSensitive p (if better then some (w, r) else shortest) ws

/-- `strip_short_path_in_workspace` (workspaces.rs:125-144). -/
def stripShort (caseSensitive : Bool) (ws : List Workspace) (p : FilePath) :
    Option (Workspace × List Char) :=
  shortLoop caseSensitive p none ws

/-- `WorkspacesBuilder::add` (workspaces.rs:42-65). -/
def addWorkspace (ws : List Workspace) (w : Workspace) : List Workspace :=
  if ws.any (fun x => x.root == w.root) then ws else ws ++ [w]

/-- The common prefix loop of `path_relative_to` (lib.rs:181-189). -/
def dropCommon : List Comp → List Comp → List Comp × List Comp
  | a :: as, b :: bs => if a = b then dropCommon as bs else (a :: as, b :: bs)
  | as, bs => (as, bs)

/-- The last loop of `path_relative_to` (lib.rs:199-208). -/
def pushNames (out : List Char) (needsSeparator : Bool) : List Comp → List Char
  | [] => out
  | .normal name :: cs =>
    pushNames ((if needsSeparator then out ++ ['/'] else out) ++ name) true cs
  | _ :: cs => pushNames out needsSeparator cs

/-- `path_relative_to` (lib.rs:170-210). -/
def relativeTo (from_ to : List Char) : Option (List Char) :=
  match components from_, components to with
  | a :: fs, b :: ts =>
    if a = b then
      let r := dropCommon fs ts
      some (pushNames (r.2.flatMap fun _ => ['.', '.', '/']) false r.1)
    else none
  | _, _ => none

end Verif.Paths
