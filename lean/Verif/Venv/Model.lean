/-!
# Finding the virtual environment

Model of `crates/config/src/venv.rs` 9-154.

Simplified: paths and names are lists of characters; making them absolute and normal is a parameter; the result of reading
and parsing `pyvenv.cfg` is given with the directory.  Errors while a directory is listed are not modelled apart from
directories that cannot be listed at all.
-/

namespace Verif.Venv

/-- An entry of a directory.  `cfg` is `none` if `pyvenv.cfg` cannot be read or parsed, and otherwise the version in it, if
that is present and correct. -/
structure Entry where
  name : List Char
  path : List Char
  isDir : Bool := true
  utf8 : Bool := true
  cfg : Option (Option Nat)
deriving DecidableEq, Repr

/-- The part of `Settings` that is used here. -/
structure Settings where
  mypyPath : List (List Char) := []
  environment : Option (List Char) := none
  version : Option Nat := none
deriving DecidableEq, Repr

/-- The file system (`none` for directories that cannot be listed), absolute paths, and the environment variables. -/
structure World where
  list : List Char → Option (List Entry)
  absolute : List Char → List Char
  var : String → Option (List Char)

/-- `windows(..).any(..)`, venv.rs 107. -/
def containsAt (sought : List Char) : List Char → Bool
  | [] => sought.isEmpty
  | c :: rest => sought.isPrefixOf (c :: rest) || containsAt sought rest

/-- The key of `sort_by_key`, venv.rs 104-115. -/
def rank (name : List Char) : Nat :=
  if name = ['v', 'e', 'n', 'v'] then 0
  else if name = ['.', 'v', 'e', 'n', 'v'] then 1
  else if containsAt ['v', 'e', 'n', 'v'] name then 2
  else if containsAt ['v', 'i', 'r', 't', 'u', 'a', 'l', 'e', 'n', 'v'] name then 3
  else 4

/-- The stable sort by a key between 0 and 4. -/
def sorted (es : List Entry) : List Entry :=
  [0, 1, 2, 3, 4].flatMap fun k => es.filter fun e => rank e.name == k

/-- The loop over the sorted directories, venv.rs 116-152. -/
def firstEnv : List Entry → Option (List Char × Option Nat)
  | [] => none
  | e :: rest =>
    if !e.utf8 then firstEnv rest
    else
      match e.cfg with
      | none => firstEnv rest
      | some version => some (e.path, version)

/-- `try_to_find_env_in_dir`, venv.rs 76-154: the new settings, and whether an environment was found. -/
def findInDir (w : World) (dir : List Char) (s : Settings) : Settings × Bool :=
  match w.list dir with
  | none => (s, false)
  | some es =>
    match firstEnv (sorted (es.filter (·.isDir))) with
    | none => (s, false)
    | some (path, version) =>
      ({ s with environment := some path, version := if s.version.isNone then version else s.version }, true)

/-- The loop over `mypy_path`, venv.rs 45-56. -/
def findInPaths (w : World) (base : List Char) (s : Settings) : List (List Char) → Settings × Bool
  | [] => (s, false)
  | p :: rest =>
    if p ≠ base then
      match findInDir w p s with
      | (s', true) => (s', true)
      | (_, false) => findInPaths w base s rest
    else findInPaths w base s rest

/-- `try_to_find_environment_if_not_defined`, venv.rs 28-73. -/
def findEnvironment (w : World) (base : List Char) (s : Settings) : Settings :=
  if s.environment.isSome then s
  else
    match findInDir w base s with
    | (s', true) => s'
    | (_, false) =>
      match findInPaths w base s s.mypyPath with
      | (s', true) => s'
      | (_, false) =>
        match (w.var "VIRTUAL_ENV").or (w.var "CONDA_PREFIX") with
        | some p => { s with environment := some (w.absolute p) }
        | none => s

/-- `str::split(':')`. -/
def splitColon : List Char → List (List Char)
  | [] => [[]]
  | c :: rest =>
    if c = ':' then [] :: splitColon rest
    else
      match splitColon rest with
      | [] => [[c]]
      | p :: ps => (c :: p) :: ps

/-- `add_to_mypy_path`, venv.rs 16-22. -/
def addToPath (w : World) (s : Settings) : Option (List Char) → Settings
  | some v => { s with mypyPath := s.mypyPath ++ (splitColon v).map w.absolute }
  | none => s

/-- `try_to_apply_environment_variables`, venv.rs 10-26. -/
def applyVariables (w : World) (base : List Char) (s : Settings) : Settings :=
  findEnvironment w base (addToPath w (addToPath w s (w.var "PYTHONPATH")) (w.var "MYPYPATH"))

end Verif.Venv
