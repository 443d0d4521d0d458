/-!
# The library of Python and its site-packages

Model of parts of `crates/zuban_python/src/sys_path.rs` on Linux: `lookup_site_packages_with_version_detailed` (99-127),
`lib_path` (147-289) and `include_system_site_packages_in_pyvenv_cfg` (411-430).

Simplified: white space and lower case are those of ASCII.
-/

namespace Verif.SysPath

abbrev Str := List Char

/-- White space of ASCII. -/
def white (c : Char) : Bool := c = ' ' || c = '\t' || c = '\n' || c = '\r'

/-- `str::trim`. -/
def trim (s : Str) : Str := ((s.dropWhile white).reverse.dropWhile white).reverse

/-- `split_once('=')`. -/
def splitOnce : Str → Option (Str × Str)
  | [] => none
  | c :: rest =>
    if c = '=' then some ([], rest)
    else
      match splitOnce rest with
      | some (k, v) => some (c :: k, v)
      | none => none

/-- `to_lowercase`. -/
def lower (s : Str) : Str := s.map Char.toLower

/-- A line of `pyvenv.cfg`, sys_path.rs 416-420. -/
def includeLine (line : Str) : Option Bool :=
  match splitOnce line with
  | some (k, v) => if trim k = "include-system-site-packages".toList then some (lower v == "true".toList) else none
  | none => none

/-- `include_system_site_packages_in_pyvenv_cfg`, sys_path.rs 411-430, for the lines of the file if it can be read. -/
def includeSystem : Option (List Str) → Bool
  | some lines =>
    match lines.findSome? includeLine with
    | some b => b
    | none => true
  | none => false

/-- `lookup_site_packages_with_version_detailed`, sys_path.rs 99-127: the name of the directory that is used, for the name
that is expected, whether that has site-packages, and the listing of the base directory. -/
def lookupSite (expected start : Str) (present : Bool) (listing : Option (List Str)) : Str :=
  if present then expected
  else
    match listing with
    | some names =>
      match names.find? fun n => start.isPrefixOf n with
      | some n => n
      | none => expected
    | none => expected

/-- A directory that may be the library: its minor version, whether it exists, and whether `os.py` is in it. -/
structure Lib where
  version : Nat
  present : Bool := true
  hasOs : Bool := true
deriving DecidableEq, Repr

/-- `check`, sys_path.rs 148-168. -/
def check (l : Lib) : Option Lib := if l.present then some l else none

/-- Inserts before the first smaller version. -/
def insertLib (l : Lib) : List Lib → List Lib
  | [] => [l]
  | x :: xs => if x.version ≤ l.version then l :: x :: xs else x :: insertLib l xs

/-- `found.sort()` and `rev()`, sys_path.rs 259-260. -/
def newestFirst (ls : List Lib) : List Lib := ls.foldr insertLib []

/-- `with_which`, sys_path.rs 176-269: the directories `python3.*` in `lib` of the parents of the executable. -/
def withWhich : List (List Lib) → Option Lib
  | [] => none
  | ls :: rest =>
    match (newestFirst ls).findSome? check with
    | some l => some l
    | none => withWhich rest

/-- `lib_path`, sys_path.rs 147-289: the directory in `/usr/lib` for the configured version, and the parents. -/
def libPath (configured : Option Lib) (parents : List (List Lib)) : Option Lib :=
  match configured.bind check with
  | some l => some l
  | none => withWhich parents

end Verif.SysPath
