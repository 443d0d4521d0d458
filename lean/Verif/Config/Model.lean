/-!
# Configuration

Model of parts of `crates/config/src/lib.rs`, `crates/config/src/searcher.rs` and of
`info_from_directives` / `DirectiveSplitter` in `crates/zuban_python/src/file/python_file.rs`.

Names and values are lists of characters.  Warnings (`tracing::warn!`) and the text of error
messages are not modelled.
-/

namespace Verif.Config

abbrev Name := List Char

/-- A call that does not return normally: an `anyhow` error, or a panic. -/
inductive Fail where
  | bail
  | panic
deriving DecidableEq, Repr

/-! ## Module patterns -/

/-- `OverrideKind`, lib.rs 761-766. -/
inductive Kind where
  | wellStructured
  | unstructured
  | moduleName
deriving DecidableEq, Repr

/-- The derived `Ord` of `OverrideKind` (lib.rs 761). -/
def Kind.rank : Kind → Nat
  | .wellStructured => 0
  | .unstructured => 1
  | .moduleName => 2

/-- `OverridePathPart`, lib.rs 768-772. -/
inductive Part where
  | part (name : Name)
  | wildcard
deriving DecidableEq, Repr

/-- `OverridePath`, lib.rs 774-778. -/
structure Path where
  path : List Part
  kind : Kind
deriving DecidableEq, Repr

/-- `str::split` with one separator character (used in lib.rs 785). -/
def splitOn (sep : Char) : List Char → List (List Char)
  | [] => [[]]
  | c :: cs =>
    if c = sep then [] :: splitOn sep cs
    else match splitOn sep cs with
      | [] => [[c]]
      | x :: xs => (c :: x) :: xs

/-- The closure in `From<&str> for OverridePath`, lib.rs 786-795. -/
def toPart (s : Name) : Part := if s = ['*'] then .wildcard else .part s

/-- `had_star` and `had_name_after_star` after the components, lib.rs 782-795. -/
def scanStars : List Part → Bool × Bool → Bool × Bool
  | [], st => st
  | .wildcard :: ps, (_, after) => scanStars ps (true, after)
  | .part _ :: ps, (star, after) => scanStars ps (star, after || star)

/-- `From<&str> for OverridePath`, lib.rs 780-806. -/
def Path.ofString (value : Name) : Path :=
  let path := (splitOn '.' value).map toPart
  let (hadStar, hadNameAfterStar) := scanStars path (false, false)
  { path, kind := if hadNameAfterStar then .unstructured else if hadStar then .wellStructured else .moduleName }

mutual
/-- `matches_file_path`, lib.rs 811-855.  `rev` is the reversed pattern; the file is given by the
list of its names from the inside to the outside: `name` and the names of the parent directories
up to the root of the workspace (`parent_dir`, `dir.parent.maybe_dir()`). -/
def matchesRev : List Part → Name → List Name → Bool
  | [], _, _ => false
  | .part p :: rev, name, parents =>
    (name == p) && (match parents with
      | dir :: dirs => matchesRev rev dir dirs
      | [] => rev.isEmpty)
  | .wildcard :: rev, name, parents => checkWildcardParents rev name parents
termination_by rev _ parents => (rev.length + parents.length, 0, rev.length)

/-- `check_wildcard_parents`, lib.rs 834-853. -/
def checkWildcardParents (rev : List Part) (name : Name) (parents : List Name) : Bool :=
  if matchesRev rev name parents then true
  else match parents with
    | dir :: dirs => checkWildcardParents rev dir dirs
    | [] => rev.isEmpty
termination_by (rev.length + parents.length, 1, rev.length)
end

/-- `OverridePath::matches_file_path`, lib.rs 810-857. -/
def Path.matches (p : Path) (name : Name) (parents : List Name) : Bool :=
  matchesRev p.path.reverse name parents

/-! ## Files and their module names -/

/-- `str::strip_suffix`. -/
def stripSuffix (s suffix : List Char) : Option (List Char) :=
  if suffix <:+ s then some (s.take (s.length - suffix.length)) else none

/-- `str::strip_prefix`. -/
def stripPrefix (s pre : List Char) : Option (List Char) :=
  if pre <+: s then some (s.drop pre.length) else none

def stubs : Name := "-stubs".toList
def pyExt : Name := ".py".toList
def pyiExt : Name := ".pyi".toList
def dunderInit : Name := "__init__".toList

/-- A file inside a workspace: its own name and the names of its directories, inner first. -/
structure File where
  name : Name
  dirs : List Name
deriving DecidableEq, Repr

/-- `name_and_parent_dir(entry, true)`, python_file.rs 960-978. -/
def nameAndParents (f : File) : Name × List Name :=
  let name := ((stripSuffix f.name pyExt).or (stripSuffix f.name pyiExt)).getD f.name
  match f.dirs with
  | dir :: dirs => if name = dunderInit then ((stripSuffix dir stubs).getD dir, dirs) else (name, f.dirs)
  | [] => (name, [])

/-- `dotted_path_from_dir`, python_file.rs 951-958, as a list of components, inner first. -/
def dottedPathFromDir : Name → List Name → List Name
  | dir, p :: ps => dir :: dottedPathFromDir p ps
  | dir, [] => [(stripSuffix dir stubs).getD dir]

/-- `PythonFile::qualified_name`, python_file.rs 856-863, as a list of components, inner first. -/
def qualifiedName (f : File) : List Name :=
  match nameAndParents f with
  | (name, dir :: dirs) => name :: dottedPathFromDir dir dirs
  | (name, []) => [(stripSuffix name stubs).getD name]

/-! ## Flags -/

/-- The boolean fields of `TypeCheckerFlags` (lib.rs 552-599) that options can set;
`ignoreErrors` stands for `ignore_errors.is_some()`, the reason is not modelled.
`warnRedundantCasts`, `allowIncompleteGenerics` are set by `strict` only. -/
inductive Flag where
  | ignoreErrors | strictOptional | strictEquality | implicitOptional | checkUntypedDefs
  | ignoreMissingImports | followUntypedImports
  | disallowUntypedDefs | disallowUntypedCalls | disallowUntypedDecorators | disallowAnyGenerics
  | disallowAnyDecorated | disallowAnyExplicit | disallowAnyUnimported | disallowAnyExpr
  | disallowSubclassingAny | disallowIncompleteDefs
  | allowUntypedGlobals | allowRedefinition | allowEmptyBodies
  | warnUnreachable | warnRedundantCasts | warnReturnAny | warnNoReturn | localPartialTypes
  | noImplicitReexport | disableBytearrayPromotion | disableMemoryviewPromotion
  | extraChecks | allowIncompleteGenerics | untypedStrictOptional
deriving DecidableEq, Repr

/-- The list-valued fields of `TypeCheckerFlags`. -/
inductive ListFlag where
  | enabledErrorCodes | disabledErrorCodes | alwaysTrue | alwaysFalse | excludes
deriving DecidableEq, Repr

/-- `TypeCheckerFlags`, lib.rs 552-599. -/
structure Flags where
  bool : Flag → Bool
  list : ListFlag → List Name

def Flags.setBool (fl : Flags) (f : Flag) (b : Bool) : Flags :=
  { fl with bool := fun g => if g = f then b else fl.bool g }

def Flags.append (fl : Flags) (f : ListFlag) (l : List Name) : Flags :=
  { fl with list := fun g => if g = f then fl.list g ++ l else fl.list g }

/-- The fields set to `true` by `enable_all_strict_flags`, lib.rs 649-668. -/
def strictTrue : List Flag :=
  [.disallowAnyGenerics, .disallowSubclassingAny, .disallowUntypedCalls, .disallowUntypedDefs,
   .disallowIncompleteDefs, .checkUntypedDefs, .disallowUntypedDecorators, .warnRedundantCasts,
   .warnReturnAny, .noImplicitReexport, .strictEquality, .extraChecks, .untypedStrictOptional]

/-- The fields set to `false` by `enable_all_strict_flags`. -/
def strictFalse : List Flag := [.allowUntypedGlobals, .allowIncompleteGenerics]

/-- `enable_all_strict_flags`, lib.rs 649-668. -/
def Flags.enableAllStrict (fl : Flags) : Flags :=
  { fl with bool := fun g => if g ∈ strictTrue then true else if g ∈ strictFalse then false else fl.bool g }

/-- `IniOrTomlValue`, lib.rs 929-934.  A TOML value is a boolean, a string, an array of strings or
something else (`tomlOther`, also for an array with an element that is not a string). -/
inductive Value where
  | tomlBool (b : Bool)
  | tomlStr (s : Name)
  | tomlStrs (l : List Name)
  | tomlOther
  | ini (s : Name)
  | inlineNoValue
deriving DecidableEq, Repr

/-- `str::to_lowercase`; only its effect on ASCII matters for the comparison below. -/
def toLower (s : Name) : Name := s.map Char.toLower

/-- `as_bool`, lib.rs 945-958; `none` is the error. -/
def Value.asBool (v : Value) (invert : Bool) : Option Bool :=
  let result := match v with
    | .tomlBool b => some b
    | .ini s =>
      if toLower s ∈ ["true".toList, "1".toList, "yes".toList, "on".toList] then some true
      else if toLower s ∈ ["false".toList, "0".toList, "no".toList, "off".toList] then some false
      else none
    | .inlineNoValue => some true
    | _ => none
  result.map (· != invert)

/-- `OPTIONS_STARTING_WITH_ALLOW`, lib.rs 17-22. -/
def optionsStartingWithAllow : List Name :=
  ["allow_untyped_globals".toList, "allow_redefinition".toList, "allow_redefinition_new".toList,
   "allow_empty_bodies".toList]

/-- `maybe_invert`, lib.rs 993-1004. -/
def maybeInvert (name : Name) : Bool × Name :=
  match stripPrefix name "no_".toList with
  | some afterNoPrefix => (true, afterNoPrefix)
  | none =>
    if "allow".toList <+: name ∧ name ∉ optionsStartingWithAllow then (true, "dis".toList ++ name)
    else match stripPrefix name "dis".toList with
      | some afterDisPrefix =>
        if afterDisPrefix ∈ optionsStartingWithAllow then (true, afterDisPrefix) else (false, name)
      | none => (false, name)

/-- The arms of `set_bool_init_flags` (lib.rs 1077-1137) that store a boolean: the option name, the
field, and whether the stored value is the negation (`implicit_reexport`, line 1101). -/
def boolOptions : List (Name × Flag × Bool) :=
  [("strict_optional".toList, .strictOptional, false),
   ("strict_equality".toList, .strictEquality, false),
   ("implicit_optional".toList, .implicitOptional, false),
   ("check_untyped_defs".toList, .checkUntypedDefs, false),
   ("ignore_missing_imports".toList, .ignoreMissingImports, false),
   ("follow_untyped_imports".toList, .followUntypedImports, false),
   ("disallow_untyped_defs".toList, .disallowUntypedDefs, false),
   ("disallow_untyped_calls".toList, .disallowUntypedCalls, false),
   ("disallow_untyped_decorators".toList, .disallowUntypedDecorators, false),
   ("disallow_any_generics".toList, .disallowAnyGenerics, false),
   ("disallow_any_decorated".toList, .disallowAnyDecorated, false),
   ("disallow_any_explicit".toList, .disallowAnyExplicit, false),
   ("disallow_any_unimported".toList, .disallowAnyUnimported, false),
   ("disallow_any_expr".toList, .disallowAnyExpr, false),
   ("disallow_subclassing_any".toList, .disallowSubclassingAny, false),
   ("disallow_incomplete_defs".toList, .disallowIncompleteDefs, false),
   ("allow_untyped_globals".toList, .allowUntypedGlobals, false),
   ("allow_empty_bodies".toList, .allowEmptyBodies, false),
   ("warn_unreachable".toList, .warnUnreachable, false),
   ("warn_return_any".toList, .warnReturnAny, false),
   ("warn_no_return".toList, .warnNoReturn, false),
   ("local_partial_types".toList, .localPartialTypes, false),
   ("implicit_reexport".toList, .noImplicitReexport, true),
   ("allow_redefinition".toList, .allowRedefinition, false),
   ("allow_redefinition_new".toList, .allowRedefinition, false),
   ("disable_bytearray_promotion".toList, .disableBytearrayPromotion, false),
   ("disable_memoryview_promotion".toList, .disableMemoryviewPromotion, false),
   ("extra_checks".toList, .extraChecks, false),
   ("ignore_errors".toList, .ignoreErrors, false),
   ("untyped_strict_optional".toList, .untypedStrictOptional, false)]

/-- The arms of `set_bool_init_flags` that accept and ignore the option (lib.rs 1111-1127). -/
def ignoredOptions : List Name :=
  ["warn_unused_ignores".toList, "strict_concatenate".toList, "strict_bytes".toList,
   "strict_equality_for_none".toList, "sqlite_cache".toList, "incremental".toList,
   "force_uppercase_builtins".toList, "force_union_syntax".toList, "verbosity".toList,
   "color_output".toList, "follow_imports".toList, "follow_imports_for_stubs".toList,
   "cache_fine_grained".toList]

/-- `set_bool_init_flags`, lib.rs 1069-1149. -/
def setBoolInitFlags (fl : Flags) (name : Name) (value : Value) (invert addError : Bool) :
    Flags × Except Fail Unit :=
  match boolOptions.find? (fun o => o.1 = name) with
  | some (_, f, neg) =>
    match value.asBool invert with
    | some b => (fl.setBool f (b != neg), .ok ())
    | none => (fl, .error .bail)
  | none =>
    if name ∈ ignoredOptions then (fl, .ok ())
    else if name = "python_version".toList then (fl, .error .bail)
    else if addError then (fl, .error .bail) else (fl, .ok ())

/-- `char::is_whitespace` (the Unicode property White_Space), as removed by `str::trim`. -/
def isSpace (c : Char) : Bool :=
  let n := c.toNat
  (9 ≤ n && n ≤ 13) || n == 0x20 || n == 0x85 || n == 0xa0 || n == 0x1680 || (0x2000 ≤ n && n ≤ 0x200a) ||
    n == 0x2028 || n == 0x2029 || n == 0x202f || n == 0x205f || n == 0x3000

/-- `str::trim`. -/
def trim (s : List Char) : List Char := ((s.dropWhile isSpace).reverse.dropWhile isSpace).reverse

/-- `str::split` with a set of separator characters. -/
def splitAny (seps : List Char) : List Char → List (List Char)
  | [] => [[]]
  | c :: cs =>
    if c ∈ seps then [] :: splitAny seps cs
    else match splitAny seps cs with
      | [] => [[c]]
      | x :: xs => (c :: x) :: xs

/-- `split_and_trim`, lib.rs 1151-1157. -/
def splitAndTrim (s seps : List Char) : List (List Char) :=
  let s := trim s
  let s := match s.getLast? with
    | some c => if c ∈ seps then s.dropLast else s
    | none => s
  (splitAny seps s).map trim

/-- The closure `add_list_of_str`, lib.rs 1013-1041.  An array with a non-string element is
`tomlOther`; that its first elements have been pushed before the error is not modelled. -/
def addListOfStr (fl : Flags) (f : ListFlag) (value : Value) (invert : Bool) : Flags × Except Fail Unit :=
  if invert then (fl, .error .bail)
  else match value with
    | .tomlStrs l => (fl.append f l, .ok ())
    | .tomlStr s => (fl.append f [s], .ok ())
    | .ini v => (fl.append f (splitAndTrim v [',']), .ok ())
    | _ => (fl, .error .bail)

/-- `add_excludes`, lib.rs 1243-1269; `valid` decides whether a regex compiles. -/
def addExcludes (valid : Name → Bool) (fl : Flags) (value : Value) (invert : Bool) : Flags × Except Fail Unit :=
  let go (l : List Name) : Flags × Except Fail Unit :=
    (fl.append .excludes (l.takeWhile valid), if l.all valid then .ok () else .error .bail)
  if invert then (fl, .error .bail)
  else match value with
    | .tomlStrs l => go l
    | .tomlStr s => go [s]
    | .ini v => go [v]
    | _ => (fl, .error .bail)

/-- `set_flag`, lib.rs 1006-1067. -/
def setFlag (valid : Name → Bool) (fl : Flags) (name : Name) (value : Value) (addError : Bool) :
    Flags × Except Fail Unit :=
  let (invert, optionName) := maybeInvert name
  if optionName = "exclude".toList then addExcludes valid fl value invert
  else if optionName = "always_true".toList then addListOfStr fl .alwaysTrue value invert
  else if optionName = "always_false".toList then addListOfStr fl .alwaysFalse value invert
  else if optionName = "enable_error_code".toList then addListOfStr fl .enabledErrorCodes value invert
  else if optionName = "disable_error_code".toList then addListOfStr fl .disabledErrorCodes value invert
  else if optionName = "strict".toList then (fl, .error .bail)
  else setBoolInitFlags fl optionName value invert addError

/-! ## Per-module sections -/

/-- `OverrideConfig`, lib.rs 882-888. -/
structure Override where
  module : Path
  config : List (Name × Value)

/-- The first loop of `apply_to_flags`, lib.rs 891-895. -/
def applyStrict (fl : Flags) : List (Name × Value) → Flags × Except Fail Unit
  | [] => (fl, .ok ())
  | (key, value) :: rest =>
    if key = "strict".toList then
      match value.asBool false with
      | none => (fl, .error .bail)
      | some true => applyStrict fl.enableAllStrict rest
      | some false => applyStrict fl rest
    else applyStrict fl rest

/-- The second loop of `apply_to_flags`, lib.rs 896-898. -/
def applyAll (valid : Name → Bool) (fl : Flags) : List (Name × Value) → Flags × Except Fail Unit
  | [] => (fl, .ok ())
  | (key, value) :: rest =>
    match setFlag valid fl key value false with
    | (fl, .ok ()) => applyAll valid fl rest
    | (fl, .error e) => (fl, .error e)

/-- `apply_to_flags`, lib.rs 890-901. -/
def Override.apply (valid : Name → Bool) (o : Override) (fl : Flags) : Flags × Except Fail Unit :=
  match applyStrict fl o.config with
  | (fl, .ok ()) => applyAll valid fl o.config
  | (fl, .error e) => (fl, .error e)

/-- Insertion of a section into a sorted list, behind all sections of the same kind. -/
def insertByKind (o : Override) : List Override → List Override
  | [] => [o]
  | x :: xs => if o.module.kind.rank < x.module.kind.rank then o :: x :: xs else x :: insertByKind o xs

/-- `order_overrides_for_priority`, lib.rs 539-543: `sort_by_key` is a stable sort. -/
def orderOverrides (os : List Override) : List Override := os.foldl (fun acc o => insertByKind o acc) []

/-- The loop over the sections in `info_from_directives`, python_file.rs 988-1003.  The error of
`apply_to_flags` is turned into a panic by `.expect` (line 1001).  Modelled with the flags of the
project as start value (`flags = None` stands for these). -/
def applyOverrides (valid : Name → Bool) (f : File) (fl : Flags) : List Override → Except Fail Flags
  | [] => .ok fl
  | o :: os =>
    let (name, parents) := nameAndParents f
    if o.module.matches name parents then
      match o.apply valid fl with
      | (fl, .ok ()) => applyOverrides valid f fl os
      | (_, .error _) => .error .panic
    else applyOverrides valid f fl os

/-- The sections of an ini file (`from_mypy_ini`, lib.rs 334-346): one override for each entry of
the comma separated list after `mypy-`. -/
def overridesOfIni (sections : List (Name × List (Name × Name))) : List Override :=
  sections.flatMap fun (rest, cfg) =>
    (splitOn ',' rest).map fun m => { module := .ofString m, config := cfg.map fun (k, v) => (k, .ini v) }

/-- The flags of a file, for a project whose configuration has these sections. -/
def fileFlags (valid : Name → Bool) (base : Flags) (sections : List Override) (f : File) : Except Fail Flags :=
  applyOverrides valid f base (orderOverrides sections)

/-! ## Missing imports -/

/-- `maybe_affects_global_import_name`, lib.rs 859-865. -/
def Path.affectsGlobalImport (p : Path) : Option Name :=
  match p.path with
  | [.part x] => some x
  | [.part x, .wildcard] => some x
  | _ => none

/-- `has_ignore_missing_imports`, lib.rs 903-908. -/
def Override.hasIgnoreMissingImports (o : Override) : Bool :=
  o.config.any fun (k, v) => k = "ignore_missing_imports".toList ∧ (v.asBool false).getD false

/-- `PythonProject::ignored_global_imports`, database.rs 1726-1733. -/
def ignoredGlobalImports (os : List Override) : List Name :=
  os.filterMap fun o => match o.module.affectsGlobalImport with
    | none => none
    | some x => if o.hasIgnoreMissingImports then some x else none

/-! ## Versions -/

/-- `PythonVersion`, lib.rs 698-702. -/
structure Version where
  major : Nat
  minor : Nat
deriving DecidableEq, Repr

/-- `at_least_3_dot`, lib.rs 709-711. -/
def Version.atLeast3Dot (v : Version) (minor : Nat) : Bool := v.major ≥ 3 && v.minor ≥ minor

/-- `str::parse::<usize>` restricted to strings of digits without sign. The `+` sign, which Rust
accepts, and overflow are not modelled. -/
def parseNat (s : List Char) : Option Nat :=
  if s = [] then none
  else s.foldl (fun acc c => acc.bind fun n => if c.isDigit then some (10 * n + (c.toNat - 48)) else none) (some 0)

/-- `str::split_once`. -/
def splitOnce (sep : Char) : List Char → Option (List Char × List Char)
  | [] => none
  | c :: cs => if c = sep then some ([], cs) else (splitOnce sep cs).map fun (a, b) => (c :: a, b)

/-- `FromStr for PythonVersion`, lib.rs 714-734. -/
def Version.ofString (s : List Char) : Option Version :=
  match splitOnce '.' s with
  | none => none
  | some (major, minor) =>
    let minor := match splitOnce '.' minor with
      | some (newMinor, _) => newMinor
      | none => minor
    match parseNat major, parseNat minor with
    | some major, some minor => some { major, minor }
    | _, _ => none

end Verif.Config
