/-!
Model of `type: ignore` comments: finding them in the lines of an error, deciding which errors they
suppress, and the quick fix that adds one.

Source text is a `List Char` in which every element stands for one byte of the UTF-8 text.  All
patterns the code searches for (`#`, newline, space, `[`, ...) are ASCII, so splitting and trimming
bytes is the same as splitting and trimming characters, and lengths and indexes are byte counts as
in the code.
-/

namespace Verif.Ignore

abbrev Text := List Char

/-- `str::split` with a character pattern (standard library). -/
def splitOn (p : Char → Bool) : Text → List Text
  | [] => [[]]
  | c :: cs =>
    if p c then [] :: splitOn p cs
    else
      match splitOn p cs with
      | [] => [[c]]
      | h :: t => (c :: h) :: t

/-- `str::trim_start_matches(' ')` (standard library). -/
def trimStart (t : Text) : Text := t.dropWhile (· == ' ')

/-- `str::trim_end_matches(' ')` (standard library). -/
def trimEnd (t : Text) : Text := (trimStart t.reverse).reverse

/-- `u8::is_ascii_whitespace` (standard library). -/
def isAsciiSpace (c : Char) : Bool :=
  c == ' ' || c == '\t' || c == '\n' || c == '\r' || c == Char.ofNat 12

/-- `str::trim_ascii_end` (standard library). -/
def trimAsciiEnd (t : Text) : Text := (t.reverse.dropWhile isAsciiSpace).reverse

/-- `str::strip_prefix` with a string pattern (standard library). -/
def stripPrefix (pre t : Text) : Option Text :=
  if pre.isPrefixOf t then some (t.drop pre.length) else none

/-- `str::strip_suffix` with a character pattern (standard library). -/
def stripSuffix (c : Char) (t : Text) : Option Text :=
  if t.getLast? = some c then some t.dropLast else none

/-- The `['\n', '\r']` pattern, crates/parsa_python_cst/src/lib.rs:109 and 122. -/
def isNewline (c : Char) : Bool := c == '\n' || c == '\r'

def isHash (c : Char) : Bool := c == '#'

/-- `kind`, crates/parsa_python_cst/src/lib.rs:127-129 (the strings "type" and "zuban"). -/
inductive Kind
  | type
  | zuban
  deriving DecidableEq, Repr

/-- `TypeIgnoreComment`, crates/parsa_python_cst/src/lib.rs:463-472. -/
inductive Comment
  | withCodes (kind : Kind) (codes : Text) (codesStart : Nat) (later : List Text)
  | withoutCode
  deriving DecidableEq, Repr

def ignoreWord : Text := ['i', 'g', 'n', 'o', 'r', 'e']
def typeColon : Text := ['t', 'y', 'p', 'e', ':']
def zubanColon : Text := ['z', 'u', 'b', 'a', 'n', ':']

/-- The text in brackets, crates/parsa_python_cst/src/lib.rs:488-490. -/
def bracketed (t : Text) : Option Text :=
  match stripPrefix ['['] t with
  | some inner =>
    match stripSuffix ']' inner with
    | some codes => if codes.isEmpty then none else some codes
    | none => none
  | none => none

/-- `after.is_empty() || after.starts_with([' ', '\t'])`,
crates/parsa_python_cst/src/lib.rs:500. -/
def endsWord : Text → Bool
  | [] => true
  | c :: _ => c == ' ' || c == '\t'

/-- `maybe_type_ignore`, crates/parsa_python_cst/src/lib.rs:479-505. -/
def maybeTypeIgnore (kind : Kind) (startAt : Nat) (text : Text) : Option Comment :=
  match stripPrefix ignoreWord text with
  | none => none
  | some after =>
    let trimmed := trimStart after
    let startAt := startAt + (text.length - trimmed.length)
    match bracketed (trimEnd trimmed) with
    | some codes => some (.withCodes kind codes (startAt + 1) [])
    | none => if endsWord after then some .withoutCode else none

/-- The choice of `kind` and the text after the colon,
crates/parsa_python_cst/src/lib.rs:126-131. -/
def kindOf (comment : Text) : Option (Kind × Text) :=
  let rest := trimStart comment
  match stripPrefix typeColon rest with
  | some r => some (.type, r)
  | none =>
    match stripPrefix zubanColon rest with
    | some r => some (.zuban, r)
    | none => none

/-- One piece after a `#`, crates/parsa_python_cst/src/lib.rs:126-137.  `startAt` is the index the
code believes the piece starts at. -/
def parseComment (startAt : Nat) (comment : Text) : Option Comment :=
  match kindOf comment with
  | none => none
  | some (kind, r) =>
    let ignore := trimStart r
    maybeTypeIgnore kind (startAt + (comment.length - ignore.length)) ignore

/-- Combining a new comment with those before, crates/parsa_python_cst/src/lib.rs:138-155. -/
def merge : Option Comment → Option Comment → Option Comment
  | result, none => result
  | none, some new => some new
  | some (.withCodes k c s later), some (.withCodes _ c' _ _) =>
    some (.withCodes k c s (later ++ [c']))
  | some _, some _ => some .withoutCode

/-- The inner loop, crates/parsa_python_cst/src/lib.rs:125-158. -/
def commentLoop : Nat → Option Comment → List Text → Nat × Option Comment
  | startAt, result, [] => (startAt, result)
  | startAt, result, comment :: rest =>
    commentLoop (startAt + comment.length + 1) (merge result (parseComment startAt comment)) rest

/-- The body for one line, crates/parsa_python_cst/src/lib.rs:123-159.  `line.split('#')` is never
empty, so the first case cannot happen (`unwrap` does not panic). -/
def lineStep (startAt : Nat) (result : Option Comment) : List Text → Nat × Option Comment
  | [] => (startAt, result)
  | first :: comments =>
    let (s, r) := commentLoop (startAt + first.length + 1) result comments
    (s + 1, r)

/-- The outer loop, crates/parsa_python_cst/src/lib.rs:122-160. -/
def lineLoop : Nat → Option Comment → List Text → Option Comment
  | _, result, [] => result
  | startAt, result, line :: lines =>
    let (s, r) := lineStep startAt result (splitOn isHash line)
    lineLoop s r lines

/-- `type_ignore_comment_for_region`, crates/parsa_python_cst/src/lib.rs:117-162. -/
def ignoreForRegion (startAt : Nat) (region : Text) : Option Comment :=
  lineLoop startAt none (splitOn isNewline region)

/-- The region of `type_ignore_comment_for`, crates/parsa_python_cst/src/lib.rs:108-113: from
`start` to the first line break at or after `end`. -/
def relevantRegion (code : Text) (start stop : Nat) : Text :=
  match (code.drop stop).findIdx? isNewline with
  | some n => (code.take (stop + n)).drop start
  | none => code.drop start

/-- `type_ignore_comment_for`, crates/parsa_python_cst/src/lib.rs:101-115. -/
def ignoreFor (code : Text) (start stop : Nat) : Option Comment :=
  ignoreForRegion start (relevantRegion code start stop)

/-- `has_type_ignore_at_start`, crates/parsa_python_cst/src/lib.rs:164-170, given the text before
the first statement. -/
def ignoreAtStart (before : Text) : Except Text Bool :=
  match ignoreForRegion 0 before with
  | some (.withCodes _ codes _ _) => .error codes
  | some .withoutCode => .ok true
  | none => .ok false

/-- `mypy_error_code` and `mypy_error_supercode` of an issue,
crates/zuban_python/src/diagnostics.rs:400-676; notes have no code.  The tables are not modelled. -/
structure Issue where
  code : Option Text
  parent : Option Text
  deriving DecidableEq, Repr

/-- `str::trim_matches(' ')` (standard library). -/
def trimBoth (t : Text) : Text := trimEnd (trimStart t)

/-- The test for one listed code, crates/zuban_python/src/diagnostics.rs:2444-2447. -/
def codeMatches (i : Issue) (code : Text) : Bool :=
  let code := trimBoth code
  i.code == some code || i.parent == some code || i.code.isNone

/-- `is_ignored_and_return_non_covered_error_code`,
crates/zuban_python/src/diagnostics.rs:2422-2458. -/
def isIgnored (i : Issue) : Option Comment → Bool × Option Text × Text
  | none => (false, none, [])
  | some .withoutCode => (true, none, [])
  | some (.withCodes _ codes _ later) =>
    if ((codes :: later).flatMap (splitOn (· == ','))).any (codeMatches i) then (true, none, codes)
    else (false, i.code, codes)

/-- Is the issue at `start..stop` dropped?  `add_if_not_ignored` with the comment of the lines of
the issue, crates/zuban_python/src/diagnostics.rs:2390-2399 and
crates/zuban_python/src/file/python_file.rs:820-835. -/
def suppressed (code : Text) (start stop : Nat) (i : Issue) : Bool :=
  (isIgnored i (ignoreFor code start stop)).1

/-- `TypeIgnoreInsertion`, crates/parsa_python_cst/src/code_actions.rs:5-8. -/
structure Insertion where
  index : Nat
  preexisting : Option Kind
  deriving DecidableEq, Repr

/-- A leaf of the syntax tree with its start and end. -/
structure Leaf where
  start : Nat
  stop : Nat
  deriving DecidableEq, Repr

/-- The loop to the last leaf of the line, crates/parsa_python_cst/src/code_actions.rs:53-57. -/
def lastLeaf (lastValid : Nat) : Leaf → List Leaf → Leaf
  | leaf, [] => leaf
  | leaf, next :: rest => if next.start < lastValid then lastLeaf lastValid next rest else leaf

/-- `insertion_point_for_type_ignore`, crates/parsa_python_cst/src/code_actions.rs:27-68.  The leaf
at the position and the leaves after it are given as arguments (`leaf_by_position` and `next_leaf`
are modelled in `Verif.Tree`). -/
def insertionPoint (code : Text) (position : Nat) (leaf : Leaf) (rest : List Leaf) :
    Option Insertion :=
  match ignoreFor code position position with
  | some (.withCodes kind codes codesStart _) =>
    some ⟨codesStart + (trimAsciiEnd codes).length, some kind⟩
  | some .withoutCode => none
  | none =>
    let line := (code.drop position).takeWhile (fun c => !isNewline c)
    if (code.drop position).any isNewline && line.getLast? == some '\\' then none
    else
      let lastValid := position + line.length
      let l := lastLeaf lastValid leaf rest
      if lastValid < l.stop then none else some ⟨l.stop, none⟩

def kindText : Kind → Text
  | .type => ['t', 'y', 'p', 'e']
  | .zuban => ['z', 'u', 'b', 'a', 'n']

/-- `format_for_kind`, crates/parsa_python_cst/src/code_actions.rs:11-22. -/
def formatForKind (ins : Insertion) (kind : Kind) (errorCode : Text) : Option Text :=
  match ins.preexisting with
  | some k => if k ≠ kind then none else some ([',', ' '] ++ errorCode)
  | none =>
    some ([' ', ' ', '#', ' '] ++ kindText kind ++ [':', ' '] ++ ignoreWord ++ ['['] ++ errorCode ++
      [']'])

/-- The edit of a `CodeAction`, crates/zuban_python/src/code_actions.rs:71-80: insert the text at
the index. -/
def applyInsert (code : Text) (index : Nat) (text : Text) : Text :=
  code.take index ++ text ++ code.drop index

/-- `mypy_inline_config_directives` and the prefix,
crates/parsa_python_cst/src/lib.rs:177-187. -/
def directivePrefix : Text := ['#', ' ', 'm', 'y', 'p', 'y', ':', ' ']

def directiveLoop : Nat → List Text → List (Nat × Text)
  | _, [] => []
  | start, line :: lines =>
    match stripPrefix directivePrefix line with
    | some rest => (start + directivePrefix.length, rest) :: directiveLoop (start + line.length + 1) lines
    | none => directiveLoop (start + line.length + 1) lines

def inlineDirectives (code : Text) : List (Nat × Text) :=
  directiveLoop 0 (splitOn (· == '\n') code)

end Verif.Ignore
