/-!
# Positions and document synchronisation

Model of `crates/zuban_python/src/lines.rs` and
`crates/zuban_python/src/lsp_utils.rs`.

A `&str` is a list of characters; byte offsets are UTF-8 offsets into it.
`CodeIndex` (`u32`) and `usize` are natural numbers (files of 4 GiB and more are
not modelled).  The `cfg!(windows)` branches are not modelled.
-/

namespace Verif.Lines

/-- The two ways in which a call does not return a value: an `anyhow` error that is
propagated, or a Rust panic. -/
inductive Fail where
  | bail
  | panic
deriving DecidableEq, Repr

/-- Size in bytes of a string, `str::len`. -/
def size : List Char → Nat
  | [] => 0
  | c :: cs => c.utf8Size + size cs

/-- Splitting a string at a byte offset; `none` if the offset is not a character boundary
(`str::is_char_boundary` is `(splitAtByte s n).isSome`). -/
def splitAtByte : List Char → Nat → Option (List Char × List Char)
  | cs, 0 => some ([], cs)
  | [], _ + 1 => none
  | c :: cs, n + 1 =>
    if c.utf8Size ≤ n + 1 then
      (splitAtByte cs (n + 1 - c.utf8Size)).map fun r => (c :: r.1, r.2)
    else none

/-- The slice expression `&code[a..b]`; `none` is the panic. -/
def slice (code : List Char) (a b : Nat) : Option (List Char) :=
  (splitAtByte code b).bind fun r => (splitAtByte r.1 a).map (·.2)

/-- The ends of all matches of the regex `\n|\r\n|\r` (lines.rs 10), as computed by
`NewlineIndices::lines`, lines.rs 25-33. -/
def lineEnds (off : Nat) : List Char → List Nat
  | [] => []
  | c :: cs =>
    if c = '\n' then (off + 1) :: lineEnds (off + 1) cs
    else if c = '\r' then
      match cs with
      | '\n' :: cs => (off + 2) :: lineEnds (off + 2) cs
      | cs => (off + 1) :: lineEnds (off + 1) cs
    else lineEnds (off + c.utf8Size) cs
termination_by cs => cs.length

/-- The closure `line_infos`, lines.rs 52-77: start offset of a line and its text, from the
table `lines` of newline ends. -/
def lineInfos (lines : List Nat) (code : List Char) (line : Nat) : Except Fail (Nat × List Char) :=
  match lines[line]? with
  | none =>
    if lines.length = line then
      if lines = [] then .ok (0, code)
      else
        match lines[line - 1]? with
        | none => .error .panic
        | some start =>
          match splitAtByte code start with
          | none => .error .panic
          | some r => .ok (start, r.2)
    else .error .bail
  | some next =>
    match (if line = 0 then some 0 else lines[line - 1]?) with
    | none => .error .panic
    | some start =>
      if next = 0 then .error .panic
      else
        match slice code start (next - 1) with
        | none => .error .panic
        | some l => .ok (start, l)

/-- The encodings of columns; `InputPosition` without `NthUTF8Byte`, lib.rs 542-547. -/
inductive Enc where
  | utf8
  | utf16
  | utf32
deriving DecidableEq, Repr

/-- `char::len_utf16`. -/
def utf16Len (c : Char) : Nat := if c.val < 0x10000 then 1 else 2

/-- The loop of `utf16_to_utf8_byte_offset`, lines.rs 199-224. -/
def utf16Loop (pos : Nat) : List Char → (utf8Idx utf16Count charCount : Nat) → Except Fail (Nat × Bool)
  | [], utf8Idx, _, charCount => .ok (utf8Idx, decide (pos > charCount))
  | c :: cs, utf8Idx, utf16Count, charCount =>
    if utf16Count = pos then .ok (utf8Idx, false)
    else if utf16Count + utf16Len c > pos then .error .bail
    else utf16Loop pos cs (utf8Idx + c.utf8Size) (utf16Count + utf16Len c) (charCount + 1)

/-- Offset inside a line for a column, and whether the column is out of bounds; the three
arms of `line_column_to_byte`, lines.rs 90-122. -/
def convert (enc : Enc) (line : List Char) (column : Nat) : Except Fail (Nat × Bool) :=
  match enc with
  | .utf8 =>
    let out := min column (size line)
    if (splitAtByte line out).isSome then .ok (out, decide (out < column)) else .error .bail
  | .utf16 => utf16Loop column line 0 0 0
  | .utf32 => .ok (size (line.take column), decide ((line.take column).length < column))

/-- `line_column_to_byte`, lines.rs 47-124, with the line table already looked up. -/
def lineColumnToByte (enc : Enc) (lines : List Nat) (code : List Char) (line column : Nat) :
    Except Fail (Nat × Bool) :=
  match lineInfos lines code line with
  | .error e => .error e
  | .ok (start, l) =>
    match convert enc l column with
    | .error e => .error e
    | .ok (b, oob) => .ok (start + b, oob)

/-- `line_column_to_safe_byte`, lines.rs 35-45. -/
def safeByte (enc : Enc) (lines : List Nat) (code : List Char) (line column : Nat) : Except Fail Nat :=
  match lineColumnToByte enc lines code line column with
  | .error e => .error e
  | .ok (b, oob) => if oob then .error .bail else .ok b

/-- `position_infos`, lines.rs 164-180: line number and offset of the line.
`partition_point` on the (sorted, see `lineEnds_sorted`) table is the length of the prefix that
satisfies the predicate. -/
def positionInfos (code : List Char) (byte : Nat) : Nat × Nat :=
  let lines := lineEnds 0 code
  let line := (lines.takeWhile (· ≤ byte)).length
  (line, if line = 0 then 0 else (lines[line - 1]?).getD 0)

/-- `line_part`, lines.rs 262-264; `none` is the panic. -/
def linePart (code : List Char) (byte : Nat) : Option (List Char) :=
  slice code (positionInfos code byte).2 byte

/-- `utf8_bytes_column`, `utf16_code_units_column`, `code_points_column`, lines.rs 242-252. -/
def column (enc : Enc) (code : List Char) (byte : Nat) : Option Nat :=
  match enc with
  | .utf8 => some (byte - (positionInfos code byte).2)
  | .utf16 => (linePart code byte).map fun l => (l.map utf16Len).sum
  | .utf32 => (linePart code byte).map List.length

/-- `expand_range_to_full_lines`, lines.rs 182-196. -/
def expandRange (code : List Char) (a b : Nat) : Nat × Nat :=
  ((positionInfos code a).2,
    match (lineEnds 0 code)[(positionInfos code b).1]? with
    | some e => e - 1
    | none => size code)

/-! ## Document changes -/

/-- `lsp_types::Position`. -/
structure Pos where
  line : Nat
  col : Nat
deriving DecidableEq, Repr

/-- `Position`'s derived order: `a > b`. -/
def Pos.gt (a b : Pos) : Bool := decide (a.line > b.line ∨ (a.line = b.line ∧ a.col > b.col))

/-- `TextDocumentContentChangeEvent`. -/
structure Change where
  range : Option (Pos × Pos)
  text : List Char
deriving DecidableEq, Repr

/-- `String::replace_range`. -/
def replaceRange (text : List Char) (a b : Nat) (new : List Char) : Except Fail (List Char) :=
  match splitAtByte text b with
  | none => .error .panic
  | some (p, q) =>
    match splitAtByte p a with
    | none => .error .panic
    | some (p1, _) => .ok (p1 ++ new ++ q)

/-- The local state of `apply_document_changes`: the text, the line table in use
(`none` = the `OnceLock` is not initialised), whether the table is `Cow::Owned`, the table of
the stored file, and `index_valid`. -/
structure SyncState where
  text : List Char
  table : Option (List Nat)
  owned : Bool
  stored : Option (List Nat)
  indexValid : Nat

/-- One iteration of the loop, lsp_utils.rs 37-52.  The second component is the line table of
the stored file afterwards (a borrowed table that is used gets initialised). -/
def syncStep (enc : Enc) (s : SyncState) (c : Change) : Except Fail SyncState × Option (List Nat) :=
  match c.range with
  | none => (.ok s, s.stored)
  | some (rs, re) =>
    if rs.gt re then (.error .bail, s.stored)
    else
      let fresh := decide (re.line ≥ s.indexValid)
      let owned := fresh || s.owned
      let table := ((if fresh then none else s.table)).getD (lineEnds 0 s.text)
      let stored := if owned then s.stored else some table
      match safeByte enc table s.text rs.line rs.col with
      | .error e => (.error e, stored)
      | .ok start =>
        match safeByte enc table s.text re.line re.col with
        | .error e => (.error e, stored)
        | .ok stop =>
          match replaceRange s.text start stop c.text with
          | .error e => (.error e, stored)
          | .ok text =>
            (.ok { text, table := some table, owned, stored, indexValid := rs.line }, stored)

/-- The loop, lsp_utils.rs 37-53. -/
def syncLoop (enc : Enc) (s : SyncState) : List Change → Except Fail (List Char) × Option (List Nat)
  | [] => (.ok s.text, s.stored)
  | c :: cs =>
    match syncStep enc s c with
    | (.error e, stored) => (.error e, stored)
    | (.ok s', _) => syncLoop enc s' cs

/-- The changes after the last full-document change, and the text to start with,
lsp_utils.rs 16-25. -/
def splitFull (file : List Char) : List Change → List Char × List Change
  | [] => (file, [])
  | c :: cs =>
    match c.range with
    | none => splitFull c.text cs
    | some r =>
      if cs.any (·.range.isNone) then splitFull file cs else (file, ⟨some r, c.text⟩ :: cs)

/-- `apply_document_changes`, lsp_utils.rs 8-54: the new text or an error, and the line table of
the stored file afterwards.  `!0u32` is the initial `index_valid`. -/
def applyDocumentChanges (enc : Enc) (file : List Char) (stored : Option (List Nat))
    (changes : List Change) : Except Fail (List Char) × Option (List Nat) :=
  let (text, cs) := splitFull file changes
  syncLoop enc { text, table := stored, owned := false, stored, indexValid := 2 ^ 32 - 1 } cs

/-- `parse`'s padding of the text, parsa_python/src/lib.rs 441-455. -/
def pad (code : List Char) : List Char :=
  let code := if ['\n'] <:+ code then code else code ++ ['\n']
  if ['\\', '\n'] <:+ code ∨ ['\\', '\r', '\n'] <:+ code then code ++ ['\n'] else code

end Verif.Lines
