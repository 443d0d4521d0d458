/-!
# String and bytes literals

Model of `crates/parsa_python_cst/src/strings.rs`, `crates/parsa_python_cst/src/bytes.rs` and of
`str_repr`, `bytes_repr` in `crates/zuban_python/src/utils.rs`.

A `&str` is the list of its bytes (`Nat`, below 256); strings that come from the parser are `encode`d lists of
characters.  Offsets into `inner` are represented by the lists of bytes before and behind them: `pending`
is `inner[previous_insert..i]` and the rest of the iterator is a list.
-/

namespace Verif.Strings

/-- A Rust panic. -/
inductive Fail where
  | panic
deriving DecidableEq, Repr

/-- UTF-8, `char::encode_utf8`. -/
def encodeChar (c : Char) : List Nat :=
  let v := c.toNat
  if v < 0x80 then [v]
  else if v < 0x800 then [0xC0 + v / 64, 0x80 + v % 64]
  else if v < 0x10000 then [0xE0 + v / 4096, 0x80 + v / 64 % 64, 0x80 + v % 64]
  else [0xF0 + v / 262144, 0x80 + v / 4096 % 64, 0x80 + v / 64 % 64, 0x80 + v % 64]

def encode (s : List Char) : List Nat := s.flatMap encodeChar

/-- `str::is_char_boundary` at the beginning of the list: the byte is no continuation byte. -/
def boundary : List Nat → Bool
  | [] => true
  | b :: _ => !(decide (0x80 ≤ b) && decide (b < 0xC0))

/-- The length of a character, from its first byte (`char::len_utf8` of `chars().next()`). -/
def charLen (b : Nat) : Nat := if b < 0x80 then 1 else if b < 0xE0 then 2 else if b < 0xF0 then 3 else 4

/-- `char::from_u32`. -/
def charFromU32 (n : Nat) : Option Char :=
  if h : n.isValidChar then some (Char.ofNatAux n h) else none

/-- The digit in `parse_hex`, strings.rs 208-216. -/
def hexDigit (b : Nat) : Option Nat :=
  if 48 ≤ b ∧ b ≤ 57 then some (b - 48)
  else if 97 ≤ b ∧ b ≤ 102 then some (b - 97 + 10)
  else if 65 ≤ b ∧ b ≤ 70 then some (b - 65 + 10)
  else none

/-- The loop of `parse_hex`, strings.rs 206-218: `count` digits are left.  The iterator has consumed the
byte that is not a digit. -/
def parseHexLoop : Nat → List Nat → Nat → Option Nat × List Nat
  | 0, bs, number => (some number, bs)
  | _ + 1, [], number => (some number, [])
  | k + 1, b :: bs, number =>
    match hexDigit b with
    | none => (none, bs)
    | some d => parseHexLoop k bs (number + d * 16 ^ k)

/-- `parse_hex`, strings.rs 202-220: the result and the rest of the iterator. -/
def parseHex (count : Nat) (bs : List Nat) : Option Char × List Nat :=
  match parseHexLoop count bs 0 with
  | (some n, rest) => (charFromU32 n, rest)
  | (none, rest) => (none, rest)

/-- The loop of `parse_python_octal`, strings.rs 226-233: `k` bytes may still be used. -/
def octalLoop : Nat → List Nat → (used result : Nat) → Nat × Nat
  | 0, _, used, result => (used, result)
  | _ + 1, [], used, result => (used, result)
  | k + 1, b :: bs, used, result =>
    if 48 ≤ b ∧ b ≤ 55 then octalLoop k bs (used + 1) (result * 8 + (b - 48)) else (used, result)

/-- `parse_python_octal`, strings.rs 222-235: the number of bytes and the code point (at most 511, always a
character). -/
def parseOctal (bs : List Nat) : Option (Nat × Nat) :=
  let (used, result) := octalLoop 3 bs 0 0
  if used > 0 then some (used, result) else none

/-- The arms of the match at strings.rs 62-66 and 93-99 that push one character. -/
def simpleEscape (b : Nat) : Option Nat :=
  if b = 92 ∨ b = 39 ∨ b = 34 then some b        -- \\ \' \"
  else if b = 97 then some 7                      -- \a
  else if b = 98 then some 8                      -- \b
  else if b = 116 then some 9                     -- \t
  else if b = 110 then some 10                    -- \n
  else if b = 118 then some 11                    -- \v
  else if b = 102 then some 12                    -- \f
  else if b = 114 then some 13                    -- \r
  else none

/-- The match on the byte behind a backslash, strings.rs 61-117: what is pushed, and the rest of the
iterator.  `rest` is the iterator behind that byte. -/
def escape (b : Nat) (rest : List Nat) : List Nat × List Nat :=
  match simpleEscape b with
  | some x => ([x], rest)
  | none =>
    if b = 10 then ([], rest)
    else if b = 13 then
      match rest with
      | 10 :: rest => ([], rest)
      | rest => ([], rest)
    else if b = 117 then                             -- u
      let (c, rest) := parseHex 4 rest
      ((c.map encodeChar).getD [], rest)
    else if b = 85 then                              -- U
      let (c, rest) := parseHex 8 rest
      ((c.map encodeChar).getD [], rest)
    else if b = 120 then                             -- x
      let (c, rest) := parseHex 2 rest
      ((c.map encodeChar).getD [], rest)
    else if b = 78 then ([92, 78], rest)             -- N
    else
      match parseOctal (b :: rest) with
      | some (len, octal) => (encodeChar (Char.ofNat octal), rest.drop (len - 1))
      | none => (92 :: b :: rest.take (charLen b - 1), rest.drop (charLen b - 1))

theorem parseHexLoop_length (k : Nat) (bs : List Nat) (n : Nat) : (parseHexLoop k bs n).2.length ≤ bs.length := by
  induction k generalizing bs n with
  | zero => simp [parseHexLoop]
  | succ k ih =>
    cases bs with
    | nil => simp [parseHexLoop]
    | cons b bs =>
      simp only [parseHexLoop]
      split
      · simp
      · simp only [List.length_cons]; exact Nat.le_succ_of_le (ih _ _)

theorem parseHex_length (k : Nat) (bs : List Nat) : (parseHex k bs).2.length ≤ bs.length := by
  have := parseHexLoop_length k bs 0
  unfold parseHex
  split <;> (rename_i h; rw [h] at this; exact this)

theorem escape_length (b : Nat) (rest : List Nat) : (escape b rest).2.length ≤ rest.length := by
  unfold escape
  split
  · exact Nat.le_refl _
  · split
    · exact Nat.le_refl _
    · split
      · split
        · simp
        · exact Nat.le_refl _
      · split
        · exact parseHex_length 4 rest
        · split
          · exact parseHex_length 8 rest
          · split
            · exact parseHex_length 2 rest
            · split
              · exact Nat.le_refl _
              · split <;> simp

/-- The loop of `PythonString::from_literal`, strings.rs 44-131, and the final push (132-134).
`string` is the string built so far (`none`: nothing had to be replaced), `pending` is
`inner[previous_insert..i]`.  A slice panics if it does not begin at a character boundary; the bytes `\` and
`\r` are always boundaries. -/
def loop (string : Option (List Nat)) (pending : List Nat) : List Nat → Except Fail (List Nat)
  | [] =>
    match string with
    | some s => if boundary pending then .ok (s ++ pending) else .error .panic
    | none => .ok pending
  | ch :: rest =>
    if ch = 92 then
      if boundary (pending ++ ch :: rest) then
        let s := string.getD [] ++ pending
        match rest with
        | [] => .ok (s ++ pending ++ [ch])   -- `break` with the old `previous_insert`
        | b :: rest => loop (some (s ++ (escape b rest).1)) [] (escape b rest).2
      else .error .panic
    else if ch = 13 then
      if boundary (pending ++ ch :: rest) then
        let s := string.getD [] ++ pending
        loop (some (if rest.head? = some 10 then s else s ++ [10])) [] rest
      else .error .panic
    else loop string (pending ++ [ch]) rest
termination_by bs => bs.length
decreasing_by
  all_goals simp_wf
  · have := escape_length b rest; omega

/-- `remove_carriage_returns_from_raw_literal`, strings.rs 142-168, on characters. -/
def removeCarriageReturns : List Char → List Char
  | [] => []
  | c :: cs =>
    if c = '\r' then
      if cs.head? = some '\n' then removeCarriageReturns cs else '\n' :: removeCarriageReturns cs
    else c :: removeCarriageReturns cs

/-- `UnpackedLiteral`, strings.rs 237-241; offsets are replaced by the text itself. -/
structure Unpacked where
  inner : List Char
  raw : Bool
deriving DecidableEq, Repr

/-- `unpack_string_or_bytes_content`, strings.rs 243-272.  `none` is the panic of the slice.  (Prefixes and
quotes are ASCII, so characters and bytes agree up to the quote; `byte_iterator.len() > 3` counts bytes.) -/
def unpack (raw : Bool) : List Char → Option Unpacked
  | [] => none
  | c :: cs =>
    if c = 'r' ∨ c = 'R' then unpack true cs
    else if c = '\'' ∨ c = '"' then
      let stop := fun (n : Nat) (cs : List Char) =>
        if n ≤ cs.length then some (Unpacked.mk (cs.take (cs.length - n)) raw) else none
      if (encode cs).length > 3 then
        match cs with
        | second :: third :: rest => if second = c ∧ third = c then stop 3 rest else stop 1 cs
        | _ => stop 1 cs
      else stop 1 cs
    else unpack raw cs

/-- The value of a single literal that is no f-string, as bytes; `from_literal`, strings.rs 29-140. -/
def fromLiteral (u : Unpacked) : Except Fail (List Nat) :=
  if u.raw then .ok (encode (removeCarriageReturns u.inner)) else loop none [] (encode u.inner)

/-- `PythonString`, strings.rs 10-15. -/
inductive PythonString where
  | ref (start : Nat) (s : List Nat)
  | string (start : Nat) (s : List Nat)
  | fstring
deriving DecidableEq, Repr

/-- `union`, strings.rs 170-184. -/
def PythonString.union (self other : PythonString) : PythonString :=
  match other with
  | .ref _ s2 | .string _ s2 =>
    match self with
    | .ref start s1 | .string start s1 => .string start (s1 ++ s2)
    | .fstring => .fstring
  | .fstring => .fstring

/-- `as_str`, strings.rs 186-192. -/
def PythonString.asStr : PythonString → Option (List Nat)
  | .ref _ s | .string _ s => some s
  | .fstring => none

/-- `PythonString::new`, strings.rs 18-27, after `from_literal`; `none` is the panic of `unwrap`. -/
def PythonString.new : List PythonString → Option PythonString
  | [] => none
  | s :: rest => some (rest.foldl PythonString.union s)

/-- The match on the byte behind a backslash in `parse_python_bytes_literal`, bytes.rs 28-58: what is pushed,
by how much `previous_insert` exceeds `i + 2`, and the rest of the iterator. -/
def bytesEscape (b : Nat) (rest : List Nat) : List Nat × Nat × List Nat :=
  match simpleEscape b with
  | some x => ([x], 0, rest)
  | none =>
    if b = 10 then ([], 0, rest)
    else if b = 120 then
      match parseHex 2 rest with
      | (some c, rest) => ([c.toNat % 256], 2, rest)
      | (none, rest) => ([], 0, rest)
    else
      match parseOctal (b :: rest) with
      | some (len, octal) => ([octal % 256], len - 1, rest.drop (len - 1))
      | none => ([92, b], 0, rest)

theorem bytesEscape_length (b : Nat) (rest : List Nat) : (bytesEscape b rest).2.2.length ≤ rest.length := by
  unfold bytesEscape
  split
  · exact Nat.le_refl _
  · split
    · exact Nat.le_refl _
    · split
      · have := parseHex_length 2 rest
        split <;> (rename_i h; rw [h] at this; exact this)
      · split <;> simp

/-- The loop of `parse_python_bytes_literal`, bytes.rs 17-60, and the final push (61-66).  Here offsets are kept:
`inner` is the whole list, `i` the offset of the iterator and `prev` is `previous_insert`.  Slices panic if
`prev` is behind their end. -/
def bytesLoop (inner : List Nat) (out : Option (List Nat)) (prev i : Nat) : List Nat → Except Fail (List Nat)
  | [] =>
    match out with
    | some s => if prev ≤ inner.length then .ok (s ++ inner.drop prev) else .error .panic
    | none => .ok inner
  | ch :: rest =>
    if ch = 92 then
      if prev ≤ i then
        let s := out.getD [] ++ (inner.drop prev).take (i - prev)
        match rest with
        | [] => .error .panic
        | b :: rest' =>
          let r := bytesEscape b rest'
          bytesLoop inner (some (s ++ r.1)) (i + 2 + r.2.1) (i + 2 + (rest'.length - r.2.2.length)) r.2.2
      else .error .panic
    else bytesLoop inner out prev (i + 1) rest
termination_by bs => bs.length
decreasing_by
  all_goals simp_wf
  · have := bytesEscape_length b rest'; omega

/-- `parse_python_bytes_literal`, bytes.rs 7-67. -/
def bytesLiteral (u : Unpacked) : Except Fail (List Nat) :=
  if u.raw then .ok (encode u.inner) else bytesLoop (encode u.inner) none 0 0 (encode u.inner)

/-- `char::is_control`: the category Cc. -/
def isControl (c : Char) : Bool := decide (c.toNat < 32) || (decide (127 ≤ c.toNat) && decide (c.toNat < 160))

/-- `{:02x}` of a byte. -/
def hex2 (b : Nat) : List Char := [Nat.digitChar (b / 16 % 16), Nat.digitChar (b % 16)]

/-- The body of the loop in `str_repr`, utils.rs 161-175. -/
def strReprChar (c : Char) : List Char :=
  if isControl c then
    if c = '\n' then ['\\', 'n']
    else if c = '\r' then ['\\', 'r']
    else if c = '\t' then ['\\', 't']
    else '\\' :: 'x' :: hex2 c.toNat
  else if c = '\\' then ['\\', '\\']
  else [c]

/-- `str_repr`, utils.rs 155-178. -/
def strRepr (s : List Char) : List Char := '\'' :: s.flatMap strReprChar ++ ['\'']

/-- The body of the loop in `bytes_repr`, utils.rs 142-150. -/
def bytesReprByte (b : Nat) : List Char :=
  if b = 9 then ['\\', 't']
  else if b = 10 then ['\\', 'n']
  else if b = 13 then ['\\', 'r']
  else if b = 92 then ['\\', '\\']
  else if 32 ≤ b ∧ b < 127 then [Char.ofNat b]
  else '\\' :: 'x' :: hex2 b

/-- `bytes_repr`, utils.rs 139-153. -/
def bytesRepr (s : List Nat) : List Char := 'b' :: '\'' :: s.flatMap bytesReprByte ++ ['\'']

end Verif.Strings
