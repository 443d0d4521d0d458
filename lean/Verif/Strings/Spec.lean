/-!
# Python string literals

From the Python reference, "String and Bytes literals" and "Escape sequences".  The values of strings are lists of
code points, those of bytes are lists of numbers below 256.
-/

namespace Verif.Strings.Spec

/-- Universal newlines: `\r\n` and `\r` in the source are `\n`. -/
def universal : List Char → List Char
  | '\r' :: '\n' :: cs => '\n' :: universal cs
  | '\r' :: cs => '\n' :: universal cs
  | c :: cs => c :: universal cs
  | [] => []

/-- The value of a digit. -/
def digit (c : Char) : Option Nat :=
  if '0' ≤ c ∧ c ≤ '9' then some (c.toNat - '0'.toNat)
  else if 'a' ≤ c ∧ c ≤ 'f' then some (c.toNat - 'a'.toNat + 10)
  else if 'A' ≤ c ∧ c ≤ 'F' then some (c.toNat - 'A'.toNat + 10)
  else none

/-- All characters are digits of the base. -/
def Digits (base : Nat) (ds : List Char) : Prop := ∀ d ∈ ds, ∃ k, digit d = some k ∧ k < base

/-- The number denoted by digits. -/
def number (base : Nat) (ds : List Char) : Nat := ds.foldl (fun n d => n * base + (digit d).getD 0) 0

/-- The escapes that stand for one character. -/
def single : List (Char × Nat) :=
  [('\\', 92), ('\'', 39), ('"', 34), ('a', 7), ('b', 8), ('f', 12), ('n', 10), ('r', 13), ('t', 9), ('v', 11)]

/-- The body (after `universal`) of a string literal denotes a list of code points.
`names` gives the characters of `\N{…}`. -/
inductive Body (names : List Char → Option Nat) : List Char → List Nat → Prop
  | nil : Body names [] []
  | plain {c cs v} : c ≠ '\\' → Body names cs v → Body names (c :: cs) (c.toNat :: v)
  | newline {cs v} : Body names cs v → Body names ('\\' :: '\n' :: cs) v
  | single {e x cs v} : (e, x) ∈ single → Body names cs v → Body names ('\\' :: e :: cs) (x :: v)
  | octal {ds cs v} : ds ≠ [] → ds.length ≤ 3 → Digits 8 ds →
      (ds.length = 3 ∨ ∀ c, cs.head? = some c → ¬ Digits 8 [c]) → Body names cs v →
      Body names ('\\' :: ds ++ cs) (number 8 ds :: v)
  | hex2 {ds cs v} : ds.length = 2 → Digits 16 ds → Body names cs v → Body names ('\\' :: 'x' :: ds ++ cs) (number 16 ds :: v)
  | hex4 {ds cs v} : ds.length = 4 → Digits 16 ds → Body names cs v → Body names ('\\' :: 'u' :: ds ++ cs) (number 16 ds :: v)
  | hex8 {ds cs v} : ds.length = 8 → Digits 16 ds → number 16 ds ≤ 0x10FFFF → Body names cs v →
      Body names ('\\' :: 'U' :: ds ++ cs) (number 16 ds :: v)
  | named {n x cs v} : '}' ∉ n → names n = some x → Body names cs v →
      Body names ('\\' :: 'N' :: '{' :: n ++ '}' :: cs) (x :: v)
  | unknown {c cs v} : (∀ x, (c, x) ∉ Spec.single) → c ≠ '\n' → c ∉ ['x', 'u', 'U', 'N'] → ¬ Digits 8 [c] → Body names cs v →
      Body names ('\\' :: c :: cs) ('\\'.toNat :: c.toNat :: v)

/-- The body (after `universal`) of a bytes literal denotes a list of bytes.  Only ASCII characters are allowed. -/
inductive BytesBody : List Char → List Nat → Prop
  | nil : BytesBody [] []
  | plain {c cs v} : c ≠ '\\' → c.toNat < 128 → BytesBody cs v → BytesBody (c :: cs) (c.toNat :: v)
  | newline {cs v} : BytesBody cs v → BytesBody ('\\' :: '\n' :: cs) v
  | single {e x cs v} : (e, x) ∈ single → BytesBody cs v → BytesBody ('\\' :: e :: cs) (x :: v)
  | octal {ds cs v} : ds ≠ [] → ds.length ≤ 3 → Digits 8 ds →
      (ds.length = 3 ∨ ∀ c, cs.head? = some c → ¬ Digits 8 [c]) → BytesBody cs v →
      BytesBody ('\\' :: ds ++ cs) (number 8 ds % 256 :: v)
  | hex2 {ds cs v} : ds.length = 2 → Digits 16 ds → BytesBody cs v → BytesBody ('\\' :: 'x' :: ds ++ cs) (number 16 ds :: v)
  | unknown {c cs v} : c.toNat < 128 → (∀ x, (c, x) ∉ Spec.single) → c ≠ '\n' → c ≠ 'x' → ¬ Digits 8 [c] → BytesBody cs v →
      BytesBody ('\\' :: c :: cs) ('\\'.toNat :: c.toNat :: v)

/-- A body that can stand between quotes `q`: every `q` and newline is escaped. -/
inductive Closed (q : Char) : List Char → Prop
  | nil : Closed q []
  | plain {c cs} : c ≠ q → c ≠ '\\' → c ≠ '\n' → c ≠ '\r' → Closed q cs → Closed q (c :: cs)
  | escaped {c cs} : Closed q cs → Closed q ('\\' :: c :: cs)

/-- Every backslash is followed by a character, and every escape of `widths` by as many hexadecimal digits as it
needs. -/
inductive Complete (widths : List (Char × Nat)) : List Char → Prop
  | nil : Complete widths []
  | plain {c cs} : c ≠ '\\' → Complete widths cs → Complete widths (c :: cs)
  | escaped {c cs} : (∀ n, (c, n) ∉ widths) → Complete widths cs → Complete widths ('\\' :: c :: cs)
  | hex {c n ds cs} : (c, n) ∈ widths → ds.length = n → Digits 16 ds → Complete widths cs → Complete widths ('\\' :: c :: ds ++ cs)

end Verif.Strings.Spec
