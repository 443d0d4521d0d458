/-!
# Operations on literals (model)

Models `crates/zuban_python/src/type_/operations.rs` 873-1133: the type of `1 + 2`, `"a" * 3` and so
on, if both operands are literals.

Simplified: a text is the list of its characters, bytes are a list of numbers.
-/

namespace Verif.Arith

/-- `LiteralValue`, type_/mod.rs 2178-2183. -/
inductive Lit where
  | int (n : Int)
  | str (s : List Char)
  | bytes (b : List Nat)
  | bool (b : Bool)
  deriving DecidableEq

/-- The operators that reach `infer_detailed_operation`, inference.rs 3127. -/
inductive Op where
  | add | sub | mul | div | floordiv | mod | pow | shr | shl | or | and | xor | matmul | compare
  deriving DecidableEq

/-- The errors, `IssueKind`. -/
inductive Issue where
  | divisionByZero
  | negativeShift
  deriving DecidableEq

/-- The result of an operation. -/
inductive Out where
  /-- a literal -/
  | lit (l : Lit)
  | int | float | bytes | literalString
  /-- an issue is added and the type is `Any` -/
  | issue (i : Issue)
  /-- nothing is known: the methods are looked up -/
  | unknown
  /-- a `debug_assert!` does not hold; without it the result is `unknown` -/
  | assertion
  /-- the multiplication of two `usize` overflows: a panic, or, without overflow checks, a number
  that is too small and the attempt to build a text with more than 2^64 bytes -/
  | overflow
  deriving DecidableEq

/-- `TryFrom<&BigInt> for i64`, and the checks of `checked_add` and so on. -/
def fits (n : Int) : Bool := -(2 ^ 63) ≤ n && n < 2 ^ 63

/-- `checked_…`: the exact result, if it fits. -/
def checked (n : Int) : Option Int := if fits n then some n else none

/-- `py_div_floor`, operations.rs 1098-1106; `/` and `%` of Rust truncate. -/
def pyDivFloor (a b : Int) : Option Int :=
  match checked (Int.tdiv a b) with
  | none => none
  | some q =>
    let r := Int.tmod a b
    if r ≠ 0 ∧ ((r > 0) ≠ (b > 0)) then checked (q - 1) else some q

/-- `py_mod`, operations.rs 1108-1115; `checked_rem` is `None` if the division overflows. -/
def pyMod (a b : Int) : Option Int :=
  match checked (Int.tdiv a b) with
  | none => none
  | some _ =>
    let r := Int.tmod a b
    if r ≠ 0 ∧ ((r > 0) ≠ (b > 0)) then checked (r + b) else some r

/-- The operators of `i64`. -/
def bits (f : BitVec 64 → BitVec 64 → BitVec 64) (a b : Int) : Int :=
  (f (BitVec.ofInt 64 a) (BitVec.ofInt 64 b)).toInt

/-- The end of `int_operations`, operations.rs 1087-1095. -/
def orInt (n : Option Int) : Out :=
  match n with
  | some n => .lit (.int n)
  | none => .int

/-- The number fits in a `u32`. -/
def fitsU32 (n : Int) : Bool := 0 ≤ n && n < 2 ^ 32

/-- `int_operations`, operations.rs 1005-1096. -/
def intOp (l : Int) (op : Op) (r : Int) : Out :=
  match op with
  | .add => orInt (checked (l + r))
  | .sub => orInt (checked (l - r))
  | .mul => orInt (checked (l * r))
  | .div => if r = 0 then .issue .divisionByZero else .float
  | .floordiv => if r = 0 then .issue .divisionByZero else orInt (pyDivFloor l r)
  | .mod => if r = 0 then .issue .divisionByZero else orInt (pyMod l r)
  | .pow =>
    if fitsU32 r then orInt (checked (l ^ r.toNat))
    else if r ≥ 0 then .int else .float
  | .shr =>
    if fitsU32 r then
      orInt (if r.toNat < 64 then some ((BitVec.ofInt 64 l).sshiftRight r.toNat).toInt else none)
    else if r ≥ 0 then .int else .issue .negativeShift
  | .shl =>
    if fitsU32 r then
      if r > 63 then .unknown else orInt (checked (l * 2 ^ r.toNat))
    else if r ≥ 0 then .int else .issue .negativeShift
  | .or => .lit (.int (bits (· ||| ·) l r))
  | .and => .lit (.int (bits (· &&& ·) l r))
  | .xor => .lit (.int (bits (· ^^^ ·) l r))
  | .matmul => .assertion
  | .compare => .unknown

/-- `bool_operations`, operations.rs 1117-1133. -/
def boolOp (l : Bool) (op : Op) (r : Bool) : Out :=
  match op with
  | .or => .lit (.bool (l || r))
  | .and => .lit (.bool (l && r))
  | .xor => .lit (.bool (l != r))
  | op => intOp (if l then 1 else 0) op (if r then 1 else 0)

/-- `n.try_into().unwrap_or(0)` for a `usize`, operations.rs 964 and 980. -/
def times (n : Int) : Nat := if 0 ≤ n ∧ n < 2 ^ 64 then n.toNat else 0

/-- `str::len`: the number of bytes in UTF-8. -/
def utf8Len (s : List Char) : Nat := (s.map Char.utf8Size).sum

/-- `MAX_STR_BYTES_SIZE_FOR_MULTIPLICATION`, operations.rs 942. -/
def maxSize : Nat := 1024 * 16

/-- The text multiplied by a number, operations.rs 962-977. -/
def repeatStr (s : List Char) (n : Int) : Out :=
  if utf8Len s * times n ≥ 2 ^ 64 then .overflow
  else if utf8Len s * times n > maxSize then .literalString
  else if s.isEmpty then .lit (.str [])
  else .lit (.str (List.replicate (times n) s).flatten)

/-- Bytes multiplied by a number, operations.rs 978-988. -/
def repeatBytes (b : List Nat) (n : Int) : Out :=
  if b.length * times n ≥ 2 ^ 64 then .overflow
  else if b.length * times n > maxSize then .bytes
  else .lit (.bytes (List.replicate (times n) b).flatten)

/-- `LiteralValue::operation` without the last cases, operations.rs 943-988 and 999-1000. -/
def plainOp (l : Lit) (op : Op) (r : Lit) : Out :=
  match l, r with
  | .int l, .int r => if fits l && fits r then intOp l op r else .unknown
  | .str l, .str r => if op = .add then .lit (.str (l ++ r)) else .unknown
  | .bytes l, .bytes r => if op = .add then .lit (.bytes (l ++ r)) else .unknown
  | .str s, .int n => if op = .mul then repeatStr s n else .unknown
  | .int n, .str s => if op = .mul then repeatStr s n else .unknown
  | .bytes b, .int n => if op = .mul then repeatBytes b n else .unknown
  | .int n, .bytes b => if op = .mul then repeatBytes b n else .unknown
  | _, _ => .unknown

/-- `b.into()` for a `BigInt`. -/
def ofBool (b : Bool) : Lit := .int (if b then 1 else 0)

/-- `LiteralValue::operation`, operations.rs 935-1002. -/
def operation (l : Lit) (op : Op) (r : Lit) : Out :=
  match l, r with
  | .bool l, .bool r => boolOp l op r
  | l, .bool b => plainOp l op (ofBool b)
  | .bool b, r => plainOp (ofBool b) op r
  | l, r => plainOp l op r

/-- How often the loop that builds a text runs: `repeat_n(s, n).collect()` adds `n` times and
`repeat_n(b, n).flatten()` begins `n` times with the next slice, operations.rs 964-987. -/
def steps (l : Lit) (op : Op) (r : Lit) : Nat :=
  let str (s : List Char) (n : Int) :=
    if utf8Len s * times n > maxSize ∨ s.isEmpty then 0 else times n
  let bytes (b : List Nat) (n : Int) := if b.length * times n > maxSize then 0 else times n
  let int (b : Bool) : Int := if b then 1 else 0
  if op ≠ .mul then 0
  else
    match l, r with
    | .str s, .int n => str s n
    | .int n, .str s => str s n
    | .bytes b, .int n => bytes b n
    | .int n, .bytes b => bytes b n
    | .str s, .bool n => str s (int n)
    | .bool n, .str s => str s (int n)
    | .bytes b, .bool n => bytes b (int n)
    | .bool n, .bytes b => bytes b (int n)
    | _, _ => 0

end Verif.Arith
