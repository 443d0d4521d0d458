import Verif.Reach.Model

/-! # What Python does

The value of a condition when the program runs, see "Comparisons" in the Python reference: tuples are
compared from left to right, and a tuple is less than a longer one that begins with it. -/

namespace Verif.Reach

/-- A run of the program. -/
structure Run where
  /-- `sys.version_info` -/
  version : List Nat
  platform : String
  name : String → Option Bool
  typing : Option Bool
  elem : Nat → Nat
  /-- All other conditions; they may also fail. -/
  cond : Nat → Option Bool
  startswith : Option Bool
  compare : Part → Op → Part → Option Bool

/-- The order of tuples. -/
def lex : List Nat → List Nat → Ordering
  | [], [] => .eq
  | [], _ :: _ => .lt
  | _ :: _, [] => .gt
  | a :: as, b :: bs => if a < b then .lt else if b < a then .gt else lex as bs

/-- Whether two things in this order are `op`. -/
def holds : Op → Ordering → Option Bool
  | .eq, o => some (o = .eq)
  | .ne, o => some (o ≠ .eq)
  | .lt, o => some (o = .lt)
  | .gt, o => some (o = .gt)
  | .le, o => some (o = .lt ∨ o = .eq)
  | .ge, o => some (o = .gt ∨ o = .eq)
  | .other, _ => none

def Elem.value (r : Run) : Elem → Nat
  | .int n => n
  | .other k => r.elem k

/-- The values that matter. -/
inductive Val where
  | tup (ns : List Nat)
  | int (n : Nat)
  | str (s : String)

/-- The value of a side, `none` if it is none of those. -/
def Part.value (r : Run) : Part → Option Val
  | .version => some (.tup r.version)
  | .slice first upper false =>
    let v := match upper with
      | some u => r.version.take (u.value r)
      | none => r.version
    some (.tup (match first with
      | some f => v.drop (f.value r)
      | none => v))
  | .slice _ _ true => none
  | .item i => (r.version[i.value r]?).map .int
  | .platform => some (.str r.platform)
  | .str s => some (.str s)
  | .int n => some (.int n)
  | .tuple es => some (.tup (es.map (Elem.value r)))
  | .other _ => none

/-- The value of a comparison. -/
def comparison (r : Run) (a : Part) (op : Op) (b : Part) : Option Bool :=
  if op = .other then r.compare a op b
  else
    match a.value r, b.value r with
    | some (.tup x), some (.tup y) => holds op (lex x y)
    | some (.int x), some (.int y) =>
      holds op (if x < y then .lt else if y < x then .gt else .eq)
    | some (.str x), some (.str y) =>
      match op with
      | .eq => some (x = y)
      | .ne => some (x ≠ y)
      | _ => r.compare a op b
    | _, _ => r.compare a op b

/-- The value of a condition, `none` if it fails. -/
def Cond.value (r : Run) : Cond → Option Bool
  | .name x => r.name x
  | .typing => r.typing
  | .startswith (some x) => some (decide (x.toList <+: r.platform.toList))
  | .startswith none => r.startswith
  | .paren c => c.value r
  | .compare a op b => comparison r a op b
  | .not c => (c.value r).map fun b => !b
  | .and a b => (a.value r).bind fun x => if x then b.value r else some false
  | .or a b => (a.value r).bind fun x => if x then some true else b.value r
  | .other k => r.cond k

/-- A run that the type checker should expect: the version has the configured beginning and more
after it, the names have the configured values. -/
structure Fits (s : Settings) (r : Run) : Prop where
  version : ∃ extra, extra ≠ [] ∧ r.version = s.major :: s.minor :: extra
  platform : r.platform = s.platform
  checking : r.name "MYPY" = some true ∧ r.name "TYPE_CHECKING" = some true ∧ r.typing = some true
  three : r.name "PY3" = some true
  yes : ∀ x ∈ s.alwaysTrue, r.name x = some true
  no : ∀ x, x = "PY2" ∨ x ∈ s.alwaysFalse → x ≠ "MYPY" → x ≠ "TYPE_CHECKING" → x ≠ "PY3" →
    x ∉ s.alwaysTrue → r.name x = some false

/-- The branch of an `if` statement that runs. -/
def executed (r : Run) : List Branch → Option Nat
  | [] => none
  | none :: _ => some 0
  | some c :: bs =>
    match c.value r with
    | none => none
    | some true => some 0
    | some false => (executed r bs).map (· + 1)

/-- Comparisons of `sys.version_info` or a slice of it with a tuple that are covered: `<` and `>=`,
or others with as many elements as the slice has. -/
def SliceFair (first upper : Option Elem) (op : Op) (len : Nat) : Prop :=
  match first, upper with
  | some (.other _), _ => True
  | _, some (.other _) => False
  | none, none | some (.int _), none => op = .lt ∨ op = .ge
  | none, some (.int u) => len ≤ u ∧ (op = .lt ∨ op = .ge ∨ len = u)
  | some (.int l), some (.int u) => l + len ≤ u ∧ (op = .lt ∨ op = .ge ∨ l + len = u)

/-- The comparisons that are covered; the version is on the left, except for `==` and `!=`. -/
def CompareFair : Part → Op → Part → Prop
  | .version, op, .tuple _ => op = .lt ∨ op = .ge
  | .slice first upper false, op, .tuple es => SliceFair first upper op es.length
  | .tuple _, _, .version => False
  | .tuple es, op, .slice first upper false =>
    (op = .eq ∨ op = .ne) ∧ SliceFair first upper op es.length
  | .int _, op, .item _ => op = .eq ∨ op = .ne
  | _, _, _ => True

/-- The conditions that are covered. -/
def Cond.Fair : Cond → Prop
  | .paren c | .not c => c.Fair
  | .and a b | .or a b => a.Fair ∧ b.Fair
  | .compare a op b => CompareFair a op b
  | _ => True

end Verif.Reach
