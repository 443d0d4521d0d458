/-! # Conditions that are known before the program runs

`is_expr_part_reachable_for_name_binder` and the functions around it,
crates/zuban_python/src/file/name_binder.rs 1903-2237: whether a condition about the Python version,
the platform or `TYPE_CHECKING` is true, and what is done with the branches of an `if` statement.

Simplified: everything in a condition that these functions do not look at is `other`, with a number
to tell such expressions apart.  Numbers are parsed already; strings are compared as a whole. -/

namespace Verif.Reach

/-- `usize::MAX + 1` on a machine with 64 bits. -/
def word : Nat := 2 ^ 64

/-- The settings and flags that are looked at: `python_version_or_default`, `computed_platform`,
crates/config/src/lib.rs 145-163, `always_true_symbols` and `always_false_symbols`. -/
structure Settings where
  major : Nat
  minor : Nat
  platform : String
  alwaysTrue : List String := []
  alwaysFalse : List String := []

/-- An expression that is an integer, or not. -/
inductive Elem where
  | int (n : Nat)
  | other (k : Nat)
deriving DecidableEq

/-- `ComparisonContent`, parsa_python_cst/src/lib.rs 3920-3954; `other` is `is`, `is not`, `in` and
`not in`. -/
inductive Op where
  | eq | ne | lt | gt | le | ge | other
deriving DecidableEq

/-- A side of a comparison. -/
inductive Part where
  /-- `sys.version_info` -/
  | version
  /-- `sys.version_info[first:upper]`, with a third part if `step`. -/
  | slice (first upper : Option Elem) (step : Bool)
  /-- `sys.version_info[i]` -/
  | item (i : Elem)
  /-- `sys.platform` -/
  | platform
  | str (s : String)
  | int (n : Nat)
  | tuple (es : List Elem)
  | other (k : Nat)
deriving DecidableEq

/-- A condition. -/
inductive Cond where
  | name (x : String)
  /-- `typing.TYPE_CHECKING` -/
  | typing
  /-- `sys.platform.startswith(..)`, with a single string or something else. -/
  | startswith (arg : Option String)
  | paren (c : Cond)
  | compare (left : Part) (op : Op) (right : Part)
  | not (c : Cond)
  | and (a b : Cond)
  | or (a b : Cond)
  | other (k : Nat)

/-- `Truthiness`, name_binder.rs 1903-1908. -/
inductive Truth where
  | yes (typeChecking : Bool)
  | no
  | unknown
deriving DecidableEq

/-- `From<bool>`, name_binder.rs 1910-1919. -/
def Truth.ofBool : Bool → Truth
  | false => .no
  | true => .yes false

/-- `BitAnd`, name_binder.rs 1921-1939. -/
def Truth.and : Truth → Truth → Truth
  | .yes a, .yes b => .yes (a || b)
  | .no, _ | _, .no => .no
  | _, _ => .unknown

/-- `BitOr`, name_binder.rs 1941-1954. -/
def Truth.or : Truth → Truth → Truth
  | .yes _, .yes _ => .yes false
  | .yes a, _ => .yes a
  | _, .yes b => .yes b
  | .no, .no => .no
  | _, _ => .unknown

/-- `invert`, name_binder.rs 1956-1966. -/
def Truth.invert : Truth → Truth
  | .yes _ => .no
  | .no => .yes false
  | .unknown => .unknown

/-- `check_operand_against_total_order`, name_binder.rs 2094-2110. -/
def checkOrder (op : Op) (o : Ordering) : Option Bool :=
  match op with
  | .eq => some (o == .eq)
  | .ne => some (o != .eq)
  | .lt => some (o == .lt)
  | .gt => some (o == .gt)
  | .le => some (o != .gt)
  | .ge => some (o != .lt)
  | .other => none

/-- The result of a comparison. -/
def decideOrder (op : Op) (o : Ordering) : Truth :=
  match checkOrder op o with
  | some b => .ofBool b
  | none => .unknown

/-- The loop of `python_version_matches_tuple`, name_binder.rs 2029-2053, over the pairs of `zip`;
`none` returns early because nothing is known. -/
def tupleOrder : List Nat → List Elem → Option Ordering
  | c :: cs, .int n :: es =>
    if word ≤ n then none
    else
      match Ord.compare c n with
      | .eq => tupleOrder cs es
      | o => some o
  | _ :: _, .other _ :: _ => none
  | _, _ => some .eq

/-- `python_version_matches_tuple`, name_binder.rs 2016-2064.  `none` is a panic: the sum
overflows, or wraps around in a release build, where the slice is out of range then. -/
def versionTuple (s : Settings) (op : Op) (right : Part) (start : Nat) : Option Truth :=
  match right with
  | .tuple es =>
    if word ≤ es.length + start then none
    else if es.length + start > 2 then some .unknown
    else
      match tupleOrder ([s.major, s.minor].drop start) es with
      | some o => some (decideOrder op o)
      | none => some .unknown
  | _ => some .unknown

/-- `check_comparison_reachability`, name_binder.rs 1968-2014, and `python_version_matches_slice`,
name_binder.rs 2066-2092. -/
def checkComparison (s : Settings) (op : Op) (check right : Part) : Option Truth :=
  match check with
  | .platform =>
    match op, right with
    | .eq, .str x => some (.ofBool (x == s.platform))
    | .ne, .str x => some (.ofBool (!(x == s.platform)))
    | _, _ => some .unknown
  | .version => versionTuple s op right 0
  | .slice first _ step =>
    if step then some .unknown
    else
      match first with
      | none => versionTuple s op right 0
      | some (.int n) => if word ≤ n then some .unknown else versionTuple s op right n
      | some (.other _) => some .unknown
  | .item (.int 0) =>
    match right with
    | .int n => if word ≤ n then some .unknown else some (decideOrder op (Ord.compare s.major n))
    | _ => some .unknown
  | _ => some .unknown

/-- `is_expr_part_reachable_for_name_binder`, name_binder.rs 2156-2237, with
`maybe_sys_platform_startswith`, name_binder.rs 2120-2142. -/
def decideCond (s : Settings) : Cond → Option Truth
  | .name x =>
    if x = "MYPY" ∨ x = "TYPE_CHECKING" then some (.yes true)
    else if x = "PY3" ∨ x ∈ s.alwaysTrue then some (.yes false)
    else if x = "PY2" ∨ x ∈ s.alwaysFalse then some .no
    else some .unknown
  | .typing => some (.yes true)
  | .startswith (some x) => some (.ofBool (x.toList.isPrefixOf s.platform.toList))
  | .startswith none => some .unknown
  | .paren c => decideCond s c
  | .compare left op right =>
    match checkComparison s op left right with
    | some .unknown => checkComparison s op right left
    | r => r
  | .not c => (decideCond s c).map .invert
  | .and a b => do
    let x ← decideCond s a
    let y ← decideCond s b
    some (x.and y)
  | .or a b => do
    let x ← decideCond s a
    let y ← decideCond s b
    some (x.or y)
  | .other _ => some .unknown

/-! ## `if` statements -/

/-- What the name binder remembers about a branch, database.rs 499-502. -/
inductive Mark where
  | always (typeChecking : Bool)
  | never
  | after
  | open
deriving DecidableEq

/-- A branch: the condition of `if` or `elif`, or `else`. -/
abbrev Branch := Option Cond

/-- `index_if_stmt`, name_binder.rs 833-885: the mark of every branch. -/
def markBranches (s : Settings) : List Branch → Option (List Mark)
  | [] => some []
  | none :: bs => (markBranches s bs).map (.open :: ·)
  | some c :: bs => do
    match ← decideCond s c with
    | .yes t => some (.always t :: bs.map fun _ => .after)
    | .no => (markBranches s bs).map (.never :: ·)
    | .unknown => (markBranches s bs).map (.open :: ·)

/-- The branches whose names are bound, name_binder.rs 833-885. -/
def bound : List Mark → List Bool
  | [] => []
  | .always _ :: ms | .open :: ms => true :: bound ms
  | .never :: ms | .after :: ms => false :: bound ms

/-- The branches that are checked: `process_ifs`, flow_analysis.rs 2251-2305.  After an open branch
the other branches are checked as well. -/
def checked : List Mark → List Bool
  | [] => []
  | .after :: ms => false :: checked ms
  | .always _ :: ms => true :: checked ms
  | .never :: ms => false :: checked ms
  | .open :: ms => true :: checked ms

/-- The branches in which the members of a `TypedDict` or `NamedTuple` are looked for, and the
statements of functions without annotations:
`for_each_reachable_if_stmt_block_and_return_reachability_always_known`, file/utils.rs 942-976. -/
def visited : List Mark → List Bool
  | [] => []
  | .always _ :: ms => true :: visited ms
  | .never :: ms | .after :: ms => false :: ms.map fun _ => false
  | .open :: ms => true :: visited ms

end Verif.Reach
