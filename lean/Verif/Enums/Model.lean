/-!
# Enums (model)

Models which names of an enum class are members, aliases or ordinary attributes
(`crates/zuban_python/src/file/type_computation/class.rs`), the lookup of members
(`type_/enum_.rs`) and the names of enums that are made by a call
(`file/type_computation/enum_.rs`).

Simplified: nodes are their indexes, names are lists of characters, and an expression is what the
code distinguishes of it. Inference of values is left out.
-/

namespace Verif.Enums

abbrev Name := List Char

/-- The classes that the code knows by name if a right side is a call, class.rs 1467-1491. -/
inductive Callee where
  | nonmember | member | classMethod | staticMethod | other
  deriving DecidableEq, Repr

/-- The right side of an assignment, class.rs 1459-1517. -/
inductive Rhs where
  | lambda
  | call (c : Callee)
  /-- A name alone; `inClass` if it is defined in the body of the class (class.rs 1494-1504). -/
  | ref (n : Name) (inClass : Bool)
  | other
  deriving DecidableEq, Repr

/-- A decorator: `enum.member`, `enum.nonmember`, another class like `property`, or something
that is not a class. -/
inductive Dec where
  | member | nonmember | cls | func
  deriving DecidableEq, Repr

/-- What defines a name. -/
inductive Stmt where
  /-- `x = ...`, or `x: int` without a right side -/
  | assign (rhs : Option Rhs)
  | func (decs : List Dec)
  | cls (decs : List Dec)
  /-- `x, y = ...`, `import x`, `for x in ...` -/
  | bind
  deriving DecidableEq, Repr

/-- A name of the class, with the index of its node. -/
structure Entry where
  index : Nat
  name : Name
  stmt : Stmt
  deriving DecidableEq, Repr

/-- The test of names, class.rs 1329. -/
def skipped (n : Name) : Bool :=
  ['_'].isPrefixOf n && (['_'].isSuffixOf n || ['_', '_'].isPrefixOf n)

/-- The closure `search_decorated_for`, class.rs 1350-1373: the first decorator that is a class
decides. -/
def decorated (against : Dec) : List Dec → Bool
  | [] => false
  | .func :: ds => decorated against ds
  | d :: _ => d == against

/-- What becomes of a name. -/
inductive Verdict where
  | skip | member | alias (n : Name)
  deriving DecidableEq, Repr

/-- `maybe_valid_enum_member_assignment`, class.rs 1451-1520. The classes `member` and `nonmember`
are there since Python 3.11, and without them no call is looked at. -/
def assignment (minor : Nat) : Option Rhs → Verdict
  | none => .skip
  | some .lambda => .skip
  | some (.call c) =>
    if 11 ≤ minor then
      match c with
      | .nonmember => .skip
      | .member => .member
      | .classMethod => .skip
      | .staticMethod => .skip
      | .other => .member
    else .member
  | some (.ref n inClass) => if inClass then .alias n else .member
  | some .other => .member

/-- The body of the second loop of `enum_members`, class.rs 1374-1447. -/
def verdict (minor : Nat) : Stmt → Verdict
  | .func decs => if 11 ≤ minor ∧ decorated .member decs then .member else .skip
  | .assign rhs => assignment minor rhs
  | .cls decs => if 11 ≤ minor ∧ decorated .nonmember decs then .skip else .member
  | .bind => .member

/-- The members and the aliases of an enum. -/
structure Enum where
  members : List Name
  aliases : List (Name × Name)
  deriving DecidableEq, Repr

/-- The second loop of `enum_members`, class.rs 1374-1447. -/
def collect (minor : Nat) : List Entry → Enum
  | [] => ⟨[], []⟩
  | e :: es =>
    let rest := collect minor es
    match verdict minor e.stmt with
    | .skip => rest
    | .member => { rest with members := e.name :: rest.members }
    | .alias n => { rest with aliases := (e.name, n) :: rest.aliases }

/-- `enum_members`, class.rs 1322-1449. The symbol table is a hash map, so the names come in any
order and are sorted by the indexes of their nodes. -/
def enumMembers (minor : Nat) (table : List Entry) : Enum :=
  collect minor ((table.filter fun e => !skipped e.name).mergeSort fun a b => a.index ≤ b.index)

/-- `Enum::lookup`, type_/enum_.rs 213-220. -/
def Enum.lookup (e : Enum) (n : Name) : Option Nat := e.members.findIdx? (· == n)

/-- `lookup_members_or_aliases_on_enum`, type_/enum_.rs 443-470: the index of the member. -/
def Enum.find (e : Enum) (n : Name) : Option Nat :=
  (e.lookup n).or (e.aliases.findSome? fun (a, target) =>
    if a = n then e.lookup target else none)

/-! ## Enums made by a call -/

/-- `str::split` with the separators `,` and space. -/
def split : List Char → List (List Char)
  | [] => [[]]
  | c :: cs =>
    if c = ',' ∨ c = ' ' then [] :: split cs
    else
      match split cs with
      | [] => [[c]]
      | part :: parts => (c :: part) :: parts

/-- The number of bytes of a text. -/
def bytes (s : List Char) : Nat := (s.map Char.utf8Size).sum

/-- The loop of `split_enum_members`, enum_.rs 315-330: the names with the offsets at which they
begin in the text. -/
def slices : Nat → List (List Char) → List (Nat × Name)
  | _, [] => []
  | start, part :: parts =>
    if part = [] then slices (start + 1) parts
    else (start, part) :: slices (start + bytes part + 1) parts

/-- `EnumMembers::add_member`, enum_.rs 148-168, for all names: the members, and the names that
are reported because they are reused. -/
def addMembers : List Name → List Name → List Name × List Name
  | members, [] => (members, [])
  | members, n :: ns =>
    if n ∈ members then
      let (ms, issues) := addMembers members ns
      (ms, n :: issues)
    else addMembers (members ++ [n]) ns

/-- `split_enum_members`, enum_.rs 307-331. -/
def splitMembers (s : List Char) : List Name × List Name :=
  addMembers [] ((slices 0 (split s)).map (·.2))

end Verif.Enums
