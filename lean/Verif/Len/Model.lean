/-!
# Narrowing by the length of a tuple (model)

Models `crates/zuban_python/src/file/flow_analysis.rs`: what the type checker concludes from
`if len(x) == 3`, `if len(x) < 3`, `if 3 >= len(x)` and the like.

Simplified: the items of tuples are opaque types of a type `E`; a union is the list of its
members; numbers are natural numbers without an upper bound, and a subtraction of `usize` that
would get negative is the error `underflow` (a panic of a debug build; a release build would go on
with a number near 2^64 and run out of memory in `collect`).
-/

namespace Verif.Len

/-- `enum LenNarrowing`, flow_analysis.rs 5537-5544. -/
inductive Kind where
  | equals | greaterThan | lowerThan | greaterEquals | lowerEquals
  deriving DecidableEq, Repr

/-- The comparison operators of Python's grammar that get here, flow_analysis.rs 4172-4262. -/
inductive Operator where
  | eq | ne | gt | lt | ge | le
  deriving DecidableEq, Repr

/-- `LenNarrowing::from_operand`, flow_analysis.rs 5547-5555. The code matches on the text of the
operator and is only called for an ordering; `==` and `!=` use `Equals` (5526-5533). -/
def Kind.fromOperand : Operator → Kind
  | .gt => .greaterThan
  | .lt => .lowerThan
  | .ge => .greaterEquals
  | .le => .lowerEquals
  | .eq => .equals
  | .ne => .equals

/-- `LenNarrowing::invert`, flow_analysis.rs 5557-5565. -/
def Kind.invert : Kind → Kind
  | .equals => .equals
  | .greaterThan => .lowerThan
  | .lowerThan => .greaterThan
  | .greaterEquals => .lowerEquals
  | .lowerEquals => .greaterEquals

/-- `TupleArgs`, type_/tuple.rs: the items of a tuple type. -/
inductive Args (E : Type) where
  /-- `tuple[A, B]` -/
  | fixed (ts : List E)
  /-- `tuple[A, ...]` -/
  | arbitrary (t : E)
  /-- `tuple[A, *tuple[B, ...], C]` -/
  | unpack (before : List E) (middle : E) (after : List E)
  /-- `tuple[A, *Ts, C]` -/
  | typeVarTuple (before : List E) (ts : Nat) (after : List E)
  deriving DecidableEq, Repr

/-- A member of the union that is narrowed, flow_analysis.rs 5584-5608. -/
inductive Part (E : Type) where
  | tuple (args : Args E)
  /-- `Type::NamedTuple`: a named tuple made by a call. -/
  | namedTuple (fields : List E)
  /-- `Type::Class`, with the fields if it has a named tuple as a base class. -/
  | cls (id : Nat) (namedTupleBase : Option (List E))
  | other (id : Nat)
  deriving DecidableEq, Repr

inductive Panic where
  /-- A `usize` subtraction gets negative. -/
  | underflow
  deriving DecidableEq, Repr

/-- `MAX_PRECISE_TUPLE_SIZE`, flow_analysis.rs 65. -/
def maxPrecise : Nat := 8

/-- `matches_fixed_len_tuple_len`, flow_analysis.rs 5630-5639. -/
def matchesLen (len n : Nat) : Kind → Bool
  | .equals => len == n
  | .greaterThan => len > n
  | .lowerThan => len < n
  | .greaterEquals => len ≥ n
  | .lowerEquals => len ≤ n

/-- The closure `lower_than`, flow_analysis.rs 5648-5661: the number, and the flag `invert` that
it sets. -/
def lowerThan (n : Nat) : Kind → Option Nat × Bool
  | .equals => (none, false)
  | .greaterThan => (some (n + 1), true)
  | .lowerThan => (some n, false)
  | .greaterEquals => (some n, true)
  | .lowerEquals => (some (n + 1), false)

/-- A subtraction of two `usize`. -/
def checkedSub (a b : Nat) : Except Panic Nat :=
  if b ≤ a then .ok (a - b) else .error .underflow

/-- `narrow_len_for_tuples`, flow_analysis.rs 5641-5753: the types that it adds if it returns
`true`, and `none` if it returns `false`, in which case the caller keeps the type as it is. -/
def narrowTuple {E : Type} (n : Nat) (args : Args E) (negative : Bool) (kind : Kind) :
    Except Panic (Option (List (Args E))) :=
  match args with
  | .fixed ts =>
    if matchesLen ts.length n kind == negative then .ok (some []) else .ok none
  | .arbitrary t =>
    if n ≤ maxPrecise then
      let (lower, invert) := lowerThan n kind
      match lower with
      | some lower =>
        if lower > 0 then
          if invert == negative then
            .ok (some ((List.range lower).map fun i => .fixed (List.replicate i t)))
          else
            .ok (some [.unpack (List.replicate lower t) t []])
        else if invert == negative then .ok (some [])
        else .ok none
      | none =>
        if negative == invert then .ok (some [.fixed (List.replicate n t)]) else .ok none
    else .ok none
  | .unpack before middle after => do
    let minLen := before.length + after.length
    let (lower, invert) := lowerThan n kind
    if lower.getD (n + 1) ≤ minLen ∧ invert = negative then return some []
    if lower.getD n > maxPrecise then return none
    match lower with
    | some lower =>
      if invert == negative then
        let count ← checkedSub lower minLen
        return some ((List.range count).map fun i =>
          .fixed (before ++ List.replicate i middle ++ after))
      else
        let count ← checkedSub lower minLen
        return some [.unpack (before ++ List.replicate count middle) middle after]
    | none =>
      if negative then return none
      else
        let count ← checkedSub n minLen
        return some [.fixed (before ++ List.replicate count middle ++ after)]
  | .typeVarTuple before _ after =>
    let minLen := before.length + after.length
    let (lower, invert) := lowerThan n kind
    if lower.getD (n + 1) ≤ minLen ∧ invert = negative then .ok (some [])
    else .ok none

/-- The body of the loop of the closure `retain`, flow_analysis.rs 5584-5608. -/
def retainPart {E : Type} (n : Nat) (negative : Bool) (kind : Kind) (part : Part E) :
    Except Panic (List (Part E)) :=
  match part with
  | .tuple args => do
    match ← narrowTuple n args negative kind with
    | some ts => return ts.map .tuple
    | none => return [part]
  | .namedTuple fields =>
    if matchesLen fields.length n kind == negative then .ok [] else .ok [part]
  | .cls _ (some fields) =>
    if matchesLen fields.length n kind == negative then .ok [] else .ok [part]
  | .cls _ none => .ok [part]
  | .other _ => .ok [part]

/-- The closure `retain`, flow_analysis.rs 5582-5612. -/
def retain {E : Type} (n : Nat) (negative : Bool) (kind : Kind) :
    List (Part E) → Except Panic (List (Part E))
  | [] => .ok []
  | part :: parts => do
    let first ← retainPart n negative kind part
    let rest ← retain n negative kind parts
    return first ++ rest

/-- `narrow_len`, flow_analysis.rs 5567-5621: the types of the two branches. There is nothing to
conclude if the number is negative (`n.try_into()` fails). -/
def narrowLen {E : Type} (parts : List (Part E)) (n : Int) (kind : Kind) :
    Except Panic (Option (List (Part E) × List (Part E))) :=
  if n < 0 then .ok none
  else do
    let truthy ← retain n.toNat false kind parts
    let falsey ← retain n.toNat true kind parts
    return some (truthy, falsey)

/-- `find_guards_in_comparisons` for one comparison of `len(x)` with a literal,
flow_analysis.rs 4172-4276: `len(x) op n`, or `n op len(x)` if `swapped`. `!=` swaps the branches
(4191-4194, 4268-4270). -/
def guard {E : Type} (parts : List (Part E)) (op : Operator) (n : Int) (swapped : Bool) :
    Except Panic (Option (List (Part E) × List (Part E))) :=
  let kind := Kind.fromOperand op
  let kind := if swapped then kind.invert else kind
  do
    let some (truthy, falsey) ← narrowLen parts n kind | return none
    if op = .ne then return some (falsey, truthy) else return some (truthy, falsey)

end Verif.Len
