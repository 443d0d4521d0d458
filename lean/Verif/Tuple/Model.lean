import Mathlib.Data.List.Basic
import Mathlib.Data.List.Forall2
import Mathlib.Tactic.Linarith
import Mathlib.Tactic.Ring
import Mathlib.Tactic.Positivity

/-!
# Tuple types: indexing and slicing

Model of `crates/zuban_python/src/type_/tuple.rs`.

Element types are an abstract type `T`; the only thing the soundness theorems
use about them is an arbitrary relation `mem : V → T → Prop` between run-time
values and element types.  A union of element types is represented by the list
of its members (union simplification is the subject of `Verif.Union`).
-/

namespace Verif.Tuple

/-! ## Model -/

/-- `enum TupleUnpack`, tuple.rs 477-480. The `TypeVarTuple` payload is dropped:
`get_item` never looks at it. -/
inductive Unpack (T : Type) where
  | typeVarTuple
  | arbitraryLen (t : T)
deriving DecidableEq

/-- `enum TupleArgs` with `struct WithUnpack` inlined, tuple.rs 505-509, 542-546. -/
inductive Args (T : Type) where
  | fixedLen (ts : List T)
  | arbitraryLen (t : T)
  | withUnpack (before : List T) (unpack : Unpack T) (after : List T)
deriving DecidableEq

/-- `usize::MAX` on a 64-bit target. -/
def usizeMax : Nat := 2 ^ 64 - 1

/-- `usize::try_from(BigInt)` as used in tuple.rs 181-189, 201, 230. -/
def toUsize (i : Int) : Option Nat :=
  if 0 ≤ i ∧ i ≤ usizeMax then some i.toNat else none

/-- What indexing with an integer literal yields: an issue
(`TupleIndexOutOfRange`), the type `object`, or the union of some types. -/
inductive IndexResult (T : Type) where
  | outOfRange
  | object
  | union (ts : List T)
deriving DecidableEq

/-- `Tuple::get_item` for one integer literal, tuple.rs 169-258.
`Type::simplified_union_from_iterators` is represented by the list of members. -/
def getItem {T : Type} (args : Args T) (index : Int) : IndexResult T :=
  match args with
  | .arbitraryLen t => .union [t]
  | .fixedLen ts =>
    match toUsize (if index < 0 then (ts.length : Int) + index else index) with
    | none => .outOfRange
    | some i =>
      match ts[i]? with
      | some t => .union [t]
      | none => .outOfRange
  | .withUnpack before unpack after =>
    if index < 0 then
      let maxLen := after.length + before.length
      match toUsize (-index - 1) with
      | none => .outOfRange
      | some i =>
        if i ≥ maxLen then .outOfRange
        else if i < after.length then
          match after[after.length - i - 1]? with
          | some t => .union [t]
          | none => .outOfRange
        else
          match unpack with
          | .typeVarTuple => .object
          | .arbitraryLen t =>
            .union (((before.reverse.take (i - after.length + 1)).reverse) ++ [t])
    else
      let maxLen := before.length + after.length
      match toUsize index with
      | none => .outOfRange
      | some i =>
        if i ≥ maxLen then .outOfRange
        else if i < before.length then
          match before[i]? with
          | some t => .union [t]
          | none => .outOfRange
        else
          match unpack with
          | .typeVarTuple => .object
          | .arbitraryLen t => .union (t :: after.take (i - before.length + 1))

/-- `Iterator::step_by(k)` for `k ≥ 1`: every `k`-th element starting with the first. -/
def stepBy {α : Type} (k : Nat) : List α → List α
  | [] => []
  | x :: xs => x :: stepBy k (xs.drop (k - 1))
termination_by xs => xs.length
decreasing_by simp; omega

/-- The closure `remove_negative`, tuple.rs 283-290. -/
def removeNegative (len : Nat) (i : Option Int) : Option Int :=
  i.map fun i => if i < 0 then i + len else i

/-- The closure `as_skip`, tuple.rs 291-294. -/
def asSkip (i : Option Int) : Nat :=
  match i with
  | some i => (toUsize (max i 0)).getD usizeMax
  | none => 0

/-- The closure `as_fixed_len_tuple`, tuple.rs 280-319. -/
def asFixedLenTuple {α : Type} (ts : List α) (start stop : Option Int) (step : Int) : List α :=
  let len : Int := ts.length
  let start := removeNegative ts.length start
  let stop := removeNegative ts.length stop
  let (skipLeft, skipRight) :=
    if step < 0 then (stop.map (· + 1), start.map (len - · - 1))
    else (start, stop.map (len - ·))
  let iter := ((ts.drop (asSkip skipLeft)).reverse).drop (asSkip skipRight)
  if step < 0 then stepBy ((toUsize (-step)).getD usizeMax) iter
  else stepBy ((toUsize step).getD usizeMax) iter.reverse

/-- Result of slicing: an issue (`AmbigousSliceOfVariadicTuple`,
`TupleSliceStepCannotBeZero`) or a tuple type. -/
inductive SliceResult (T : Type) where
  | stepZero
  | ambiguous
  | tuple (args : Args T)
deriving DecidableEq

/-- The final simplification, tuple.rs 428-437. -/
def simplify {T : Type} (before : List T) (unpack : Unpack T) (after : List T) : Args T :=
  match before, after, unpack with
  | [], [], .arbitraryLen t => .arbitraryLen t
  | _, _, _ => .withUnpack before unpack after

/-- `is_same_sign`, tuple.rs 332-335. -/
def isSameSign (start stop : Option Int) : Bool :=
  match start, stop with
  | some s, some e => (s < 0 && e < 0) || (s ≥ 0 && e ≥ 0)
  | _, _ => true

/-- The special cases that return part of the prefix or suffix, tuple.rs 336-357. -/
def sliceSpecial {T : Type} (before after : List T) (start stop : Option Int) (step : Int) :
    Option (List T) :=
  if isSameSign start stop then
    let byStop : Option (List T) :=
      match stop with
      | some e =>
        if step < 0 then
          if e < 0 ∧ -e - 1 ≤ (after.length : Int) then
            some (asFixedLenTuple after start stop step)
          else none
        else if e ≥ 0 ∧ e ≤ (before.length : Int) then
          some (asFixedLenTuple before start stop step)
        else none
      | none => none
    match byStop with
    | some r => some r
    | none =>
      match start with
      | some s =>
        if step < 0 then
          if s ≥ 0 ∧ s ≤ (before.length : Int) then
            some (asFixedLenTuple before start stop step)
          else none
        else if s < 0 ∧ -s ≤ (after.length : Int) then
          some (asFixedLenTuple after start stop step)
        else none
      | none => none
  else none

/-- The slice branch for `TupleArgs::WithUnpack`, tuple.rs 322-438. -/
def sliceUnpack {T : Type} (before : List T) (unpack : Unpack T) (after : List T)
    (start stop : Option Int) (step : Int) : SliceResult T :=
  match sliceSpecial before after start stop step with
  | some ts => .tuple (.fixedLen ts)
  | none =>
    if step = 1 then
      let skipStart := start.getD 0
      if skipStart < 0 ∨ stop.any (· ≥ 0) then .ambiguous
      else
        let skipEnd := -(stop.getD 0)
        if skipStart > before.length ∨ skipEnd > after.length then .ambiguous
        else .tuple (simplify (before.drop skipStart.toNat) unpack
                (((after.reverse).drop skipEnd.toNat).reverse))
    else if step = -1 then
      let skipStart := stop.getD 0
      if skipStart < 0 ∨ start.any (· ≥ 0) then .ambiguous
      else
        let skipEnd := -(start.getD 0)
        if skipStart > before.length ∨ skipEnd > after.length then .ambiguous
        else .tuple (simplify ((after.reverse).drop skipEnd.toNat) unpack
                ((before.drop skipStart.toNat).reverse))
    else .ambiguous

/-- `Tuple::get_item` for a slice with constant bounds, tuple.rs 272-443. -/
def getSlice {T : Type} (args : Args T) (start stop : Option Int) (step : Int) : SliceResult T :=
  if step = 0 then .stepZero
  else
    match args with
    | .fixedLen ts => .tuple (.fixedLen (asFixedLenTuple ts start stop step))
    | .withUnpack before unpack after => sliceUnpack before unpack after start stop step
    | .arbitraryLen t => .tuple (.arbitraryLen t)

/-- The pair match of `tuple_add_internal`, tuple.rs 820-839; `none` means that the
typeshed signature of `tuple.__add__` is used instead (not modelled). -/
def tupleAdd {T : Type} : Args T → Args T → Option (Args T)
  | .fixedLen ts1, .fixedLen ts2 => some (.fixedLen (ts1 ++ ts2))
  | .fixedLen ts1, .withUnpack b u a => some (.withUnpack (ts1 ++ b) u a)
  | .withUnpack b u a, .fixedLen ts2 => some (.withUnpack b u (a ++ ts2))
  | _, _ => none

/-- `ts.iter().cycle().take(n)`. -/
def cycleTake {T : Type} (ts : List T) (n : Nat) : List T :=
  (List.range n).filterMap fun i => ts[i % ts.length]?

/-- `tuple_mul_internal` for one integer literal, tuple.rs 866-891; `none` means that
the typeshed signature is used instead (not modelled). -/
def tupleMul {T : Type} (args : Args T) (int : Int) : Option (Args T) :=
  match args with
  | .fixedLen ts =>
    let int := max int 0
    if int > 10 then none
    else some (.fixedLen (cycleTake ts (int.toNat * ts.length)))
  | .arbitraryLen t => some (.arbitraryLen t)
  | .withUnpack .. => none

/-- `TupleArgs::add_before_and_after`, tuple.rs 628-659; `merge_types(a, b)` (711-721) is
the concatenation `a ++ b`. -/
def addBeforeAndAfter {T : Type} (args : Args T) (before after : List T) : Args T :=
  match args with
  | .fixedLen ts => .fixedLen (before ++ ts ++ after)
  | .withUnpack b u a => .withUnpack (before ++ b) u (after ++ a)
  | .arbitraryLen t =>
    if before.length = 0 ∧ after = [] then .arbitraryLen t
    else .withUnpack before (.arbitraryLen t) after

/-- `struct MaybeUnpackGatherer`, tuple.rs 951-955. -/
structure Gatherer (T : Type) where
  before : List T
  unpack : Option (Unpack T)
  after : List T

/-- `MaybeUnpackGatherer::add_types` (and `add_type`), tuple.rs 958-972. -/
def Gatherer.addTypes {T : Type} (g : Gatherer T) (ts : List T) : Gatherer T :=
  match g.unpack with
  | none => { g with before := g.before ++ ts }
  | some _ => { g with after := g.after ++ ts }

/-- `MaybeUnpackGatherer::add_tuple_args`, tuple.rs 974-1004; `none` is the `Err` result. -/
def Gatherer.addTupleArgs {T : Type} (g : Gatherer T) : Args T → Option (Gatherer T)
  | .fixedLen ts => some (g.addTypes ts)
  | .arbitraryLen t =>
    match g.unpack with
    | some _ => none
    | none => some { g with unpack := some (.arbitraryLen t) }
  | .withUnpack b u a =>
    match g.unpack with
    | some _ => none
    | none => some { before := g.before ++ b, unpack := some u, after := g.after ++ a }

/-- `MaybeUnpackGatherer::into_tuple_args`, tuple.rs 1006-1023. -/
def Gatherer.intoTupleArgs {T : Type} (g : Gatherer T) : Args T :=
  match g.unpack with
  | some (.arbitraryLen t) =>
    if g.before = [] ∧ g.after = [] then .arbitraryLen t
    else .withUnpack g.before (.arbitraryLen t) g.after
  | some u => .withUnpack g.before u g.after
  | none => .fixedLen g.before

/-- Gathering a list of pieces from the empty gatherer (the callers' loops, e.g. for the
type of the display `(*a, *b)`). -/
def gather {T : Type} (pieces : List (Args T)) : Option (Args T) :=
  (pieces.foldlM (fun g p => Gatherer.addTupleArgs g p)
    ({ before := [], unpack := none, after := [] } : Gatherer T)).map Gatherer.intoTupleArgs

end Verif.Tuple
