/-!
# Narrowing by `in`

Model of `guard_of_in_operator` in crates/zuban_python/src/file/flow_analysis.rs. A type is the list of the members of its
union. Whether types overlap and how types are narrowed by `==` are arbitrary functions.
-/

namespace Verif.Contains

inductive Atom where
  | none
  | lit (s : String)
  | str
  | cls (c : Nat)
  | any
  | object
  | typeVar (n : Nat)
  | td (n : Nat)
deriving DecidableEq, Repr

/-- A union; no members are `Never`. -/
abbrev Ty := List Atom

/-- A typed dict: its keys, and whether they are required. -/
structure TDef where
  members : List (String × Bool)
  final : Bool
deriving DecidableEq, Repr

structure World where
  tds : Nat → TDef
  overlaps : Ty → Ty → Bool

/-- The right side. -/
inductive Container where
  /-- `list`, `dict`, `set`, `frozenset`, `KeysView` and `dict_keys`, with their first type argument. -/
  | known (item : Ty)
  /-- Tuples and named tuples, with the union of their items. -/
  | tuple (item : Ty)
  /-- Anything else, as a union. -/
  | other (t : Ty)

variable (w : World)

/-- `stdlib_container_item`, flow_analysis.rs 5373-5413. -/
def containerItem (c : Container) : Option Ty :=
  let item := match c with
    | .known t => some t
    | .tuple t => some t
    | .other [.td _] => some [.str]
    | .other _ => none
  match item with
  | some [.any] => none
  | some [.object] => none
  | x => x

/-- `removed_optional`, flow_analysis.rs 5415-5422. -/
def removedOptional (t : Ty) : Option Ty := if t.contains .none then some (t.filter (· != .none)) else none

/-- The type of the left side if `in` is true, flow_analysis.rs 4661-4676. -/
def narrowLeft (left : Ty) (c : Container) : Option Ty :=
  match containerItem c with
  | none => none
  | some item => if !item.contains .none && w.overlaps left item then removedOptional left else none

/-- The literals on the left side, flow_analysis.rs 4685-4694. -/
def strLiterals (left : Ty) : List String :=
  left.filterMap fun
    | .lit s => some s
    | _ => none

/-- `find_member`, type_/typed_dict.rs 276-281. -/
def findMember (d : TDef) (s : String) : Option Bool := (d.members.find? (·.1 == s)).map (·.2)

/-- The loop over the literals, flow_analysis.rs 4699-4711: how many keys are always there, and how many are not known. -/
def counts (d : TDef) (ls : List String) : Nat × Nat :=
  ls.foldl (fun (t, f) s =>
    match findMember d s with
    | some r => if r then (t + 1, f) else (t, f)
    | none => (t, f + 1)) (0, 0)

/-- The closure, flow_analysis.rs 4697-4723: whether a member stays in the first and in the second branch. -/
def keep (ls : List String) : Atom → Bool × Bool
  | .td n =>
    let c := counts (w.tds n) ls
    if c.1 = ls.length then (true, false)
    else (!(w.tds n).final || c.2 != ls.length, true)
  | _ => (true, true)

def Atom.isTd : Atom → Bool
  | .td _ => true
  | _ => false

/-- The types of the right side if `in` is true, and if it is false, flow_analysis.rs 4679-4731. -/
def narrowRight (left right : Ty) : Option (Ty × Ty) :=
  if right.any Atom.isTd && !(strLiterals left).isEmpty then
    some (right.filter fun a => (keep w (strLiterals left) a).1, right.filter fun a => (keep w (strLiterals left) a).2)
  else none

inductive Op where
  | in_
  | notIn
deriving DecidableEq, Repr

/-- `maybe_invert`, flow_analysis.rs 4626-4640: the types for the two branches. -/
def maybeInvert {α : Type} (op : Op) (truthy falsey : α) : α × α :=
  match op with
  | .in_ => (truthy, falsey)
  | .notIn => (falsey, truthy)

/-- The types of both sides in both branches; the first step that has an answer wins. -/
structure Frames where
  left : Ty × Ty
  right : Ty × Ty
deriving DecidableEq, Repr

/-- The type of the right side, if it is no generic container. -/
def Container.other? : Container → Ty
  | .other t => t
  | _ => []

/-- `guard_of_in_operator` without tuples of fixed length, flow_analysis.rs 4619-4734. `leftKey` and `rightKey` say
whether the sides are expressions that can be narrowed. -/
def guard (op : Op) (leftKey rightKey : Bool) (left : Ty) (c : Container) : Option Frames :=
  match (if leftKey then narrowLeft w left c else none) with
  | some t => some ⟨maybeInvert op t left, (c.other?, c.other?)⟩
  | none =>
    if rightKey then
      match narrowRight w left c.other? with
      | some (t, f) => some ⟨(left, left), maybeInvert op t f⟩
      | none => none
    else none

/-! ## Tuples of fixed length -/

/-- Frames for one name as sets of values; the narrowing by `==` is a parameter. flow_analysis.rs 4644-4659. -/
def foldTuple {E V : Type} (narrow : E → Option ((V → Bool) × (V → Bool))) (entries : List E) :
    Option ((V → Bool) × (V → Bool)) :=
  entries.foldl (fun acc e =>
    match acc with
    | none => none
    | some (t, f) =>
      match narrow e with
      | none => none
      | some (t', f') => some (fun v => t v || t' v, fun v => f v && f' v)) (some (fun _ => false, fun _ => true))

end Verif.Contains
