/-!
# Simplified unions

Model of `crates/zuban_python/src/type_/union.rs` 17-284 and of `from_union_entries`, `type_/mod.rs` 539-552.  The types
themselves, subtyping and the classification of types are parameters: the theorems hold for all of them.
`==` on types is equality.
-/

namespace Verif.Union

/-- What the simplification asks about types. -/
structure World (T : Type) where
  /-- `x.is_super_type_of(y)` without promotions. -/
  sup : T → T → Bool
  /-- The value of a literal that is not a boolean. -/
  literal : T → Option Nat
  /-- `Literal::fallback_type`. -/
  fallback : T → T
  /-- A literal boolean. -/
  boolLit : T → Option Bool
  /-- `python_state.bool_type()`. -/
  boolType : T
  /-- An enum member: its enum and its index. -/
  member : T → Option (Nat × Nat)
  /-- The number of members of an enum. -/
  members : Nat → Nat
  /-- `Type::Enum`. -/
  enum : Nat → T
  isObject : T → Bool
  hasAny : T → Bool
  /-- `Any(UnknownTypeParam)`. -/
  unknownAny : T → Bool
  /-- The class of an instance. -/
  link : T → Option Nat
  /-- `generics.all_any_with_unknown_type_params()`. -/
  unknownParams : T → Bool
  /-- `is_equal_type_without_unpacking_recursive_types`. -/
  eqAny : T → T → Bool
  calculating : T → Bool
  /-- A recursive alias with generics. -/
  recursive : T → Bool
  /-- The key of `sort_for_priority`, union.rs 346-355. -/
  priority : T → Int

/-- `UnionEntry`, union.rs 287-290. -/
structure Entry (T : Type) where
  type : T
  format : Nat

variable {T : Type} [DecidableEq T] (w : World T)

/-- The entries that are removed, too, when one before them is replaced, union.rs 180-192. -/
def removable (a : T) (e : Entry T) : Bool :=
  !(w.hasAny e.type || w.calculating e.type || w.recursive e.type) && w.sup a e.type

/-- Both are instances of one class, and the first has unknown type parameters. -/
def mergeable (x y : T) : Bool := w.unknownParams x && (w.link x).isSome && w.link x == w.link y

/-- The loop over the existing entries, union.rs 151-201.  `none`: the loop ends and the type is pushed, otherwise the
type is dealt with. -/
def scan (a : T) : List (Entry T) → Option (List (Entry T))
  | [] => none
  | e :: rest =>
    if w.hasAny e.type then
      if mergeable w e.type a then some (⟨a, e.format⟩ :: rest) else (scan a rest).map (e :: ·)
    else if w.calculating a then none
    else if w.recursive e.type then (scan a rest).map (e :: ·)
    else if w.calculating e.type then if a = e.type then some (e :: rest) else (scan a rest).map (e :: ·)
    else if w.sup a e.type then some (⟨a, e.format⟩ :: rest.filter (!removable w a ·))
    else if w.sup e.type a then some (e :: rest)
    else (scan a rest).map (e :: ·)

/-- The variables of `merge_simplified_union_type`, union.rs 87-91.  `literals` is a hash map by value; its entries are in
the order of insertion here. -/
structure State (T : Type) where
  new : List (Entry T)
  literals : List (Entry T)
  hadEnum : Bool
  hadTrue : Bool
  hadFalse : Bool

/-- The flags after a push, union.rs 202-210. -/
def State.note (s : State T) (a : T) : State T :=
  if (w.member a).isSome then { s with hadEnum := true }
  else if w.boolLit a = some true then { s with hadTrue := true }
  else if w.boolLit a = some false then { s with hadFalse := true }
  else s

/-- The types with `Any`, union.rs 104-127. -/
def stepAny (s : State T) (e : Entry T) : State T :=
  if s.new.any (fun c => mergeable w e.type c.type) then s
  else if s.new.any (fun c => w.eqAny c.type e.type) || w.unknownAny e.type then s
  else { s with new := s.new ++ [e] }

/-- The other types, union.rs 128-213. -/
def stepPlain (s : State T) (e : Entry T) : State T :=
  if s.new.any (fun c => decide (c.type = e.type)) then s
  else if w.recursive e.type then { s with new := s.new ++ [e] }
  else
    match scan w e.type s.new with
    | some new => { s with new }
    | none => (State.note w { s with new := s.new ++ [e] } e.type)

/-- One iteration of the loop, union.rs 92-213; `none` returns the type. -/
def step (s : State T) (e : Entry T) : Option (State T) :=
  if (w.literal e.type).isSome then
    if s.literals.any (fun l => w.literal l.type == w.literal e.type) then some s
    else some { s with literals := s.literals ++ [e] }
  else if w.isObject e.type then none
  else if w.hasAny e.type then some (stepAny w s e)
  else some (stepPlain w s e)

/-- The entry of `enum_counts` for an enum, union.rs 237-245: the first member and the number of members. -/
def count (entries : List (Entry T)) (e : Nat) : Nat := (entries.filter fun x => (w.member x.type).map Prod.fst == some e).length

def firstMember (entries : List (Entry T)) (e : Nat) : Option Nat :=
  (entries.find? fun x => (w.member x.type).map Prod.fst == some e).bind fun x => (w.member x.type).map Prod.snd

/-- The body of `retain_mut` in `try_contracting_enum_members`, union.rs 246-262. -/
def contractMember (entries : List (Entry T)) (x : Entry T) : Option (Entry T) :=
  match w.member x.type with
  | some (e, i) =>
    if w.members e ≤ count w entries e then
      if firstMember w entries e = some i then some { x with type := w.enum e } else none
    else some x
  | none => some x

/-- `try_contracting_enum_members`, union.rs 236-264. -/
def contractEnums (entries : List (Entry T)) : List (Entry T) := entries.filterMap (contractMember w entries)

/-- `contract_bool_literals`, union.rs 266-282. -/
def contractBools : Bool → List (Entry T) → List (Entry T)
  | _, [] => []
  | first, x :: rest =>
    if (w.boolLit x.type).isSome then
      if first then { x with type := w.boolType } :: contractBools false rest else contractBools false rest
    else x :: contractBools first rest

/-- Rust's `sort_by_key` is a stable sort; this is one. -/
def insertBy {A : Type} (key : A → Int) (a : A) : List A → List A
  | [] => [a]
  | b :: bs => if key a ≤ key b then a :: b :: bs else b :: insertBy key a bs

def sortBy {A : Type} (key : A → Int) (l : List A) : List A := l.foldr (insertBy key) []

/-- The end of the loop, union.rs 215-234. -/
def finish (s : State T) : List (Entry T) :=
  let new := if s.hadEnum then contractEnums w s.new else s.new
  let new := if s.hadFalse && s.hadTrue then contractBools w true new else new
  let literals := if new.isEmpty then s.literals
    else s.literals.filter fun l => !new.any fun e => decide (e.type = w.fallback l.type)
  sortBy (fun e => (e.format : Int)) literals ++ new

/-- A type made of entries. -/
inductive Out (T : Type) where
  | never
  | single (t : T)
  | union (entries : List (Entry T))

/-- `from_union_entries`, type_/mod.rs 539-552, with `sort_for_priority`. -/
def fromEntries : List (Entry T) → Out T
  | [] => .never
  | [e] => .single e.type
  | es => .union (sortBy (fun e => w.priority e.type) es)

/-- The loop of `merge_simplified_union_type`; the error is the early return. -/
def loop : State T → List (Entry T) → Except T (State T)
  | s, [] => .ok s
  | s, e :: es =>
    match step w s e with
    | none => .error e.type
    | some s => loop s es

/-- `merge_simplified_union_type`, union.rs 83-235. -/
def simplify (es : List (Entry T)) : Out T :=
  match loop w ⟨[], [], false, false, false⟩ es with
  | .error t => .single t
  | .ok s => fromEntries w (finish w s)

/-- The members of a type. -/
def Out.types : Out T → List T
  | .never => []
  | .single t => [t]
  | .union es => es.map Entry.type

/-- `usize::MAX`. -/
def usizeMax : Nat := 2 ^ 64 - 1

/-- The place of a member of the union at `outer`, union.rs 65-80. -/
def formatIndex (highest outer inner : Nat) : Nat :=
  if outer * (highest + 1) + inner ≤ usizeMax then outer * (highest + 1) + inner else usizeMax

end Verif.Union
