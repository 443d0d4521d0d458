import Verif.Pattern.Model

/-!
# Mapping patterns (model)

Models the mapping patterns of `match` statements,
`crates/zuban_python/src/file/flow_analysis.rs` 3248-3287 and 3610-3742: what the type checker
concludes about the subject, in particular if it is a `TypedDict`, and about the names.

Simplified: as in `Verif.Pattern`. The pattern of a value is a mapping pattern again or one of the
patterns of `Verif.Pattern`, so there are no mapping patterns inside of sequences, classes and
alternatives.
-/

namespace Verif.Mapping

open Verif.Pattern

/-- `KeyEntryInPattern`, parsa_python_cst/src/match_stmt.rs: a string, another literal or a dotted
name. -/
inductive Key where
  | text (s : Nat)
  | number (n : Nat)
  | dotted (k : Nat)
  deriving DecidableEq

/-- The types of a dotted name, as far as they are distinguished: a literal string, `str` or
`LiteralString`, and everything else. -/
inductive KeyTy where
  | literal (s : Nat)
  | str
  | other
  deriving DecidableEq

/-- `PatternKind::MappingPattern` or another pattern; `rest` is the name of `**rest`. -/
inductive MPat where
  | plain (p : Pat)
  | map (entries : List (Key × MPat)) (rest : Option Nat)

/-- `TypedDictMember`, type_/typed_dict.rs. -/
structure Member (B : Type) where
  name : Nat
  type : Un B
  required : Bool

/-- `TypedDictMembers`, type_/typed_dict.rs. -/
structure Dict (B : Type) where
  members : List (Member B)
  extra : Option (Un B)

/-- What the closure for mapping patterns distinguishes, flow_analysis.rs 3249-3285. -/
inductive Kind (B : Type) where
  | dict (d : Dict B)
  | any
  /-- `value`: what `__getitem__` returns for one of the keys, if there is such a method; `key`: the
  first type argument of `Mapping`, if it is a base class. -/
  | other (value : List Key → Option (Un B)) (key : Option (Un B))

/-- What is modelled elsewhere. -/
structure World (B : Type) where
  base : Pattern.World B
  kind : Ty B → Kind B
  /-- `infer_pattern_dotted_name` -/
  dotted : Nat → List KeyTy
  str : B
  /-- `dict[K, T]` -/
  dictOf : Un B → Un B → B
  /-- `mypy_compatible` -/
  mypy : Bool

/-- `find_member`, type_/typed_dict.rs 276-281. -/
def Dict.find {B : Type} (d : Dict B) (s : Nat) : Option (Member B) :=
  d.members.find? fun m => m.name == s

/-- `is_closed`, type_/typed_dict.rs 620-625. -/
def Dict.closed {B : Type} (d : Dict B) : Bool :=
  match d.extra with
  | some T => T.isEmpty
  | none => false

/-- `union_of_all_types`, type_/typed_dict.rs 627-636. -/
def Dict.all {B : Type} (d : Dict B) : Un B :=
  d.members.flatMap (·.type) ++ d.extra.getD []

variable {B : Type} (w : World B)

/-- `fallback_type`, flow_analysis.rs 3617-3623. -/
def Dict.fallback (d : Dict B) : Un B :=
  if d.extra.isSome then d.all else [.leaf w.base.object]

/-- The type of the value of a literal key and whether it is always there, flow_analysis.rs
3640-3650; `none` if the key is never there. -/
def Dict.literal (d : Dict B) (s : Nat) : Option (Un B × Bool) :=
  match d.find s with
  | some m => some (m.type, m.required)
  | none => if d.closed then none else some (d.fallback w, false)

/-- `might_be_string`, type_/mod.rs 1970-1977. -/
def mightBeString (ts : List KeyTy) : Bool := ts.all fun t => t != .other

/-- The type of the value of a key, flow_analysis.rs 3626-3658. -/
def Dict.entry (d : Dict B) (k : Key) : Option (Un B × Bool) :=
  match k with
  | .number _ => none
  | .text s => d.literal w s
  | .dotted k =>
    match w.dotted k with
    | [.literal s] => d.literal w s
    | ts => if mightBeString ts then some (d.fallback w, false) else none

/-- The name after `**`. -/
def restCaps (rest : Option Nat) (t : Ty B) : List (Nat × Un B) :=
  match rest with
  | some n => [(n, [t])]
  | none => []

/-- The result for a typed dict, from the result for the entries: `none` if the pattern does not
match; whether it always matches; the names. -/
def dictPart (t : Ty B) (d : Dict B) (rest : Option Nat)
    (es : Option Bool × List (Nat × Un B)) : Res B :=
  match es.1 with
  | none => ⟨[], [t], es.2⟩
  | some sure =>
    ⟨[t], if !sure || w.mypy then [t] else [],
      es.2 ++ restCaps rest (.leaf (w.dictOf [.leaf w.str] (d.fallback w)))⟩

mutual

/-- `find_guards_in_pattern_kind`, flow_analysis.rs 3248-3287. For `Any` the names are not assigned
and have the type `Any` therefore. -/
def guards : MPat → Un B → Res B
  | .plain p, T => Pattern.guards w.base p T
  | .map es rest, T =>
    gather (T.map fun t =>
      match w.kind t with
      | .dict d => dictPart w t d rest (dictEntries es d)
      | .any => ⟨[t], [t],
          entries es [.leaf w.base.any] ++ restCaps rest (.leaf w.base.any)⟩
      | .other value key =>
        let x := (value (es.map (·.1))).getD [.leaf w.base.object]
        ⟨[t], [t], entries es x ++
          restCaps rest (.leaf (w.dictOf (key.getD [.leaf w.base.object]) x))⟩)

/-- The loop of `find_guards_in_typed_dict_for_mapping_pattern`, flow_analysis.rs 3625-3662. -/
def dictEntries : List (Key × MPat) → Dict B → Option Bool × List (Nat × Un B)
  | [], _ => (some true, [])
  | (k, p) :: es, d =>
    match d.entry w k with
    | none => (none, [])
    | some (T, sure) =>
      let r := guards p T
      let rest := dictEntries es d
      (rest.1.map fun s => sure && r.falsey.isEmpty && s, r.caps ++ rest.2)

/-- The loop of `assign_key_value_to_mapping_pattern`, flow_analysis.rs 3693-3698. -/
def entries : List (Key × MPat) → Un B → List (Nat × Un B)
  | [], _ => []
  | (_, p) :: es, T => (guards p T).caps ++ entries es T

end

end Verif.Mapping
