import Verif.Match.Model

/-!
# Comparison of types

Model of `crates/zuban_python/src/type_/matching.rs` for types without type
variables: `is_super_type_of`, `is_sub_type_of`, `is_same_type` and what they
call, with the results of `match_.rs` (`Verif.Match.Model`).

Not modelled: type variables, `Self`, callables and overloads (see
`Verif.Callable`), named tuples, typed dicts, enums, recursive aliases,
intersections, modules, `LiteralString`, `TypeForm`, and the reasons that are
kept for error messages.  The comparison with a protocol by its members
(`check_protocol_match`) is a parameter.

The Rust functions call each other without a bound.  The functions here have a
fuel that every call uses up; `none` is the result when it is not enough.
-/

namespace Verif.Sub

open Verif.Match

/-- `Variance`, type_/type_var_likes.rs 379-383. -/
inductive Variance where
  | cov
  | contra
  | inv
deriving DecidableEq, Repr

/-- `invert`, type_/type_var_likes.rs 394-400. -/
def Variance.invert : Variance → Variance
  | .cov => .contra
  | .contra => .cov
  | .inv => .inv

/-- `LiteralValue`, type_/mod.rs 2200-2214. -/
inductive Lit where
  | int (i : Int)
  | str (s : String)
  | bytes (b : List Nat)
  | bool (b : Bool)
deriving DecidableEq, Repr

/-- `Type`, type_/mod.rs 492-536, as far as it is modelled.  `cls` is an instance
of a class, `data` of a dataclass; `fixed`, `arb` and `unpack` are the tuples
`tuple[A, B]`, `tuple[A, ...]` and `tuple[A, *tuple[B, ...], C]`; `type t` is
`type[t]`; `newType` a `NewType`.  `var` is a type variable and occurs only in the
base classes of generic classes. -/
inductive Ty where
  | any
  | never
  | none
  | cls (c : Nat) (args : List Ty)
  | data (c : Nat) (args : List Ty)
  | lit (l : Lit)
  | union (ts : List Ty)
  | fixed (ts : List Ty)
  | arb (t : Ty)
  | unpack (pre : List Ty) (mid : Ty) (post : List Ty)
  | type (t : Ty)
  | newType (i : Nat)
  | var (n : Nat)

mutual
/-- Equality of types. -/
def Ty.beq : Ty → Ty → Bool
  | .any, .any => true
  | .never, .never => true
  | .none, .none => true
  | .cls c as, .cls d bs => c == d && beqs as bs
  | .data c as, .data d bs => c == d && beqs as bs
  | .lit a, .lit b => decide (a = b)
  | .union as, .union bs => beqs as bs
  | .fixed as, .fixed bs => beqs as bs
  | .arb a, .arb b => Ty.beq a b
  | .unpack a b c, .unpack a' b' c' => beqs a a' && Ty.beq b b' && beqs c c'
  | .type a, .type b => Ty.beq a b
  | .newType a, .newType b => a == b
  | .var a, .var b => a == b
  | _, _ => false

def beqs : List Ty → List Ty → Bool
  | [], [] => true
  | a :: as, b :: bs => Ty.beq a b && beqs as bs
  | _, _ => false
end

mutual
/-- `apply_generics_to_base_class`, type_helpers/class.rs 2464-2507: a base class
of a class with type arguments. -/
def Ty.subst (args : List Ty) : Ty → Ty
  | .any => .any
  | .never => .never
  | .none => .none
  | .cls c as => .cls c (substs args as)
  | .data c as => .data c (substs args as)
  | .lit l => .lit l
  | .union ts => .union (substs args ts)
  | .fixed ts => .fixed (substs args ts)
  | .arb t => .arb (t.subst args)
  | .unpack a b c => .unpack (substs args a) (b.subst args) (substs args c)
  | .type t => .type (t.subst args)
  | .newType i => .newType i
  | .var n => args.getD n .any

def substs (args : List Ty) : List Ty → List Ty
  | [] => []
  | t :: ts => t.subst args :: substs args ts
end

/-- What is known about a class: `ClassInfos`, database.rs 1822-1842. -/
structure Cls where
  /-- The variances of its type parameters. -/
  params : List Variance := []
  /-- The method resolution order without the class and without `object`. -/
  mro : List Ty := []
  /-- `promote_to`, python_state.rs 938-958. -/
  promote : Option Nat := none
  /-- The metaclass, if there is one. -/
  metaclass : Option Nat := none
  /-- It is a metaclass. -/
  isMeta : Bool := false
  isProtocol : Bool := false
  /-- A base class is not known. -/
  incomplete : Bool := false

structure World where
  cls : Nat → Cls
  /-- The type a `NewType` was made of. -/
  newBase : Nat → Ty
  object : Nat
  bool : Nat
  int : Nat
  str : Nat
  bytes : Nat
  /-- The class `type`. -/
  bare : Nat
  tuple : Nat
  /-- `strict_optional` of the configuration. -/
  strictOptional : Bool
  /-- `simplified_union_of_tuple_entries`, type_/tuple.rs: see `Verif.Union`. -/
  join : List Ty → Ty
  /-- `check_protocol_match`. -/
  structural : Ty → Ty → Match

/-- From a `bool`, match_.rs 200-208. -/
def ofBool (b : Bool) : Match := if b then .newTrue else .newFalse

/-- `from_bool_into_any_match`, match_.rs 157-162. -/
def ofBoolAny (b : Bool) : Match := if b then .true true else .newFalse

def Ty.isAny : Ty → Bool
  | .any => true
  | _ => false

def Ty.isNever : Ty → Bool
  | .never => true
  | _ => false

def Ty.isNone : Ty → Bool
  | .none => true
  | _ => false

def Ty.isNewType : Ty → Bool
  | .newType _ => true
  | _ => false

/-- `is_union_like`, type_/mod.rs 554-561. -/
def Ty.unionLike : Ty → Bool
  | .union _ => true
  | .type t => t.unionLike
  | _ => false

def Ty.isBoolLit : Ty → Bool
  | .lit (.bool _) => true
  | _ => false

/-- `bool_literal_count`, type_/union.rs 381-393. -/
def boolLits (ts : List Ty) : Nat := (ts.filter Ty.isBoolLit).length

variable (w : World)

/-- `fallback_node_ref`, type_/mod.rs 2226-2233. -/
def fallback : Lit → Nat
  | .int _ => w.int
  | .str _ => w.str
  | .bytes _ => w.bytes
  | .bool _ => w.bool

/-- The base classes of a class with type arguments, without `object`. -/
def bases (c : Nat) (args : List Ty) : List Ty := (w.cls c).mro.map (Ty.subst args)

/-- `mro`, type_/mod.rs 1585-1650, and `MroIterator`, type_helpers/class.rs
2414-2438, with `returned_object` unset as in matching.rs 342-345. -/
def mro : Ty → List Ty
  | .lit l => .lit l :: .cls (fallback w l) [] :: bases w (fallback w l) [] ++ [.cls w.object []]
  | .cls c as => .cls c as :: bases w c as ++ [.cls w.object []]
  | .data c as => .data c as :: bases w c as ++ [.cls w.object []]
  | .fixed ts => .fixed ts :: bases w w.tuple [w.join ts] ++ [.cls w.object []]
  | .arb t => .arb t :: bases w w.tuple [w.join [t]] ++ [.cls w.object []]
  | .unpack a b c =>
    .unpack a b c :: bases w w.tuple [w.join (a ++ b :: c)] ++ [.cls w.object []]
  | t => [t, .cls w.object []]

/-- The types for which `is_super_type_of` looks at the mro, matching.rs 317-324. -/
def Ty.nominal : Ty → Bool
  | .cls _ _ => true
  | .data _ _ => true
  | .fixed _ => true
  | .arb _ => true
  | .unpack _ _ _ => true
  | _ => false

/-- The loop of `Match::all`, match_.rs 98-112. -/
def allM (f : Ty → Option Match) : Match → List Ty → Option Match
  | r, [] => some r
  | r, t :: ts =>
    (f t).bind fun m => if (r.and m).bool then allM f (r.and m) ts else some .newFalse

/-- The loop of `Match::any`, match_.rs 84-96. -/
def anyM (f : Ty → Option Match) : Match → List Ty → Option Match
  | r, [] => some r
  | r, t :: ts =>
    (f t).bind fun m => if m.bool then some m else anyM f (if r.isSimilar then r else m) ts

/-- A loop with `matches &= ..` over two lists. -/
def zipM (f : Ty → Ty → Option Match) : Match → List Ty → List Ty → Option Match
  | r, a :: as, b :: bs => (f a b).bind fun m => zipM f (r.and m) as bs
  | r, _, _ => some r

/-- A loop with `matches &= ..` over one list. -/
def foldM (f : Ty → Option Match) : Match → List Ty → Option Match
  | r, a :: as => (f a).bind fun m => foldM f (r.and m) as
  | r, [] => some r

/-- The loop over the type arguments, matching.rs 697-716. -/
def zipV (f : Variance → Ty → Ty → Option Match) :
    Match → List Ty → List Ty → List Variance → Option Match
  | r, a :: as, b :: bs, v :: vs => (f v a b).bind fun m => zipV f (r.and m) as bs vs
  | r, _, _, _ => some r

/-- `iter().all(|t2| ..bool())`, matching.rs 1072-1074. -/
def allB (f : Ty → Option Match) : List Ty → Option Bool
  | [] => some true
  | t :: ts => (f t).bind fun m => if m.bool then allB f ts else some false

/-- The loop over the mro, matching.rs 347-384: the first result that is not a
plain mismatch. -/
def mroM (f : Ty → Option Match) : List Ty → Option Match
  | [] => some .newFalse
  | t :: ts => (f t).bind fun m => if m = .newFalse then mroM f ts else some m

/-- `or`, match_.rs 132-152: the second part is computed only if needed. -/
def orM (m : Match) (g : Unit → Option Match) : Option Match :=
  if m.bool then some m else (g ()).map (Match.or m)

/-- The variance of a type argument, matching.rs 703-714. -/
def argVariance (v d : Variance) : Variance :=
  match v with
  | .cov => d
  | _ => .inv

/-- `Generic::matches`, matching/generic.rs 66-100: type arguments are never compared
backwards, but exchanged. -/
def argMatches (f : Variance → Bool → Ty → Ty → Option Match) (rev : Bool) (v : Variance)
    (a b : Ty) : Option Match :=
  if rev then f v.invert false b a else f v false a b

/-- The comparison with a protocol, matching.rs 386-400. -/
def protocolMatch (t s : Ty) : Match :=
  match t with
  | .cls c _ => if (w.cls c).isProtocol then w.structural t s else .newFalse
  | _ => .newFalse

mutual
/-- `is_super_type_of`, matching.rs 303-405. -/
def isSuper : Nat → Bool → Ty → Ty → Option Match
  | 0, _, _, _ => none
  | n + 1, rev, t, s =>
    if t.nominal then
      (mroM (fun b => internal n .cov rev t b) (mro w s)).bind fun m =>
        if m = .newFalse then
          (orM (protocolMatch w t s) (fun _ => other n .cov rev t s)).bind fun m' =>
              orM m' (fun _ => promotion n rev t s)
        else some m
    else
      (internal n .cov rev t s).bind fun m =>
        if m = .newFalse then other n .cov rev t s else some m

/-- `is_same_type`, matching.rs 470-483. -/
def isSame : Nat → Bool → Ty → Ty → Option Match
  | 0, _, _, _ => none
  | n + 1, rev, t, s =>
    (internal n .inv rev t s).bind fun m => orM m (fun _ => other n .inv rev t s)

/-- `matches`, matching.rs 494-506, with `is_sub_type_of`, matching.rs 286-293. -/
def «matches» : Nat → Variance → Bool → Ty → Ty → Option Match
  | 0, _, _, _, _ => none
  | n + 1, .cov, rev, t, s => isSuper n rev t s
  | n + 1, .inv, rev, t, s => isSame n rev t s
  | n + 1, .contra, rev, t, s => isSuper n (!rev) s t

/-- `check_promotion` and `check_class_promotion`, matching.rs 407-464, for a
matcher that does not ignore promotions. -/
def promotion : Nat → Bool → Ty → Ty → Option Match
  | 0, _, _, _ => none
  | n + 1, rev, t, s =>
    match s with
    | .cls c _ => if (w.cls c).incomplete then some .newTrue else promoted n rev t c
    | .lit l => promoted n rev t (fallback w l)
    | _ => some .newFalse

def promoted : Nat → Bool → Ty → Nat → Option Match
  | 0, _, _, _ => none
  | n + 1, rev, t, c =>
    match (w.cls c).promote with
    | some d =>
      (isSame n rev t (.cls d [])).bind fun m => orM m (fun _ => promoted n rev t d)
    | none => some .newFalse

/-- `check_other_side`, matching.rs 508-620. -/
def other : Nat → Variance → Bool → Ty → Ty → Option Match
  | 0, _, _, _, _ => none
  | n + 1, v, rev, t, s =>
    match s with
    | .any => some (.true !rev)
    | .none => some (ofBool !w.strictOptional)
    | .union us =>
      if t.unionLike then some .newFalse
      else
        (allM (fun u => isSuper n rev t u) .newTrue us).bind fun m =>
          if v = .inv then (isSuper n (!rev) s t).map (Match.and m) else some m
    | .newType i => if v = .cov then «matches» n v rev t (w.newBase i) else some .newFalse
    | .never => some (ofBool (decide (v = .cov)))
    | _ => some .newFalse

/-- `union_is_super_type_of`, matching.rs 622-681, for unions without type
variables. -/
def unionSuper : Nat → Bool → List Ty → Ty → Option Match
  | 0, _, _, _ => none
  | n + 1, rev, us, s =>
    match s with
    | .union us2 =>
      if beqs us us2 then some .newTrue
      else allM (fun u => unionSuper n rev us u) .newTrue us2
    | .type (.union ts) => unionSuper n rev us (.union (ts.map .type))
    | s =>
      if s.beq (.cls w.bool []) && boolLits us == 2 then some .newTrue
      else anyM (fun g => isSuper n rev g s) .newTrue us

/-- `matches_class`, matching.rs 683-748.  The reasons for lists and dicts are
left out. -/
def matchesClass : Nat → Variance → Bool → Nat → List Ty → Nat → List Ty → Option Match
  | 0, _, _, _, _, _, _ => none
  | n + 1, v, rev, c, as, d, bs =>
    if c ≠ d then some .newFalse
    else if (w.cls c).params.isEmpty then some .newTrue
    else
      (zipV (fun p a b => argMatches (fun v rev a b => «matches» n v rev a b) rev
          (argVariance v p) a b) .newTrue as bs
        (w.cls c).params).map Match.similarIfFalse

/-- `matches_class_against_type`, matching.rs 750-888. -/
def classVsType : Nat → Variance → Bool → Nat → List Ty → Ty → Option Match
  | 0, _, _, _, _, _ => none
  | n + 1, v, rev, c, as, s =>
    match s with
    | .cls d bs => matchesClass n v rev c as d bs
    | .type t2 =>
      match t2 with
      | .cls d _ =>
        match (w.cls d).metaclass with
        | some m =>
          if (w.cls c).isProtocol then some .newFalse
          else
            («matches» n v rev (.cls c as) (.cls m [])).bind fun r =>
              orM r (fun _ => some (ofBool (c == w.bare)))
        | none => some (ofBool (c == w.bare))
      | _ => some (ofBool (c == w.bare))
    | .lit l => if v = .cov then matchesClass n v rev c as (fallback w l) [] else some .newFalse
    | .union us => some (ofBool (c == w.bool && boolLits us == 2 && us.length == 2))
    | _ => some .newFalse

/-- `match_tuple_type_arguments_internal`, matching.rs 1039-1077, and
`match_arbitrary_len_vs_unpack`, matching.rs 1079-1107. -/
def matchTuple : Nat → Variance → Bool → Ty → Ty → Option Match
  | 0, _, _, _, _ => none
  | n + 1, v, rev, t, s =>
    match t, s with
    | .fixed ts, .fixed ss =>
      if ts.length = ss.length then zipM (fun a b => «matches» n v rev a b) .newTrue ts ss
      else some .newFalse
    | .arb a, .arb b => «matches» n v rev a b
    | .unpack pre mid post, s => matchUnpack n v rev pre mid post s
    | .arb a, .unpack pre mid post =>
      foldM (fun b => «matches» n v rev a b) .newTrue (pre ++ mid :: post)
    | .fixed _, .arb b => some (ofBoolAny b.isAny)
    | .arb a, .fixed ss =>
      if v = .inv then some (ofBool a.isAny)
      else (allB (fun b => «matches» n v rev a b) ss).map ofBool
    | _, _ => some .newFalse

/-- `match_unpack_internal`, matching.rs 1132-1317. -/
def matchUnpack : Nat → Variance → Bool → List Ty → Ty → List Ty → Ty → Option Match
  | 0, _, _, _, _, _, _ => none
  | n + 1, v, rev, pre, mid, post, s =>
    match s with
    | .fixed ss =>
      (zipM (fun a b => «matches» n v rev a b) .newTrue pre ss).bind fun r =>
      (zipM (fun a b => «matches» n v rev a b) r post.reverse (ss.drop pre.length).reverse).bind
        fun r =>
      if pre.length + post.length > ss.length then some .newFalse
      else
        foldM (fun b => «matches» n v rev mid b) r
          ((ss.drop pre.length).take (ss.length - pre.length - post.length))
    | .unpack pre2 mid2 post2 =>
      (zipM (fun a b => «matches» n v rev a b) .newTrue pre pre2).bind fun r =>
      (zipM (fun a b => «matches» n v rev a b) r post.reverse post2.reverse).bind fun r =>
      foldM (fun b => «matches» n v rev mid b) r
        (pre2.drop pre.length ++ post2.take (post2.length - post.length) ++ [mid2])
    | .arb b =>
      if b.isAny then some (.true true)
      else some (ofBool (pre.isEmpty && post.isEmpty))
    | _ => some .newFalse

/-- `matches_internal`, matching.rs 25-284. -/
def internal : Nat → Variance → Bool → Ty → Ty → Option Match
  | 0, _, _, _, _ => none
  | n + 1, v, rev, t, s =>
    match t with
    | .cls c as => classVsType n v rev c as s
    | .type t1 =>
      match s with
      | .type t2 =>
        if t2.isNewType then some .newFalse
        else («matches» n v rev t1 t2).map fun m => if t2.unionLike then m else m.similarIfFalse
      | .union _ =>
        match t1 with
        | .union us => internal n v rev (.union (us.map .type)) s
        | _ => some .newFalse
      | .cls c _ =>
        some (if t1.isAny && (w.cls c).isMeta then .true rev else .newFalse)
      | _ => some .newFalse
    | .none => some (ofBool (s.isNone || (!w.strictOptional && decide (v = .inv))))
    | .any => some (.true (rev && !(s.isAny || (decide (v = .cov) && s.isNever))))
    | .never => some (ofBool s.isNever)
    | .fixed _ | .arb _ | .unpack _ _ _ =>
      match s with
      | .fixed _ | .arb _ | .unpack _ _ _ => (matchTuple n v rev t s).map Match.similarIfFalse
      | _ => some .newFalse
    | .union us =>
      if v = .inv then
        (isSuper n rev t s).bind fun m => (isSuper n (!rev) s t).map (Match.and m)
      else unionSuper n rev us s
    | .lit l =>
      match s with
      | .lit l' => some (ofBool (decide (l = l')))
      | _ => some .newFalse
    | .newType i =>
      match s with
      | .newType j => some (ofBool (i == j))
      | _ => some .newFalse
    | .data c as =>
      match s with
      | .data d bs => matchesClass n .cov rev c as d bs
      | _ => some .newFalse
    | .var _ => some .newFalse
end

end Verif.Sub
