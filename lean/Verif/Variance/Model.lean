/-!
# Inference of variances

Model of how the variance of a type parameter of a class is inferred and checked:
crates/zuban_python/src/type_helpers/class.rs (`infer_variance_for_index` 1763-1935,
`erase_return_self_type` 1937-1977, `check_type_var_variance_validity_for_type` 2238-2259),
crates/zuban_python/src/type_/type_var_likes.rs (`inferred_variance` 1043-1071),
crates/zuban_python/src/file/diagnostics.rs (`check_type_var_variance_for_base` 3458-3494), and of
crates/zuban_python/src/type_/matching.rs the comparison of types with type variables.

Left out: bounds and constraints of type variables, protocols, tuples, overloads, `ParamSpec`s and
`TypeVarTuple`s, `Self`, dataclasses that are frozen, parameters other than positional ones, and
attributes that are skipped because they still need the analysis of the flow. The comparison of
different classes, and of a class with a callable, is a parameter (for classes see `Verif.Sub`).
-/

namespace Verif.Variance

/-- `Variance`, type_/type_var_likes.rs 379-383. -/
inductive Variance where
  | cov
  | contra
  | inv
deriving DecidableEq, Repr

/-- `Type`, type_/mod.rs 492-536, as far as it is modelled. `var` is a type variable of the class,
by its index. -/
inductive Ty where
  | object
  | never
  | any
  | var (n : Nat)
  | cls (c : Nat) (args : List Ty)
  | fn (params : List Ty) (ret : Ty)
  | union (ts : List Ty)

structure World where
  /-- The variances of the type parameters of a class: those that are declared, those that are
  already inferred, and `cov` for those that are not yet ready (`inferred_variance`, 1043-1071). -/
  params : Nat → List Variance
  /-- Whether the first is a super type of the second, for different classes, and for classes and
  callables. -/
  other : Ty → Ty → Bool

variable (w : World)

/-- A loop over two lists that have to have the same length. -/
def zipAll (f : Ty → Ty → Bool) : List Ty → List Ty → Bool
  | [], [] => true
  | a :: as, b :: bs => f a b && zipAll f as bs
  | _, _ => false

/-- The loop over the type arguments, matching.rs 694-716. -/
def zipArgs (f : Variance → Ty → Ty → Bool) : List Ty → List Ty → List Variance → Bool
  | a :: as, b :: bs, v :: vs => f v a b && zipArgs f as bs vs
  | _, _, _ => true

/-- `is_super_type_of`, matching.rs 303-405, and `is_same_type`, matching.rs 470-483, with
`matches_internal` 23-275, `check_other_side` 508-620, `union_is_super_type_of` 622-680,
`matches_class` 682-748 and `matches_callable_against_arbitrary` 880-955. The flag says that the
types should be the same. The first argument is the fuel, see `compare`. -/
def matchesN : Nat → Bool → Ty → Ty → Bool
  | 0, _, _, _ => false
  | n + 1, false, t, s =>
    match t, s with
    | .any, _ | _, .any | .object, _ => true
    | t, .union us => us.all fun u => matchesN n false t u
    | .union ts, s => ts.any fun t => matchesN n false t s
    | _, .never => true
    | .var a, .var b => a == b
    | .cls c as, .cls d bs =>
      if c == d then
        zipArgs (fun v a b => match v with
          | .cov => matchesN n false a b
          | .contra => matchesN n false b a
          | .inv => matchesN n true a b) as bs (w.params c)
      else w.other (.cls c as) (.cls d bs)
    | .fn ps r, .fn qs q =>
      zipAll (fun p q => matchesN n false q p) ps qs && matchesN n false r q
    | .cls c as, .fn qs q => w.other (.cls c as) (.fn qs q)
    | .fn ps r, .cls d bs => w.other (.fn ps r) (.cls d bs)
    | _, _ => false
  | n + 1, true, t, s =>
    match t, s with
    | .any, _ | _, .any | .object, .object | .never, .never => true
    | .union ts, s => matchesN n false (.union ts) s && matchesN n false s (.union ts)
    | t, .union us => matchesN n false t (.union us) && matchesN n false (.union us) t
    | .var a, .var b => a == b
    | .cls c as, .cls d bs => c == d && zipArgs (fun _ a b => matchesN n true a b) as bs (w.params c)
    | .fn ps r, .fn qs q =>
      matchesN n false (.fn ps r) (.fn qs q) && matchesN n false (.fn qs q) (.fn ps r)
    | _, _ => false

mutual
/-- The size of a type. -/
def Ty.size : Ty → Nat
  | .cls _ as => sizes as + 1
  | .fn ps r => sizes ps + r.size + 1
  | .union ts => sizes ts + 1
  | _ => 1

def sizes : List Ty → Nat
  | [] => 0
  | t :: ts => t.size + sizes ts
end

/-- `is_simple_sub_type_of`, matching.rs 295-297. The fuel is enough: each call has a smaller type,
or it goes from "the same" to "super type". -/
def isSub (s t : Ty) : Bool := matchesN w (2 * (s.size + t.size)) false t s

mutual
/-- `replace_type_var_likes` with `object`, class.rs 2244-2253: `none` if the type variable does not
occur. -/
def Ty.occurs (i : Nat) : Ty → Bool
  | .var n => n == i
  | .cls _ as => occursIn i as
  | .fn ps r => occursIn i ps || r.occurs i
  | .union ts => occursIn i ts
  | _ => false

def occursIn (i : Nat) : List Ty → Bool
  | [] => false
  | t :: ts => t.occurs i || occursIn i ts
end

mutual
def Ty.put (i : Nat) : Ty → Ty
  | .var n => if n == i then .object else .var n
  | .cls c as => .cls c (puts i as)
  | .fn ps r => .fn (puts i ps) (r.put i)
  | .union ts => .union (puts i ts)
  | .object => .object
  | .never => .never
  | .any => .any

def puts (i : Nat) : List Ty → List Ty
  | [] => []
  | t :: ts => t.put i :: puts i ts
end

/-- `check_type_var_variance_validity_for_type`, class.rs 2238-2259: whether the type can be
covariant and whether it can be contravariant. -/
def check (i : Nat) (t : Ty) : Option (Bool × Bool) :=
  if t.occurs i then some (isSub w t (t.put i), isSub w (t.put i) t) else none

/-- A name of the class. -/
structure Member where
  ty : Ty
  /-- `attr_kind.is_writable()` -/
  writable : Bool := false
  /-- It starts with an underscore and is not a magic method. -/
  underscored : Bool := false
  /-- `__init__`, `__new__` or `__init_subclass__` -/
  constructor : Bool := false

structure Class where
  id : Nat
  bases : List Ty := []
  members : List Member := []

/-- `erase_return_self_type`, class.rs 1937-1977. -/
def erase (c : Nat) : Ty → Ty
  | .fn ps (.cls d as) => if d == c then .fn ps .any else .fn ps (.cls d as)
  | t => t

/-- The state of the loops. `done` is the early return of `Invariant`. -/
inductive State where
  | go (co contra : Bool)
  | done
deriving DecidableEq, Repr

/-- One round of the loop over the base classes, class.rs 1782-1790. -/
def baseStep (i : Nat) (s : State) (t : Ty) : State :=
  match s with
  | .done => .done
  | .go co contra =>
    match check w i t with
    | none => .go co contra
    | some (a, b) => if !(co && a) && !(contra && b) then .done else .go (co && a) (contra && b)

/-- One round of the loop over the names, class.rs 1893-1927. -/
def memberStep (c i : Nat) (s : State) (m : Member) : State :=
  match s with
  | .done => .done
  | .go co contra =>
    if m.constructor then .go co contra
    else
      match check w i (erase c m.ty) with
      | none => .go co contra
      | some (a, b) =>
        let co := co && a && !(!b && m.writable && !m.underscored)
        let contra := contra && b
        if !co && !contra then .done else .go co contra

/-- `infer_variance_for_index`, class.rs 1763-1935; `none` is `unreachable!`. -/
def infer (i : Nat) (C : Class) : Option Variance :=
  match C.members.foldl (memberStep w C.id i) (C.bases.foldl (baseStep w i) (.go true true)) with
  | .done => some .inv
  | .go false true => some .contra
  | .go false false => none
  | .go true _ => some .cov

/-- `check_type_var_variance_for_base`, diagnostics.rs 3458-3494: whether
`TypeVarVarianceIncompatibleWithParentType` is reported for a type variable with a declared variance
and a base class. -/
def reported (i : Nat) (declared : Variance) (base : Ty) : Bool :=
  match declared with
  | .inv => false
  | v =>
    match check w i base with
    | none => false
    | some (true, true) => false
    | some (false, true) => v != .contra
    | some (false, false) => v != .inv
    | some (true, false) => v != .cov

end Verif.Variance
