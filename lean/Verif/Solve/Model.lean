import Verif.Sub.Model

/-!
# Solving type variables

Model of `bound.rs` and `type_var_matcher.rs` in
`crates/zuban_python/src/matching/matcher`, and of `resolve_cycle` in its `mod.rs`.
The types are a parameter, with the operations on them that are used here.  Left out
are the widening of implicit literals, the reasons of mismatches, and bounds for which
no type parameter exists.
-/

namespace Verif.Solve

open Verif.Match Verif.Sub

/-- What is used of `BoundKind`, bound.rs 28-33. -/
structure Lang (K : Type) where
  /-- `simple_matches`, bound.rs 258-272. -/
  cmp : Variance → K → K → Match
  /-- `common_base_type`, bound.rs 274-292. -/
  base : K → K → Option K
  /-- `common_sub_type`, bound.rs 294-312. -/
  sub : K → K → Option K
  /-- `maybe_any`, bound.rs 363-373, with whether the cause is `UnknownTypeParam`. -/
  maybeAny : K → Option Bool
  /-- `has_any`, bound.rs 355-361. -/
  hasAny : K → Bool
  isNone : K → Bool
  any : K
  never : K
  /-- The constraints of a type that is a type variable with constraints. -/
  constraints : K → Option (List K)

/-- `Bound`, bound.rs 19-27. -/
inductive Bound (K : Type) where
  | uncalculated (fallback : Option K)
  | invariant (k : K)
  | upper (k : K)
  | upperAndLower (upper lower : K)
  | lower (k : K)
deriving DecidableEq, Repr

/-- `CalculatingTypeArg`, type_var_matcher.rs 20-27, without the constraints that are
not resolved. -/
structure Arg (K : Type) where
  bound : Bound K := .uncalculated none
  byContext : Bool := false
  uninferrable : Bool := false
  anyInContext : Bool := false
deriving DecidableEq, Repr

variable {K : Type}

/-- `new`, bound.rs 52-58. -/
def Bound.new (k : K) : Variance → Bound K
  | .inv => .invariant k
  | .cov => .lower k
  | .contra => .upper k

/-- `calculated`, type_var_matcher.rs 30-32. -/
def Bound.calculated : Bound K → Bool
  | .uncalculated _ => false
  | _ => true

variable (L : Lang K)

/-- `maybe_any`, bound.rs 213-221. -/
def Bound.maybeAny : Bound K → Option Bool
  | .invariant k | .upper k | .lower k => L.maybeAny k
  | .upperAndLower u l => if (L.maybeAny l).isSome then L.maybeAny u else none
  | .uncalculated _ => none

/-- `has_any`, bound.rs 202-211. -/
def Bound.hasAny : Bound K → Bool
  | .invariant k | .upper k | .lower k => L.hasAny k
  | .upperAndLower u l => L.hasAny u || L.hasAny l
  | .uncalculated (some k) => L.hasAny k
  | .uncalculated none => false

/-- `is_none`, bound.rs 223-234. -/
def Bound.isNone : Bound K → Bool
  | .invariant k | .upper k | .lower k => L.isNone k
  | .upperAndLower u l => L.isNone u || L.isNone l
  | .uncalculated (some k) => L.isNone k
  | .uncalculated none => false

variable [DecidableEq K]

/-- `update_upper_bound`, type_var_matcher.rs 165-184; `none` is `unreachable!`. -/
def updateUpper (upper : K) : Bound K → Option (Bound K)
  | .upper _ => some (.upper upper)
  | .lower lower => some (if upper = lower then .invariant upper else .upperAndLower upper lower)
  | .upperAndLower _ lower =>
    some (if upper = lower then .invariant upper else .upperAndLower upper lower)
  | _ => none

/-- `update_lower_bound`, type_var_matcher.rs 186-215; `none` is `unreachable!`. -/
def updateLower (lower : K) : Bound K → Option (Bound K)
  | .lower old => some (.lower ((L.base old lower).getD lower))
  | .upper upper => some (if upper = lower then .invariant lower else .upperAndLower upper lower)
  | .upperAndLower upper old =>
    let new := (L.base old lower).getD lower
    some (if upper = new then .invariant new else .upperAndLower upper new)
  | _ => none

/-- The second half of `merge_or_mismatch`, type_var_matcher.rs 116-162, for a type that
is not between the bounds. -/
def outside (b : Bound K) (other : K) (m : Match) : Variance → Option (Bound K × Match)
  | .inv => some (b, m)
  | .cov =>
    match b with
    | .lower t =>
      match L.base t other with
      | some new => some (.lower new, .newTrue)
      | none => some (b, L.cmp .cov t other)
    | .invariant t => some (b, L.cmp .cov t other)
    | .upper _ => some (b, m)
    | .upperAndLower upper lower =>
      match L.base lower other with
      | some new =>
        if (L.cmp .cov upper new).bool then some (.upperAndLower upper new, .newTrue)
        else some (b, L.cmp .cov lower other)
      | none => some (b, L.cmp .cov lower other)
    | .uncalculated _ => none
  | .contra =>
    match b with
    | .upper t =>
      match L.sub t other with
      | some new => some (.upper new, .newTrue)
      | none => some (b, L.cmp .contra t other)
    | .invariant t => some (b, L.cmp .contra t other)
    | .upperAndLower upper lower =>
      match L.sub upper other with
      | some new =>
        if (L.cmp .contra lower new).bool then some (.upperAndLower new lower, .newTrue)
        else some (b, L.cmp .contra upper other)
      | none => some (b, L.cmp .contra upper other)
    | .lower _ => some (b, m)
    | .uncalculated _ => none

/-- The match at type_var_matcher.rs 106-115. -/
def inside (b : Bound K) (other : K) (m : Match) (v : Variance) : Option (Bound K × Match) :=
  if m.bool then
    (match v with
      | .inv => some (Bound.invariant other)
      | .cov => updateLower L other b
      | .contra => updateUpper other b).map (·, m)
  else outside L b other m v

/-- `merge_or_mismatch`, type_var_matcher.rs 77-163; `none` is `unreachable!`. -/
def mergeOne (a : Arg K) (other : K) (v : Variance) : Option (Arg K × Match) :=
  let set := Option.map fun (r : Bound K × Match) => ({ a with bound := r.1 }, r.2)
  match a.bound with
  | .invariant t =>
    let m := L.cmp .inv t other
    if m.bool then
      some (if a.anyInContext then { a with bound := .new other v, anyInContext := false } else a, m)
    else set (outside L a.bound other m v)
  | .upper upper => set (inside L a.bound other (L.cmp .cov upper other) v)
  | .lower lower => set (inside L a.bound other (L.cmp .contra lower other) v)
  | .upperAndLower upper lower =>
    set (inside L a.bound other ((L.cmp .cov upper other).and (L.cmp .contra lower other)) v)
  | .uncalculated _ => none

/-- The end of `merge`, type_var_matcher.rs 70-74. -/
def conflict (r : Arg K × Match) : Arg K × Match :=
  if !r.2.bool && !r.1.byContext then ({ r.1 with uninferrable := true }, r.2) else r

/-- `merge`, type_var_matcher.rs 39-75. -/
def merge (a : Arg K) (other : Bound K) : Option (Arg K × Match) :=
  if a.bound = other then some (a, .newTrue)
  else
    match a.bound with
    | .uncalculated fallback =>
      if other.calculated || fallback.isNone then
        match other.maybeAny L with
        | some true => some (a, Match.true true)
        | some false => some ({ a with bound := other }, Match.true true)
        | none => some ({ a with bound := other }, .newTrue)
      else some (a, .newTrue)
    | _ =>
      match other with
      | .upper t => (mergeOne L a t .contra).map conflict
      | .lower t => (mergeOne L a t .cov).map conflict
      | .invariant t => (mergeOne L a t .inv).map conflict
      | .upperAndLower upper t =>
        (mergeOne L a upper .contra).bind fun r =>
          (mergeOne L r.1 t .cov).map fun s => conflict (s.1, r.2.and s.2)
      | .uncalculated _ => some (a, .newTrue)

/-- `into_generic_item`, type_var_matcher.rs 217-235 and bound.rs 137-159. -/
def Arg.solved (a : Arg K) : K :=
  if a.uninferrable then L.any
  else
    match a.bound with
    | .invariant k | .upper k | .lower k | .upperAndLower _ k => k
    | .uncalculated (some k) => k
    | .uncalculated none => L.never

/-- `TypeVarKind`. -/
inductive Kind (K : Type) where
  | unrestricted
  | bound (k : K)
  | constraints (ks : List K)

/-- The loop of `check_constraints`, type_var_matcher.rs 423-441. -/
def constraintLoop (value : K) (v : Variance) : Option K → List K → Option K
  | found, [] => found
  | found, c :: cs =>
    if (L.cmp v c value).bool then
      if found.isSome then some L.any
      else if L.hasAny value then constraintLoop value v (some c) cs
      else some c
    else constraintLoop value v found cs

/-- `check_constraints`, type_var_matcher.rs 404-445. -/
def checkConstraints (cs : List K) (value : K) (v : Variance) : Option (Bound K) :=
  match L.constraints value with
  | some ds =>
    if ds.all fun d => cs.any fun c => (L.cmp .cov c d).bool then some (.invariant value) else none
  | none => (constraintLoop L value v none cs).map .invariant

/-- The closure `constraint_mismatch`, type_var_matcher.rs 309-323. -/
def constraintMismatch (a : Arg K) (value : K) : Arg K × Match :=
  (if a.bound.calculated then a else { a with bound := .uncalculated (some value) },
    .false false (.other 0))

/-- `match_or_add_type_var`, type_var_matcher.rs 291-369. -/
def matchOrAdd (kind : Kind K) (a : Arg K) (value : K) (v : Variance) : Option (Arg K × Match) :=
  match kind with
  | .unrestricted => merge L a (.new value v)
  | .bound b =>
    if (L.cmp .cov b value).bool then merge L a (.new value v)
    else some (constraintMismatch a value)
  | .constraints cs =>
    match checkConstraints L cs value v with
    | some bound =>
      if a.bound.calculated then merge L a bound
      else some ({ a with bound }, Match.true (L.maybeAny value).isSome)
    | none => some (constraintMismatch a value)

/-- All the types that are matched with one type variable, in order, as long as they match.
`some none` is a mismatch. -/
def matchAll (kind : Kind K) (a : Arg K) : List (Variance × K) → Option (Option (Arg K))
  | [] => some (some a)
  | (v, k) :: cs =>
    (matchOrAdd L kind a k v).bind fun r =>
      if r.2.bool then matchAll kind r.1 cs else some none

/-- `reset_invalid_bounds_of_context`, mod.rs 1645-1659. -/
def resetContext (a : Arg K) : Arg K :=
  if a.bound.isNone L || !a.bound.calculated || a.uninferrable then {}
  else { a with byContext := true, anyInContext := a.bound.hasAny L }

/-- `replace_type_var_likes`, bound.rs 110-135; `f` replaces the type variables in a type, if
there are any to replace. -/
def Bound.replace (f : K → Option K) : Bound K → Option (Bound K)
  | .invariant t => (f t).map .invariant
  | .upper t => (f t).map .upper
  | .lower t => (f t).map .upper
  | .upperAndLower u l =>
    match f u, f l with
    | none, none => none
    | u', l' => some (.upperAndLower (u'.getD u) (l'.getD l))
  | .uncalculated (some t) => (f t).map fun t => .uncalculated (some t)
  | .uncalculated none => some (.uncalculated none)

/-- The inner loop of `resolve_cycle`, mod.rs 1407-1484; `inCycle` tells whether a constraint
mentions the cycle itself. -/
def resolveConstraints (f : K → Option K) (inCycle : Bound K → Bool) (current : Arg K) :
    List (Bound K) → Option (Option (Arg K))
  | [] => some (some current)
  | u :: us =>
    if inCycle u then resolveConstraints f inCycle current us
    else
      (merge L current ((u.replace f).getD u)).bind fun r =>
        if r.2.bool then resolveConstraints f inCycle r.1 us else some none

/-- `resolve_cycle`, mod.rs 1345-1493, for a cycle of type variables that each have a bound and
constraints; `some none` is a mismatch. -/
def resolveCycle (f : K → Option K) (inCycle : Bound K → Bool) (current : Arg K) :
    List (Arg K × List (Bound K)) → Option (Option (Arg K))
  | [] => some (some current)
  | (used, us) :: rest =>
    (merge L { current with byContext := current.byContext || used.byContext } used.bound).bind
      fun r =>
        if r.2.bool then
          (resolveConstraints L f inCycle r.1 us).bind fun c =>
            match c with
            | some c => resolveCycle f inCycle c rest
            | none => some none
        else some none

end Verif.Solve
