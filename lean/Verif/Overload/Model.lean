/-! # Calls of overloaded functions

crates/zuban_python/src/type_helpers/overload.rs, with the materializations of
crates/zuban_python/src/type_/mod.rs 583-653 and `merge_matching_parts` of
crates/zuban_python/src/type_/mod.rs 1836-1893.

Simplified: types are classes without generics, `bool`, enums, tuples and unions; the return types of
overloads have no type variables.  The comparison of arguments with one signature is a parameter (it is
modelled in `Verif.Call` and `Verif.Match`). -/

namespace Verif.Overload

/-- A type. -/
inductive Ty where
  | any
  | cls (n : Nat)
  | bool
  | lit (b : Bool)
  | enum (id size : Nat)
  | member (id size index : Nat)
  | tuple (items : List Ty)
  | anyTuple
  | union (entries : List Ty)

mutual
/-- `is_equal_type`. -/
def Ty.eq : Ty → Ty → Bool
  | .any, .any => true
  | .cls a, .cls b => a == b
  | .bool, .bool => true
  | .lit a, .lit b => a == b
  | .enum a b, .enum c d => a == c && b == d
  | .member a b c, .member d e f => a == d && b == e && c == f
  | .tuple as, .tuple bs => Ty.eqs as bs
  | .anyTuple, .anyTuple => true
  | .union as, .union bs => Ty.eqs as bs
  | _, _ => false

/-- The same for lists. -/
def Ty.eqs : List Ty → List Ty → Bool
  | [], [] => true
  | a :: as, b :: bs => Ty.eq a b && Ty.eqs as bs
  | _, _ => false
end

/-! ## Materializations -/

/-- The pushes of one union in `maybe_union_like_with_materializations`, type_/mod.rs 617-630: the
tuples so far are repeated, then each entry is pushed to some of them. -/
def spread (ts : List (List Ty)) (us : List Ty) : List (List Ty) :=
  let extended := ts ++ (List.replicate (us.length - 1) ts).flatten
  (List.range ts.length).foldl (fun acc j =>
    us.zipIdx.foldl (fun acc u => acc.modify (j * us.length + u.2) (· ++ [u.1])) acc) extended

/-- The loop over the items of a tuple, type_/mod.rs 613-637. -/
def spreadLoop : List (Ty × Option (List Ty)) → List (List Ty) → Option (List (List Ty))
  | [], ts => some ts
  | (item, none) :: rest, ts => spreadLoop rest (ts.map (· ++ [item]))
  | (_, some us) :: rest, ts =>
    if 20 < us.length * ts.length then none else spreadLoop rest (spread ts us)

mutual
/-- `maybe_union_like_with_materializations`, type_/mod.rs 583-653. -/
def mat : Ty → Option (List Ty)
  | .union es => some es
  | .bool => some [.lit true, .lit false]
  | .enum id n =>
    if n < 20 && 1 < n then some ((List.range n).map fun i => .member id n i) else none
  | .tuple items =>
    let us := mats items
    if us.all (·.isNone) then none
    else
      match spreadLoop (items.zip us) [[]] with
      | some ts => if ts.length ≤ 1 then none else some (ts.map .tuple)
      | none => none
  | _ => none

/-- `union_for_each_entry`, type_/mod.rs 606-609. -/
def mats : List Ty → List (Option (List Ty))
  | [] => []
  | t :: ts => mat t :: mats ts
end

/-- `is_union_like`, type_/mod.rs 554-561. -/
def isUnion : Ty → Bool
  | .union _ => true
  | _ => false

/-- The test of an argument in `should_do_union_math_for_overloads`, arguments.rs 52-76. -/
def wantsUnionMath : Ty → Bool
  | .union _ => true
  | .bool => true
  | .enum _ _ => true
  | .tuple items => items.any isUnion
  | _ => false

/-! ## Signatures -/

/-- `SignatureMatch`, match_.rs 14-26. -/
inductive SigMatch where
  | no (similar : Bool)
  | withAny (indices : List (Nat × Ty))
  | yes (arbitraryLengthHandled : Bool)

/-- An overload: its name, its return type and whether it has a type guard. -/
structure Sig where
  id : Nat
  ret : Ty
  guard : Bool := false

/-- The comparison of arguments with a signature, with or without a context: the result and whether
there was an error while the arguments were inferred. -/
abbrev Run := Bool → Sig → List Ty → SigMatch × Bool

/-- `are_any_arguments_ambiguous_in_overload`, overload.rs 663-679. -/
def ambiguous (a b : List (Nat × Ty)) : Bool :=
  a.any fun p => b.any fun q => p.1 == q.1 && !Ty.eq p.2 q.2

/-! ## Union math -/

/-- `UnionMathResult`, overload.rs 38-46; `panic` is the `unwrap` of overload.rs 412. -/
inductive UnionMath where
  | firstSimilar (i : Nat)
  | found (i : Nat) (result : Ty)
  | noMatch
  | tooManyUnions
  | panic

/-- The loop over the overloads of `check_union_math`, overload.rs 432-476. -/
def leaf (run : Sig → List Ty → SigMatch) (args : List Ty) :
    List Sig → Nat → Option Nat → UnionMath
  | [], _, some i => .firstSimilar i
  | [], _, none => .noMatch
  | s :: rest, i, similar =>
    match run s args with
    | .withAny _ => .found i s.ret
    | .yes _ => .found i s.ret
    | .no true => leaf run args rest (i + 1) (similar.or (some i))
    | .no false => leaf run args rest (i + 1) similar

/-- The index of a result, overload.rs 380-389. -/
def UnionMath.index : UnionMath → Option Nat
  | .found i _ => some i
  | .firstSimilar i => some i
  | _ => none

/-- The smaller one of the indices. -/
def minIndex (old : Option Nat) (r : UnionMath) : Option Nat :=
  match r.index, old with
  | some i, some f => if i < f then some i else some f
  | some i, none => some i
  | none, _ => old

/-- The loop over the entries of a union, overload.rs 362-414; the recursive calls have been made. -/
def combine (join : Ty → Ty → Ty) : List UnionMath → Ty → Option Nat → Bool → UnionMath
  | [], _, some i, true => .firstSimilar i
  | [], _, none, true => .noMatch
  | [], t, some i, false => .found i t
  | [], _, none, false => .panic
  | r :: rest, t, similar, mismatch =>
    match r with
    | .tooManyUnions => .tooManyUnions
    | .panic => .panic
    | .found _ u =>
      if mismatch then combine join rest t (minIndex similar r) true
      else combine join rest (join t u) (minIndex similar r) false
    | _ => combine join rest t (minIndex similar r) true

/-- `check_union_math`, overload.rs 311-484. -/
def unionMath (join : Ty → Ty → Ty) (run : Sig → List Ty → SigMatch) (sigs : List Sig) :
    List Ty → Nat → List Ty → UnionMath
  | [], depth, done =>
    if 5 ≤ depth then .tooManyUnions else leaf run done sigs 0 none
  | a :: rest, depth, done =>
    if 5 ≤ depth then .tooManyUnions
    else
      match mat a with
      | none => unionMath join run sigs rest depth (done ++ [a])
      | some us =>
        combine join (us.map fun u => unionMath join run sigs rest (depth + 1) (done ++ [u]))
          (.union []) none false

/-! ## Resolution -/

/-- `OverloadResult`, overload.rs 32-36. -/
inductive Result where
  | single (s : Sig)
  | union (t : Ty)
  | notFound
  | panic

/-- The issues of a call. -/
inductive Issue where
  | tooManyUnions
  | mismatch
  | call
deriving DecidableEq

/-- The variables of the loop of `find_matching_function`, overload.rs 114-118. -/
structure State where
  notHandled : Option Sig := none
  similar : Option Sig := none
  anyMatch : Option (Sig × List (Nat × Ty)) := none

/-- The loop of `find_matching_function`, overload.rs 119-194; a result or the variables. -/
def loop (run : Sig → List Ty → SigMatch × Bool) (args : List Ty) :
    List Sig → State → Result ⊕ State
  | [], st => .inr st
  | s :: rest, st =>
    match run s args with
    | (.yes handled, false) =>
      if st.anyMatch.isSome then .inl .notFound
      else if !handled then loop run args rest { st with notHandled := st.notHandled.or (some s) }
      else .inl (.single s)
    | (.withAny indices, false) =>
      match st.anyMatch with
      | some (other, old) =>
        if ambiguous old indices && !(Ty.eq other.ret s.ret && !s.guard && !other.guard) then
          .inl .notFound
        else loop run args rest st
      | none => loop run args rest { st with anyMatch := some (s, indices) }
    | (.no false, _) => loop run args rest st
    | _ => loop run args rest { st with similar := st.similar.or (some s) }

/-- The options of `find_matching_function`. -/
structure Opts where
  join : Ty → Ty → Ty
  mypy : Bool

/-- The part of `find_matching_function` after the loop, overload.rs 195-303, for one context; the
last value is the result without the rerun. -/
def afterLoop (o : Opts) (run : Sig → List Ty → SigMatch × Bool) (sigs : List Sig) (args : List Ty)
    (st : State) : Sum (Result × List Issue) (Option Sig × List Issue) :=
  match st.anyMatch with
  | some (s, _) => .inl (.single s, [])
  | none =>
    match st.notHandled with
    | some s => .inl (.single s, [])
    | none =>
      if (st.similar.isNone || !o.mypy) && args.any wantsUnionMath then
        match unionMath o.join (fun s a => (run s a).1) sigs args 0 [] with
        | .found _ t => .inl (.union t, [])
        | .firstSimilar i => .inr (sigs[i]?, [])
        | .noMatch => .inr (st.similar, [])
        | .tooManyUnions => .inr (st.similar, [.tooManyUnions])
        | .panic => .inl (.panic, [])
      else .inr (st.similar, [])

/-- `find_matching_function`, overload.rs 53-309, without the rerun: a result, or the overload that is
similar. -/
def findOnce (o : Opts) (run : Sig → List Ty → SigMatch × Bool) (sigs : List Sig) (args : List Ty) :
    Sum (Result × List Issue) (Option Sig × List Issue) :=
  match loop run args sigs {} with
  | .inl r => .inl (r, [])
  | .inr st => afterLoop o run sigs args st

/-- The end of `find_matching_function`, overload.rs 270-308. -/
def conclude : Sum (Result × List Issue) (Option Sig × List Issue) → Result × List Issue
  | .inl r => r
  | .inr (some s, is) => (.single s, is)
  | .inr (none, is) => (.notFound, is ++ [.mismatch])

/-- `find_matching_function`, overload.rs 53-309: with a context there is a second run without it. -/
def find (o : Opts) (run : Run) (sigs : List Sig) (args : List Ty) (context : Bool) :
    Result × List Issue :=
  match findOnce o (run context) sigs args with
  | .inl r => r
  | .inr (s, is) =>
    if context then
      let r := conclude (findOnce o (run false) sigs args)
      (r.1, is ++ r.2)
    else conclude (.inr (s, is))

/-! ## The type of a call -/

mutual
/-- `merge_matching_parts`, type_/mod.rs 1836-1893 and type_/tuple.rs 609-626. -/
def merge : Ty → Ty → Ty
  | .cls a, .cls b => if a = b then .cls a else .any
  | .union us, .union vs => if us.all fun x => vs.any fun y => Ty.eq x y then .union us else .any
  | .union _, _ => .any
  | .tuple as, .tuple bs => if as.length = bs.length then .tuple (merges as bs) else .anyTuple
  | .tuple _, .anyTuple => .anyTuple
  | .tuple _, _ => .any
  | .anyTuple, .tuple _ => .anyTuple
  | .anyTuple, .anyTuple => .anyTuple
  | .anyTuple, _ => .any
  | a, b => if Ty.eq a b then a else .any

/-- The same for the items of tuples. -/
def merges : List Ty → List Ty → List Ty
  | a :: as, b :: bs => merge a b :: merges as bs
  | _, _ => []
end

/-- The type if no overload is found, overload.rs 598-643. -/
def fallback (mypy : Bool) : List Sig → Ty
  | [] => .any
  | s :: rest =>
    if mypy then rest.foldl (fun t u => merge t u.ret) s.ret
    else if rest.all fun u => Ty.eq s.ret u.ret then s.ret else .any

/-- Whether a signature is accepted without an issue. -/
def SigMatch.ok : SigMatch × Bool → Bool
  | (.no _, _) => false
  | (_, e) => !e

/-- `execute_internal`, overload.rs 551-645: the type of a call and its issues; executing a single
overload adds an issue if it does not accept the arguments. -/
def call (o : Opts) (run : Run) (sigs : List Sig) (args : List Ty) (context : Bool) :
    Option (Ty × List Issue) :=
  match find o run sigs args context with
  | (.single s, is) =>
    some (s.ret, is ++ if SigMatch.ok (run context s args) then [] else [.call])
  | (.union t, is) => some (t, is)
  | (.notFound, is) => some (fallback o.mypy sigs, is)
  | (.panic, _) => none

end Verif.Overload
