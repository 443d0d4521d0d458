import Verif.Sub.Basic
import Verif.Union.Model

/-!
# Common base types and common subtypes

Model of `common_base_type.rs` and `common_sub_type.rs` in
`crates/zuban_python/src/type_`.  Left out as in `Verif.Sub.Model`, and also
literals that are implicit and `Any` for unknown type parameters.
-/

namespace Verif.Sub

open Verif.Match

/-- The key of `sort_for_priority`, union.rs 346-355. -/
def priority : Ty → Int
  | .lit _ => -1
  | .none => 2
  | .var _ => 3
  | .any => 4
  | _ => 0

/-- `sort_for_priority`, a stable sort. -/
def sortUnion (ts : List Ty) : List Ty := Verif.Union.sortBy priority ts

/-- The types that are not in the list yet are put at its end. -/
def pushNew (ts : List Ty) : List Ty → List Ty
  | [] => ts
  | u :: us => pushNew (if u ∈ ts then ts else ts ++ [u]) us

/-- `union`, type_/mod.rs 1066-1130. -/
def plainUnion (t s : Ty) : Ty :=
  match t, s with
  | .union ts, .union ss => .union (sortUnion (pushNew ts ss))
  | .union ts, .never => .union (sortUnion ts)
  | .union ts, s => .union (sortUnion (pushNew ts [s]))
  | .never, s => s
  | t, .union ss => if t ∈ ss then .union ss else .union (sortUnion (ss ++ [t]))
  | t, s => if t = s ∨ s = .never then t else .union (sortUnion [t, s])

/-- The loop of `common_sub_type_for_union`, common_sub_type.rs 240-258. -/
def subUnion (f : Ty → Option (Option Ty)) : Option Ty → List Ty → Option (Option Ty)
  | r, [] => some r
  | r, t :: ts =>
    (f t).bind fun found =>
      match found, r with
      | none, r => subUnion f r ts
      | some u, none => subUnion f (some u) ts
      | some u, some r => subUnion f (some (plainUnion r u)) ts

/-- Items one by one; ends early when two have no result. -/
def subZip (f : Ty → Ty → Option (Option Ty)) : List Ty → List Ty → Option (Option (List Ty))
  | t :: ts, s :: ss =>
    (f t s).bind fun r =>
      match r with
      | none => some none
      | some u => (subZip f ts ss).map (Option.map (u :: ·))
  | _, _ => some (some [])

variable (w : World)

mutual
/-- `common_sub_type`, common_sub_type.rs 16-53; the outer `none` is a lack of
fuel. -/
def commonSub : Nat → Ty → Ty → Option (Option Ty)
  | 0, _, _ => none
  | n + 1, t, s =>
    match t, s with
    | .union us, s => subUnion (fun u => commonSub n u s) none us
    | t, .union us => subUnion (fun u => commonSub n u t) none us
    | .any, s => some (some s)
    | t, .any => some (some t)
    | .type t1, .type s1 =>
      (commonSub n t1 s1).map fun r =>
        r.map fun u => if u = t1 then t else if u = s1 then s else .type u
    | t, s =>
      match tupleSub n t s with
      | some r => r
      | none =>
        (isSuper w n false s t).bind fun m =>
          if m.bool then some (some t)
          else (isSuper w n false t s).map fun m => if m.bool then some s else none

/-- `TupleArgs::common_sub_type`, common_sub_type.rs 55-121; the outermost `none`
is for types that are not both tuples. -/
def tupleSub : Nat → Ty → Ty → Option (Option (Option Ty))
  | 0, _, _ => some none
  | n + 1, t, s =>
    match t, s with
    | .fixed ts, .fixed ss =>
      some <| if ts.length ≠ ss.length then some none
      else (subZip (fun a b => commonSub n a b) ts ss).map (Option.map .fixed)
    | .arb a, .arb b => some <| (commonSub n a b).map (Option.map .arb)
    | .arb b, .fixed ts =>
      some <| (subZip (fun a b => commonSub n a b) ts (ts.map fun _ => b)).map (Option.map .fixed)
    | .fixed ts, .arb b =>
      some <| (subZip (fun a b => commonSub n a b) ts (ts.map fun _ => b)).map (Option.map .fixed)
    | .fixed ts, .unpack pre mid post => some <| fixedUnpack n ts pre mid post
    | .unpack pre mid post, .fixed ts => some <| fixedUnpack n ts pre mid post
    | .unpack pre mid post, .arb b => some <| unpackArb n pre mid post b
    | .arb b, .unpack pre mid post => some <| unpackArb n pre mid post b
    | .unpack a b c, .unpack a' b' c' =>
      some <| some <| if a = a' ∧ b = b' ∧ c = c' then some (.unpack a b c) else none
    | _, _ => none

/-- common_sub_type.rs 81-98. -/
def fixedUnpack : Nat → List Ty → List Ty → Ty → List Ty → Option (Option Ty)
  | 0, _, _, _, _ => none
  | n + 1, ts, pre, mid, post =>
    if ts.length < pre.length + post.length then some none
    else
      (subZip (fun a b => commonSub n a b) ts
        (pre ++ List.replicate (ts.length - (pre.length + post.length)) mid ++ post)).map
          (Option.map .fixed)

/-- common_sub_type.rs 99-116. -/
def unpackArb : Nat → List Ty → Ty → List Ty → Ty → Option (Option Ty)
  | 0, _, _, _, _ => none
  | n + 1, pre, mid, post, b =>
    (subZip (fun a b => commonSub n a b) pre (pre.map fun _ => b)).bind fun x =>
    match x with
    | none => some none
    | some x =>
      (commonSub n mid b).bind fun y =>
      match y with
      | none => some none
      | some y =>
        (subZip (fun a b => commonSub n a b) post (post.map fun _ => b)).map
          (Option.map fun z => .unpack x y z)
end

/-- `check_promotion`, common_base_type.rs 150-163. -/
def promotesTo : Nat → Nat → Nat → Option Bool
  | 0, _, _ => none
  | n + 1, c, d =>
    match (w.cls c).promote with
    | some e => if e = d then some true else promotesTo n e d
    | none => some false

/-- The first result of a nested loop over two lists. -/
def firstPair (f : Ty → Ty → Option (Option Ty)) (ss : List Ty) : List Ty → Option (Option Ty)
  | [] => some none
  | t :: ts =>
    (go t ss).bind fun r =>
      match r with
      | some u => some (some u)
      | none => firstPair f ss ts
where
  go (t : Ty) : List Ty → Option (Option Ty)
    | [] => some none
    | s :: ss =>
      (f t s).bind fun r =>
        match r with
        | some u => some (some u)
        | none => go t ss

/-- The type arguments of a common base class, common_base_type.rs 192-255. -/
def baseArgs (same : Ty → Ty → Option Match) (base : Ty → Ty → Option Ty)
    (sub : Ty → Ty → Option (Option Ty)) :
    List Variance → List Ty → List Ty → Option (Option (List Ty))
  | v :: vs, a :: as, b :: bs =>
    (match v with
      | .inv =>
        (same a b).map fun m =>
          match m with
          | Match.true false => some a
          | Match.true true => some b
          | _ => none
      | .cov => (base a b).map some
      | .contra => sub a b).bind fun r =>
    match r with
    | none => some none
    | some u => (baseArgs same base sub vs as bs).map (Option.map (u :: ·))
  | _, _, _ => some (some [])

/-- Items one by one. -/
def baseZip (f : Ty → Ty → Option Ty) : List Ty → List Ty → Option (List Ty)
  | t :: ts, s :: ss => (f t s).bind fun u => (baseZip f ts ss).map (u :: ·)
  | _, _ => some []

/-- `common_base_type_from_iterator`, common_base_type.rs 593-607. -/
def baseFold (f : Ty → Ty → Option Ty) : Option Ty → List Ty → Option Ty
  | r, [] => some (r.getD .never)
  | none, t :: ts => baseFold f (some t) ts
  | some r, t :: ts => (f r t).bind fun u => baseFold f (some u) ts

def Ty.isObject : Ty → Bool
  | .cls c _ => c == w.object
  | _ => false

def Ty.isProtocol : Ty → Bool
  | .cls c _ => (w.cls c).isProtocol
  | _ => false

/-- Whether an entry of the mro is a class and not another type. -/
def Ty.isClass : Ty → Bool
  | .cls _ _ => true
  | _ => false

/-- `check_both_sides`, common_base_type.rs 54-96. -/
def bothSides (su : Ty → Ty → Ty) (t s : Ty) (t1 t2 : Ty) : Option Ty :=
  match t1 with
  | .none | .union _ => some (if s.isObject w then s else su t s)
  | .any => some .any
  | .never => some t2
  | _ => none

/-- The types of the items of a tuple. -/
def Ty.items : Ty → List Ty
  | .fixed ts => ts
  | .arb t => [t]
  | .unpack a b c => a ++ b :: c
  | _ => []

/-- The cases with `*tuple[..]`, common_base_type.rs 655-700. -/
def unpackBase (su : Ty → Ty → Ty) (t s : Ty) : Ty :=
  match t, s with
  | .unpack a b c, .unpack a' b' c' =>
    if a.length = a'.length ∧ c.length = c'.length then
      .unpack (List.zipWith su a a') (su b b') (List.zipWith su c c')
    else .arb (su (w.join t.items) (w.join s.items))
  | t, s => .arb (su (w.join t.items) (w.join s.items))
mutual
/-- `common_base_type_internal`, common_base_type.rs 41-143; `su` is
`simplified_union` and `seen` are the pairs that are being compared. -/
def commonBase (su : Ty → Ty → Ty) : Nat → List (Ty × Ty) → Ty → Ty → Option Ty
  | 0, _, _, _ => none
  | n + 1, seen, t, s =>
    if (t, s) ∈ seen then some (.cls w.object [])
    else
      match bothSides w su t s t s with
      | some r => some r
      | none =>
        match bothSides w su t s s t with
        | some r => some r
        | none =>
          (firstPair (fun a b => basePair su n ((t, s) :: seen) (t.isProtocol w || s.isProtocol w) a b)
            (mro w s) (mro w t)).map fun r =>
            match r with
            | some u => u
            | none =>
              if t.isProtocol w && (w.structural t s).bool then t
              else if s.isProtocol w && (w.structural s t).bool then s
              else .cls w.object []

/-- The body of the nested loop, common_base_type.rs 104-129, with
`common_base_type_for_non_class`, 270-333. -/
def basePair (su : Ty → Ty → Ty) : Nat → List (Ty × Ty) → Bool → Ty → Ty → Option (Option Ty)
  | 0, _, _, _, _ => none
  | n + 1, seen, protocol, a, b =>
    match a, b with
    | .cls c as, .cls d bs =>
      (baseClass su n seen c as d bs).map fun r =>
        if c == w.object && protocol then none else r
    | .cls _ _, _ => some none
    | _, .cls _ _ => some none
    | .type t1, .type t2 => (commonBase su n seen t1 t2).map fun u => some (.type u)
    | .type _, _ => some none
    | .fixed _, b | .arb _, b | .unpack _ _ _, b =>
      match b with
      | .fixed _ | .arb _ | .unpack _ _ _ => (baseTuple su n seen a b).map some
      | _ => some none
    | a, b => (isSame w n false a b).map fun m => if m.bool then some a else none

/-- `common_base_class`, common_base_type.rs 165-257. -/
def baseClass (su : Ty → Ty → Ty) :
    Nat → List (Ty × Ty) → Nat → List Ty → Nat → List Ty → Option (Option Ty)
  | 0, _, _, _, _, _ => none
  | n + 1, seen, c, as, d, bs =>
    (if c ≠ d then some none
      else if (w.cls c).params.isEmpty then some (some (.cls c as))
      else
        (baseArgs (fun a b => isSame w n false a b) (fun a b => commonBase su n seen a b)
          (fun a b => commonSub w n a b) (w.cls c).params as bs).map
          (Option.map (.cls c))).bind fun r =>
    match r with
    | some u => some (some u)
    | none =>
      (promotesTo w n c d).bind fun p =>
        if p then some (some (.cls d []))
        else (promotesTo w n d c).map fun p => if p then some (.cls c []) else none

/-- `TupleArgs::common_base_type`, common_base_type.rs 609-702. -/
def baseTuple (su : Ty → Ty → Ty) : Nat → List (Ty × Ty) → Ty → Ty → Option Ty
  | 0, _, _, _ => none
  | n + 1, seen, t, s =>
    if t = s then some t
    else if t = .arb .any then some t
    else if s = .arb .any then some s
    else
      match t, s with
      | .fixed ts, .fixed ss =>
        if ts.length = ss.length then
          (baseZip (fun a b => commonBase su n seen a b) ts ss).map .fixed
        else (baseFold (fun a b => commonBase su n seen a b) none (ts ++ ss)).map .arb
      | .arb a, .arb b => (commonBase su n seen a b).map .arb
      | .arb a, .fixed ts =>
        (baseFold (fun a b => commonBase su n seen a b) none (a :: ts)).map .arb
      | .fixed ts, .arb a =>
        (baseFold (fun a b => commonBase su n seen a b) none (a :: ts)).map .arb
      | t, s => some (unpackBase w su t s)
end

end Verif.Sub
