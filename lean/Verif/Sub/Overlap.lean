import Verif.Sub.Model

/-!
# Overlapping types

Model of `crates/zuban_python/src/type_/overlaps.rs`: whether two types have anything to
do with each other, which is used for comparisons with `==` and `in`, for overloads and for
`isinstance`.  Not modelled: intersections, typed dicts, type variables, `Self` and
callables.
-/

namespace Verif.Sub

open Verif.Match

/-- `iter().any(..)` -/
def anyO (f : Ty → Option Bool) : List Ty → Option Bool
  | [] => some false
  | t :: ts => (f t).bind fun b => if b then some true else anyO f ts

/-- `iter().all(..)` -/
def allO (f : Ty → Option Bool) : List Ty → Option Bool
  | [] => some true
  | t :: ts => (f t).bind fun b => if b then allO f ts else some false

/-- `iter().zip(..).all(..)` -/
def zipO (f : Ty → Ty → Option Bool) : List Ty → List Ty → Option Bool
  | a :: as, b :: bs => (f a b).bind fun r => if r then zipO f as bs else some false
  | _, _ => some true

/-- A loop with `matches &= ..` over two lists. -/
def zipAndO (f : Ty → Ty → Option Bool) : Bool → List Ty → List Ty → Option Bool
  | r, a :: as, b :: bs => (f a b).bind fun b => zipAndO f (r && b) as bs
  | r, _, _ => some r

/-- `a && b`, where `b` is computed only if needed. -/
def andO (a : Option Bool) (b : Unit → Option Bool) : Option Bool :=
  a.bind fun r => if r then b () else some false

/-- `a || b`, where `b` is computed only if needed. -/
def orO (a : Option Bool) (b : Unit → Option Bool) : Option Bool :=
  a.bind fun r => if r then some true else b ()

/-- The type arguments of a class in a method resolution order. -/
def argsOf (c : Nat) : List Ty → Option (List Ty)
  | [] => none
  | .cls d as :: ts => if d = c then some as else argsOf c ts
  | _ :: ts => argsOf c ts

/-- `is_object`, type_/mod.rs. -/
def Ty.isObj (w : World) : Ty → Bool
  | .cls c _ => c == w.object
  | _ => false

variable (w : World) (allow : Nat → Bool)

mutual
/-- `overlaps_internal`, overlaps.rs 45-132.  `allow` are the classes of
`OVERLAPPING_TYPES_ALLOWLIST`, overlaps.rs 18-27. -/
def overlaps : Nat → Ty → Ty → Option Bool
  | 0, _, _ => none
  | n + 1, t, s =>
    match t with
    | .union ts => anyO (fun u => overlaps n u s) ts
    | _ =>
      match s with
      | .union ss => anyO (fun u => overlaps n t u) ss
      | .any => some true
      | .lit l =>
        match t with
        | .lit l' => some (decide (l' = l))
        | _ => overlaps n t (.cls (fallback w l) [])
      | .type t2 => orO (overlapsType n t2 t) (fun _ => overlapsLeft n t s)
      | _ => overlapsLeft n t s

/-- overlaps.rs 94-131. -/
def overlapsLeft : Nat → Ty → Ty → Option Bool
  | 0, _, _ => none
  | n + 1, t, s =>
    match t with
    | .cls c as =>
      match s with
      | .cls d bs =>
        (overlapsClass n c as d bs).bind fun r =>
          match r with
          | some b => some b
          | none => related n t s
      | _ => related n t s
    | .type t1 => overlapsType n t1 s
    | .lit l => overlaps n (.cls (fallback w l) []) s
    | .fixed _ | .arb _ | .unpack _ _ _ =>
      match s with
      | .fixed _ | .arb _ | .unpack _ _ _ => overlapsTuple n t s
      | _ => related n t s
    | _ => related n t s

/-- overlaps.rs 130-131. -/
def related : Nat → Ty → Ty → Option Bool
  | 0, _, _ => none
  | n + 1, t, s =>
    orO ((isSuper w n true s t).map Match.bool) (fun _ => (isSuper w n false t s).map Match.bool)

/-- `overlaps_type_of_type_against_other`, overlaps.rs 134-170. -/
def overlapsType : Nat → Ty → Ty → Option Bool
  | 0, _, _ => none
  | n + 1, t, s =>
    match s with
    | .type t2 => overlaps n t t2
    | .cls c as =>
      let rest := fun (_ : Unit) =>
        orO (some (s.isObj w)) (fun _ =>
          andO (some (w.cls c).isMeta) (fun _ => overlaps n t (.cls c as)))
      match t with
      | .cls d _ =>
        match (w.cls d).metaclass with
        | some m => overlaps n (.cls m []) (.cls c as)
        | none => rest ()
      | _ => rest ()
    | .any => some true
    | _ => some false

/-- `overlaps_class`, overlaps.rs 271-322. -/
def overlapsClass : Nat → Nat → List Ty → Nat → List Ty → Option (Option Bool)
  | 0, _, _, _, _ => none
  | n + 1, c, as, d, bs =>
    match argsOf d (mro w (.cls c as)) with
    | some as' => (zipAndO (fun a b => overlaps n a b) true as' bs).map some
    | none =>
      match argsOf c (mro w (.cls d bs)) with
      | some bs' => (zipAndO (fun a b => overlaps n a b) true as bs').map some
      | none => some (if allow c && allow d then some true else none)

/-- `TupleArgs::overlaps`, overlaps.rs 174-268. -/
def overlapsTuple : Nat → Ty → Ty → Option Bool
  | 0, _, _ => none
  | n + 1, t, s =>
    match t, s with
    | .fixed ts, .fixed ss =>
      zipAndO (fun a b => overlaps n a b) (decide (ts.length = ss.length)) ts ss
    | .arb a, .arb b => overlaps n a b
    | .arb a, .fixed ss => allO (fun b => overlaps n a b) ss
    | .fixed ts, .arb b => allO (fun a => overlaps n a b) ts
    | .unpack pre _ post, .arb a => allO (fun b => overlaps n a b) (pre ++ post)
    | .arb a, .unpack pre _ post => allO (fun b => overlaps n a b) (pre ++ post)
    | .unpack pre mid post, .unpack pre2 mid2 post2 =>
      andO (zipO (fun a b => overlaps n a b) pre pre2) (fun _ =>
        andO (zipO (fun a b => overlaps n a b) post post2) (fun _ => overlaps n mid mid2))
    | .unpack pre mid post, .fixed ss =>
      if pre.length + post.length > ss.length then some false
      else
        andO (zipO (fun a b => overlaps n a b) pre ss) (fun _ =>
          andO (zipO (fun a b => overlaps n a b) post.reverse ss.reverse) (fun _ =>
            allO (fun b => overlaps n mid b)
              ((ss.drop pre.length).take (ss.length - post.length - pre.length))))
    | .fixed _, .unpack _ _ _ => overlapsTuple n s t
    | _, _ => some false
end

end Verif.Sub
