/-!
# Overlapping types

Model of crates/zuban_python/src/type_/overlaps.rs. Left out are `type[...]`, callables, typed dicts, type
variables, protocols and the arguments of generic classes. Classes are numbers, `object` is `0`.
-/

namespace Verif.Overlap

inductive Ty where
  | any
  /-- `None` -/
  | nothing
  | cls (c : Nat)
  /-- A literal of a class, with the value that `LiteralValue` has. -/
  | lit (c n : Nat)
  | union (ts : List Ty)
  | inter (ts : List Ty)

structure World where
  /-- The resolution order of a class, without the class and `object`. -/
  mro : Nat → List Nat
  /-- `OVERLAPPING_TYPES_ALLOWLIST` -/
  allowed : Nat → Bool

variable (w : World)

/-- A class is found in `mro()` of another, overlaps.rs 290-303. -/
def inMro (c d : Nat) : Bool := c == d || (w.mro c).contains d || d == 0

/-- `overlaps_class`, overlaps.rs 271-322, and the check for subtypes at the end of `overlaps_internal`, which
adds nothing for classes. -/
def classes (c d : Nat) : Bool := inMro w c d || inMro w d c || (w.allowed c && w.allowed d)

/-- `overlaps_internal` for classes and `None`, overlaps.rs 94-130. -/
def plain : Ty → Ty → Bool
  | .any, _ | _, .any => true
  | .cls c, .cls d => classes w c d
  | .cls c, .nothing | .nothing, .cls c => c == 0
  | .nothing, .nothing => true
  | _, _ => false

/-- Types that are no unions and intersections: literals are compared or replaced by their classes,
overlaps.rs 72-77, 109-111. -/
def atom : Ty → Ty → Bool
  | .lit _ n, .lit _ m => n == m
  | t, .lit d _ => plain w t (.cls d)
  | .lit c _, t => plain w (.cls c) t
  | t, u => plain w t u

mutual
  /-- Unions and intersections on the right, overlaps.rs 61-70. -/
  def right (t : Ty) : Ty → Bool
    | .union us => rightAny t us
    | .inter us => rightAny t us
    | .any => atom w t .any
    | .nothing => atom w t .nothing
    | .cls c => atom w t (.cls c)
    | .lit c n => atom w t (.lit c n)
  def rightAny (t : Ty) : List Ty → Bool
    | [] => false
    | u :: us => right t u || rightAny t us
end

mutual
  /-- `overlaps_internal`: unions and intersections on the left come first, overlaps.rs 49-59. -/
  def overlaps (u : Ty) : Ty → Bool
    | .union ts => overlapsAny u ts
    | .inter ts => overlapsAny u ts
    | .any => right w .any u
    | .nothing => right w .nothing u
    | .cls c => right w (.cls c) u
    | .lit c n => right w (.lit c n) u
  def overlapsAny (u : Ty) : List Ty → Bool
    | [] => false
    | t :: ts => overlaps u t || overlapsAny u ts
end

/-! ## Tuples -/

/-- `TupleArgs`; without a type the unpacked part is a `TypeVarTuple`. -/
inductive Args (α : Type) where
  | fixed (ts : List α)
  | arbitrary (t : α)
  | unpack (before : List α) (middle : Option α) (after : List α)

variable {α : Type} (ov : α → α → Bool)

/-- `zip(...).all(...)` -/
def zipAll (ts us : List α) : Bool := (ts.zip us).all fun p => ov p.1 p.2

/-- Two tuples of fixed lengths, overlaps.rs 177-201. -/
def fixedFixed : List α → List α → Bool
  | [], us => us.isEmpty
  | t :: ts, u :: us => ov t u && fixedFixed ts us
  | _ :: _, [] => false

/-- `(WithUnpack, FixedLen)`, overlaps.rs 244-265. -/
def unpackFixed (before : List α) (middle : Option α) (after us : List α) : Bool :=
  if before.length + after.length > us.length then false
  else
    zipAll ov before us && zipAll ov after.reverse us.reverse &&
      match middle with
      | some t => ((us.drop before.length).take (us.length - after.length - before.length)).all (ov t)
      | none => true

/-- `TupleArgs::overlaps`, overlaps.rs 173-268. -/
def tuples : Args α → Args α → Bool
  | .fixed ts, .fixed us => fixedFixed ov ts us
  | .arbitrary t, .arbitrary u => ov t u
  | .arbitrary t, .fixed us => us.all (ov t)
  | .fixed ts, .arbitrary u => ts.all fun t => ov t u
  | .unpack b _ a, .arbitrary t => (b ++ a).all (ov t)
  | .arbitrary t, .unpack b _ a => (b ++ a).all (ov t)
  | .unpack b1 m1 a1, .unpack b2 m2 a2 =>
    zipAll ov b1 b2 && zipAll ov a1 a2 &&
      match m1, m2 with
      | some t, some u => ov t u
      | _, _ => true
  | .unpack b m a, .fixed us => unpackFixed ov b m a us
  | .fixed us, .unpack b m a => unpackFixed ov b m a us

end Verif.Overlap
