import Verif.Mro.Model

/-!
# Intersections

Model of crates/zuban_python/src/type_/intersection.rs, of `linearize_mro` in
file/type_computation/class.rs 2038-2076 and of `class_link_in_mro` there, 222-233.

Classes are numbers, `object` is `0`; they have no type parameters. The diagnostics of
`new_instance_intersection` are left out, only whether it fails is kept. Left out are `Self`, which is
replaced by the current class, and tuples, dataclasses and new types, which count as classes.
-/

namespace Verif.Intersect

/-- The types that matter here. -/
inductive Ty where
  | cls (c : Nat)
  /-- `None` -/
  | nothing
  | callable (n : Nat)
  | var (n : Nat)
  /-- Literals, typed dicts, modules and so on. -/
  | other (n : Nat)
  | inter (ts : List Ty)
  | union (ts : List Ty)
  /-- `type[...]` -/
  | type (t : Ty)
deriving Repr

structure World where
  /-- The order that is stored for a class, without the class and `object`. -/
  mro : Nat → List Nat
  final : Nat → Bool
  /-- `disjoint_base` of the stored infos. -/
  disjoint : Nat → Nat
  /-- `check_multiple_inheritance` has no issue. -/
  compatible : List Nat → Bool

variable (w : World)

/-- `class_link_in_mro`, class.rs 222-233. -/
def inMro (c link : Nat) : Bool := c == link || link == 0 || (w.mro c).contains link

/-- One base in the loop over disjoint bases, class.rs 2047-2065. -/
def layoutStep (s : Option Nat × Bool) (c : Nat) : Option Nat × Bool :=
  match s.1 with
  | none => (some (w.disjoint c), s.2)
  | some current =>
    if current == w.disjoint c then s
    else if inMro w c current then (some (w.disjoint c), s.2)
    else if !inMro w current (w.disjoint c) then (some current, true)
    else s

/-- The loop over disjoint bases: the disjoint base of the class, and whether there is a conflict. -/
def layout (cs : List Nat) : Option Nat × Bool := cs.foldl (layoutStep w) (none, false)

/-- `is_valid` of `linearize_mro`, class.rs 2038-2076. -/
def valid (cs : List Nat) : Bool :=
  (Mro.linearize 0 (cs.map fun c => (c, w.mro c))).2 && !(layout w cs).2

/-- `is_subclassable`, type_/mod.rs 1479-1489. -/
def Ty.subclassable : Ty → Bool
  | .cls _ => true
  | _ => false

/-- `is_intersectable`, type_/mod.rs 1491-1493. -/
def Ty.intersectable : Ty → Bool
  | .cls _ | .inter _ => true
  | _ => false

/-- The entries that a type adds, intersection.rs 36-40. -/
def Ty.entries : Ty → List Ty
  | .inter ts => ts
  | t => [t]

/-- `from_types`, intersection.rs 34-44. -/
def both (t1 t2 : Ty) : List Ty := t1.entries ++ t2.entries

def Ty.asClass : Ty → Option Nat
  | .cls c => some c
  | _ => none

def Ty.isCallable : Ty → Bool
  | .callable _ => true
  | _ => false

/-- A final class among the entries, intersection.rs 158-168. -/
def hasFinal (ts : List Ty) : Bool := (ts.filterMap Ty.asClass).any w.final

/-- The checks after the special cases, intersection.rs 130-243. -/
def meet (t1 t2 : Ty) : Option Ty :=
  if !t1.intersectable then none
  else if !t2.intersectable then none
  else if hasFinal w (both t1 t2) then none
  else if !valid w ((both t1 t2).filterMap Ty.asClass) then none
  else if w.compatible ((both t1 t2).filterMap Ty.asClass) then some (.inter (both t1 t2))
  else if w.compatible ((both t2 t1).filterMap Ty.asClass) then some (.inter (both t2 t1))
  else none

/-- The intersection stays as it is if one of the types cannot have subclasses, intersection.rs
117-128. -/
def keeps (t1 t2 : Ty) : Bool :=
  match t1, t2 with
  | .inter ts, t => !t.subclassable || ts.any fun t => !t.subclassable
  | t, .inter ts => !t.subclassable || ts.any fun t => !t.subclassable
  | _, _ => false

/-- The members for which there is an intersection, intersection.rs 52-81. -/
def members (rs : List (Option Ty)) : Option Ty :=
  if (rs.filterMap id).isEmpty then none else some (.union (rs.filterMap id))

/-- `new_instance_intersection`, intersection.rs 46-244. -/
def newInstance (t1 t2 : Ty) : Option Ty :=
  match t1, t2 with
  | .type t1, .type t2 => (newInstance t1 t2).map .type
  | .union us, t2 => members (us.attach.map fun u => newInstance t2 u.1)
  | t1, .union us => members (us.attach.map fun u => newInstance t1 u.1)
  | t1, .var n => some (.inter (both t1 (.var n)))
  | .var n, t2 => some (.inter (both (.var n) t2))
  | t1, t2 => if keeps t1 t2 then some (.inter (both t1 t2)) else meet w t1 t2
termination_by sizeOf t1 + sizeOf t2
decreasing_by
  · simp; omega
  · have := List.sizeOf_lt_of_mem u.2
    simp; omega
  · have := List.sizeOf_lt_of_mem u.2
    simp; omega

/-- What is done with one entry: the result and the issues. -/
structure Attempt (R : Type) where
  result : R
  issues : List Nat

/-- `wrap_first_non_failing`, intersection.rs 286-303: the result or the first issue; `none` if there
is neither and `unwrap` panics. -/
def firstNonFailing {R : Type} (run : Ty → Attempt R) : List Ty → Option Nat → Option (R ⊕ Nat)
  | [], first => first.map .inr
  | t :: ts, first =>
    if (run t).issues.isEmpty then some (.inl (run t).result)
    else firstNonFailing run ts (first.or (run t).issues.head?)

/-- `get_item`, intersection.rs 305-319: the result and the issues that are reported; without a result
it is `Any`. `iter` is the same, 336-344. -/
def getItem {R : Type} (run : Ty → Attempt R) (ts : List Ty) : Option (Option R × List Nat) :=
  (firstNonFailing run ts none).map fun
    | .inl r => (some r, [])
    | .inr i => (none, [i])

/-- `execute`, intersection.rs 321-334: the closure does not use the function for issues, so every
entry seems to be fine and the issues of the first are reported directly. -/
def execute {R : Type} (run : Ty → Attempt R) (ts : List Ty) : Option (Option R × List Nat) :=
  match ts with
  | [] => none
  | t :: _ => some (some (run t).result, (run t).issues)

end Verif.Intersect
