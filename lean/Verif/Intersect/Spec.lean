import Verif.Intersect.Model
import Verif.Mro.Spec

/-!
# Intersections: what they mean

A program is a list of class statements that Python executes (`Mro.Spec.Python`); a value is an
instance of one of its classes, one of its classes, or `None`.
-/

namespace Verif.Intersect

open Mro.Spec

/-- `k` is `c` or one of its subclasses. -/
def Below (table : List (Nat × List Nat)) (k c : Nat) : Prop :=
  c = 0 ∨ k = c ∨ ∃ rest, (k, rest) ∈ table ∧ c ∈ rest

/-- A program that Python executes. -/
structure Program where
  defs : List (Nat × List Nat)
  table : List (Nat × List Nat)
  python : Python 0 defs table
  known : Scoped 0 defs
  /-- Classes whose instances have a layout of their own. -/
  solid : Nat → Bool
  /-- Python's rule for layouts: among the ancestors of a class with a layout of their own, one is below
  all others. -/
  layouts : ∀ k rest, (k, rest) ∈ table → ∃ b ∈ rest, (b = 0 ∨ solid b = true) ∧
    ∀ e ∈ rest, solid e = true → Below table b e
  metaclass : Nat → Nat
  noneType : Nat
  /-- `NoneType` has only `object` as its base. -/
  none_below : ∀ c, Below table noneType c → c = 0 ∨ c = noneType
  /-- Nothing else inherits from it. -/
  none_final : ∀ k, Below table k noneType → k = noneType

inductive Val where
  | inst (k : Nat)
  | klass (k : Nat)
  | nothing
deriving DecidableEq

/-- The values of callables, type variables and all other types are arbitrary. -/
structure Sets where
  callable : Nat → Val → Prop
  var : Nat → Val → Prop
  other : Nat → Val → Prop

/-- `type(v)` -/
def Program.classOf (p : Program) : Val → Nat
  | .inst k => k
  | .klass k => p.metaclass k
  | .nothing => p.noneType

mutual
  def In (p : Program) (s : Sets) : Ty → Val → Prop
    | .cls c, v => Below p.table (p.classOf v) c
    | .nothing, v => v = .nothing
    | .callable n, v => s.callable n v
    | .var n, v => s.var n v
    | .other n, v => s.other n v
    | .inter ts, v => InAll p s ts v
    | .union ts, v => InAny p s ts v
    | .type t, v => ∃ k, v = .klass k ∧ In p s t (.inst k)
  def InAll (p : Program) (s : Sets) : List Ty → Val → Prop
    | [], _ => True
    | t :: ts, v => In p s t v ∧ InAll p s ts v
  def InAny (p : Program) (s : Sets) : List Ty → Val → Prop
    | [], _ => False
    | t :: ts, v => In p s t v ∨ InAny p s ts v
end

/-- What is known about the classes is right, the program keeps to `@final`, and no class inherits from
classes that are not compatible. -/
structure Knows (w : World) (p : Program) : Prop where
  mro : ∀ c rest, (c, rest) ∈ p.table → rest = w.mro c ++ [0]
  final : ∀ d ∈ p.defs, ∀ b ∈ d.2, w.final b = false
  object : w.final 0 = false ∧ w.mro 0 = []
  disjoint : ∀ c, (w.disjoint c = 0 ∨ p.solid (w.disjoint c) = true) ∧ Below p.table c (w.disjoint c) ∧
    ∀ e, p.solid e = true → Below p.table c e → Below p.table (w.disjoint c) e
  compatible : ∀ k (a b : List Nat), (∀ c ∈ a ++ b, Below p.table k c) →
    w.compatible (a ++ b) = true ∨ w.compatible (b ++ a) = true

/-- The classes exist, and none is below another. -/
def Unrelated (p : Program) (cs : List Nat) : Prop :=
  2 ≤ cs.length ∧ cs.Nodup ∧ (∀ c ∈ cs, ∃ rest, (c, rest) ∈ p.table) ∧
    ∀ a ∈ cs, ∀ b ∈ cs, Below p.table a b → a = b

def IsUnion : Ty → Prop
  | .union _ => True
  | _ => False

def IsVar : Ty → Prop
  | .var _ => True
  | _ => False

/-- The types for which the intersection is claimed to be right. Types of which one is below the other
are excluded, `intersect` in flow_analysis.rs never gets to the intersection for them. -/
inductive Fit (p : Program) : Ty → Ty → Prop
  /-- Classes and intersections of classes. -/
  | classes {t1 t2 : Ty} {a b : List Nat} : t1 = .inter (a.map .cls) ∨ a.map .cls = [t1] →
    t2 = .inter (b.map .cls) ∨ b.map .cls = [t2] → a ≠ [] → b ≠ [] → Unrelated p (a ++ b) → Fit p t1 t2
  | noneL {c : Nat} : c ≠ 0 → c ≠ p.noneType → Fit p .nothing (.cls c)
  | noneR {c : Nat} : c ≠ 0 → c ≠ p.noneType → Fit p (.cls c) .nothing
  | varL {n : Nat} {t : Ty} : ¬ IsUnion t → Fit p (.var n) t
  | varR {n : Nat} {t : Ty} : ¬ IsUnion t → Fit p t (.var n)
  /-- Intersections with something that cannot have subclasses. -/
  | kept {ts : List Ty} {t : Ty} : ¬ IsUnion t → ¬ IsVar t → (∃ u ∈ t :: ts, ∀ c, u ≠ .cls c) → Fit p (.inter ts) t
  | unionL {us : List Ty} {t : Ty} : (∀ u ∈ us, Fit p t u) → Fit p (.union us) t
  | unionR {us : List Ty} {t : Ty} : ¬ IsUnion t → (∀ u ∈ us, Fit p t u) → Fit p t (.union us)
  | type {a b : Ty} : Fit p a b → Fit p (.type a) (.type b)

end Verif.Intersect
