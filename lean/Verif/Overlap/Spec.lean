import Verif.Overlap.Model
import Batteries.Data.List.Basic

/-!
# Overlapping types: values
-/

namespace Verif.Overlap

/-- Classes and their bases. -/
abbrev Program := Nat → List Nat

inductive Sub (p : Program) : Nat → Nat → Prop
  | refl {c} : Sub p c c
  | object {c} : Sub p c 0
  | base {c b d} : b ∈ p c → Sub p b d → Sub p c d

/-- `None`, or an instance of a class, which may be the value of a literal. -/
inductive Val where
  | nothing
  | inst (k : Nat) (n : Option Nat)

mutual
  def In (p : Program) : Ty → Val → Prop
    | .any, _ => True
    | .nothing, v => v = .nothing
    | .cls c, .nothing => c = 0
    | .cls c, .inst k _ => Sub p k c
    | .lit c n, v => v = .inst c (some n)
    | .union ts, v => InAny p ts v
    | .inter ts, v => InAll p ts v
  def InAny (p : Program) : List Ty → Val → Prop
    | [], _ => False
    | t :: ts, v => In p t v ∨ InAny p ts v
  def InAll (p : Program) : List Ty → Val → Prop
    | [], _ => True
    | t :: ts, v => In p t v ∧ InAll p ts v
end

/-- The orders are known. -/
def Knows (w : World) (p : Program) : Prop := ∀ c d, (c = d ∨ d ∈ w.mro c ∨ d = 0) ↔ Sub p c d

/-- No class has more than one base. -/
def Single (p : Program) : Prop := ∀ c, (p c).length ≤ 1

mutual
  /-- Intersections have entries. -/
  def Full : Ty → Prop
    | .inter ts => ts ≠ [] ∧ FullAll ts
    | .union ts => FullAll ts
    | _ => True
  def FullAll : List Ty → Prop
    | [] => True
    | t :: ts => Full t ∧ FullAll ts
end

mutual
  /-- No intersection, and the values of the literals are those of their classes. -/
  def Simple (of : Nat → Nat) : Ty → Prop
    | .inter _ => False
    | .union ts => SimpleAll of ts
    | .lit c n => of n = c
    | _ => True
  def SimpleAll (of : Nat → Nat) : List Ty → Prop
    | [] => True
    | t :: ts => Simple of t ∧ SimpleAll of ts
end

/-! ## Tuples -/

variable {α V : Type}

/-- The values of a tuple, given the values of the elements. -/
def InTuple (mem : α → V → Prop) : Args α → List V → Prop
  | .fixed ts, vs => List.Forall₂ mem ts vs
  | .arbitrary t, vs => ∀ v ∈ vs, mem t v
  | .unpack b m a, vs => ∃ x y z, vs = x ++ y ++ z ∧ List.Forall₂ mem b x ∧ List.Forall₂ mem a z ∧
    ∀ t, m = some t → ∀ v ∈ y, mem t v

/-- Two elements overlap iff they have a common value. -/
def Right (mem : α → V → Prop) (ov : α → α → Bool) : Prop := ∀ t u, ov t u = true ↔ ∃ v, mem t v ∧ mem u v

end Verif.Overlap
