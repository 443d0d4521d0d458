import Batteries.Data.List.Basic

/-!
# Python's method resolution order

The C3 merge as described in "The Python 2.3 Method Resolution Order" and the glossary of the Python
documentation.
-/

namespace Verif.Mro.Spec

variable {C : Type} [DecidableEq C]

/-- A good head: in the tail of no list. -/
def Good (seqs : List (List C)) (c : C) : Prop := ∀ s ∈ seqs, c ∉ s.tail

/-- Remove the class from the head of a list. -/
def dropHead (c : C) (s : List C) : List C := if s.head? = some c then s.tail else s

/-- The merge: take the first good head, remove it from all lists, go on until all lists are
empty. If there is no good head, there is no result. -/
inductive Merge : List (List C) → List C → Prop
  | done {seqs} : (∀ s ∈ seqs, s = []) → Merge seqs []
  | step {pre c t post out} : Good (pre ++ (c :: t) :: post) c →
      (∀ d u, (d :: u) ∈ pre → ¬ Good (pre ++ (c :: t) :: post) d) →
      Merge ((pre ++ (c :: t) :: post).map (dropHead c)) out → Merge (pre ++ (c :: t) :: post) (c :: out)

/-- The resolution order of a base, from its class and its proper ancestors without `object`:
`object` itself has only itself. -/
def orderOf (object : C) (b : C × List C) : List C :=
  if b.1 = object then [object] else b.1 :: b.2 ++ [object]

/-- The resolution order (without the class itself) that Python gives to a class with these
bases: the merge of the orders of the bases and the list of the bases.  No result: Python raises
`TypeError: Cannot create a consistent method resolution order`. -/
def Order (object : C) (bases : List (C × List C)) (out : List C) : Prop :=
  Merge (bases.map (orderOf object) ++ [bases.map (·.1)]) out

/-- Bases as they come from existing classes: the order stored for a class has no duplicates and
neither the class nor `object` in it; `object` has no ancestors; a base is not repeated. -/
structure Wf (object : C) (bases : List (C × List C)) : Prop where
  nonempty : bases ≠ []
  nodup : (bases.map (·.1)).Nodup
  order : ∀ b ∈ bases, (b.1 :: b.2).Nodup
  noObject : ∀ b ∈ bases, object ∉ b.2
  objectAlone : ∀ b ∈ bases, b.1 = object → b.2 = []

/-- The resolution order of a class (with itself) in a program, given the orders of the classes. -/
def HasOrder (object : C) (table : List (C × List C)) (b : C) (order : List C) : Prop :=
  (b = object ∧ order = [object]) ∨ (b ≠ object ∧ ∃ rest, (b, rest) ∈ table ∧ order = b :: rest)

/-- Python executing class statements `(name, bases)` (the last one first in the list), none of
which fails: the table has the resolution order of every class, without the class itself.
A class without bases has the base `object`. -/
inductive Python (object : C) : List (C × List C) → List (C × List C) → Prop
  | nil : Python object [] []
  | cons {defs table name bases orders out} : Python object defs table →
      List.Forall₂ (HasOrder object table) (if bases = [] then [object] else bases) orders →
      Merge (orders ++ [if bases = [] then [object] else bases]) out →
      Python object ((name, bases) :: defs) ((name, out) :: table)

/-- Every class has a new name, and its bases are `object` or earlier classes, each at most once. -/
def Scoped (object : C) : List (C × List C) → Prop
  | [] => True
  | (name, bases) :: defs => name ≠ object ∧ (∀ d ∈ defs, d.1 ≠ name) ∧ bases.Nodup ∧
      (∀ b ∈ bases, b = object ∨ ∃ d ∈ defs, d.1 = b) ∧ Scoped object defs

end Verif.Mro.Spec
