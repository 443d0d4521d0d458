import Verif.Overload.Model

/-! # What is expected of calls of overloaded functions -/

namespace Verif.Overload

/-- A value. -/
inductive Val where
  | obj (n : Nat)
  | bool (b : Bool)
  | member (id index : Nat)
  | tup (items : List Val)

mutual
/-- The value has the type. -/
def Ty.has : Ty → Val → Prop
  | .any, _ => True
  | .cls n, .obj m => n = m
  | .bool, .bool _ => True
  | .lit a, .bool b => a = b
  | .enum id n, .member i k => id = i ∧ k < n
  | .member id _ k, .member i j => id = i ∧ k = j
  | .tuple ts, .tup vs => Ty.hasAll ts vs
  | .anyTuple, .tup _ => True
  | .union ts, v => Ty.hasSome ts v
  | _, _ => False

/-- The values have the types. -/
def Ty.hasAll : List Ty → List Val → Prop
  | [], [] => True
  | t :: ts, v :: vs => Ty.has t v ∧ Ty.hasAll ts vs
  | _, _ => False

/-- The value has one of the types. -/
def Ty.hasSome : List Ty → Val → Prop
  | [], _ => False
  | t :: ts, v => Ty.has t v ∨ Ty.hasSome ts v
end

/-- The overloads tell the truth about a function: `accepts s vs` says that the values fit the
parameters of the overload, `f vs r` that a call with the values can return `r`. -/
structure Contract (run : Run) (sigs : List Sig) (accepts : Sig → List Val → Prop)
    (f : List Val → Val → Prop) : Prop where
  right : ∀ s ∈ sigs, ∀ vs r, accepts s vs → f vs r → s.ret.has r
  yes : ∀ c s args h vs, (run c s args).1 = .yes h → Ty.hasAll args vs → accepts s vs

/-- No overload is accepted only because of `Any`. -/
def NoAny (run : Run) : Prop := ∀ c s args is, (run c s args).1 ≠ .withAny is

/-- The union of types has the values of both. -/
def Joins (join : Ty → Ty → Ty) : Prop := ∀ a b v, a.has v ∨ b.has v → (join a b).has v

/-- `args'` is one of the static lists of types that `args` can stand for: what is accepted for all of
them is accepted for it, and what is accepted for none of them is not. -/
structure Stands (run : Sig → List Ty → SigMatch × Bool) (args args' : List Ty) : Prop where
  yes : ∀ s h, (run s args).1 = .yes h → ∃ h', (run s args').1 = .yes h'
  no : ∀ s b, (run s args).1 = .no b → ∃ b', (run s args').1 = .no b'
  static : ∀ s is, (run s args').1 ≠ .withAny is

/-- The first overload that accepts the types. -/
def First (run : Sig → List Ty → SigMatch × Bool) (args : List Ty) (sigs : List Sig) (s : Sig) : Prop :=
  ∃ before after, sigs = before ++ s :: after ∧ (∃ h, (run s args).1 = .yes h) ∧
    ∀ t ∈ before, ∃ b, (run t args).1 = .no b

/-- All lists of arguments with one entry for each union. -/
def expand : List Ty → List (List Ty)
  | [] => [[]]
  | a :: rest => ((mat a).getD [a]).flatMap fun u => (expand rest).map (u :: ·)

/-- The number of arguments that are split. -/
def splits (args : List Ty) : Nat := (args.filter fun a => (mat a).isSome).length

/-- Some overload accepts the types. -/
def Accepted (run : Sig → List Ty → SigMatch) (sigs : List Sig) (args : List Ty) : Prop :=
  ∃ s ∈ sigs, ∀ b, run s args ≠ .no b

/-! ## What is covered -/

mutual
/-- All unions that are split have entries. -/
def Filled : Ty → Prop
  | .union es => es ≠ []
  | .tuple items => Filleds items
  | _ => True

/-- The same for lists. -/
def Filleds : List Ty → Prop
  | [] => True
  | t :: ts => Filled t ∧ Filleds ts
end

/-- The numbers of entries of the items that are split have no common divisors, which is the case if
only one item is split. -/
def Coprimes : Nat → List (Option (List Ty)) → Prop
  | _, [] => True
  | n, none :: rest => Coprimes n rest
  | n, some us :: rest => Nat.Coprime n us.length ∧ Coprimes (n * us.length) rest

mutual
/-- All tuples are split in the right way. -/
def Fair : Ty → Prop
  | .tuple items => Fairs items ∧ Coprimes 1 (mats items)
  | _ => True

/-- The same for lists. -/
def Fairs : List Ty → Prop
  | [] => True
  | t :: ts => Fair t ∧ Fairs ts
end

/-- The number of combinations of the entries of items. -/
def combinations : List (Option (List Ty)) → Nat
  | [] => 1
  | none :: rest => combinations rest
  | some us :: rest => us.length * combinations rest

/-- A union can be seen without looking into nested tuples. -/
def Visible (t : Ty) : Prop :=
  (∃ es, t = .union es) ∨ t = .bool ∨ (∃ id n, t = .enum id n) ∨
    ∃ items es, t = .tuple items ∧ Ty.union es ∈ items

mutual
/-- There are no unions. -/
def NoUnion : Ty → Prop
  | .union _ => False
  | .tuple items => NoUnions items
  | _ => True

/-- The same for lists. -/
def NoUnions : List Ty → Prop
  | [] => True
  | t :: ts => NoUnion t ∧ NoUnions ts
end

/-- Overloads that are accepted because of `Any` have different types for one of the arguments, or the
same return type. -/
def AnyFair (run : Sig → List Ty → SigMatch × Bool) (sigs : List Sig) (args : List Ty) : Prop :=
  ∀ s ∈ sigs, ∀ t ∈ sigs, ∀ is js, (run s args).1 = .withAny is → (run t args).1 = .withAny js →
    (∃ i p q, (i, p) ∈ is ∧ (i, q) ∈ js ∧ p ≠ q) ∨ s.ret = t.ret

end Verif.Overload
