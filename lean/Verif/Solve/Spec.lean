import Verif.Solve.Model

/-! # What a solution of type variables is -/

namespace Verif.Solve

open Verif.Match Verif.Sub

variable {K V : Type}

/-- Every value of the first type is a value of the second. -/
def Under (mem : V → K → Prop) (a b : K) : Prop := ∀ v, mem v a → mem v b

/-- The type `x` can stand where `k` was found: it has all values of `k`, or only values of
`k`, or both. -/
def Solves (mem : V → K → Prop) (x : K) : Variance × K → Prop
  | (.cov, k) => Under mem k x
  | (.contra, k) => Under mem x k
  | (.inv, k) => Under mem k x ∧ Under mem x k

/-- The constraints that a bound stands for. -/
def Bound.asConstraints : Bound K → List (Variance × K)
  | .uncalculated _ => []
  | .invariant k => [(.inv, k)]
  | .upper k => [(.contra, k)]
  | .lower k => [(.cov, k)]
  | .upperAndLower u l => [(.contra, u), (.cov, l)]

/-- The types in a bound. -/
def Bound.types : Bound K → List K
  | .uncalculated none => []
  | .uncalculated (some k) | .invariant k | .upper k | .lower k => [k]
  | .upperAndLower u l => [u, l]

/-- The operations on types are right about the values of those with `P`. -/
structure Right (L : Lang K) (mem : V → K → Prop) (P : K → Prop) : Prop where
  super : ∀ a b, P a → P b → (L.cmp .cov a b).bool = true → Under mem b a
  same : ∀ a b, P a → P b → (L.cmp .inv a b).bool = true → Under mem b a ∧ Under mem a b
  under : ∀ a b, P a → P b → (L.cmp .contra a b).bool = true → Under mem a b
  base : ∀ a b r, P a → P b → L.base a b = some r → P r ∧ Under mem a r ∧ Under mem b r
  sub : ∀ a b r, P a → P b → L.sub a b = some r → P r ∧ Under mem r a ∧ Under mem r b

/-- The common base type of a type and a wider one is the wider one. -/
def Tight (L : Lang K) (mem : V → K → Prop) (P : K → Prop) : Prop :=
  ∀ a b r, P a → P b → (L.cmp .contra a b).bool = true → L.base a b = some r → Under mem r b

/-- The common base type has only values that either type has to give room for. -/
def Least (L : Lang K) (mem : V → K → Prop) (P : K → Prop) : Prop :=
  ∀ a b r c, P a → P b → P c → L.base a b = some r → Under mem a c → Under mem b c →
    Under mem r c

/-- `a` can be assigned to `b`. -/
def Lang.le (L : Lang K) (a b : K) : Prop := (L.cmp .cov b a).bool = true

/-- Assignability in terms of constraints. -/
def Lang.Fulfils (L : Lang K) (x : K) : Variance × K → Prop
  | (.cov, k) => L.le k x
  | (.contra, k) => L.le x k
  | (.inv, k) => L.le k x ∧ L.le x k

/-- Types that are ordered, with least common base types and greatest common subtypes,
and without `Any`. -/
structure Ordered (L : Lang K) : Prop where
  refl : ∀ a, L.le a a
  trans : ∀ a b c, L.le a b → L.le b c → L.le a c
  contra : ∀ a b, (L.cmp .contra a b).bool = true ↔ L.le a b
  same : ∀ a b, (L.cmp .inv a b).bool = true ↔ L.le a b ∧ L.le b a
  base : ∀ a b, ∃ r, L.base a b = some r ∧ L.le a r ∧ L.le b r ∧
    ∀ c, L.le a c → L.le b c → L.le r c
  sub : ∀ a b r, L.sub a b = some r → L.le r a ∧ L.le r b ∧ ∀ c, L.le c a → L.le c b → L.le c r
  noSub : ∀ a b, L.sub a b = none → ∀ c, L.le c a → ¬ L.le c b
  noAny : ∀ a, L.maybeAny a = none ∧ L.hasAny a = false

/-- The type with its type variables replaced. -/
def replaced (f : K → Option K) (k : K) : K := (f k).getD k

end Verif.Solve
