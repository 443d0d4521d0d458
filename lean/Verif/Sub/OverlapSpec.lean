import Verif.Sub.Overlap
import Verif.Sub.Spec

/-! # Conditions for overlapping types -/

namespace Verif.Sub

/-- Types for which assignable means overlapping.  Type arguments have the right number,
unions are not empty and have no unions in them, and there are no tuples with `*tuple[..]`.
With `b` there is no `type[..]`; without `b` there may be, but not of unions, `NewType`s and
`type[..]`, and there is no `Never` and no plain `type`. -/
inductive Fine (w : World) (b : Bool) : Ty → Prop
  | any : Fine w b .any
  | never : b = true → Fine w b .never
  | none : Fine w b .none
  | lit (l : Lit) : Fine w b (.lit l)
  | newType (k : Nat) : Fine w b (.newType k)
  | cls {c as} : as.length = (w.cls c).params.length → (b = false → c ≠ w.bare) →
    (∀ a ∈ as, Fine w b a) → Fine w b (.cls c as)
  | data {c as} : as.length = (w.cls c).params.length → (∀ a ∈ as, Fine w b a) →
    Fine w b (.data c as)
  | union {ts} : ts ≠ [] → (∀ t ∈ ts, ∀ us, t ≠ .union us) → (∀ t ∈ ts, Fine w b t) →
    Fine w b (.union ts)
  | fixed {ts} : (∀ t ∈ ts, Fine w b t) → Fine w b (.fixed ts)
  | arb {t} : Fine w b t → Fine w b (.arb t)
  | type {t} : b = false → (∀ us, t ≠ .union us) → (∀ k, t ≠ .newType k) →
    (∀ u, t ≠ .type u) → Fine w b t → Fine w b (.type t)

/-- Base classes are classes, dataclasses or tuples, and no class is its own base class or
has the same class twice as base class. -/
structure Bases (w : World) : Prop where
  nominal : ∀ c, ∀ x ∈ (w.cls c).mro, x.nominal = true
  root : (w.cls w.object).mro = []
  self : ∀ c as, .cls c as ∉ (w.cls c).mro
  object : ∀ c as, .cls w.object as ∉ (w.cls c).mro
  once : ∀ c d as as', .cls d as ∈ (w.cls c).mro → .cls d as' ∈ (w.cls c).mro → as = as'
  cycle : ∀ c d as as', .cls d as ∈ (w.cls c).mro → .cls c as' ∉ (w.cls d).mro
  /-- The class `tuple` has no tuples as base classes. -/
  tuple : ∀ x ∈ (w.cls w.tuple).mro, ∃ c as, x = .cls c as

/-- Conditions on the classes. -/
structure Calm (w : World) (b : Bool) : Prop where
  bases : Bases w
  strict : w.strictOptional = true
  complete : ∀ c, (w.cls c).incomplete = false
  object : (w.cls w.object).params = []
  objectPlain : (w.cls w.object).isProtocol = false
  int : (w.cls w.int).params = []
  str : (w.cls w.str).params = []
  bytes : (w.cls w.bytes).params = []
  bool : (w.cls w.bool).params = []
  bare : w.bare ≠ w.object ∧ w.bare ≠ w.int ∧ w.bare ≠ w.str ∧ w.bare ≠ w.bytes ∧
    w.bare ≠ w.bool
  metaclass : ∀ c m, (w.cls c).metaclass = some m → (w.cls m).params = [] ∧ m ≠ w.bare
  /-- The type arguments of the base classes of good classes are good. -/
  inherited : ∀ c as d xs, Fine w b (.cls c as) → .cls d xs ∈ (w.cls c).mro →
    ∀ x ∈ xs, Fine w b (x.subst as)
  /-- `NewType`s are made of classes that are not metaclasses, and of tuples. -/
  newBase : ∀ i, (w.newBase i).nominal = true ∧
    ∀ c as, w.newBase i = .cls c as → (w.cls c).isMeta = false
  /-- What `int` and `float` are promoted to has no type parameters, and nor have its base
  classes. -/
  promote : ∀ c d, (w.cls c).promote = some d → (w.cls d).params = [] ∧
    ∀ e as, .cls e as ∈ (w.cls d).mro → (w.cls e).params = []
  /-- Protocols are not compared by their members with generic classes they inherit from, and
  not with classes that inherit from them. -/
  protocol : ∀ c as d bs, (w.structural (.cls c as) (.cls d bs)).bool = true →
    (c = d → (w.cls c).params = []) ∧ (∀ xs, .cls d xs ∈ (w.cls c).mro → (w.cls d).params = []) ∧
      ∀ xs, .cls c xs ∈ (w.cls d).mro → (w.cls c).params = []
  /-- A protocol that fits a union can be assigned one of its members. -/
  protocolUnion : ∀ t ss rev, (w.structural t (.union ss)).bool = true →
    ∃ u ∈ ss, Accepts w rev t u
  /-- A protocol that fits a literal can be assigned its class. -/
  protocolInt : ∀ t i rev, (w.structural t (.lit (.int i))).bool = true →
    Accepts w rev t (.cls w.int [])
  protocolStr : ∀ t s rev, (w.structural t (.lit (.str s))).bool = true →
    Accepts w rev t (.cls w.str [])
  protocolBytes : ∀ t s rev, (w.structural t (.lit (.bytes s))).bool = true →
    Accepts w rev t (.cls w.bytes [])
  protocolBool : ∀ t i rev, (w.structural t (.lit (.bool i))).bool = true →
    Accepts w rev t (.cls w.bool [])
  /-- Protocols do not fit classes. -/
  protocolType : b = false → ∀ t s, (w.structural t (.type s)).bool = false

/-- Neither type can be assigned to the other, and they are not the same. -/
structure Apart (w : World) (t s : Ty) : Prop where
  sup : ¬ Accepts w false t s
  sub : ¬ Accepts w true s t
  same : ¬ ∃ n m, isSame w n false t s = some m ∧ m.bool = true

end Verif.Sub
