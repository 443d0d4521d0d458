import Verif.Sub.Model

/-!
# What types mean

Values and the types they belong to, independently of how types are compared.
-/

namespace Verif.Sub

/-- Which values belong to a type; `items` are the items of a value that is a
tuple. -/
structure Meaning (V : Type) where
  mem : V → Ty → Prop
  items : V → Option (List V)

variable {V : Type}

/-- Every value of the first type is a value of the second. -/
def Within (M : Meaning V) (s t : Ty) : Prop := ∀ v, M.mem v s → M.mem v t

/-- One type argument can stand for another: at a covariant parameter the first
is within the second, at a contravariant one it is the other way round, and at an
invariant one both have the same values. -/
def Fits (M : Meaning V) : Variance → Ty → Ty → Prop
  | .cov, a, b => Within M a b
  | .contra, a, b => Within M b a
  | .inv, a, b => Within M a b ∧ Within M b a

/-- The values are in the types, one by one. -/
inductive Each (M : Meaning V) : List V → List Ty → Prop
  | nil : Each M [] []
  | cons {v vs t ts} : M.mem v t → Each M vs ts → Each M (v :: vs) (t :: ts)

/-- The rules of Python's types. -/
structure Lawful (w : World) (M : Meaning V) : Prop where
  never : ∀ v, ¬ M.mem v .never
  /-- Everything is an `object`. -/
  object : ∀ v t, M.mem v t → M.mem v (.cls w.object [])
  union : ∀ v ts, M.mem v (.union ts) ↔ ∃ t ∈ ts, M.mem v t
  int : ∀ v i, M.mem v (.lit (.int i)) → M.mem v (.cls w.int [])
  str : ∀ v s, M.mem v (.lit (.str s)) → M.mem v (.cls w.str [])
  bytes : ∀ v b, M.mem v (.lit (.bytes b)) → M.mem v (.cls w.bytes [])
  boolLit : ∀ v b, M.mem v (.lit (.bool b)) → M.mem v (.cls w.bool [])
  /-- There are two booleans. -/
  bool : ∀ v, M.mem v (.cls w.bool []) → M.mem v (.lit (.bool true)) ∨ M.mem v (.lit (.bool false))
  /-- Instances of a class are instances of its bases. -/
  base : ∀ v c as b, M.mem v (.cls c as) → b ∈ (w.cls c).mro → M.mem v (b.subst as)
  dataBase : ∀ v c as b, M.mem v (.data c as) → b ∈ (w.cls c).mro → M.mem v (b.subst as)
  /-- The variances of type parameters are true. -/
  args : ∀ v c as bs, as.length = bs.length →
    (∀ (k : Nat) p a b, (w.cls c).params[k]? = some p → as[k]? = some a → bs[k]? = some b →
      Fits M p a b) → M.mem v (.cls c as) → M.mem v (.cls c bs)
  dataArgs : ∀ v c as bs, as.length = bs.length →
    (∀ (k : Nat) p a b, (w.cls c).params[k]? = some p → as[k]? = some a → bs[k]? = some b →
      Fits M p a b) → M.mem v (.data c as) → M.mem v (.data c bs)
  fixed : ∀ v ts, M.mem v (.fixed ts) ↔ ∃ vs, M.items v = some vs ∧ Each M vs ts
  arb : ∀ v t, M.mem v (.arb t) ↔ ∃ vs, M.items v = some vs ∧ ∀ x ∈ vs, M.mem x t
  unpack : ∀ v a b c, M.mem v (.unpack a b c) ↔ ∃ xs ys zs, M.items v = some (xs ++ ys ++ zs) ∧
    Each M xs a ∧ (∀ y ∈ ys, M.mem y b) ∧ Each M zs c
  /-- A tuple is an instance of the class `tuple`. -/
  tuple : ∀ v vs t, M.items v = some vs → (∀ x ∈ vs, M.mem x t) → M.mem v (.cls w.tuple [t])
  /-- A union has room for its parts. -/
  join : ∀ v ts t, t ∈ ts → M.mem v t → M.mem v (w.join ts)
  /-- Classes of `type[A]` are classes of `type[B]` if instances of `A` are
  instances of `B`. -/
  type : ∀ v s t, Within M s t → M.mem v (.type s) → M.mem v (.type t)
  typeUnion : ∀ v ts, M.mem v (.type (.union ts)) → ∃ t ∈ ts, M.mem v (.type t)
  metaclass : ∀ v c as m, (w.cls c).metaclass = some m → M.mem v (.type (.cls c as)) →
    M.mem v (.cls m [])
  bare : ∀ v t, M.mem v (.type t) → M.mem v (.cls w.bare [])
  newType : ∀ v i, M.mem v (.newType i) → M.mem v (w.newBase i)
  /-- The annotation `float` means `float | int`, and so on. -/
  promote : ∀ v c as d, (w.cls c).promote = some d → M.mem v (.cls c as) → M.mem v (.cls d [])
  structural : ∀ t s, (w.structural t s).bool = true → Within M s t

/-- Types without `Any` for which the comparison is right.  Type arguments have
the right number and unions have no duplicates.  Where the argument is `true`, the
type is below an invariant type parameter, and there are no `type[..]`, no tuples
with `*tuple[..]` and no dataclasses with parameters that are not invariant.
Elsewhere all tuples with `*tuple[..]` have `p` items before and `q` items after
it. -/
inductive Good (w : World) (p q : Nat) : Bool → Ty → Prop
  | never {i} : Good w p q i .never
  | none {i} : Good w p q i .none
  | lit {i} (l : Lit) : Good w p q i (.lit l)
  | newType {i} (k : Nat) : Good w p q i (.newType k)
  | cls {i c as} : as.length = (w.cls c).params.length →
    (∀ (k : Nat) a (v : Variance), as[k]? = some a → (w.cls c).params[k]? = some v →
      Good w p q (i || decide (v = .inv)) a) → Good w p q i (.cls c as)
  | data {i c as} : as.length = (w.cls c).params.length →
    (i = true → ∀ v ∈ (w.cls c).params, v = .inv) →
    (∀ (k : Nat) a (v : Variance), as[k]? = some a → (w.cls c).params[k]? = some v →
      Good w p q (i || decide (v = .inv)) a) → Good w p q i (.data c as)
  | union {i ts} : ts ≠ [] → ts.Nodup → (∀ t ∈ ts, Good w p q i t) → Good w p q i (.union ts)
  | fixed {i ts} : (∀ t ∈ ts, Good w p q i t) → Good w p q i (.fixed ts)
  | arb {i t} : Good w p q i t → Good w p q i (.arb t)
  | unpack {a b c} : 0 < p + q → a.length = p → c.length = q → (∀ t ∈ a, Good w p q false t) →
    Good w p q false b → (∀ t ∈ c, Good w p q false t) → Good w p q false (.unpack a b c)
  | type {t} : Good w p q false t → Good w p q false (.type t)

/-- Classes that are all known, with base classes that are good again. -/
structure Tame (w : World) (p q : Nat) : Prop where
  strict : w.strictOptional = true
  complete : ∀ c, (w.cls c).incomplete = false
  bases : ∀ c as b, Good w p q false (.cls c as) → b ∈ (w.cls c).mro →
    Good w p q false (b.subst as)
  newBase : ∀ i, Good w p q false (w.newBase i)
  join : ∀ ts, (∀ t ∈ ts, Good w p q false t) → Good w p q false (w.join ts)
  tuple : (w.cls w.tuple).params = [.cov]
  object : (w.cls w.object).params = []
  int : (w.cls w.int).params = []
  str : (w.cls w.str).params = []
  bytes : (w.cls w.bytes).params = []
  bool : (w.cls w.bool).params = []
  bare : (w.cls w.bare).params = []
  metaclass : ∀ c m, (w.cls c).metaclass = some m → (w.cls m).params = []
  promote : ∀ c d, (w.cls c).promote = some d → (w.cls d).params = []

/-- What is expected of the union of two types. -/
structure Joins (w : World) (M : Meaning V) (p q : Nat) (su : Ty → Ty → Ty) : Prop where
  left : ∀ a b, Good w p q false a → Good w p q false b → Within M a (su a b)
  right : ∀ a b, Good w p q false a → Good w p q false b → Within M b (su a b)
  good : ∀ a b, Good w p q false a → Good w p q false b → Good w p q false (su a b)

/-- Types without type variables and without the `type[..]` of a `NewType`. -/
inductive Usual : Ty → Prop
  | any : Usual .any
  | never : Usual .never
  | none : Usual .none
  | lit (l : Lit) : Usual (.lit l)
  | newType (k : Nat) : Usual (.newType k)
  | cls {c as} : (∀ a ∈ as, Usual a) → Usual (.cls c as)
  | data {c as} : (∀ a ∈ as, Usual a) → Usual (.data c as)
  | union {ts} : (∀ t ∈ ts, Usual t) → Usual (.union ts)
  | fixed {ts} : (∀ t ∈ ts, Usual t) → Usual (.fixed ts)
  | arb {t} : Usual t → Usual (.arb t)
  | unpack {a b c} : (∀ t ∈ a, Usual t) → Usual b → (∀ t ∈ c, Usual t) → Usual (.unpack a b c)
  | type {t} : (∀ k, t ≠ .newType k) → Usual t → Usual (.type t)

/-- `s` can be assigned to `t`: the comparison ends and says yes. -/
def Accepts (w : World) (rev : Bool) (t s : Ty) : Prop :=
  ∃ n m, isSuper w n rev t s = some m ∧ m.bool = true

/-- `s` cannot be assigned to `t`: the comparison ends and says no. -/
def Rejects (w : World) (rev : Bool) (t s : Ty) : Prop :=
  ∃ n m, isSuper w n rev t s = some m ∧ m.bool = false

/-- The types directly inside a type. -/
def Ty.parts : Ty → List Ty
  | .cls _ as => as
  | .data _ as => as
  | .union ts => ts
  | .fixed ts => ts
  | .arb t => [t]
  | .unpack a b c => a ++ b :: c
  | .type t => [t]
  | _ => []

/-- Heights of classes and of `NewType`s. -/
structure Heights where
  cls : Nat → Nat
  newType : Nat → Nat

mutual
/-- The height of a type. -/
def Heights.ty (w : World) (h : Heights) : Ty → Nat
  | .any | .never | .none | .var _ => 0
  | .newType i => h.newType i
  | .lit (.int _) => h.cls w.int + 1
  | .lit (.str _) => h.cls w.str + 1
  | .lit (.bytes _) => h.cls w.bytes + 1
  | .lit (.bool _) => h.cls w.bool + 1
  | .cls c as => h.cls c + h.tys w as
  | .data c as => h.cls c + h.tys w as
  | .union ts => h.tys w ts
  | .fixed ts => h.cls w.tuple + 1 + h.tys w ts
  | .arb t => h.cls w.tuple + 1 + max 1 (h.ty w t + 1)
  | .unpack a b c => h.cls w.tuple + 1 + max (h.tys w a) (max (h.ty w b + 1) (h.tys w c))
  | .type t => h.ty w t + 1

/-- One more than the height of the highest. -/
def Heights.tys (w : World) (h : Heights) : List Ty → Nat
  | [] => 1
  | t :: ts => max (h.ty w t + 1) (h.tys w ts)
end

/-- The type arguments of base classes are not higher than the class that has them.  So
`class str(Sequence[str])` is fine, and `class C(N[N[C]])` is not. -/
structure Layered (w : World) (h : Heights) (r : Nat → Nat) : Prop where
  nominal : ∀ c, ∀ b ∈ (w.cls c).mro, b.nominal = true
  args : ∀ c, ∀ b ∈ (w.cls c).mro, ∀ x ∈ b.parts, h.ty w x ≤ h.cls c + 1
  metaclass : ∀ c m, (w.cls c).metaclass = some m → h.cls m ≤ h.cls c
  newBase : ∀ i, h.ty w (w.newBase i) < h.newType i
  join : ∀ ts, h.ty w (w.join ts) ≤ h.tys w ts
  /-- Promotions come to an end. -/
  promote : ∀ c d, (w.cls c).promote = some d → r d < r c

end Verif.Sub
