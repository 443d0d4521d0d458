import Verif.Variance.Model

/-!
# What variances mean

Types are sets of values; a class with type arguments is a set that depends on the sets of its
arguments. Of the model only the data is used.
-/

namespace Verif.Variance

/-- The meaning of classes and callables. -/
structure Meaning (Val : Type) where
  cls : Nat → List (Val → Prop) → Val → Prop
  fn : List (Val → Prop) → (Val → Prop) → Val → Prop
  /-- What `Any` stands for. -/
  dyn : Val → Prop

variable {Val : Type}

def Within (A B : Val → Prop) : Prop := ∀ v, A v → B v

/-- One type argument can stand for another. -/
def Fits : Variance → (Val → Prop) → (Val → Prop) → Prop
  | .cov, A, B => Within A B
  | .contra, A, B => Within B A
  | .inv, A, B => Within A B ∧ Within B A

/-- The variances of all classes are right, and callables can stand for others as usual. -/
structure Lawful (params : Nat → List Variance) (M : Meaning Val) : Prop where
  cls : ∀ c as bs, as.length = bs.length →
    (∀ (k : Nat) v a b, (params c)[k]? = some v → as[k]? = some a → bs[k]? = some b → Fits v a b) →
    Within (M.cls c as) (M.cls c bs)
  fn : ∀ ps qs r q, ps.length = qs.length →
    (∀ (k : Nat) a b, ps[k]? = some a → qs[k]? = some b → Within b a) → Within r q →
    Within (M.fn ps r) (M.fn qs q)

mutual
/-- The values of a type, if the type variables stand for the given sets. -/
def Meaning.values (M : Meaning Val) (env : Nat → Val → Prop) : Ty → Val → Prop
  | .object => fun _ => True
  | .never => fun _ => False
  | .any => M.dyn
  | .var n => env n
  | .cls c as => M.cls c (M.list env as)
  | .fn ps r => M.fn (M.list env ps) (M.values env r)
  | .union ts => fun v => M.some env ts v

def Meaning.list (M : Meaning Val) (env : Nat → Val → Prop) : List Ty → List (Val → Prop)
  | [] => []
  | t :: ts => M.values env t :: M.list env ts

def Meaning.some (M : Meaning Val) (env : Nat → Val → Prop) : List Ty → Val → Prop
  | [] => fun _ => False
  | t :: ts => fun v => M.values env t v ∨ M.some env ts v
end

/-- The environment with another set for one type variable. -/
def set (env : Nat → Val → Prop) (i : Nat) (A : Val → Prop) : Nat → Val → Prop :=
  fun n => if n = i then A else env n

/-- The values grow with those of the type variable, whatever classes mean. -/
def Grows (params : Nat → List Variance) (i : Nat) (t : Ty) : Prop :=
  ∀ (Val : Type) (M : Meaning Val) (env : Nat → Val → Prop) (A B : Val → Prop), Lawful params M →
    Within A B → Within (M.values (set env i A) t) (M.values (set env i B) t)

/-- The values shrink if those of the type variable grow. -/
def Shrinks (params : Nat → List Variance) (i : Nat) (t : Ty) : Prop :=
  ∀ (Val : Type) (M : Meaning Val) (env : Nat → Val → Prop) (A B : Val → Prop), Lawful params M →
    Within A B → Within (M.values (set env i B) t) (M.values (set env i A) t)

/-- The type variable only occurs at places with the given sign. -/
inductive Only (params : Nat → List Variance) (i : Nat) : Bool → Ty → Prop
  | object {p} : Only params i p .object
  | never {p} : Only params i p .never
  | any {p} : Only params i p .any
  | self : Only params i true (.var i)
  | var {p n} : n ≠ i → Only params i p (.var n)
  | cls {p c as} :
    (∀ (k : Nat) a, (params c)[k]? = some .cov → as[k]? = some a → Only params i p a) →
    (∀ (k : Nat) a, (params c)[k]? = some .contra → as[k]? = some a → Only params i (!p) a) →
    (∀ (k : Nat) a, (params c)[k]? = some .inv → as[k]? = some a → Only params i p a) →
    (∀ (k : Nat) a, (params c)[k]? = some .inv → as[k]? = some a → Only params i (!p) a) →
    Only params i p (.cls c as)
  | fn {p ps r} : (∀ a ∈ ps, Only params i (!p) a) → Only params i p r → Only params i p (.fn ps r)
  | union {p ts} : (∀ t ∈ ts, Only params i p t) → Only params i p (.union ts)

/-- The type variable does not occur. -/
inductive Without (i : Nat) : Ty → Prop
  | object : Without i .object
  | never : Without i .never
  | any : Without i .any
  | var {n} : n ≠ i → Without i (.var n)
  | cls {c as} : (∀ a ∈ as, Without i a) → Without i (.cls c as)
  | fn {ps r} : (∀ a ∈ ps, Without i a) → Without i r → Without i (.fn ps r)
  | union {ts} : (∀ t ∈ ts, Without i t) → Without i (.union ts)

/-- The first type has nothing to do with the second, whatever the type variable stands for. -/
inductive Apart (w : World) (i : Nat) : Ty → Ty → Prop
  | clsSelf {c as} : Apart w i (.cls c as) (.var i)
  | fnSelf {ps r} : Apart w i (.fn ps r) (.var i)
  | varSelf {n} : n ≠ i → Apart w i (.var n) (.var i)
  | varCls {n c as} : n ≠ i → Apart w i (.var n) (.cls c as)
  | varFn {n ps r} : n ≠ i → Apart w i (.var n) (.fn ps r)
  | cls {c as d bs} : c ≠ d → (∀ as bs, w.other (.cls c as) (.cls d bs) = false) →
    Apart w i (.cls c as) (.cls d bs)
  | clsFn {c as ps r} : (∀ as ps r, w.other (.cls c as) (.fn ps r) = false) →
    Apart w i (.cls c as) (.fn ps r)
  | fnCls {ps r c as} : (∀ ps r as, w.other (.fn ps r) (.cls c as) = false) →
    Apart w i (.fn ps r) (.cls c as)
  | fn {ps r qs q} : ps.length ≠ qs.length → Apart w i (.fn ps r) (.fn qs q)

/-- In unions, the members with the type variable have nothing to do with the others. -/
inductive Plain (w : World) (i : Nat) : Ty → Prop
  | object : Plain w i .object
  | never : Plain w i .never
  | any : Plain w i .any
  | var {n} : Plain w i (.var n)
  | cls {c as} : (∀ a ∈ as, Plain w i a) → Plain w i (.cls c as)
  | fn {ps r} : (∀ a ∈ ps, Plain w i a) → Plain w i r → Plain w i (.fn ps r)
  | union {ts} : (∀ t ∈ ts, Plain w i t) →
    (∀ t ∈ ts, Without i t ∨ (∀ us, t ≠ .union us) ∧ ∀ o ∈ ts, o = t ∨ Apart w i o t) →
    Plain w i (.union ts)

/-- The members of unions are not unions. -/
inductive Flat : Ty → Prop
  | object : Flat .object
  | never : Flat .never
  | any : Flat .any
  | var {n} : Flat (.var n)
  | cls {c as} : (∀ a ∈ as, Flat a) → Flat (.cls c as)
  | fn {ps r} : (∀ a ∈ ps, Flat a) → Flat r → Flat (.fn ps r)
  | union {ts} : (∀ t ∈ ts, Flat t) → (∀ t ∈ ts, ∀ us, t ≠ .union us) → Flat (.union ts)

/-- The class does not occur. -/
inductive Avoids (c : Nat) : Ty → Prop
  | object : Avoids c .object
  | never : Avoids c .never
  | any : Avoids c .any
  | var {n} : Avoids c (.var n)
  | cls {d as} : d ≠ c → (∀ a ∈ as, Avoids c a) → Avoids c (.cls d as)
  | fn {ps r} : (∀ a ∈ ps, Avoids c a) → Avoids c r → Avoids c (.fn ps r)
  | union {ts} : (∀ t ∈ ts, Avoids c t) → Avoids c (.union ts)

/-- Variances with another one for a type parameter. -/
def declare (params : Nat → List Variance) (c i : Nat) (v : Variance) : Nat → List Variance :=
  fun d => if d = c then (params d).set i v else params d

/-- A function that returns an instance of its own class returns one with the same arguments, and
nothing can be assigned to it. -/
def Regular (C : Class) (m : Member) : Prop :=
  ∀ ps as, m.ty = .fn ps (.cls C.id as) → m.writable = false ∧
    ∀ (k : Nat) a, as[k]? = some a → a = .var k

end Verif.Variance
