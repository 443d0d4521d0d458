import Verif.Super.Model

/-!
# `super` in Python
-/

namespace Verif.Super.Spec

/-- The class an entry of the MRO stands for. -/
def Entry.Is (e : Entry) (c : Nat) : Prop := e = .cls c ∨ e = .dataclass c

/-- Attributes of `super(c, x)` are looked up in `rest`, the part of the MRO after `c`. -/
def After (mro : List Entry) (c : Nat) (rest : List Entry) : Prop :=
  ∃ before e, mro = before ++ e :: rest ∧ Entry.Is e c ∧ ∀ b ∈ before, ¬ Entry.Is b c

/-- The class whose MRO counts: the class of an instance, or the class itself. -/
inductive ClassOf (current : Option Nat) : Ty → Nat → Prop
  | inst {d} : ClassOf current (.cls d) d
  | literal {d} : ClassOf current (.literal d) d
  | cls {d} : ClassOf current (.typeOf (.cls d)) d
  | self_ {d} : current = some d → ClassOf current .self_ d
  | classOfSelf {d} : current = some d → ClassOf current (.typeOf .self_) d

/-- `super()` is in a method of the class with a first parameter, so Python knows both arguments. -/
def InMethod (env : Env) (c : Nat) : Prop :=
  ∃ f a, env.func = some f ∧ f.cls = some c ∧ f.first = some a ∧ f.kind ≠ .static

/-- Values of this type may be classes. -/
inductive MayBeClass : Ty → Prop
  | typeOf {t} : MayBeClass (.typeOf t)
  | any : MayBeClass .any
  | bound {t} : MayBeClass t → MayBeClass (.varBound t)

end Verif.Super.Spec
