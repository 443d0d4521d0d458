import Verif.ClassInfo.Model

/-!
# What Python accepts as second argument of `isinstance`

The rules of Python are those with `dev = false`.  With `dev = true` there are three further rules, which are the deviations
of the code.
-/

namespace Verif.ClassInfo.Spec

/-- Where a value is: alone, as operand of `|`, or in a tuple. -/
inductive Pos where
  | alone
  | operand
  | inTuple
deriving DecidableEq

/-- A class that can be tested for: without type arguments, and protocols only if they are runtime checkable. -/
def Testable (sub : Bool) (c : Cls) : Prop :=
  c.params = false ∧ (c.protocol = true → c.runtime = true ∧ (sub = true → c.nonMethods = false))

/-- Types whose class objects are classes. -/
inductive ClassObject : Ty → Prop
  | any : ClassObject .any
  | none : ClassObject .none
  | other : ClassObject .other
  | tuple {ts} : ClassObject (.tuple ts)
  | many {t} : ClassObject (.many t)
  | typeOf {t} : ClassObject (.typeOf t)
  | union {ts} : Ty.typedDict ∉ ts → Ty.newType ∉ ts → ClassObject (.union ts)

/-- A value of this type is accepted in this place. -/
inductive OkTy (sub dev : Bool) : Pos → Ty → Prop
  | any {p} : OkTy sub dev p .any
  | cls {p c} : Testable sub c → OkTy sub dev p (.typeOf (.cls c))
  | object {p t} : ClassObject t → OkTy sub dev p (.typeOf t)
  | tuple {p ts} : (p = .operand → dev = true) → (∀ t ∈ ts, OkTy sub dev .inTuple t) → OkTy sub dev p (.tuple ts)
  | many {p t} : (p = .operand → dev = true) → OkTy sub dev .alone t → OkTy sub dev p (.many t)
  | noneOperand : OkTy sub dev .operand .none
  /-- Deviation: `None` in a tuple. -/
  | noneInTuple : dev = true → OkTy sub dev .inTuple .none

/-- An alias for this type is accepted: all members of a union have to be classes that can be tested for. -/
inductive OkAlias (sub dev : Bool) : Ty → Prop
  | cls {c} : Testable sub c → OkAlias sub dev (.cls c)
  | object {t} : ClassObject t → (dev = false → ∀ ts, t = .union ts → ∀ c, Ty.cls c ∈ ts → Testable sub c) → OkAlias sub dev t

/-- The expression is accepted. -/
inductive OkExpr (sub dev : Bool) : Pos → Expr → Prop
  | or {p a b} : OkExpr sub dev .operand a → OkExpr sub dev .operand b → OkExpr sub dev p (.or a b)
  | builtinsType {p} : OkExpr sub dev p .builtinsType
  | unionValue {p e} : OkExpr sub dev .alone e → OkExpr sub dev p (.unionValue e)
  | alias {p t} : OkAlias sub dev t → OkExpr sub dev p (.alias t)
  | value {p t} : OkTy sub dev p t → OkExpr sub dev p (.value t)

/-- A value of the type tests for instances of `u`. -/
inductive TestsTy : Ty → Ty → Prop
  | any : TestsTy .any .any
  | none : TestsTy .none .none
  | cls {t} : (∀ ts, t ≠ .union ts) → TestsTy (.typeOf t) t
  | union {ts u} : u ∈ ts → TestsTy (.typeOf (.union ts)) u
  | tuple {ts t u} : t ∈ ts → TestsTy t u → TestsTy (.tuple ts) u
  | many {t u} : TestsTy t u → TestsTy (.many t) u

/-- The expression tests for instances of `u`. -/
inductive Tests : Expr → Ty → Prop
  | left {a b u} : Tests a u → Tests (.or a b) u
  | right {a b u} : Tests b u → Tests (.or a b) u
  | type : Tests .builtinsType (.typeOf .any)
  | unionValue {e u} : Tests e u → Tests (.unionValue e) u
  | alias {t u} : TestsTy (.typeOf t) u → Tests (.alias t) u
  | value {t u} : TestsTy t u → Tests (.value t) u

end Verif.ClassInfo.Spec
