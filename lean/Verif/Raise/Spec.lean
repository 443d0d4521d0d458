import Verif.Raise.Model

/-!
Values, what Python accepts in `raise` and `except`, and what is caught.
-/
namespace Verif.Raise.Spec

inductive Val where
  | inst (c : Nat)
  | class (c : Nat)
  | none
  | tuple (vs : List Val)
  | misc (n : Nat)

/-- The classes of a running program. -/
structure Run where
  /-- A class is a subclass of another one, or the same. -/
  sub : Nat → Nat → Prop
  trans : ∀ {a b c}, sub a b → sub b c → sub a c
  base : Nat
  exception : Nat
  group : Nat
  /-- Values of type variables and of the types that are not looked at. -/
  rest : Nat → Val → Prop

/-- What the checker knows about classes is true. -/
structure Knows (k : Classes) (r : Run) : Prop where
  isBase : ∀ c, k.isBase c = true ↔ r.sub c r.base
  isException : ∀ c, k.isException c = true ↔ r.sub c r.exception
  isGroup : ∀ c, k.isGroup c = true ↔ r.sub c r.group
  exceptionBase : r.sub r.exception r.base
  groupBase : r.sub r.group r.base

variable (r : Run)

mutual
/-- A value has a type. -/
def HasTy (v : Val) : Ty → Prop
  | .cls c => ∃ d, v = .inst d ∧ r.sub d c
  | .dataclass c => ∃ d, v = .inst d ∧ r.sub d c
  | .typeOf t => ∃ d, v = .class d ∧ HasTy (.inst d) t
  | .any => True
  | .never => False
  | .none => v = .none
  | .typeVarBound t => HasTy v t
  | .typeVarOther n => r.rest n v
  | .inter ts => HasAll v ts
  | .union ts => HasSome v ts
  | .tuple ts => ∃ vs, v = .tuple vs ∧ HasEach vs ts
  | .tupleOf t => ∃ vs, v = .tuple vs ∧ ∀ x ∈ vs, HasTy x t
  | .tupleUnpack before t after => ∃ a b c, v = .tuple (a ++ (b ++ c)) ∧ HasEach a before ∧
      (∀ x ∈ b, HasTy x t) ∧ HasEach c after
  | .tupleVariadic _ => ∃ vs, v = .tuple vs
  | .other n => r.rest n v

def HasAll (v : Val) : List Ty → Prop
  | [] => True
  | t :: ts => HasTy v t ∧ HasAll v ts

def HasSome (v : Val) : List Ty → Prop
  | [] => False
  | t :: ts => HasTy v t ∨ HasSome v ts

def HasEach : List Val → List Ty → Prop
  | vs, [] => vs = []
  | vs, t :: ts => ∃ v rest, vs = v :: rest ∧ HasTy v t ∧ HasEach rest ts
end

/-- Python can raise the value (or use it as a cause, for which `None` is possible). -/
def CanRaise (allowNone : Bool) : Val → Prop
  | .inst c => r.sub c r.base
  | .class c => r.sub c r.base
  | .none => allowNone = true
  | _ => False

/-- A class of exceptions. -/
def ExceptionClass (v : Val) : Prop := ∃ c, v = .class c ∧ r.sub c r.base

/-- Python accepts the value after `except`: a class of exceptions or a tuple of them. -/
def CanExcept (v : Val) : Prop :=
  ExceptionClass r v ∨ ∃ vs, v = .tuple vs ∧ ∀ x ∈ vs, ExceptionClass r x

/-- The value after `except` catches exceptions of the class `d`. -/
def Catches (v : Val) (d : Nat) : Prop :=
  (∃ c, v = .class c ∧ r.sub d c) ∨ ∃ vs c, v = .tuple vs ∧ Val.class c ∈ vs ∧ r.sub d c

mutual
/-- A type in which nothing is unknown: there is no `Any`, no class with unknown bases, and class
objects are those of a class. -/
def Precise (k : Classes) : Ty → Prop
  | .cls c => k.incomplete c = false
  | .dataclass c => k.incomplete c = false
  | .typeOf t => (∃ c, (t = .cls c ∨ t = .dataclass c) ∧ k.incomplete c = false)
  | .any => False
  | .typeVarBound t => Precise k t
  | .inter ts => AllPrecise k ts
  | .union ts => AllPrecise k ts
  | .tuple ts => AllPrecise k ts
  | .tupleOf t => Precise k t
  | .tupleUnpack before t after => AllPrecise k before ∧ Precise k t ∧ AllPrecise k after
  | _ => True

def AllPrecise (k : Classes) : List Ty → Prop
  | [] => True
  | t :: ts => Precise k t ∧ AllPrecise k ts
end

mutual
/-- There is no `Any` in the type. -/
def NoAny : Ty → Prop
  | .any => False
  | .typeOf t => NoAny t
  | .typeVarBound t => NoAny t
  | .inter ts => AllNoAny ts
  | .union ts => AllNoAny ts
  | .tuple ts => AllNoAny ts
  | .tupleOf t => NoAny t
  | .tupleUnpack before t after => AllNoAny before ∧ NoAny t ∧ AllNoAny after
  | _ => True

def AllNoAny : List Ty → Prop
  | [] => True
  | t :: ts => NoAny t ∧ AllNoAny ts
end

mutual
/-- The class is named in the type of an expression after `except*`. -/
def Names (c : Nat) : Ty → Prop
  | .typeOf t => t = .cls c ∨ t = .dataclass c
  | .union ts => SomeNames c ts
  | .tuple ts => SomeNames c ts
  | .tupleOf t => Names c t
  | .tupleUnpack before t after => SomeNames c before ∨ Names c t ∨ SomeNames c after
  | _ => False

def SomeNames (c : Nat) : List Ty → Prop
  | [] => False
  | t :: ts => Names c t ∨ SomeNames c ts
end

end Verif.Raise.Spec
