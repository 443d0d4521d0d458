import Verif.Operator.Model

/-!
# Operators in Python (specification)

The rules of the language reference (3.3.8, "Emulating numeric types", and 3.3.1 for comparisons).
Nothing here uses the functions of the model.
-/

namespace Verif.Operator

/-- What a method returns: a value of a class or `NotImplemented`. -/
inductive Out where
  | value (c : Nat)
  | notImplemented
  deriving DecidableEq

/-- `call d n c a` is what the method that is defined in `d` does with an instance of `c` and an
argument of class `a`. -/
structure Run where
  call : Nat → Name → Nat → Nat → Out

variable (w : World) (run : Run)

/-- The method is found in `d`: the first class of the MRO that has it. -/
def Finds (c : Nat) (n : Name) (d : Nat) : Prop :=
  ∃ (before after : List Nat), w.mro c = before ++ d :: after ∧ (∃ (s : Sig), w.defs d n = some s) ∧
    ∀ x ∈ before, w.defs x n = none

/-- What `type(x).method(x, a)` does; a method that does not exist counts as `NotImplemented`. -/
inductive Calls : Nat → Name → Nat → Out → Prop
  | found {c a d : Nat} {n : Name} : Finds w c n d → Calls c n a (run.call d n c a)
  | missing {c a : Nat} {n : Name} : (∀ (d : Nat), ¬ Finds w c n d) → Calls c n a .notImplemented

/-- The right operand is asked first: if its class is a real subclass, and, for arithmetic, if it
has a reflected method that is not the one of the left operand. -/
def RightFirst (arith : Bool) (l r : Nat) : Prop :=
  l ≠ r ∧ l ∈ w.mro r ∧ (arith = true → ∃ (d : Nat), Finds w r .rop d ∧ ¬ Finds w l .rop d)

/-- `x op y`; `notImplemented` is a `TypeError`. -/
inductive Evals (arith : Bool) (l r : Nat) : Out → Prop
  | reflected {c : Nat} : RightFirst w arith l r → Calls w run r .rop l (.value c) →
      Evals arith l r (.value c)
  | normalAfter {o : Out} : RightFirst w arith l r → Calls w run r .rop l .notImplemented →
      Calls w run l .op r o → Evals arith l r o
  | normal {c : Nat} : ¬ RightFirst w arith l r → Calls w run l .op r (.value c) →
      Evals arith l r (.value c)
  /-- `x + y` with two instances of a class: there is no second attempt -/
  | same : arith = true → l = r → Calls w run l .op r .notImplemented → Evals arith l r .notImplemented
  | reflectedAfter {o : Out} : ¬ RightFirst w arith l r → ¬ (arith = true ∧ l = r) →
      Calls w run l .op r .notImplemented → Calls w run r .rop l o → Evals arith l r o

/-- `x op= y` -/
inductive Augments (l r : Nat) : Out → Prop
  | inplace {c : Nat} : Calls w run l .iop r (.value c) → Augments l r (.value c)
  | normal {o : Out} : Calls w run l .iop r .notImplemented → Evals w run true l r o → Augments l r o

/-- An instance of the class `v` has the type `t`. -/
def Is (v t : Nat) : Prop := ∃ c ∈ w.mro v, c = t ∨ w.promote c t = true

/-- An instance of the class `v` has one of the types. -/
def IsOneOf (v : Nat) (ts : List Nat) : Prop := ∃ t ∈ ts, Is w v t

/-- The methods do what they declare, and they return `NotImplemented` for other arguments. -/
def Faithful : Prop := ∀ (d : Nat) (n : Name) (s : Sig) (c a : Nat), w.defs d n = some s →
  d ∈ w.mro c →
  (IsOneOf w a s.param → ∃ (v : Nat), run.call d n c a = .value v ∧ IsOneOf w v s.ret) ∧
  (¬ IsOneOf w a s.param → run.call d n c a = .notImplemented)

/-- The value has the type that was inferred. -/
def Fits (v : Nat) (ts : List Ty) : Prop := .any ∈ ts ∨ ∃ (t : Nat), .cls t ∈ ts ∧ Is w v t

/-- Circumstances in which the checker and Python ask the operands in the same order. For
arithmetic: real subclasses only, and a class that defines the reflected method of the left operand
also defines its normal method. For comparisons: the classes that define the two methods. -/
def SameOrder (arith : Bool) (l r : Nat) : Prop :=
  (Is w r l → l ∈ w.mro r) ∧
  (arith = true → ∀ (d : Nat), Finds w l .rop d → Finds w l .op d) ∧
  (arith = false → l = r → ∀ (d e : Nat), Finds w l .op d → Finds w r .rop e → d = e) ∧
  (arith = false → l ≠ r → ∀ (d : Nat), Finds w l .op d → ¬ Finds w r .rop d)

/-- Each class is a subclass of itself, and subtyping is transitive. -/
structure Preorder : Prop where
  self : ∀ (c : Nat), c ∈ w.mro c
  trans : ∀ {a b c : Nat}, Is w a b → Is w b c → Is w a c

end Verif.Operator
