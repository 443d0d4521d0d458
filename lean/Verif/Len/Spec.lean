import Verif.Len.Model

/-!
# What the length of a tuple says about its type (specification)

Nothing here uses the functions of the model.
-/

namespace Verif.Len

/-- A value of Python. -/
inductive Val (V : Type) where
  /-- A tuple with these items. -/
  | tuple (items : List V)
  /-- An instance of a named tuple that was made by a call. -/
  | namedTuple (items : List V)
  /-- An instance of a class, with the items of a tuple. -/
  | inst (cls : Nat) (items : List V)
  /-- Any other value and the result of its `__len__`. -/
  | obj (id : Nat) (length : Int)

/-- `len(x)` -/
def Val.len {V : Type} : Val V → Int
  | .tuple items => items.length
  | .namedTuple items => items.length
  | .inst _ items => items.length
  | .obj _ n => n

section
variable {E V : Type} (item : E → V → Prop) (vars : Nat → List V → Prop) (isOther : Nat → Val V → Prop)

/-- The items have these types, one by one. -/
inductive Each : List E → List V → Prop
  | nil : Each [] []
  | cons {t v ts vs} : item t v → Each ts vs → Each (t :: ts) (v :: vs)

/-- The items of a tuple of the type. -/
def Args.Has : Args E → List V → Prop
  | .fixed ts, vs => Each item ts vs
  | .arbitrary t, vs => ∀ v ∈ vs, item t v
  | .unpack before middle after, vs => ∃ (a b c : List V), vs = a ++ b ++ c ∧
      Each item before a ∧ (∀ v ∈ b, item middle v) ∧ Each item after c
  | .typeVarTuple before ts after, vs => ∃ (a b c : List V), vs = a ++ b ++ c ∧
      Each item before a ∧ vars ts b ∧ Each item after c

/-- The value has the type. -/
def Part.Has : Part E → Val V → Prop
  | .tuple args, .tuple vs => args.Has item vars vs
  | .namedTuple fields, .namedTuple vs => Each item fields vs
  | .cls id (some fields), .inst c vs => id = c ∧ Each item fields vs
  | .cls id none, .inst c _ => id = c
  | .other id, v => isOther id v
  | _, _ => False

/-- The value has one of the types of the union. -/
def Has (parts : List (Part E)) (v : Val V) : Prop := ∃ part ∈ parts, part.Has item vars isOther v

end

/-- What the comparison of Python means. -/
def Operator.Holds : Operator → Int → Int → Prop
  | .eq, a, b => a = b
  | .ne, a, b => a ≠ b
  | .gt, a, b => b < a
  | .lt, a, b => a < b
  | .ge, a, b => b ≤ a
  | .le, a, b => a ≤ b

/-- The test of the `if`: `len(x) op n`, or `n op len(x)`. -/
def Test (op : Operator) (n : Int) (swapped : Bool) (len : Int) : Prop :=
  if swapped then op.Holds n len else op.Holds len n

/-- The least number of items. -/
def Args.least {E : Type} : Args E → Nat
  | .fixed ts => ts.length
  | .arbitrary _ => 0
  | .unpack before _ after => before.length + after.length
  | .typeVarTuple before _ after => before.length + after.length

/-- An ordering and no test for equality. -/
def Operator.Orders (op : Operator) : Prop := op ≠ .eq ∧ op ≠ .ne

/-- The length at which the answer of the test changes: all shorter tuples give one answer and
all others give the other one. -/
def Turns (op : Operator) (n : Int) (swapped : Bool) (length : Nat) : Prop :=
  ∀ (len : Nat), (Test op n swapped len ↔ Test op n swapped length) ↔ length ≤ len

/-- The types whose values are tuples for which the number of items says all. -/
inductive Sized {E : Type} : Part E → Prop
  | fixed (ts) : Sized (.tuple (.fixed ts))
  | arbitrary (t) : Sized (.tuple (.arbitrary t))
  | unpack (b m c) : Sized (.tuple (.unpack b m c))
  | namedTuple (fields) : Sized (.namedTuple fields)
  | cls (id fields) : Sized (.cls id (some fields))

end Verif.Len
