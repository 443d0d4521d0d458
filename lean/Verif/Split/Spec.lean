import Verif.Split.Model

/-!
# What the two types have to contain

`mem v t`: the value can be bound to a variable of type `t`.  `inst v i`: at run time
`isinstance(v, i)` is true.  They differ for numbers: a variable of type `float` can
be an `int`, but an `int` is not an instance of `float`.
-/

namespace Verif.Split

variable {A V : Type}

/-- A value is in a type. -/
def In (mem : V → A → Prop) (v : V) (ts : List A) : Prop := ∃ t ∈ ts, mem v t

/-- The classes of numbers that may stand for a class. -/
def Num.le : Num → Num → Prop
  | .int, _ => True
  | .float, .int => False
  | .float, _ => True
  | .complex, .complex => True
  | .complex, _ => False

/-- What is expected of the questions about types. -/
structure Sound (w : World A) (mem inst : V → A → Prop) (num : V → Option Num) : Prop where
  simplify : ∀ v ts, In mem v (w.simplify ts) ↔ In mem v ts
  union : ∀ v ts us, In mem v (w.union ts us) ↔ In mem v ts ∨ In mem v us
  parts : ∀ v t, In mem v (w.parts t) ↔ mem v t
  any : ∀ v t, w.isAny t = true → mem v t
  /-- The instances of a class can be bound to a variable of its type. -/
  instance_ : ∀ v i, inst v i → mem v i
  /-- Without promotions, subtypes have only instances of the class. -/
  compare : ∀ i t, w.compare i t = .yes false →
    (∀ v, mem v t → inst v i) ∨
    ∃ n b, (w.kind i).map Prod.fst = some n ∧ w.kind t = some (n, b)
  typedDict : ∀ v t i, w.typedDict t i = true → mem v t → inst v i
  intersect : ∀ v t ts r, w.intersect t ts = some r → mem v t → In inst v ts → In mem v r
  /-- If there is no intersection then no value is in both, unless the class is a
  protocol. -/
  disjoint : ∀ v t ts, w.intersect t ts = none → w.protocol ts = false → mem v t → ¬ In inst v ts
  /-- `float` means `float | int`, and so on. -/
  promoted : ∀ v t n, w.kind t = some (n, true) → (mem v t ↔ ∃ m, num v = some m ∧ m.le n)
  exact : ∀ v t n, w.kind t = some (n, false) → (mem v t ↔ num v = some n)
  number : ∀ v i n, (w.kind i).map Prod.fst = some n → (inst v i ↔ num v = some n)
  int : (w.kind w.int).map Prod.fst = some .int
  float : w.kind w.float = some (.float, true)
  exactFloat : w.kind w.exactFloat = some (.float, false)
  exactComplex : w.kind w.exactComplex = some (.complex, false)
  covers : ∀ v ts, w.covers ts w.int = true → mem v w.int → In mem v ts

/-- The class and the type are related by inheritance, or by `Any`. -/
def Related (w : World A) (t i : A) : Prop :=
  w.compare i t ≠ .no ∨ w.within i t = true ∨ w.typedDict t i = true ∨ w.isAny i = true

/-- The parts of the members that are looked at one by one. -/
def pieces (w : World A) (ts : List A) : List A :=
  ts.flatMap fun t => if w.isAny t = true ∨ w.freeVar t = true then [t] else w.parts t

/-- The values of the original type that are instances of one of the classes are so
because of inheritance that can be seen in the types: either nothing is related, or all
that have a value in common. -/
def Visible (w : World A) (mem inst : V → A → Prop) (original ts : List A) : Prop :=
  (∀ t ∈ pieces w original, ∀ i ∈ ts, ¬ Related w t i) ∨
  ∀ t ∈ pieces w original, ∀ i ∈ ts, ∀ v, mem v t → inst v i → Related w t i

/-- A type variable without bound and constraints is not one member among others. -/
def VarAlone (w : World A) (original : List A) : Prop :=
  ∀ t ∈ original, w.freeVar t = true → original = [t]

/-- `float` and `complex` of the original type are not looked for, or only `float` alone
is looked for, or only `complex` alone and all other types have only instances of it. -/
def Simple (w : World A) (original ts : List A) : Prop :=
  (∀ t ∈ pieces w original, ∀ i ∈ ts, ∀ n, w.kind t = some (n, true) →
    (w.kind i).map Prod.fst = some n → n = .int) ∨
  (∃ i, ts = [i] ∧ (w.kind i).map Prod.fst = some .float ∧
    (∀ t ∈ original, w.kind t ≠ some (.float, false)) ∧ ∀ t ∈ original, w.freeVar t = false) ∨
  (∃ i, ts = [i] ∧ (w.kind i).map Prod.fst = some .complex ∧ w.typedDict = (fun _ _ => false) ∧
    w.isAny i = false ∧ (∀ t ∈ original, w.kind t ≠ some (.complex, false)) ∧
    ∀ t ∈ original, w.isAny t = false ∧ w.freeVar t = false ∧
      ∀ u ∈ w.parts t, w.compare i u = .yes false)

end Verif.Split
