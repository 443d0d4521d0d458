import Verif.Equality.Model

/-!
# What a comparison of Python says about its operands (specification)

Values, their classes, equality and truth as the language defines them. Nothing here uses the
functions of the model.
-/

namespace Verif.Equality

/-- A value of Python. -/
inductive Val where
  | none
  | ellipsis
  | sentinel (n : Nat)
  /-- `True`, `1`, `"a"`, `b"a"`: an object of exactly that class of the builtins -/
  | lit (l : Lit)
  /-- a floating point number without a fraction -/
  | float (i : Int)
  /-- a member of an enum -/
  | member (e i : Nat)
  /-- any other object, of the class `c + 9`: the first numbers are those of the builtins -/
  | obj (c id : Nat)
  deriving DecidableEq

/-- What two objects of the builtins have in common if they are equal. -/
inductive Key where
  | number (i : Int)
  | text (s : String)
  | binary (s : String)
  deriving DecidableEq

/-- What the classes of a program do when it runs. -/
structure Run where
  /-- The number or the text of a member of an enum that inherits from `int` or `str`. -/
  memberKey : Nat → Nat → Option Key
  /-- The number or the text of an instance of a subclass of `int`, `float`, `str` or `bytes`. -/
  objKey : Nat → Nat → Option Key
  /-- The result of `==` if one of the classes defines `__eq__` or `__ne__` itself. -/
  customEqual : Val → Val → Prop
  /-- The values of a type variable. -/
  vars : Nat → Val → Prop
  /-- The results of `__bool__` and of `__len__`. -/
  bool : Val → Bool
  len : Val → Nat

/-- The class of a value. -/
def Val.classOf (w : World) : Val → Nat
  | .none => cNone
  | .ellipsis => 7
  | .sentinel _ => 8
  | .lit (.bool _) => cBool
  | .lit (.int _) => cInt
  | .lit (.str _) => cStr
  | .lit (.bytes _) => cBytes
  | .float _ => cFloat
  | .member e _ => w.enumClass e
  | .obj c _ => c + 9

/-- The number or the text that a value is. -/
def Val.key (r : Run) : Val → Option Key
  | .lit (.bool b) => some (.number (if b then 1 else 0))
  | .lit (.int i) => some (.number i)
  | .lit (.str s) => some (.text s)
  | .lit (.bytes s) => some (.binary s)
  | .float i => some (.number i)
  | .member e i => r.memberKey e i
  | .obj c id => r.objKey c id
  | _ => Option.none

/-- `x == y` -/
def Equal (w : World) (r : Run) (x y : Val) : Prop :=
  if w.customEq (x.classOf w) ∨ w.customEq (y.classOf w) then r.customEqual x y
  else x = y ∨ ∃ (k : Key), x.key r = some k ∧ y.key r = some k

/-- The value has the type. A flag has more values than its members: their combinations, for which
the numbers that are not those of members stand. -/
def Ty.Has (w : World) (r : Run) : Ty → Val → Prop
  | .any, _ => True
  | .object, _ => True
  | .none, v => v = .none
  | .ellipsis, v => v = .ellipsis
  | .sentinel n, v => v = .sentinel n
  | .cls c, v => w.sub (v.classOf w) c = true
  | .lit l _, v => v = .lit l
  | .enum e, v => ∃ (i : Nat), (i < w.members e ∨ w.isFlag e = true) ∧ v = .member e i
  | .member e i, v => v = .member e i
  | .typeVar n, v => r.vars n v

/-- The value has one of the types of the union. -/
def Has (w : World) (r : Run) (ts : List Ty) (v : Val) : Prop := ∃ t ∈ ts, t.Has w r v

/-- What a branch learned is true of the value. -/
def Fits (w : World) (r : Run) (l : Learned) (v : Val) : Prop :=
  ∀ (ts : List Ty), l = some ts → Has w r ts v

/-- The test of the `if`. -/
def Test (w : World) (r : Run) (isEq : Bool) (x y : Val) : Prop :=
  if isEq then Equal w r x y else x = y

/-- `x in (y, z)` of Python: one of the items is `x` or is equal to it. -/
def In (w : World) (r : Run) (x : Val) (ys : List Val) : Prop :=
  ∃ y ∈ ys, x = y ∨ Equal w r x y

/-- `bool(x)`: `__bool__`, and `__len__` if there is no `__bool__`. -/
def Truth (w : World) (r : Run) (v : Val) : Bool :=
  match v with
  | .none => false
  | .ellipsis => true
  | .sentinel _ => true
  | .lit (.bool b) => b
  | .lit (.int i) => i ≠ 0
  | .lit (.str s) => s ≠ ""
  | .lit (.bytes s) => s ≠ ""
  | .float i => i ≠ 0
  | v =>
    let c := v.classOf w
    if w.boolRet c ≠ .missing then r.bool v
    else if w.lenRet c ≠ .missing then r.len v ≠ 0
    else true

/-- What the builtins promise: `bool` has no subclasses and does not define `__eq__` in a special
way; enums are not classes of the builtins; `float` and the class of `None` define `__bool__`. -/
structure Builtins (w : World) : Prop where
  boolOnly : ∀ (v : Val), w.sub (v.classOf w) cBool = true → ∃ (b : Bool), v = .lit (.bool b)
  boolSub : w.sub cBool cBool = true
  boolEq : w.customEq cBool = false
  enumClasses : ∀ (e : Nat), 8 < w.enumClass e
  floatBool : w.boolRet cFloat ≠ .missing
  noneBool : w.boolRet cNone ≠ .missing

/-- The declared type says itself that `==` can have any result: it is `Any` or its class defines
`__eq__` (the code does not look at it if the other operand is `...` or a sentinel), or it is an
`IntEnum` or a `StrEnum` and the other operand is a number or a text. -/
def SaysCustom (w : World) (t : Ty) (y : Val) : Prop :=
  match t with
  | .any => True
  | .typeVar n => w.varCustomEq n = true
  | .cls c => w.customEq c = true ∧ y ≠ .ellipsis ∧ ∀ (n : Nat), y ≠ .sentinel n
  | .enum e => (w.customEq (w.enumClass e) = true ∧ y ≠ .ellipsis ∧ ∀ (n : Nat), y ≠ .sentinel n) ∨
    (w.kind e ≠ .normal ∧ ∃ (l : Lit), y = .lit l)
  | .member e _ =>
    w.customEq (w.enumClass e) = true ∧ y ≠ .ellipsis ∧ ∀ (n : Nat), y ≠ .sentinel n
  | _ => False

/-- An object that there is only once. -/
def Val.Single : Val → Prop
  | .none => True
  | .ellipsis => True
  | .sentinel _ => True
  | .member _ _ => True
  | _ => False

/-- The types with finitely many values that the code can enumerate. -/
def Finite (w : World) : Ty → Prop
  | .none => True
  | .ellipsis => True
  | .sentinel _ => True
  | .lit _ _ => True
  | .member _ _ => True
  | .enum e => w.isFlag e = false ∧ 0 < w.members e
  | .cls c => c = cBool
  | _ => False

/-- The types that stand for one object. -/
def OneValue : Ty → Prop
  | .none => True
  | .ellipsis => True
  | .sentinel _ => True
  | .lit _ _ => True
  | .member _ _ => True
  | _ => False

/-- Two values are equal only if they are the same, as far as the declared type of `x` does not
say itself that it can be otherwise. -/
def EqualOnlyIfSame (w : World) (r : Run) (checking : List Ty) (x y : Val) : Prop :=
  ∀ t ∈ checking, t.Has w r x → ¬ SaysCustom w t y → Equal w r x y → x = y

/-- The cases in which the code handles the second operand `y` of the type `other` well. -/
structure Handled (w : World) (r : Run) (checking other : List Ty) (isEq : Bool) (y : Val) :
    Prop where
  /-- No class in the type of `x` has a single object like `None` or a member of an enum among its
  instances: it is no base class of the enum and no protocol. -/
  noClass : y.Single → ∀ (c : Nat), .cls c ∈ checking → ¬ (Ty.cls c).Has w r y
  /-- No type variable stands for the member of an enum. -/
  noVar : ∀ (e i n : Nat), y = .member e i → .typeVar n ∈ checking → ¬ r.vars n y
  /-- The second operand is `None` only if it is declared as `None`. -/
  noneAlone : y = .none → other = [.none]
  /-- An enum with one member is not a flag. -/
  noFlag : ∀ (e : Nat), other = [.enum e] → w.isFlag e = false
  /-- The member exists. -/
  valid : ∀ (e i : Nat), other = [.member e i] → i < w.members e
  /-- The enum does not define `__eq__`. -/
  noCustom : ∀ (e i : Nat), y = .member e i → isEq = true → w.customEq (w.enumClass e) = false

/-- The literal is true. -/
def Lit.IsTrue : Lit → Prop
  | .bool b => b = true
  | .int i => i ≠ 0
  | .str s => s ≠ ""
  | .bytes s => s ≠ ""

/-- The class of the value behaves as it is declared. -/
structure Honest (w : World) (r : Run) (v : Val) : Prop where
  bool : ∀ (l : Lit), w.boolRet (v.classOf w) = .lit l → (Truth w r v = true ↔ l.IsTrue)
  len : w.boolRet (v.classOf w) = .missing → ∀ (l : Lit), w.lenRet (v.classOf w) = .lit l →
    (Truth w r v = true ↔ l.IsTrue)
  fields : w.boolRet (v.classOf w) = .missing → ∀ (n : Nat), w.namedTuple (v.classOf w) = some n →
    (Truth w r v = true ↔ n ≠ 0)

/-- The value is an instance of the class itself and not of a subclass. -/
def Direct (w : World) (t : Ty) (v : Val) : Prop := ∀ (c : Nat), t = .cls c → v.classOf w = c

/-- The values, one by one, have these types. -/
inductive EachHas (w : World) (r : Run) : List (List Ty) → List Val → Prop
  | nil : EachHas w r [] []
  | cons {t v ts vs} : Has w r t v → EachHas w r ts vs → EachHas w r (t :: ts) (v :: vs)

end Verif.Equality
