import Verif.Override.Model

/-!
# What it means that an instance of a subclass can be used like one of a base class

Of the model only the data is used: the classes with their tables.
-/

namespace Verif.Override

variable {Ty : Type} (w : World Ty)

/-- The class `c` is the first one in the method resolution order of `C` that declares the name. -/
def Member (C name c : Nat) (e : Entry Ty) : Prop :=
  ∃ l r, (w.cls C).mro = l ++ c :: r ∧ (w.cls c).attrs.lookup name = some e ∧
    ∀ x ∈ l, (w.cls x).attrs.lookup name = none

/-- The class has the name. -/
def HasName (C name : Nat) : Prop := ∃ c e, Member w C name c e

/-- The class itself declares the name. -/
def Declares (C name : Nat) : Prop := ∃ e, (w.cls C).attrs.lookup name = some e

/-- The method resolution orders are linearizations: a class, then its base classes in their order,
and the orders of the base classes are kept. -/
def Linear : Prop :=
  ∀ C, ∃ t, (w.cls C).mro = C :: t ∧ (C :: t).Nodup ∧ (w.cls C).bases.Sublist t ∧
    (∀ B ∈ (w.cls C).bases, (w.cls B).mro.Sublist t) ∧ ∀ x ∈ t, ∃ B ∈ (w.cls C).bases, x ∈ (w.cls B).mro

section
variable {Val : Type} (sem : Ty → Val → Prop)

/-- The relation between types is right. -/
def Right : Prop := ∀ a b, w.le a b = true → ∀ v, sem a v → sem b v

/-- The values that may be assigned to a name of an instance. -/
def Accepts (frozen : Bool) (e : Entry Ty) (v : Val) : Prop :=
  match e.kind with
  | .attribute | .annotated => frozen = false ∧ sem e.ty v
  | .prop .same _ => sem e.ty v
  | .prop (.other S) _ => sem S v
  | _ => False

end

/-- The function comes from a property, a method, a class method or a static method. -/
def IsDef (e : Entry Ty) : Prop :=
  (∃ s f, e.kind = .prop s f) ∨ ∃ f, e.kind = .classm f ∨ e.kind = .static f ∨ e.kind = .method f

/-- A kind of name that cannot be overridden. -/
def Sealed (e : Entry Ty) : Prop :=
  e.kind = .final ∨ (∃ s, e.kind = .prop s true) ∨ e.kind = .classm true ∨ e.kind = .static true ∨
    e.kind = .method true

/-- An instance variable, a class variable or a property with a setter. -/
def Writable (e : Entry Ty) : Prop :=
  e.kind = .attribute ∨ e.kind = .annotated ∨ e.kind = .classVar ∨
    ∃ s f, e.kind = .prop s f ∧ (s = .same ∨ ∃ t, s = .other t)

/-- A cached property. -/
def Cached (e : Entry Ty) : Prop := ∃ f, e.kind = .prop .same f

/-- What is needed to assign: the type of the setter, or the type of the name. -/
def SetType (e : Entry Ty) (t : Ty) : Prop :=
  (∃ f, e.kind = .prop (.other t) f) ∨ (∀ s f, e.kind ≠ .prop (.other s) f) ∧ t = e.ty

/-- What is asked of an override. -/
structure Overrides (frozen : Bool) (o e : Entry Ty) : Prop where
  /-- The type fits. -/
  type : w.le e.ty o.ty = true
  /-- If one of them has a setter with its own type, then setters fit the other way around. -/
  setter : (∃ t f, o.kind = .prop (.other t) f ∨ e.kind = .prop (.other t) f) →
    ∀ a b, SetType o a → SetType e b → w.le a b = true
  /-- What can be assigned is not replaced by a property without setter. -/
  readOnly : Writable o → (∃ f, e.kind = .prop .none f) →
    (w.mypy = true ∧ Cached o) ∨ (frozen = true ∧ ∀ s f, o.kind ≠ .prop s f)
  /-- What can be assigned is not replaced by something final. -/
  final : Writable o → Sealed e → w.mypy = true ∧ Cached o
  /-- What can be called on the class is not replaced by a method. -/
  method : (∃ f, o.kind = .classm f ∨ o.kind = .static f) → ∀ f, e.kind ≠ .method f
  /-- Class variables and instance variables are not mixed. -/
  instanceVariable : o.kind = .classVar → e.kind ≠ .annotated
  classVariable : o.kind = .annotated → e.kind ≠ .classVar

/-- The name is checked: it is not private, not special and the functions are annotated. -/
structure Checked (name : Nat) : Prop where
  shown : w.hidden name = false
  noted : w.ignored name = false
  typed : ∀ c e, (w.cls c).attrs.lookup name = some e → e.typed = true

/-- If two base classes have the name, then they declare it themselves, and what the class itself
has is special. -/
def ApartBy (special : Entry Ty → Prop) (name : Nat) : Prop :=
  ∀ C, ∀ A ∈ (w.cls C).bases, ∀ B ∈ (w.cls C).bases, A ≠ B → HasName w A name → HasName w B name →
    Declares w A name ∧ Declares w B name ∧ ∀ e, (w.cls C).attrs.lookup name = some e → special e

/-- If two base classes have the name, then they declare it themselves and the class does not assign
it. -/
def Apart (name : Nat) : Prop := ApartBy w IsDef name

/-- At most one base class has the name. -/
def Single (name : Nat) : Prop :=
  ∀ C, ∀ A ∈ (w.cls C).bases, ∀ B ∈ (w.cls C).bases, A ≠ B → HasName w A name → ¬ HasName w B name

/-- Where assignments are reliable. -/
structure Invariant (name : Nat) : Prop where
  /-- Cached properties are checked. -/
  default : w.mypy = false
  /-- At most one base class has the name. -/
  single : Single w name
  /-- There are only attributes, final names and properties, and no frozen dataclass. -/
  kinds : ∀ c e, (w.cls c).attrs.lookup name = some e → (w.cls c).frozen = false ∧
    (e.kind = .attribute ∨ e.kind = .annotated ∨ e.kind = .final ∨ ∃ s f, e.kind = .prop s f)
  /-- All attributes and cached properties have one type. -/
  types : ∀ c e d o, (w.cls c).attrs.lookup name = some e → (w.cls d).attrs.lookup name = some o →
    (e.kind = .attribute ∨ e.kind = .annotated ∨ Cached e) →
    (o.kind = .attribute ∨ o.kind = .annotated ∨ Cached o) → e.ty = o.ty

/-- What is asked of a name that two base classes have. -/
structure Agrees (e o : Entry Ty) : Prop where
  type : w.le e.ty o.ty = true
  notFinal : ¬ Sealed o
  final : Writable o → Sealed e → w.mypy = true ∧ Cached o
  readOnly : Writable o → ¬ Writable e → w.mypy = true ∧ Cached o

/-- The checks do not report anything for the classes in the method resolution order. -/
def Clean [DecidableEq Ty] (C : Nat) : Prop := ∀ x ∈ (w.cls C).mro, classIssues w x = []

end Verif.Override
