import Verif.Attribute.Model

/-!
# What attributes are in Python

The values of attributes and the rules of `object.__getattribute__`, `object.__setattr__` and
`type.__getattribute__`. Of the model only the data is used: the classes with their tables.
-/

namespace Verif.Attribute

/-- A value: an object of a class, a function, another callable, a property, a cached property, a
class method, a static method (as they are in the dictionary of a class). -/
inductive Val where
  | obj (c id : Nat)
  | func (s : Nat)
  | callable (s : Nat)
  | property (ret : Ty) (s : Setter)
  | cached (ret : Ty)
  | classmethod (s : Nat)
  | staticmethod (s : Nat)

/-- The first class of a list with something. -/
def Finds {α : Type} (f : Nat → Option α) (cs : List Nat) (c : Nat) (a : α) : Prop :=
  ∃ l r, cs = l ++ c :: r ∧ f c = some a ∧ ∀ x ∈ l, f x = none

/-- No class of a list has something. -/
def Lacks {α : Type} (f : Nat → Option α) (cs : List Nat) : Prop := ∀ x ∈ cs, f x = none

variable (w : World)

/-- `isinstance` for classes. -/
def IsSub (c d : Nat) : Prop := d ∈ (w.cls c).mro

/-- The class of a value, where a type of the model says something about it. -/
def classOf : Val → Option Nat
  | .obj c _ => some c
  | .property _ _ => some w.property
  | _ => none

/-- A value has a type. -/
def Has (v : Val) : Ty → Prop
  | .any => True
  | .cls d => ∃ c, classOf w v = some c ∧ IsSub w c d
  | .union ds => ∃ c, classOf w v = some c ∧ ∃ d ∈ ds, IsSub w c d
  | .fn s => v = .func s ∨ v = .callable s

/-- The class of an object has `__get__`, which returns these types. -/
def Getter (c : Nat) (p : Ty × Ty) : Prop := ∃ d, Finds (fun c => (w.cls c).get) (w.cls c).mro d p

/-- The class of an object has `__set__`, which takes this type. -/
def SetterOf (c : Nat) (S : Ty) : Prop := ∃ d, Finds (fun c => (w.cls c).set) (w.cls c).mro d S

/-- A value has `__get__`. -/
def HasGet : Val → Prop
  | .obj c _ => ∃ p, Getter w c p
  | .callable _ => False
  | _ => True

/-- A value has `__set__`. -/
def HasSet : Val → Prop
  | .obj c _ => ∃ S, SetterOf w c S
  | .property _ _ => True
  | _ => False

/-- Data descriptors that are also used for reading. -/
def IsData (v : Val) : Prop := HasGet w v ∧ HasSet w v

/-- What `v.__get__(o, C)` may give. -/
inductive Gives : Val → Val → Prop
  | obj {c i p u} : Getter w c p → Has w u p.1 → Gives (.obj c i) u
  | func {s} : Gives (.func s) (.callable (w.strip s))
  | property {r s u} : Has w u r → Gives (.property r s) u
  | cached {r u} : Has w u r → Gives (.cached r) u
  | classmethod {s} : Gives (.classmethod s) (.callable (w.strip s))
  | staticmethod {s} : Gives (.staticmethod s) (.func s)

/-- What `v.__get__(None, C)` may give. -/
inductive GivesClass : Val → Val → Prop
  | obj {c i p u} : Getter w c p → Has w u p.2 → GivesClass (.obj c i) u
  | func {s} : GivesClass (.func s) (.func s)
  | property {r s} : GivesClass (.property r s) (.property r s)
  | cached {r} : GivesClass (.cached r) (.cached r)
  | classmethod {s} : GivesClass (.classmethod s) (.callable (w.strip s))
  | staticmethod {s} : GivesClass (.staticmethod s) (.func s)

/-- The dictionaries of the classes. -/
abbrev Dicts := Nat → Nat → Option Val

/-- What a class has for a name: a value in its dictionary or a slot. -/
inductive Cell where
  | val (v : Val)
  | slot

/-- See `Cell`. -/
def cell (D : Dicts) (name c : Nat) : Option Cell :=
  match D c name with
  | some v => some (.val v)
  | none =>
    match (w.cls c).slots with
    | some ss => if name ∈ ss then some .slot else none
    | none => none

/-- The class has a value. -/
def AtClass (D : Dicts) (C name : Nat) (d : Val) : Prop :=
  ∃ c, Finds (cell w D name) (w.cls C).mro c (.val d)

/-- The class has a slot. -/
def AtSlot (D : Dicts) (C name : Nat) : Prop :=
  ∃ c, Finds (cell w D name) (w.cls C).mro c .slot

/-- The class has nothing. -/
def Nowhere (D : Dicts) (C name : Nat) : Prop := Lacks (cell w D name) (w.cls C).mro

/-- A class in the method resolution order has a method. -/
def Hook {α : Type} (f : Class → Option α) (C : Nat) (a : α) : Prop :=
  ∃ c, Finds (fun c => f (w.cls c)) (w.cls C).mro c a

/-- The attributes of an object. -/
abbrev Store := Nat → Option Val

/-- What `o.name` may give for an object `o` of class `C` with the attributes `st`. -/
inductive Reads (D : Dicts) (C : Nat) (st : Store) (name : Nat) : Val → Prop
  | data {d u} : AtClass w D C name d → IsData w d → Gives w d u → Reads D C st name u
  | slot {u} : AtSlot w D C name → st name = some u → Reads D C st name u
  | own {u} : Nowhere w D C name → st name = some u → Reads D C st name u
  | over {d u} : AtClass w D C name d → ¬ IsData w d → st name = some u → Reads D C st name u
  | get {d u} : AtClass w D C name d → ¬ IsData w d → st name = none → HasGet w d →
      Gives w d u → Reads D C st name u
  | plain {d} : AtClass w D C name d → st name = none → ¬ HasGet w d → Reads D C st name d
  | getattr {T u} : Nowhere w D C name ∨ AtSlot w D C name → st name = none →
      Hook w (·.getattr) C T → Has w u T → Reads D C st name u
  | getattribute {T u} : Hook w (·.getattribute) C T → Has w u T → Reads D C st name u

/-- An object of a class has a dictionary. -/
def HasDict (C : Nat) : Prop :=
  ∃ c ∈ (w.cls C).mro, (w.cls c).slots = none ∨ (w.cls c).dictSlot = true

/-- The attributes after an assignment. -/
def Store.put (st : Store) (name : Nat) (v : Val) : Store :=
  fun n => if n = name then some v else st n

/-- A value with `__set__` does not refuse. -/
def Settable : Val → Prop
  | .property _ s => s ≠ .none
  | _ => True

/-- What `o.name = v` may do. `__setattr__` and `__set__` keep what they get elsewhere. -/
inductive Writes (D : Dicts) (C : Nat) (st : Store) (name : Nat) (v : Val) : Store → Prop
  | setattr {S} : Hook w (·.setattr) C S → Writes D C st name v st
  | data {d} : (∀ S, ¬ Hook w (·.setattr) C S) → AtClass w D C name d → HasSet w d → Settable d →
      Writes D C st name v st
  | slot : (∀ S, ¬ Hook w (·.setattr) C S) → AtSlot w D C name →
      Writes D C st name v (st.put name v)
  | own : (∀ S, ¬ Hook w (·.setattr) C S) → Nowhere w D C name → HasDict w C →
      Writes D C st name v (st.put name v)
  | over {d} : (∀ S, ¬ Hook w (·.setattr) C S) → AtClass w D C name d → ¬ HasSet w d →
      HasDict w C → Writes D C st name v (st.put name v)

/-- A value at a class has the declared type, and it is a descriptor exactly if the declared class
is one. -/
def Holds (v : Val) : Ty → Prop
  | .any => True
  | .cls d => ∃ c i, v = .obj c i ∧ IsSub w c d ∧ (∀ p, Getter w c p ↔ Getter w d p) ∧
      ∀ S, SetterOf w c S ↔ SetterOf w d S
  | .union ds => ∃ c i, v = .obj c i ∧ ∃ d ∈ ds, IsSub w c d ∧ (∀ p, Getter w c p ↔ Getter w d p) ∧
      ∀ S, SetterOf w c S ↔ SetterOf w d S
  | .fn s => v = .func s ∨ v = .callable s

/-- A class is a descriptor. -/
def IsDescr (d : Nat) : Prop := (∃ p, Getter w d p) ∨ ∃ S, SetterOf w d S

/-- The dictionary of a class has what its body says. A name with an annotation may have no value,
unless it is a descriptor. -/
def FitsEntry (v : Option Val) : Entry → Prop
  | .method s => v = some (.func s)
  | .prop r .same => v = some (.cached r)
  | .prop r s => v = some (.property r s)
  | .classm s => v = some (.classmethod s)
  | .static s => v = some (.staticmethod s)
  | .ann _ t => (∀ u, v = some u → Holds w u t) ∧ ∀ d, t = .cls d → IsDescr w d → v ≠ none
  | .val (.fn s) => v = some (.func s)
  | .val t => ∃ u, v = some u ∧ Holds w u t

/-- The dictionaries have what the bodies say and nothing else. -/
def Conform (D : Dicts) : Prop :=
  ∀ c name, match (w.cls c).attrs name with
    | some e => FitsEntry w (D c name) e
    | none => D c name = none

/-- A class in the method resolution order declares the name. -/
def Declared (C name : Nat) : Prop :=
  ∃ c ∈ (w.cls C).mro, (w.cls c).attrs name ≠ none ∨ (w.cls c).selfs name ≠ none

/-- Every class is its own subclass, and subclasses of subclasses are subclasses. -/
def Ordered : Prop :=
  (∀ c, IsSub w c c) ∧ ∀ c d e, IsSub w c d → IsSub w d e → IsSub w c e

/-- The first class that declares a name. -/
def FirstDecl (C name c : Nat) : Prop :=
  ∃ l r, (w.cls C).mro = l ++ c :: r ∧
    (∀ x ∈ l, (w.cls x).attrs name = none ∧ (w.cls x).selfs name = none) ∧
    ((w.cls c).attrs name ≠ none ∨ (w.cls c).selfs name ≠ none)

/-- A sequence of assignments to an object of class `C` that are all accepted, the values have the
types and no type is `Any`. -/
inductive Runs (D : Dicts) (C : Nat) : Store → Prop
  | fresh : Runs D C fun _ => none
  | step {st st' name v U} : Runs D C st → Has w v U → U ≠ .any → (write w C name U).1 = [] →
      Writes w D C st name v st' → Runs D C st'

/-- Where the types of reading and of writing are reliable. Every part is there because of a
program where they are not, see the violations. -/
structure Regular (D : Dicts) (C name : Nat) : Prop where
  /-- There is no class with unknown type in the method resolution order. -/
  complete : (w.cls C).incomplete = false
  /-- A name that is declared first on `self` is in the body of no class. -/
  order : ∀ c, FirstDecl w C name c → (w.cls c).attrs name = none →
    ∀ x ∈ (w.cls C).mro, (w.cls x).attrs name = none
  /-- A class that declares a name first has its value, or there is no value. -/
  here : ∀ c, FirstDecl w C name c → D c name = none → ∀ x ∈ (w.cls C).mro, D x name = none
  /-- There is no value for a name with a slot. -/
  slotted : ∀ c ∈ (w.cls C).mro, ∀ ss, (w.cls c).slots = some ss → name ∈ ss →
    ∀ x ∈ (w.cls C).mro, D x name = none
  /-- Attributes of `self` are no descriptors. -/
  plainSelf : ∀ c ∈ (w.cls C).mro, ∀ d f, (w.cls c).selfs name = some (.cls d, f) → ¬ IsDescr w d
  /-- Callables with an annotation are not bound and their values are not functions. -/
  callables : ∀ c ∈ (w.cls C).mro, ∀ k s, (w.cls c).attrs name = some (.ann k (.fn s)) →
    w.mypy = true ∧ k ≠ .classVar ∧ ∀ s', D c name ≠ some (.func s')
  /-- Functions have a first parameter. -/
  firsts : ∀ c ∈ (w.cls C).mro, ∀ s, (w.cls c).attrs name = some (.val (.fn s)) → w.first s = true
  /-- No descriptor is in a union. -/
  unions : ∀ c ∈ (w.cls C).mro, ∀ k ds, (w.cls c).attrs name = some (.ann k (.union ds)) ∨
    (w.cls c).attrs name = some (.val (.union ds)) → ∀ d ∈ ds, ¬ IsDescr w d
  /-- What is declared as `Any` has no `__set__`. -/
  anys : ∀ c ∈ (w.cls C).mro, ∀ k, (w.cls c).attrs name = some (.ann k .any) ∨
    (w.cls c).attrs name = some (.val .any) → ∀ v, D c name = some v → ¬ HasSet w v
  /-- There are no `__getattr__` and `__getattribute__` for declared names. -/
  hooks : Declared w C name → (∀ T, ¬ Hook w (·.getattr) C T) ∧ ∀ T, ¬ Hook w (·.getattribute) C T
  /-- There are not both. -/
  oneHook : ∀ T S, Hook w (·.getattr) C T → ¬ Hook w (·.getattribute) C S

/-- Where an accepted assignment has a place for the value. -/
def SlotSafe (D : Dicts) (C name : Nat) : Prop :=
  HasDict w C ∨ (∃ d, AtClass w D C name d ∧ HasSet w d) ∨
  ((∀ c ∈ (w.cls C).mro, ∀ e, (w.cls c).attrs name = some e → ∃ k,
      (∃ d, (e = .ann k (.cls d) ∨ e = .val (.cls d)) ∧ ∀ p, ¬ Getter w d p) ∨
      ∃ ds, e = .ann k (.union ds) ∨ e = .val (.union ds)) ∧
    ∀ c ∈ (w.cls C).mro, ∀ f, (w.cls c).selfs name ≠ some (.any, f))

/-- A value of a class, without slots. -/
def ClassVal (D : Dicts) (C name : Nat) (d : Val) : Prop :=
  ∃ c, Finds (fun c => D c name) (w.cls C).mro c d

/-- What `C.name` may give. -/
inductive ReadsClass (D : Dicts) (C name : Nat) : Val → Prop
  | metaData {M d u} : (w.cls C).metaclass = some M → AtClass w D M name d → IsData w d →
      Gives w d u → ReadsClass D C name u
  | get {d u} : (∀ M d, (w.cls C).metaclass = some M → AtClass w D M name d → ¬ IsData w d) →
      ClassVal w D C name d → HasGet w d → GivesClass w d u → ReadsClass D C name u
  | plain {d} : (∀ M d, (w.cls C).metaclass = some M → AtClass w D M name d → ¬ IsData w d) →
      ClassVal w D C name d → ¬ HasGet w d → ReadsClass D C name d
  | onMeta {M u} : (w.cls C).metaclass = some M → (∀ d, ¬ ClassVal w D C name d) →
      Reads w D M (fun _ => none) name u → ReadsClass D C name u

/-- Where the type of an attribute of a class is reliable. -/
structure ClassRegular (D : Dicts) (C name : Nat) : Prop where
  complete : (w.cls C).incomplete = false
  /-- A class that declares a name first has its value, or there is no value. -/
  here : ∀ c e, Finds (fun c => (w.cls c).attrs name) (w.cls C).mro c e → D c name = none →
    ∀ x ∈ (w.cls C).mro, D x name = none
  /-- There is no cached property. -/
  noCached : ∀ c ∈ (w.cls C).mro, ∀ r, (w.cls c).attrs name ≠ some (.prop r .same)
  /-- No descriptor is in a union. -/
  unions : ∀ c ∈ (w.cls C).mro, ∀ k ds, (w.cls c).attrs name = some (.ann k (.union ds)) ∨
    (w.cls c).attrs name = some (.val (.union ds)) → ∀ d ∈ ds, ¬ IsDescr w d
  /-- The metaclass does not declare the names of the class and has no `__getattr__` then. -/
  apart : (∃ c ∈ (w.cls C).mro, (w.cls c).attrs name ≠ none) → ∀ M, (w.cls C).metaclass = some M →
    ¬ Declared w M name ∧ (∀ T, ¬ Hook w (·.getattr) M T) ∧ ∀ T, ¬ Hook w (·.getattribute) M T
  /-- The attributes of the metaclass are regular. -/
  metas : ∀ M, (w.cls C).metaclass = some M → Regular w D M name

/-- The type of what is in the body of the class `c`, for an instance. -/
inductive EntryType (c : Nat) : Entry → Ty → Prop
  | method {s} : EntryType c (.method s) (.fn (w.strip s))
  | prop {r s} : EntryType c (.prop r s) r
  | classm {s} : EntryType c (.classm s) (.fn (w.strip s))
  | static {s} : EntryType c (.static s) (.fn s)
  | function {s} : w.first s = true → EntryType c (.val (.fn s)) (.fn (w.strip s))
  | notFirst {s} : w.first s = false → EntryType c (.val (.fn s)) (.fn s)
  | classVar {s} : w.first s = true → EntryType c (.ann .classVar (.fn s)) (.fn (w.strip s))
  | bound {k s} : w.first s = true → w.mypy = false → w.paramSpec s = false →
      (w.cls c).isDataclass = false → EntryType c (.ann k (.fn s)) (.fn (w.strip s))
  | unbound {k s} : w.first s = false ∨ k ≠ .classVar ∧
      (w.mypy = true ∨ w.paramSpec s = true ∨ (w.cls c).isDataclass = true) →
      EntryType c (.ann k (.fn s)) (.fn s)
  | descr {e k d p} : e = .ann k (.cls d) ∨ e = .val (.cls d) → Getter w d p → EntryType c e p.1
  | plain {e k d} : e = .ann k (.cls d) ∨ e = .val (.cls d) → (∀ p, ¬ Getter w d p) →
      EntryType c e (.cls d)
  | any {e k} : e = .ann k .any ∨ e = .val .any → EntryType c e .any
  | union {e k ds} : e = .ann k (.union ds) ∨ e = .val (.union ds) → EntryType c e (.union ds)

/-- The type of `o.name` for an `o` of class `C`. -/
inductive TypeOf (C name : Nat) : Ty → Prop
  | attr {c e T} : FirstDecl w C name c → (w.cls c).attrs name = some e → EntryType w c e T →
      TypeOf C name T
  | self {c T f} : FirstDecl w C name c → (w.cls c).attrs name = none →
      (w.cls c).selfs name = some (T, f) → TypeOf C name T
  | getattr {T} : ¬ Declared w C name → Hook w (·.getattr) C T → TypeOf C name T
  | getattribute {T} : ¬ Declared w C name → (∀ T, ¬ Hook w (·.getattr) C T) →
      Hook w (·.getattribute) C T → TypeOf C name T
  | unknown : ¬ Declared w C name → (∀ T, ¬ Hook w (·.getattr) C T) →
      (∀ T, ¬ Hook w (·.getattribute) C T) → (w.cls C).incomplete = true → TypeOf C name .any

/-- The first class with the name in its body. -/
def FirstBody (C name c : Nat) (e : Entry) : Prop :=
  Finds (fun c => (w.cls c).attrs name) (w.cls C).mro c e

/-- A function in the body of a class, without an annotation. -/
def IsFunction (e : Entry) : Prop := ∃ s, e = .method s ∨ e = .val (.fn s)

/-- The declared type of what is assigned. -/
inductive Slot (C name : Nat) : Ty → Prop
  | ann {c k t} : FirstBody w C name c (.ann k t) → Slot C name t
  | val {c t} : FirstBody w C name c (.val t) → (∀ s, t ≠ .fn s) → Slot C name t
  | classm {c s} : FirstBody w C name c (.classm s) → Slot C name (.fn (w.strip s))
  | static {c s} : FirstBody w C name c (.static s) → Slot C name (.fn s)
  | function {c e c' e' T} : FirstBody w C name c e → IsFunction e → FirstDecl w C name c' →
      (w.cls c').attrs name = some e' → EntryType w c' e' T → Slot C name T
  | self {c T f} : (∀ c e, FirstBody w C name c e → IsFunction e) → FirstDecl w C name c →
      (w.cls c).attrs name = none → (w.cls c).selfs name = some (T, f) → Slot C name T
  | unknown : ¬ Declared w C name → (w.cls C).incomplete = true → Slot C name .any

/-- The type that an assigned value must have. -/
inductive Expects (C name : Nat) : Ty → Prop
  | setattr {S} : ¬ Declared w C name → (w.cls C).incomplete = false → Hook w (·.setattr) C S →
      Expects C name S
  | cached {c r} : FirstBody w C name c (.prop r .same) → Expects C name r
  | setter {c r S} : FirstBody w C name c (.prop r (.other S)) → Expects C name S
  | set {d S} : Slot w C name (.cls d) → SetterOf w d S → Expects C name S
  | get {d p} : Slot w C name (.cls d) → (∀ S, ¬ SetterOf w d S) → Getter w d p → Expects C name p.1
  | plain {t} : Slot w C name t → (∀ d, t = .cls d → ¬ IsDescr w d) → Expects C name t

/-- Why there is an issue. -/
def Reason (C name : Nat) (U : Ty) : Issue → Prop
  | .readOnly => ∃ c r, FirstBody w C name c (.prop r .none)
  | .noAttribute => ¬ Declared w C name ∧ (∀ S, ¬ Hook w (·.setattr) C S) ∧
      (w.cls C).incomplete = false
  | .classVar => ∃ c t, FirstBody w C name c (.ann .classVar t)
  | .final => (∃ c t, FirstBody w C name c (.ann .final t)) ∨
      ∃ c t, FirstDecl w C name c ∧ (w.cls c).selfs name = some (t, true)
  | .method => (∃ c e, FirstBody w C name c e ∧
        (IsFunction e ∨ ∃ s, e = .classm s ∨ e = .static s ∨ e = .ann .final (.fn s))) ∨
      ∃ c s, FirstDecl w C name c ∧ (w.cls c).selfs name = some (.fn s, true)
  | .slots => ¬ HasDict w C ∧ (∀ S, ¬ Hook w (·.setattr) C S) ∧
      ∀ c ∈ (w.cls C).mro, ∀ ss, (w.cls c).slots = some ss → name ∉ ss
  | .incompatible => ∃ S, Expects w C name S ∧ compat w U S = false

/-- What is refused in any case. -/
inductive Refused (C name : Nat) (U : Ty) : Issue → Prop
  | readOnly {c r} : FirstBody w C name c (.prop r .none) → Refused C name U .readOnly
  | noAttribute : ¬ Declared w C name → (∀ S, ¬ Hook w (·.setattr) C S) →
      (w.cls C).incomplete = false → Refused C name U .noAttribute
  | classVar {c t} : FirstBody w C name c (.ann .classVar t) → (∀ s, t ≠ .fn s) →
      Refused C name U .classVar
  | final {c t} : FirstBody w C name c (.ann .final t) → Refused C name U .final
  | finalSelf {c t} : (∀ c e, FirstBody w C name c e → IsFunction e) → FirstDecl w C name c →
      (w.cls c).attrs name = none → (w.cls c).selfs name = some (t, true) → Refused C name U .final
  | method {c s} : FirstDecl w C name c → (w.cls c).attrs name = some (.method s) →
      Refused C name U .method
  | function {c s} : FirstDecl w C name c → (w.cls c).attrs name = some (.val (.fn s)) →
      w.first s = true → Refused C name U .method
  | classm {c s} : FirstBody w C name c (.classm s) → Refused C name U .method
  | static {c s} : FirstBody w C name c (.static s) → Refused C name U .method
  | incompatible {S} : Expects w C name S → compat w U S = false →
      (∀ c t, FirstBody w C name c (.ann .classVar t) → ∃ s, t = .fn s) →
      Refused C name U .incompatible
  | slots {t} : Slot w C name t → t ≠ .any → (∀ d, t = .cls d → ¬ IsDescr w d) →
      (∀ c t, FirstBody w C name c (.ann .classVar t) → ∃ s, t = .fn s) →
      ¬ HasDict w C → (∀ S, ¬ Hook w (·.setattr) C S) →
      (∀ c ∈ (w.cls C).mro, ∀ ss, (w.cls c).slots = some ss → name ∉ ss) →
      (∀ c ∈ (w.cls C).mro, ∀ e, (w.cls c).attrs name = some e →
        ∃ k d, (e = .ann k d ∨ e = .val d) ∧ ∀ s, d ≠ .fn s) →
      Refused C name U .slots

/-- After accepted assignments an attribute has a value that does not have its type. -/
def Unsound (D : Dicts) (C name : Nat) : Prop :=
  ∃ st u T, Runs w D C st ∧ Reads w D C st name u ∧ read w C name = some T ∧ ¬ Has w u T

end Verif.Attribute
