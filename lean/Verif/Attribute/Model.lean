/-!
# Attributes of instances and of classes

Model of how the type of `o.x` and of `C.x` is found and of how `o.x = v` is checked:
crates/zuban_python/src/type_helpers/instance.rs (`lookup` 335-556,
`check_set_descriptor_and_return_should_narrow` 46-232, `bind_dunder_get` 234-257), inferred.rs
(`bind_instance_descriptors_internal` 896-1222, `bind_instance_descriptors_for_type` 1224-1457,
`bind_class_descriptors` 1458-1666, `bind_class_descriptors_for_type` 1668-1790) and
type_helpers/class.rs (`lookup` 836-965, `check_slots` 2040-2085).

A class is a number, a name of an attribute is a number and a signature of a function is a number.
Left out: generic classes, `Self`, deprecation, overloads, first parameters with an annotation,
named tuples, frozen dataclasses, `functools.total_ordering`, Django and the class `object`, which
has none of the names.
-/

namespace Verif.Attribute

/-- A type: `Any`, the instances of a class, a union of such, a callable. -/
inductive Ty where
  | any
  | cls (c : Nat)
  | union (cs : List Nat)
  | fn (s : Nat)
deriving DecidableEq, Repr

/-- `setter_type` of a property: none, `SameTypeFromCachedProperty` or `OtherType`. -/
inductive Setter where
  | none
  | same
  | other (t : Ty)
deriving DecidableEq, Repr

/-- `Specific::AnnotationOrTypeComment*`. -/
inductive Ann where
  | plain
  | classVar
  | final
deriving DecidableEq, Repr

/-- What a name in the body of a class is: `def`, a property, a class method, a static method, a
name with an annotation, a name that was only assigned. -/
inductive Entry where
  | method (s : Nat)
  | prop (ret : Ty) (setter : Setter)
  | classm (s : Nat)
  | static (s : Nat)
  | ann (k : Ann) (t : Ty)
  | val (t : Ty)
deriving DecidableEq, Repr

/-- A class. `get` is `__get__` with the types it returns for an instance and for a class, `set`
is `__set__` with the type of the value, `getattr`, `getattribute` and `setattr` are `__getattr__`,
`__getattribute__` and `__setattr__` in the body of this class. -/
structure Class where
  /-- The method resolution order, with the class, without `object`. -/
  mro : List Nat
  /-- `class_symbol_table` -/
  attrs : Nat → Option Entry := fun _ => none
  /-- `self_symbol_table`: the type and whether it is final -/
  selfs : Nat → Option (Ty × Bool) := fun _ => none
  slots : Option (List Nat) := none
  /-- `__dict__` is in `__slots__` -/
  dictSlot : Bool := false
  get : Option (Ty × Ty) := none
  set : Option Ty := none
  getattr : Option Ty := none
  getattribute : Option Ty := none
  setattr : Option Ty := none
  /-- There is a base class without known type -/
  incomplete : Bool := false
  isDataclass : Bool := false
  /-- The metaclass, if it is not `type` -/
  metaclass : Option Nat := none

structure World where
  cls : Nat → Class
  /-- The signature without the first parameter -/
  strip : Nat → Nat
  /-- Whether there is a first positional parameter -/
  first : Nat → Bool
  /-- Whether the parameters are those of a `ParamSpec` -/
  paramSpec : Nat → Bool
  /-- The class `property` -/
  property : Nat
  /-- `mypy_compatible` -/
  mypy : Bool

/-- `AttributeKind`, inferred.rs 3235-3254. -/
inductive Kind where
  | attribute
  | annotated
  | classVar
  | final
  | prop (s : Setter)
  | classm
  | static
  | method
deriving DecidableEq, Repr

/-- `is_overwritable`, inferred.rs 3307-3323, for what is not a property. -/
def Kind.overwritable : Kind → Bool
  | .attribute | .annotated | .classVar => true
  | _ => false

variable (w : World)

/-- The first class of a method resolution order that has something. -/
def firstIn {α : Type} (f : Class → Option α) : List Nat → Option (Nat × α)
  | [] => none
  | c :: cs =>
    match f (w.cls c) with
    | some a => some (c, a)
    | none => firstIn f cs

/-- `type_lookup` of `__get__`, instance.rs 240-241. -/
def dunderGet (c : Nat) : Option (Ty × Ty) := (firstIn w (·.get) (w.cls c).mro).map (·.2)

/-- `type_lookup` of `__set__`, instance.rs 158-160. -/
def dunderSet (c : Nat) : Option Ty := (firstIn w (·.set) (w.cls c).mro).map (·.2)

/-- The guard of `FunctionKind::Function`, inferred.rs 1269-1279, with the first parameter, 1282. -/
def bindsSelf (all : Bool) (c s : Nat) : Bool :=
  (!w.mypy && !w.paramSpec s && !(w.cls c).isDataclass || all) && w.first s

/-- `bind_instance_descriptors_for_type`, inferred.rs 1224-1457, for types that are not properties,
class methods or static methods. -/
def bindType (all : Bool) (c : Nat) (t : Ty) : Ty :=
  match t with
  | .fn s => if bindsSelf w all c s then .fn (w.strip s) else .fn s
  | .cls d =>
    match dunderGet w d with
    | some (T, _) => T
    | none => .cls d
  | t => t

/-- The kind of a name that was only assigned, inferred.rs 1305-1309. -/
def valKind (c : Nat) (t : Ty) : Kind :=
  match t with
  | .fn s => if bindsSelf w true c s then .method else .attribute
  | _ => .attribute

/-- The kind of a name with annotation, inferred.rs 988-994. -/
def annKind : Ann → Kind
  | .plain => .annotated
  | .classVar => .classVar
  | .final => .final

/-- `bind_instance_descriptors_internal`, inferred.rs 896-1222. -/
def bind (c : Nat) (e : Entry) : Ty × Kind :=
  match e with
  | .method s => (.fn (w.strip s), .method)
  | .prop ret s => (ret, .prop s)
  | .classm s => (.fn (w.strip s), .classm)
  | .static s => (.fn s, .static)
  | .ann k t => (bindType w (k == .classVar) c t, annKind k)
  | .val t => (bindType w true c t, valKind w c t)

/-- The loop of `Instance::lookup`, instance.rs 342-452: for every class first the names in its
body, then those that are assigned on `self`. -/
def walk (name : Nat) : List Nat → Option (Ty × Kind)
  | [] => none
  | c :: cs =>
    match (w.cls c).attrs name with
    | some e => some (bind w c e)
    | none =>
      match (w.cls c).selfs name with
      | some (t, isFinal) => some (t, if isFinal then .final else .attribute)
      | none => walk name cs

/-- The kind for names that come from `__getattr__`, instance.rs 479-503. -/
def hookKind (C : Nat) : Kind :=
  if (firstIn w (·.setattr) (w.cls C).mro).isSome then .attribute else .prop .none

/-- `Instance::lookup`, instance.rs 335-556, `hooks` is `check_dunder_getattr`. -/
def lookup (hooks : Bool) (C name : Nat) : Option (Ty × Kind) :=
  match walk w name (w.cls C).mro with
  | some r => some r
  | none =>
    let hook : Option (Nat × Ty) :=
      if hooks then
        match firstIn w (·.getattr) (w.cls C).mro with
        | some r => some r
        | none => firstIn w (·.getattribute) (w.cls C).mro
      else none
    match hook with
    | some (_, T) => some (T, hookKind w C)
    | none => if (w.cls C).incomplete then some (.any, .attribute) else none

/-- The type of `o.name` for an `o` of class `C`. -/
def read (C name : Nat) : Option Ty := (lookup w true C name).map (·.1)

/-- Whether a type is accepted for another one, for these types (type_/matching.rs is modelled in
Verif/Sub). -/
def compat (U T : Ty) : Bool :=
  match U, T with
  | .any, _ => true
  | _, .any => true
  | .cls c, .cls d => (w.cls c).mro.contains d
  | .cls c, .union ds => ds.any fun d => (w.cls c).mro.contains d
  | .union cs, .cls d => cs.all fun c => (w.cls c).mro.contains d
  | .union cs, .union ds => cs.all fun c => ds.any fun d => (w.cls c).mro.contains d
  | .fn s, .fn s' => s == s'
  | _, _ => false

/-- What an assignment goes to. -/
inductive Target where
  | prop (ret : Ty) (s : Setter)
  | ty (t : Ty)
deriving DecidableEq, Repr

/-- `Class::lookup` with `InstanceSetattrAccess` and without metaclass, class.rs 836-965, with
`bind_class_descriptors`, inferred.rs 1458-1790, where descriptors are not applied. `none` for what
is a method, instance.rs 91-93. -/
def classTarget (e : Entry) : Option (Target × Kind) :=
  match e with
  | .method _ => none
  | .prop r s => some (.prop r s, .attribute)
  | .classm s => some (.ty (.fn (w.strip s)), .classm)
  | .static s => some (.ty (.fn s), .static)
  | .ann k t => some (.ty t, annKind k)
  | .val (.fn _) => none
  | .val t => some (.ty t, .attribute)

/-- The lookups of an assignment, instance.rs 83-99. -/
def target (C name : Nat) : Option (Target × Kind) :=
  let own := (lookup w false C name).map fun r => (Target.ty r.1, r.2)
  match firstIn w (fun c => c.attrs name) (w.cls C).mro with
  | none => own
  | some (_, e) =>
    match classTarget w e with
    | some r => some r
    | none => own

/-- The issues of an assignment. -/
inductive Issue where
  | readOnly
  | incompatible
  | noAttribute
  | classVar
  | final
  | method
  | slots
deriving DecidableEq, Repr

/-- `is_func_or_overload` of what is in the body of a class, type_/mod.rs 1045-1051. -/
def Entry.isFunc : Entry → Bool
  | .method _ | .prop _ _ | .classm _ | .static _ => true
  | .ann _ (.fn _) | .val (.fn _) => true
  | _ => false

/-- `check_slots`, class.rs 2040-2085: whether there is no issue. -/
def slotsOk (name : Nat) : List Nat → Bool
  | [] => false
  | c :: cs =>
    match (w.cls c).slots with
    | none => true
    | some ss =>
      ss.contains name || (w.cls c).dictSlot
        || (match (w.cls c).attrs name with
            | some e => e.isFunc
            | none => false)
        || (w.cls c).setattr.isSome || slotsOk name cs

/-- `check_compatible`, instance.rs 69-82. -/
def check (U T : Ty) : List Issue := if compat w U T then [] else [.incompatible]

/-- `CannotAssignToAMethod`, instance.rs 208-219. -/
def methodIssue (k : Kind) (t : Ty) : List Issue :=
  match t with
  | .fn _ => if k.overwritable then [] else [.method]
  | _ => []

/-- instance.rs 222-232 -/
def writeRest (C name : Nat) (U t : Ty) : List Issue :=
  (if t == .any then [] else if slotsOk w name (w.cls C).mro then [] else [.slots]) ++ check w U t

/-- `check_set_descriptor_and_return_should_narrow`, instance.rs 135-232, for a name with a type. -/
def writeType (C name : Nat) (U t : Ty) (k : Kind) : List Issue × Bool :=
  let fin : List Issue := if k == .final then [.final] else []
  match t with
  | .cls d =>
    match dunderSet w d with
    | some S => (fin ++ check w U S, false)
    | none =>
      match dunderGet w d with
      | some (T, _) => (fin ++ check w U T, compat w U T)
      | none => (fin ++ writeRest w C name U t, compat w U t)
  | t => (fin ++ methodIssue k t ++ writeRest w C name U t, compat w U t)

/-- Whether the type of a name with `ClassVar` is still the saved annotation: callables are not,
inferred.rs 1511-1523 and 1700-1704. -/
def savedClassVar (k : Kind) (t : Ty) : Bool :=
  k == .classVar && (match t with
    | .fn _ => false
    | _ => true)

/-- A property, instance.rs 181-207. -/
def writeProp (U ret : Ty) (s : Setter) : List Issue × Bool :=
  match s with
  | .none => ([.readOnly], false)
  | .same => (check w U ret, compat w U ret)
  | .other T => (check w U T, false)

/-- `check_set_descriptor_and_return_should_narrow`, instance.rs 46-232: the issues of
`o.name = v` where `v` has type `U`, and whether `o.name` has type `U` afterwards. -/
def write (C name : Nat) (U : Ty) : List Issue × Bool :=
  match target w C name with
  | none =>
    match firstIn w (·.setattr) (w.cls C).mro with
    | some (_, S) => (check w U S, compat w U S)
    | none => ([.noAttribute], false)
  | some (.prop ret s, _) => writeProp w U ret s
  | some (.ty t, k) =>
    if savedClassVar k t then ([.classVar], false) else writeType w C name U t k

/-- `bind_class_descriptors` with `ClassAccess`, inferred.rs 1458-1790. -/
def classBindType (t : Ty) : Ty :=
  match t with
  | .cls d =>
    match dunderGet w d with
    | some (_, T) => T
    | none => .cls d
  | t => t

/-- `bind_class_descriptors` with `ClassAccess`, inferred.rs 1458-1666. -/
def classBind (e : Entry) : Ty × Kind :=
  match e with
  | .method s => (.fn s, .method)
  | .prop _ _ => (.cls w.property, .attribute)
  | .classm s => (.fn (w.strip s), .classm)
  | .static s => (.fn s, .static)
  | .ann k t => (classBindType w t, annKind k)
  | .val (.fn s) => (.fn s, .method)
  | .val t => (classBindType w t, .attribute)

/-- `lookup_on_metaclass`, class.rs 844-885. -/
def onMeta (C name : Nat) : Option Ty :=
  let r : Option Ty := match (w.cls C).metaclass with
    | some M => read w M name
    | none => none
  match r with
  | some T => some T
  | none => if (w.cls C).incomplete then some .any else none

/-- The metaclass goes first for attributes, class.rs 936-948. -/
def metaFirst (C name : Nat) (k : Kind) : Option Ty :=
  if k == .attribute || k == .annotated then
    match (w.cls C).metaclass with
    | some M => (read w M name).filter fun T => T != .any
    | none => none
  else none

/-- `Class::lookup`, class.rs 836-965: the type of `C.name`. -/
def readClass (C name : Nat) : Option Ty :=
  match firstIn w (fun c => c.attrs name) (w.cls C).mro with
  | some (_, e) =>
    match metaFirst w C name (classBind w e).2 with
    | some T => some T
    | none => some (classBind w e).1
  | none => onMeta w C name

end Verif.Attribute
