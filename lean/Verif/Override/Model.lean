/-!
# Overriding names of base classes

Model of the checks for names that a class and its base classes have:
crates/zuban_python/src/file/diagnostics.rs (`check_function_override` 1293-1390,
`add_error_if_final` 2661-2676, `find_and_check_override` 2678-2765, `check_override` 2767-3145,
`check_property_setter_override` 3147-3175, `check_multiple_inheritance` 3317-3456),
crates/zuban_python/src/file/inference.rs (`assign_and_override_in_subclass` 975-1095,
`assign_to_name_def` 1107-1160) and crates/zuban_python/src/inferred.rs (`AttributeKind` 3235-3352).

A class is a number, a name is a number. Types are those of any relation `le`, which is
`is_super_type_of` with the arguments swapped. Left out: names that are assigned on `self`,
generic classes, `Any`, overloads of operators (`operator_domain_is_widened`), dataclasses with
`__post_init__`, named tuples, enums, protocols that override names of `object`, Django, and which
of several messages a mismatch gets (2878-3140: there is always one).
-/

namespace Verif.Override

variable {Ty : Type}

/-- `setter_type` of a property: none, `SameTypeFromCachedProperty` or `OtherType`. -/
inductive Setter (Ty : Type) where
  | none
  | same
  | other (t : Ty)

/-- `AttributeKind`, inferred.rs 3235-3254. -/
inductive Kind (Ty : Type) where
  | attribute
  | annotated
  | classVar
  | final
  | prop (s : Setter Ty) (fin : Bool)
  | classm (fin : Bool)
  | static (fin : Bool)
  | method (fin : Bool)

/-- `is_final`, inferred.rs 3288-3297. -/
def Kind.isFinal : Kind Ty → Bool
  | .final => true
  | .prop _ f | .classm f | .static f | .method f => f
  | _ => false

/-- `is_writable`, inferred.rs 3299-3310. -/
def Kind.writable : Kind Ty → Bool
  | .attribute | .annotated | .classVar => true
  | .prop .none _ => false
  | .prop _ _ => true
  | _ => false

/-- `property_setter_type`, inferred.rs 3328-3337. -/
def Kind.setterType : Kind Ty → Option Ty
  | .prop (.other t) _ => some t
  | _ => none

/-- `is_cached_property`, inferred.rs 3346-3352. -/
def Kind.cached : Kind Ty → Bool
  | .prop .same _ => true
  | _ => false

/-- Whether the name is from a `def`. -/
def Kind.isDef : Kind Ty → Bool
  | .prop _ _ | .classm _ | .static _ | .method _ => true
  | _ => false

/-- A name in the body of a class. `ty` is its type on an instance. -/
structure Entry (Ty : Type) where
  kind : Kind Ty
  ty : Ty
  /-- The function has annotations -/
  typed : Bool := true
  /-- The function has decorators -/
  decorated : Bool := false
  /-- One of them is `@override` -/
  override : Bool := false

structure Class (Ty : Type) where
  /-- The method resolution order, with the class, without `object` -/
  mro : List Nat
  bases : List Nat
  /-- `class_symbol_table` -/
  attrs : List (Nat × Entry Ty)
  /-- `is_frozen_dataclass` -/
  frozen : Bool := false

structure World (Ty : Type) where
  cls : Nat → Class Ty
  /-- `is_sub_type_of` -/
  le : Ty → Ty → Bool
  /-- `is_private` -/
  hidden : Nat → Bool
  /-- `IGNORED_INHERITANCE_NAMES`, diagnostics.rs 53-59 -/
  ignored : Nat → Bool
  mypy : Bool := false
  /-- `check_untyped_defs` -/
  untypedDefs : Bool := true
  /-- `check_untyped_overrides` -/
  untypedOverrides : Bool := true
  /-- The error code `explicit-override` is enabled -/
  explicit : Bool := false

inductive Issue where
  /-- `CannotOverrideFinalAttribute` and `CannotAssignToFinal` -/
  | final
  /-- `ArgumentIncompatibleWithSupertype`, `ReturnTypeIncompatibleWithSupertype`,
  `OverloadOrderMustMatchSupertype`, `IncompatibleAssignmentInSubclass`,
  `SignatureIncompatibleWithSupertype` -/
  | mismatch
  /-- `IncompatiblePropertySetterOverride` -/
  | setter
  /-- `ReadOnlyPropertyCannotOverwrite*` and `CannotOverrideWritableAttributeWithReadOnlyProperty` -/
  | readOnly
  /-- `CannotOverrideClassVariableWithInstanceVariable` -/
  | instanceVariable
  /-- `CannotOverrideInstanceVariableWithClassVariable` -/
  | classVariable
  /-- `CannotOverrideWritableWithFinalAttribute` -/
  | writableFinal
  /-- `MissingBaseForOverride` -/
  | missingBase
  /-- `ExplicitOverrideFlagRequiresOverride` -/
  | explicit
  /-- `MultipleInheritanceIncompatibility` -/
  | multiple
deriving DecidableEq, Repr

variable [DecidableEq Ty] (w : World Ty)

/-- The class that declares a name, `Instance::lookup` from some point of the method resolution
order, instance.rs 335-405. -/
def ancestors (name : Nat) (cs : List Nat) : List (Nat × Entry Ty) :=
  cs.filterMap fun c => ((w.cls c).attrs.lookup name).map (c, ·)

/-- The property setter in `check_override`, diagnostics.rs 2809-2818, with
`check_property_setter_override` 3147-3175. -/
def setterIssues (o e : Entry Ty) : List Issue :=
  if o.kind.setterType.isSome || e.kind.setterType.isSome then
    let b := o.kind.setterType.getD o.ty
    let t := e.kind.setterType.getD e.ty
    if w.le e.ty o.ty || t != e.ty then
      if w.le b t then [] else [.setter]
    else []
  else []

/-- The cases of kinds, diagnostics.rs 2832-2876: the issues and whether there still may be a
match. -/
def kindIssues (frozen : Bool) (o e : Kind Ty) : List Issue × Bool :=
  match o, e with
  | .prop s _, .prop .none _ =>
    match s with
    | .none => ([], true)
    | .same => (if !w.mypy then [.readOnly] else [], true)
    | .other _ => ([.readOnly], true)
  | .attribute, .prop .none _ | .annotated, .prop .none _ | .classVar, .prop .none _ =>
    (if frozen then [] else [.readOnly], true)
  | .classm _, .method _ | .static _, .method _ => ([], false)
  | .classVar, .annotated => ([.instanceVariable], true)
  | .annotated, .classVar => ([.classVariable], true)
  | _, _ => ([], true)

/-- `check_override`, diagnostics.rs 2767-3145: the name `o` of a base class is overridden with
`e`. -/
def checkOverride (frozen : Bool) (o e : Entry Ty) : List Issue :=
  let k := kindIssues w frozen o.kind e.kind
  setterIssues w o e ++ k.1 ++
    if w.le e.ty o.ty && k.2 then
      if o.kind.writable && e.kind.isFinal && (!w.mypy || !o.kind.cached) then [.writableFinal]
      else []
    else [.mismatch]

/-- `find_and_check_override`, diagnostics.rs 2678-2765. -/
def findAndCheck (C name : Nat) (e : Entry Ty) : List Issue :=
  match ancestors w name (w.cls C).mro.tail with
  | [] => if e.override then [.missingBase] else []
  | o :: os =>
    (if o.2.kind.isFinal then [.final] else []) ++
    (if !e.override && w.explicit then [.explicit] else []) ++
    (o :: os).flatMap fun o => checkOverride w (w.cls o.1).frozen o.2 e

/-- `should_check_func_override`, diagnostics.rs 1352-1358. -/
def shouldCheck (e : Entry Ty) : Bool :=
  e.typed || w.untypedDefs && (!e.decorated || w.untypedOverrides)

/-- `check_function_override`, diagnostics.rs 1293-1390. -/
def checkFunction (C name : Nat) (e : Entry Ty) : List Issue :=
  if w.hidden name then []
  else if w.ignored name || !shouldCheck w e then
    match ancestors w name (w.cls C).mro.tail with
    | [] => []
    | o :: _ => if o.2.kind.isFinal then [.final] else []
  else findAndCheck w C name e

/-- `assign_to_name_def` and `assign_and_override_in_subclass`, inference.rs 975-1160, for a name in
the body of a class. -/
def checkAssign (C name : Nat) (e : Entry Ty) : List Issue :=
  if w.hidden name then []
  else
    match ancestors w name (w.cls C).mro.tail with
    | [] => []
    | o :: _ =>
      if o.2.kind.isFinal then [.final]
      else checkOverride w (w.cls o.1).frozen o.2 e

/-- The pairs of the loops over the base classes, diagnostics.rs 3325-3336. -/
def pairs : List Nat → List (Nat × Nat)
  | [] => []
  | b :: bs => bs.map (b, ·) ++ pairs bs

/-- A name of two base classes, diagnostics.rs 3374-3451. -/
def checkPair (e o : Entry Ty) : List Issue :=
  if o.kind.isFinal then [.final]
  else if o.kind.writable && e.kind.isFinal && (!w.mypy || !o.kind.cached) then [.writableFinal]
  else if !w.le e.ty o.ty then [.multiple]
  else if !e.kind.writable && o.kind.writable && (!w.mypy || !o.kind.cached) then [.readOnly]
  else []

/-- `check_multiple_inheritance`, diagnostics.rs 3317-3456, called in 1095-1114: `run_on_symbols`
takes the names of the first class of the pair, but not those of its base classes. -/
def checkBases (C : Nat) : List Issue :=
  (pairs (w.cls C).bases).flatMap fun p =>
    (w.cls p.1).attrs.flatMap fun r =>
      if w.hidden r.1 || w.ignored r.1 || ((w.cls C).attrs.lookup r.1).isSome then []
      else
        match ancestors w r.1 (w.cls p.2).mro, ancestors w r.1 (w.cls p.1).mro with
        | o :: _, e :: _ => checkPair w e.2 o.2
        | _, _ => []

/-- The issues of a class, `ensure_class_diagnostics` 1095-1121 and the assignments in the body. -/
def classIssues (C : Nat) : List Issue :=
  checkBases w C ++ (w.cls C).attrs.flatMap fun r =>
    if r.2.kind.isDef then checkFunction w C r.1 r.2 else checkAssign w C r.1 r.2

end Verif.Override
