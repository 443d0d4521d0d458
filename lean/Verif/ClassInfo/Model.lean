/-!
# The second argument of `isinstance` and `issubclass`

Model of `crates/zuban_python/src/file/isinstance.rs` 17-237.

Simplified: unions of the result are lists of their members and are not simplified; types other than those below are taken
to be types of ordinary class objects.  Not modelled: inference of the expressions, tuples with an unpacked `TypeVarTuple`, and the check of the call against
typeshed that follows if the result is `None`.
-/

namespace Verif.ClassInfo

/-- A class: whether it has type arguments, is a protocol, is runtime checkable, and has members that are not methods. -/
structure Cls where
  id : Nat
  params : Bool := false
  protocol : Bool := false
  runtime : Bool := false
  nonMethods : Bool := false
deriving DecidableEq, Repr

/-- `Type`; `many` is a tuple of arbitrary length, and `union` has no unions as members. -/
inductive Ty where
  | cls (c : Cls)
  | typedDict
  | newType
  | none
  | any
  | other
  | union (ts : List Ty)
  | tuple (ts : List Ty)
  | many (t : Ty)
  | typeOf (t : Ty)
deriving Repr

inductive Issue where
  | cannotUse
  | parametrized
  | notRuntimeCheckable
  | nonMethodMembers
deriving DecidableEq, Repr

/-- The expression of the argument: `a | b`, the name `Any`, the name `type`, a name for a value of the type `UnionType`
that was defined by an expression, the same without one, an alias, or something else with its type. -/
inductive Expr where
  | or (a b : Expr)
  | typingAny
  | builtinsType
  | unionValue (e : Expr)
  | unresolved
  | alias (t : Ty)
  | value (t : Ty)
deriving Repr

/-- The members of the resulting union, if there is one, and the issues. -/
abbrev Res := Option (List Ty) × List Issue

/-- `iter_with_unpacked_unions`. -/
def members : Ty → List Ty
  | .union ts => ts
  | t => [t]

/-- The case `Type::Type` of `process_isinstance_type`, isinstance.rs 172-209. -/
def classObject (sub : Bool) : Ty → Res
  | .cls c =>
    if c.params then (some [.any], [.parametrized])
    else (some [.cls c],
      if c.protocol then
        (if c.runtime then [] else [.notRuntimeCheckable]) ++ (if sub && c.nonMethods then [.nonMethodMembers] else [])
      else [])
  | t => (some (members t), [])

/-- Two results one after the other, where the second is only made if there is a first one. -/
def andThen (a : Res) (b : Res) : Res :=
  match a with
  | (none, is) => (none, is)
  | (some ts, is) =>
    match b with
    | (none, js) => (none, is ++ js)
    | (some us, js) => (some (ts ++ us), is ++ js)

mutual

/-- `process_isinstance_type`, isinstance.rs 146-222.  Tuples with an unpacked part are tuples of their parts. -/
def process (sub : Bool) : Bool → Ty → Res
  | _, .tuple ts => processAll sub ts
  | _, .many t => process sub false t
  | _, .typeOf t => classObject sub t
  | _, .any => (some [.any], [])
  | fromUnion, .none => if fromUnion then (some [.none], []) else (none, [])
  | _, .cls _ => (none, [])
  | _, .typedDict => (none, [])
  | _, .newType => (none, [])
  | _, .other => (none, [])
  | _, .union _ => (none, [])

/-- `process_tuple_types`, isinstance.rs 224-237. -/
def processAll (sub : Bool) : List Ty → Res
  | [] => (some [], [])
  | t :: ts => andThen (process sub true t) (processAll sub ts)

end

/-- `isinstance_or_issubclass_type_for_expr_part`, isinstance.rs 70-144.  The result for `type` is `type[Any]`, written
`.typeOf .any`, in both cases. -/
def infer (sub : Bool) : Bool → Expr → Res
  | _, .or a b => andThen (infer sub true a) (infer sub true b)
  | _, .typingAny => (some [.any], [.cannotUse])
  | _, .builtinsType => (some [.typeOf .any], [])
  | _, .unionValue e => infer sub false e
  | _, .unresolved => (none, [])
  | fromUnion, .alias t => process sub fromUnion (.typeOf t)
  | fromUnion, .value t => process sub fromUnion t

/-- The errors for members of the result, isinstance.rs 40-44. -/
def memberIssue : Ty → Option Issue
  | .typedDict => some .cannotUse
  | .newType => some .cannotUse
  | _ => Option.none

/-- `check_isinstance_or_issubclass_type`, isinstance.rs 17-47. -/
def check (sub : Bool) (e : Expr) : Res :=
  match infer sub false e with
  | (none, is) => (none, is)
  | (some ts, is) => (some ts, is ++ ts.filterMap memberIssue)

end Verif.ClassInfo
