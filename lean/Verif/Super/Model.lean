/-!
# `super`

Model of `execute_super_internal`, `super_instance` and `get_relevant_type_for_super`,
`crates/zuban_python/src/type_helpers/instance.rs` 774-993 and 1031-1042.

Not modelled: generics of classes, the lookup of attributes on the result, and how arguments are inferred.
-/

namespace Verif.Super

/-- `Type`, as far as `super` looks at it.  Classes are numbers. -/
inductive Ty where
  | self_
  | cls (c : Nat)
  | dataclass (c : Nat)
  | any
  /-- A literal of this class. -/
  | literal (c : Nat)
  /-- A type variable without a bound. -/
  | varFree
  | varBound (bound : Ty)
  | varConstraints
  /-- `Type::Type`, class objects. -/
  | typeOf (t : Ty)
  | other
deriving DecidableEq, Repr

/-- An argument: with a keyword, `*args` of unknown length, something that has no type, or a value. -/
inductive Arg where
  | keyword
  | star
  | special
  | value (t : Ty)
deriving DecidableEq, Repr

/-- `FirstParamKind`. -/
inductive Kind where
  | self_
  | classOfSelf
  | static
deriving DecidableEq, Repr

/-- The function around the call. -/
structure Func where
  cls : Option Nat
  kind : Kind
  /-- There is a first parameter, with this annotation. -/
  first : Option (Option Ty)
deriving DecidableEq, Repr

/-- An entry of an MRO: a class, a dataclass, or another type (a tuple or a named tuple). -/
inductive Entry where
  | cls (c : Nat)
  | dataclass (c : Nat)
  | other
deriving DecidableEq, Repr

/-- Where the call is, and the classes of the program. -/
structure Env where
  func : Option Func
  current : Option Nat
  inClass : Bool
  mro : Nat → List Entry
  incomplete : Nat → Bool
  object : Nat

inductive Issue where
  | onlyPositional
  | varargs
  | requiresArguments
  | outsideClass
  | outsideMethod
  | noBaseClass
  | unsupported (index : Nat)
  | firstMustBeType
  | single
  | tooMany
  | secondMustBeInstance
deriving DecidableEq, Repr

/-- The result: a panic, an error, `Any`, or `Type::Super`. -/
inductive Outcome where
  | crash
  | issue (i : Issue)
  | any
  | sup (c : Nat) (bound : Ty) (index : Nat)
deriving DecidableEq, Repr

/-- `get_relevant_type_for_super`, instance.rs 1031-1042. -/
def relevant : Ty → Ty
  | .literal c => .cls c
  | .varBound b => relevant b
  | t => t

/-- `next_arg`, instance.rs 779-790. -/
def readArg : Arg → Except Issue Ty
  | .keyword => .error .onlyPositional
  | .star => .error .varargs
  | .special => .error .onlyPositional
  | .value t => .ok t

/-- `success`, instance.rs 791-801. -/
def success (env : Env) (c : Nat) (t : Ty) (index : Nat) : Outcome :=
  if env.incomplete c then .any else .sup c t index

/-- `is_any() || is_type_of_any()`. -/
def isAny : Ty → Bool
  | .any => true
  | .typeOf .any => true
  | _ => false

/-- The type of the first parameter, instance.rs 816-825. -/
def firstType (assumeInstance : Bool) (kind : Kind) : Option Ty → Ty
  | some t => t
  | none =>
    match kind with
    | .classOfSelf => if assumeInstance then .self_ else .typeOf .self_
    | _ => .self_

/-- `fallback`, instance.rs 802-838. -/
def fallback (env : Env) (assumeInstance : Bool) : Outcome :=
  match env.func with
  | some f =>
    match f.cls with
    | some c =>
      if f.kind = .static then .issue .requiresArguments
      else
        match f.first with
        | none => .issue .requiresArguments
        | some annotation =>
          if isAny (firstType assumeInstance f.kind annotation) then .any
          else success env c (firstType assumeInstance f.kind annotation) 1
    | none => .issue .outsideClass
  | none => if env.inClass then .issue .outsideMethod else .issue .outsideClass

/-- `first_class`. -/
inductive First where
  | stop (o : Outcome)
  | unknown
  | known (c : Nat)
deriving DecidableEq, Repr

/-- The first argument, instance.rs 839-872. -/
def firstClass (env : Env) (t : Ty) : First :=
  match relevant t with
  | .typeOf .self_ =>
    match env.current with
    | some c => .known c
    | none => .stop .crash
  | .typeOf (.cls c) => if c = env.object then .stop (.issue .noBaseClass) else .known c
  | .typeOf (.dataclass c) => .known c
  | .typeOf _ => .stop (.issue (.unsupported 1))
  | .any => .unknown
  | _ => .stop (.issue .firstMustBeType)

/-- The result of `super_instance`. -/
inductive Inst where
  | stop (o : Outcome)
  | ok (c : Nat) (t : Ty)
deriving DecidableEq, Repr

/-- `i_s.current_class().unwrap()`. -/
def ofCurrent (env : Env) (t : Ty) : Inst :=
  match env.current with
  | some c => .ok c t
  | none => .stop .crash

/-- The case of a type variable: an error if there is no current class. -/
def ofVariable (env : Env) (t : Ty) : Inst :=
  match env.current with
  | some c => .ok c t
  | none => .stop (.issue (.unsupported 2))

/-- `super_instance`, instance.rs 915-993. -/
def superInstance (env : Env) : Ty → Inst
  | .self_ => ofCurrent env .self_
  | .cls c => .ok c (.cls c)
  | .varFree => .stop (.issue (.unsupported 2))
  | .varBound b =>
    match env.current with
    | none => .stop (.issue (.unsupported 2))
    | some c =>
      match superInstance env b with
      | .stop o => .stop o
      | .ok _ _ => .ok c (.varBound b)
  | .varConstraints =>
    match env.current with
    | none => .stop (.issue (.unsupported 2))
    | some _ => .stop .crash
  | .any =>
    match fallback env true with
    | .issue _ => .stop .any
    | o => .stop o
  | .typeOf .self_ => ofCurrent env (.typeOf .self_)
  | .typeOf (.cls c) => .ok c (.typeOf (.cls c))
  | .typeOf (.varBound b) => ofVariable env (.typeOf (.varBound b))
  | .typeOf .varConstraints => ofVariable env (.typeOf .varConstraints)
  | .typeOf .varFree => .stop (.issue (.unsupported 2))
  | .typeOf .any =>
    match env.current with
    | some c => .ok c (.typeOf .self_)
    | none => .stop .any
  | _ => .stop (.issue (.unsupported 2))

/-- The loop over the MRO, instance.rs 889-903; the outer `none` is `unreachable!`. -/
def findIndex (c : Nat) : List Entry → Nat → Option (Option Nat)
  | [], _ => some none
  | .other :: _, _ => none
  | .cls d :: rest, i => if c = d then some (some i) else findIndex c rest (i + 1)
  | .dataclass d :: rest, i => if c = d then some (some i) else findIndex c rest (i + 1)

/-- `Type::Literal` of the second argument, instance.rs 882-884. -/
def unliteral : Ty → Ty
  | .literal c => .cls c
  | t => t

/-- `execute_super_internal`, instance.rs 774-913. -/
def executeSuper (env : Env) : List Arg → Outcome
  | [] => fallback env false
  | a :: rest =>
    match readArg a with
    | .error i => .issue i
    | .ok t =>
      match firstClass env t with
      | .stop o => o
      | first =>
        match rest with
        | [] => .issue .single
        | b :: more =>
          match readArg b with
          | .error i => .issue i
          | .ok x =>
            if !more.isEmpty then .issue .tooMany
            else
              match superInstance env (unliteral x) with
              | .stop o => o
              | .ok d bound =>
                match first with
                | .known c =>
                  match findIndex c (env.mro d) 0 with
                  | none => .crash
                  | some none => .issue .secondMustBeInstance
                  | some (some i) => success env d bound (i + 1)
                | _ => success env d bound 1

end Verif.Super
