/-!
Model of the checks of `raise`, `except` and `except*`, and of the type of the caught exception:
crates/zuban_python/src/file/diagnostics.rs 2514-2549,
crates/zuban_python/src/file/flow_analysis.rs 2526-2626, 6009-6079 and
crates/zuban_python/src/file/inference.rs 4507-4525, 4873-4975.
-/
namespace Verif.Raise

/-- `Type`, as far as the checks look at it. Classes are numbers. -/
inductive Ty where
  | cls (c : Nat)
  | dataclass (c : Nat)
  /-- `Type::Type`, the class objects -/
  | typeOf (t : Ty)
  | any
  | never
  | none
  | typeVarBound (t : Ty)
  /-- A type variable without a bound or with constraints -/
  | typeVarOther (n : Nat)
  | inter (ts : List Ty)
  | union (ts : List Ty)
  /-- `TupleArgs::FixedLen` -/
  | tuple (ts : List Ty)
  /-- `TupleArgs::ArbitraryLen` -/
  | tupleOf (t : Ty)
  /-- `TupleArgs::WithUnpack` of an `ArbitraryLen` -/
  | tupleUnpack (before : List Ty) (t : Ty) (after : List Ty)
  /-- `TupleArgs::WithUnpack` of a type variable tuple -/
  | tupleVariadic (n : Nat)
  | other (n : Nat)

/-- What is asked about classes. -/
structure Classes where
  /-- class.rs 307-309 `is_base_exception`: `BaseException` is in the MRO. -/
  isBase : Nat → Bool
  /-- class.rs 311-313 `is_exception` -/
  isException : Nat → Bool
  /-- class.rs 301-305 `is_base_exception_group` -/
  isGroup : Nat → Bool
  /-- type_computation/class.rs 136-138: a base class is not known. -/
  incomplete : Nat → Bool

variable (k : Classes)

/-- diagnostics.rs 2516, the closure `check`. -/
def checkClass (c : Nat) : Bool := k.incomplete c || k.isBase c

mutual
/-- diagnostics.rs 2514-2549 `valid_raise_type`, for a type that is not a union. The call of the
class without arguments has its own diagnostics. Intersections are handled by
type_/mod.rs 828-833 `for_all_in_union`, unions there as well. -/
def validRaise (allowNone : Bool) : Ty → Bool
  | .cls c => checkClass k c
  | .dataclass c => checkClass k c
  | .typeOf t => match t with
    | .cls c => checkClass k c
    | .dataclass c => checkClass k c
    | _ => true
  | .typeVarBound t => validRaise false t
  | .any => true
  | .never => true
  | .none => allowNone
  | .inter ts => validRaiseAny allowNone ts
  | .union ts => validRaiseAll allowNone ts
  | _ => false

def validRaiseAny (allowNone : Bool) : List Ty → Bool
  | [] => false
  | t :: ts => validRaise allowNone t || validRaiseAny allowNone ts

def validRaiseAll (allowNone : Bool) : List Ty → Bool
  | [] => true
  | t :: ts => validRaise allowNone t && validRaiseAll allowNone ts
end

/-- flow_analysis.rs 6009-6014 `ExceptType`. -/
inductive ExceptType where
  | onlyBaseExceptions | hasGroup | invalid
  deriving DecidableEq, Repr

/-- flow_analysis.rs 6022-6031 and 6063-6073, a step of the loops: what the result is, if the
result of the next type is `x` and that of the types after it is `rest`. -/
def ExceptType.and (x rest : ExceptType) : ExceptType :=
  match x, rest with
  | .invalid, _ => .invalid
  | _, .invalid => .invalid
  | .onlyBaseExceptions, r => r
  | .hasGroup, _ => .hasGroup

/-- flow_analysis.rs 6036-6047: the class of a class object. -/
def exceptClass (c : Nat) : ExceptType :=
  if k.isGroup c then .hasGroup else if k.isBase c then .onlyBaseExceptions else .invalid

mutual
/-- flow_analysis.rs 6034-6079 `except_type`. -/
def exceptType (allowTuple : Bool) : Ty → ExceptType
  | .typeOf t => match t with
    | .cls c => exceptClass k c
    | .dataclass c => exceptClass k c
    | _ => .invalid
  | .any => .onlyBaseExceptions
  | .tuple ts => if allowTuple then exceptTypes false ts else .invalid
  | .tupleOf t => if allowTuple then exceptType false t else .invalid
  | .tupleUnpack before t after =>
    if allowTuple then
      (exceptTypes false before).and ((exceptTypes false after).and (exceptType false t))
    else .invalid
  | .union ts => exceptTypes allowTuple ts
  | _ => .invalid

/-- flow_analysis.rs 6017-6032 `from_types`. -/
def exceptTypes (allowTuple : Bool) : List Ty → ExceptType
  | [] => .onlyBaseExceptions
  | t :: ts => (exceptType allowTuple t).and (exceptTypes allowTuple ts)
end

/-- flow_analysis.rs 2557-2565: `except a, b:`, with the types of the expressions. -/
def exceptExpressions (ts : List Ty) : ExceptType := exceptTypes k true ts

/-- flow_analysis.rs 2592-2603: whether there is no error for `except`. -/
def exceptOk (e : ExceptType) : Bool := e == .onlyBaseExceptions || e == .hasGroup

/-- flow_analysis.rs 2604-2621: whether there is no error for `except*`. -/
def exceptStarOk (e : ExceptType) : Bool := e == .onlyBaseExceptions

/-- Everything but `Never`. -/
def notNever : Ty → Bool
  | .never => false
  | _ => true

/-- inferred.rs 825-838 `gather_simplified_union`. Only `Never` is removed in the model; other
simplifications keep the same values. -/
def gather (ts : List Ty) : Ty :=
  match ts.filter notNever with
  | [] => .never
  | [t] => t
  | ts => .union ts

mutual
/-- inference.rs 4873-4917 `instantiate_except`. `Type::ERROR` is `Any`. -/
def instantiate : Ty → Ty
  | .typeOf t => match t with
    | .cls c => .cls c
    | _ => .any
  | .any => .any
  | .tuple ts => gather (instantiates ts)
  | .tupleOf t => gather [instantiate t]
  | .tupleUnpack before t after => gather (instantiates before ++ instantiate t :: instantiates after)
  | .tupleVariadic _ => gather [.any]
  | .union ts => .union (instantiates ts)
  | _ => .any

def instantiates : List Ty → List Ty
  | [] => []
  | t :: ts => instantiate t :: instantiates ts
end

mutual
/-- inference.rs 4933-4975 `gather_except_star`. -/
def gatherStar : Ty → Ty
  | .typeOf t => match t with
    | .cls c => if k.isGroup c then .any else if k.isBase c then .cls c else .any
    | _ => .any
  | .any => .any
  | .tuple ts => gather (gatherStars ts)
  | .tupleOf t => gather [gatherStar t]
  | .tupleUnpack _ _ _ => gather [.any]
  | .tupleVariadic _ => gather [.any]
  | .union ts => .union (gatherStars ts)
  | _ => .any

def gatherStars : List Ty → List Ty
  | [] => []
  | t :: ts => gatherStar t :: gatherStars ts
end

mutual
/-- inference.rs 4919-4931 `has_base_exception`. `none` is the recoverable error. -/
def hasBase : Ty → Option Bool
  | .cls c => some (!k.isException c)
  | .union ts => hasBases ts
  | .any => some false
  | .never => some true
  | _ => none

/-- `u.iter().any(...)`; in the model all of them are looked at for errors. -/
def hasBases : List Ty → Option Bool
  | [] => some false
  | t :: ts =>
    match hasBase t, hasBases ts with
    | some a, some b => some (a || b)
    | _, _ => none
end

/-- inference.rs 4507-4525 `instantiate_except_star`: whether the group is a
`BaseExceptionGroup`, and the type of what is in it. -/
def instantiateStar (t : Ty) : Option (Bool × Ty) :=
  (hasBase k (gatherStar k t)).map (·, gatherStar k t)

end Verif.Raise
