/-!
# Narrowing by `==`, `is`, `in`, `type(x) ==` and by truth (model)

Models `crates/zuban_python/src/file/flow_analysis.rs`: what the type checker concludes for the
two branches of `if x == y`, `if x is y`, `if x in (a, b)`, `if type(x) == C` and `if x`.

Simplified: a union is the list of its members and `Never` is the empty list (the order of a union
and the removal of duplicates by `union_in_place` are left out); classes have no type arguments;
`Self`, recursive types and new types are left out. What the code asks the class hierarchy for is
in `World`.
-/

namespace Verif.Equality

/-- `LiteralKind`, type_/mod.rs. -/
inductive Lit where
  | bool (b : Bool)
  | int (i : Int)
  | str (s : String)
  | bytes (s : String)
  deriving DecidableEq, Repr

/-- `EnumKind`, type_/enum_.rs. -/
inductive EnumKind where
  | normal | intEnum | strEnum
  deriving DecidableEq, Repr

/-- `Type`, type_/mod.rs, as far as the functions below distinguish it. -/
inductive Ty where
  | any
  /-- the class `object` -/
  | object
  | none
  /-- the class of `...` -/
  | ellipsis
  | sentinel (n : Nat)
  /-- an instance of a class other than `object` and that of `...` -/
  | cls (c : Nat)
  /-- `Literal[l]`; `implicit` if it is inferred from an expression -/
  | lit (l : Lit) (implicit : Bool)
  | enum (e : Nat)
  | member (e i : Nat)
  | typeVar (n : Nat)
  deriving DecidableEq, Repr

/-- The classes of the builtins. -/
def cInt : Nat := 1
def cBool : Nat := 2
def cStr : Nat := 3
def cBytes : Nat := 4
def cFloat : Nat := 5
def cNone : Nat := 6

/-- What a method like `__bool__` is declared to return: no such method, some type, a literal. -/
inductive Ret where
  | missing | unknown | lit (l : Lit)
  deriving DecidableEq, Repr

/-- What the code looks up. -/
structure World where
  /-- An instance of the first class can be assigned to the second one: inheritance, protocols and
  the promotion of `int` to `float`. -/
  sub : Nat → Nat → Bool
  /-- `has_custom_eq` of the class, flow_analysis.rs 1225-1237 -/
  customEq : Nat → Bool
  /-- The bound of the type variable has a custom `__eq__`. -/
  varCustomEq : Nat → Bool
  /-- The class of an enum. -/
  enumClass : Nat → Nat
  /-- The number of members of an enum. -/
  members : Nat → Nat
  /-- The enum has `enum.Flag` as a base class. -/
  isFlag : Nat → Bool
  /-- `Enum::kind`, type_/enum_.rs -/
  kind : Nat → EnumKind
  /-- The declared result of `__bool__` and of `__len__` of a class. -/
  boolRet : Nat → Ret
  lenRet : Nat → Ret
  isFinal : Nat → Bool
  /-- The number of fields if a base class is a named tuple. -/
  namedTuple : Nat → Option Nat

/-- `Literal::fallback_class`. -/
def Lit.cls : Lit → Nat
  | .bool _ => cBool
  | .int _ => cInt
  | .str _ => cStr
  | .bytes _ => cBytes

/-- `has_custom_eq`, flow_analysis.rs 1225-1237, with `inner_generic_class`,
type_/mod.rs 874-896. The classes of `...` and `object` are those of the builtins. -/
def hasCustomEq (w : World) : Ty → Bool
  | .cls c => w.customEq c
  | .lit l _ => w.customEq l.cls
  | .enum e => w.customEq (w.enumClass e)
  | .member e _ => w.customEq (w.enumClass e)
  | .typeVar n => w.varCustomEq n
  | _ => false

/-- `is_simple_super_type_of`, type_/matching.rs 299-301, for single types. -/
def accepts (w : World) : Ty → Ty → Bool
  | .any, _ => true
  | _, .any => true
  | .object, _ => true
  | .cls c, .cls d => w.sub d c
  | .cls c, .lit l _ => w.sub l.cls c
  | .cls c, .enum e => w.sub (w.enumClass e) c
  | .cls c, .member e _ => w.sub (w.enumClass e) c
  | .cls c, .none => w.sub cNone c
  | .enum e, .member e' _ => e == e'
  | .lit l _, .lit l' _ => l == l'
  | t, u => t == u

/-- `is_simple_super_type_of`, type_/matching.rs 299-301, for unions. -/
def acceptsAll (w : World) (ts us : List Ty) : Bool :=
  us.all fun u => ts.any fun t => accepts w t u

/-- The members of an `IntEnum` or `StrEnum` are equal to numbers or texts, flow_analysis.rs
1317-1331. -/
def kindAborts (w : World) (e : Nat) (t : Ty) : Bool :=
  match w.kind e with
  | .intEnum => t == .cls cInt || hasCustomEq w t
  | .strEnum => t == .cls cStr || hasCustomEq w t
  | .normal => false

/-- The body of the loop of `split_off_enum_member`, flow_analysis.rs 1250-1348: whether the
member is added to the first type, and what is added to the second one; `none` if the function
returns `None`. `Any` and `object` are added twice in the code. -/
def enumPart (w : World) (e i : Nat) (isEq : Bool) (t : Ty) : Option (Bool × List Ty) :=
  match t with
  | .any | .object => if isEq then none else some (true, [t])
  | .member e' i' =>
    if e = e' ∧ i = i' then some (true, [])
    else if isEq ∧ hasCustomEq w t then none
    else some (false, [t])
  | .enum e' =>
    if e = e' then
      let others := ((List.range (w.members e')).filter (· ≠ i)).map (Ty.member e')
      some (decide (i < w.members e'), if w.isFlag e then [t] else others)
    else if isEq ∧ hasCustomEq w t then none
    else if isEq ∧ (w.kind e' = .intEnum ∨ w.kind e' = .strEnum) then none
    else some (false, [t])
  | .none => some (false, [t])
  | _ =>
    if isEq ∧ kindAborts w e t then none
    else if isEq ∧ hasCustomEq w t then none
    else some (false, [t])

/-- `split_off_enum_member`, flow_analysis.rs 1239-1350. -/
def splitEnum (w : World) (e i : Nat) (isEq : Bool) : List Ty → Option (List Ty × List Ty)
  | [] => some ([], [])
  | t :: ts =>
    match enumPart w e i isEq t, splitEnum w e i isEq ts with
    | some (hit, others), some (truthy, falsey) =>
      some (if hit then [.member e i] else truthy, others ++ falsey)
    | _, _ => none

/-- `maybe_split_bool_from_literal`, flow_analysis.rs 1518-1533. -/
def splitBool : Ty → Lit → Option (Ty × Ty)
  | .cls c, .bool b =>
    if c = cBool then some (.lit (.bool b) false, .lit (.bool (!b)) false) else none
  | _, _ => none

/-- The part of the loop of `split_off_singleton` for a literal, flow_analysis.rs 1390-1411. -/
def literalPart (w : World) (l : Lit) (implicit : Bool) (t : Ty) : List Ty × List Ty :=
  match splitBool t l with
  | some (yes, no) => ([yes], [no])
  | none =>
    if hasCustomEq w t then ([t], [t])
    else if accepts w t (.lit l implicit) then ([.lit l implicit], [t])
    else
      match t with
      | .enum e =>
        if w.kind e = .intEnum ∨ w.kind e = .strEnum then ([t], [t]) else ([], [t])
      | _ => ([], [t])

/-- The body of the loop of `split_off_singleton`, flow_analysis.rs 1362-1414. -/
def singletonPart (w : World) (single : Ty) (isEq : Bool) (t : Ty) : List Ty × List Ty :=
  match t with
  | .any | .typeVar _ => (if isEq then [t] else [single], [t])
  | .object => ([single], [t])
  | .lit l _ =>
    match single with
    | .lit l' _ => if l = l' then ([.lit l false], []) else ([], [t])
    | _ => ([], [t])
  | _ =>
    if single = t then ([single], [])
    else
      match single with
      | .lit l implicit => literalPart w l implicit t
      | _ => ([], [t])

/-- `split_off_singleton`, flow_analysis.rs 1352-1417. -/
def splitSingleton (w : World) (single : Ty) (isEq : Bool) (ts : List Ty) : List Ty × List Ty :=
  (ts.flatMap fun t => (singletonPart w single isEq t).1,
    ts.flatMap fun t => (singletonPart w single isEq t).2)

/-- `has_explicit_literal`, flow_analysis.rs 1214-1223, without the bounds of type variables. -/
def hasExplicitLiteral (ts : List Ty) : Bool :=
  ts.any fun
    | .lit _ implicit => !implicit
    | _ => false

/-- What a branch learns: `none` is `Frame::new_conditional()`, nothing is known; otherwise the
variable has the type. -/
abbrev Learned := Option (List Ty)

/-- `narrow_is_or_eq`, flow_analysis.rs 1419-1516. `simpleKey` says that `x` is a simple name and
that the checker does not run in the mode that is compatible with Mypy. -/
def narrow (w : World) (simpleKey : Bool) (checking other : List Ty) (isEq : Bool) :
    Option (Learned × Learned) :=
  let rest : Option (Learned × Learned) :=
    if 2 ≤ checking.length ∧ Ty.none ∈ checking then
      let falsey := (splitSingleton w .none isEq checking).2
      if acceptsAll w other falsey ∨ acceptsAll w falsey other then some (some falsey, none)
      else none
    else none
  let ofMember (e i : Nat) :=
    match splitEnum w e i isEq checking with
    | some (truthy, falsey) => some (some truthy, some falsey)
    | none => none
  let ofSingleton (single : Ty) : Option (Learned × Learned) :=
    let (truthy, falsey) := splitSingleton w single isEq checking
    some (some truthy, some falsey)
  match other with
  | [.none] =>
    if isEq then some (none, some (splitSingleton w .none isEq checking).2)
    else
      match checking with
      | [.typeVar n] => some (some [.none], some [.typeVar n])
      | _ => ofSingleton .none
  | [.member e i] => ofMember e i
  | [.enum e] => if w.members e = 1 then ofMember e 0 else rest
  | [.lit l implicit] =>
    if !isEq || !implicit || simpleKey || hasExplicitLiteral checking then
      ofSingleton (.lit l implicit)
    else rest
  | [.ellipsis] => ofSingleton .ellipsis
  | [.sentinel n] => ofSingleton (.sentinel n)
  | _ => rest

/-- `merge_or`, flow_analysis.rs, for one variable: it is known in both branches or not at all. -/
def mergeOr : Learned → Learned → Learned
  | some a, some b => some (a ++ b)
  | _, _ => none

/-- `merge_and`, flow_analysis.rs 1182-1212, for one variable. -/
def mergeAnd (meet : List Ty → List Ty → List Ty) : Learned → Learned → Learned
  | some a, some b => some (meet a b)
  | some a, none => some a
  | none, b => b

/-- The fold of `guard_of_in_operator` over the items of a tuple, flow_analysis.rs 4647-4663. `meet`
stands for the intersection that `merge_and` makes of the types of a variable. -/
def inTuple (w : World) (meet : List Ty → List Ty → List Ty) (simpleKey : Bool)
    (checking : List Ty) : List (List Ty) → Learned × Learned → Option (Learned × Learned)
  | [], acc => some acc
  | item :: items, (truthy, falsey) =>
    match narrow w simpleKey checking item true with
    | none => none
    | some (t, f) =>
      inTuple w meet simpleKey checking items (mergeOr truthy t, mergeAnd meet falsey f)

/-- `x in (a, b, ...)`, flow_analysis.rs 4644-4666: it starts with an unreachable branch. -/
def guardIn (w : World) (meet : List Ty → List Ty → List Ty) (simpleKey : Bool)
    (checking : List Ty) (items : List (List Ty)) : Option (Learned × Learned) :=
  inTuple w meet simpleKey checking items (some [], none)

/-- `x in container` for the containers of the standard library, flow_analysis.rs 4667-4683. The
test that the types overlap only decides if something is concluded; it is the argument
`overlaps`. -/
def guardInContainer (checking item : List Ty) (overlaps : Bool) : Option (Learned × Learned) :=
  if item = [.any] ∨ item = [.object] then none
  else if Ty.none ∉ item ∧ overlaps ∧ Ty.none ∈ checking then
    some (some (checking.filter (· ≠ .none)), none)
  else none

/-- `find_comparison_chain_guards`, flow_analysis.rs 5439-5465, for a chain `x == a == b` in which
only `x` is a variable: the first of the other operands from which something follows. -/
def chain (w : World) (simpleKey : Bool) (checking : List Ty) (isEq : Bool) :
    List (List Ty) → Option (Learned × Learned)
  | [] => none
  | other :: others =>
    match narrow w simpleKey checking other isEq with
    | some r => some r
    | none => chain w simpleKey checking isEq others

/-- `check_for_comparison_guard` for `type(x) == y` where `y` has the type `type[c]`,
flow_analysis.rs 5489-5525. -/
def guardTypeOf (w : World) (checking : List Ty) (c : Nat) : Learned × Learned :=
  (some (if acceptsAll w checking [.cls c] then [.cls c] else []),
    if w.isFinal c then some (checking.filter (· ≠ .cls c)) else none)

/-- `check_literal`, flow_analysis.rs 1579-1583. -/
def checkLiteral (t : Ty) : Lit → Option (List Ty × List Ty)
  | .bool b => if b then some ([t], []) else some ([], [t])
  | .int i => if i ≠ 0 then some ([t], []) else some ([], [t])
  | _ => none

/-- `narrow_by_return_literal`, flow_analysis.rs 1584-1593: nothing if there is no such method. -/
def byReturn (t : Ty) : Ret → Option (Option (List Ty × List Ty))
  | .missing => none
  | .unknown => some none
  | .lit l => some (checkLiteral t l)

/-- `split_truthy_and_falsey_single`, flow_analysis.rs 1571-1656, without tuples and typed
dictionaries. -/
def truthPart (w : World) (t : Ty) : Option (List Ty × List Ty) :=
  match t with
  | .none => some ([], [.none])
  | .lit l _ => checkLiteral t l
  | .cls c =>
    match splitBool t (.bool true) with
    | some (yes, no) => some ([yes], [no])
    | none =>
      if c = cInt then some ([t], [.lit (.int 0) false])
      else if c = cStr then some ([t], [.lit (.str "") false])
      else if c = cBytes then some ([t], [.lit (.bytes "") false])
      else
        match byReturn t (w.boolRet c) with
        | some r => r
        | none =>
          match w.namedTuple c with
          | some n => checkLiteral t (.int n)
          | none =>
            match byReturn t (w.lenRet c) with
            | some r => r
            | none => if w.isFinal c then some ([t], []) else none
  | .enum e | .member e _ =>
    match byReturn t (w.boolRet (w.enumClass e)) with
    | some r => r
    | none =>
      match byReturn t (w.lenRet (w.enumClass e)) with
      | some r => r
      | none => some ([t], [])
  | _ => none

/-- `split_truthy_and_falsey_t`, flow_analysis.rs 1570-1676. -/
def splitTruth (w : World) (ts : List Ty) : Option (List Ty × List Ty) :=
  if ts.all fun t => (truthPart w t).isNone then
    if ts = [] then some ([], []) else none
  else
    some (ts.flatMap fun t => ((truthPart w t).getD ([t], [t])).1,
      ts.flatMap fun t => ((truthPart w t).getD ([t], [t])).2)

end Verif.Equality
