import Verif.Pattern.Model

/-!
# What `match` does in Python (specification)

Values and their types, the patterns of PEP 634 with the names that they bind, and the statement.
Nothing here uses the functions of the model.
-/

namespace Verif.Pattern

/-- A program when it runs, with the values `V`. -/
structure Run (B V : Type) where
  /-- The value has the type. -/
  leafHas : B → V → Prop
  /-- The items of an object that is a sequence. -/
  items : V → Option (List V)
  /-- The object is a text: sequence patterns do not match it. -/
  text : V → Prop
  isTuple : V → Prop
  /-- The object is a list with these items that is made for a starred pattern. -/
  newList : List V → V → Prop
  /-- `subject == value` or, for `None`, `True` and `False`, `subject is value` -/
  equals : Nat → V → Prop
  /-- `isinstance` -/
  inst : Nat → V → Prop
  attr : V → Nat → Option V
  /-- `__match_args__` of a class -/
  matchArgs : Nat → Option (List Nat)
  /-- `int`, `str` and so on: one positional argument matches the subject itself. -/
  selfMatch : Nat → Prop

variable {B V : Type} (r : Run B V)

/-! ## Types -/

mutual

/-- The value has the type. -/
def Ty.Has : Ty B → V → Prop
  | .leaf b, v => r.leafHas b v
  | .fixed Ts, v => r.isTuple v ∧ ∃ (vs : List V), r.items v = some vs ∧ HasAll Ts vs
  | .arb T, v => r.isTuple v ∧ ∃ (vs : List V), r.items v = some vs ∧ ∀ x ∈ vs, Has T x
  | .unpack bs m as, v => r.isTuple v ∧ ∃ (v1 v2 v3 : List V),
      r.items v = some (v1 ++ v2 ++ v3) ∧ HasAll bs v1 ∧ (∀ x ∈ v2, Has m x) ∧ HasAll as v3
  | .seq T, v => ∃ (vs : List V), r.items v = some vs ∧ ∀ x ∈ vs, Has T x

/-- The value has one of the types of the union. -/
def Has : List (Ty B) → V → Prop
  | [], _ => False
  | t :: ts, v => t.Has v ∨ Has ts v

/-- The values have the types, one by one. -/
def HasAll : List (List (Ty B)) → List V → Prop
  | [], vs => vs = []
  | T :: Ts, vs => ∃ (v : V) (rest : List V), vs = v :: rest ∧ Has T v ∧ HasAll Ts rest

end

/-! ## Patterns -/

/-- The names that a pattern binds, with their values. -/
abbrev Binds (V : Type) := List (Nat × V)

mutual

/-- The pattern matches the value and binds the names. -/
def Matches : Pat → V → Binds V → Prop
  | .capture n, v, σ => σ = [(n, v)]
  | .wild, _, σ => σ = []
  | .value k, v, σ => r.equals k v ∧ σ = []
  | .as p n, v, σ => ∃ (σ' : Binds V), Matches p v σ' ∧ σ = σ' ++ [(n, v)]
  | .or ps, v, σ => MatchesOr ps v σ
  | .cls c pos kw, v, σ => r.inst c v ∧ ∃ (σ1 σ2 : Binds V),
      MatchesPos pos (r.matchArgs c) (r.selfMatch c) v σ1 ∧ MatchesKw kw v σ2 ∧ σ = σ1 ++ σ2
  | .seq before star after, v, σ => ¬ r.text v ∧ ∃ (v1 v2 v3 : List V) (σ1 σ2 σ3 : Binds V),
      r.items v = some (v1 ++ v2 ++ v3) ∧ MatchesAll before v1 σ1 ∧ MatchesAll after v3 σ3 ∧
      (star = none → v2 = []) ∧
      (match star with
        | some (some n) => ∃ (l : V), r.newList v2 l ∧ σ2 = [(n, l)]
        | _ => σ2 = []) ∧
      σ = σ1 ++ σ2 ++ σ3

/-- The first pattern that matches. -/
def MatchesOr : List Pat → V → Binds V → Prop
  | [], _, _ => False
  | p :: ps, v, σ => Matches p v σ ∨ ((∀ (σ' : Binds V), ¬ Matches p v σ') ∧ MatchesOr ps v σ)

/-- The positional arguments of a class: attributes with the names of `__match_args__`, or the
value itself. -/
def MatchesPos : List Pat → Option (List Nat) → Prop → V → Binds V → Prop
  | [], _, _, _, σ => σ = []
  | p :: ps, args, self, v, σ =>
    match args with
    | some [] => False
    | some (n :: ns) => ∃ (x : V) (σ1 σ2 : Binds V), r.attr v n = some x ∧ Matches p x σ1 ∧
        MatchesPos ps (some ns) self v σ2 ∧ σ = σ1 ++ σ2
    | none => self ∧ ps = [] ∧ Matches p v σ

/-- The keyword arguments of a class. -/
def MatchesKw : List (Nat × Pat) → V → Binds V → Prop
  | [], _, σ => σ = []
  | (n, p) :: kw, v, σ => ∃ (x : V) (σ1 σ2 : Binds V), r.attr v n = some x ∧ Matches p x σ1 ∧
      MatchesKw kw v σ2 ∧ σ = σ1 ++ σ2

/-- The patterns match the values, one by one. -/
def MatchesAll : List Pat → List V → Binds V → Prop
  | [], vs, σ => vs = [] ∧ σ = []
  | p :: ps, vs, σ => ∃ (x : V) (rest : List V) (σ1 σ2 : Binds V), vs = x :: rest ∧
      Matches p x σ1 ∧ MatchesAll ps rest σ2 ∧ σ = σ1 ++ σ2

end

/-- The pattern does not match. -/
def Fails (p : Pat) (v : V) : Prop := ∀ (σ : Binds V), ¬ Matches r p v σ

/-- Each name that is bound has one of the types that were assigned to it. -/
def Bound (σ : Binds V) (caps : List (Nat × List (Ty B))) : Prop :=
  ∀ (n : Nat) (x : V), (n, x) ∈ σ → ∃ (T : List (Ty B)), (n, T) ∈ caps ∧ Has r T x

/-! ## What the parameters of the model promise -/

/-- The parts of the checker that are modelled elsewhere and the program are right. -/
structure Sound (w : World B) : Prop where
  value : ∀ (k : Nat) (T : List (Ty B)) (v : V), Has r T v →
    (r.equals k v → Has r (w.value k T).1 v) ∧ (¬ r.equals k v → Has r (w.value k T).2 v)
  isa : ∀ (c : Nat) (T : List (Ty B)) (v : V), Has r T v →
    (r.inst c v → Has r (w.isa c T).1 v) ∧ (¬ r.inst c v → Has r (w.isa c T).2 v)
  any : ∀ (v : V), r.leafHas w.any v
  object : ∀ (v : V), r.leafHas w.object v
  listOf : ∀ (T : List (Ty B)) (vs : List V) (l : V), r.newList vs l → (∀ x ∈ vs, Has r T x) →
    r.leafHas (w.listOf T) l
  fresh : ∀ (vs : List V), ∃ (l : V), r.newList vs l
  attr : ∀ (t : Ty B) (a : Nat) (v x : V) (T : List (Ty B)), t.Has r v → r.attr v a = some x →
    w.attr t a = some T → Has r T x
  text : ∀ (b : B) (v : V), w.kind b = .text → r.leafHas b v → r.text v ∨ r.items v = none
  tuple : ∀ (b : B) (v : V) (args : Ty B), w.kind b = .tuple args → r.leafHas b v → args.Has r v
  sequence : ∀ (b : B) (v : V) (T : List (Ty B)), w.kind b = .sequence T → r.leafHas b v →
    ∃ (vs : List V), r.items v = some vs ∧ ∀ x ∈ vs, Has r T x
  noText : ∀ (v : V), r.isTuple v → ¬ r.text v
  tupleArgs : ∀ (b : B) (args : Ty B), w.kind b = .tuple args →
    (∀ (b' : B), args ≠ .leaf b') ∧ ∀ (T : List (Ty B)), args ≠ .seq T

/-- Python and the checker look at the same `__match_args__`: it is not another one in a
subclass. -/
def SameArgs (w : World B) : Prop :=
  ∀ (c : Nat) (T : List (Ty B)), ∀ t ∈ (w.isa c T).1,
    match w.matchArgs t with
    | .names ns => r.matchArgs c = some ns
    | .missing => r.matchArgs c = none
    | .unknown => True

/-- The `__match_args__` of all classes are tuples of literals or are missing. -/
def ArgsKnown (w : World B) : Prop := ∀ (t : Ty B), w.matchArgs t ≠ .unknown

mutual

/-- There is no starred pattern. -/
def Starless : Pat → Prop
  | .capture _ => True
  | .wild => True
  | .value _ => True
  | .as p _ => Starless p
  | .or ps => StarlessAll ps
  | .cls _ pos kw => StarlessAll pos ∧ StarlessKw kw
  | .seq before star after => star = none ∧ after = [] ∧ StarlessAll before

def StarlessAll : List Pat → Prop
  | [] => True
  | p :: ps => Starless p ∧ StarlessAll ps

def StarlessKw : List (Nat × Pat) → Prop
  | [] => True
  | (_, p) :: kw => Starless p ∧ StarlessKw kw

end

/-- A set of types, closed under everything the checker does with the subject before it looks at
the next pattern, that has no tuples with an unpacked part, no `Sequence` and no classes whose
instances could be sequences although the class is not declared as one. -/
structure StarSafe (w : World B) (P : Ty B → Prop) : Prop where
  value : ∀ (k : Nat) (T : List (Ty B)), (∀ t ∈ T, P t) → ∀ t ∈ (w.value k T).2, P t
  isa : ∀ (c : Nat) (T : List (Ty B)), (∀ t ∈ T, P t) →
    (∀ t ∈ (w.isa c T).1, P t) ∧ ∀ t ∈ (w.isa c T).2, P t
  any : P (.leaf w.any)
  attr : ∀ (t : Ty B) (a : Nat) (T : List (Ty B)), P t → w.attr t a = some T → ∀ u ∈ T, P u
  fixed : ∀ (Ts : List (List (Ty B))), P (.fixed Ts) → ∀ T ∈ Ts, ∀ u ∈ T, P u
  arb : ∀ (T : List (Ty B)), P (.arb T) → ∀ u ∈ T, P u
  noUnpack : ∀ (bs : List (List (Ty B))) (m : List (Ty B)) (as : List (List (Ty B))),
    ¬ P (.unpack bs m as)
  noSeq : ∀ (T : List (Ty B)), ¬ P (.seq T)
  noOther : ∀ (b : B) (v : V), P (.leaf b) → w.kind b = .other → r.leafHas b v →
    r.text v ∨ r.items v = none
  tuple : ∀ (b : B) (args : Ty B), P (.leaf b) → w.kind b = .tuple args → P args
  sequence : ∀ (b : B) (T : List (Ty B)), P (.leaf b) → w.kind b = .sequence T → ∀ u ∈ T, P u

/-- The starred patterns are handled well: there are none, or the types are safe. -/
def StarsOk (w : World B) (p : Pat) (T : List (Ty B)) : Prop :=
  Starless p ∨ ∃ (P : Ty B → Prop), StarSafe r w P ∧ ∀ t ∈ T, P t

/-! ## Patterns that always match -/

mutual

/-- The pattern matches everything. -/
def Total : Pat → Prop
  | .capture _ => True
  | .wild => True
  | .as p _ => Total p
  | .or ps => TotalAny ps
  | _ => False

def TotalAny : List Pat → Prop
  | [] => False
  | p :: ps => Total p ∨ TotalAny ps

end

/-- The positional arguments always match. -/
def PosTotal (c : Nat) (pos : List Pat) : Prop :=
  pos = [] ∨
  (∃ (ns : List Nat), r.matchArgs c = some ns ∧ pos.length ≤ ns.length ∧
    (∀ (v : V), r.inst c v → ∀ n ∈ ns, (r.attr v n).isSome) ∧ ∀ p ∈ pos, Total p) ∨
  (∃ (p : Pat), pos = [p] ∧ r.matchArgs c = none ∧ r.selfMatch c ∧ Total p)

mutual

/-- The arguments of class patterns always match: a class pattern fails only if the value is not
an instance of the class. -/
def ArgsTotal : Pat → Prop
  | .capture _ => True
  | .wild => True
  | .value _ => True
  | .as p _ => ArgsTotal p
  | .or ps => ArgsTotalAll ps
  | .cls c pos kw => PosTotal r c pos ∧
      ∀ (n : Nat) (p : Pat), (n, p) ∈ kw → Total p ∧
        ∀ (v : V), r.inst c v → (r.attr v n).isSome
  | .seq before _ after => ArgsTotalAll before ∧ ArgsTotalAll after

def ArgsTotalAll : List Pat → Prop
  | [] => True
  | p :: ps => ArgsTotal p ∧ ArgsTotalAll ps

end

mutual

/-- In patterns with alternatives, class patterns fail only if the value is not an instance. -/
def OrsTotal : Pat → Prop
  | .capture _ => True
  | .wild => True
  | .value _ => True
  | .as p _ => OrsTotal p
  | .or ps => OrsTotalAll ps ∧ ArgsTotalAll r ps
  | .cls _ pos kw => OrsTotalAll pos ∧ OrsTotalKw kw
  | .seq before _ after => OrsTotalAll before ∧ OrsTotalAll after

def OrsTotalAll : List Pat → Prop
  | [] => True
  | p :: ps => OrsTotal p ∧ OrsTotalAll ps

def OrsTotalKw : List (Nat × Pat) → Prop
  | [] => True
  | (_, p) :: kw => OrsTotal p ∧ OrsTotalKw kw

end

/-! ## The statement -/

/-- The guard of a case is evaluated with the names that the pattern binds. -/
abbrev GuardRun (V : Type) := Binds V → Prop

/-- What a guard promises: the type of a name in the branch in which the guard does not hold. -/
def GuardSound (g : Guard B) (holds : GuardRun V) : Prop :=
  ∀ (σ : Binds V), ¬ holds σ →
    (∀ (n : Nat) (T : List (Ty B)) (x : V), g.falsey n = some T → (n, x) ∈ σ → Has r T x) ∧
    g.unreachable = false

/-- The body of the case number `i` is executed with the names. -/
inductive Executes : List (Pat × Option (Guard B × GuardRun V)) → V → Nat → Binds V → Prop
  | plain {p : Pat} {cs v} {σ : Binds V} : Matches r p v σ → Executes ((p, none) :: cs) v 0 σ
  | holds {p : Pat} {g : Guard B} {holds : GuardRun V} {cs v} {σ : Binds V} :
      Matches r p v σ → holds σ → Executes ((p, some (g, holds)) :: cs) v 0 σ
  | fails {p : Pat} {g : Option (Guard B × GuardRun V)} {cs v i} {σ : Binds V} :
      Fails r p v → Executes cs v i σ → Executes ((p, g) :: cs) v (i + 1) σ
  | guard {p : Pat} {g : Guard B} {holds : GuardRun V} {cs v i} {σ σ' : Binds V} :
      Matches r p v σ' → ¬ holds σ' → Executes cs v i σ →
      Executes ((p, some (g, holds)) :: cs) v (i + 1) σ

/-- A case for which the checker is right: class patterns fail only if the value is not an
instance, and if there is a guard, then only patterns that always match may be bound to a name
with `as`. -/
def CaseOk (p : Pat) (guard : Option (Guard B × GuardRun V)) : Prop :=
  ArgsTotal r p ∧ OrsTotal r p ∧ ∀ (g : Guard B) (holds : GuardRun V), guard = some (g, holds) →
    GuardSound r g holds ∧ ∀ (q : Pat) (n : Nat), p = .as q n → Total q

/-- The starred patterns of all cases are handled well. -/
def CasesOk (w : World B) (cs : List (Pat × Option (Guard B × GuardRun V))) (T : List (Ty B)) :
    Prop :=
  (∀ c ∈ cs, Starless c.1) ∨ ∃ (P : Ty B → Prop), StarSafe r w P ∧ (∀ t ∈ T, P t) ∧
    ∀ (p : Pat) (g : Guard B) (holds : GuardRun V) (n : Nat) (U : List (Ty B)),
      (p, some (g, holds)) ∈ cs → g.falsey n = some U → ∀ u ∈ U, P u

/-- The rest of the checker adds no values. -/
structure Narrows (w : World B) : Prop where
  valueThen : ∀ (k : Nat) (T : List (Ty B)) (v : V), Has r (w.value k T).1 v → Has r T v
  valueElse : ∀ (k : Nat) (T : List (Ty B)) (v : V), Has r (w.value k T).2 v → Has r T v
  isaThen : ∀ (c : Nat) (T : List (Ty B)) (v : V), Has r (w.isa c T).1 v → Has r T v
  isaElse : ∀ (c : Nat) (T : List (Ty B)) (v : V), Has r (w.isa c T).2 v → Has r T v

/-- A set of types, closed under the splits of the rest of the checker, without named tuples,
tuples with an unpacked part and classes that may be sequences. -/
structure Sequences (w : World B) (P : Ty B → Prop) : Prop where
  value : ∀ (k : Nat) (T : List (Ty B)), (∀ t ∈ T, P t) → ∀ t ∈ (w.value k T).2, P t
  isa : ∀ (c : Nat) (T : List (Ty B)), (∀ t ∈ T, P t) →
    (∀ t ∈ (w.isa c T).1, P t) ∧ ∀ t ∈ (w.isa c T).2, P t
  noUnpack : ∀ (bs : List (List (Ty B))) (m : List (Ty B)) (as : List (List (Ty B))),
    ¬ P (.unpack bs m as)
  noOther : ∀ (b : B), P (.leaf b) → w.kind b ≠ .other
  noTuple : ∀ (b : B) (args : Ty B), P (.leaf b) → w.kind b ≠ .tuple args

mutual

/-- There are no sequence patterns, except in the arguments of classes. -/
def Seqless : Pat → Prop
  | .as p _ => Seqless p
  | .or ps => SeqlessAll ps
  | .seq _ _ _ => False
  | _ => True

def SeqlessAll : List Pat → Prop
  | [] => True
  | p :: ps => Seqless p ∧ SeqlessAll ps

end

mutual

/-- There are no sequence patterns in sequence patterns, except in the arguments of classes. -/
def Flat : Pat → Prop
  | .as p _ => Flat p
  | .or ps => FlatAll ps
  | .seq before _ after => SeqlessAll before ∧ SeqlessAll after
  | _ => True

def FlatAll : List Pat → Prop
  | [] => True
  | p :: ps => Flat p ∧ FlatAll ps

end

/-- No case is executed. -/
inductive FallsThrough : List (Pat × Option (Guard B × GuardRun V)) → V → Prop
  | nil {v : V} : FallsThrough [] v
  | fails {p : Pat} {g : Option (Guard B × GuardRun V)} {cs v} :
      Fails r p v → FallsThrough cs v → FallsThrough ((p, g) :: cs) v
  | guard {p : Pat} {g : Guard B} {holds : GuardRun V} {cs v} {σ : Binds V} :
      Matches r p v σ → ¬ holds σ → FallsThrough cs v →
      FallsThrough ((p, some (g, holds)) :: cs) v

end Verif.Pattern
