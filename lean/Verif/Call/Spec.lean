import Verif.Call.Model

/-!
# Calls in Python

"Calls" in the language reference, section 6.3.4: the positional arguments fill the first parameters, named arguments fill
the parameters with their names, what is left goes into `*args` and `**kwargs`.
-/

namespace Verif.Call.Spec

open Verif.Call

variable {α τ : Type}

def positional (p : Param τ) : Prop := p.kind = .posOnly ∨ p.kind = .posOrKw

/-- The parameter can be given by name. -/
def named (p : Param τ) (n : String) : Prop := (p.kind = .posOrKw ∨ p.kind = .kwOnly) ∧ p.name = some n

def rank : Kind → Nat
  | .posOnly => 0
  | .posOrKw => 1
  | .star => 2
  | .kwOnly => 3
  | .starStar => 4

/-- The parameters of a `def`: in the order of the grammar, at most one `*args` and `**kwargs`, and different names for
the parameters that can be named.  `idx` counts the parameters. -/
structure Signature (ps : List (Param τ)) : Prop where
  idx : ∀ (j : Nat) p, ps[j]? = some p → p.idx = j
  order : ps.Pairwise fun p q => rank p.kind ≤ rank q.kind ∧ (p.kind = .star → q.kind ≠ .star) ∧
    (p.kind = .starStar → q.kind ≠ .starStar)
  names : ∀ p ∈ ps, p.kind = .posOrKw ∨ p.kind = .kwOnly → ∃ n, p.name = some n
  different : ps.Pairwise fun p q => ∀ n, named p n → ¬ named q n

/-- The parameter number `j` gets the value `v` in a call with these positional and named arguments. -/
inductive Gets (ps : List (Param τ)) (pos : List α) (kws : List (String × α)) : Nat → α → Prop
  | position {j p v} : ps[j]? = some p → positional p → pos[j]? = some v → Gets ps pos kws j v
  | rest {j p v i} : ps[j]? = some p → p.kind = .star → j ≤ i → pos[i]? = some v → Gets ps pos kws j v
  | name {j p n v} : ps[j]? = some p → named p n → (n, v) ∈ kws → Gets ps pos kws j v
  | other {j p n v} : ps[j]? = some p → p.kind = .starStar → (∀ q ∈ ps, ¬ named q n) → (n, v) ∈ kws →
    Gets ps pos kws j v

/-- A named argument for a parameter that was already given. -/
def Repeated (ps : List (Param τ)) (pos : List α) (kws : List (String × α)) : Prop :=
  ¬ (kws.map Prod.fst).Nodup ∨
    ∃ (j : Nat) (p : Param τ) (n : String), ps[j]? = some p ∧ named p n ∧ positional p ∧ j < pos.length ∧
      n ∈ kws.map Prod.fst

/-- There is a place for every argument, and an argument for every parameter without a default. -/
structure Fills (ps : List (Param τ)) (pos : List α) (kws : List (String × α)) : Prop where
  room : (∃ p ∈ ps, p.kind = .star) ∨ ∀ j < pos.length, ∃ p, ps[j]? = some p ∧ positional p
  known : ∀ n ∈ kws.map Prod.fst, (∃ p ∈ ps, named p n) ∨ ∃ p ∈ ps, p.kind = .starStar
  filled : ∀ (j : Nat) p, ps[j]? = some p → p.kind ≠ .star → p.kind ≠ .starStar → p.hasDefault = false →
    ∃ v, Gets ps pos kws j v

/-- Python does not raise a `TypeError` for the arguments of this call. -/
structure Accepts (ps : List (Param τ)) (pos : List α) (kws : List (String × α)) : Prop
    extends Fills ps pos kws where
  once : ¬ Repeated ps pos kws

/-! ## The arguments that are written down -/

/-- `args` in the grammar of Python: no positional argument after a named one or a `**`, no `*` after a `**`. -/
def Grammatical (call : List (CallArg α)) : Prop :=
  call.Pairwise fun
    | .kw .., .pos _ => False
    | .starStar .., .pos _ => False
    | .starStar .., .star .. => False
    | _, _ => True

/-- At run time these are the positional and named values of the call.  The members of a `TypedDict` are all there. -/
inductive Supplies : List (CallArg α) → List α → List (String × α) → Prop
  | nil : Supplies [] [] []
  | pos {v call P K} : Supplies call P K → Supplies (.pos v :: call) (v :: P) K
  | kw {n v call P K} : Supplies call P K → Supplies (.kw n v :: call) P ((n, v) :: K)
  | star {vs more ws call P K} : (∀ w ∈ ws, more = some w) → Supplies call P K →
    Supplies (.star vs more :: call) (vs ++ ws ++ P) K
  | starStar {ms extra es call P K} : (∀ e ∈ es, extra = some e.2) → Supplies call P K →
    Supplies (.starStar ms extra :: call) P (ms ++ es ++ K)

/-- The numbers of positional and named arguments are known. -/
def Known (call : List (CallArg α)) : Prop :=
  ∀ a ∈ call, (∀ vs w, a ≠ .star vs (some w)) ∧ (∀ ms w, a ≠ .starStar ms (some w))

/-- A `*` of unknown length. -/
def isUnknownStar (a : CallArg α) : Prop := ∃ vs w, a = .star vs (some w)

/-- A `**` with unknown names. -/
def isUnknownDouble (a : CallArg α) : Prop := ∃ ms w, a = .starStar ms (some w)

/-- After a `*` of unknown length there are no more positional arguments, and a `**` with unknown names is the last
argument, without any named argument that is followed by a `*`. -/
structure Orderly (call : List (CallArg α)) : Prop where
  star : call.Pairwise fun a b => isUnknownStar a → (∀ v, b ≠ .pos v) ∧ ∀ vs w, b ≠ .star vs w
  double : call.Pairwise fun a _ => ¬ isUnknownDouble a
  kept : (∃ a ∈ call, isUnknownDouble a) →
    call.Pairwise fun a b => (∃ n v, a = .kw n v) → ∀ vs w, b ≠ .star vs w

/-- The name of an argument of the call. -/
def mentions (call : List (CallArg α)) (n : String) : Prop :=
  ∃ a ∈ call, (∃ v, a = .kw n v) ∨ ∃ ms extra v, a = .starStar ms extra ∧ (n, v) ∈ ms

/-! ## Messages -/

/-- The parameter `p` must be given, and no value reaches it. -/
def Lacks (ps : List (Param τ)) (pos : List α) (kws : List (String × α)) (p : Param τ) : Prop :=
  p.kind ≠ .star ∧ p.kind ≠ .starStar ∧ p.hasDefault = false ∧ ∃ j, ps[j]? = some p ∧ ∀ v, ¬ Gets ps pos kws j v

/-- What a message says is true of the call. -/
def Holds (ps : List (Param τ)) (pos : List α) (kws : List (String × α)) : Report → Prop
  | .tooManyPositional => ¬ ((∃ p ∈ ps, p.kind = .star) ∨ ∀ j < pos.length, ∃ p, ps[j]? = some p ∧ positional p)
  | .tooMany => ¬ ((∃ p ∈ ps, p.kind = .star) ∨ ∀ j < pos.length, ∃ p, ps[j]? = some p ∧ positional p)
  | .keyword n true => n ∈ kws.map Prod.fst ∧ (∃ p ∈ ps, named p n) ∧ Repeated ps pos kws
  | .keyword n false => n ∈ kws.map Prod.fst ∧ (∀ p ∈ ps, ¬ named p n) ∧ ∀ p ∈ ps, p.kind ≠ .starStar
  | .missingNamed n => ∃ p, p.kind = .kwOnly ∧ p.name = some n ∧ Lacks ps pos kws p
  | .missingPositional ns => ns ≠ [] ∧ ∀ n ∈ ns, ∃ p, p.kind = .posOrKw ∧ p.name = some n ∧ Lacks ps pos kws p
  | .tooFew => ∃ p, p.kind = .posOnly ∧ Lacks ps pos kws p

end Verif.Call.Spec
