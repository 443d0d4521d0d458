/-!
# Results of matching types

Model of `Match` in `crates/zuban_python/src/match_.rs`.
-/

namespace Verif.Match

/-- `MismatchReason`, match_.rs 54-70.  What the reasons contain does not matter, only whether there is one. -/
inductive Reason where
  | none
  | other (id : Nat)
deriving DecidableEq, Repr

/-- `Match`, match_.rs 43-52. -/
inductive Match where
  | false (similar : Bool) (reason : Reason)
  | true (withAny : Bool)
deriving DecidableEq, Repr

/-- `new_false`, match_.rs 73-78. -/
def Match.newFalse : Match := .false Bool.false .none

/-- `new_true`, match_.rs 80-82. -/
def Match.newTrue : Match := .true Bool.false

/-- `bool`, match_.rs 114-116. -/
def Match.bool : Match → Bool
  | .true _ => Bool.true
  | .false .. => Bool.false

def Match.isSimilar : Match → Bool
  | .false Bool.true _ => Bool.true
  | _ => Bool.false

/-- The loop of `any`, match_.rs 86-94. -/
def anyLoop : Match → List Match → Match
  | result, [] => result
  | result, r :: rs =>
    if r.bool then r
    else anyLoop (if result.isSimilar then result else r) rs

/-- `any`, match_.rs 84-96, on the results of the callable. -/
def Match.any (rs : List Match) : Match := anyLoop .newTrue rs

/-- `similar_if_false`, match_.rs 118-129. -/
def Match.similarIfFalse : Match → Match
  | .false Bool.false reason => .false Bool.true reason
  | m => m

/-- `or`, match_.rs 132-152. -/
def Match.or (self result : Match) : Match :=
  if self.bool then self
  else if result.bool ∨ self = .false Bool.false .none then result
  else self

/-- `bitand`, match_.rs 169-194. -/
def Match.and (self rhs : Match) : Match :=
  match self with
  | .true Bool.false => rhs
  | .true Bool.true =>
    match rhs with
    | .true Bool.false => .true Bool.true
    | rhs => rhs
  | .false Bool.true reason =>
    match rhs with
    | .false Bool.false _ => .false Bool.false reason
    | _ => .false Bool.true reason
  | .false Bool.false reason => .false Bool.false reason

/-- The loop of `all`, match_.rs 100-110. -/
def allLoop : Match → List Match → Match
  | result, [] => result
  | result, r :: rs =>
    let result := result.and r
    if result.bool then allLoop result rs else .newFalse

/-- `all`, match_.rs 98-112. -/
def Match.all (rs : List Match) : Match := allLoop .newTrue rs

end Verif.Match
