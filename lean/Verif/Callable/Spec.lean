import Verif.Call.Spec

/-!
# When can one function stand for another?

The rule of substitution, stated with Python's rules for calls (`Verif.Call.Spec`) and nothing of the comparison.
-/

namespace Verif.Callable.Spec

open Verif.Call Verif.Call.Spec

variable {α τ : Type}

/-- The parameter `q` gets the value `v`. -/
def Reaches (ps : List (Param τ)) (pos : List α) (kws : List (String × α)) (q : Param τ) (v : α) : Prop :=
  ∃ j, ps[j]? = some q ∧ Gets ps pos kws j v

/-- A function with the parameters `ps2` can be called wherever one with `ps1` is expected: every call that `ps1`
accepts is accepted, and a value that reaches a parameter of `ps2` would have reached one of `ps1`, whose type `fits`. -/
def Usable (α : Type) (fits : τ → τ → Bool) (ps1 ps2 : List (Param τ)) : Prop :=
  ∀ (pos : List α) (kws : List (String × α)), Accepts ps1 pos kws →
    Accepts ps2 pos kws ∧ ∀ q v, Reaches ps2 pos kws q v → ∃ p, Reaches ps1 pos kws p v ∧ fits p.ty q.ty = true

/-- A keyword-only parameter of `ps1` with a default has a default in `ps2` as well. -/
def KeepsDefaults (ps1 ps2 : List (Param τ)) : Prop :=
  ∀ p ∈ ps1, p.kind = .kwOnly → p.hasDefault = true → ∀ q ∈ ps2, ∀ n, named p n → named q n → q.hasDefault = true

/-- The keyword-only parameters of `ps1` that `ps2` has as well come in the same order there. -/
def SameOrder (ps1 ps2 : List (Param τ)) : Prop :=
  ps1.Pairwise fun p p' => p.kind = .kwOnly → p'.kind = .kwOnly → ∀ n n', named p n → named p' n' →
    ps2.Pairwise fun q q' => named q n' → ¬ named q' n

/-- If `ps2` has `**kwargs`, then the keyword-only parameters are in order, and `ps1` has not both keyword-only
parameters and `**kwargs`. -/
def Plain (ps1 ps2 : List (Param τ)) : Prop :=
  (∃ q ∈ ps2, q.kind = .starStar) → SameOrder ps1 ps2 ∧
    ((∃ p ∈ ps1, p.kind = .starStar) → ∀ p ∈ ps1, p.kind ≠ .kwOnly)

/-- A positional-only parameter stands against one with a name only if `ps1` does not take this name. -/
def NoClash (ps1 ps2 : List (Param τ)) : Prop :=
  ∀ (j : Nat) p q n, ps1[j]? = some p → p.kind = .posOnly → ps2[j]? = some q → q.kind = .posOrKw → q.name = some n →
    (∀ p' ∈ ps1, ¬ named p' n) ∧ ∀ p' ∈ ps1, p'.kind ≠ .starStar

end Verif.Callable.Spec
