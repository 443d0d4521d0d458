import Verif.Venv.Model

/-!
# Which virtual environment is used
-/

namespace Verif.Venv.Spec

/-- The name has the word in it. -/
def Has (word name : List Char) : Prop := ∃ a b, name = a ++ word ++ b

/-- The first name is better than the second: `venv`, then `.venv`, then names with `venv`, then with `virtualenv`. -/
inductive Rank : List Char → Nat → Prop
  | venv : Rank "venv".toList 0
  | dotVenv : Rank ".venv".toList 1
  | hasVenv {n} : n ≠ "venv".toList → n ≠ ".venv".toList → Has "venv".toList n → Rank n 2
  | hasVirtualenv {n} : ¬ Has "venv".toList n → Has "virtualenv".toList n → Rank n 3
  | rest {n} : ¬ Has "venv".toList n → ¬ Has "virtualenv".toList n → Rank n 4

/-- A directory with a name that can be used and with a correct `pyvenv.cfg`. -/
def IsEnv (e : Entry) (version : Option Nat) : Prop := e.isDir = true ∧ e.utf8 = true ∧ e.cfg = some version

/-- The environment of a directory: no other one is better, and none with the same rank is listed before. -/
def Best (es : List Entry) (e : Entry) (version : Option Nat) : Prop :=
  ∃ before after k, es = before ++ e :: after ∧ IsEnv e version ∧ Rank e.name k ∧
    (∀ x ∈ before, ∀ v j, IsEnv x v → Rank x.name j → k < j) ∧
    (∀ x ∈ after, ∀ v j, IsEnv x v → Rank x.name j → k ≤ j)

/-- There is no environment in the directory. -/
def NoEnv (w : World) (dir : List Char) : Prop := ∀ es, w.list dir = some es → ∀ e ∈ es, ∀ v, ¬ IsEnv e v

/-- The parts joined by colons. -/
def joined : List (List Char) → List Char
  | [] => []
  | [p] => p
  | p :: q :: ps => p ++ ':' :: joined (q :: ps)

end Verif.Venv.Spec
