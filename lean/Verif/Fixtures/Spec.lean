import Verif.Fixtures.Model

/-!
# The order in which modules are searched for fixtures
-/

namespace Verif.Fixtures.Spec

/-- A directory gives its `conftest`, unless that is the file itself, and then the plugins of that `conftest`. -/
def ofDirectory (w : World) (current : Nat) (d : Option Nat) : List Nat :=
  match d with
  | some f => if f = current then [] else f :: w.plugins f
  | none => []

/-- First the file itself, then the directories from the file upwards, then pytest. -/
def order (w : World) (current : Nat) : List Nat :=
  current :: (w.conftests.flatMap (ofDirectory w current) ++ w.builtin.filterMap id)

/-- The file of the fixture: it defines the fixture, and no file before it in the list does. -/
def First (w : World) (files : List Nat) (name f : Nat) : Prop :=
  ∃ before after, files = before ++ f :: after ∧ name ∈ w.fixtures f ∧ ∀ g ∈ before, name ∉ w.fixtures g

end Verif.Fixtures.Spec
