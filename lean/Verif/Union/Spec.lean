import Verif.Union.Model

/-!
# What the members of a union mean

A meaning gives the values of each type.  `Sound` says what subtyping and the classification of types promise about it.
Unknown type parameters are placeholders: they denote nothing by themselves.
-/

namespace Verif.Union.Spec

open Verif.Union

structure Sound {T V : Type} (w : World T) (D : T → V → Prop) : Prop where
  sup : ∀ x y v, w.sup x y = true → D y v → D x v
  object : ∀ t v, w.isObject t = true → D t v
  unknownAny : ∀ t v, w.unknownAny t = true → ¬ D t v
  unknownParams : ∀ x y v, w.unknownParams x = true → (w.link x).isSome → w.link x = w.link y → D x v → D y v
  eqAny : ∀ x y v, w.eqAny x y = true → (D x v ↔ D y v)
  literal : ∀ x y v, (w.literal x).isSome → w.literal x = w.literal y → (D x v ↔ D y v)
  fallback : ∀ x v, (w.literal x).isSome → D x v → D (w.fallback x) v
  bool : ∀ b x v, w.boolLit x = some b → D x v → D w.boolType v
  bool' : ∀ x y v, w.boolLit x = some true → w.boolLit y = some false → D w.boolType v → D x v ∨ D y v
  enum : ∀ e v, D (w.enum e) v ↔ ∃ t i, w.member t = some (e, i) ∧ D t v
  member_lt : ∀ t e i, w.member t = some (e, i) → i < w.members e
  member_inj : ∀ x y, (w.member x).isSome → w.member x = w.member y → x = y
  member_any : ∀ x, (w.member x).isSome → w.hasAny x = false

/-- Types that are compared by subtyping. -/
def Plain {T : Type} (w : World T) (t : T) : Prop := w.hasAny t = false ∧ w.calculating t = false ∧ w.recursive t = false

end Verif.Union.Spec
