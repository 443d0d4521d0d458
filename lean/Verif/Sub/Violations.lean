import Verif.Sub.Props

/-! # Where the comparison of types is wrong -/

namespace Verif.Sub

open Verif.Match Verif.Sub.Instance

/-- The example world without strict optional. -/
def lax : World := { world with strictOptional := false }

theorem lawful_lax : Lawful lax meaning where
  __ := lawful

/-- C94 is false for tuples with `*tuple[..]` and different numbers of items around it:
`tuple[int, *tuple[str, ...]]` can be assigned to
`tuple[int, str, *tuple[str, ...]]`, but `(1,)` is only a value of the first. -/
theorem unpack_length_violation :
    Accepts world false (.unpack [int, str] str []) (.unpack [int] str []) ∧
    ¬ Within meaning (.unpack [int] str []) (.unpack [int, str] str []) := by
  refine ⟨⟨40, .newTrue, by decide +kernel, rfl⟩, fun h => ?_⟩
  have := h (.tup [.base (.int 1)]) (by
    simp only [meaning, sem, sems, int, isClass]
    exact ⟨[.base (.int 1)], [], [], rfl, by simp [Pairs], by simp, by simp [Pairs]⟩)
  simp only [meaning, sem] at this
  obtain ⟨xs, ys, zs, h1, h2, _⟩ := this
  have hl := each_length (pairs_each.mp h2)
  simp only [Val.tup.injEq] at h1
  have := congrArg List.length h1
  simp only [List.length_append, List.length_cons, List.length_nil] at this hl
  omega

/-- The list that may contain the base values of a type. -/
def listOf (t : Ty) : Val := .list (fun b => sem t (toVal b))

theorem listOf_mem {t u : Ty} : sem (list u) (listOf t) ↔ ∀ b, sem t (toVal b) ↔ sem u (toVal b) := by
  simp only [list, sem, sems, isClass, listOf, Val.list.injEq]
  constructor
  · rintro ⟨Q, rfl, h⟩; exact h
  · intro h; exact ⟨_, rfl, h⟩

/-- C94 is false for lists of such tuples: `list[tuple[int, *tuple[int, ...]]]` can be
assigned to `list[tuple[int, ...]]`, through which an empty tuple can be appended. -/
theorem invariant_unpack_violation :
    Accepts world false (list (.arb int)) (list (.unpack [int] int [])) ∧
    ¬ Within meaning (list (.unpack [int] int [])) (list (.arb int)) := by
  refine ⟨⟨40, .newTrue, by decide +kernel, rfl⟩, fun h => ?_⟩
  have := listOf_mem.mp (h (listOf (.unpack [int] int [])) (listOf_mem.mpr (fun _ => Iff.rfl)))
  have h2 := (this (.tup [])).mpr (by
    simp only [toVal, sem]
    exact ⟨[], rfl, by simp⟩)
  simp only [toVal, sem] at h2
  obtain ⟨xs, ys, zs, h1, h2, _⟩ := h2
  have hl := each_length (pairs_each.mp h2)
  simp only [Val.tup.injEq] at h1
  have := congrArg List.length h1
  simp only [List.length_append, List.length_cons, List.length_nil, List.map_nil] at this hl
  omega

/-- The same with a tuple of fixed length: `list[tuple[int, int]]` can be assigned to
`list[tuple[int, *tuple[int, ...]]]`. -/
theorem invariant_fixed_violation :
    Accepts world false (list (.unpack [int] int [])) (list (.fixed [int, int])) ∧
    ¬ Within meaning (list (.fixed [int, int])) (list (.unpack [int] int [])) := by
  refine ⟨⟨40, .newTrue, by decide +kernel, rfl⟩, fun h => ?_⟩
  have := listOf_mem.mp (h (listOf (.fixed [int, int])) (listOf_mem.mpr (fun _ => Iff.rfl)))
  have h2 := (this (.tup [.int 1])).mpr (by
    simp only [toVal, sem, sems, int, isClass]
    exact ⟨[.base (.int 1)], [], [], by simp [toVal], by simp [Pairs], by simp, by simp [Pairs]⟩)
  simp only [toVal, sem] at h2
  obtain ⟨vs, h1, h2⟩ := h2
  have hl := each_length (pairs_each.mp h2)
  simp only [Val.tup.injEq] at h1
  have := congrArg List.length h1
  simp only [List.length_cons, List.length_nil, List.map_cons, List.map_nil] at this hl
  omega

/-- C94 is false for lists of dataclasses with a covariant parameter: `list[Box[int]]` can
be assigned to `list[Box[float]]`. -/
theorem invariant_dataclass_violation :
    Accepts world false (list (.data 10 [float])) (list (.data 10 [int])) ∧
    ¬ Within meaning (list (.data 10 [int])) (list (.data 10 [float])) := by
  refine ⟨⟨40, .newTrue, by decide +kernel, rfl⟩, fun h => ?_⟩
  have := listOf_mem.mp (h (listOf (.data 10 [int])) (listOf_mem.mpr (fun _ => Iff.rfl)))
  have h2 := (this (.box .float)).mpr (by
    simp [toVal, sem, sems, float, isClass])
  simp [toVal, sem, sems, int, isClass] at h2

/-- C94 is false for lists of classes: `list[type[A]]` can be assigned to
`list[type]`. -/
theorem invariant_type_violation :
    Accepts world false (list (.cls 5 [])) (list (.type (.cls 12 []))) ∧
    ¬ Within meaning (list (.type (.cls 12 []))) (list (.cls 5 [])) := by
  refine ⟨⟨40, .newTrue, by decide +kernel, rfl⟩, fun h => ?_⟩
  have := listOf_mem.mp (h (listOf (.type (.cls 12 []))) (listOf_mem.mpr (fun _ => Iff.rfl)))
  have h2 := (this (.cls 1)).mpr (by
    simp [toVal, sem, sems, isClass])
  simp [toVal, sem, sems, isClass] at h2

/-- And to the list of a metaclass: `list[type[B]]` can be assigned to `list[Meta]`. -/
theorem invariant_metaclass_violation :
    Accepts world false (list (.cls 11 [])) (list (.type (.cls 13 []))) ∧
    ¬ Within meaning (list (.type (.cls 13 []))) (list (.cls 11 [])) := by
  refine ⟨⟨40, .newTrue, by decide +kernel, rfl⟩, fun h => ?_⟩
  have := listOf_mem.mp (h (listOf (.type (.cls 13 []))) (listOf_mem.mpr (fun _ => Iff.rfl)))
  have h2 := (this (.cls 12)).mpr (by
    simp [toVal, sem, sems, isClass])
  simp [toVal, sem, sems, isClass] at h2

/-- C94 is false without strict optional, even if `None` belongs to no other type:
`list[int]` can be assigned to `list[None]`, but not the other way round. -/
theorem no_strict_optional_violation :
    Accepts lax false (list .none) (list int) ∧ Rejects lax false (list int) (list (.lit (.int 1))) ∧
    ¬ Within meaning (list int) (list .none) := by
  refine ⟨⟨40, .newTrue, by decide +kernel, rfl⟩, ⟨40, .false true .none, by decide +kernel, rfl⟩,
    fun h => ?_⟩
  have := listOf_mem.mp (h (listOf int) (listOf_mem.mpr (fun _ => Iff.rfl)))
  have h2 := (this (.int 1)).mp (by simp [toVal, sem, sems, int, isClass])
  simp [toVal, sem] at h2

/-- C96 is false for the `type[..]` of a `NewType`: it cannot be assigned to itself. -/
theorem newtype_type_violation (w : World) (k : Nat) (rev : Bool) :
    Rejects w rev (.type (.newType k)) (.type (.newType k)) :=
  ⟨2, .newFalse, by simp [isSuper, internal, other, Ty.nominal, Ty.isNewType], rfl⟩

/-! ## A comparison that never ends -/

/-- `class N(Generic[T_contra])` is 20 and `class C(N["N[C]"])` is 21. -/
def loopClasses : Nat → Cls
  | 20 => { params := [.contra] }
  | 21 => { mro := [.cls 20 [.cls 20 [.cls 21 []]]] }
  | c => classes c

def loopWorld : World := { world with cls := loopClasses }

theorem loop20 : loopWorld.cls 20 = { params := [.contra] } := rfl

theorem loop21 : loopWorld.cls 21 = { mro := [.cls 20 [.cls 20 [.cls 21 []]]] } := rfl

/-- C95 is false: asking whether `C` can be assigned to `N[C]` asks the same again, whatever
the fuel. -/
theorem endless_violation (n : Nat) (rev : Bool) :
    isSuper loopWorld n rev (.cls 20 [.cls 21 []]) (.cls 21 []) = none := by
  induction n using Nat.strongRecOn generalizing rev with
  | _ n ih =>
    match n with
    | 0 => simp [isSuper]
    | 1 => simp [isSuper, internal, Ty.nominal, mro, mroM]
    | 2 => simp [isSuper, internal, Ty.nominal, mro, mroM, classVsType]
    | 3 => simp [isSuper, internal, Ty.nominal, mro, mroM, classVsType, matchesClass]
    | 4 => simp [isSuper, internal, Ty.nominal, mro, mroM, classVsType, matchesClass, loop20,
        loop21, bases, Ty.subst, substs, zipV, «matches», argMatches]
    | n + 5 =>
      have h := ih n (by omega) (!rev)
      cases rev <;> simp at h <;> simp [isSuper, internal, Ty.nominal, mro, mroM, classVsType, matchesClass, h, loop20,
        loop21, bases, Ty.subst, substs, zipV, «matches», argVariance, argMatches,
        Variance.invert]

/-- The two types have the right number of type arguments and no `Any`. -/
example : Good loopWorld 0 0 false (.cls 20 [.cls 21 []]) ∧ Good loopWorld 0 0 false (.cls 21 []) := by
  have h : ∀ i, Good loopWorld 0 0 i (.cls 21 []) := fun i => .plain (by rw [loop21])
  refine ⟨.cls (by rw [loop20]; rfl) (fun k a v ha _ => ?_), h false⟩
  cases k with
  | zero =>
    have h1 : some (Ty.cls 21 []) = some a := ha
    cases h1
    exact h _
  | succ k => simp at ha

/-- The example world with `NewType("Flag", bool)` as its `NewType`s. -/
def flagWorld : World := { world with newBase := fun _ => .cls 2 [] }

/-- C98 is false for unions with a `NewType` of `bool`: both `Flag` and `None` can be
assigned to `Literal[True, False] | None`, but `Flag | None` cannot. -/
theorem union_of_members_violation :
    Accepts flagWorld false (.union [.lit (.bool true), .lit (.bool false), .none]) (.newType 0) ∧
    Accepts flagWorld false (.union [.lit (.bool true), .lit (.bool false), .none]) .none ∧
    Rejects flagWorld false (.union [.lit (.bool true), .lit (.bool false), .none])
      (.union [.newType 0, .none]) :=
  ⟨⟨40, .newTrue, by decide +kernel, rfl⟩, ⟨40, .newTrue, by decide +kernel, rfl⟩,
    ⟨40, .newFalse, by decide +kernel, rfl⟩⟩

end Verif.Sub
