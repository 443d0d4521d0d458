import Verif.Sub.BaseSound
import Verif.Sub.Violations

/-! # Properties of common base types and common subtypes -/

namespace Verif.Sub

open Verif.Match

variable {V : Type} {w : World} {M : Meaning V} {p q : Nat}

/-- C99: the common base type of two types has the values of both.  `su` is any way to
form unions that have the values of both types.  Missing: types with `Any`, and types
that are not `Good`. -/
theorem common_base_upper_partial (hl : Lawful w M) (ht : Tame w p q) {su : Ty → Ty → Ty}
    (hj : Joins w M p q su) {n : Nat} {seen : List (Ty × Ty)} {t s r : Ty}
    (gt : Good w p q false t) (gs : Good w p q false s)
    (h : commonBase w su n seen t s = some r) : Within M t r ∧ Within M s r :=
  have := (baseOk hl ht hj n).base seen t s r gt gs h
  ⟨this.left, this.right⟩

/-- C99: the type of the items of a list display has the values of all its items. -/
theorem common_base_items_partial (hl : Lawful w M) (ht : Tame w p q) {su : Ty → Ty → Ty}
    (hj : Joins w M p q su) {n : Nat} {ts : List Ty} {r : Ty} (gt : ∀ t ∈ ts, Good w p q false t)
    (h : baseFold (commonBase w su n []) none ts = some r) : ∀ t ∈ ts, Within M t r :=
  (baseFold_upper (fun a b r ga gb hr => (baseOk hl ht hj n).base [] a b r ga gb hr) (by simp) gt
    h).2.2

/-- C100: the common subtype of two types has only values that both have. -/
theorem common_sub_lower_partial (hl : Lawful w M) (ht : Tame w p q) {n : Nat} {t s r : Ty}
    (gt : Good w p q false t) (gs : Good w p q false s)
    (h : commonSub w n t s = some (some r)) : Within M r t ∧ Within M r s :=
  have := commonSub_ok hl ht n n (Nat.le_refl _) t s r gt gs h
  ⟨this.left, this.right⟩

/-- The values of a union of two types are those of both. -/
theorem plain_union_values (hl : Lawful w M) (t s : Ty) (v : V) :
    M.mem v (plainUnion t s) ↔ M.mem v t ∨ M.mem v s := plainUnion_mem hl

/-- `plainUnion` can stand for `simplified_union`. -/
theorem joins_plainUnion (hl : Lawful w M) : Joins w M p q plainUnion where
  left := fun _ _ _ _ _ h => (plainUnion_mem hl).mpr (.inl h)
  right := fun _ _ _ _ _ h => (plainUnion_mem hl).mpr (.inr h)
  good := fun _ _ ga gb => plainUnion_good ga gb

namespace Instance

/-- The common base type of `list[int]` and `tuple[str, ...]` is `Sequence[object]`, and of
`Sink[float]` and `Sink[int]` it is `Sink[int]`. -/
example : commonBase world plainUnion 40 [] (list int) (.arb str) = some (seq (.cls 0 [])) ∧
    commonBase world plainUnion 40 [] (.cls 14 [float]) (.cls 14 [int]) = some (.cls 14 [int]) := by
  decide +kernel

example : Within meaning (list int) (seq (.cls 0 [])) ∧ Within meaning (.arb str) (seq (.cls 0 [])) :=
  common_base_upper_partial lawful (tame 0 0) (joins_plainUnion lawful) (n := 40) (seen := [])
    (good_list (.plain rfl)) (.arb (.plain rfl)) (by decide +kernel)

/-- The items of `[1, 2.0, None]`. -/
example : baseFold (commonBase world plainUnion 40 []) none [int, float, .none] =
    some (.union [float, .none]) := by decide +kernel

example : ∀ t ∈ [int, float, .none], Within meaning t (.union [float, .none]) :=
  common_base_items_partial lawful (tame 0 0) (joins_plainUnion lawful) (n := 40)
    (by intro t ht; simp at ht; rcases ht with rfl | rfl | rfl; exacts [.plain rfl, .plain rfl, .none])
    (by decide +kernel)

example : commonSub world 40 (.union [int, str]) (.union [float, .none]) = some (some int) := by
  decide +kernel

example : Within meaning (.fixed [int, str]) (.arb (.union [float, str])) :=
  (common_sub_lower_partial lawful (tame 0 0) (n := 40) (t := .fixed [int, .union [str, .none]])
    (s := .arb (.union [float, str]))
    (.fixed (by
      intro t ht; simp at ht
      rcases ht with rfl | rfl
      · exact .plain rfl
      · exact .union (by simp) (by decide)
          (by intro t ht; simp at ht; rcases ht with rfl | rfl; exacts [.plain rfl, .none])))
    (.arb (.union (by simp) (by decide)
      (by intro t ht; simp at ht; rcases ht with rfl | rfl; exacts [.plain rfl, .plain rfl])))
    (by decide +kernel)).2

/-- C99 is false for lists of dataclasses with a covariant parameter: the common base type
of `list[Box[float]]` and `list[Box[int]]` is the first. -/
theorem common_base_violation :
    commonBase world plainUnion 40 [] (list (.data 10 [float])) (list (.data 10 [int])) =
      some (list (.data 10 [float])) ∧
    ¬ Within meaning (list (.data 10 [int])) (list (.data 10 [float])) :=
  ⟨by decide +kernel, invariant_dataclass_violation.2⟩

/-- C100 is false the other way round: `tuple[int, ...]` and `tuple[str, ...]` are said to have
no common subtype, but both have the empty tuple. -/
theorem common_sub_violation :
    commonSub world 40 (.arb int) (.arb str) = some none ∧
    meaning.mem (.tup []) (.arb int) ∧ meaning.mem (.tup []) (.arb str) :=
  ⟨by decide +kernel, ⟨[], rfl, by simp⟩, ⟨[], rfl, by simp⟩⟩

end Instance

end Verif.Sub
