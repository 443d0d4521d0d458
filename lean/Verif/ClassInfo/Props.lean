import Verif.ClassInfo.Spec

/-!
# The second argument of `isinstance` and `issubclass`: what is accepted and what is tested

C236 to C238.
-/

set_option linter.unusedVariables false
set_option linter.unusedSimpArgs false

namespace Verif.ClassInfo

open Spec

/-! ## Helper lemmas -/

/-- A result without issues and without members that give issues. -/
def Good (r : Res) : Prop := ∃ ts, r = (some ts, []) ∧ Ty.typedDict ∉ ts ∧ Ty.newType ∉ ts

theorem good_andThen (a b : Res) : Good (andThen a b) ↔ Good a ∧ Good b := by
  obtain ⟨a1, a2⟩ := a
  obtain ⟨b1, b2⟩ := b
  unfold Good andThen
  cases a1 with
  | none => simp
  | some ts =>
    cases b1 with
    | none => simp
    | some us =>
      simp only [Prod.mk.injEq, Option.some.injEq, List.append_eq_nil_iff]
      constructor
      · rintro ⟨xs, ⟨rfl, h1, h2⟩, h3, h4⟩
        simp only [List.mem_append, not_or] at h3 h4
        exact ⟨⟨ts, ⟨rfl, h1⟩, h3.1, h4.1⟩, us, ⟨rfl, h2⟩, h3.2, h4.2⟩
      · rintro ⟨⟨x, ⟨rfl, h1⟩, h3, h4⟩, y, ⟨rfl, h2⟩, h5, h6⟩
        exact ⟨_, ⟨rfl, h1, h2⟩, by simp [h3, h5], by simp [h4, h6]⟩

theorem good_some (ts : List Ty) : Good (some ts, []) ↔ Ty.typedDict ∉ ts ∧ Ty.newType ∉ ts := by
  unfold Good
  constructor
  · rintro ⟨x, h, h1⟩
    cases h
    exact h1
  · intro h
    exact ⟨ts, rfl, h⟩

theorem not_good_none (is : List Issue) : ¬ Good (none, is) := by
  rintro ⟨_, h, _⟩
  simp at h

theorem classObject_cls (sub : Bool) (c : Cls) : Good (classObject sub (.cls c)) ↔ Testable sub c := by
  obtain ⟨i, a, b, r, n⟩ := c
  unfold classObject Testable Good
  cases a <;> cases b <;> cases r <;> cases n <;> cases sub <;> simp

theorem classObject_good (sub : Bool) (t : Ty) :
    Good (classObject sub t) ↔ (∃ c, t = .cls c ∧ Testable sub c) ∨ ClassObject t := by
  cases t with
  | cls c =>
    rw [classObject_cls]
    constructor
    · intro h
      exact Or.inl ⟨c, rfl, h⟩
    · rintro (⟨d, h, h'⟩ | h)
      · cases h
        exact h'
      · cases h
  | typedDict =>
    simp only [classObject, members, good_some]
    constructor
    · intro h; simp at h
    · rintro (⟨_, h, _⟩ | h) <;> cases h
  | newType =>
    simp only [classObject, members, good_some]
    constructor
    · intro h; simp at h
    · rintro (⟨_, h, _⟩ | h) <;> cases h
  | union ts =>
    simp only [classObject, members, good_some]
    constructor
    · intro h
      exact Or.inr (.union h.1 h.2)
    · rintro (⟨_, h, _⟩ | h)
      · cases h
      · cases h with
        | union h1 h2 => exact ⟨h1, h2⟩
  | none => simp only [classObject, members, good_some]; exact ⟨fun _ => Or.inr .none, fun _ => by simp⟩
  | any => simp only [classObject, members, good_some]; exact ⟨fun _ => Or.inr .any, fun _ => by simp⟩
  | other => simp only [classObject, members, good_some]; exact ⟨fun _ => Or.inr .other, fun _ => by simp⟩
  | tuple ts => simp only [classObject, members, good_some]; exact ⟨fun _ => Or.inr .tuple, fun _ => by simp⟩
  | many ts => simp only [classObject, members, good_some]; exact ⟨fun _ => Or.inr .many, fun _ => by simp⟩
  | typeOf ts => simp only [classObject, members, good_some]; exact ⟨fun _ => Or.inr .typeOf, fun _ => by simp⟩

/-- Whether the place counts as part of a union. -/
def fromUnion : Pos → Bool
  | .alone => false
  | _ => true

mutual

theorem process_good (sub : Bool) (p : Pos) (t : Ty) : Good (process sub (fromUnion p) t) ↔ OkTy sub true p t := by
  match t with
  | .tuple ts =>
    rw [process, processAll_good sub ts]
    constructor
    · intro h
      exact .tuple (fun _ => rfl) h
    · intro h
      cases h with
      | tuple _ h => exact h
  | .many t =>
    rw [process]
    have := process_good sub .alone t
    rw [fromUnion] at this
    rw [this]
    constructor
    · intro h
      exact .many (fun _ => rfl) h
    · intro h
      cases h with
      | many _ h => exact h
  | .typeOf t =>
    rw [process, classObject_good]
    constructor
    · rintro (⟨c, rfl, h⟩ | h)
      · exact .cls h
      · exact .object h
    · intro h
      cases h with
      | cls h => exact Or.inl ⟨_, rfl, h⟩
      | object h => exact Or.inr h
  | .any =>
    rw [process, good_some]
    exact ⟨fun _ => .any, fun _ => by simp⟩
  | .none =>
    rw [process]
    cases p with
    | alone =>
      simp only [fromUnion, Bool.false_eq_true, if_false]
      exact ⟨fun h => absurd h (not_good_none _), fun h => by cases h⟩
    | operand =>
      simp only [fromUnion, if_true, good_some]
      exact ⟨fun _ => .noneOperand, fun _ => by simp⟩
    | inTuple =>
      simp only [fromUnion, if_true, good_some]
      exact ⟨fun _ => .noneInTuple rfl, fun _ => by simp⟩
  | .cls _ => rw [process]; exact ⟨fun h => absurd h (not_good_none _), fun h => by cases h⟩
  | .typedDict => rw [process]; exact ⟨fun h => absurd h (not_good_none _), fun h => by cases h⟩
  | .newType => rw [process]; exact ⟨fun h => absurd h (not_good_none _), fun h => by cases h⟩
  | .other => rw [process]; exact ⟨fun h => absurd h (not_good_none _), fun h => by cases h⟩
  | .union _ => rw [process]; exact ⟨fun h => absurd h (not_good_none _), fun h => by cases h⟩
termination_by sizeOf t

theorem processAll_good (sub : Bool) (ts : List Ty) : Good (processAll sub ts) ↔ ∀ t ∈ ts, OkTy sub true .inTuple t := by
  match ts with
  | [] => rw [processAll, good_some]; simp
  | t :: ts =>
    have h1 := process_good sub .inTuple t
    rw [fromUnion] at h1
    rw [processAll, good_andThen, h1, processAll_good sub ts]
    simp
    all_goals simp
termination_by sizeOf ts

end

theorem infer_good (sub : Bool) (p : Pos) (e : Expr) : Good (infer sub (fromUnion p) e) ↔ OkExpr sub true p e := by
  induction e generalizing p with
  | or a b iha ihb =>
    have ha := iha .operand
    have hb := ihb .operand
    simp only [fromUnion] at ha hb
    rw [infer, good_andThen, ha, hb]
    constructor
    · intro h
      exact .or h.1 h.2
    · intro h
      cases h with
      | or h1 h2 => exact ⟨h1, h2⟩
  | typingAny =>
    rw [infer]
    constructor
    · rintro ⟨_, h, _⟩
      simp at h
    · intro h
      cases h
  | builtinsType =>
    rw [infer, good_some]
    exact ⟨fun _ => .builtinsType, fun _ => by simp⟩
  | unionValue e ih =>
    have h := ih .alone
    simp only [fromUnion] at h
    rw [infer, h]
    constructor
    · intro h
      exact .unionValue h
    · intro h
      cases h with
      | unionValue h => exact h
  | unresolved =>
    rw [infer]
    exact ⟨fun h => absurd h (not_good_none _), fun h => by cases h⟩
  | alias t =>
    rw [infer, process, classObject_good]
    constructor
    · rintro (⟨c, rfl, h⟩ | h)
      · exact .alias (.cls h)
      · exact .alias (.object h (by simp))
    · intro h
      cases h with
      | alias h =>
        cases h with
        | cls h => exact Or.inl ⟨_, rfl, h⟩
        | object h _ => exact Or.inr h
  | value t =>
    rw [infer, process_good]
    constructor
    · intro h
      exact .value h
    · intro h
      cases h with
      | value h => exact h

theorem filterMap_nil (ts : List Ty) : ts.filterMap memberIssue = [] ↔ Ty.typedDict ∉ ts ∧ Ty.newType ∉ ts := by
  induction ts with
  | nil => simp
  | cons t ts ih =>
    rw [List.filterMap_cons]
    cases t with
    | typedDict => simp [memberIssue]
    | newType => simp [memberIssue]
    | _ => simp only [memberIssue, ih, List.mem_cons, not_or, reduceCtorEq, not_false_eq_true, true_and]

theorem check_good (sub : Bool) (e : Expr) : (∃ ts, check sub e = (some ts, [])) ↔ Good (infer sub false e) := by
  unfold check Good
  obtain ⟨r, hr⟩ : ∃ r, infer sub false e = r := ⟨_, rfl⟩
  rw [hr]
  obtain ⟨r1, r2⟩ := r
  cases r1 with
  | none => simp
  | some ts =>
    simp only [Prod.mk.injEq, Option.some.injEq, List.append_eq_nil_iff, filterMap_nil]
    constructor
    · rintro ⟨x, rfl, h1, h2⟩
      exact ⟨_, ⟨rfl, h1⟩, h2⟩
    · rintro ⟨x, ⟨rfl, h1⟩, h2⟩
      exact ⟨_, rfl, h1, h2⟩

/-! ## C236: what is accepted -/

/-- C236: the check accepts exactly what Python accepts, except for three deviations: `None` in a tuple, a tuple as operand
of `|`, and aliases for unions, whose members are not looked at. -/
theorem accepted_iff_partial (sub : Bool) (e : Expr) :
    (∃ ts, check sub e = (some ts, [])) ↔ OkExpr sub true .alone e := by
  rw [check_good]
  exact infer_good sub .alone e

theorem okTy_mono {sub : Bool} {p : Pos} {t : Ty} (h : OkTy sub false p t) : OkTy sub true p t := by
  induction h with
  | any => exact .any
  | cls h => exact .cls h
  | object h => exact .object h
  | tuple _ _ ih => exact .tuple (fun _ => rfl) ih
  | many _ _ ih => exact .many (fun _ => rfl) ih
  | noneOperand => exact .noneOperand
  | noneInTuple h => simp at h

/-! ## C237: no wrong errors -/

/-- C237: what Python accepts is accepted without any issue. -/
theorem correct_accepted (sub : Bool) (e : Expr) (h : OkExpr sub false .alone e) : ∃ ts, check sub e = (some ts, []) := by
  rw [accepted_iff_partial]
  generalize Pos.alone = p at h ⊢
  induction h with
  | or _ _ h1 h2 => exact .or h1 h2
  | builtinsType => exact .builtinsType
  | unionValue _ ih => exact .unionValue ih
  | alias h =>
    cases h with
    | cls h => exact .alias (.cls h)
    | object h _ => exact .alias (.object h (by simp))
  | value h => exact .value (okTy_mono h)

/-- `isinstance(x, (A, None) )` fails in Python with a `TypeError`, but is accepted. -/
theorem none_in_tuple_violation (c : Cls) (h : Testable false c) :
    (∃ ts, check false (.value (.tuple [.typeOf (.cls c), .none])) = (some ts, [])) ∧
    ¬ OkExpr false false .alone (.value (.tuple [.typeOf (.cls c), .none])) := by
  constructor
  · rw [accepted_iff_partial]
    refine .value (.tuple (fun _ => rfl) ?_)
    intro t ht
    simp at ht
    rcases ht with rfl | rfl
    · exact .cls h
    · exact .noneInTuple rfl
  · intro h
    cases h with
    | value h =>
      cases h with
      | tuple _ h =>
        have := h .none (by simp)
        cases this with
        | noneInTuple h => simp at h

/-- `isinstance(x, U)` with `U: TypeAlias = int | list[int]` fails in Python with a `TypeError`, but is accepted.  The same
argument without the alias is reported. -/
theorem alias_violation (c : Cls) (hc : c.params = true) :
    (∃ ts, check false (.alias (.union [.other, .cls c])) = (some ts, [])) ∧
    ¬ OkExpr false false .alone (.alias (.union [.other, .cls c])) ∧
    ¬ ∃ ts, check false (.or (.value (.typeOf .other)) (.value (.typeOf (.cls c)))) = (some ts, []) := by
  refine ⟨?_, ?_, ?_⟩
  · rw [accepted_iff_partial]
    exact .alias (.object (.union (by simp) (by simp)) (by simp))
  · intro h
    cases h with
    | alias h =>
      cases h with
      | object _ h =>
        have := (h rfl _ rfl c (by simp)).1
        rw [hc] at this
        simp at this
  · rw [accepted_iff_partial]
    intro h
    cases h with
    | or _ h =>
      cases h with
      | value h =>
        cases h with
        | cls h => have := h.1; rw [hc] at this; simp at this
        | object h => cases h

/-- `isinstance(x, A | (B, C))` fails in Python, because there is no `|` for classes and tuples, but the check accepts it. -/
theorem tuple_operand_violation (c : Cls) (h : Testable false c) :
    (∃ ts, check false (.or (.value (.typeOf (.cls c))) (.value (.tuple [.typeOf (.cls c)]))) = (some ts, [])) ∧
    ¬ OkExpr false false .alone (.or (.value (.typeOf (.cls c))) (.value (.tuple [.typeOf (.cls c)]))) := by
  constructor
  · rw [accepted_iff_partial]
    refine .or (.value (.cls h)) (.value (.tuple (fun _ => rfl) ?_))
    intro t ht
    simp at ht
    subst ht
    exact .cls h
  · intro h
    cases h with
    | or _ h =>
      cases h with
      | value h =>
        cases h with
        | tuple h _ => simp at h

/-- A protocol with attributes: testable by `isinstance`, not by `issubclass`. -/
def sampleProtocol : Cls := { id := 1, protocol := true, runtime := true, nonMethods := true }

example : Testable false { id := 2 } ∧ Testable false sampleProtocol ∧ ¬ Testable true sampleProtocol ∧
    OkExpr false false .alone (.or (.value (.typeOf (.cls sampleProtocol))) (.value .none)) ∧
    (check true (.value (.typeOf (.cls sampleProtocol)))).2 = [.nonMethodMembers] ∧
    (check false (.value (.typeOf .typedDict))).2 = [.cannotUse] :=
  ⟨by simp [Testable], by simp [Testable, sampleProtocol], by simp [Testable, sampleProtocol],
    .or (.value (.cls (by simp [Testable, sampleProtocol]))) (.value .noneOperand), by decide, by decide⟩

/-! ## C238: what is tested -/

theorem andThen_some {a b : Res} {ts : List Ty} (h : andThen a b = (some ts, [])) :
    ∃ x y, a = (some x, []) ∧ b = (some y, []) ∧ ts = x ++ y := by
  obtain ⟨a1, a2⟩ := a
  obtain ⟨b1, b2⟩ := b
  unfold andThen at h
  cases a1 with
  | none => simp at h
  | some x =>
    cases b1 with
    | none => simp at h
    | some y =>
      simp only [Prod.mk.injEq, Option.some.injEq, List.append_eq_nil_iff] at h
      obtain ⟨rfl, rfl, rfl⟩ := h
      exact ⟨x, y, rfl, rfl, rfl⟩

theorem classObject_tests {sub : Bool} {t : Ty} {ts : List Ty} (h : classObject sub t = (some ts, [])) (u : Ty) :
    u ∈ ts ↔ TestsTy (.typeOf t) u := by
  have base : (∀ vs, t ≠ .union vs) → ts = [t] → (u ∈ ts ↔ TestsTy (.typeOf t) u) := by
    rintro hu rfl
    simp only [List.mem_singleton]
    constructor
    · rintro rfl
      exact .cls hu
    · intro h
      cases h with
      | cls _ => rfl
      | union _ => exact absurd rfl (hu _)
  cases t with
  | cls c =>
    refine base (by simp) ?_
    simp only [classObject] at h
    split at h
    · simp at h
    · simp only [Prod.mk.injEq, Option.some.injEq] at h
      exact h.1.symm
  | union vs =>
    simp only [classObject, members, Prod.mk.injEq, Option.some.injEq, and_true] at h
    subst h
    constructor
    · exact .union
    · intro h
      cases h with
      | cls h => exact absurd rfl (h _)
      | union h => exact h
  | _ =>
    refine base (by simp) ?_
    simp only [classObject, members, Prod.mk.injEq, Option.some.injEq, and_true] at h
    exact h.symm

mutual

theorem process_tests (sub fu : Bool) (t : Ty) (ts : List Ty) (h : process sub fu t = (some ts, [])) (u : Ty) :
    u ∈ ts ↔ TestsTy t u := by
  match t with
  | .tuple vs =>
    rw [process] at h
    rw [processAll_tests sub vs ts h u]
    constructor
    · rintro ⟨v, hv, hu⟩
      exact .tuple hv hu
    · intro h
      cases h with
      | tuple hv hu => exact ⟨_, hv, hu⟩
  | .many t =>
    rw [process] at h
    rw [process_tests sub false t ts h u]
    constructor
    · exact .many
    · intro h
      cases h with
      | many h => exact h
  | .typeOf t =>
    rw [process] at h
    exact classObject_tests h u
  | .any =>
    rw [process] at h
    simp only [Prod.mk.injEq, Option.some.injEq, and_true] at h
    subst h
    simp only [List.mem_singleton]
    exact ⟨by rintro rfl; exact .any, fun h => by cases h; rfl⟩
  | .none =>
    rw [process] at h
    split at h
    · simp only [Prod.mk.injEq, Option.some.injEq, and_true] at h
      subst h
      simp only [List.mem_singleton]
      exact ⟨by rintro rfl; exact .none, fun h => by cases h; rfl⟩
    · simp at h
  | .cls _ => rw [process] at h; simp at h
  | .typedDict => rw [process] at h; simp at h
  | .newType => rw [process] at h; simp at h
  | .other => rw [process] at h; simp at h
  | .union _ => rw [process] at h; simp at h
termination_by sizeOf t

theorem processAll_tests (sub : Bool) (vs ts : List Ty) (h : processAll sub vs = (some ts, [])) (u : Ty) :
    u ∈ ts ↔ ∃ v ∈ vs, TestsTy v u := by
  match vs with
  | [] =>
    rw [processAll] at h
    simp only [Prod.mk.injEq, Option.some.injEq, and_true] at h
    subst h
    simp
  | v :: vs =>
    rw [processAll] at h
    obtain ⟨x, y, hx, hy, rfl⟩ := andThen_some h
    rw [List.mem_append, process_tests sub true v x hx u, processAll_tests sub vs y hy u]
    simp
termination_by sizeOf vs

end

theorem infer_tests (sub fu : Bool) (e : Expr) (ts : List Ty) (h : infer sub fu e = (some ts, [])) (u : Ty) :
    u ∈ ts ↔ Tests e u := by
  induction e generalizing fu ts with
  | or a b iha ihb =>
    rw [infer] at h
    obtain ⟨x, y, hx, hy, rfl⟩ := andThen_some h
    rw [List.mem_append, iha _ _ hx, ihb _ _ hy]
    constructor
    · rintro (h | h)
      · exact .left h
      · exact .right h
    · intro h
      cases h with
      | left h => exact Or.inl h
      | right h => exact Or.inr h
  | typingAny => rw [infer] at h; simp at h
  | builtinsType =>
    rw [infer] at h
    simp only [Prod.mk.injEq, Option.some.injEq, and_true] at h
    subst h
    simp only [List.mem_singleton]
    exact ⟨by rintro rfl; exact .type, fun h => by cases h; rfl⟩
  | unionValue e ih =>
    rw [infer] at h
    rw [ih _ _ h]
    constructor
    · exact .unionValue
    · intro h
      cases h with
      | unionValue h => exact h
  | unresolved => rw [infer] at h; simp at h
  | alias t =>
    rw [infer] at h
    rw [process_tests _ _ _ _ h u]
    constructor
    · exact .alias
    · intro h
      cases h with
      | alias h => exact h
  | value t =>
    rw [infer] at h
    rw [process_tests _ _ _ _ h u]
    constructor
    · exact .value
    · intro h
      cases h with
      | value h => exact h

/-- C238: the types an accepted argument narrows to are exactly the classes that Python tests for. -/
theorem narrowed_iff (sub : Bool) (e : Expr) (ts : List Ty) (h : check sub e = (some ts, [])) (u : Ty) :
    u ∈ ts ↔ Tests e u := by
  unfold check at h
  obtain ⟨r, hr⟩ : ∃ r, infer sub false e = r := ⟨_, rfl⟩
  rw [hr] at h
  obtain ⟨r1, r2⟩ := r
  cases r1 with
  | none => simp at h
  | some xs =>
    simp only [Prod.mk.injEq, Option.some.injEq, List.append_eq_nil_iff] at h
    obtain ⟨rfl, rfl, -⟩ := h
    exact infer_tests sub false e xs hr u

example : check false (.or (.value (.tuple [.typeOf (.cls { id := 2 }), .typeOf .other])) (.value .none)) =
    (some [.cls { id := 2 }, .other, .none], []) := rfl

end Verif.ClassInfo
