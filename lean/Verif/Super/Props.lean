import Verif.Super.Spec

/-!
# `super`: lookups begin after the right class

C233 to C235.
-/

set_option linter.unusedVariables false
set_option linter.unusedSimpArgs false

namespace Verif.Super

open Spec

/-! ## C233: two arguments -/

theorem findIndex_spec (c : Nat) (m : List Entry) (base : Nat) (h : Entry.other ∉ m) :
    (findIndex c m base = some none ∧ ∀ e ∈ m, ¬ Spec.Entry.Is e c) ∨
    ∃ i, findIndex c m base = some (some (base + i)) ∧ After m c (m.drop (i + 1)) := by
  induction m generalizing base with
  | nil => exact Or.inl ⟨rfl, by simp⟩
  | cons e m ih =>
    have hm : Entry.other ∉ m := fun hx => h (by simp [hx])
    have step : ∀ d, (e = .cls d ∨ e = .dataclass d) → c ≠ d → findIndex c (e :: m) base = findIndex c m (base + 1) →
        (findIndex c (e :: m) base = some none ∧ ∀ x ∈ e :: m, ¬ Spec.Entry.Is x c) ∨
        ∃ i, findIndex c (e :: m) base = some (some (base + i)) ∧ After (e :: m) c ((e :: m).drop (i + 1)) := by
      intro d he hcd heq
      have hne : ¬ Spec.Entry.Is e c := by
        rintro (h1 | h1) <;> rcases he with h2 | h2 <;> rw [h1] at h2 <;> simp at h2 <;> exact hcd h2
      rcases ih (base + 1) hm with ⟨h1, h2⟩ | ⟨i, h1, before, x, h2, h3, h4⟩
      · left
        refine ⟨by rw [heq, h1], ?_⟩
        intro x hx
        rcases List.mem_cons.mp hx with rfl | hx
        · exact hne
        · exact h2 x hx
      · right
        refine ⟨i + 1, by rw [heq, h1]; congr 2; omega, e :: before, x, ?_, h3, ?_⟩
        · rw [List.drop_succ_cons, List.cons_append, ← h2]
        · intro b hb
          rcases List.mem_cons.mp hb with rfl | hb
          · exact hne
          · exact h4 b hb
    cases e with
    | other => exact absurd (by simp) h
    | cls d =>
      by_cases hcd : c = d
      · right
        exact ⟨0, by simp [findIndex, hcd], [], .cls d, by simp, Or.inl (by rw [hcd]), by simp⟩
      · exact step d (Or.inl rfl) hcd (by simp [findIndex, hcd])
    | dataclass d =>
      by_cases hcd : c = d
      · right
        exact ⟨0, by simp [findIndex, hcd], [], .dataclass d, by simp, Or.inr (by rw [hcd]), by simp⟩
      · exact step d (Or.inr rfl) hcd (by simp [findIndex, hcd])

theorem after_unique {m : List Entry} {c : Nat} {r r' : List Entry} (h : After m c r) (h' : After m c r') : r = r' := by
  obtain ⟨b, e, h1, h2, h3⟩ := h
  obtain ⟨b', e', h1', h2', h3'⟩ := h'
  subst h1
  induction b generalizing b' with
  | nil =>
    cases b' with
    | nil => simp at h1'; exact h1'.2
    | cons x b' =>
      simp only [List.nil_append, List.cons_append, List.cons.injEq] at h1'
      exact absurd h2 (h1'.1 ▸ h3' x (by simp))
  | cons x b ih =>
    cases b' with
    | nil =>
      simp only [List.nil_append, List.cons_append, List.cons.injEq] at h1'
      exact absurd h2' (h1'.1 ▸ h3 x (by simp))
    | cons y b' =>
      simp only [List.cons_append, List.cons.injEq] at h1'
      exact ih (fun z hz => h3 z (by simp [hz])) b' (fun z hz => h3' z (by simp [hz])) h1'.2

theorem classOf_instance {env : Env} {x : Ty} {d : Nat} (h : ClassOf env.current x d) :
    superInstance env (unliteral x) = .ok d (unliteral x) := by
  cases h with
  | inst => rfl
  | literal => rfl
  | cls => rfl
  | self_ h => simp [unliteral, superInstance, ofCurrent, h]
  | classOfSelf h => simp [unliteral, superInstance, ofCurrent, h]

/-- C233: `super(c, x)` is an error if and only if `c` is not in the MRO of `x`, and otherwise attributes are looked up in
exactly the classes after `c` in the MRO of `x`, which may not be known completely.  Missing: classes with tuples among
their bases, type variables, and other kinds of instances. -/
theorem two_arguments_partial (env : Env) (c d : Nat) (x : Ty) (hc : c ≠ env.object) (hx : ClassOf env.current x d)
    (hm : Entry.other ∉ env.mro d) :
    (executeSuper env [.value (.typeOf (.cls c)), .value x] = .issue .secondMustBeInstance ↔
      ∀ e ∈ env.mro d, ¬ Spec.Entry.Is e c) ∧
    ((∃ e ∈ env.mro d, Spec.Entry.Is e c) → env.incomplete d = true →
      executeSuper env [.value (.typeOf (.cls c)), .value x] = .any) ∧
    (∀ rest, After (env.mro d) c rest → env.incomplete d = false →
      ∃ t i, executeSuper env [.value (.typeOf (.cls c)), .value x] = .sup d t i ∧ (env.mro d).drop i = rest ∧
        (t = x ∨ ∃ k, x = .literal k ∧ t = .cls k)) := by
  have e : executeSuper env [.value (.typeOf (.cls c)), .value x] =
      match findIndex c (env.mro d) 0 with
      | none => .crash
      | some none => .issue .secondMustBeInstance
      | some (some i) => success env d (unliteral x) (i + 1) := by
    simp only [executeSuper, readArg, firstClass, relevant, if_neg hc, List.isEmpty_nil, Bool.not_true, Bool.false_eq_true,
      if_false, classOf_instance hx]
    rfl
  rcases findIndex_spec c (env.mro d) 0 hm with ⟨h1, h2⟩ | ⟨i, h1, h2⟩
  · rw [e, h1]
    refine ⟨⟨fun _ => h2, fun _ => rfl⟩, ?_, ?_⟩
    · rintro ⟨x, hx, hy⟩
      exact absurd hy (h2 x hx)
    · rintro rest ⟨b, y, h3, h4, -⟩
      exact absurd h4 (h2 y (by rw [h3]; simp))
  · rw [e, h1]
    have hin : ∃ y ∈ env.mro d, Spec.Entry.Is y c := by
      obtain ⟨b, y, h3, h4, -⟩ := h2
      exact ⟨y, by rw [h3]; simp, h4⟩
    simp only [Nat.zero_add]
    refine ⟨⟨?_, ?_⟩, ?_, ?_⟩
    · intro hbad
      unfold success at hbad
      split at hbad <;> simp at hbad
    · intro hall
      obtain ⟨y, hy, hyc⟩ := hin
      exact absurd hyc (hall y hy)
    · intro _ hinc
      simp [success, hinc]
    · intro rest hr hinc
      refine ⟨unliteral x, i + 1, by simp [success, hinc], after_unique h2 hr, ?_⟩
      cases x <;> simp [unliteral]

/-- Classes 1 (`A`), 2 (`B(A)`), 3 (`T(tuple[int], A)`), 4 (`E`); `object` is 0. -/
def sampleMro : Nat → List Entry
  | 1 => [.cls 1, .cls 0]
  | 2 => [.cls 2, .cls 1, .cls 0]
  | 3 => [.cls 3, .other, .cls 1, .cls 0]
  | 4 => [.cls 4, .cls 0]
  | _ => [.cls 0]

/-- The body of a method of the class. -/
def inMethodOf (c : Nat) : Env := ⟨some ⟨some c, .self_, some none⟩, some c, false, sampleMro, fun _ => false, 0⟩

example : ClassOf (inMethodOf 2).current .self_ 2 ∧ After ((inMethodOf 2).mro 2) 2 [.cls 1, .cls 0] ∧
    executeSuper (inMethodOf 2) [.value (.typeOf (.cls 2)), .value .self_] = .sup 2 .self_ 1 ∧
    executeSuper (inMethodOf 2) [.value (.typeOf (.cls 1)), .value .self_] = .sup 2 .self_ 2 ∧
    executeSuper (inMethodOf 2) [.value (.typeOf (.cls 4)), .value .self_] = .issue .secondMustBeInstance := by
  refine ⟨ClassOf.self_ rfl, ⟨[], .cls 2, rfl, Or.inl rfl, by simp⟩, ?_, ?_, ?_⟩ <;> decide

/-- `super(A, T())` for `class T(tuple[int], A)` is correct in Python, but the loop over the MRO meets the tuple and the
program panics.  The same happens for any class that is not in the MRO, where an error should be reported. -/
theorem tuple_violation :
    After (sampleMro 3) 1 [.cls 0] ∧
    executeSuper (inMethodOf 3) [.value (.typeOf (.cls 1)), .value (.cls 3)] = .crash ∧
    executeSuper (inMethodOf 3) [.value (.typeOf (.cls 4)), .value (.cls 3)] = .crash := by
  refine ⟨⟨[.cls 3, .other], .cls 1, rfl, Or.inl rfl, ?_⟩, by decide, by decide⟩
  intro b hb
  simp at hb
  rcases hb with rfl | rfl <;> (rintro (h | h) <;> simp at h)

/-- `super(A, x)` in a class, where the type of `x` is a type variable with constraints, reaches `unimplemented!()`. -/
theorem constraints_violation :
    executeSuper (inMethodOf 2) [.value (.typeOf (.cls 1)), .value .varConstraints] = .crash := by decide

/-- `super(A, x)` in a method of the class `E`, where the type of `x` is a type variable with the bound `B`: in Python all
values of this type are instances of `A`, but the MRO of `E` is searched and an error is reported. -/
theorem bound_violation :
    After (sampleMro 2) 1 [.cls 0] ∧
    executeSuper (inMethodOf 4) [.value (.typeOf (.cls 1)), .value (.varBound (.cls 2))] = .issue .secondMustBeInstance := by
  refine ⟨⟨[.cls 2], .cls 1, rfl, Or.inl rfl, ?_⟩, by decide⟩
  intro b hb
  simp at hb
  subst hb
  rintro (h | h) <;> simp at h

/-- An instance of a dataclass as second argument is refused, although its class is in the MRO. -/
theorem dataclass_violation :
    executeSuper (inMethodOf 4) [.value (.typeOf (.dataclass 2)), .value (.dataclass 2)] = .issue (.unsupported 2) := by decide

/-- `super(B, x)` in a method of the class `E`, where the type of `x` is `Any`: the first argument is ignored, the result is
`super()` of the method, so that attributes of `A` are looked up in `object` only. -/
theorem any_violation :
    After (sampleMro 2) 2 [.cls 1, .cls 0] ∧
    executeSuper (inMethodOf 4) [.value (.typeOf (.cls 2)), .value .any] = .sup 4 .self_ 1 ∧
    (sampleMro 4).drop 1 = [.cls 0] :=
  ⟨⟨[], .cls 2, rfl, Or.inl rfl, by simp⟩, by decide, rfl⟩

/-! ## C234: no arguments -/

/-- C234: `super()` in a method without an annotation for the first parameter is bound to that parameter, and attributes
are looked up in exactly the classes after the class of the method; anywhere else it is an error.  This never panics. -/
theorem no_arguments (env : Env) :
    (∀ c f, InMethod env c → env.func = some f → f.first = some none → env.incomplete c = false →
      ∃ t i, executeSuper env [] = .sup c t i ∧ (t = .self_ ↔ f.kind = .self_) ∧ (t = .typeOf .self_ ↔ f.kind = .classOfSelf) ∧
        ∀ rest, env.mro c = .cls c :: rest → (env.mro c).drop i = rest) ∧
    ((¬ ∃ c, InMethod env c) ↔ ∃ i, executeSuper env [] = .issue i) ∧
    executeSuper env [] ≠ .crash := by
  refine ⟨?_, ?_, ?_⟩
  · rintro c f ⟨f', a, h1, h2, h3, h4⟩ hf hfirst hinc
    rw [h1] at hf
    cases hf
    refine ⟨firstType false f.kind none, 1, ?_, ?_, ?_, ?_⟩
    · have hany : isAny (firstType false f.kind none) = false := by cases f.kind <;> rfl
      simp [executeSuper, fallback, h1, h2, h4, hfirst, hany, success, hinc]
    · cases hk : f.kind with
      | static => exact absurd hk h4
      | _ => simp [firstType]
    · cases hk : f.kind with
      | static => exact absurd hk h4
      | _ => simp [firstType]
    · intro rest hr
      rw [hr]
      rfl
  · constructor
    · intro hno
      unfold executeSuper fallback
      cases hf : env.func with
      | none => simp only; split <;> exact ⟨_, rfl⟩
      | some f =>
        simp only
        cases hc : f.cls with
        | none => exact ⟨_, rfl⟩
        | some c =>
          simp only
          by_cases hk : f.kind = .static
          · rw [if_pos hk]; exact ⟨_, rfl⟩
          · rw [if_neg hk]
            cases hfirst : f.first with
            | none => exact ⟨_, rfl⟩
            | some a => exact absurd ⟨c, f, a, hf, hc, hfirst, hk⟩ hno
    · rintro ⟨i, hi⟩ ⟨c, f, a, h1, h2, h3, h4⟩
      simp only [executeSuper, fallback, h1, h2, h3, if_neg h4, success] at hi
      split at hi
      · simp at hi
      · split at hi <;> simp at hi
  · unfold executeSuper fallback success
    cases env.func with
    | none => simp only; split <;> simp
    | some f =>
      simp only
      cases f.cls with
      | none => simp
      | some c =>
        simp only
        split
        · simp
        · cases f.first with
          | none => simp
          | some a =>
            simp only
            split
            · simp
            · split <;> simp

example : InMethod (inMethodOf 2) 2 ∧ executeSuper (inMethodOf 2) [] = .sup 2 .self_ 1 ∧
    executeSuper ⟨none, some 2, true, sampleMro, fun _ => false, 0⟩ [] = .issue .outsideMethod :=
  ⟨⟨_, _, rfl, rfl, rfl, by decide⟩, by decide, by decide⟩

/-! ## C235: the arguments -/

theorem mayBe {t : Ty} (h : (∃ u, relevant t = .typeOf u) ∨ relevant t = .any) : MayBeClass t := by
  induction t with
  | any => exact .any
  | typeOf u => exact .typeOf
  | varBound b ih => exact .bound (ih (by simpa [relevant] using h))
  | _ => simp [relevant] at h

/-- C235: if there is no error, there are no arguments, or two positional arguments, of which the first is a class (or its
type is not known). -/
theorem arguments_shape (env : Env) (args : List Arg)
    (h : (∃ c t i, executeSuper env args = .sup c t i) ∨ executeSuper env args = .any) :
    args = [] ∨ ∃ t x, args = [.value t, .value x] ∧ MayBeClass t := by
  cases args with
  | nil => exact Or.inl rfl
  | cons a rest =>
    right
    cases a with
    | keyword => simp [executeSuper, readArg] at h
    | star => simp [executeSuper, readArg] at h
    | special => simp [executeSuper, readArg] at h
    | value t =>
      cases hfc : firstClass env t with
      | stop o =>
        exfalso
        have ho : (∃ i, o = .issue i) ∨ o = .crash := by
          unfold firstClass at hfc
          split at hfc
          · split at hfc
            · simp at hfc
            · simp at hfc; exact Or.inr hfc.symm
          · split at hfc
            · simp at hfc; exact Or.inl ⟨_, hfc.symm⟩
            · simp at hfc
          · simp at hfc
          · simp at hfc; exact Or.inl ⟨_, hfc.symm⟩
          · simp at hfc
          · simp at hfc; exact Or.inl ⟨_, hfc.symm⟩
        simp only [executeSuper, readArg, hfc] at h
        rcases ho with ⟨i, rfl⟩ | rfl <;> simp at h
      | unknown =>
        have hr : relevant t = .any := by
          unfold firstClass at hfc
          split at hfc
          · split at hfc <;> simp at hfc
          · split at hfc <;> simp at hfc
          · simp at hfc
          · simp at hfc
          · assumption
          · simp at hfc
        simp only [executeSuper, readArg, hfc] at h
        cases rest with
        | nil => simp at h
        | cons b more =>
          cases b with
          | keyword => simp [readArg] at h
          | star => simp [readArg] at h
          | special => simp [readArg] at h
          | value x =>
            cases more with
            | nil => exact ⟨t, x, rfl, mayBe (Or.inr hr)⟩
            | cons y ys => simp [readArg] at h
      | known c =>
        have hr : ∃ u, relevant t = .typeOf u := by
          unfold firstClass at hfc
          split at hfc
          · exact ⟨_, by assumption⟩
          · exact ⟨_, by assumption⟩
          · exact ⟨_, by assumption⟩
          · simp at hfc
          · simp at hfc
          · simp at hfc
        simp only [executeSuper, readArg, hfc] at h
        cases rest with
        | nil => simp at h
        | cons b more =>
          cases b with
          | keyword => simp [readArg] at h
          | star => simp [readArg] at h
          | special => simp [readArg] at h
          | value x =>
            cases more with
            | nil => exact ⟨t, x, rfl, mayBe (Or.inl hr)⟩
            | cons y ys => simp [readArg] at h

example : executeSuper (inMethodOf 2) [.value .any, .value .self_] = .sup 2 .self_ 1 ∧
    executeSuper (inMethodOf 2) [.value (.typeOf (.cls 2))] = .issue .single ∧
    executeSuper (inMethodOf 2) [.value (.typeOf (.cls 2)), .value .self_, .value .any] = .issue .tooMany := by decide

end Verif.Super
