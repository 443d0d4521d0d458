import Verif.Call.Props

/-!
# Calls: cases that meet the hypotheses, and disagreements with Python
-/

namespace Verif.Call

open Verif.Call.Spec

def par (i : Nat) (k : Kind) (n : String) (d : Bool := false) : Param Unit := ⟨i, k, some n, d, ()⟩

/-- A check for `Signature` that can be computed. -/
def signatureB {τ : Type} (ps : List (Param τ)) : Bool :=
  (List.range ps.length).all (fun j => match ps[j]? with | some p => p.idx == j | none => true) &&
  ps.all (fun p => p.name.isSome) &&
  decide (ps.Pairwise fun p q => (rank p.kind ≤ rank q.kind ∧ (p.kind = .star → q.kind ≠ .star) ∧
    (p.kind = .starStar → q.kind ≠ .starStar)) ∧ p.name ≠ q.name)

theorem signature_of {τ : Type} {ps : List (Param τ)} (h : signatureB ps = true) : Signature ps := by
  unfold signatureB at h
  simp only [Bool.and_eq_true, List.all_eq_true, decide_eq_true_eq] at h
  obtain ⟨⟨h1, h2⟩, h3⟩ := h
  refine ⟨?_, h3.imp fun h => h.1, ?_, h3.imp fun h n hp hq => h.2 (hp.2.trans hq.2.symm)⟩
  · intro j p hj
    have := h1 j (List.mem_range.mpr (List.getElem?_eq_some_iff.mp hj).1)
    rw [hj] at this
    simpa using this
  · intro p hp _
    exact Option.isSome_iff_exists.mp (h2 p hp)

/-! ## The theorems apply -/

/-- `def f(a, b=..., /, c, *r, k, l=..., **kw)` -/
def sigAll : List (Param Unit) :=
  [par 0 .posOnly "a", par 1 .posOnly "b" true, par 2 .posOrKw "c", par 3 .star "r", par 4 .kwOnly "k",
    par 5 .kwOnly "l" true, par 6 .starStar "kw"]

theorem sigAll_signature : Signature sigAll := signature_of (by decide)

/-- `f(1, k=2, *(3, 4, 5), **{"z": 6})` -/
def callAll : List (CallArg Nat) := [.pos 1, .kw "k" 2, .star [3, 4, 5] none, .starStar [("z", 6)] none]

theorem callAll_grammatical : Grammatical callAll := by
  simp [Grammatical, callAll]

theorem callAll_known : Known callAll := by
  simp [Known, callAll]

theorem callAll_supplies : Supplies callAll [1, 3, 4, 5] [("k", 2), ("z", 6)] :=
  .pos (.kw (.star (vs := [3, 4, 5]) (ws := []) (by simp) (.starStar (ms := [("z", 6)]) (es := []) (by simp) .nil)))

theorem callAll_accepts : Accepts sigAll [1, 3, 4, 5] [("k", 2), ("z", 6)] where
  room := Or.inl ⟨par 3 .star "r", by simp [sigAll], rfl⟩
  known := fun n _ => Or.inr ⟨par 6 .starStar "kw", by simp [sigAll], rfl⟩
  filled := by
    intro j p hj h1 h2 h3
    match j with
    | 0 => exact ⟨1, .position rfl (Or.inl rfl) rfl⟩
    | 1 => cases hj; cases h3
    | 2 => exact ⟨4, .position rfl (Or.inr rfl) rfl⟩
    | 3 => cases hj; cases h1 rfl
    | 4 => exact ⟨2, .name (n := "k") rfl ⟨Or.inr rfl, rfl⟩ (by simp)⟩
    | 5 => cases hj; cases h3
    | 6 => cases hj; cases h2 rfl
    | n + 7 => simp [sigAll] at hj
  once := by
    rintro (h | ⟨j, p, n, hj, hn, hp, hlt, hmem⟩)
    · exact h (by decide)
    · match j with
      | 0 => cases hj; rcases hn.1 with h | h <;> cases h
      | 1 => cases hj; rcases hn.1 with h | h <;> cases h
      | 2 =>
        cases hj
        have := hn.2
        injection this with this
        subst this
        revert hmem
        decide
      | 3 => cases hj; rcases hp with h | h <;> cases h
      | n + 4 => simp at hlt; omega

example : (check sigAll callAll).fits = true ∧
    ∀ j v, Compared (check sigAll callAll) j v ↔ Gets sigAll [1, 3, 4, 5] [("k", 2), ("z", 6)] j v :=
  accepted_call_binds sigAll_signature callAll_grammatical callAll_known callAll_supplies callAll_accepts

example : (check sigAll callAll).fits = true := by decide +kernel

/-- `def f(a, b, *, k)` -/
def sigFew : List (Param Unit) := [par 0 .posOrKw "a", par 1 .posOrKw "b", par 2 .kwOnly "k"]

/-- `f(1, *args, k=2)` -/
def callStar : List (CallArg Nat) := [.pos 1, .star [] (some 5), .kw "k" 2]

/-- `f(1, **kwargs)` -/
def callDouble : List (CallArg Nat) := [.pos 1, .starStar [] (some 5)]

theorem sigFew_signature : Signature sigFew := signature_of (by decide)

theorem callStar_orderly : Grammatical callStar ∧ Orderly callStar := by
  refine ⟨by simp [Grammatical, callStar], ⟨?_, ?_, ?_⟩⟩
  · simp [callStar, isUnknownStar]
  · simp [callStar, isUnknownDouble]
  · simp [callStar, isUnknownDouble]

theorem callDouble_orderly : Grammatical callDouble ∧ Orderly callDouble := by
  refine ⟨by simp [Grammatical, callDouble], ⟨?_, ?_, ?_⟩⟩
  · simp [callDouble, isUnknownStar]
  · simp [callDouble, isUnknownDouble]
  · simp [callDouble, isUnknownDouble]

example : ∃ P K, Supplies callStar P K ∧ Accepts sigFew P K :=
  accepted_call_succeeds_partial sigFew_signature callStar_orderly.1 callStar_orderly.2 (by decide) (by decide +kernel)

example : ∃ P K, Supplies callDouble P K ∧ Accepts sigFew P K :=
  accepted_call_succeeds_partial sigFew_signature callDouble_orderly.1 callDouble_orderly.2 (by decide) (by decide +kernel)

/-- Each value that reaches `sigFew` in `f(1, *args, k=2)` is compared. -/
example {P K} (h1 : Supplies callStar P K) (h2 : Accepts sigFew P K) {j v} (h3 : Gets sigFew P K j v) :
    Compared (check sigFew callStar) j v :=
  every_value_compared_partial sigFew_signature callStar_orderly.1 callStar_orderly.2
    (Or.inr ⟨by simp [callStar, isUnknownDouble], Or.inl (by decide)⟩) (by decide +kernel) h1 h2 h3

example {P K} (h1 : Supplies callDouble P K) (h2 : Accepts sigFew P K) : (check sigFew callDouble).fits = true :=
  possible_call_accepted_partial sigFew_signature callDouble_orderly.1 callDouble_orderly.2
    (by simp [callDouble, isUnknownStar]) h1 h2

/-- `f(1, z=2)` has a message for the unknown name. -/
example : (check sigFew [.pos 1, .kw "z" 2]).reports = [.keyword "z" false] := by decide +kernel

example : (check sigFew [.pos 1]).reports = [.missingNamed "k", .missingPositional ["b"]] := by decide +kernel

example : Holds sigFew [1] [("z", 2)] (.keyword "z" false) :=
  reports_are_true (call := [.pos 1, .kw "z" 2]) sigFew_signature (by simp [Grammatical]) (by simp [Known])
    (.pos (.kw .nil)) (by decide +kernel)

/-! ## C76 and C78: an argument that is given twice -/

/-- `def f(a, **kw)` -/
def sigKw : List (Param Unit) := [par 0 .posOrKw "a", par 1 .starStar "kw"]

theorem sigKw_signature : Signature sigKw := signature_of (by decide)

/-- `f(1, a=2)` raises a `TypeError`: "got multiple values for argument 'a'".  It is accepted, because the named argument
is swallowed by `**kw`. -/
theorem repeated_argument_violation : ∃ (ps : List (Param Unit)) (call : List (CallArg Nat)), Signature ps ∧
    Grammatical call ∧ Known call ∧ (check ps call).fits = true ∧ ∀ P K, Supplies call P K → ¬ Accepts ps P K := by
  refine ⟨sigKw, [.pos 1, .kw "a" 2], sigKw_signature, by simp [Grammatical], by simp [Known], by decide +kernel, ?_⟩
  intro P K hsup ha
  cases hsup with
  | pos h =>
    cases h with
    | kw h =>
      cases h
      exact ha.once (Or.inr ⟨0, par 0 .posOrKw "a", "a", rfl, ⟨Or.inl rfl, rfl⟩, Or.inr rfl, by decide, by decide⟩)

/-! ## C77: values that are not compared -/

/-- Numbers of the parameters that a value is compared with. -/
def comparedWith (o : Outcome Nat Unit) (v : Nat) : List Nat :=
  o.pairs.filterMap fun r => match r.2 with
    | some a => if a.value = v then some r.1.idx else none
    | none => none

theorem not_compared {o : Outcome Nat Unit} {j v : Nat} (h : j ∉ comparedWith o v) : ¬ Compared o j v := by
  rintro ⟨p, a, h1, h2, h3⟩
  apply h
  unfold comparedWith
  rw [List.mem_filterMap]
  exact ⟨(p, some a), h1, by simp [h2, h3]⟩

def Uncompared (ps : List (Param Unit)) (call : List (CallArg Nat)) : Prop :=
  Signature ps ∧ Grammatical call ∧ (check ps call).fits = true ∧
    ∃ P K j v, Supplies call P K ∧ Accepts ps P K ∧ Gets ps P K j v ∧ ¬ Compared (check ps call) j v

/-- `def f(a)` -/
def sigOne : List (Param Unit) := [par 0 .posOrKw "a"]

/-- `f(*args, **kwargs)` for `def f(a)`: `args` may be empty, and the values of `kwargs` are not compared with `a`. -/
theorem star_and_double_violation : Uncompared sigOne [.star [] (some 1), .starStar [] (some 2)] := by
  refine ⟨signature_of (by decide), by simp [Grammatical], by decide +kernel, [], [("a", 2)], 0, 2,
    .star (vs := []) (ws := []) (by simp) (.starStar (ms := []) (es := [("a", 2)]) (by simp) .nil), ?_,
    .name (n := "a") rfl ⟨Or.inl rfl, rfl⟩ (by simp), not_compared (by decide +kernel)⟩
  refine ⟨⟨Or.inr (by simp), ?_, ?_⟩, ?_⟩
  · intro n hn
    simp at hn
    subst hn
    exact Or.inl ⟨_, List.mem_cons_self, Or.inl rfl, rfl⟩
  · intro j p hj _ _ _
    match j with
    | 0 => exact ⟨2, .name (n := "a") hj (by cases hj; exact ⟨Or.inl rfl, rfl⟩) (by simp)⟩
    | n + 1 => simp [sigOne] at hj
  · rintro (h | ⟨j, p, n, _, _, _, hlt, _⟩)
    · exact h (by decide)
    · simp at hlt

/-- `def f(**kw)` -/
def sigOnlyKw : List (Param Unit) := [par 0 .starStar "kw"]

theorem onlyKw_accepts (n : String) (v : Nat) : Accepts sigOnlyKw [] [(n, v)] := by
  refine ⟨⟨Or.inr (by simp), fun _ _ => Or.inr ⟨_, List.mem_cons_self, rfl⟩, ?_⟩, ?_⟩
  · intro j p hj _ h2 _
    match j with
    | 0 => cases hj; cases h2 rfl
    | n + 1 => simp [sigOnlyKw] at hj
  · rintro (h | ⟨j, p, n, _, _, _, hlt, _⟩)
    · exact h (by simp)
    · simp at hlt

theorem onlyKw_gets (n : String) (v : Nat) : Gets sigOnlyKw [] [(n, v)] 0 v :=
  .other (n := n) rfl rfl (by
    intro q hq hn
    simp [sigOnlyKw] at hq
    subst hq
    rcases hn.1 with h | h <;> cases h) (by simp)

/-- `f(**k, **l)` for `def f(**kw)`: the values of `l` are not compared with anything. -/
theorem second_double_violation : Uncompared sigOnlyKw [.starStar [] (some 1), .starStar [] (some 2)] :=
  ⟨signature_of (by decide), by simp [Grammatical], by decide +kernel, [], [("a", 2)], 0, 2,
    .starStar (ms := []) (es := []) (by simp) (.starStar (ms := []) (es := [("a", 2)]) (by simp) .nil),
    onlyKw_accepts _ _, onlyKw_gets _ _, not_compared (by decide +kernel)⟩

/-- `def f(a, *r)` -/
def sigRest : List (Param Unit) := [par 0 .posOrKw "a", par 1 .star "r"]

/-- `f(*x, *y)` for `def f(a, *r)`: if `x` is empty, the first value of `y` goes to `a`, but is not compared with it. -/
theorem second_star_violation : Uncompared sigRest [.star [] (some 1), .star [] (some 2)] := by
  refine ⟨signature_of (by decide), by simp [Grammatical], by decide +kernel, [2], [], 0, 2,
    .star (vs := []) (ws := []) (by simp) (.star (vs := []) (ws := [2]) (by simp) .nil), ?_,
    .position rfl (Or.inr rfl) rfl, not_compared (by decide +kernel)⟩
  refine ⟨⟨Or.inl ⟨par 1 .star "r", by simp [sigRest], rfl⟩, by simp, ?_⟩, ?_⟩
  · intro j p hj h1 _ _
    match j with
    | 0 => exact ⟨2, .position hj (by cases hj; exact Or.inr rfl) rfl⟩
    | 1 => cases hj; cases h1 rfl
    | n + 2 => simp [sigRest] at hj
  · rintro (h | ⟨j, p, n, _, _, _, hlt, h⟩)
    · exact h (by simp)
    · simp at h

/-- `def f(a, b, **kw)` -/
def sigTwoKw : List (Param Unit) := [par 0 .posOrKw "a", par 1 .posOrKw "b", par 2 .starStar "kw"]

/-- `f(*args, b=2)` for `def f(a, b, **kw)`: with one element in `args` the call succeeds, but `b=2` was only compared
with `**kw`. -/
theorem named_after_star_violation : Uncompared sigTwoKw [.star [] (some 1), .kw "b" 2] := by
  refine ⟨signature_of (by decide), by simp [Grammatical], by decide +kernel, [1], [("b", 2)], 1, 2,
    .star (vs := []) (ws := [1]) (by simp) (.kw .nil), ?_,
    .name (n := "b") rfl ⟨Or.inl rfl, rfl⟩ (by simp), not_compared (by decide +kernel)⟩
  refine ⟨⟨Or.inr ?_, fun _ _ => Or.inr ⟨par 2 .starStar "kw", by simp [sigTwoKw], rfl⟩, ?_⟩, ?_⟩
  · intro j hj
    simp at hj
    subst hj
    exact ⟨_, rfl, Or.inr rfl⟩
  · intro j p hj _ h2 _
    match j with
    | 0 => exact ⟨1, .position hj (by cases hj; exact Or.inr rfl) rfl⟩
    | 1 => exact ⟨2, .name (n := "b") hj (by cases hj; exact ⟨Or.inl rfl, rfl⟩) (by simp)⟩
    | 2 => cases hj; cases h2 rfl
    | n + 3 => simp [sigTwoKw] at hj
  · rintro (h | ⟨j, p, n, hj, hn, _, hlt, hmem⟩)
    · exact h (by decide)
    · simp at hlt
      subst hlt
      cases hj
      have := hn.2
      injection this with this
      subst this
      revert hmem
      decide

/-! ## C79: calls that are refused although they can succeed -/

def Refused (ps : List (Param Unit)) (call : List (CallArg Nat)) : Prop :=
  Signature ps ∧ Grammatical call ∧ (check ps call).fits = false ∧ ∃ P K, Supplies call P K ∧ Accepts ps P K

/-- `def f(*args, a, b)` -/
def sigStarTwo : List (Param Unit) := [par 0 .star "args", par 1 .kwOnly "a", par 2 .kwOnly "b"]

/-- `f(**k, a=1)` for `def f(*args, a, b)`: "Missing named argument b", although `k` can hold it.  Without `*args` the
call is accepted. -/
theorem double_before_named_violation : Refused sigStarTwo [.starStar [] (some 2), .kw "a" 1] ∧
    (check [par 0 .kwOnly "a", par 1 .kwOnly "b"] [CallArg.starStar [] (some 2), .kw "a" 1]).fits = true := by
  refine ⟨⟨signature_of (by decide), by simp [Grammatical], by decide +kernel, [], [("b", 2), ("a", 1)],
    .starStar (ms := []) (es := [("b", 2)]) (by simp) (.kw .nil), ?_⟩, by decide +kernel⟩
  refine ⟨⟨Or.inr (by simp), ?_, ?_⟩, ?_⟩
  · intro n hn
    simp at hn
    rcases hn with rfl | rfl
    · exact Or.inl ⟨par 2 .kwOnly "b", by simp [sigStarTwo], Or.inr rfl, rfl⟩
    · exact Or.inl ⟨par 1 .kwOnly "a", by simp [sigStarTwo], Or.inr rfl, rfl⟩
  · intro j p hj h1 _ _
    match j with
    | 0 => cases hj; cases h1 rfl
    | 1 => exact ⟨1, .name (n := "a") hj (by cases hj; exact ⟨Or.inr rfl, rfl⟩) (by simp)⟩
    | 2 => exact ⟨2, .name (n := "b") hj (by cases hj; exact ⟨Or.inr rfl, rfl⟩) (by simp)⟩
    | n + 3 => simp [sigStarTwo] at hj
  · rintro (h | ⟨j, p, n, _, _, _, hlt, _⟩)
    · exact h (by decide)
    · simp at hlt

/-- `def f(a, b)` -/
def sigTwo : List (Param Unit) := [par 0 .posOrKw "a", par 1 .posOrKw "b"]

theorem sigTwo_accepts_one (v w : Nat) : Accepts sigTwo [v] [("b", w)] := by
  refine ⟨⟨Or.inr ?_, ?_, ?_⟩, ?_⟩
  · intro j hj
    simp at hj
    subst hj
    exact ⟨_, rfl, Or.inr rfl⟩
  · intro n hn
    simp at hn
    subst hn
    exact Or.inl ⟨par 1 .posOrKw "b", by simp [sigTwo], Or.inl rfl, rfl⟩
  · intro j p hj _ _ _
    match j with
    | 0 => exact ⟨v, .position hj (by cases hj; exact Or.inr rfl) rfl⟩
    | 1 => exact ⟨w, .name (n := "b") hj (by cases hj; exact ⟨Or.inl rfl, rfl⟩) (by simp)⟩
    | n + 2 => simp [sigTwo] at hj
  · rintro (h | ⟨j, p, n, hj, hn, _, hlt, hmem⟩)
    · exact h (by simp)
    · simp at hlt
      subst hlt
      cases hj
      have := hn.2
      injection this with this
      subst this
      simp at hmem

/-- `f(*args, b=2)` for `def f(a, b)` is refused: `*args` is expected to fill all positional parameters. -/
theorem named_after_star_refused_violation : Refused sigTwo [.star [] (some 1), .kw "b" 2] :=
  ⟨signature_of (by decide), by simp [Grammatical], by decide +kernel, [1], [("b", 2)],
    .star (vs := []) (ws := [1]) (by simp) (.kw .nil), sigTwo_accepts_one 1 2⟩

end Verif.Call
