import Verif.Match.Model

/-!
# Match results combine like truth values (C45)
-/

namespace Verif.Match

/-- Whether a match succeeded because of `Any`. -/
def Match.throughAny : Match → Bool
  | .true a => a
  | .false .. => Bool.false

/-- C45: conjunction of two results. -/
theorem and_bool (a b : Match) :
    (a.and b).bool = (a.bool && b.bool) ∧
    (a.bool = Bool.true → b.bool = Bool.true → a.and b = .true (a.throughAny || b.throughAny)) := by
  rcases a with ⟨(_ | _), r⟩ | (_ | _) <;> rcases b with ⟨(_ | _), r'⟩ | (_ | _) <;> simp [Match.and, Match.bool, Match.throughAny]

/-- C45: conjunction is associative and a successful match without `Any` is neutral. -/
theorem and_monoid (a b c : Match) : (a.and b).and c = a.and (b.and c) ∧ Match.newTrue.and a = a ∧ a.and .newTrue = a := by
  rcases a with ⟨(_ | _), r⟩ | (_ | _) <;> rcases b with ⟨(_ | _), r'⟩ | (_ | _) <;> rcases c with ⟨(_ | _), r''⟩ | (_ | _) <;>
    simp [Match.and, Match.newTrue]

/-- C45: a failed conjunction has the reason of the first failure. -/
theorem and_reason (a b : Match) : (∀ s r, a = .false s r → ∃ s', a.and b = .false s' r) ∧
    (a.bool = Bool.true → b.bool = Bool.false → a.and b = b) := by
  rcases a with ⟨(_ | _), r⟩ | (_ | _) <;> rcases b with ⟨(_ | _), r'⟩ | (_ | _) <;> simp [Match.and, Match.bool]

/-- C45: a failed conjunction is similar only if no part failed without being similar. -/
theorem and_similar (a b : Match) (h : (a.and b).isSimilar = Bool.true) :
    (a.bool = Bool.true ∨ a.isSimilar = Bool.true) ∧ (b.bool = Bool.true ∨ b.isSimilar = Bool.true) := by
  rcases a with ⟨(_ | _), r⟩ | (_ | _) <;> rcases b with ⟨(_ | _), r'⟩ | (_ | _) <;> simp_all [Match.and, Match.bool, Match.isSimilar]

theorem allLoop_eq (rs : List Match) : ∀ w, allLoop (.true w) rs =
    if rs.all Match.bool then .true (w || rs.any Match.throughAny) else .newFalse := by
  induction rs with
  | nil => intro w; simp [allLoop]
  | cons r rs ih =>
    intro w
    rw [allLoop]
    cases r with
    | false s q =>
      cases w <;> simp [Match.and, Match.bool, Match.newFalse]
    | true v =>
      have : (Match.true w).and (.true v) = .true (w || v) := by cases w <;> cases v <;> rfl
      simp only [this]
      rw [if_pos (show (Match.true (w || v)).bool = Bool.true from rfl), ih (w || v)]
      simp [Match.bool, Match.throughAny, Bool.or_assoc]

/-- C45: conjunction of a list.  A failure carries no reason and is not similar. -/
theorem all_eq (rs : List Match) :
    Match.all rs = if ∀ r ∈ rs, r.bool = Bool.true then .true (decide (.true Bool.true ∈ rs)) else .newFalse := by
  rw [Match.all, Match.newTrue, allLoop_eq]
  have h1 : (rs.all Match.bool = Bool.true) ↔ ∀ r ∈ rs, r.bool = Bool.true := List.all_eq_true
  have h2 : rs.any Match.throughAny = decide (.true Bool.true ∈ rs) := by
    rw [Bool.eq_iff_iff, List.any_eq_true, decide_eq_true_iff]
    constructor
    · rintro ⟨r, hr, ht⟩
      cases r with
      | false => simp [Match.throughAny] at ht
      | true a => simp [Match.throughAny] at ht; subst ht; exact hr
    · intro h; exact ⟨_, h, rfl⟩
  by_cases h : ∀ r ∈ rs, r.bool = Bool.true
  · rw [if_pos h, if_pos (h1.mpr h), Bool.false_or, h2]
  · rw [if_neg h, if_neg (fun h' => h (h1.mp h'))]

theorem anyLoop_spec (rs : List Match) : ∀ (result : Match), result.bool = Bool.false ∨ rs ≠ [] →
    (anyLoop result rs).bool = rs.any Match.bool := by
  induction rs with
  | nil => intro result h; rcases h with h | h; · simp [anyLoop, h]
           · exact absurd rfl h
  | cons r rs ih =>
    intro result _
    rw [anyLoop]
    by_cases hr : r.bool = Bool.true
    · rw [if_pos hr]; simp [hr]
    · rw [if_neg hr]
      have hf : r.bool = Bool.false := by simpa using hr
      rw [ih]
      · simp [hf]
      · left
        split
        · cases result with
          | false => rfl
          | true => simp_all [Match.isSimilar]
        · exact hf

/-- C45: disjunction of a list succeeds exactly if one of the results does, and is the first of them.  Partial: the list
must not be empty. -/
theorem any_partial (rs : List Match) (h : rs ≠ []) :
    ((Match.any rs).bool = Bool.true ↔ ∃ r ∈ rs, r.bool = Bool.true) ∧
    (∀ A r B, rs = A ++ r :: B → (∀ a ∈ A, a.bool = Bool.false) → r.bool = Bool.true → Match.any rs = r) := by
  constructor
  · rw [Match.any, anyLoop_spec rs _ (.inr h), List.any_eq_true]
  · intro A r B e hA hr
    subst e
    rw [Match.any]
    generalize Match.newTrue = result
    induction A generalizing result with
    | nil => rw [List.nil_append, anyLoop, if_pos hr]
    | cons a A ih =>
      rw [List.cons_append, anyLoop, if_neg (by rw [hA a (by simp)]; decide)]
      exact ih (fun x hx => hA x (by simp [hx])) (by simp) _

theorem anyLoop_similar (rs : List Match) (hf : ∀ r ∈ rs, r.bool = Bool.false) (result : Match) (hs : result.isSimilar = Bool.true) :
    anyLoop result rs = result := by
  induction rs with
  | nil => rfl
  | cons r rs ih =>
    rw [anyLoop, if_neg (by rw [hf r (by simp)]; decide), if_pos hs]
    exact ih (fun x hx => hf x (by simp [hx]))

theorem anyLoop_last (rs : List Match) (hf : ∀ r ∈ rs, r.bool = Bool.false) (hs : ∀ r ∈ rs, r.isSimilar = Bool.false) (result : Match)
    (h : result.isSimilar = Bool.false) : anyLoop result rs = rs.getLast?.getD result := by
  induction rs generalizing result with
  | nil => rfl
  | cons r rs ih =>
    rw [anyLoop, if_neg (by rw [hf r (by simp)]; decide), if_neg (by rw [h]; decide),
      ih (fun x hx => hf x (by simp [hx])) (fun x hx => hs x (by simp [hx])) _ (hs r (by simp))]
    rw [List.getLast?_cons]
    simp

/-- C45: a failed disjunction is the first similar failure, or else the last failure. -/
theorem any_failure (rs : List Match) (hf : ∀ r ∈ rs, r.bool = Bool.false) :
    (∀ A r B, rs = A ++ r :: B → (∀ a ∈ A, a.isSimilar = Bool.false) → r.isSimilar = Bool.true → Match.any rs = r) ∧
    ((∀ r ∈ rs, r.isSimilar = Bool.false) → ∀ A r, rs = A ++ [r] → Match.any rs = r) := by
  constructor
  · intro A r B e hA hr
    subst e
    rw [Match.any]
    have : ∀ (A : List Match) (result : Match), result.isSimilar = Bool.false → (∀ a ∈ A, a.isSimilar = Bool.false) →
        (∀ x ∈ A ++ r :: B, x.bool = Bool.false) → anyLoop result (A ++ r :: B) = r := by
      intro A
      induction A with
      | nil =>
        intro result h _ hf
        rw [List.nil_append, anyLoop, if_neg (by rw [hf r (by simp)]; decide), if_neg (by rw [h]; decide)]
        exact anyLoop_similar B (fun x hx => hf x (by simp [hx])) r hr
      | cons a A ih =>
        intro result h hA hf
        rw [List.cons_append, anyLoop, if_neg (by rw [hf a (by simp)]; decide), if_neg (by rw [h]; decide)]
        exact ih a (hA a (by simp)) (fun x hx => hA x (by simp [hx])) (fun x hx => hf x (by
          rw [List.cons_append]; exact List.mem_cons_of_mem _ hx))
    exact this A _ rfl hA hf
  · intro hs A r e
    rw [Match.any, anyLoop_last rs hf hs _ rfl, e]
    simp

/-- C45 fails for the empty disjunction: it succeeds. -/
theorem any_violation : (Match.any []).bool = Bool.true := rfl

/-- C45: disjunction of two results.  A failure with a reason, or similar, is not replaced by another failure. -/
theorem or_bool (a b : Match) : (a.or b).bool = (a.bool || b.bool) ∧ (a.bool = Bool.true → a.or b = a) ∧
    (a.bool = Bool.false → b.bool = Bool.true → a.or b = b) ∧
    (a.bool = Bool.false → b.bool = Bool.false → a ≠ .newFalse → a.or b = a) ∧ (a = .newFalse → a.or b = b) := by
  rcases a with ⟨(_ | _), (_ | r)⟩ | (_ | _) <;> rcases b with ⟨(_ | _), r'⟩ | (_ | _) <;> simp [Match.or, Match.bool, Match.newFalse]

/-- C45: marking a failure as similar does not change its truth value or its reason. -/
theorem similarIfFalse_bool (a : Match) : a.similarIfFalse.bool = a.bool ∧ (a.bool = Bool.true → a.similarIfFalse = a) ∧
    ∀ s r, a = .false s r → a.similarIfFalse = .false Bool.true r := by
  rcases a with ⟨(_ | _), r⟩ | (_ | _) <;> simp [Match.similarIfFalse, Match.bool]

example : Match.any [.false Bool.false .none, .false Bool.true (.other 1), .false Bool.false (.other 2)] = .false Bool.true (.other 1) ∧
    Match.all [.true Bool.false, .true Bool.true] = .true Bool.true := by decide

end Verif.Match
