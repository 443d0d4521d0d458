import Verif.Config.Spec

namespace Verif.Config

open Spec

/-! ## Patterns -/

theorem rest_append (a b : List Part) (cs : List Name) :
    Rest (a ++ b) cs ↔ ∃ c1 c2, cs = c1 ++ c2 ∧ Rest a c1 ∧ Rest b c2 := by
  constructor
  · intro h
    induction a generalizing cs with
    | nil => exact ⟨[], cs, rfl, .nil, h⟩
    | cons p a ih =>
      cases h with
      | part h =>
        obtain ⟨c1, c2, rfl, h1, h2⟩ := ih _ h
        exact ⟨_ :: c1, c2, rfl, .part h1, h2⟩
      | @star pre _ _ h =>
        obtain ⟨c1, c2, rfl, h1, h2⟩ := ih _ h
        exact ⟨pre ++ c1, c2, by simp, .star h1, h2⟩
  · rintro ⟨c1, c2, rfl, h1, h2⟩
    induction h1 with
    | nil => exact h2
    | part _ ih => exact .part ih
    | star _ ih => rw [List.append_assoc]; exact .star ih

theorem rest_star (cs : List Name) : Rest [.wildcard] cs := by
  have := Rest.star (pre := cs) Rest.nil
  simpa using this

theorem denotes_ne (ps : List Part) (cs : List Name) (h : Denotes ps cs) : cs ≠ [] := by
  cases h <;> simp

theorem denotes_append_part (a : List Part) (p : Name) (cs : List Name) :
    Denotes (a ++ [.part p]) cs ↔ ∃ c1, cs = c1 ++ [p] ∧ ((a = [] ∧ c1 = []) ∨ Denotes a c1) := by
  have hr : ∀ cs, Rest [.part p] cs ↔ cs = [p] := by
    intro cs
    constructor
    · intro h; cases h with | part h => cases h; rfl
    · rintro rfl; exact .part .nil
  cases a with
  | nil =>
    constructor
    · intro h
      cases h with
      | part h => cases h; exact ⟨[], rfl, .inl ⟨rfl, rfl⟩⟩
    · rintro ⟨c1, rfl, ⟨-, rfl⟩ | h⟩
      · exact .part .nil
      · cases h
  | cons x a =>
    constructor
    · intro h
      cases h with
      | part h =>
        obtain ⟨c1, c2, rfl, h1, h2⟩ := (rest_append _ _ _).mp h
        rw [hr] at h2
        subst h2
        exact ⟨_ :: c1, rfl, .inr (.part h1)⟩
      | @star c pre _ _ h =>
        obtain ⟨c1, c2, rfl, h1, h2⟩ := (rest_append _ _ _).mp h
        rw [hr] at h2
        subst h2
        exact ⟨c :: pre ++ c1, by simp, .inr (.star h1)⟩
    · rintro ⟨c1, rfl, ⟨h, -⟩ | h⟩
      · simp at h
      · cases h with
        | part h => exact .part ((rest_append _ _ _).mpr ⟨_, _, rfl, h, (hr _).mpr rfl⟩)
        | @star c pre _ _ h =>
          have := Denotes.star (c := c) (pre := pre) ((rest_append _ _ _).mpr ⟨_, _, rfl, h, (hr _).mpr rfl⟩)
          simpa using this

theorem denotes_append_star (a : List Part) (cs : List Name) :
    Denotes (a ++ [.wildcard]) cs ↔ (a = [] ∧ cs ≠ []) ∨ ∃ c1 c2, cs = c1 ++ c2 ∧ Denotes a c1 := by
  cases a with
  | nil =>
    constructor
    · intro h; exact .inl ⟨rfl, denotes_ne _ _ h⟩
    · rintro (⟨-, h⟩ | ⟨_, _, _, h⟩)
      · obtain ⟨c, cs, rfl⟩ := List.exists_cons_of_ne_nil h
        have := Denotes.star (c := c) (pre := cs) Rest.nil
        simpa using this
      · cases h
  | cons x a =>
    constructor
    · intro h
      right
      cases h with
      | part h =>
        obtain ⟨c1, c2, rfl, h1, h2⟩ := (rest_append _ _ _).mp h
        exact ⟨_ :: c1, c2, rfl, .part h1⟩
      | @star c pre _ _ h =>
        obtain ⟨c1, c2, rfl, h1, h2⟩ := (rest_append _ _ _).mp h
        exact ⟨c :: pre ++ c1, c2, by simp, .star h1⟩
    · rintro (⟨h, -⟩ | ⟨c1, c2, rfl, h⟩)
      · simp at h
      · cases h with
        | part h => exact .part ((rest_append _ _ _).mpr ⟨_, _, rfl, h, rest_star _⟩)
        | @star c pre _ _ h =>
          have := Denotes.star (c := c) (pre := pre) ((rest_append _ _ _).mpr ⟨_, c2, rfl, h, rest_star _⟩)
          simpa using this

theorem checkWildcard_iff (rev : List Part) (name : Name) (parents : List Name) :
    checkWildcardParents rev name parents = true ↔
      rev = [] ∨ ∃ pre n ns, name :: parents = pre ++ n :: ns ∧ matchesRev rev n ns = true := by
  induction parents generalizing name with
  | nil =>
    rw [checkWildcardParents.eq_def]
    by_cases hm : matchesRev rev name [] = true
    · simp only [hm, if_true, true_iff]
      exact .inr ⟨[], name, [], rfl, hm⟩
    · rw [if_neg hm]
      simp only [List.isEmpty_iff]
      constructor
      · exact .inl
      · rintro (h | ⟨pre, n, ns, he, h⟩)
        · exact h
        · exfalso
          cases pre with
          | nil => simp at he; obtain ⟨rfl, rfl⟩ := he; exact hm h
          | cons a pre => simp at he
  | cons d ds ih =>
    rw [checkWildcardParents.eq_def]
    by_cases hm : matchesRev rev name (d :: ds) = true
    · simp only [hm, if_true, true_iff]
      exact .inr ⟨[], name, d :: ds, rfl, hm⟩
    · simp only [hm, if_false]
      rw [if_neg (by simp), ih]
      constructor
      · rintro (h | ⟨pre, n, ns, he, h⟩)
        · exact .inl h
        · exact .inr ⟨name :: pre, n, ns, by simp [he], h⟩
      · rintro (h | ⟨pre, n, ns, he, h⟩)
        · exact .inl h
        · cases pre with
          | nil =>
            simp at he
            obtain ⟨rfl, rfl⟩ := he
            exact absurd h hm
          | cons a pre =>
            simp at he
            exact .inr ⟨pre, n, ns, he.2, h⟩

theorem matchesRev_iff (rev : List Part) (name : Name) (parents : List Name) :
    matchesRev rev name parents = true ↔ Denotes rev.reverse (name :: parents).reverse := by
  induction rev generalizing name parents with
  | nil =>
    rw [matchesRev]
    constructor
    · simp
    · intro h; cases h
  | cons p rev ih =>
    cases p with
    | part p =>
      rw [matchesRev.eq_def, List.reverse_cons, denotes_append_part]
      simp only
      rw [Bool.and_eq_true, beq_iff_eq]
      cases parents with
      | nil =>
        simp only [List.isEmpty_iff]
        constructor
        · rintro ⟨rfl, rfl⟩
          exact ⟨[], rfl, .inl ⟨rfl, rfl⟩⟩
        · rintro ⟨c1, he, h⟩
          have : c1 = [] ∧ name = p := by
            cases c1 with
            | nil => simpa using he
            | cons a c1 => simp at he
          obtain ⟨rfl, rfl⟩ := this
          rcases h with ⟨h, -⟩ | h
          · exact ⟨rfl, by simpa using h⟩
          · exact absurd rfl (denotes_ne _ _ h)
      | cons d ds =>
        simp only
        rw [ih]
        constructor
        · rintro ⟨rfl, h⟩
          exact ⟨(d :: ds).reverse, by simp, .inr h⟩
        · rintro ⟨c1, he, h⟩
          have : c1 = (d :: ds).reverse ∧ name = p := by
            rw [List.reverse_cons] at he
            have := List.append_inj' he rfl
            exact ⟨this.1.symm, by simpa using this.2⟩
          obtain ⟨rfl, rfl⟩ := this
          rcases h with ⟨-, h⟩ | h
          · simp at h
          · exact ⟨rfl, h⟩
    | wildcard =>
      rw [matchesRev, checkWildcard_iff, List.reverse_cons, denotes_append_star]
      constructor
      · rintro (h | ⟨pre, n, ns, he, h⟩)
        · left; exact ⟨by simp [h], by simp⟩
        · right
          rw [ih] at h
          exact ⟨(n :: ns).reverse, pre.reverse, by rw [he]; simp, h⟩
      · rintro (⟨h, -⟩ | ⟨c1, c2, he, h⟩)
        · left; simpa using h
        · right
          have hne := denotes_ne _ _ h
          have hr : c1.reverse ≠ [] := by simpa using hne
          obtain ⟨n, ns, hc⟩ := List.exists_cons_of_ne_nil hr
          refine ⟨c2.reverse, n, ns, ?_, ?_⟩
          · rw [← hc, ← List.reverse_append, ← he, List.reverse_reverse]
          · rw [ih, ← hc, List.reverse_reverse]; exact h

/-! ## Sorting -/

theorem orderOverrides_snoc (os : List Override) (o : Override) :
    orderOverrides (os ++ [o]) = insertByKind o (orderOverrides os) := by
  simp [orderOverrides]

/-- The part of a list of sections that has rank `r`. -/
def ofRank (r : Nat) (os : List Override) : List Override := os.filter fun o => o.module.kind.rank = r

theorem insertByKind_split (o : Override) (a b : List Override)
    (ha : ∀ x ∈ a, x.module.kind.rank ≤ o.module.kind.rank) (hb : ∀ x ∈ b, o.module.kind.rank < x.module.kind.rank) :
    insertByKind o (a ++ b) = a ++ o :: b := by
  induction a with
  | nil =>
    cases b with
    | nil => rfl
    | cons x b =>
      simp only [List.nil_append, insertByKind]
      rw [if_pos (hb x (by simp))]
  | cons x a ih =>
    simp only [List.cons_append, insertByKind]
    rw [if_neg (by have := ha x (by simp); omega), ih (fun y hy => ha y (by simp [hy]))]

theorem rank_cases (o : Override) : o.module.kind.rank = 0 ∨ o.module.kind.rank = 1 ∨ o.module.kind.rank = 2 := by
  cases o.module.kind <;> simp [Kind.rank]

theorem mem_ofRank {r os} {x : Override} : x ∈ ofRank r os ↔ x ∈ os ∧ x.module.kind.rank = r := by
  simp [ofRank]

theorem orderOverrides_eq (os : List Override) :
    orderOverrides os = ofRank 0 os ++ (ofRank 1 os ++ ofRank 2 os) := by
  have snoc : ∀ (l : List Override), ∀ r, ∀ os : List Override, ∀ o : Override,
      ofRank r (os ++ [o]) = ofRank r os ++ (if o.module.kind.rank = r then [o] else []) := by
    intro _ r os o
    simp only [ofRank, List.filter_append]
    congr 1
    by_cases h : o.module.kind.rank = r <;> simp [h]
  have gen : ∀ n, ∀ os : List Override, os.length = n →
      orderOverrides os = ofRank 0 os ++ (ofRank 1 os ++ ofRank 2 os) := by
    intro n
    induction n with
    | zero => intro os h; rw [List.length_eq_zero_iff.mp h]; rfl
    | succ n ih =>
      intro os h
      rcases List.eq_nil_or_concat os with rfl | ⟨os, o, rfl⟩
      · simp at h
      · rw [List.concat_eq_append, orderOverrides_snoc, ih os (by simpa using h)]
        simp only [snoc []]
        rcases rank_cases o with h | h | h
        · rw [insertByKind_split o _ _ (by intro x hx; have := (mem_ofRank.mp hx).2; omega)
            (by intro x hx; rcases List.mem_append.mp hx with hx | hx <;> have := (mem_ofRank.mp hx).2 <;> omega)]
          simp [h]
        · rw [← List.append_assoc, insertByKind_split o _ _
            (by intro x hx; rcases List.mem_append.mp hx with hx | hx <;> have := (mem_ofRank.mp hx).2 <;> omega)
            (by intro x hx; have := (mem_ofRank.mp hx).2; omega)]
          simp [h]
        · have := insertByKind_split o (ofRank 0 os ++ (ofRank 1 os ++ ofRank 2 os)) []
            (by intro x hx; rcases rank_cases x with g | g | g <;> omega) (by simp)
          rw [List.append_nil] at this
          rw [this]
          simp [h]
  exact gen _ os rfl

/-- The place of a section in the sorted list. -/
theorem orderOverrides_split (pre post : List Override) (o : Override) :
    ∃ a b, orderOverrides (pre ++ o :: post) = a ++ o :: b ∧
      ∀ x ∈ b, (x ∈ pre ∧ o.module.kind.rank < x.module.kind.rank) ∨
        (x ∈ post ∧ o.module.kind.rank ≤ x.module.kind.rank) := by
  have hsplit : ∀ r, ofRank r (pre ++ o :: post) =
      ofRank r pre ++ ((if o.module.kind.rank = r then [o] else []) ++ ofRank r post) := by
    intro r
    simp only [ofRank, List.filter_append, List.filter_cons]
    by_cases h : o.module.kind.rank = r <;> simp [h]
  rw [orderOverrides_eq]
  simp only [hsplit]
  rcases rank_cases o with h | h | h
  · refine ⟨ofRank 0 pre, ofRank 0 post ++ ((ofRank 1 pre ++ ofRank 1 post) ++ (ofRank 2 pre ++ ofRank 2 post)), by simp [h], ?_⟩
    intro x hx
    simp only [List.mem_append, mem_ofRank] at hx
    rcases hx with hx | (hx | hx) | hx | hx
    · exact .inr ⟨hx.1, by omega⟩
    · exact .inl ⟨hx.1, by omega⟩
    · exact .inr ⟨hx.1, by omega⟩
    · exact .inl ⟨hx.1, by omega⟩
    · exact .inr ⟨hx.1, by omega⟩
  · refine ⟨(ofRank 0 pre ++ ofRank 0 post) ++ ofRank 1 pre, ofRank 1 post ++ (ofRank 2 pre ++ ofRank 2 post), by simp [h], ?_⟩
    intro x hx
    simp only [List.mem_append, mem_ofRank] at hx
    rcases hx with hx | hx | hx
    · exact .inr ⟨hx.1, by omega⟩
    · exact .inl ⟨hx.1, by omega⟩
    · exact .inr ⟨hx.1, by omega⟩
  · refine ⟨(ofRank 0 pre ++ ofRank 0 post) ++ (ofRank 1 pre ++ ofRank 1 post) ++ ofRank 2 pre, ofRank 2 post, by simp [h], ?_⟩
    intro x hx
    simp only [mem_ofRank] at hx
    exact .inr ⟨hx.1, by omega⟩

theorem mem_orderOverrides (os : List Override) (x : Override) : x ∈ orderOverrides os ↔ x ∈ os := by
  rw [orderOverrides_eq]
  simp only [List.mem_append, mem_ofRank]
  have := rank_cases x
  constructor
  · rintro (h | h | h) <;> exact h.1
  · intro h
    rcases this with g | g | g
    · exact .inl ⟨h, g⟩
    · exact .inr (.inl ⟨h, g⟩)
    · exact .inr (.inr ⟨h, g⟩)

end Verif.Config
