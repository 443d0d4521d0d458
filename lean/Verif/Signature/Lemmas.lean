import Verif.Signature.Spec

/-! Lemmas for `Verif.Signature.Props`. -/

set_option linter.unusedVariables false
set_option linter.unusedSimpArgs false

namespace Verif.Signature

open Spec

theorem positions_append (as bs : List Arg) : positions (as ++ bs) = positions as + positions bs := by
  induction as with
  | nil => simp [positions]
  | cons a as ih => simp only [List.cons_append, positions, ih]; omega

/-- The variables after the arguments. -/
theorem fold_facts (args : List Arg) (h : ∀ a ∈ args, Plain a) (s : St) :
    (args.foldl St.step s).expected = s.expected + positions args ∧
    (args.foldl St.step s).hadStar = s.hadStar ∧
    ((args.foldl St.step s).hadKw = true ↔ s.hadKw = true ∨ ∃ n, Arg.kw n ∈ args) ∧
    (∀ n, n ∈ (args.foldl St.step s).used ↔ n ∈ s.used ∨ Arg.kw n ∈ args) := by
  induction args generalizing s with
  | nil => simp [positions]
  | cons a as ih =>
    have ha := h a (by simp)
    obtain ⟨h1, h2, h3, h4⟩ := ih (fun b hb => h b (by simp [hb])) (s.step a)
    simp only [List.foldl_cons]
    rw [h1, h2, h3]
    cases a with
    | pos =>
      refine ⟨?_, rfl, ?_, ?_⟩
      · simp [St.step, positions, IsPos]; omega
      · simp [St.step]
      · intro n; rw [h4]; simp [St.step]
    | posName m =>
      refine ⟨?_, rfl, ?_, ?_⟩
      · simp [St.step, positions, IsPos]; omega
      · simp [St.step]
      · intro n; rw [h4]; simp [St.step]
    | kw m =>
      refine ⟨?_, rfl, ?_, ?_⟩
      · simp [St.step, positions, IsPos]
      · simp only [St.step, true_or, true_iff]
        exact Or.inr ⟨m, by simp⟩
      · intro n; rw [h4]
        simp only [St.step, List.mem_append, List.mem_cons, List.not_mem_nil, or_false, Arg.kw.injEq]
        constructor
        · rintro ((h | h) | h)
          · exact Or.inl h
          · exact Or.inr (Or.inl h)
          · exact Or.inr (Or.inr h)
        · rintro (h | h | h)
          · exact Or.inl (Or.inl h)
          · exact Or.inl (Or.inr h)
          · exact Or.inr h
    | star => exact absurd ha (by simp [Plain])
    | starStar => exact absurd ha (by simp [Plain])

/-- What the cursor is in. -/
def prefixOf : Arg → Option Str
  | .posName n => some n
  | _ => none

/-- The variables if the cursor is in an argument without a name. -/
theorem collect_pos (prev : List Arg) (h : ∀ a ∈ prev, Plain a) (a : Arg) (ha : IsPos a) :
    (collect (prev ++ [a])).expected = positions prev + 1 ∧
    (collect (prev ++ [a])).hadStar = false ∧
    ((collect (prev ++ [a])).hadKw = true ↔ ∃ n, Arg.kw n ∈ prev) ∧
    (∀ n, n ∈ (collect (prev ++ [a])).used ↔ Arg.kw n ∈ prev) ∧
    (collect (prev ++ [a])).forKw = none ∧
    (collect (prev ++ [a])).potential = prefixOf a := by
  obtain ⟨h1, h2, h3, h4⟩ := fold_facts prev h St.init
  have e2 : (List.foldl St.step St.init prev).hadStar = false := by rw [h2]; rfl
  cases a with
  | pos =>
    simp only [collect, List.foldl_append, List.foldl_cons, List.foldl_nil, St.step, e2, h1]
    refine ⟨by simp [St.init], trivial, ?_, ?_, trivial, rfl⟩
    · rw [h3]; simp [St.init]
    · intro n; rw [h4]; simp [St.init]
  | posName m =>
    simp only [collect, List.foldl_append, List.foldl_cons, List.foldl_nil, St.step, e2, h1]
    refine ⟨by simp [St.init], trivial, ?_, ?_, trivial, rfl⟩
    · rw [h3]; simp [St.init]
    · intro n; rw [h4]; simp [St.init]
  | kw m => exact absurd ha (by simp [IsPos])
  | star => exact absurd ha (by simp [IsPos])
  | starStar => exact absurd ha (by simp [IsPos])

theorem collect_kw (prev : List Arg) (n : Str) : (collect (prev ++ [.kw n])).forKw = some n := by
  simp [collect, List.foldl_append, St.step]

/-! ## The loop over the parameters -/

/-- The parameter counts as one of the expected positions. -/
def dec (s : St) (p : Param) : Bool :=
  match p.kind with
  | .posOnly => !s.hadKw
  | .posOrKw => !(s.hadKw && isUsed s p)
  | _ => false

/-- The loop returns at the parameter. -/
def hit (s : St) (e : Int) (p : Param) : Bool :=
  match p.kind with
  | .posOnly => dec s p && decide (e ≤ 1)
  | .posOrKw => dec s p && decide (e ≤ 1)
  | .kwOnly => kwOnlyHit s p
  | .star => !s.hadKw
  | .starStar => true

/-- How many parameters count. -/
def cnt (s : St) : List Param → Nat
  | [] => 0
  | p :: ps => (if dec s p then 1 else 0) + cnt s ps

/-- The flag after the parameter. -/
def flag (s : St) (v : Bool) (p : Param) : Bool :=
  if p.kind = .posOnly ∧ s.hadKw = true ∧ s.hadStar = false then false else v

theorem byPosition_cons (s : St) (e : Int) (k : Nat) (v : Bool) (p : Param) (ps : List Param) :
    byPosition s e k v (p :: ps) =
      if hit s e p then (some k, v)
      else byPosition s (e - (if dec s p then 1 else 0)) (k + 1) (flag s v p) ps := by
  have e1 : e - 1 ≤ 0 ↔ e ≤ 1 := by omega
  obtain ⟨kind, name, ty, d⟩ := p
  cases kind with
  | posOnly =>
    cases hk : s.hadKw with
    | false =>
      by_cases he : e ≤ 1
      · simp [byPosition, hit, dec, hk, e1, he]
      · simp [byPosition, hit, dec, flag, hk, e1, he]
    | true =>
      cases hs : s.hadStar <;> simp [byPosition, hit, dec, flag, hk, hs]
  | posOrKw =>
    cases hk : (s.hadKw && isUsed s ⟨.posOrKw, name, ty, d⟩) with
    | false =>
      by_cases he : e ≤ 1
      · simp [byPosition, hit, dec, hk, e1, he]
      · simp [byPosition, hit, dec, flag, hk, e1, he]
    | true => simp [byPosition, hit, dec, flag, hk]
  | star => cases hk : s.hadKw <;> simp [byPosition, hit, dec, flag, hk]
  | kwOnly =>
    cases hk : kwOnlyHit s ⟨.kwOnly, name, ty, d⟩ <;> simp [byPosition, hit, dec, flag, hk]
  | starStar => simp [byPosition, hit]

theorem byPosition_some {s : St} {e : Int} {k : Nat} {v : Bool} {ps : List Param} {i : Nat} {b : Bool}
    (h : byPosition s e k v ps = (some i, b)) :
    ∃ j p, i = k + j ∧ ps[j]? = some p ∧ hit s (e - cnt s (ps.take j)) p = true ∧
      ∀ (j' : Nat) (p' : Param), j' < j → ps[j']? = some p' → hit s (e - cnt s (ps.take j')) p' = false := by
  induction ps generalizing e k v with
  | nil => simp [byPosition] at h
  | cons p ps ih =>
    rw [byPosition_cons] at h
    cases hh : hit s e p with
    | true =>
      rw [hh] at h
      simp only [if_true, Prod.mk.injEq, Option.some.injEq] at h
      exact ⟨0, p, by omega, by simp, by simpa [cnt] using hh, by intro j' p' hj; omega⟩
    | false =>
      rw [hh] at h
      simp only [Bool.false_eq_true, if_false] at h
      obtain ⟨j, q, h1, h2, h3, h4⟩ := ih h
      refine ⟨j + 1, q, by omega, by simpa using h2, ?_, ?_⟩
      · have : e - cnt s ((p :: ps).take (j + 1)) = e - (if dec s p then 1 else 0) - cnt s (ps.take j) := by
          simp only [List.take_succ_cons, cnt]; split <;> simp <;> omega
        rw [this]; exact h3
      · intro j' p' hj hp
        cases j' with
        | zero =>
          simp only [List.getElem?_cons_zero, Option.some.injEq] at hp
          subst hp; simpa [cnt] using hh
        | succ j' =>
          have : e - cnt s ((p :: ps).take (j' + 1)) = e - (if dec s p then 1 else 0) - cnt s (ps.take j') := by
            simp only [List.take_succ_cons, cnt]; split <;> simp <;> omega
          rw [this]
          exact h4 j' p' (by omega) (by simpa using hp)

theorem byPosition_none {s : St} {e : Int} {k : Nat} {v b : Bool} {ps : List Param}
    (h : byPosition s e k v ps = (none, b)) :
    b = false ∧ ∀ (j : Nat) (p : Param), ps[j]? = some p → hit s (e - cnt s (ps.take j)) p = false := by
  induction ps generalizing e k v with
  | nil => simp [byPosition] at h; exact ⟨h, by simp⟩
  | cons p ps ih =>
    rw [byPosition_cons] at h
    cases hh : hit s e p with
    | true => rw [hh] at h; simp at h
    | false =>
      rw [hh] at h
      simp only [Bool.false_eq_true, if_false] at h
      obtain ⟨h1, h2⟩ := ih h
      refine ⟨h1, ?_⟩
      intro j q hq
      cases j with
      | zero =>
        simp only [List.getElem?_cons_zero, Option.some.injEq] at hq
        subst hq; simpa [cnt] using hh
      | succ j =>
        have : e - cnt s ((p :: ps).take (j + 1)) = e - (if dec s p then 1 else 0) - cnt s (ps.take j) := by
          simp only [List.take_succ_cons, cnt]; split <;> simp <;> omega
        rw [this]
        exact h2 j q (by simpa using hq)

/-- The first parameter at which the loop returns is the result. -/
theorem byPosition_of_hit {s : St} {e : Int} {k : Nat} {v : Bool} {ps : List Param} {j : Nat} {p : Param}
    (hp : ps[j]? = some p) (hh : hit s (e - cnt s (ps.take j)) p = true)
    (hn : ∀ (j' : Nat) (p' : Param), j' < j → ps[j']? = some p' → hit s (e - cnt s (ps.take j')) p' = false) :
    ∃ b, byPosition s e k v ps = (some (k + j), b) := by
  cases hr : byPosition s e k v ps with
  | mk r b =>
    cases r with
    | none => exact absurd ((byPosition_none hr).2 j p hp) (by simp [hh])
    | some i =>
      obtain ⟨j', p', h1, h2, h3, h4⟩ := byPosition_some hr
      have hj : j' = j := by
        rcases Nat.lt_trichotomy j j' with h | h | h
        · exact absurd (h4 j p h hp) (by simp [hh])
        · exact h.symm
        · exact absurd (hn j' p' h h2) (by simp [h3])
      subst hj
      exact ⟨b, by rw [h1]⟩

theorem byPosition_flag {s : St} {e : Int} {k : Nat} {ps : List Param} {i : Nat} {b : Bool}
    (hc : s.hadKw = false ∨ (∀ p ∈ ps, p.kind ≠ .posOnly) ∨ s.hadStar = true)
    (h : byPosition s e k true ps = (some i, b)) : b = true := by
  induction ps generalizing e k with
  | nil => simp [byPosition] at h
  | cons p ps ih =>
    rw [byPosition_cons] at h
    have hf : flag s true p = true := by
      unfold flag
      rw [if_neg]
      rintro ⟨h1, h2, h3⟩
      rcases hc with hc | hc | hc
      · rw [hc] at h2; simp at h2
      · exact hc p (by simp) h1
      · rw [hc] at h3; simp at h3
    split at h
    · simp at h; exact h.2
    · rw [hf] at h
      refine ih ?_ h
      rcases hc with hc | hc | hc
      · exact Or.inl hc
      · exact Or.inr (Or.inl fun q hq => hc q (by simp [hq]))
      · exact Or.inr (Or.inr hc)

theorem cnt_le (s : St) (ps : List Param) : cnt s ps ≤ ps.length := by
  induction ps with
  | nil => simp [cnt]
  | cons p ps ih => simp only [cnt, List.length_cons]; split <;> omega

theorem cnt_take_le (s : St) (ps : List Param) (j : Nat) : cnt s (ps.take j) ≤ j := by
  have := cnt_le s (ps.take j)
  have : (ps.take j).length ≤ j := by simp; omega
  omega

theorem cnt_all {s : St} {ps : List Param} (h : ∀ p ∈ ps, dec s p = true) : cnt s ps = ps.length := by
  induction ps with
  | nil => rfl
  | cons p ps ih =>
    simp only [cnt, List.length_cons, h p (by simp), if_true, ih (fun q hq => h q (by simp [hq]))]; omega

theorem cnt_mono (s : St) (ps : List Param) {n i : Nat} (h : n ≤ i) : cnt s (ps.take n) ≤ cnt s (ps.take i) := by
  induction ps generalizing n i with
  | nil => simp
  | cons p ps ih =>
    cases n with
    | zero => simp [cnt]
    | succ n =>
      cases i with
      | zero => omega
      | succ i =>
        simp only [List.take_succ_cons, cnt]
        have := ih (n := n) (i := i) (by omega)
        omega

theorem cnt_take_all {s : St} {ps : List Param} {n : Nat} (hn : n ≤ ps.length)
    (h : ∀ (j : Nat) (p : Param), j < n → ps[j]? = some p → dec s p = true) : cnt s (ps.take n) = n := by
  rw [cnt_all]
  · simp; omega
  · intro p hp
    obtain ⟨j, hj⟩ := List.mem_iff_getElem?.mp hp
    rw [List.getElem?_take] at hj
    split at hj
    · rename_i hl; exact h j p hl hj
    · simp at hj

/-! ## Positions -/

theorem positions_take_lt {args : List Arg} {j : Nat} {a : Arg} (h : args[j]? = some a) (ha : IsPos a) :
    positions (args.take j) < positions args := by
  induction args generalizing j with
  | nil => simp at h
  | cons b bs ih =>
    cases j with
    | zero =>
      simp only [List.getElem?_cons_zero, Option.some.injEq] at h
      subst h
      simp only [List.take_zero, positions, if_pos ha]; omega
    | succ j =>
      have := ih (j := j) (by simpa using h)
      simp only [List.take_succ_cons, positions]; omega

theorem exists_position {args : List Arg} {i : Nat} (h : i < positions args) :
    ∃ j a, args[j]? = some a ∧ IsPos a ∧ positions (args.take j) = i := by
  induction args generalizing i with
  | nil => simp [positions] at h
  | cons b bs ih =>
    by_cases hb : IsPos b
    · cases i with
      | zero => exact ⟨0, b, by simp, hb, by simp [positions]⟩
      | succ i =>
        obtain ⟨j, a, h1, h2, h3⟩ := ih (i := i) (by simp only [positions, if_pos hb] at h; omega)
        exact ⟨j + 1, a, by simpa using h1, h2, by simp only [List.take_succ_cons, positions, if_pos hb]; omega⟩
    · obtain ⟨j, a, h1, h2, h3⟩ := ih (i := i) (by simp only [positions, if_neg hb] at h; omega)
      exact ⟨j + 1, a, by simpa using h1, h2, by simp only [List.take_succ_cons, positions, if_neg hb]; omega⟩

/-! ## The order of parameters -/

theorem order_at {ps : List Param} (h : WellFormed ps) {i j : Nat} {p q : Param} (hij : i < j) (hp : ps[i]? = some p)
    (hq : ps[j]? = some q) : Before p.kind q.kind := by
  obtain ⟨hi, rfl⟩ := List.getElem?_eq_some_iff.mp hp
  obtain ⟨hj, rfl⟩ := List.getElem?_eq_some_iff.mp hq
  exact (List.pairwise_iff_getElem.mp h.order) i j hi hj hij

theorem distinct_at {ps : List Param} (h : WellFormed ps) {i j : Nat} {p q : Param} (hp : ps[i]? = some p)
    (hq : ps[j]? = some q) (np : Named p) (nq : Named q) (he : p.name = q.name) : i = j := by
  obtain ⟨hi, rfl⟩ := List.getElem?_eq_some_iff.mp hp
  obtain ⟨hj, rfl⟩ := List.getElem?_eq_some_iff.mp hq
  rcases Nat.lt_trichotomy i j with hl | hl | hl
  · exact absurd he ((List.pairwise_iff_getElem.mp h.distinct) i j hi hj hl np nq)
  · exact hl
  · exact absurd he.symm ((List.pairwise_iff_getElem.mp h.distinct) j i hj hi hl nq np)

/-- What comes before a parameter for a position is one too. -/
theorem positional_before {ps : List Param} (h : WellFormed ps) {i j : Nat} {p q : Param} (hij : i < j)
    (hp : ps[i]? = some p) (hq : ps[j]? = some q) (pq : Positional q) : Positional p := by
  have := order_at h hij hp hq
  rcases pq with pq | pq <;> rw [pq] at this <;>
    (unfold Positional; cases hk : p.kind <;> simp [hk, Before] at this ⊢)

theorem star_unique {ps : List Param} (h : WellFormed ps) {i j : Nat} {p q : Param} (hp : ps[i]? = some p)
    (hq : ps[j]? = some q) (sp : p.kind = .star) (sq : q.kind = .star) : i = j := by
  rcases Nat.lt_trichotomy i j with hl | hl | hl
  · have := order_at h hl hp hq; rw [sp, sq] at this; exact absurd this (by simp [Before])
  · exact hl
  · have := order_at h hl hq hp; rw [sp, sq] at this; exact absurd this (by simp [Before])

theorem starStar_last {ps : List Param} (h : WellFormed ps) {i j : Nat} {p q : Param} (hp : ps[i]? = some p)
    (hq : ps[j]? = some q) (sp : p.kind = .starStar) : j ≤ i := by
  rcases Nat.lt_or_ge i j with hl | hl
  · have := order_at h hl hp hq; rw [sp] at this; exact absurd this (by simp [Before])
  · exact hl

/-! ## Keywords -/

theorem byKeyword_some {n : Str} {k : Nat} {ps : List Param} {i : Nat} (h : byKeyword n k ps = some i) :
    ∃ j p, i = k + j ∧ ps[j]? = some p ∧ (Named p ∧ p.name = some n ∨
      p.kind = .starStar ∧ ∀ (j' : Nat) (p' : Param), j' < j → ps[j']? = some p' → Named p' → p'.name ≠ some n) := by
  induction ps generalizing k with
  | nil => simp [byKeyword] at h
  | cons p ps ih =>
    have skip : byKeyword n (k + 1) ps = some i → (Named p → p.name ≠ some n) →
        ∃ j p', i = k + j ∧ (p :: ps)[j]? = some p' ∧ (Named p' ∧ p'.name = some n ∨ p'.kind = .starStar ∧
          ∀ (j' : Nat) (q : Param), j' < j → (p :: ps)[j']? = some q → Named q → q.name ≠ some n) := by
      intro h hn
      obtain ⟨j, q, h1, h2, h3⟩ := ih h
      refine ⟨j + 1, q, by omega, by simpa using h2, ?_⟩
      rcases h3 with h3 | ⟨h3, h4⟩
      · exact Or.inl h3
      · refine Or.inr ⟨h3, ?_⟩
        intro j' q' hj hq
        cases j' with
        | zero =>
          simp only [List.getElem?_cons_zero, Option.some.injEq] at hq
          subst hq; exact hn
        | succ j' => exact h4 j' q' (by omega) (by simpa using hq)
    cases hk : p.kind with
    | posOnly => simp only [byKeyword, hk] at h; exact skip h (by simp [Named, hk])
    | star => simp only [byKeyword, hk] at h; exact skip h (by simp [Named, hk])
    | posOrKw =>
      simp only [byKeyword, hk] at h
      split at h
      · rename_i hn
        exact ⟨0, p, by simpa using h.symm, by simp, Or.inl ⟨Or.inl hk, hn⟩⟩
      · rename_i hn
        exact skip h (fun _ => hn)
    | kwOnly =>
      simp only [byKeyword, hk] at h
      split at h
      · rename_i hn
        exact ⟨0, p, by simpa using h.symm, by simp, Or.inl ⟨Or.inr hk, hn⟩⟩
      · rename_i hn
        exact skip h (fun _ => hn)
    | starStar =>
      simp only [byKeyword, hk] at h
      exact ⟨0, p, by simpa using h.symm, by simp, Or.inr ⟨hk, by intro j' p' hj; omega⟩⟩

theorem byKeyword_none {n : Str} {k : Nat} {ps : List Param} (h : byKeyword n k ps = none) :
    ∀ p ∈ ps, p.kind ≠ .starStar ∧ (Named p → p.name ≠ some n) := by
  induction ps generalizing k with
  | nil => simp
  | cons p ps ih =>
    have skip : byKeyword n (k + 1) ps = none → p.kind ≠ .starStar → (Named p → p.name ≠ some n) →
        ∀ q ∈ p :: ps, q.kind ≠ .starStar ∧ (Named q → q.name ≠ some n) := by
      intro h h1 h2 q hq
      rcases List.mem_cons.mp hq with rfl | hq
      · exact ⟨h1, h2⟩
      · exact ih h q hq
    cases hk : p.kind with
    | posOnly => simp only [byKeyword, hk] at h; exact skip h (by simp [hk]) (by simp [Named, hk])
    | star => simp only [byKeyword, hk] at h; exact skip h (by simp [hk]) (by simp [Named, hk])
    | posOrKw =>
      simp only [byKeyword, hk] at h
      split at h
      · simp at h
      · rename_i hn; exact skip h (by simp [hk]) (fun _ => hn)
    | kwOnly =>
      simp only [byKeyword, hk] at h
      split at h
      · simp at h
      · rename_i hn; exact skip h (by simp [hk]) (fun _ => hn)
    | starStar => simp only [byKeyword, hk] at h; simp at h

/-- A keyword goes to one parameter. -/
theorem kwSlot_unique {ps : List Param} (h : WellFormed ps) {n : Str} {i j : Nat} (hi : KwSlot ps n i)
    (hj : KwSlot ps n j) : i = j := by
  rcases hi with ⟨p, p1, p2, p3⟩ | ⟨p1, p, p2, p3⟩ <;> rcases hj with ⟨q, q1, q2, q3⟩ | ⟨q1, q, q2, q3⟩
  · exact distinct_at h p1 q1 p2 q2 (by rw [p3, q3])
  · exact absurd p3 (q1 p (List.mem_of_getElem? p1) p2)
  · exact absurd q3 (p1 q (List.mem_of_getElem? q1) q2)
  · exact Nat.le_antisymm (starStar_last h q2 p2 q3) (starStar_last h p2 q2 p3)

/-- There is always a name that no parameter has. -/
theorem fresh (ps : List Param) : ∃ n : Str, ∀ p ∈ ps, p.name ≠ some n := by
  have gen : ∃ m : Nat, ∀ p ∈ ps, ∀ x, p.name = some x → x.length < m := by
    induction ps with
    | nil => exact ⟨0, by simp⟩
    | cons p ps ih =>
      obtain ⟨m, hm⟩ := ih
      cases hp : p.name with
      | none =>
        refine ⟨m, ?_⟩
        intro q hq x hx
        rcases List.mem_cons.mp hq with rfl | hq
        · rw [hp] at hx; simp at hx
        · exact hm q hq x hx
      | some y =>
        refine ⟨m + y.length + 1, ?_⟩
        intro q hq x hx
        rcases List.mem_cons.mp hq with rfl | hq
        · rw [hp] at hx; simp at hx; subst hx; omega
        · have := hm q hq x hx; omega
  obtain ⟨m, hm⟩ := gen
  refine ⟨List.replicate m 'a', ?_⟩
  intro p hp he
  have := hm p hp _ he
  simp at this

/-- Without keywords the loop returns at the expected position. -/
theorem hit_at {ps : List Param} (hw : WellFormed ps) {s : St} (hk : s.hadKw = false) {n : Nat} {p : Param}
    (hp : ps[n]? = some p) (pp : Positional p) :
    hit s ((n : Int) + 1 - cnt s (ps.take n)) p = true ∧
    ∀ (j : Nat) (q : Param), j < n → ps[j]? = some q → dec s q = true ∧ cnt s (ps.take j) = j := by
  have hd : ∀ q : Param, Positional q → dec s q = true := by
    intro q hq
    rcases hq with hq | hq <;> simp [dec, hq, hk]
  have hlen : n < ps.length := (List.getElem?_eq_some_iff.mp hp).1
  have hall : ∀ j, j ≤ n → cnt s (ps.take j) = j := by
    intro j hj
    refine cnt_take_all (by omega) ?_
    intro j' q hj' hq
    exact hd q (positional_before hw (by omega) hq hp pp)
  refine ⟨?_, ?_⟩
  · rw [hall n (by omega)]
    have he : (n : Int) + 1 - n ≤ 1 := by omega
    rcases pp with pp' | pp' <;> simp only [hit, pp', hd p (by unfold Positional; simp [pp'])] <;> simp [he]
  · intro j q hj hq
    exact ⟨hd q (positional_before hw hj hq hp pp), hall j (by omega)⟩

/-! ## Bytes -/

theorem bytes_append (a b : Str) : bytes (a ++ b) = bytes a + bytes b := by
  induction a with
  | nil => simp [bytes]
  | cons c a ih => simp only [List.cons_append, bytes, ih]; omega

theorem utf8Size_succ (c : Char) : ∃ n, c.utf8Size = n + 1 := ⟨c.utf8Size - 1, by have := c.utf8Size_pos; omega⟩

theorem upTo_append (a b : Str) : upTo (bytes a) (a ++ b) = some a := by
  induction a with
  | nil => simp [bytes, upTo]
  | cons c a ih =>
    obtain ⟨n, hn⟩ := utf8Size_succ c
    have e : bytes (c :: a) = (n + bytes a) + 1 := by simp only [bytes, hn]; omega
    rw [e, List.cons_append, upTo, if_pos (by omega)]
    have : n + bytes a + 1 - c.utf8Size = bytes a := by omega
    rw [this, ih]; rfl

theorem since_append (a b : Str) : since (bytes a) (a ++ b) = some b := by
  induction a with
  | nil => simp [bytes, since]
  | cons c a ih =>
    obtain ⟨n, hn⟩ := utf8Size_succ c
    have e : bytes (c :: a) = (n + bytes a) + 1 := by simp only [bytes, hn]; omega
    rw [e, List.cons_append, since, if_pos (by omega)]
    have : n + bytes a + 1 - c.utf8Size = bytes a := by omega
    rw [this, ih]

end Verif.Signature
