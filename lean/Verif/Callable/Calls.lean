import Verif.Callable.Model
import Verif.Callable.Spec
import Mathlib.Tactic.Common

/-! # Calls of a signature, one parameter at a time -/

namespace Verif.Callable

open Verif.Call Verif.Call.Spec Verif.Callable.Spec

variable {α τ : Type}

/-- `Accepts` without positional arguments. -/
structure Acc0 (ps : List (Param τ)) (K : List (String × α)) : Prop where
  nodup : (K.map Prod.fst).Nodup
  known : ∀ n ∈ K.map Prod.fst, (∃ p ∈ ps, named p n) ∨ ∃ p ∈ ps, p.kind = .starStar
  filled : ∀ p ∈ ps, p.kind ≠ .star → p.kind ≠ .starStar → p.hasDefault = false → ∃ n v, named p n ∧ (n, v) ∈ K

def Arr0 (ps : List (Param τ)) (K : List (String × α)) (q : Param τ) (v : α) : Prop :=
  q ∈ ps ∧ ((∃ n, named q n ∧ (n, v) ∈ K) ∨
    (q.kind = .starStar ∧ ∃ n, (∀ p ∈ ps, ¬ named p n) ∧ (n, v) ∈ K))

theorem reaches_nil {ps : List (Param τ)} {K : List (String × α)} {q : Param τ} {v : α} :
    Reaches ps [] K q v ↔ Arr0 ps K q v := by
  constructor
  · rintro ⟨j, hj, hg⟩
    refine ⟨List.mem_of_getElem? hj, ?_⟩
    cases hg with
    | position _ _ h => simp at h
    | rest _ _ _ h => simp at h
    | name h hn hm => rw [hj] at h; cases h; exact .inl ⟨_, hn, hm⟩
    | other h hk hno hm => rw [hj] at h; cases h; exact .inr ⟨hk, _, hno, hm⟩
  · rintro ⟨hq, h⟩
    obtain ⟨j, hj⟩ := List.getElem?_of_mem hq
    refine ⟨j, hj, ?_⟩
    rcases h with ⟨n, hn, hm⟩ | ⟨hk, n, hno, hm⟩
    · exact .name hj hn hm
    · exact .other hj hk hno hm

theorem accepts_nil {ps : List (Param τ)} {K : List (String × α)} : Accepts ps [] K ↔ Acc0 ps K := by
  constructor
  · intro h
    refine ⟨?_, h.known, ?_⟩
    · by_contra hn
      exact h.once (.inl hn)
    · intro p hp h1 h2 hd
      obtain ⟨j, hj⟩ := List.getElem?_of_mem hp
      obtain ⟨v, hg⟩ := h.filled j p hj h1 h2 hd
      cases hg with
      | position _ _ h => simp at h
      | rest _ _ _ h => simp at h
      | name h hn hm => rw [hj] at h; cases h; exact ⟨_, _, hn, hm⟩
      | other h hk hno hm => rw [hj] at h; cases h; exact absurd hk h2
  · intro h
    refine ⟨⟨.inr (by simp), h.known, ?_⟩, ?_⟩
    · intro j p hj h1 h2 hd
      obtain ⟨n, v, hn, hm⟩ := h.filled p (List.mem_of_getElem? hj) h1 h2 hd
      exact ⟨v, .name hj hn hm⟩
    · rintro (hn | ⟨j, p, n, _, _, _, hl, _⟩)
      · exact hn h.nodup
      · simp at hl

theorem not_named_star {p : Param τ} {n : String} (h : p.kind = .star) : ¬ named p n := by
  rintro ⟨h' | h', _⟩ <;> simp [h] at h'

theorem not_named_double {p : Param τ} {n : String} (h : p.kind = .starStar) : ¬ named p n := by
  rintro ⟨h' | h', _⟩ <;> simp [h] at h'

theorem not_named_posOnly {p : Param τ} {n : String} (h : p.kind = .posOnly) : ¬ named p n := by
  rintro ⟨h' | h', _⟩ <;> simp [h] at h'

theorem named_name {p : Param τ} {n : String} (h : named p n) : p.name = some n := h.2

theorem named_inj {p : Param τ} {n m : String} (h : named p n) (h' : named p m) : n = m := by
  have := h.2.symm.trans h'.2
  simpa using this

/-! ## A positional parameter in front -/

theorem positional_cases {p : Param τ} (h : positional p) : p.kind ≠ .star ∧ p.kind ≠ .starStar := by
  rcases h with h | h <;> simp [h]

theorem gets_cons {p : Param τ} {ps : List (Param τ)} {v w : α} {P : List α} {K : List (String × α)} {j : Nat}
    (hp : positional p) (hno : ∀ n, named p n → n ∉ K.map Prod.fst) :
    Gets (p :: ps) (v :: P) K (j + 1) w ↔ Gets ps P K j w := by
  constructor
  · intro h
    cases h with
    | position h1 h2 h3 => exact .position (by simpa using h1) h2 (by simpa using h3)
    | @rest _ _ i h1 h2 h3 h4 =>
      obtain ⟨i, rfl⟩ : ∃ k, i = k + 1 := ⟨i - 1, by omega⟩
      exact .rest (i := i) (by simpa using h1) h2 (by omega) (by simpa using h4)
    | name h1 h2 h3 => exact .name (by simpa using h1) h2 h3
    | other h1 h2 h3 h4 => exact .other (by simpa using h1) h2 (fun q hq => h3 q (List.mem_cons_of_mem _ hq)) h4
  · intro h
    cases h with
    | position h1 h2 h3 => exact .position (by simpa using h1) h2 (by simpa using h3)
    | @rest _ _ i h1 h2 h3 h4 => exact .rest (i := i + 1) (by simpa using h1) h2 (by omega) (by simpa using h4)
    | name h1 h2 h3 => exact .name (by simpa using h1) h2 h3
    | other h1 h2 h3 h4 =>
      refine .other (by simpa using h1) h2 ?_ h4
      intro q hq
      rcases List.mem_cons.mp hq with rfl | hq
      · intro hn; exact hno _ hn (List.mem_map_of_mem h4)
      · exact h3 q hq

theorem accepts_cons {p : Param τ} {ps : List (Param τ)} {v : α} {P : List α} {K : List (String × α)}
    (hp : positional p) :
    Accepts (p :: ps) (v :: P) K ↔ Accepts ps P K ∧ ∀ n, named p n → n ∉ K.map Prod.fst := by
  constructor
  · intro h
    have hno : ∀ n, named p n → n ∉ K.map Prod.fst := by
      intro n hn hm
      exact h.once (.inr ⟨0, p, n, rfl, hn, hp, by simp, hm⟩)
    refine ⟨⟨⟨?_, ?_, ?_⟩, ?_⟩, hno⟩
    · rcases h.room with ⟨q, hq, hk⟩ | hr
      · rcases List.mem_cons.mp hq with rfl | hq
        · exact absurd hk (positional_cases hp).1
        · exact .inl ⟨q, hq, hk⟩
      · right
        intro j hj
        have := hr (j + 1) (by simpa using hj)
        simpa using this
    · intro n hn
      rcases h.known n hn with ⟨q, hq, hk⟩ | ⟨q, hq, hk⟩
      · rcases List.mem_cons.mp hq with rfl | hq
        · exact absurd hn (hno n hk)
        · exact .inl ⟨q, hq, hk⟩
      · rcases List.mem_cons.mp hq with rfl | hq
        · exact absurd hk (positional_cases hp).2
        · exact .inr ⟨q, hq, hk⟩
    · intro j q hj h1 h2 hd
      obtain ⟨w, hg⟩ := h.filled (j + 1) q (by simpa using hj) h1 h2 hd
      exact ⟨w, (gets_cons hp hno).mp hg⟩
    · rintro (hn | ⟨j, q, n, hj, hn, hq, hl, hm⟩)
      · exact h.once (.inl hn)
      · exact h.once (.inr ⟨j + 1, q, n, by simpa using hj, hn, hq, by simpa using hl, hm⟩)
  · rintro ⟨h, hno⟩
    refine ⟨⟨?_, ?_, ?_⟩, ?_⟩
    · rcases h.room with ⟨q, hq, hk⟩ | hr
      · exact .inl ⟨q, List.mem_cons_of_mem _ hq, hk⟩
      · right
        intro j hj
        match j with
        | 0 => exact ⟨p, rfl, hp⟩
        | j + 1 => simpa using hr j (by simpa using hj)
    · intro n hn
      rcases h.known n hn with ⟨q, hq, hk⟩ | ⟨q, hq, hk⟩
      · exact .inl ⟨q, List.mem_cons_of_mem _ hq, hk⟩
      · exact .inr ⟨q, List.mem_cons_of_mem _ hq, hk⟩
    · intro j q hj h1 h2 hd
      match j with
      | 0 =>
        simp at hj; subst hj
        exact ⟨v, .position rfl hp rfl⟩
      | j + 1 =>
        obtain ⟨w, hg⟩ := h.filled j q (by simpa using hj) h1 h2 hd
        exact ⟨w, (gets_cons hp hno).mpr hg⟩
    · rintro (hn | ⟨j, q, n, hj, hn, hq, hl, hm⟩)
      · exact h.once (.inl hn)
      · match j with
        | 0 => simp at hj; subst hj; exact hno n hn hm
        | j + 1 => exact h.once (.inr ⟨j, q, n, by simpa using hj, hn, hq, by simpa using hl, hm⟩)

theorem reaches_cons {p q : Param τ} {ps : List (Param τ)} {v w : α} {P : List α} {K : List (String × α)}
    (hp : positional p) (hno : ∀ n, named p n → n ∉ K.map Prod.fst) :
    Reaches (p :: ps) (v :: P) K q w ↔ (q = p ∧ w = v) ∨ Reaches ps P K q w := by
  constructor
  · rintro ⟨j, hj, hg⟩
    match j with
    | 0 =>
      simp at hj; subst hj
      left
      cases hg with
      | position h1 h2 h3 => simp at h3; exact ⟨rfl, h3.symm⟩
      | rest h1 h2 => simp at h1; subst h1; exact absurd h2 (positional_cases hp).1
      | name h1 h2 h3 => simp at h1; subst h1; exact absurd (List.mem_map_of_mem h3) (hno _ h2)
      | other h1 h2 => simp at h1; subst h1; exact absurd h2 (positional_cases hp).2
    | j + 1 => exact .inr ⟨j, by simpa using hj, (gets_cons hp hno).mp hg⟩
  · rintro (⟨rfl, rfl⟩ | ⟨j, hj, hg⟩)
    · exact ⟨0, rfl, .position rfl hp rfl⟩
    · exact ⟨j + 1, by simpa using hj, (gets_cons hp hno).mpr hg⟩

/-! ## `*args` in front -/

/-- Only named parameters and `**kwargs`. -/
def Behind (ps : List (Param τ)) : Prop := ∀ p ∈ ps, p.kind = .kwOnly ∨ p.kind = .starStar

theorem behind_not {ps : List (Param τ)} (h : Behind ps) {p : Param τ} (hp : p ∈ ps) :
    ¬ positional p ∧ p.kind ≠ .star := by
  rcases h p hp with h | h <;> simp [positional, h]

theorem gets_star {s : Param τ} {ps : List (Param τ)} {w : α} {P : List α} {K : List (String × α)} {j : Nat}
    (hs : s.kind = .star) (hb : Behind ps) : Gets (s :: ps) P K (j + 1) w ↔ Gets ps [] K j w := by
  constructor
  · intro h
    cases h with
    | position h1 h2 h3 =>
      exact absurd h2 (behind_not hb (List.mem_of_getElem? (by simpa using h1))).1
    | rest h1 h2 h3 h4 => exact absurd h2 (behind_not hb (List.mem_of_getElem? (by simpa using h1))).2
    | name h1 h2 h3 => exact .name (by simpa using h1) h2 h3
    | other h1 h2 h3 h4 => exact .other (by simpa using h1) h2 (fun q hq => h3 q (List.mem_cons_of_mem _ hq)) h4
  · intro h
    cases h with
    | position h1 h2 h3 => simp at h3
    | rest h1 h2 h3 h4 => simp at h4
    | name h1 h2 h3 => exact .name (by simpa using h1) h2 h3
    | other h1 h2 h3 h4 =>
      refine .other (by simpa using h1) h2 ?_ h4
      intro q hq
      rcases List.mem_cons.mp hq with rfl | hq
      · exact not_named_star hs
      · exact h3 q hq

theorem accepts_star {s : Param τ} {ps : List (Param τ)} {P : List α} {K : List (String × α)}
    (hs : s.kind = .star) (hb : Behind ps) : Accepts (s :: ps) P K ↔ Acc0 ps K := by
  rw [← accepts_nil]
  constructor
  · intro h
    refine ⟨⟨.inr (by simp), ?_, ?_⟩, ?_⟩
    · intro n hn
      rcases h.known n hn with ⟨q, hq, hk⟩ | ⟨q, hq, hk⟩
      · rcases List.mem_cons.mp hq with rfl | hq
        · exact absurd hk (not_named_star hs)
        · exact .inl ⟨q, hq, hk⟩
      · rcases List.mem_cons.mp hq with rfl | hq
        · simp [hs] at hk
        · exact .inr ⟨q, hq, hk⟩
    · intro j q hj h1 h2 hd
      obtain ⟨w, hg⟩ := h.filled (j + 1) q (by simpa using hj) h1 h2 hd
      exact ⟨w, (gets_star hs hb).mp hg⟩
    · rintro (hn | ⟨j, q, n, hj, hn, hq, hl, hm⟩)
      · exact h.once (.inl hn)
      · simp at hl
  · intro h
    refine ⟨⟨.inl ⟨s, by simp, hs⟩, ?_, ?_⟩, ?_⟩
    · intro n hn
      rcases h.known n hn with ⟨q, hq, hk⟩ | ⟨q, hq, hk⟩
      · exact .inl ⟨q, List.mem_cons_of_mem _ hq, hk⟩
      · exact .inr ⟨q, List.mem_cons_of_mem _ hq, hk⟩
    · intro j q hj h1 h2 hd
      match j with
      | 0 => simp at hj; subst hj; exact absurd hs h1
      | j + 1 =>
        obtain ⟨w, hg⟩ := h.filled j q (by simpa using hj) h1 h2 hd
        exact ⟨w, (gets_star hs hb).mpr hg⟩
    · rintro (hn | ⟨j, q, n, hj, hn, hq, hl, hm⟩)
      · exact h.once (.inl hn)
      · match j with
        | 0 => simp at hj; subst hj; exact not_named_star hs hn
        | j + 1 => exact (behind_not hb (List.mem_of_getElem? (by simpa using hj))).1 hq

theorem reaches_star {s q : Param τ} {ps : List (Param τ)} {w : α} {P : List α} {K : List (String × α)}
    (hs : s.kind = .star) (hb : Behind ps) :
    Reaches (s :: ps) P K q w ↔ (q = s ∧ w ∈ P) ∨ Arr0 ps K q w := by
  rw [← reaches_nil]
  constructor
  · rintro ⟨j, hj, hg⟩
    match j with
    | 0 =>
      simp at hj; subst hj
      left
      cases hg with
      | position h1 h2 h3 => simp at h1; subst h1; simp [positional, hs] at h2
      | rest h1 h2 h3 h4 => exact ⟨rfl, List.mem_of_getElem? h4⟩
      | name h1 h2 h3 => simp at h1; subst h1; exact absurd h2 (not_named_star hs)
      | other h1 h2 => simp at h1; subst h1; simp [hs] at h2
    | j + 1 => exact .inr ⟨j, by simpa using hj, (gets_star hs hb).mp hg⟩
  · rintro (⟨rfl, hw⟩ | ⟨j, hj, hg⟩)
    · obtain ⟨i, hi⟩ := List.getElem?_of_mem hw
      exact ⟨0, rfl, .rest rfl hs (Nat.zero_le _) hi⟩
    · exact ⟨j + 1, by simpa using hj, (gets_star hs hb).mpr hg⟩

/-- Without positional parameters and `*args` there are no positional arguments. -/
theorem accepts_behind {ps : List (Param τ)} {P : List α} {K : List (String × α)} (hb : Behind ps)
    (h : Accepts ps P K) : P = [] := by
  rcases h.room with ⟨q, hq, hk⟩ | hr
  · exact absurd hk (behind_not hb hq).2
  · match P with
    | [] => rfl
    | v :: P =>
      obtain ⟨p, hp, hpos⟩ := hr 0 (by simp)
      exact absurd hpos (behind_not hb (List.mem_of_getElem? hp)).1

end Verif.Callable
