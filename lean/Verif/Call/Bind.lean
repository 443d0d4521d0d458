import Verif.Call.Ideal
import Verif.Call.Spec
import Mathlib.Data.List.Basic
import Mathlib.Data.List.Nodup
import Mathlib.Tactic.Tauto

/-!
# Which parameter gets which argument

A description of `ideal` by the number of the parameter.
-/

namespace Verif.Call

open Verif.Call.Spec

variable {α τ : Type}

/-- The named arguments that are left. -/
def Ab.R (ab : Ab α) : List (Named α) := ab.E ++ ab.U

/-! ## Looking for a name -/

theorem cut_some {n : String} : ∀ {E : List (Named α)} {b e a}, cut n E = (b, some (e, a)) → E = b ++ e :: a ∧ e.name = n
  | [], _, _, _, h => by simp [cut] at h
  | x :: E, b, e, a, h => by
    unfold cut at h
    split at h
    · rename_i hx
      cases h
      exact ⟨rfl, hx⟩
    · cases hc : cut n E with
      | mk b' r =>
        rw [hc] at h
        cases h
        obtain ⟨h1, h2⟩ := cut_some hc
        exact ⟨by rw [h1]; rfl, h2⟩

theorem cut_none {n : String} : ∀ {E : List (Named α)} {b}, cut n E = (b, none) → b = E ∧ ∀ e ∈ E, e.name ≠ n
  | [], _, h => by simp [cut] at h; exact ⟨h, by simp⟩
  | x :: E, b, h => by
    unfold cut at h
    split at h
    · cases h
    · rename_i hx
      cases hc : cut n E with
      | mk b' r =>
        rw [hc] at h
        cases h
        obtain ⟨h1, h2⟩ := cut_none hc
        refine ⟨by rw [h1], ?_⟩
        intro e he
        rcases List.mem_cons.mp he with rfl | he
        · exact hx
        · exact h2 e he

theorem find_some {n : String} : ∀ {L : List (Named α)} {e r}, find n L = some (e, r) → e.name = n ∧ (e :: r).Perm L
  | [], _, _, h => by simp [find] at h
  | x :: L, e, r, h => by
    unfold find at h
    split at h
    · rename_i hx
      cases h
      exact ⟨hx, List.Perm.refl _⟩
    · cases hf : find n L with
      | none => rw [hf] at h; cases h
      | some q =>
        rw [hf] at h
        cases h
        obtain ⟨h1, h2⟩ := find_some hf
        exact ⟨h1, (List.Perm.swap _ _ _).trans (List.Perm.cons _ h2)⟩

theorem find_none {n : String} : ∀ {L : List (Named α)}, find n L = none → ∀ e ∈ L, e.name ≠ n
  | [], _ => by simp
  | x :: L, h => by
    unfold find at h
    split at h
    · cases h
    · rename_i hx
      have hf : find n L = none := by
        cases hf : find n L with
        | none => rfl
        | some q => rw [hf] at h; cases h
      intro e he
      rcases List.mem_cons.mp he with rfl | he
      · exact hx
      · exact find_none hf e he

/-- What does not change when a named argument is taken. -/
structure Same (ab ab' : Ab α) : Prop where
  P : ab'.P = ab.P
  s : ab'.s = ab.s
  k : ab'.k = ab.k
  tooMany : ab'.tooMany = ab.tooMany

theorem look_spec (n : String) (ab : Ab α) : Same ab (look n ab).2 ∧
    ((∃ e, (look n ab).1 = some e.arg ∧ e.name = n ∧ (e :: (look n ab).2.R).Perm ab.R) ∨
      ((∀ e ∈ ab.R, e.name ≠ n) ∧ (look n ab).1 = ab.k.map .starStar ∧ (look n ab).2.R.Perm ab.R)) := by
  unfold look
  cases hc : cut n ab.E with
  | mk b r =>
    cases r with
    | some r =>
      rcases r with ⟨e, a⟩
      obtain ⟨h1, h2⟩ := cut_some hc
      refine ⟨⟨rfl, rfl, rfl, rfl⟩, Or.inl ⟨e, rfl, h2, ?_⟩⟩
      simp only [Ab.R, h1]
      refine List.Perm.trans (l₂ := e :: (b ++ (a ++ ab.U))) (List.Perm.cons _ ?_) ?_
      · refine List.perm_append_comm.trans ?_
        rw [List.append_assoc]
        exact (List.perm_append_comm (l₁ := ab.U)).trans (by rw [List.append_assoc])
      · have : b ++ e :: a ++ ab.U = b ++ e :: (a ++ ab.U) := by simp
        rw [this]
        exact List.perm_middle.symm
    | none =>
      obtain ⟨h1, h2⟩ := cut_none hc
      subst h1
      simp only
      cases hf : find n (ab.U ++ ab.E) with
      | some q =>
        obtain ⟨h3, h4⟩ := find_some hf
        refine ⟨⟨rfl, rfl, rfl, rfl⟩, Or.inl ⟨q.1, rfl, h3, ?_⟩⟩
        simp only [Ab.R, List.nil_append]
        exact h4.trans List.perm_append_comm
      | none =>
        have h3 := find_none hf
        refine ⟨⟨rfl, rfl, rfl, rfl⟩, Or.inr ⟨?_, rfl, ?_⟩⟩
        · intro e he
          apply h3
          simp only [Ab.R, List.mem_append] at he ⊢
          tauto
        · simp only [Ab.R, List.nil_append]
          exact List.perm_append_comm

/-! ## The description -/

/-- The named argument would go to the parameter `p` at place `j`. -/
def wants (p : Param τ) (ab : Ab α) (j : Nat) (n : String) : Prop :=
  named p n ∧ (p.kind = .kwOnly ∨ (ab.s = none ∧ ab.P.length ≤ j))

def Taken (ps : List (Param τ)) (ab : Ab α) (n : String) : Prop := ∃ (j : Nat) (p : Param τ), ps[j]? = some p ∧ wants p ab j n

def byPos (ab : Ab α) (j : Nat) (a : Arg α) : Prop :=
  (∃ v, ab.P[j]? = some v ∧ a = .pos v) ∨ (ab.P.length ≤ j ∧ ∃ v, ab.s = some v ∧ a = .star v)

def byName (n : Option String) (ab : Ab α) (a : Arg α) : Prop :=
  (∃ e ∈ ab.R, some e.name = n ∧ a = e.arg) ∨ ((∀ e ∈ ab.R, some e.name ≠ n) ∧ ∃ v, ab.k = some v ∧ a = .starStar v)

/-- What a parameter that takes one argument gets. -/
def takesOne (p : Param τ) (ab : Ab α) (j : Nat) (a : Arg α) : Prop :=
  match p.kind with
  | .posOnly => byPos ab j a
  | .posOrKw => byPos ab j a ∨ (ab.s = none ∧ ab.P.length ≤ j ∧ byName p.name ab a)
  | .kwOnly => byName p.name ab a
  | _ => False

/-- What a parameter gets. -/
def takes (ps : List (Param τ)) (p : Param τ) (ab : Ab α) (j : Nat) (a : Arg α) : Prop :=
  match p.kind with
  | .star => (∃ (i : Nat) (v : α), j ≤ i ∧ ab.P[i]? = some v ∧ a = .pos v) ∨ ∃ v, ab.s = some v ∧ a = .star v
  | .starStar => (∃ e ∈ ab.R, ¬ Taken ps ab e.name ∧ a = e.arg) ∨ ∃ v, ab.k = some v ∧ a = .starStar v
  | _ => takesOne p ab j a

def Take (ps : List (Param τ)) (ab : Ab α) (j : Nat) (a : Arg α) : Prop :=
  ∃ p, ps[j]? = some p ∧ takes ps p ab j a

def hasKind (k : Kind) (ps : List (Param τ)) : Prop := ∃ p ∈ ps, p.kind = k

/-- All positional arguments find a place. -/
def Room (ps : List (Param τ)) (ab : Ab α) : Prop :=
  hasKind .star ps ∨ ∀ j < ab.P.length, ∃ p, ps[j]? = some p ∧ positional p

/-- A parameter that must be given. -/
def required (p : Param τ) : Prop := p.kind ≠ .star ∧ p.kind ≠ .starStar ∧ p.hasDefault = false

structure Fine (ps : List (Param τ)) (ab : Ab α) : Prop where
  tooMany : ab.tooMany = false
  room : Room ps ab
  filled : ∀ (j : Nat) p, ps[j]? = some p → required p → ∃ a, takesOne p ab j a
  left : hasKind .starStar ps ∨ ((ab.R.map Named.name).Nodup ∧ ∀ e ∈ ab.R, Taken ps ab e.name)

/-- The rest of a signature. -/
structure Sig (ps : List (Param τ)) : Prop where
  order : ps.Pairwise fun p q => rank p.kind ≤ rank q.kind ∧ (p.kind = .star → q.kind ≠ .star) ∧
    (p.kind = .starStar → q.kind ≠ .starStar)
  names : ∀ p ∈ ps, p.kind = .posOrKw ∨ p.kind = .kwOnly → ∃ n, p.name = some n
  different : ps.Pairwise fun p q => ∀ n, named p n → ¬ named q n

theorem Sig.tail {p : Param τ} {ps} (h : Sig (p :: ps)) : Sig ps :=
  ⟨(List.pairwise_cons.mp h.order).2, fun q hq => h.names q (List.mem_cons_of_mem _ hq),
    (List.pairwise_cons.mp h.different).2⟩

theorem Sig.hasNames {ps : List (Param τ)} (h : Sig ps) : HasNames ps := h.names

theorem Sig.after {p q : Param τ} {ps} (h : Sig (p :: ps)) (hq : q ∈ ps) : rank p.kind ≤ rank q.kind :=
  ((List.pairwise_cons.mp h.order).1 q hq).1

theorem Sig.differ {p q : Param τ} {ps n} (h : Sig (p :: ps)) (hq : q ∈ ps) (hn : named p n) : ¬ named q n :=
  (List.pairwise_cons.mp h.different).1 q hq n hn

/-! ## One parameter after the other -/

/-- How the state changes at the parameter `p`. -/
structure Move (p : Param τ) (ps : List (Param τ)) (ab ab' : Ab α) : Prop where
  k : ab'.k = ab.k
  pos : (positional p ∧ ab'.P = ab.P.tail ∧ ab'.s = ab.s) ∨ ∀ q ∈ ps, ¬ positional q ∧ q.kind ≠ .star
  rel : (ab'.R.Perm ab.R ∧ ∀ e ∈ ab.R, ¬ wants p ab 0 e.name) ∨
    ∃ e, (e :: ab'.R).Perm ab.R ∧ wants p ab 0 e.name

theorem tail_length_le {P : List α} {j : Nat} : P.tail.length ≤ j ↔ P.length ≤ j + 1 := by
  cases P <;> simp

theorem tail_get {P : List α} {j : Nat} : P.tail[j]? = P[j + 1]? := by
  cases P <;> simp

variable {p : Param τ} {ps : List (Param τ)} {ab ab' : Ab α}

theorem Move.wants (h : Move p ps ab ab') {q : Param τ} (hq : q ∈ ps) (j : Nat) (n : String) :
    wants q ab (j + 1) n ↔ wants q ab' j n := by
  unfold Verif.Call.wants
  rcases h.pos with ⟨_, h1, h2⟩ | h1
  · rw [h1, h2, tail_length_le]
  · constructor
    · rintro ⟨h2, h3⟩
      refine ⟨h2, Or.inl ?_⟩
      rcases h2.1 with h4 | h4
      · exact absurd (Or.inr h4) (h1 q hq).1
      · exact h4
    · rintro ⟨h2, h3⟩
      refine ⟨h2, Or.inl ?_⟩
      rcases h2.1 with h4 | h4
      · exact absurd (Or.inr h4) (h1 q hq).1
      · exact h4

theorem Move.taken (h : Move p ps ab ab') (n : String) :
    Taken (p :: ps) ab n ↔ Verif.Call.wants p ab 0 n ∨ Taken ps ab' n := by
  constructor
  · rintro ⟨j, q, hj, hw⟩
    cases j with
    | zero => simp at hj; subst hj; exact Or.inl hw
    | succ j =>
      simp at hj
      exact Or.inr ⟨j, q, hj, (h.wants (List.mem_of_getElem? hj) j n).mp hw⟩
  · rintro (hw | ⟨j, q, hj, hw⟩)
    · exact ⟨0, p, by simp, hw⟩
    · exact ⟨j + 1, q, by simpa using hj, (h.wants (List.mem_of_getElem? hj) j n).mpr hw⟩

theorem Move.byPos (h : Move p ps ab ab') {q : Param τ} (hq : q ∈ ps) (hp : positional q) (j : Nat) (a : Arg α) :
    byPos ab (j + 1) a ↔ byPos ab' j a := by
  rcases h.pos with ⟨_, h1, h2⟩ | h1
  · unfold Verif.Call.byPos
    rw [h1, h2, tail_length_le, tail_get]
  · exact absurd hp (h1 q hq).1

theorem Move.byName (h : Move p ps ab ab') (hs : Sig (p :: ps)) {q : Param τ} (hq : q ∈ ps) {n} (hn : named q n)
    (a : Arg α) : byName q.name ab a ↔ byName q.name ab' a := by
  have hmem : ∀ e : Named α, some e.name = q.name → (e ∈ ab.R ↔ e ∈ ab'.R) := by
    intro e he
    rcases h.rel with ⟨h1, _⟩ | ⟨e0, h1, h2⟩
    · exact h1.mem_iff.symm
    · rw [← h1.mem_iff, List.mem_cons]
      constructor
      · rintro (rfl | h3)
        · rw [hn.2] at he
          injection he with he
          rw [he] at h2
          exact absurd hn (hs.differ hq h2.1)
        · exact h3
      · exact Or.inr
  unfold Verif.Call.byName
  rw [h.k]
  constructor
  · rintro (⟨e, h1, h2, h3⟩ | ⟨h1, h2⟩)
    · exact Or.inl ⟨e, (hmem e h2).mp h1, h2, h3⟩
    · exact Or.inr ⟨fun e he h3 => h1 e ((hmem e h3).mpr he) h3, h2⟩
  · rintro (⟨e, h1, h2, h3⟩ | ⟨h1, h2⟩)
    · exact Or.inl ⟨e, (hmem e h2).mpr h1, h2, h3⟩
    · exact Or.inr ⟨fun e he h3 => h1 e ((hmem e h3).mp he) h3, h2⟩

theorem Move.takesOne (h : Move p ps ab ab') (hs : Sig (p :: ps)) {q : Param τ} (hq : q ∈ ps) (j : Nat) (a : Arg α) :
    takesOne q ab (j + 1) a ↔ takesOne q ab' j a := by
  unfold Verif.Call.takesOne
  cases hk : q.kind with
  | posOnly => exact h.byPos hq (Or.inl hk) j a
  | posOrKw =>
    obtain ⟨n, hn⟩ := hs.names q (List.mem_cons_of_mem _ hq) (Or.inl hk)
    have h1 := h.byPos hq (Or.inr hk) j a
    have h2 := h.byName hs hq (n := n) ⟨Or.inl hk, hn⟩ a
    rcases h.pos with ⟨_, h3, h4⟩ | h3
    · simp only [h1, h2, h3, h4, tail_length_le]
    · exact absurd (Or.inr hk) (h3 q hq).1
  | kwOnly =>
    obtain ⟨n, hn⟩ := hs.names q (List.mem_cons_of_mem _ hq) (Or.inr hk)
    exact h.byName hs hq (n := n) ⟨Or.inr hk, hn⟩ a
  | star => exact Iff.rfl
  | starStar => exact Iff.rfl

theorem room_positional (hp : positional p) (hP : ab'.P = ab.P.tail) : Room (p :: ps) ab ↔ Room ps ab' := by
  have h1 : hasKind .star (p :: ps) ↔ hasKind .star ps := by
    unfold hasKind
    simp only [List.mem_cons, exists_eq_or_imp, or_iff_right_iff_imp]
    intro h
    rcases hp with h' | h' <;> rw [h'] at h <;> cases h
  unfold Room
  rw [h1, hP]
  refine or_congr Iff.rfl ?_
  constructor
  · intro h j hj
    have : j + 1 < ab.P.length := by simp at hj; omega
    simpa using h (j + 1) this
  · intro h j hj
    cases j with
    | zero => exact ⟨p, by simp, hp⟩
    | succ j => simpa using h j (by simp; omega)

theorem room_named (hs : Sig (p :: ps)) (hk : p.kind = .kwOnly ∨ p.kind = .starStar) : Room (p :: ps) ab ↔ ab.P = [] := by
  unfold Room
  constructor
  · rintro (⟨q, hq, hq2⟩ | h)
    · rcases List.mem_cons.mp hq with rfl | hq
      · rcases hk with hk | hk <;> rw [hk] at hq2 <;> cases hq2
      · have := hs.after hq
        rcases hk with hk | hk <;> rw [hk, hq2] at this <;> simp [rank] at this
    · cases hP : ab.P with
      | nil => rfl
      | cons v P' =>
        obtain ⟨q, hq, hq2⟩ := h 0 (by rw [hP]; simp)
        simp at hq
        subst hq
        rcases hk with hk | hk <;> rcases hq2 with h' | h' <;> rw [hk] at h' <;> cases h'
  · intro h
    right
    intro j hj
    rw [h] at hj
    simp at hj

theorem not_positional_after (hs : Sig (p :: ps)) (hk : ¬ positional p) : ∀ q ∈ ps, ¬ positional q ∧ q.kind ≠ .star := by
  intro q hq
  have h1 := (List.pairwise_cons.mp hs.order).1 q hq
  unfold positional at *
  cases hp : p.kind <;> simp only [hp] at hk h1 <;> cases hqk : q.kind <;> simp only [hqk] at h1 ⊢ <;> simp [rank] at h1 hk ⊢

/-- One parameter that takes one argument. -/
theorem fine_cons (hs : Sig (p :: ps)) (h : Move p ps ab ab') {r : Option (Arg α)}
    (hk1 : p.kind ≠ .star) (hk2 : p.kind ≠ .starStar)
    (hpos : positional p → ab'.P = ab.P.tail ∧ ab'.tooMany = ab.tooMany)
    (hkw : p.kind = .kwOnly → ab'.P = [] ∧ ab'.tooMany = (ab.tooMany || !ab.P.isEmpty))
    (hr : r.isSome ↔ ∃ a, takesOne p ab 0 a) :
    Fine (p :: ps) ab ↔ (r.isSome ∨ p.hasDefault = true) ∧ Fine ps ab' := by
  have hroom : Room (p :: ps) ab ∧ ab.tooMany = false ↔ Room ps ab' ∧ ab'.tooMany = false := by
    by_cases hp : positional p
    · rw [room_positional hp (hpos hp).1, (hpos hp).2]
    · have hk : p.kind = .kwOnly := by
        unfold positional at hp
        cases hk : p.kind <;> simp_all
      rw [room_named hs (Or.inl hk), (hkw hk).2]
      have : Room ps ab' := by
        right
        intro j hj
        rw [(hkw hk).1] at hj
        simp at hj
      simp only [this, true_and, Bool.or_eq_false_iff, Bool.not_eq_false', List.isEmpty_iff]
      tauto
  have hstar : hasKind .starStar (p :: ps) ↔ hasKind .starStar ps := by
    unfold hasKind
    simp only [List.mem_cons, exists_eq_or_imp, or_iff_right_iff_imp]
    intro h
    exact absurd h hk2
  have hleft : ((ab.R.map Named.name).Nodup ∧ ∀ e ∈ ab.R, Taken (p :: ps) ab e.name) ↔
      ((ab'.R.map Named.name).Nodup ∧ ∀ e ∈ ab'.R, Taken ps ab' e.name) := by
    rcases h.rel with ⟨h1, h2⟩ | ⟨e0, h1, h2⟩
    · rw [(h1.map Named.name).nodup_iff]
      refine and_congr Iff.rfl ?_
      constructor
      · intro h3 e he
        have he' := h1.mem_iff.mp he
        exact ((h.taken e.name).mp (h3 e he')).resolve_left (h2 e he')
      · intro h3 e he
        exact (h.taken e.name).mpr (Or.inr (h3 e (h1.mem_iff.mpr he)))
    · rw [← (h1.map Named.name).nodup_iff]
      simp only [List.map_cons, List.nodup_cons]
      constructor
      · rintro ⟨⟨h3, h4⟩, h5⟩
        refine ⟨h4, fun e he => ?_⟩
        refine ((h.taken e.name).mp (h5 e (h1.mem_iff.mp (List.mem_cons_of_mem _ he)))).resolve_left ?_
        intro h6
        have hn : some e.name = some e0.name := h6.1.2.symm.trans h2.1.2
        injection hn with hn
        exact h3 (hn ▸ List.mem_map_of_mem he)
      · rintro ⟨h4, h5⟩
        refine ⟨⟨?_, h4⟩, fun e he => ?_⟩
        · intro h6
          obtain ⟨e, he, hn⟩ := List.mem_map.mp h6
          obtain ⟨j, q, hj, hw⟩ := h5 e he
          rw [hn] at hw
          exact hs.differ (List.mem_of_getElem? hj) h2.1 hw.1
        · rw [h.taken]
          rcases List.mem_cons.mp (h1.mem_iff.mpr he) with rfl | he
          · exact Or.inl h2
          · exact Or.inr (h5 e he)
  have hfill : (∀ (j : Nat) q, (p :: ps)[j]? = some q → required q → ∃ a, takesOne q ab j a) ↔
      (r.isSome ∨ p.hasDefault = true) ∧ ∀ (j : Nat) q, ps[j]? = some q → required q → ∃ a, takesOne q ab' j a := by
    constructor
    · intro h1
      refine ⟨?_, ?_⟩
      · by_cases hd : p.hasDefault = true
        · exact Or.inr hd
        · left
          rw [hr]
          exact h1 0 p (by simp) ⟨hk1, hk2, by simpa using hd⟩
      · intro j q hj hq
        obtain ⟨a, ha⟩ := h1 (j + 1) q (by simpa using hj) hq
        exact ⟨a, (h.takesOne hs (List.mem_of_getElem? hj) j a).mp ha⟩
    · rintro ⟨h1, h2⟩ j q hj hq
      cases j with
      | zero =>
        simp at hj
        subst hj
        rcases h1 with h1 | h1
        · exact hr.mp h1
        · rw [hq.2.2] at h1
          cases h1
      | succ j =>
        simp at hj
        obtain ⟨a, ha⟩ := h2 j q hj hq
        exact ⟨a, (h.takesOne hs (List.mem_of_getElem? hj) j a).mpr ha⟩
  constructor
  · rintro ⟨h1, h2, h3, h4⟩
    obtain ⟨h5, h6⟩ := hroom.mp ⟨h2, h1⟩
    obtain ⟨h7, h8⟩ := hfill.mp h3
    refine ⟨h7, ⟨h6, h5, h8, ?_⟩⟩
    rcases h4 with h4 | h4
    · exact Or.inl (hstar.mp h4)
    · exact Or.inr (hleft.mp h4)
  · rintro ⟨h7, h6, h5, h8, h4⟩
    obtain ⟨h2, h1⟩ := hroom.mpr ⟨h5, h6⟩
    refine ⟨h1, h2, hfill.mpr ⟨h7, h8⟩, ?_⟩
    rcases h4 with h4 | h4
    · exact Or.inl (hstar.mpr h4)
    · exact Or.inr (hleft.mpr h4)

/-! ## The parts of `ideal` -/

theorem move_onlyPositional (hk : p.kind = .posOnly) : Move p ps ab (onlyPositional ab).2 ∧
    (onlyPositional ab).2.P = ab.P.tail ∧ (onlyPositional ab).2.tooMany = ab.tooMany ∧
    ∀ a, (onlyPositional ab).1 = some a ↔ takesOne p ab 0 a := by
  have hw : ∀ e : Named α, ¬ wants p ab 0 e.name := by
    rintro e ⟨⟨h, _⟩, _⟩
    rcases h with h | h <;> rw [hk] at h <;> cases h
  unfold onlyPositional takesOne byPos
  simp only [hk]
  split
  · rename_i v P' hP
    refine ⟨⟨rfl, Or.inl ⟨Or.inl hk, by rw [hP]; rfl, rfl⟩, Or.inl ⟨List.Perm.refl _, fun e _ => hw e⟩⟩, by rw [hP]; rfl, rfl, ?_⟩
    intro a
    simp [hP]
    tauto
  · rename_i hP
    split
    · rename_i v hs
      refine ⟨⟨rfl, Or.inl ⟨Or.inl hk, by rw [hP]; rfl, rfl⟩, Or.inl ⟨List.Perm.refl _, fun e _ => hw e⟩⟩, by rw [hP]; rfl, rfl, ?_⟩
      intro a
      simp [hP, hs]
      tauto
    · rename_i hs
      split
      · rename_i e E' hE
        refine ⟨⟨rfl, Or.inl ⟨Or.inl hk, by rw [hP]; rfl, rfl⟩, Or.inl ⟨?_, fun e _ => hw e⟩⟩, by rw [hP]; rfl, rfl, ?_⟩
        · simp only [Ab.R, hE, List.cons_append]
          rw [← List.append_assoc]
          exact List.perm_append_singleton _ _
        · intro a
          simp [hP, hs]
      · refine ⟨⟨rfl, Or.inl ⟨Or.inl hk, by rw [hP]; rfl, rfl⟩, Or.inl ⟨List.Perm.refl _, fun e _ => hw e⟩⟩, by rw [hP]; rfl, rfl, ?_⟩
        intro a
        simp [hP, hs]

theorem byName_look {n : String} (hnd : (ab.R.map Named.name).Nodup) (a : Arg α) :
    (look n ab).1 = some a ↔ byName (some n) ab a := by
  obtain ⟨_, ⟨e, h1, h2, h3⟩ | ⟨h1, h2, h3⟩⟩ := look_spec n ab
  · have he : e ∈ ab.R := h3.mem_iff.mp List.mem_cons_self
    rw [h1]
    unfold byName
    constructor
    · intro h
      injection h with h
      exact Or.inl ⟨e, he, by rw [h2], h.symm⟩
    · rintro (⟨e', h4, h5, h6⟩ | ⟨h4, _⟩)
      · have : e' = e := by
          injection h5 with h5
          exact List.inj_on_of_nodup_map hnd h4 he (h5.trans h2.symm)
        rw [h6, this]
      · exact absurd (by rw [h2]) (h4 e he)
  · rw [h2]
    unfold byName
    constructor
    · intro h
      right
      refine ⟨fun e he => fun h' => h1 e he (by injection h'), ?_⟩
      cases hk : ab.k with
      | none => rw [hk] at h; cases h
      | some v => rw [hk] at h; injection h with h; exact ⟨v, rfl, h.symm⟩
    · rintro (⟨e', h4, h5, h6⟩ | ⟨_, v, h5, h6⟩)
      · injection h5 with h5
        exact absurd h5 (h1 e' h4)
      · rw [h5, h6]; rfl

theorem byName_look_some {n : String} : (look n ab).1.isSome ↔ ∃ a, byName (some n) ab a := by
  obtain ⟨_, ⟨e, h1, h2, h3⟩ | ⟨h1, h2, h3⟩⟩ := look_spec n ab
  · have he : e ∈ ab.R := h3.mem_iff.mp List.mem_cons_self
    rw [h1]
    simp only [Option.isSome_some, true_iff]
    exact ⟨_, Or.inl ⟨e, he, by rw [h2], rfl⟩⟩
  · rw [h2]
    unfold byName
    constructor
    · intro h
      cases hk : ab.k with
      | none => rw [hk] at h; cases h
      | some v =>
        exact ⟨_, Or.inr ⟨fun e he => fun h' => h1 e he (by injection h'), v, rfl, rfl⟩⟩
    · rintro ⟨a, ⟨e', h4, h5, h6⟩ | ⟨_, v, h5, h6⟩⟩
      · injection h5 with h5
        exact absurd h5 (h1 e' h4)
      · rw [h5]; rfl

/-- The named arguments after looking for the name of a parameter. -/
theorem look_rel {n : String} (hn : named p n) (hw : p.kind = .kwOnly ∨ (ab.s = none ∧ ab.P.length ≤ 0)) :
    ((look n ab).2.R.Perm ab.R ∧ ∀ e ∈ ab.R, ¬ wants p ab 0 e.name) ∨
      ∃ e, (e :: (look n ab).2.R).Perm ab.R ∧ wants p ab 0 e.name := by
  obtain ⟨_, ⟨e, h1, h2, h3⟩ | ⟨h1, h2, h3⟩⟩ := look_spec n ab
  · right
    exact ⟨e, h3, by rw [h2]; exact ⟨hn, hw⟩⟩
  · left
    refine ⟨h3, fun e he h4 => h1 e he ?_⟩
    have := h4.1.2.symm.trans hn.2
    injection this

theorem move_positionalOrNamed {n : String} (hk : p.kind = .posOrKw) (hn : p.name = some n) :
    Move p ps ab (positionalOrNamed n ab).2 ∧
    (positionalOrNamed n ab).2.P = ab.P.tail ∧ (positionalOrNamed n ab).2.tooMany = ab.tooMany ∧
    ((positionalOrNamed n ab).1.isSome ↔ ∃ a, takesOne p ab 0 a) ∧
    ((ab.R.map Named.name).Nodup → ∀ a, (positionalOrNamed n ab).1 = some a ↔ takesOne p ab 0 a) := by
  unfold positionalOrNamed takesOne byPos
  simp only [hk, hn]
  split
  · rename_i v P' hP
    have hw : ∀ e : Named α, ¬ wants p ab 0 e.name := by
      rintro e ⟨_, h | ⟨_, h⟩⟩
      · rw [hk] at h; cases h
      · rw [hP] at h; simp at h
    refine ⟨⟨rfl, Or.inl ⟨Or.inr hk, by rw [hP]; rfl, rfl⟩, Or.inl ⟨List.Perm.refl _, fun e _ => hw e⟩⟩, by rw [hP]; rfl, rfl, ?_, ?_⟩
    · simp [hP]
    · intro _ a
      simp [hP]
      tauto
  · rename_i hP
    split
    · rename_i v hs
      have hw : ∀ e : Named α, ¬ wants p ab 0 e.name := by
        rintro e ⟨_, h | ⟨h, _⟩⟩
        · rw [hk] at h; cases h
        · rw [hs] at h; cases h
      refine ⟨⟨rfl, Or.inl ⟨Or.inr hk, by rw [hP]; rfl, rfl⟩, Or.inl ⟨List.Perm.refl _, fun e _ => hw e⟩⟩, by rw [hP]; rfl, rfl, ?_, ?_⟩
      · simp [hP, hs]
      · intro _ a
        simp [hP, hs]
        tauto
    · rename_i hs
      obtain ⟨hsm, _⟩ := look_spec n ab
      refine ⟨⟨hsm.k, Or.inl ⟨Or.inr hk, by rw [hsm.P, hP]; rfl, hsm.s⟩,
        look_rel ⟨Or.inl hk, hn⟩ (Or.inr ⟨hs, by rw [hP]; simp⟩)⟩, by rw [hsm.P, hP]; rfl, hsm.tooMany, ?_, ?_⟩
      · rw [byName_look_some]
        simp [hP, hs]
      · intro hnd a
        rw [byName_look hnd]
        simp [hP, hs]

theorem byName_drop (n : Option String) (a : Arg α) : byName n (dropPositional ab) a ↔ byName n ab a := Iff.rfl

theorem move_kwOnly {n : String} (hs : Sig (p :: ps)) (hk : p.kind = .kwOnly) (hn : p.name = some n) :
    Move p ps ab (look n (dropPositional ab)).2 ∧
    (look n (dropPositional ab)).2.P = [] ∧
    (look n (dropPositional ab)).2.tooMany = (ab.tooMany || !ab.P.isEmpty) ∧
    ((look n (dropPositional ab)).1.isSome ↔ ∃ a, takesOne p ab 0 a) ∧
    ((ab.R.map Named.name).Nodup → ∀ a, (look n (dropPositional ab)).1 = some a ↔ takesOne p ab 0 a) := by
  obtain ⟨hsm, _⟩ := look_spec n (dropPositional ab)
  have hrel := look_rel (p := p) (ab := dropPositional ab) ⟨Or.inr hk, hn⟩ (Or.inl hk)
  have hw : ∀ m, wants p (dropPositional ab) 0 m ↔ wants p ab 0 m := by
    intro m
    unfold wants
    simp [hk]
  refine ⟨⟨hsm.k, Or.inr (not_positional_after hs ?_), ?_⟩, hsm.P, hsm.tooMany, ?_, ?_⟩
  · unfold positional
    rw [hk]
    simp
  · simp only [hw] at hrel
    exact hrel
  · rw [byName_look_some]
    simp only [takesOne, hk, hn]
    exact Iff.rfl
  · intro hnd a
    rw [byName_look (ab := dropPositional ab) hnd]
    simp only [takesOne, hk, hn]
    exact Iff.rfl

/-! ## The verdict -/

def Fit (r : List (Param τ × Option (Arg α)) × Ab α) : Prop :=
  r.2.tooMany = false ∧ r.2.P = [] ∧ r.2.E = [] ∧ r.2.U = [] ∧ missing r.1 = []

theorem fit_cons (r : Option (Arg α)) (l : List (Param τ × Option (Arg α)) × Ab α) :
    Fit ((p, r) :: l.1, l.2) ↔ (r.isSome ∨ p.hasDefault = true) ∧ Fit l := by
  unfold Fit missing
  cases r with
  | some a => simp
  | none =>
    cases hd : p.hasDefault with
    | true => simp [hd]
    | false => simp [hd]

theorem fit_append {l1 : List (Param τ × Option (Arg α))} (h1 : ∀ r ∈ l1, r.2.isSome) (l : List (Param τ × Option (Arg α)) × Ab α) :
    Fit (l1 ++ l.1, l.2) ↔ Fit l := by
  have : missing (l1 ++ l.1) = missing l.1 := by
    unfold missing
    rw [List.filterMap_append]
    have : l1.filterMap (fun r => if r.2.isNone && !r.1.hasDefault then some r.1 else none) = [] := by
      rw [List.filterMap_eq_nil_iff]
      intro r hr
      have := h1 r hr
      cases h2 : r.2 with
      | none => rw [h2] at this; cases this
      | some => simp
    rw [this]
    rfl
  unfold Fit
  rw [this]

theorem fit_fine : ∀ (ps : List (Param τ)) (ab : Ab α), Sig ps → (Fit (ideal ps ab) ↔ Fine ps ab)
  | [], ab, _ => by
    simp only [ideal, Fit, missing, List.filterMap_nil, and_true]
    constructor
    · rintro ⟨h1, h2, h3, h4⟩
      refine ⟨h1, Or.inr (by rw [h2]; simp), by simp, Or.inr ?_⟩
      simp [Ab.R, h3, h4]
    · rintro ⟨h1, h2, _, h4⟩
      refine ⟨h1, ?_, ?_⟩
      · rcases h2 with ⟨q, hq, _⟩ | h2
        · cases hq
        · cases hP : ab.P with
          | nil => rfl
          | cons v P' =>
            obtain ⟨q, hq, _⟩ := h2 0 (by rw [hP]; simp)
            simp at hq
      · rcases h4 with ⟨q, hq, _⟩ | ⟨_, h4⟩
        · cases hq
        · have : ab.R = [] := by
            cases hR : ab.R with
            | nil => rfl
            | cons e R' =>
              obtain ⟨j, q, hq, _⟩ := h4 e (by rw [hR]; simp)
              simp at hq
          simpa [Ab.R] using this
  | p :: ps, ab, hs => by
    cases hk : p.kind with
    | posOnly =>
      obtain ⟨h1, h2, h3, h4⟩ := move_onlyPositional (p := p) (ps := ps) (ab := ab) hk
      simp only [ideal, hk]
      rw [fit_cons, fit_fine ps _ hs.tail]
      refine (fine_cons hs h1 (by rw [hk]; simp) (by rw [hk]; simp) (fun _ => ⟨h2, h3⟩) (by rw [hk]; simp) ?_).symm
      rw [Option.isSome_iff_exists]
      exact exists_congr h4
    | posOrKw =>
      obtain ⟨n, hn⟩ := hs.names p List.mem_cons_self (Or.inl hk)
      obtain ⟨h1, h2, h3, h4, _⟩ := move_positionalOrNamed (p := p) (ps := ps) (ab := ab) hk hn
      simp only [ideal, hk, hn, Option.getD_some]
      rw [fit_cons, fit_fine ps _ hs.tail]
      exact (fine_cons hs h1 (by rw [hk]; simp) (by rw [hk]; simp) (fun _ => ⟨h2, h3⟩) (by rw [hk]; simp) h4).symm
    | kwOnly =>
      obtain ⟨n, hn⟩ := hs.names p List.mem_cons_self (Or.inr hk)
      obtain ⟨h1, h2, h3, h4, _⟩ := move_kwOnly (ab := ab) hs hk hn
      simp only [ideal, hk, hn, Option.getD_some]
      rw [fit_cons, fit_fine ps _ hs.tail]
      exact (fine_cons hs h1 (by rw [hk]; simp) (by rw [hk]; simp)
        (fun h => by rcases h with h | h <;> rw [hk] at h <;> cases h) (fun _ => ⟨h2, h3⟩) h4).symm
    | star =>
      simp only [ideal, hk]
      rw [fit_append (by unfold starPart; intro r hr; simp at hr; rcases hr with ⟨_, _, rfl⟩ | ⟨_, _, rfl⟩ <;> rfl),
        fit_fine ps _ hs.tail]
      have hnp : ¬ positional p := by unfold positional; rw [hk]; simp
      have hm : Move p ps ab { ab with P := [], s := none } :=
        ⟨rfl, Or.inr (not_positional_after hs hnp), Or.inl ⟨List.Perm.refl _, by
          rintro e _ ⟨⟨h, _⟩, _⟩
          rcases h with h | h <;> rw [hk] at h <;> cases h⟩⟩
      have hw : ∀ n, ¬ wants p ab 0 n := by
        rintro n ⟨⟨h, _⟩, _⟩
        rcases h with h | h <;> rw [hk] at h <;> cases h
      have hstar : hasKind .starStar (p :: ps) ↔ hasKind .starStar ps := by
        unfold hasKind
        simp only [List.mem_cons, exists_eq_or_imp, or_iff_right_iff_imp]
        intro h
        rw [hk] at h
        cases h
      constructor
      · rintro ⟨h1, _, h3, h4⟩
        refine ⟨h1, Or.inl ⟨p, List.mem_cons_self, hk⟩, ?_, ?_⟩
        · intro j q hj hq
          cases j with
          | zero =>
            simp at hj
            subst hj
            exact absurd hk hq.1
          | succ j =>
            simp at hj
            obtain ⟨a, ha⟩ := h3 j q hj hq
            exact ⟨a, (hm.takesOne hs (List.mem_of_getElem? hj) j a).mpr ha⟩
        · rw [hstar]
          refine h4.imp_right (fun h => ⟨h.1, fun e he => (hm.taken e.name).mpr (Or.inr (h.2 e he))⟩)
      · rintro ⟨h1, _, h3, h4⟩
        refine ⟨h1, Or.inr (by simp), ?_, ?_⟩
        · intro j q hj hq
          obtain ⟨a, ha⟩ := h3 (j + 1) q (by simpa using hj) hq
          exact ⟨a, (hm.takesOne hs (List.mem_of_getElem? hj) j a).mp ha⟩
        · rw [hstar] at h4
          refine h4.imp_right (fun h => ⟨h.1, fun e he => ((hm.taken e.name).mp (h.2 e he)).resolve_left (hw _)⟩)
    | starStar =>
      have hnil : ps = [] := by
        cases ps with
        | nil => rfl
        | cons q ps =>
          have h1 := (List.pairwise_cons.mp hs.order).1 q List.mem_cons_self
          rw [hk] at h1
          cases hq : q.kind <;> simp [hq, rank] at h1
      subst hnil
      simp only [ideal, hk]
      have hd : ∀ r ∈ doublePart p ab, r.2.isSome := by
        intro r hr
        unfold doublePart at hr
        aesop
      refine (fit_append hd ([], afterDouble ab)).trans ?_
      have : Fine [p] ab ↔ ab.tooMany = false ∧ ab.P = [] := by
        constructor
        · intro h
          exact ⟨h.tooMany, (room_named hs (Or.inr hk)).mp h.room⟩
        · rintro ⟨h1, h2⟩
          refine ⟨h1, (room_named hs (Or.inr hk)).mpr h2, ?_, Or.inl ⟨p, List.mem_cons_self, hk⟩⟩
          intro j q hj hq
          cases j with
          | zero => simp at hj; subst hj; exact absurd hk hq.2.1
          | succ j => simp at hj
      rw [this]
      unfold Fit afterDouble missing
      cases hP : ab.P with
      | nil => simp
      | cons v P' => simp [hP]

/-! ## The pairs -/

theorem Move.nodup (h : Move p ps ab ab') (hn : (ab.R.map Named.name).Nodup) : (ab'.R.map Named.name).Nodup := by
  rcases h.rel with ⟨h1, _⟩ | ⟨e, h1, _⟩
  · exact (h1.map _).nodup_iff.mpr hn
  · have := (h1.map Named.name).nodup_iff.mpr hn
    exact (List.nodup_cons.mp this).2

theorem Move.take (h : Move p ps ab ab') (hs : Sig (p :: ps)) (hn : (ab.R.map Named.name).Nodup)
    (j : Nat) (a : Arg α) : Take (p :: ps) ab (j + 1) a ↔ Take ps ab' j a := by
  unfold Take
  simp only [List.getElem?_cons_succ]
  refine exists_congr fun q => and_congr_right fun hj => ?_
  have hq := List.mem_of_getElem? hj
  have h1 := h.takesOne hs hq j a
  unfold takes
  cases hk : q.kind with
  | star =>
    rcases h.pos with ⟨_, h2, h3⟩ | h2
    · simp only [h2, h3, tail_get]
      refine or_congr ?_ Iff.rfl
      constructor
      · rintro ⟨i, v, h4, h5, h6⟩
        obtain ⟨i, rfl⟩ : ∃ i', i = i' + 1 := ⟨i - 1, by omega⟩
        exact ⟨i, v, by omega, h5, h6⟩
      · rintro ⟨i, v, h4, h5, h6⟩
        exact ⟨i + 1, v, by omega, h5, h6⟩
    · exact absurd hk (h2 q hq).2
  | starStar =>
    simp only [h.k]
    refine or_congr ?_ Iff.rfl
    rcases h.rel with ⟨h2, h3⟩ | ⟨e0, h2, h3⟩
    · constructor
      · rintro ⟨e, he, h4, h5⟩
        exact ⟨e, h2.mem_iff.mpr he, fun h6 => h4 ((h.taken _).mpr (Or.inr h6)), h5⟩
      · rintro ⟨e, he, h4, h5⟩
        refine ⟨e, h2.mem_iff.mp he, fun h6 => ?_, h5⟩
        rcases (h.taken _).mp h6 with h6 | h6
        · exact h3 e (h2.mem_iff.mp he) h6
        · exact h4 h6
    · constructor
      · rintro ⟨e, he, h4, h5⟩
        rcases List.mem_cons.mp (h2.mem_iff.mpr he) with rfl | he'
        · exact absurd ((h.taken _).mpr (Or.inl h3)) h4
        · exact ⟨e, he', fun h6 => h4 ((h.taken _).mpr (Or.inr h6)), h5⟩
      · rintro ⟨e, he, h4, h5⟩
        refine ⟨e, h2.mem_iff.mp (List.mem_cons_of_mem _ he), fun h6 => ?_, h5⟩
        rcases (h.taken _).mp h6 with h6 | h6
        · have hname : e.name = e0.name := by
            have := h6.1.2.symm.trans h3.1.2
            injection this
          have := (h2.map Named.name).nodup_iff.mpr hn
          exact (List.nodup_cons.mp this).1 (hname ▸ List.mem_map_of_mem he)
        · exact h4 h6
  | posOnly => exact h1
  | posOrKw => exact h1
  | kwOnly => exact h1

theorem ideal_mem : ∀ (ps : List (Param τ)) (ab : Ab α), ∀ r ∈ (ideal ps ab).1, r.1 ∈ ps
  | [], ab, r, hr => by simp [ideal] at hr
  | p :: ps, ab, r, hr => by
    have ih := ideal_mem ps
    cases hk : p.kind <;> simp only [ideal, hk] at hr
    · rcases List.mem_cons.mp hr with rfl | hr
      · exact List.mem_cons_self
      · exact List.mem_cons_of_mem _ (ih _ _ hr)
    · rcases List.mem_cons.mp hr with rfl | hr
      · exact List.mem_cons_self
      · exact List.mem_cons_of_mem _ (ih _ _ hr)
    · rcases List.mem_cons.mp hr with rfl | hr
      · exact List.mem_cons_self
      · exact List.mem_cons_of_mem _ (ih _ _ hr)
    · rcases List.mem_append.mp hr with hr | hr
      · unfold starPart at hr
        aesop
      · exact List.mem_cons_of_mem _ (ih _ _ hr)
    · rcases List.mem_append.mp hr with hr | hr
      · unfold doublePart at hr
        aesop
      · exact List.mem_cons_of_mem _ (ih _ _ hr)

def Numbered (o : Nat) (ps : List (Param τ)) : Prop := ∀ (j : Nat) p, ps[j]? = some p → p.idx = o + j

theorem Numbered.tail {o : Nat} (h : Numbered o (p :: ps)) : Numbered (o + 1) ps := by
  intro j q hj
  have := h (j + 1) q (by simpa using hj)
  omega

def Paired (l : List (Param τ × Option (Arg α))) (j : Nat) (a : Arg α) : Prop := ∃ p, (p, some a) ∈ l ∧ p.idx = j

theorem paired_split {o j : Nat} {a : Arg α} {l1 l2 : List (Param τ × Option (Arg α))} (h : Numbered o (p :: ps))
    (h1 : ∀ r ∈ l1, r.1 = p) (h2 : ∀ r ∈ l2, r.1 ∈ ps) :
    (Paired (l1 ++ l2) (o + j) a ↔ if j = 0 then (p, some a) ∈ l1 else Paired l2 (o + j) a) := by
  have hp : p.idx = o := by simpa using h 0 p (by simp)
  have hps : ∀ q ∈ ps, q.idx ≥ o + 1 := by
    intro q hq
    obtain ⟨i, hi⟩ := List.getElem?_of_mem hq
    have := h (i + 1) q (by simpa using hi)
    omega
  unfold Paired
  split
  · rename_i hj
    subst hj
    constructor
    · rintro ⟨q, hq, hi⟩
      rcases List.mem_append.mp hq with hq | hq
      · have := h1 _ hq
        simp at this
        rwa [this] at hq
      · have := hps _ (h2 _ hq)
        simp at this
        omega
    · intro hq
      exact ⟨p, List.mem_append_left _ hq, by omega⟩
  · constructor
    · rintro ⟨q, hq, hi⟩
      rcases List.mem_append.mp hq with hq | hq
      · have := h1 _ hq
        simp at this
        rw [this] at hi
        omega
      · exact ⟨q, hq, hi⟩
    · rintro ⟨q, hq, hi⟩
      exact ⟨q, List.mem_append_right _ hq, hi⟩

theorem pairs_take : ∀ (ps : List (Param τ)) (ab : Ab α) (o j : Nat) (a : Arg α), Sig ps → Numbered o ps →
    (ab.R.map Named.name).Nodup → Room ps ab → (Paired (ideal ps ab).1 (o + j) a ↔ Take ps ab j a)
  | [], ab, o, j, a, _, _, _, _ => by simp [ideal, Paired, Take]
  | p :: ps, ab, o, j, a, hs, hi, hn, hroom => by
    have step : ∀ {l1 : List (Param τ × Option (Arg α))} {ab'}, Move p ps ab ab' → (∀ r ∈ l1, r.1 = p) →
        Room ps ab' → (∀ b, (p, some b) ∈ l1 ↔ takes (p :: ps) p ab 0 b) →
        (Paired (l1 ++ (ideal ps ab').1) (o + j) a ↔ Take (p :: ps) ab j a) := by
      intro l1 ab' hm h1 hr h2
      rw [paired_split hi h1 (ideal_mem ps ab')]
      cases j with
      | zero =>
        rw [if_pos rfl, h2]
        simp [Take]
      | succ j =>
        rw [if_neg (by omega), hm.take hs hn]
        have := pairs_take ps ab' (o + 1) j a hs.tail hi.tail (hm.nodup hn) hr
        rw [← this]
        have e : o + 1 + j = o + (j + 1) := by omega
        rw [e]
    have one : ∀ {r : Option (Arg α)} {ab'}, Move p ps ab ab' → p.kind ≠ .star → p.kind ≠ .starStar →
        Room ps ab' → (∀ b, r = some b ↔ takesOne p ab 0 b) →
        (Paired ((p, r) :: (ideal ps ab').1) (o + j) a ↔ Take (p :: ps) ab j a) := by
      intro r ab' hm hk1 hk2 hr h2
      refine step (l1 := [(p, r)]) hm (by simp) hr ?_
      intro b
      have : takes (p :: ps) p ab 0 b ↔ takesOne p ab 0 b := by
        unfold takes
        cases hk : p.kind <;> simp_all
      rw [this, ← h2]
      simp [eq_comm]
    cases hk : p.kind with
    | posOnly =>
      obtain ⟨h1, h2, h3, h4⟩ := move_onlyPositional (p := p) (ps := ps) (ab := ab) hk
      simp only [ideal, hk]
      exact one h1 (by rw [hk]; simp) (by rw [hk]; simp) ((room_positional (Or.inl hk) h2).mp hroom) h4
    | posOrKw =>
      obtain ⟨n, hn'⟩ := hs.names p List.mem_cons_self (Or.inl hk)
      obtain ⟨h1, h2, h3, _, h4⟩ := move_positionalOrNamed (p := p) (ps := ps) (ab := ab) hk hn'
      simp only [ideal, hk, hn', Option.getD_some]
      exact one h1 (by rw [hk]; simp) (by rw [hk]; simp) ((room_positional (Or.inr hk) h2).mp hroom) (h4 hn)
    | kwOnly =>
      obtain ⟨n, hn'⟩ := hs.names p List.mem_cons_self (Or.inr hk)
      obtain ⟨h1, h2, h3, _, h4⟩ := move_kwOnly (ab := ab) hs hk hn'
      simp only [ideal, hk, hn', Option.getD_some]
      exact one h1 (by rw [hk]; simp) (by rw [hk]; simp) (Or.inr (by rw [h2]; simp)) (h4 hn)
    | star =>
      simp only [ideal, hk]
      have hnp : ¬ positional p := by unfold positional; rw [hk]; simp
      have hm : Move p ps ab { ab with P := [], s := none } :=
        ⟨rfl, Or.inr (not_positional_after hs hnp), Or.inl ⟨List.Perm.refl _, by
          rintro e _ ⟨⟨h, _⟩, _⟩
          rcases h with h | h <;> rw [hk] at h <;> cases h⟩⟩
      refine step hm (by unfold starPart; intro r hr; simp at hr; rcases hr with ⟨_, _, rfl⟩ | ⟨_, _, rfl⟩ <;> rfl)
        (Or.inr (by simp)) ?_
      intro b
      simp only [takes, hk, starPart, List.mem_append, List.mem_map, Prod.mk.injEq, true_and, Option.some.injEq,
        Option.mem_toList, Nat.zero_le]
      refine or_congr ?_ ?_
      · constructor
        · rintro ⟨v, h1, rfl⟩
          obtain ⟨i, hi⟩ := List.getElem?_of_mem h1
          exact ⟨i, v, hi, rfl⟩
        · rintro ⟨i, v, h1, rfl⟩
          exact ⟨v, List.mem_of_getElem? h1, rfl⟩
      · exact exists_congr fun v => and_congr Iff.rfl eq_comm
    | starStar =>
      have hnil : ps = [] := by
        cases ps with
        | nil => rfl
        | cons q ps =>
          have h1 := (List.pairwise_cons.mp hs.order).1 q List.mem_cons_self
          rw [hk] at h1
          cases hq : q.kind <;> simp [hq, rank] at h1
      subst hnil
      have hP := (room_named hs (Or.inr hk)).mp hroom
      have hd : ∀ r ∈ doublePart p ab, r.1 = p := by
        intro r hr
        unfold doublePart at hr
        aesop
      simp only [ideal, hk]
      refine (paired_split hi hd (by simp)).trans ?_
      cases j with
      | succ j => simp [Paired, Take]
      | zero =>
        have hT : ∀ n, ¬ Taken [p] ab n := by
          rintro n ⟨j, q, hj, hw⟩
          cases j with
          | succ j => simp at hj
          | zero =>
            simp at hj
            subst hj
            rcases hw.1.1 with h | h <;> rw [hk] at h <;> cases h
        rw [if_pos rfl]
        simp only [Take, List.getElem?_cons_zero, Option.some.injEq, exists_eq_left', takes, hk, hT, not_false_eq_true,
          true_and, doublePart, hP, List.isEmpty_nil, if_true, List.mem_append, List.mem_map, Prod.mk.injEq,
          Option.mem_toList, Ab.R, List.mem_reverse]
        constructor
        · rintro (⟨e, he, rfl⟩ | ⟨v, hv, rfl⟩ | ⟨e, he, rfl⟩)
          · exact Or.inl ⟨e, Or.inl he, rfl⟩
          · exact Or.inr ⟨v, hv, rfl⟩
          · exact Or.inl ⟨e, Or.inr he, rfl⟩
        · rintro (⟨e, he | he, rfl⟩ | ⟨v, hv, rfl⟩)
          · exact Or.inl ⟨e, he, rfl⟩
          · exact Or.inr (Or.inr ⟨e, he, rfl⟩)
          · exact Or.inr (Or.inl ⟨v, hv, rfl⟩)

end Verif.Call
