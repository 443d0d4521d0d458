import Verif.Callable.Steps

/-! # What the loop of the comparison guarantees -/

namespace Verif.Callable

open Verif.Call Verif.Call.Spec Verif.Callable.Spec

variable {α τ : Type}

/-- A suffix of a `Signature`. -/
structure Sorted (ps : List (Param τ)) : Prop where
  order : ps.Pairwise fun p q => rank p.kind ≤ rank q.kind ∧ (p.kind = .star → q.kind ≠ .star) ∧
    (p.kind = .starStar → q.kind ≠ .starStar)
  names : ∀ p ∈ ps, p.kind = .posOrKw ∨ p.kind = .kwOnly → ∃ n, p.name = some n
  different : ps.Pairwise fun p q => ∀ n, named p n → ¬ named q n

theorem Signature.sorted {ps : List (Param τ)} (h : Signature ps) : Sorted ps := ⟨h.order, h.names, h.different⟩

theorem Sorted.tail {p : Param τ} {ps : List (Param τ)} (h : Sorted (p :: ps)) : Sorted ps :=
  ⟨(List.pairwise_cons.mp h.order).2, fun q hq => h.names q (List.mem_cons_of_mem _ hq),
    (List.pairwise_cons.mp h.different).2⟩

theorem Sorted.append {l ps : List (Param τ)} (h : Sorted (l ++ ps)) : Sorted ps :=
  ⟨(List.pairwise_append.mp h.order).2.1, fun q hq => h.names q (List.mem_append_right _ hq),
    (List.pairwise_append.mp h.different).2.1⟩

theorem Sorted.after_star {s : Param τ} {ps : List (Param τ)} (h : Sorted (s :: ps)) (hs : s.kind = .star) :
    Behind ps := by
  intro q hq
  have := (List.pairwise_cons.mp h.order).1 q hq
  rw [hs] at this
  have h1 := this.1
  have h2 := this.2.1 rfl
  cases hk : q.kind <;> simp_all [rank]

theorem Sorted.after_kwOnly {s : Param τ} {ps : List (Param τ)} (h : Sorted (s :: ps)) (hs : s.kind = .kwOnly) :
    Behind ps := by
  intro q hq
  have h1 := ((List.pairwise_cons.mp h.order).1 q hq).1
  rw [hs] at h1
  cases hk : q.kind <;> simp_all [rank]

theorem Sorted.after_double {s : Param τ} {ps : List (Param τ)} (h : Sorted (s :: ps)) (hs : s.kind = .starStar) :
    ps = [] := by
  cases ps with
  | nil => rfl
  | cons q ps =>
    have h1 := (List.pairwise_cons.mp h.order).1 q (by simp)
    rw [hs] at h1
    have h2 := h1.1
    have h3 := h1.2.2 rfl
    cases hk : q.kind <;> simp_all [rank]

theorem Sorted.head_names {p : Param τ} {ps : List (Param τ)} (h : Sorted (p :: ps)) {n : String} (hn : named p n) :
    ∀ x ∈ ps, ¬ named x n := fun x hx => (List.pairwise_cons.mp h.different).1 x hx n hn

theorem named_of {p : Param τ} {ps : List (Param τ)} (h : Sorted ps) (hp : p ∈ ps)
    (hk : p.kind = .posOrKw ∨ p.kind = .kwOnly) : ∃ n, named p n := by
  obtain ⟨n, hn⟩ := h.names p hp hk
  exact ⟨n, hk, hn⟩

/-! ## The helpers of the loop -/

theorem suffixDouble_mem {c : Cfg τ} {ps : List (Param τ)} (h : suffixDouble c ps = some true) :
    ∃ p ∈ ps, p.kind = .starStar ∧ c.isAny p.ty = true := by
  induction ps with
  | nil => simp [suffixDouble] at h
  | cons p ps ih =>
    simp only [suffixDouble] at h
    split at h
    · rename_i hk
      exact ⟨p, by simp, hk, by simpa using h⟩
    · obtain ⟨q, hq, h⟩ := ih h
      exact ⟨q, List.mem_cons_of_mem _ hq, h⟩

theorem trivialSuffix_any {c : Cfg τ} {prev : Option (Param τ)} {p1 : Param τ} {r1 ps2 : List (Param τ)}
    (h : trivialSuffix c prev p1 r1 ps2 = true) :
    ∃ p ∈ prev.toList ++ p1 :: r1, many p = true ∧ c.isAny p.ty = true := by
  unfold trivialSuffix at h
  simp only at h
  split at h
  · simp at h
  · rename_i hs
    simp only [bne_iff_ne, ne_eq, Decidable.not_not] at hs
    split at h
    · rename_i b hb
      subst h
      obtain ⟨p, hp, hk, ha⟩ := suffixDouble_mem hb
      refine ⟨p, ?_, by simp [many, hk], ha⟩
      apply List.mem_append_right
      split at hp
      · exact hp
      · exact List.mem_cons_of_mem _ hp
    · simp only [Bool.and_eq_true] at h
      refine ⟨prev.getD p1, ?_, by simp [many, hs], h.1.2⟩
      cases prev <;> simp

theorem takeNamed_some {n : String} {un un' : List (Param τ)} {q : Param τ}
    (h : takeNamed (some n) un = some (q, un')) :
    ∃ l1 l2, un = l1 ++ q :: l2 ∧ un' = l1 ++ l2 ∧ q.name = some n := by
  induction un generalizing un' with
  | nil => simp [takeNamed] at h
  | cons x un ih =>
    simp only [takeNamed] at h
    split at h
    · rename_i hx
      simp at h
      obtain ⟨rfl, rfl⟩ := h
      exact ⟨[], un, rfl, rfl, hx.symm⟩
    · cases ht : takeNamed (some n) un with
      | none => simp [ht] at h
      | some r =>
        obtain ⟨r1, r2⟩ := r
        simp [ht] at h
        obtain ⟨rfl, rfl⟩ := h
        obtain ⟨l1, l2, h1, h2, h3⟩ := ih ht
        exact ⟨x :: l1, l2, by simp [h1], by simp [h2], h3⟩

theorem takeNamed_none {n : String} {un : List (Param τ)} (h : takeNamed (some n) un = none) :
    ∀ x ∈ un, x.name ≠ some n := by
  induction un with
  | nil => simp
  | cons x un ih =>
    simp only [takeNamed] at h
    split at h
    · simp at h
    · rename_i hx
      intro y hy
      rcases List.mem_cons.mp hy with rfl | hy
      · exact fun h => hx h.symm
      · exact ih (by simpa using h) y hy

/-- The kinds of `unused_keyword_params`. -/
def keyword (p : Param τ) : Bool := p.kind == .posOrKw || p.kind == .kwOnly

theorem keyword_iff {p : Param τ} : keyword p = true ↔ p.kind = .posOrKw ∨ p.kind = .kwOnly := by simp [keyword]

theorem scan_some {p1 : Param τ} {n : String} (hn : p1.name = some n) {r2 un rest un' : List (Param τ)} {q : Param τ}
    (h : scan p1 r2 un = some (q, rest, un')) :
    ∃ sk, r2 = sk ++ q :: rest ∧ un' = un ++ sk.filter keyword ∧ (named q n ∨ q.kind = .starStar) ∧
      ∀ x ∈ sk, ¬ named x n ∧ (keyword x = true ∨ Idle x) := by
  induction r2 generalizing un with
  | nil => simp [scan] at h
  | cons x r2 ih =>
    simp only [scan] at h
    split at h
    · rename_i hx
      simp at h
      obtain ⟨rfl, rfl, rfl⟩ := h
      exact ⟨[], rfl, by simp, .inl ⟨hx.2, hx.1.symm.trans hn⟩, by simp⟩
    · rename_i hx
      have hxn : ¬ named x n := fun h' => hx ⟨hn.trans h'.2.symm, h'.1⟩
      split at h
      · rename_i hk
        obtain ⟨sk, h1, h2, h3, h4⟩ := ih h
        refine ⟨x :: sk, by simp [h1], by simp [h2, keyword, hk], h3, ?_⟩
        intro y hy
        rcases List.mem_cons.mp hy with rfl | hy
        · exact ⟨hxn, .inl (by simp [keyword, hk])⟩
        · exact h4 y hy
      · rename_i hk
        obtain ⟨sk, h1, h2, h3, h4⟩ := ih h
        refine ⟨x :: sk, by simp [h1], by simp [h2, keyword, hk], h3, ?_⟩
        intro y hy
        rcases List.mem_cons.mp hy with rfl | hy
        · exact ⟨hxn, .inl (by simp [keyword, hk])⟩
        · exact h4 y hy
      · rename_i hk
        simp at h
        obtain ⟨rfl, rfl, rfl⟩ := h
        exact ⟨[], rfl, by simp, .inr hk, by simp⟩
      · rename_i hk
        obtain ⟨sk, h1, h2, h3, h4⟩ := ih h
        refine ⟨x :: sk, by simp [h1], by simp [h2, keyword, hk], h3, ?_⟩
        intro y hy
        rcases List.mem_cons.mp hy with rfl | hy
        · exact ⟨hxn, .inr (.inl hk)⟩
        · exact h4 y hy
      · rename_i hk
        split at h
        · rename_i hd
          obtain ⟨sk, h1, h2, h3, h4⟩ := ih h
          refine ⟨x :: sk, by simp [h1], by simp [h2, keyword, hk], h3, ?_⟩
          intro y hy
          rcases List.mem_cons.mp hy with rfl | hy
          · exact ⟨hxn, .inr (.inr ⟨hk, hd⟩)⟩
          · exact h4 y hy
        · simp at h

theorem behindStar_true {c : Cfg τ} {p1 s2 : Param τ} {n : String} (hn : p1.name = some n) {ps : List (Param τ)}
    (hs : Sorted ps) (h : behindStar c p1 s2 ps = true) :
    (∃ x ∈ ps, named x n ∧ x.hasDefault = true ∧ c.ok p1.ty x.ty = true) ∨
      (∀ x ∈ ps, ¬ named x n) ∧ ∃ x ∈ ps, x.kind = .starStar ∧ c.inv s2.ty x.ty = true := by
  induction ps with
  | nil => simp [behindStar] at h
  | cons x ps ih =>
    simp only [behindStar] at h
    split at h
    · rename_i hk
      obtain rfl := hs.after_double hk
      right
      refine ⟨?_, x, by simp, hk, h⟩
      simp only [List.mem_singleton, forall_eq]
      exact not_named_double hk
    · rename_i hk
      split at h
      · rename_i hx
        split at h
        · rename_i hd
          exact .inl ⟨x, by simp, ⟨.inr hk, hx.trans hn⟩, hd, h⟩
        · simp at h
      · rename_i hx
        rcases ih hs.tail h with ⟨y, hy, h1⟩ | ⟨h1, y, hy, h2⟩
        · exact .inl ⟨y, List.mem_cons_of_mem _ hy, h1⟩
        · refine .inr ⟨?_, y, List.mem_cons_of_mem _ hy, h2⟩
          intro z hz
          rcases List.mem_cons.mp hz with rfl | hz
          · exact fun hzn => hx (hzn.2.trans hn.symm)
          · exact h1 z hz
    · simp at h

theorem matchStarStar_true {c : Cfg τ} {p1 : Param τ} {ps2 : List (Param τ)} (h : matchStarStar c p1 ps2 = true) :
    (∃ q ∈ ps2, q.kind = .starStar) ∧
      ∀ x ∈ ps2, Idle x ∨ (x.kind = .starStar ∨ x.hasDefault = true) ∧ c.ok p1.ty x.ty = true := by
  simp only [matchStarStar, Bool.and_eq_true, List.any_eq_true, List.all_eq_true, beq_iff_eq] at h
  refine ⟨h.1, fun x hx => ?_⟩
  have hx := h.2 x hx
  cases hk : x.kind <;> simp_all [Idle]

/-! ## Keyword-only parameters -/

/-- What holds when the rest of `params1` has no positional parameters. -/
structure Late (r1 r2 un : List (Param τ)) : Prop where
  s1 : Sorted r1
  b1 : Behind r1
  s2 : Sorted r2
  kinds : ∀ x ∈ un, ∃ n, named x n
  diff : (un ++ r2).Pairwise fun p q => ∀ n, named p n → ¬ named q n
  dflt : ∀ p ∈ r1, p.kind = .kwOnly → p.hasDefault = true → ∀ q ∈ un ++ r2, ∀ n, named p n → named q n →
    q.hasDefault = true
  dbl : (∃ x ∈ r2, x.kind = .starStar) →
    (∀ p ∈ r1, ∀ q ∈ un, ∀ n, named p n → ¬ named q n) ∧ SameOrder r1 r2 ∧
      ((∃ p ∈ r1, p.kind = .starStar) → un = [] ∧ ∀ p ∈ r1, p.kind ≠ .kwOnly)

theorem diff_sub {sk rest un : List (Param τ)} {q : Param τ}
    (h : (un ++ (sk ++ q :: rest)).Pairwise fun p q => ∀ n, named p n → ¬ named q n) :
    ((un ++ sk.filter keyword) ++ rest).Pairwise fun p q => ∀ n, named p n → ¬ named q n := by
  refine h.sublist ?_
  rw [List.append_assoc]
  refine List.Sublist.append (List.Sublist.refl _) ?_
  exact List.Sublist.append List.filter_sublist (List.sublist_cons_self _ _)

theorem sameOrder_tail {p : Param τ} {r1 r2 : List (Param τ)} (h : SameOrder (p :: r1) r2) : SameOrder r1 r2 :=
  (List.pairwise_cons.mp h).2

theorem sameOrder_sub {r1 r2 r2' : List (Param τ)} (h : SameOrder r1 r2) (hs : r2'.Sublist r2) :
    SameOrder r1 r2' :=
  List.Pairwise.imp (fun hh h1 h2 n n' h3 h4 => (hh h1 h2 n n' h3 h4).sublist hs) h

theorem Late.tail {p : Param τ} {r1 r2 un : List (Param τ)} (h : Late (p :: r1) r2 un) : Late r1 r2 un where
  s1 := h.s1.tail
  b1 := fun x hx => h.b1 x (List.mem_cons_of_mem _ hx)
  s2 := h.s2
  kinds := h.kinds
  diff := h.diff
  dflt := fun p hp => h.dflt p (List.mem_cons_of_mem _ hp)
  dbl := fun hx => by
    obtain ⟨h1, h2, h3⟩ := h.dbl hx
    refine ⟨fun p hp => h1 p (List.mem_cons_of_mem _ hp), sameOrder_tail h2, ?_⟩
    rintro ⟨y, hy, hk⟩
    obtain ⟨h4, h5⟩ := h3 ⟨y, List.mem_cons_of_mem _ hy, hk⟩
    exact ⟨h4, fun p hp => h5 p (List.mem_cons_of_mem _ hp)⟩

theorem Late.drop_star {s : Param τ} {r1 r2 un : List (Param τ)} (h : Late r1 (s :: r2) un) : Late r1 r2 un where
  s1 := h.s1
  b1 := h.b1
  s2 := h.s2.tail
  kinds := h.kinds
  diff := h.diff.sublist (List.Sublist.append (List.Sublist.refl _) (List.sublist_cons_self _ _))
  dflt := fun p hp h1 h2 q hq => h.dflt p hp h1 h2 q (by
    rcases List.mem_append.mp hq with hq | hq
    · exact List.mem_append_left _ hq
    · exact List.mem_append_right _ (List.mem_cons_of_mem _ hq))
  dbl := by
    rintro ⟨x, hx, hk⟩
    obtain ⟨h1, h2, h3⟩ := h.dbl ⟨x, List.mem_cons_of_mem _ hx, hk⟩
    exact ⟨h1, sameOrder_sub h2 (List.sublist_cons_self _ _), h3⟩

/-- No `*args` or `**kwargs` of type `Any`, or the leniency for these is off. -/
def Strict (c : Cfg τ) (ps : List (Param τ)) : Prop :=
  c.precise = true ∨ ∀ p ∈ ps, many p = true → c.isAny p.ty = false

theorem strict_no_suffix {c : Cfg τ} {prev : Option (Param τ)} {p1 : Param τ} {r1 ps2 : List (Param τ)}
    (h : Strict c (prev.toList ++ p1 :: r1)) : (!c.precise && trivialSuffix c prev p1 r1 ps2) = false := by
  rcases h with h | h
  · simp [h]
  · cases ht : trivialSuffix c prev p1 r1 ps2 with
    | false => simp
    | true =>
      obtain ⟨p, hp, hm, ha⟩ := trivialSuffix_any ht
      rw [h p hp hm] at ha
      simp at ha

theorem Strict.tail {c : Cfg τ} {l : List (Param τ)} {p1 : Param τ} {r1 : List (Param τ)}
    (h : Strict c (l ++ p1 :: r1)) : Strict c (l ++ r1) :=
  h.imp id fun h p hp => h p (by
    rcases List.mem_append.mp hp with hp | hp
    · exact List.mem_append_left _ hp
    · exact List.mem_append_right _ (List.mem_cons_of_mem _ hp))

/-- What the loop does for a keyword-only parameter, once a `*args` on the other side has been passed. -/
inductive Found (c : Cfg τ) (p1 : Param τ) (r1 r2 : List (Param τ)) (st : St τ) : Prop
  | double {q rest} : r2 = q :: rest → q.kind = .starStar → c.ok p1.ty q.ty = true → loop c r1 r2 st = true →
    Found c p1 r1 r2 st
  | unused {q un} : takeNamed p1.name st.unused = some (q, un) → c.ok p1.ty q.ty = true →
    loop c r1 r2 { st with unused := un } = true → Found c p1 r1 r2 st
  | scanned {q rest un} : takeNamed p1.name st.unused = none → scan p1 r2 st.unused = some (q, rest, un) →
    c.ok p1.ty q.ty = true → loop c r1 rest { st with unused := un } = true → Found c p1 r1 r2 st

theorem loop_kwOnly {c : Cfg τ} {p1 : Param τ} {r1 r2 : List (Param τ)} {st : St τ} (hk : p1.kind = .kwOnly)
    (hst : Strict c (st.previous.toList ++ p1 :: r1)) (hun : ∀ x ∈ st.unused, ∃ n, named x n)
    (h : loop c (p1 :: r1) r2 st = true) :
    Found c p1 r1 r2 st ∨ ∃ s t, r2 = s :: t ∧ s.kind = .star ∧ Found c p1 r1 t st := by
  unfold loop at h
  split at h
  · rw [strict_no_suffix hst] at h
    simp at h
  · rename_i p2 hp2
    split at h
    · simp at h
    · simp only [hk] at h
      by_cases hs : p2.kind = .star
      · right
        simp only [hs, if_true] at h
        cases r2 with
        | nil =>
          simp at hp2
          obtain ⟨n, hn⟩ := hun p2 (List.mem_of_mem_head? hp2)
          exact absurd hn (not_named_star hs)
        | cons s t =>
          simp at hp2
          subst hp2
          refine ⟨s, t, rfl, hs, ?_⟩
          rw [List.tail_cons] at h
          by_cases hd : (t.head?.getD s).kind = .starStar
          · rw [if_pos hd] at h
            cases t with
            | nil => simp [hs] at hd
            | cons q t =>
              simp only [List.head?_cons, Option.getD_some, Bool.and_eq_true] at hd h
              exact .double rfl hd h.1 h.2
          · rw [if_neg hd] at h
            split at h
            · rename_i q un hq
              rw [Bool.and_eq_true] at h
              exact .unused hq h.1 h.2
            · rename_i hq
              split at h
              · rename_i q rest un hs'
                rw [Bool.and_eq_true] at h
                exact .scanned hq hs' h.1 h.2
              · simp at h
      · left
        simp only [hs, if_false] at h
        split at h
        · rename_i hd
          cases r2 with
          | nil =>
            simp at hp2
            obtain ⟨n, hn⟩ := hun p2 (List.mem_of_mem_head? hp2)
            exact absurd hn (not_named_double hd)
          | cons q t =>
            simp at hp2
            subst hp2
            rw [Bool.and_eq_true] at h
            exact .double rfl hd h.1 h.2
        · split at h
          · rename_i q un hq
            rw [Bool.and_eq_true] at h
            exact .unused hq h.1 h.2
          · rename_i hq
            split at h
            · rename_i q rest un hs'
              rw [Bool.and_eq_true] at h
              exact .scanned hq hs' h.1 h.2
            · simp at h

theorem pairwise_names {l1 l2 : List (Param τ)} {q : Param τ} {n : String}
    (h : (l1 ++ q :: l2).Pairwise fun p q => ∀ n, named p n → ¬ named q n) (hq : named q n) :
    ∀ x ∈ l1 ++ l2, ¬ named x n := by
  intro x hx hn
  rw [List.pairwise_append] at h
  rcases List.mem_append.mp hx with hx | hx
  · exact h.2.2 x hx q (by simp) n hn hq
  · exact (List.pairwise_cons.mp h.2.1).1 x hx n hq hn

theorem double_unique {ps : List (Param τ)} (h : Sorted ps) {p q : Param τ} (hp : p ∈ ps) (hq : q ∈ ps)
    (hpk : p.kind = .starStar) (hqk : q.kind = .starStar) : p = q := by
  obtain ⟨l1, l2, rfl⟩ := List.append_of_mem hq
  have h2 : l2 = [] := h.append.after_double hqk
  subst h2
  rcases List.mem_append.mp hp with hp | hp
  · have := (List.pairwise_append.mp h.order).2.2 p hp q (by simp)
    exact absurd hqk (this.2.2 hpk)
  · simpa using hp

theorem found_good {c : Cfg τ} {p1 : Param τ} {r1 r2 : List (Param τ)} {st : St τ} (hk : p1.kind = .kwOnly)
    (hL : Late (p1 :: r1) r2 st.unused)
    (ih : ∀ r2 un, Late r1 r2 un → loop c r1 r2 { st with unused := un } = true → Good α c.ok r1 (un ++ r2))
    (h : Found c p1 r1 r2 st) : Good α c.ok (p1 :: r1) (st.unused ++ r2) := by
  obtain ⟨n, hn⟩ := named_of hL.s1 (List.mem_cons_self ..) (.inr hk)
  have hd1 := hL.s1.head_names hn
  cases h with
  | @double q rest he hq hok hl =>
    subst he
    obtain rfl := hL.s2.after_double hq
    obtain ⟨h1, -, -⟩ := hL.dbl ⟨q, by simp, hq⟩
    refine step_double hn hd1 hq (by simp) (fun x hx => hx) (fun x hx => .inr (.inl hx)) ?_ ?_ hok
      (ih _ _ hL.tail hl)
    · intro x hx hxk
      rcases List.mem_append.mp hx with hx | hx
      · obtain ⟨m, hm⟩ := hL.kinds x hx
        exact absurd hm (not_named_double hxk)
      · simpa using hx
    · intro x hx
      rcases List.mem_append.mp hx with hx | hx
      · exact h1 p1 (by simp) x hx n hn
      · simp at hx; subst hx; exact not_named_double hq
  | @unused q un ht hok hl =>
    rw [hn.2] at ht
    obtain ⟨l1, l2, h1, h2, h3⟩ := takeNamed_some ht
    have hqm : q ∈ st.unused := by rw [h1]; simp
    have hqn : named q n := by
      obtain ⟨m, hm⟩ := hL.kinds q hqm
      exact ⟨hm.1, h3⟩
    have hdiff := hL.diff
    rw [h1, List.append_assoc, List.cons_append] at hdiff
    have hnames := pairwise_names hdiff hqn
    have hL' : Late r1 r2 un := by
      refine ⟨hL.s1.tail, hL.tail.b1, hL.s2, ?_, ?_, ?_, ?_⟩
      · intro x hx
        refine hL.kinds x ?_
        rw [h1]; rw [h2] at hx
        rcases List.mem_append.mp hx with hx | hx <;> simp [hx]
      · rw [h2, List.append_assoc]
        exact hdiff.sublist (List.Sublist.append (List.Sublist.refl _) (List.sublist_cons_self _ _))
      · intro p hp hpk hpd x hx
        refine hL.tail.dflt p hp hpk hpd x ?_
        rw [h1]; rw [h2] at hx
        rcases List.mem_append.mp hx with hx | hx
        · rcases List.mem_append.mp hx with hx | hx <;> simp [hx]
        · simp [hx]
      · intro hdx
        exact absurd hqn ((hL.dbl hdx).1 p1 (by simp) q hqm n hn)
    refine step_named hn hd1 hqn (List.mem_append_left _ hqm) ?_ ?_ ?_ hok ?_ (ih r2 un hL' hl)
    · intro x hx
      rw [h1]; rw [h2] at hx
      rcases List.mem_append.mp hx with hx | hx
      · rcases List.mem_append.mp hx with hx | hx <;> simp [hx]
      · simp [hx]
    · intro x hx
      rw [h1] at hx; rw [h2]
      simp only [List.mem_append, List.mem_cons] at hx ⊢
      tauto
    · rw [h2, List.append_assoc]; exact hnames
    · intro hpd
      exact hL.dflt p1 (by simp) hk hpd q (List.mem_append_left _ hqm) n hn hqn
  | @scanned q rest un ht hs hok hl =>
    rw [hn.2] at ht
    have hno := takeNamed_none ht
    obtain ⟨sk, h1, h2, h3, h4⟩ := scan_some hn.2 hs
    subst h1
    have hqm : q ∈ st.unused ++ (sk ++ q :: rest) := by simp
    have hsrest : Sorted (q :: rest) := hL.s2.append
    have hsub : ∀ x ∈ un ++ rest, x ∈ st.unused ++ (sk ++ q :: rest) := by
      intro x hx
      rw [h2] at hx
      simp only [List.mem_append, List.mem_cons, List.mem_filter] at hx ⊢
      tauto
    have hsup : ∀ x ∈ st.unused ++ (sk ++ q :: rest), x = q ∨ x ∈ un ++ rest ∨ Idle x := by
      intro x hx
      rw [h2]
      simp only [List.mem_append, List.mem_cons, List.mem_filter] at hx ⊢
      rcases hx with hx | hx | hx | hx
      · tauto
      · rcases (h4 x hx).2 with h | h <;> tauto
      · tauto
      · tauto
    have hL' : Late r1 rest un := by
      refine ⟨hL.s1.tail, hL.tail.b1, hsrest.tail, ?_, ?_, ?_, ?_⟩
      · intro x hx
        rw [h2] at hx
        rcases List.mem_append.mp hx with hx | hx
        · exact hL.kinds x hx
        · obtain ⟨hx, hkx⟩ := List.mem_filter.mp hx
          exact named_of hL.s2 (List.mem_append_left _ hx) (keyword_iff.mp hkx)
      · rw [h2]; exact diff_sub hL.diff
      · exact fun p hp hpk hpd x hx => hL.tail.dflt p hp hpk hpd x (hsub x hx)
      · rintro ⟨x, hx, hxk⟩
        rcases h3 with hqn | hqk
        · obtain ⟨g1, g2, g3⟩ := hL.dbl ⟨x, by simp [hx], hxk⟩
          refine ⟨?_, sameOrder_sub (sameOrder_tail g2) ?_, ?_⟩
          · intro p hp y hy m hpm hym
            rw [h2] at hy
            rcases List.mem_append.mp hy with hy | hy
            · exact g1 p (List.mem_cons_of_mem _ hp) y hy m hpm hym
            · obtain ⟨hy, -⟩ := List.mem_filter.mp hy
              have hpk : p.kind = .kwOnly := by
                rcases hL.tail.b1 p hp with h | h
                · exact h
                · exact absurd hpm (not_named_double h)
              have := (List.pairwise_cons.mp g2).1 p hp hk hpk n m hn hpm
              exact (List.pairwise_append.mp this).2.2 y hy q (by simp) hym hqn
          · exact (List.sublist_cons_self _ _).trans (List.sublist_append_right _ _)
          · rintro ⟨y, hy, hyk⟩
            exact absurd hk ((g3 ⟨y, List.mem_cons_of_mem _ hy, hyk⟩).2 p1 (by simp))
        · rw [hsrest.after_double hqk] at hx
          simp at hx
    rcases h3 with hqn | hqk
    · have hnames : ∀ x ∈ (st.unused ++ sk) ++ rest, ¬ named x n := by
        have := hL.diff
        rw [← List.append_assoc] at this
        exact pairwise_names this hqn
      refine step_named hn hd1 hqn hqm hsub hsup ?_ hok ?_ (ih rest un hL' hl)
      · intro x hx
        refine hnames x ?_
        rw [h2] at hx
        simp only [List.mem_append, List.mem_filter] at hx ⊢
        tauto
      · exact fun hpd => hL.dflt p1 (by simp) hk hpd q hqm n hn hqn
    · obtain rfl := hsrest.after_double hqk
      refine step_double hn hd1 hqk hqm hsub hsup ?_ ?_ hok (ih [] un hL' hl)
      · intro x hx hxk
        rcases List.mem_append.mp hx with hx | hx
        · obtain ⟨m, hm⟩ := hL.kinds x hx
          exact absurd hm (not_named_double hxk)
        · exact double_unique hL.s2 hx (by simp) hxk hqk
      · intro x hx
        rcases List.mem_append.mp hx with hx | hx
        · exact fun hxn => hno x hx hxn.2
        · rcases List.mem_append.mp hx with hx | hx
          · exact (h4 x hx).1
          · simp at hx; subst hx; exact not_named_double hqk

theorem good_idle {ok : τ → τ → Bool} {r1 un t : List (Param τ)} {s : Param τ} (hs : s.kind = .star)
    (h : Good α ok r1 (un ++ t)) : Good α ok r1 (un ++ s :: t) := by
  have hm : ∀ x, x ∈ un ++ t → x ∈ un ++ s :: t := by
    intro x hx
    simp only [List.mem_append, List.mem_cons] at hx ⊢
    tauto
  have hm' : ∀ x, x ∈ un ++ s :: t → x.kind ≠ .star → x ∈ un ++ t := by
    intro x hx hk
    simp only [List.mem_append, List.mem_cons] at hx ⊢
    rcases hx with hx | rfl | hx
    · exact .inl hx
    · exact absurd hs hk
    · exact .inr hx
  intro K hK
  obtain ⟨h1, h2⟩ := h K hK
  refine ⟨⟨h1.nodup, ?_, fun x hx g1 => h1.filled x (hm' x hx g1) g1⟩, ?_⟩
  · intro m hmm
    rcases h1.known m hmm with ⟨x, hx, hk⟩ | ⟨x, hx, hk⟩
    · exact .inl ⟨x, hm x hx, hk⟩
    · exact .inr ⟨x, hm x hx, hk⟩
  · rintro x v ⟨hx, hxv⟩
    have hxk : x.kind ≠ .star := by
      intro hk
      rcases hxv with ⟨m, hm, -⟩ | ⟨hk', -⟩
      · exact not_named_star hk hm
      · simp [hk] at hk'
    refine h2 x v ⟨hm' x hx hxk, ?_⟩
    rcases hxv with h | ⟨hk, m, hno, hv⟩
    · exact .inl h
    · exact .inr ⟨hk, m, fun y hy => hno y (hm y hy), hv⟩

theorem late_good {c : Cfg τ} (r1 : List (Param τ)) (r2 : List (Param τ)) (st : St τ)
    (hst : Strict c (st.previous.toList ++ r1)) (hL : Late r1 r2 st.unused) (h : loop c r1 r2 st = true) :
    Good α c.ok r1 (st.unused ++ r2) := by
  induction r1 generalizing r2 st with
  | nil =>
    simp only [loop, Bool.and_eq_true, List.all_eq_true, Bool.or_eq_true, many, beq_iff_eq] at h
    apply good_nil
    intro x hx
    rcases List.mem_append.mp hx with hx | hx
    · exact .inl (h.1 x hx)
    · exact h.2 x hx
  | cons p1 r1 ih =>
    rcases hL.b1 p1 (by simp) with hk | hk
    · have ih' : ∀ r2 un, Late r1 r2 un → loop c r1 r2 { st with unused := un } = true →
          Good α c.ok r1 (un ++ r2) := fun r2 un hL hl => ih r2 { st with unused := un } hst.tail hL hl
      rcases loop_kwOnly hk hst hL.kinds h with hf | ⟨s, t, rfl, hs, hf⟩
      · exact found_good hk hL ih' hf
      · exact good_idle hs (found_good hk hL.drop_star ih' hf)
    · obtain rfl := hL.s1.after_double hk
      unfold loop at h
      split at h
      · rw [strict_no_suffix hst] at h
        simp at h
      · split at h
        · simp at h
        · simp only [hk, Bool.and_eq_true] at h
          obtain ⟨⟨q, hq, hqk⟩, hall⟩ := matchStarStar_true h.1
          have hun := ((hL.dbl ⟨q, hq, hqk⟩).2.2 ⟨p1, by simp, hk⟩).1
          rw [hun, List.nil_append]
          exact good_doubles hk hq hqk hall

/-! ## Positional parameters -/

/-- The conditions of the partial theorem, for suffixes. -/
structure Early (r1 r2 : List (Param τ)) : Prop where
  s1 : Sorted r1
  s2 : Sorted r2
  dflt : KeepsDefaults r1 r2
  plain : Plain r1 r2
  clash : NoClash r1 r2

theorem Early.late {r1 r2 : List (Param τ)} (h : Early r1 r2) (hb : Behind r1) : Late r1 r2 [] where
  s1 := h.s1
  b1 := hb
  s2 := h.s2
  kinds := by simp
  diff := h.s2.different
  dflt := h.dflt
  dbl := fun hx => ⟨by simp, (h.plain hx).1, fun hp => ⟨rfl, (h.plain hx).2 hp⟩⟩

theorem Early.left {p : Param τ} {r1 r2 : List (Param τ)} (h : Early (p :: r1) r2) (hc : NoClash r1 r2) :
    Early r1 r2 where
  s1 := h.s1.tail
  s2 := h.s2
  dflt := fun p hp => h.dflt p (List.mem_cons_of_mem _ hp)
  plain := fun hx => by
    obtain ⟨h1, h2⟩ := h.plain hx
    refine ⟨sameOrder_tail h1, ?_⟩
    rintro ⟨y, hy, hyk⟩
    exact fun z hz => h2 ⟨y, List.mem_cons_of_mem _ hy, hyk⟩ z (List.mem_cons_of_mem _ hz)
  clash := hc

theorem Early.right {q : Param τ} {r1 r2 : List (Param τ)} (h : Early r1 (q :: r2)) (hc : NoClash r1 r2) :
    Early r1 r2 where
  s1 := h.s1
  s2 := h.s2.tail
  dflt := fun p hp h1 h2 q hq => h.dflt p hp h1 h2 q (List.mem_cons_of_mem _ hq)
  plain := by
    rintro ⟨x, hx, hxk⟩
    obtain ⟨h1, h2⟩ := h.plain ⟨x, List.mem_cons_of_mem _ hx, hxk⟩
    exact ⟨sameOrder_sub h1 (List.sublist_cons_self _ _), h2⟩
  clash := hc

theorem noClash_tails {p q : Param τ} {r1 r2 : List (Param τ)} (h : NoClash (p :: r1) (q :: r2)) : NoClash r1 r2 := by
  intro j x y n h1 h2 h3 h4 h5
  obtain ⟨g1, g2⟩ := h (j + 1) x y n (by simpa using h1) h2 (by simpa using h3) h4 h5
  exact ⟨fun z hz => g1 z (List.mem_cons_of_mem _ hz), fun z hz => g2 z (List.mem_cons_of_mem _ hz)⟩

theorem noClash_star {s : Param τ} {r1 r2 : List (Param τ)} (hs : s.kind = .star) (hb : Behind r2) :
    NoClash r1 (s :: r2) := by
  intro j x y n h1 h2 h3 h4 h5
  rcases List.mem_cons.mp (List.mem_of_getElem? h3) with rfl | hy
  · simp [hs] at h4
  · rcases hb y hy with h | h <;> simp [h] at h4

theorem Early.both {p q : Param τ} {r1 r2 : List (Param τ)} (h : Early (p :: r1) (q :: r2)) : Early r1 r2 := by
  have hc := noClash_tails h.clash
  refine ⟨h.s1.tail, h.s2.tail, ?_, ?_, hc⟩
  · exact fun p hp h1 h2 q hq => h.dflt p (List.mem_cons_of_mem _ hp) h1 h2 q (List.mem_cons_of_mem _ hq)
  · rintro ⟨x, hx, hxk⟩
    obtain ⟨h1, h2⟩ := h.plain ⟨x, List.mem_cons_of_mem _ hx, hxk⟩
    refine ⟨sameOrder_sub (sameOrder_tail h1) (List.sublist_cons_self _ _), ?_⟩
    rintro ⟨y, hy, hyk⟩
    exact fun z hz => h2 ⟨y, List.mem_cons_of_mem _ hy, hyk⟩ z (List.mem_cons_of_mem _ hz)

theorem default_of {p q : Param τ} (hq : many q = false) (h : ¬ (p.hasDefault && !(q.hasDefault || many q)) = true) :
    p.hasDefault = true → q.hasDefault = true := by
  intro hp
  cases hd : q.hasDefault with
  | true => rfl
  | false => simp [hp, hd, hq] at h

theorem early_usable {c : Cfg τ} (r1 r2 : List (Param τ)) (st : St τ)
    (hi : (∃ p ∈ r1, p.kind = .posOrKw) → c.ignoreNames = false)
    (hinv : (∃ p ∈ r1, p.kind = .posOrKw) → (∃ q ∈ r2, q.kind = .star) → ∀ a b t, c.inv a b = true → c.ok t a = true → c.ok t b = true)
    (hun : st.unused = []) (hpr : st.previous = none) (hst : Strict c r1) (hE : Early r1 r2)
    (h : loop c r1 r2 st = true) : Usable α c.ok r1 r2 := by
  have late : ∀ {r1 r2 : List (Param τ)}, Behind r1 → Early r1 r2 → Strict c r1 → loop c r1 r2 st = true →
      Usable α c.ok r1 r2 := by
    intro r1 r2 hb hE hst h
    have hL := hE.late hb
    have hg : Good α c.ok r1 (st.unused ++ r2) :=
      late_good r1 r2 st (by rw [hpr]; exact hst) (by rw [hun]; exact hL) h
    rw [hun] at hg
    exact usable_of_good hb hg
  induction r1 generalizing r2 with
  | nil => exact late (by intro p hp; simp at hp) hE hst h
  | cons p1 r1 ih =>
    have hst' : Strict c r1 := Strict.tail (l := []) hst
    have ih := fun r2' (hsub : ∀ x ∈ r2', x ∈ r2) => ih r2' (fun ⟨p, hp, hk⟩ => hi ⟨p, List.mem_cons_of_mem _ hp, hk⟩)
      (fun ⟨p, hp, hk⟩ ⟨q, hq, hqk⟩ => hinv ⟨p, List.mem_cons_of_mem _ hp, hk⟩ ⟨q, hsub q hq, hqk⟩)
    by_cases hk : p1.kind = .kwOnly
    · refine late ?_ hE hst h
      intro x hx
      rcases List.mem_cons.mp hx with rfl | hx
      · exact .inl hk
      · exact hE.s1.after_kwOnly hk x hx
    by_cases hk' : p1.kind = .starStar
    · refine late ?_ hE hst h
      intro x hx
      rcases List.mem_cons.mp hx with rfl | hx
      · exact .inr hk'
      · rw [hE.s1.after_double hk'] at hx; simp at hx
    unfold loop at h
    split at h
    · rw [strict_no_suffix (by rw [hpr]; exact hst)] at h
      simp at h
    · rename_i p2 hp2
      have hr2 : ∃ t, r2 = p2 :: t := by
        cases r2 with
        | nil => simp [hun] at hp2
        | cons x t => simp at hp2; exact ⟨t, by rw [hp2]⟩
      obtain ⟨t, rfl⟩ := hr2
      split at h
      · simp at h
      · rename_i hdef
        cases hk1 : p1.kind with
        | kwOnly => exact absurd hk1 hk
        | starStar => exact absurd hk1 hk'
        | posOnly =>
          have hpos : positional p1 := .inl hk1
          have both : positional p2 → (c.ok p1.ty p2.ty && loop c r1 t st) = true →
              Usable α c.ok (p1 :: r1) (p2 :: t) := by
            intro hpos2 hh
            rw [Bool.and_eq_true] at hh
            have hu := ih t (fun x hx => List.mem_cons_of_mem _ hx) hst' hE.both hh.2
            have hno : ∀ n, named p2 n → (∀ x ∈ r1, ¬ named x n) ∧ ∀ x ∈ r1, x.kind ≠ .starStar := by
              intro n hn
              have hk2 : p2.kind = .posOrKw := by
                rcases hpos2 with h | h
                · exact absurd hn (not_named_posOnly h)
                · exact h
              obtain ⟨g1, g2⟩ := hE.clash 0 p1 p2 n rfl hk1 rfl hk2 hn.2
              exact ⟨fun x hx => g1 x (List.mem_cons_of_mem _ hx), fun x hx => g2 x (List.mem_cons_of_mem _ hx)⟩
            refine usable_both hpos hpos2 hh.1 (fun n hn => .inr (hno n hn)) ?_ hu
            refine step_posOnly hk1 hpos2 (default_of ?_ hdef) hno (good_of_usable hu)
            rcases hpos2 with h | h <;> simp [many, h]
          simp only [hk1, List.tail_cons] at h
          cases hk2 : p2.kind with
          | posOnly => simp only [hk2] at h; exact both (.inl hk2) h
          | posOrKw => simp only [hk2] at h; exact both (.inr hk2) h
          | star =>
            simp only [hk2, Bool.and_eq_true] at h
            have hb := hE.s2.after_star hk2
            have hu := ih (p2 :: t) (fun x hx => hx) hst' (hE.left (noClash_star hk2 hb)) h.2
            exact usable_into_star hpos hk2 hb h.1 (good_posOnly hk1 (good_of_usable hu)) hu
          | kwOnly => simp [hk2] at h
          | starStar => simp [hk2] at h
        | posOrKw =>
          have hpos : positional p1 := .inr hk1
          have hi := hi ⟨p1, by simp, hk1⟩
          have hinv := hinv ⟨p1, by simp, hk1⟩
          obtain ⟨n, hn⟩ := named_of hE.s1 (List.mem_cons_self ..) (.inl hk1)
          have hd1 := hE.s1.head_names hn
          simp only [hk1, List.tail_cons] at h
          cases hk2 : p2.kind with
          | posOnly => simp [hk2, hi] at h
          | posOrKw =>
            simp only [hk2] at h
            split at h
            · rename_i hnm
              rw [Bool.and_eq_true] at h
              have hpos2 : positional p2 := .inr hk2
              have hn2 : named p2 n := ⟨.inl hk2, hnm.symm.trans hn.2⟩
              have hu := ih t (fun x hx => List.mem_cons_of_mem _ hx) hst' hE.both h.2
              refine usable_both hpos hpos2 h.1 ?_ ?_ hu
              · intro m hm
                rw [named_inj hm hn2]
                exact .inl hn
              · refine step_named hn hd1 hn2 (by simp) (fun x hx => List.mem_cons_of_mem _ hx) ?_
                  (hE.s2.head_names hn2) h.1 (default_of (by simp [many, hk2]) hdef) (good_of_usable hu)
                intro x hx
                rcases List.mem_cons.mp hx with rfl | hx
                · exact .inl rfl
                · exact .inr (.inl hx)
            · simp [hi] at h
          | star =>
            simp only [hk2, Bool.and_eq_true] at h
            have hb := hE.s2.after_star hk2
            have hu := ih (p2 :: t) (fun x hx => hx) hst' (hE.left (noClash_star hk2 hb)) h.2
            refine usable_into_star hpos hk2 hb h.1.1 ?_ hu
            rcases behindStar_true hn.2 hE.s2.tail h.1.2 with ⟨x, hx, hxn, -, hok⟩ | ⟨hno, x, hx, hxk, hiv⟩
            · refine step_add hn hd1 hxn (List.mem_cons_of_mem _ hx) ?_ hok (good_of_usable hu)
              intro y hy hyn
              have hy' : y ∈ t := by
                rcases List.mem_cons.mp hy with rfl | hy
                · exact absurd hyn (not_named_star hk2)
                · exact hy
              by_contra hne
              obtain ⟨l1, l2, hl⟩ := List.append_of_mem hx
              have hdiff := hE.s2.tail.different
              rw [hl] at hdiff hy'
              have := pairwise_names hdiff hxn y (by
                simp only [List.mem_append, List.mem_cons] at hy' ⊢
                tauto)
              exact this hyn
            · refine step_double hn hd1 hxk (List.mem_cons_of_mem _ hx) (fun y hy => hy)
                (fun y hy => .inr (.inl hy)) ?_ ?_ (hinv ⟨p2, by simp, hk2⟩ _ _ _ hiv h.1.1) (good_of_usable hu)
              · exact fun y hy hyk => double_unique hE.s2 hy (List.mem_cons_of_mem _ hx) hyk hxk
              · intro y hy
                rcases List.mem_cons.mp hy with rfl | hy
                · exact not_named_star hk2
                · exact hno y hy
          | kwOnly => simp [hk2] at h
          | starStar => simp [hk2] at h
        | star =>
          simp only [hk1] at h
          split at h
          · rename_i hk2
            rw [Bool.and_eq_true, List.tail_cons] at h
            have hb1 := hE.s1.after_star hk1
            have hb2 := hE.s2.after_star hk2
            refine usable_stars hk1 hk2 hb1 hb2 h.1 ?_
            have hL := hE.both.late hb1
            have hg : Good α c.ok r1 (({ st with previous := some p1 } : St τ).unused ++ t) :=
              late_good r1 t { st with previous := some p1 } hst (by simpa [hun] using hL) h.2
            simpa [hun] using hg
          · rw [strict_no_suffix (by rw [hpr]; exact hst)] at h
            simp at h

end Verif.Callable
