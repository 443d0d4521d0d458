import Verif.Callable.Sound

/-! # `Callable[[..], ..]`, reflexivity, and the order of keyword-only parameters: helpers -/

namespace Verif.Callable

open Verif.Call Verif.Call.Spec Verif.Callable.Spec

variable {α τ : Type}

/-! ## Only positional-only parameters -/

theorem reaches_mem {ps : List (Param τ)} {P : List α} {K : List (String × α)} {q : Param τ} {v : α}
    (h : Reaches ps P K q v) : v ∈ P ∨ v ∈ K.map Prod.snd := by
  obtain ⟨j, -, hg⟩ := h
  cases hg with
  | position _ _ h => exact .inl (List.mem_of_getElem? h)
  | rest _ _ _ h => exact .inl (List.mem_of_getElem? h)
  | name _ _ h => exact .inr (List.mem_map.mpr ⟨_, h, rfl⟩)
  | other _ _ _ h => exact .inr (List.mem_map.mpr ⟨_, h, rfl⟩)

theorem fresh (l : List Nat) : ∃ v, v ∉ l := by
  have key : ∀ l : List Nat, ∃ b, ∀ x ∈ l, x < b := by
    intro l
    induction l with
    | nil => exact ⟨0, by simp⟩
    | cons y l ih =>
      obtain ⟨b, hb⟩ := ih
      refine ⟨max b (y + 1), fun x hx => ?_⟩
      rcases List.mem_cons.mp hx with rfl | hx
      · omega
      · have := hb x hx
        omega
  obtain ⟨b, hb⟩ := key l
  exact ⟨b, fun h => Nat.lt_irrefl b (hb b h)⟩

theorem head_orElse (p : Param τ) (t : List (Param τ)) (o : Option (Param τ)) : ((p :: t).head? <|> o) = some p := rfl

/-- All the positional arguments. -/
theorem accepts_full {r1 : List (Param τ)} (hp : ∀ p ∈ r1, p.kind = .posOnly) :
    Accepts r1 (r1.map fun _ => 0) ([] : List (String × Nat)) := by
  induction r1 with
  | nil => exact accepts_nil.mpr ⟨by simp, by simp, by simp⟩
  | cons p r1 ih =>
    exact (accepts_cons (.inl (hp p (by simp)))).mpr ⟨ih fun q hq => hp q (List.mem_cons_of_mem _ hq), by simp⟩

theorem usable_drop {ok : τ → τ → Bool} {p q : Param τ} {r1 u : List (Param τ)} (hp : p.kind = .posOnly)
    (hq : positional q) (h : Usable Nat ok (p :: r1) (q :: u)) : Usable Nat ok r1 u := by
  intro P K ha
  obtain ⟨v, hv⟩ := fresh (P ++ K.map Prod.snd)
  have hpK : ∀ n, named p n → n ∉ K.map Prod.fst := fun n hn => absurd hn (not_named_posOnly hp)
  obtain ⟨h1, h2⟩ := h (v :: P) K ((accepts_cons (.inl hp)).mpr ⟨ha, hpK⟩)
  obtain ⟨h1, hqK⟩ := (accepts_cons hq).mp h1
  refine ⟨h1, fun x w hx => ?_⟩
  obtain ⟨y, hy, ht⟩ := h2 x w ((reaches_cons hq hqK).mpr (.inr hx))
  rcases (reaches_cons (.inl hp) hpK).mp hy with ⟨-, rfl⟩ | hy
  · rcases reaches_mem hx with h | h <;> simp [h] at hv
  · exact ⟨y, hy, ht⟩

theorem usable_drop_star {ok : τ → τ → Bool} {p s : Param τ} {r1 u : List (Param τ)} (hp : p.kind = .posOnly)
    (hs : s.kind = .star) (hb : Behind u) (h : Usable Nat ok (p :: r1) (s :: u)) : Usable Nat ok r1 (s :: u) := by
  intro P K ha
  obtain ⟨v, hv⟩ := fresh (P ++ K.map Prod.snd)
  have hpK : ∀ n, named p n → n ∉ K.map Prod.fst := fun n hn => absurd hn (not_named_posOnly hp)
  obtain ⟨h1, h2⟩ := h (v :: P) K ((accepts_cons (.inl hp)).mpr ⟨ha, hpK⟩)
  refine ⟨(accepts_star hs hb).mpr ((accepts_star hs hb).mp h1), fun x w hx => ?_⟩
  have hx' : Reaches (s :: u) (v :: P) K x w := by
    rcases (reaches_star hs hb).mp hx with ⟨rfl, hw⟩ | hx
    · exact (reaches_star hs hb).mpr (.inl ⟨rfl, List.mem_cons_of_mem _ hw⟩)
    · exact (reaches_star hs hb).mpr (.inr hx)
  obtain ⟨y, hy, ht⟩ := h2 x w hx'
  rcases (reaches_cons (.inl hp) hpK).mp hy with ⟨-, rfl⟩ | hy
  · rcases reaches_mem hx with h | h <;> simp [h] at hv
  · exact ⟨y, hy, ht⟩

theorem head_room {q : Param τ} {u : List (Param τ)} {v : α} {P : List α} {K : List (String × α)}
    (hs : Sorted (q :: u)) (h : Accepts (q :: u) (v :: P) K) : positional q ∨ q.kind = .star := by
  rcases h.room with ⟨s, hm, hk⟩ | hr
  · rcases List.mem_cons.mp hm with rfl | hm
    · exact .inr hk
    · have := ((List.pairwise_cons.mp hs.order).1 s hm).1
      rw [hk] at this
      cases hq : q.kind <;> simp_all [rank, positional]
  · obtain ⟨x, hx, hp⟩ := hr 0 (by simp)
    simp at hx
    subst hx
    exact .inl hp

theorem exact_complete {c : Cfg τ} (r1 r2 : List (Param τ)) (st : St τ) (hun : st.unused = [])
    (hp : ∀ p ∈ r1, p.kind = .posOnly) (hd : r1.Pairwise fun p q => p.hasDefault = true → q.hasDefault = true)
    (hs : Sorted r2) (h : Usable Nat c.ok r1 r2) : loop c r1 r2 st = true := by
  induction r1 generalizing r2 with
  | nil =>
    obtain ⟨h1, -⟩ := h [] [] (accepts_nil.mpr ⟨by simp, by simp, by simp⟩)
    simp only [loop, hun, Bool.and_eq_true, List.all_eq_true, Bool.or_eq_true, many, beq_iff_eq]
    refine ⟨by simp, fun x hx => ?_⟩
    by_contra hcon
    simp only [not_or, Bool.not_eq_true] at hcon
    obtain ⟨n, v, -, hv⟩ := (accepts_nil.mp h1).filled x hx hcon.2.1 hcon.2.2 hcon.1
    simp at hv
  | cons p1 r1 ih =>
    have hk := hp p1 (by simp)
    have hp' : ∀ p ∈ r1, p.kind = .posOnly := fun q hq => hp q (List.mem_cons_of_mem _ hq)
    have hd' := (List.pairwise_cons.mp hd).2
    obtain ⟨v, hv⟩ := fresh (r1.map fun _ => 0)
    have hpK : ∀ n, named p1 n → n ∉ ([] : List (String × Nat)).map Prod.fst := by simp
    have hacc : Accepts (p1 :: r1) (v :: r1.map fun _ => 0) ([] : List (String × Nat)) :=
      (accepts_cons (.inl hk)).mpr ⟨accepts_full hp', hpK⟩
    obtain ⟨h1, h2⟩ := h _ _ hacc
    cases r2 with
    | nil =>
      rcases h1.room with ⟨s, hm, -⟩ | hr
      · simp at hm
      · obtain ⟨x, hx, -⟩ := hr 0 (by simp)
        simp at hx
    | cons p2 t =>
      have hhead := head_room hs h1
      have hdef : (p1.hasDefault && !(p2.hasDefault || many p2)) = false := by
        cases hpd : p1.hasDefault with
        | false => simp
        | true =>
          have hall : ∀ x ∈ p1 :: r1, x.hasDefault = true := by
            intro x hx
            rcases List.mem_cons.mp hx with rfl | hx
            · exact hpd
            · exact (List.pairwise_cons.mp hd).1 x hx hpd
          obtain ⟨g1, -⟩ := h [] [] (accepts_nil.mpr ⟨by simp, by simp, fun x hx _ _ hf => by simp [hall x hx] at hf⟩)
          simp only [Bool.true_and, Bool.not_eq_false', Bool.or_eq_true, many, beq_iff_eq]
          by_contra hcon
          simp only [not_or, Bool.not_eq_true] at hcon
          obtain ⟨n, w, -, hw⟩ := (accepts_nil.mp g1).filled p2 (by simp) hcon.2.1 hcon.2.2 hcon.1
          simp at hw
      have hty : Reaches (p2 :: t) (v :: r1.map fun _ => 0) ([] : List (String × Nat)) p2 v →
          c.ok p1.ty p2.ty = true := by
        intro hr
        obtain ⟨y, hy, ht⟩ := h2 p2 v hr
        rcases (reaches_cons (.inl hk) hpK).mp hy with ⟨rfl, -⟩ | hy
        · exact ht
        · rcases reaches_mem hy with h | h
          · exact absurd h hv
          · simp at h
      unfold loop
      simp only [head_orElse, hdef, Bool.false_eq_true, if_false, hk, List.tail_cons]
      rcases hhead with hpos | hstar
      · have ht := hty ((reaches_cons hpos (by simp)).mpr (.inl ⟨rfl, rfl⟩))
        have hl := ih t hp' hd' hs.tail (usable_drop hk hpos h)
        rcases hpos with h | h <;> simp [h, ht, hl]
      · have hb := hs.after_star hstar
        have ht := hty ((reaches_star hstar hb).mpr (.inl ⟨rfl, by simp⟩))
        have hl := ih (p2 :: t) hp' hd' hs (usable_drop_star hk hstar hb h)
        simp [hstar, ht, hl]

/-! ## Reflexivity -/

theorem loop_refl {c : Cfg τ} (r : List (Param τ)) (st : St τ) (hun : st.unused = []) (hs : Sorted r)
    (hok : ∀ p ∈ r, c.ok p.ty p.ty = true) : loop c r r st = true := by
  induction r generalizing st with
  | nil => simp [loop, hun]
  | cons p r ih =>
    have hp := hok p (by simp)
    have ih := fun (st : St τ) (h : st.unused = []) =>
      ih st h hs.tail fun q hq => hok q (List.mem_cons_of_mem _ hq)
    unfold loop
    have hdef : (p.hasDefault && !(p.hasDefault || many p)) = false := by cases p.hasDefault <;> simp
    simp only [head_orElse, hdef, Bool.false_eq_true, if_false, List.tail_cons]
    cases hk : p.kind with
    | posOnly => simp [hk, hp, ih st hun]
    | posOrKw => simp [hk, hp, ih st hun]
    | star => simp [hk, hp, ih { st with previous := some p } hun]
    | kwOnly =>
      simp [hk, hun, takeNamed, scan, hp, ih { st with unused := [] } rfl]
    | starStar =>
      obtain rfl := hs.after_double hk
      simp [matchStarStar, hk, hp, ih st hun]

/-! ## The order of keyword-only parameters -/

theorem takeNamed_none_of {n : Option String} {un : List (Param τ)} (h : ∀ x ∈ un, n ≠ x.name) :
    takeNamed n un = none := by
  induction un with
  | nil => rfl
  | cons x un ih =>
    simp [takeNamed, h x (by simp), ih fun y hy => h y (List.mem_cons_of_mem _ hy)]

theorem takeNamed_mem {p : Param τ} {l1 l2 : List (Param τ)} (h : ∀ x ∈ l1, p.name ≠ x.name) :
    takeNamed p.name (l1 ++ p :: l2) = some (p, l1 ++ l2) := by
  induction l1 with
  | nil => simp [takeNamed]
  | cons x l1 ih =>
    simp [takeNamed, h x (by simp), ih fun y hy => h y (List.mem_cons_of_mem _ hy)]

theorem scan_mem {p : Param τ} (hp : p.kind = .kwOnly) {l1 l2 un : List (Param τ)} (hk : ∀ x ∈ l1, x.kind = .kwOnly)
    (h : ∀ x ∈ l1, p.name ≠ x.name) : scan p (l1 ++ p :: l2) un = some (p, l2, un ++ l1) := by
  induction l1 generalizing un with
  | nil => simp [scan, hp]
  | cons x l1 ih =>
    simp [scan, h x (by simp), hk x (by simp),
      ih (fun y hy => hk y (List.mem_cons_of_mem _ hy)) (fun y hy => h y (List.mem_cons_of_mem _ hy))]

theorem loop_perm {c : Cfg τ} (b : Bool) (r1 r2 : List (Param τ)) (st : St τ) (hperm : r1.Perm (st.unused ++ r2))
    (hk : ∀ p ∈ r1, p.kind = .kwOnly) (hb : ∀ p ∈ r1, p.hasDefault = b)
    (hn : r1.Pairwise fun p q => p.name ≠ q.name) (hok : ∀ p ∈ r1, c.ok p.ty p.ty = true) :
    loop c r1 r2 st = true := by
  induction r1 generalizing r2 st with
  | nil =>
    have := hperm.symm.eq_nil
    simp at this
    simp [loop, this.1, this.2]
  | cons p r1 ih =>
    have hp := hok p (by simp)
    have hpk := hk p (by simp)
    have mem : ∀ x, x ∈ p :: r1 ↔ x ∈ st.unused ++ r2 := fun x => hperm.mem_iff
    have hkr : ∀ x ∈ st.unused ++ r2, x.kind = .kwOnly := fun x hx => hk x ((mem x).mpr hx)
    have ih := fun (r2 : List (Param τ)) (st : St τ) (h : r1.Perm (st.unused ++ r2)) =>
      ih r2 st h (fun q hq => hk q (List.mem_cons_of_mem _ hq)) (fun q hq => hb q (List.mem_cons_of_mem _ hq))
        (List.pairwise_cons.mp hn).2 (fun q hq => hok q (List.mem_cons_of_mem _ hq))
    have hne : ∀ x ∈ r1, p.name ≠ x.name := (List.pairwise_cons.mp hn).1
    -- every other parameter of the second side has another name
    have hother : ∀ l1 l2, st.unused ++ r2 = l1 ++ p :: l2 → r1.Perm (l1 ++ l2) := by
      intro l1 l2 he
      have h1 : (p :: r1).Perm (p :: (l1 ++ l2)) := by
        rw [he] at hperm
        exact hperm.trans List.perm_middle
      exact (List.perm_cons p).mp h1
    have hpm : p ∈ st.unused ++ r2 := (mem p).mp (by simp)
    have hhead : ∃ p2, (r2.head? <|> st.unused.head?) = some p2 ∧ p2 ∈ st.unused ++ r2 := by
      cases r2 with
      | cons x t => exact ⟨x, rfl, by simp⟩
      | nil =>
        cases hu : st.unused with
        | nil => simp [hu] at hpm
        | cons x t => exact ⟨x, rfl, by simp⟩
    obtain ⟨p2, h2, hm2⟩ := hhead
    have hk2 := hkr p2 hm2
    have hdef : (p.hasDefault && !(p2.hasDefault || many p2)) = false := by
      rw [hb p (by simp), hb p2 ((mem p2).mpr hm2)]
      cases b <;> simp
    unfold loop
    simp only [h2, hdef, Bool.false_eq_true, if_false, hpk, hk2, reduceCtorEq]
    by_cases hu : p ∈ st.unused
    · obtain ⟨l1, l2, he⟩ := List.append_of_mem hu
      have hperm' : r1.Perm ((l1 ++ l2) ++ r2) := by
        rw [List.append_assoc]
        apply hother
        rw [he]
        simp
      rw [he, takeNamed_mem fun x hx => hne x (hperm'.mem_iff.mpr (by simp [hx]))]
      simp only [hp, Bool.true_and]
      exact ih r2 { st with unused := l1 ++ l2 } hperm'
    · have hr : p ∈ r2 := by simpa [hu] using hpm
      obtain ⟨l1, l2, rfl⟩ := List.append_of_mem hr
      have hperm' : r1.Perm ((st.unused ++ l1) ++ l2) := by
        apply hother
        simp
      rw [takeNamed_none_of fun x hx => hne x (hperm'.mem_iff.mpr (by simp [hx]))]
      rw [scan_mem hpk (fun x hx => hkr x (by simp [hx])) fun x hx => hne x (hperm'.mem_iff.mpr (by simp [hx]))]
      simp only [hp, Bool.true_and]
      exact ih l2 { st with unused := st.unused ++ l1 } hperm'

/-- The same positional parameters and `*args` in front. -/
theorem loop_front {c : Cfg τ} (a r1 r2 : List (Param τ)) (st : St τ) (hun : st.unused = [])
    (ha : ∀ p ∈ a, positional p ∨ p.kind = .star) (hok : ∀ p ∈ a, c.ok p.ty p.ty = true)
    (h : ∀ st : St τ, st.unused = [] → loop c r1 r2 st = true) : loop c (a ++ r1) (a ++ r2) st = true := by
  induction a generalizing st with
  | nil => exact h st hun
  | cons p a ih =>
    have hp := hok p (by simp)
    have ih := fun (st : St τ) (h : st.unused = []) =>
      ih st h (fun q hq => ha q (List.mem_cons_of_mem _ hq)) fun q hq => hok q (List.mem_cons_of_mem _ hq)
    rw [List.cons_append, List.cons_append]
    unfold loop
    have hdef : (p.hasDefault && !(p.hasDefault || many p)) = false := by cases p.hasDefault <;> simp
    simp only [head_orElse, hdef, Bool.false_eq_true, if_false, List.tail_cons]
    rcases ha p (by simp) with (hk | hk) | hk
    · simp [hk, hp, ih st hun]
    · simp [hk, hp, ih st hun]
    · simp [hk, hp, ih { st with previous := some p } hun]

/-! ## Only positional parameters on both sides -/

theorem loop_aligned {c : Cfg τ} (hi : c.ignoreNames = false) (r1 r2 : List (Param τ)) (st : St τ)
    (hun : st.unused = []) (hpr : st.previous = none) (hp1 : ∀ p ∈ r1, positional p) (hp2 : ∀ p ∈ r2, positional p)
    (h : loop c r1 r2 st = true) :
    ∀ (j : Nat) p, r1[j]? = some p → p.kind = .posOrKw → ∃ q, r2[j]? = some q ∧ q.kind = .posOrKw ∧ q.name = p.name := by
  induction r1 generalizing r2 with
  | nil => simp
  | cons p1 r1 ih =>
    unfold loop at h
    split at h
    · have hpos := hp1 p1 (by simp)
      have : trivialSuffix c st.previous p1 r1 r2 = false := by
        unfold trivialSuffix
        rcases hpos with h | h <;> simp [hpr, h]
      simp [this] at h
    · rename_i p2 hm2
      have hr2 : ∃ t, r2 = p2 :: t := by
        cases r2 with
        | nil => simp [hun] at hm2
        | cons x t => simp at hm2; exact ⟨t, by rw [hm2]⟩
      obtain ⟨t, rfl⟩ := hr2
      have ih := fun h => ih t (fun q hq => hp1 q (List.mem_cons_of_mem _ hq))
        (fun q hq => hp2 q (List.mem_cons_of_mem _ hq)) h
      split at h
      · simp at h
      · rcases hp1 p1 (by simp) with hk1 | hk1
        · have hl : loop c r1 t st = true := by
            rcases hp2 p2 (by simp) with hk2 | hk2 <;> simp [hk1, hk2] at h <;> exact h.2
          intro j p hj hk
          match j with
          | 0 => simp at hj; subst hj; simp [hk1] at hk
          | j + 1 => simpa using ih hl j p (by simpa using hj) hk
        · rcases hp2 p2 (by simp) with hk2 | hk2
          · simp [hk1, hk2, hi] at h
          · simp only [hk1, hk2, List.tail_cons, hi, Bool.false_eq_true, if_false] at h
            split at h
            · rename_i hnm
              rw [Bool.and_eq_true] at h
              intro j p hj hk
              match j with
              | 0 => simp at hj; subst hj; exact ⟨p2, rfl, hk2, hnm.symm⟩
              | j + 1 => simpa using ih h.2 j p (by simpa using hj) hk
            · simp at h

end Verif.Callable
