import Verif.Signature.Lemmas

/-!
# Signature help: the parameter that is marked, the signature that is marked, and where names are in the label

C221 to C225.
-/

set_option linter.unusedVariables false
set_option linter.unusedSimpArgs false

namespace Verif.Signature

open Spec

/-- C221, the marked parameter: if the cursor is in an argument `n=...`, the parameter that is marked is the one Python
gives the argument to, and if there is none, no parameter is marked and the signature is called invalid.  Missing:
whether the parameter has already got another argument. -/
theorem keyword_active_partial {ps : List Param} (hw : WellFormed ps) (prev : List Arg) (n : Str) :
    (∀ i, KwSlot ps n i ↔ current ps (prev ++ [.kw n]) = (some i, true)) ∧
    ((∀ i, ¬ KwSlot ps n i) ↔ current ps (prev ++ [.kw n]) = (none, false)) := by
  have hc : current ps (prev ++ [.kw n]) =
      match byKeyword n 0 ps with
      | some i => (some i, true)
      | none => (none, false) := by
    unfold current
    simp only [collect_kw]
    cases byKeyword n 0 ps <;> rfl
  cases hb : byKeyword n 0 ps with
  | some i =>
    rw [hb] at hc
    obtain ⟨j, p, h1, h2, h3⟩ := byKeyword_some hb
    have hj : j = i := by omega
    subst hj
    have hs : KwSlot ps n j := by
      rcases h3 with ⟨h3, h4⟩ | ⟨h3, h4⟩
      · exact Or.inl ⟨p, h2, h3, h4⟩
      · refine Or.inr ⟨?_, p, h2, h3⟩
        intro q hq nq
        obtain ⟨j', hj'⟩ := List.mem_iff_getElem?.mp hq
        have hle := starStar_last hw h2 hj' h3
        rcases Nat.lt_or_ge j' j with hl | hl
        · exact h4 j' q hl hj' nq
        · have : j' = j := by omega
          subst this
          rw [h2] at hj'
          simp only [Option.some.injEq] at hj'
          subst hj'
          rcases nq with nq | nq <;> rw [nq] at h3 <;> simp at h3
    constructor
    · intro i'
      rw [hc]
      constructor
      · intro hi
        rw [kwSlot_unique hw hs hi]
      · intro he
        simp only [Prod.mk.injEq, Option.some.injEq, and_true] at he
        rw [← he]; exact hs
    · rw [hc]
      constructor
      · intro h; exact absurd hs (h j)
      · intro h; simp at h
  | none =>
    rw [hb] at hc
    have hn := byKeyword_none hb
    have hs : ∀ i, ¬ KwSlot ps n i := by
      intro i hi
      rcases hi with ⟨p, p1, p2, p3⟩ | ⟨p1, p, p2, p3⟩
      · exact (hn p (List.mem_of_getElem? p1)).2 p2 p3
      · exact (hn p (List.mem_of_getElem? p2)).1 p3
    refine ⟨?_, ?_⟩
    · intro i
      rw [hc]
      exact ⟨fun h => absurd h (hs i), fun h => by simp at h⟩
    · rw [hc]; exact ⟨fun _ => rfl, fun _ => hs⟩

/-- `a` -/
def pA : Param := ⟨.posOrKw, some ['a'], ['i'], false⟩
/-- `b` -/
def pB : Param := ⟨.posOrKw, some ['b'], ['i'], false⟩
/-- `c` -/
def pC : Param := ⟨.posOrKw, some ['c'], ['i'], true⟩
/-- `a, /` -/
def pAonly : Param := ⟨.posOnly, some ['a'], ['i'], false⟩
/-- `*, b` -/
def pBkw : Param := ⟨.kwOnly, some ['b'], ['i'], false⟩
/-- `*args` -/
def pArgs : Param := ⟨.star, some ['r'], ['i'], false⟩
/-- `**kwargs` -/
def pKwargs : Param := ⟨.starStar, some ['k'], ['i'], false⟩

theorem wellFormed_abc : WellFormed [pAonly, pC, pArgs, pBkw, pKwargs] :=
  ⟨by simp [pAonly, pC, pArgs, pBkw, pKwargs, Before],
   by simp [pAonly, pC, pArgs, pBkw, pKwargs, Named],
   by simp [pAonly, pC, pArgs, pBkw, pKwargs, Named]⟩

/-- `def f(a, /, c=1, *r, b, **k)` and `f(1, b=`, `f(1, a=`. -/
example : current [pAonly, pC, pArgs, pBkw, pKwargs] ([.pos] ++ [.kw ['b']]) = (some 3, true) ∧
    current [pAonly, pC, pArgs, pBkw, pKwargs] ([.pos] ++ [.kw ['a']]) = (some 4, true) ∧
    current [pAonly, pC, pArgs, pBkw] ([.pos] ++ [.kw ['a']]) = (none, false) := by decide +kernel

/-- `def f(a)` and the call `f(1, a=`: parameter `a` has already got the first argument, so Python raises a `TypeError`
whatever comes next.  Still the signature is called valid and `a` is marked. -/
theorem keyword_taken_violation :
    WellFormed [pA] ∧ current [pA] ([.pos] ++ [.kw ['a']]) = (some 0, true) ∧ ¬ Free [pA] [.pos] 0 := by
  refine ⟨⟨by simp, by simp [pA], by simp⟩, by decide +kernel, ?_⟩
  rintro ⟨p, hp, h⟩
  simp only [List.getElem?_cons_zero, Option.some.injEq] at hp
  subst hp
  rcases h with h | h
  · simp [Variadic, pA] at h
  · exact h 0 (Or.inl ⟨.pos, by simp, trivial, Or.inl ⟨rfl, pA, by simp, Or.inr rfl⟩⟩)

theorem current_pos {ps : List Param} {prev : List Arg} (hp : ∀ a ∈ prev, Plain a) {a : Arg} (ha : IsPos a) :
    current ps (prev ++ [a]) = byPosition (collect (prev ++ [a])) (positions prev + 1) 0 true ps := by
  obtain ⟨h1, -, -, -, h5, -⟩ := collect_pos prev hp a ha
  unfold current
  simp only [h5, h1]

theorem byPosition_slot {ps : List Param} (hw : WellFormed ps) {prev : List Arg} {s : St} (hk : s.hadKw = false)
    {i : Nat} (hi : PosSlot ps (positions prev) i) :
    byPosition s (positions prev + 1) 0 true ps = (some i, true) := by
  have key : ∃ b, byPosition s (positions prev + 1) 0 true ps = (some (0 + i), b) := by
    rcases hi with ⟨rfl, p, hp1, hp2⟩ | ⟨hn, p, hp1, hp2⟩
    · obtain ⟨g1, g2⟩ := hit_at hw hk hp1 hp2
      refine byPosition_of_hit hp1 g1 ?_
      intro j q hj hq
      obtain ⟨d1, d2⟩ := g2 j q hj hq
      rw [d2]
      have hpos := positional_before hw hj hq hp1 hp2
      have : ¬ ((positions prev : Int) + 1 - j ≤ 1) := by omega
      rcases hpos with hq' | hq' <;> simp only [hit, hq'] <;> simp [this]
    · refine byPosition_of_hit hp1 (by simp [hit, hp2, hk]) ?_
      intro j q hj hq
      have hpos : Positional q := by
        have := order_at hw hj hq hp1
        rw [hp2] at this
        unfold Positional
        cases hk' : q.kind <;> simp [hk', Before] at this ⊢
      obtain ⟨g1, g2⟩ := hit_at hw hk hq hpos
      have hcnt : cnt s (ps.take j) = j := by
        refine cnt_take_all (by have := (List.getElem?_eq_some_iff.mp hq).1; omega) ?_
        intro j' q' hj' hq'
        exact (g2 j' q' hj' hq').1
      have hjn : j < positions prev := by
        rcases Nat.lt_trichotomy j (positions prev) with h | h | h
        · exact h
        · rw [h] at hq; exact absurd hpos (hn q hq)
        · obtain ⟨hl, -⟩ := List.getElem?_eq_some_iff.mp hq
          have hx : ps[positions prev]? = some (ps[positions prev]'(by omega)) := List.getElem?_eq_getElem (by omega)
          exact absurd (positional_before hw h hx hq hpos) (hn _ hx)
      rw [hcnt]
      have : ¬ ((positions prev : Int) + 1 - j ≤ 1) := by omega
      rcases hpos with hq' | hq' <;> simp only [hit, hq'] <;> simp [this]
  obtain ⟨b, hb⟩ := key
  rw [hb, byPosition_flag (Or.inl hk) hb]
  simp

/-- C222, positions: in a call with positions only, the parameter of the position is marked and the signature is
valid. -/
theorem positional_active {ps : List Param} (hw : WellFormed ps) {prev : List Arg} (hp : ∀ a ∈ prev, IsPos a)
    {a : Arg} (ha : IsPos a) {i : Nat} (hi : PosSlot ps (positions prev) i) :
    current ps (prev ++ [a]) = (some i, true) := by
  have hpl : ∀ a ∈ prev, Plain a := by
    intro b hb
    have := hp b hb
    cases b <;> simp [IsPos, Plain] at this ⊢
  obtain ⟨-, -, h3, -, -, -⟩ := collect_pos prev hpl a ha
  rw [current_pos hpl ha]
  have hk : (collect (prev ++ [a])).hadKw = false := by
    cases hh : (collect (prev ++ [a])).hadKw with
    | false => rfl
    | true =>
      obtain ⟨n, hn⟩ := h3.mp hh
      exact absurd (hp _ hn) (by simp [IsPos])
  exact byPosition_slot hw hk hi

/-- `def f(a, /, c=1, *r, b, **k)` and `f(x, y, z, `. -/
example : PosSlot [pAonly, pC, pArgs, pBkw, pKwargs] 3 2 ∧
    current [pAonly, pC, pArgs, pBkw, pKwargs] ([.pos, .posName ['y'], .pos] ++ [.pos]) = (some 2, true) := by
  refine ⟨Or.inr ⟨?_, pArgs, by simp, rfl⟩, by decide +kernel⟩
  intro p hp
  simp only [List.getElem?_cons_succ, List.getElem?_cons_zero, Option.some.injEq] at hp
  subst hp
  simp [Positional, pBkw]

/-- C222, `f(x, y, *z`: the parameter of the next position is marked, which gets the first of the values. -/
theorem star_active {ps : List Param} (hw : WellFormed ps) {prev : List Arg} (hp : ∀ a ∈ prev, IsPos a) {i : Nat}
    (hi : PosSlot ps (positions prev) i) : current ps (prev ++ [.star]) = (some i, true) := by
  have hpl : ∀ a ∈ prev, Plain a := by
    intro b hb
    have := hp b hb
    cases b <;> simp [IsPos, Plain] at this ⊢
  obtain ⟨h1, h2, h3, h4⟩ := fold_facts prev hpl St.init
  have hk : (collect (prev ++ [.star])).hadKw = false := by
    cases hh : (collect (prev ++ [.star])).hadKw with
    | false => rfl
    | true =>
      simp only [collect, List.foldl_append, List.foldl_cons, List.foldl_nil, St.step] at hh
      rcases h3.mp hh with h | ⟨n, hn⟩
      · simp [St.init] at h
      · exact absurd (hp _ hn) (by simp [IsPos])
  have he : (collect (prev ++ [.star])).expected = positions prev + 1 := by
    simp only [collect, List.foldl_append, List.foldl_cons, List.foldl_nil, St.step, h1]
    simp [St.init]
  have hf : (collect (prev ++ [.star])).forKw = none := by
    simp [collect, List.foldl_append, St.step]
  unfold current
  simp only [hf, he]
  exact byPosition_slot hw hk hi

example : current [pAonly, pC, pArgs] ([.pos] ++ [.star]) = (some 1, true) := by decide +kernel

theorem fold_keyword (args : List Arg) (s : St) :
    (s.hadKw = true → (args.foldl St.step s).hadKw = true) ∧
    ((∃ n, Arg.kw n ∈ args) ∨ Arg.starStar ∈ args → (args.foldl St.step s).hadKw = true) ∧
    (∀ n, n ∈ s.used ∨ Arg.kw n ∈ args → n ∈ (args.foldl St.step s).used) := by
  induction args generalizing s with
  | nil => simp
  | cons a as ih =>
    obtain ⟨i1, i2, i3⟩ := ih (s.step a)
    simp only [List.foldl_cons]
    refine ⟨?_, ?_, ?_⟩
    · intro h
      apply i1
      cases a <;> simp [St.step, h]
    · intro h
      cases a with
      | kw m => exact i1 (by simp [St.step])
      | starStar => exact i1 (by simp [St.step])
      | pos => exact i2 (by simpa using h)
      | posName m => exact i2 (by simpa using h)
      | star => exact i2 (by simpa using h)
    · intro n h
      apply i3
      cases a with
      | kw m =>
        simp only [St.step, List.mem_append, List.mem_cons, List.not_mem_nil, or_false, Arg.kw.injEq] at h ⊢
        rcases h with h | h | h
        · exact Or.inl (Or.inl h)
        · exact Or.inl (Or.inr h)
        · exact Or.inr h
      | starStar => simpa [St.step] using h
      | pos => simpa [St.step] using h
      | posName m => simpa [St.step] using h
      | star => simpa [St.step] using h

/-- C222, for all calls, also with stars: after a keyword or `**` neither a positional only parameter nor `*args` is
marked, and if the cursor is not in a keyword, no parameter is marked that was given as a keyword. -/
theorem active_after_keyword {ps : List Param} {args : List Arg} (hk : (∃ n, Arg.kw n ∈ args) ∨ Arg.starStar ∈ args)
    {i : Nat} {b : Bool} (h : current ps args = (some i, b)) :
    ∃ p, ps[i]? = some p ∧ p.kind ≠ .posOnly ∧ p.kind ≠ .star ∧
      ((∀ n prev, args ≠ prev ++ [.kw n]) → Named p → ∀ n, p.name = some n → Arg.kw n ∉ args) := by
  obtain ⟨-, f2, f3⟩ := fold_keyword args St.init
  have hkw : (collect args).hadKw = true := f2 hk
  have hused : ∀ n, Arg.kw n ∈ args → n ∈ (collect args).used := fun n hn => f3 n (Or.inr hn)
  have hfor : ∀ n, (collect args).forKw = some n → ∃ prev, args = prev ++ [.kw n] := by
    intro n hn
    rcases List.eq_nil_or_concat args with rfl | ⟨prev, a, rfl⟩
    · simp [collect, St.init] at hn
    · refine ⟨prev, ?_⟩
      cases a <;> simp [collect, St.step] at hn ⊢
      exact hn
  unfold current at h
  simp only at h
  cases hf : (collect args).forKw with
  | some n =>
    simp only [hf] at h
    cases hb : byKeyword n 0 ps with
    | none => simp [hb] at h
    | some j =>
      simp only [hb, Prod.mk.injEq, Option.some.injEq] at h
      obtain ⟨j', p, h1, h2, h3⟩ := byKeyword_some hb
      have : j' = i := by omega
      subst this
      refine ⟨p, h2, ?_, ?_, ?_⟩
      · rcases h3 with ⟨h3 | h3, -⟩ | ⟨h3, -⟩ <;> simp [h3]
      · rcases h3 with ⟨h3 | h3, -⟩ | ⟨h3, -⟩ <;> simp [h3]
      · intro hno
        obtain ⟨prev, hp⟩ := hfor n hf
        exact absurd hp (hno n prev)
  | none =>
    simp only [hf] at h
    obtain ⟨j, p, h1, h2, h3, -⟩ := byPosition_some h
    have : j = i := by omega
    subst this
    refine ⟨p, h2, ?_, ?_, ?_⟩
    · intro hp; simp [hit, dec, hp, hkw] at h3
    · intro hp; simp [hit, hp, hkw] at h3
    · intro _ hnm n hn hmem
      have hu := hused n hmem
      rcases hnm with hp | hp
      · simp [hit, dec, hp, hkw, isUsed, hn, hu] at h3
      · simp [hit, hp, kwOnlyHit, hn, hu] at h3

/-- `def f(a, /, c=1, *r, b, **k)` and `f(x, **y, c=1, `: `b` is marked. -/
example : current [pAonly, pC, pArgs, pBkw, pKwargs] [.pos, .starStar, .kw ['c'], .pos] = (some 3, false) := by
  decide +kernel

/-- C222, after an opening parenthesis: the first parameter is marked. -/
theorem first_active {ps : List Param} (hw : WellFormed ps) (hne : ps ≠ []) : current ps [] = (some 0, true) := by
  cases ps with
  | nil => exact absurd rfl hne
  | cons p ps =>
    have hn := hw.named p (by simp)
    obtain ⟨kind, name, ty, d⟩ := p
    cases kind with
    | kwOnly =>
      obtain ⟨n, hn⟩ := hn (Or.inr rfl)
      simp only at hn
      subst hn
      simp [current, collect, St.init, byPosition, kwOnlyHit]
    | _ => simp [current, collect, St.init, byPosition, isUsed]

/-- C222, in general: if the cursor is in an argument without a name, the marked parameter is one that can get the
argument: it has no argument yet, and it is the one of the position or can be given by its name.  A keyword-only
parameter is marked only if its name begins with what is written. -/
theorem active_free {ps : List Param} (hw : WellFormed ps) {prev : List Arg} (hp : ∀ a ∈ prev, Plain a)
    {a : Arg} (ha : IsPos a) {i : Nat} {b : Bool} (h : current ps (prev ++ [a]) = (some i, b)) :
    CanBe ps prev i ∧
    ∀ p n q, ps[i]? = some p → p.kind = .kwOnly → p.name = some n → a = .posName q → q <+: n := by
  obtain ⟨-, -, h3, h4, -, h6⟩ := collect_pos prev hp a ha
  rw [current_pos hp ha] at h
  have hpot : ∀ q, a = .posName q → (collect (prev ++ [a])).potential = some q := by
    intro q hq; rw [h6, hq]; rfl
  generalize collect (prev ++ [a]) = s at h h3 h4 hpot
  obtain ⟨j, p, e1, e2, e3, e4⟩ := byPosition_some h
  have hj : j = i := by omega
  subst hj
  have hcl := cnt_take_le s ps j
  -- no position was given to a parameter at or after the expected one
  have notPos : ∀ j', positions prev ≤ j ∨ ¬ Positional p → p.kind ≠ .star →
      ∀ c, prev[j']? = some c → IsPos c → ¬ PosSlot ps (positions (prev.take j')) j := by
    intro j' hge hst c hc hcp hs
    rcases hs with ⟨hs, q, hq, hqp⟩ | ⟨-, q, hq, hqs⟩
    · have := positions_take_lt hc hcp
      rw [e2] at hq
      simp only [Option.some.injEq] at hq
      subst hq
      rcases hge with hge | hge
      · omega
      · exact hge hqp
    · rw [e2] at hq
      simp only [Option.some.injEq] at hq
      subst hq
      exact hst hqs
  cases hk : p.kind with
  | posOnly =>
    refine ⟨?_, by intro q n _ hq hqk; rw [e2] at hq; simp only [Option.some.injEq] at hq; subst hq; simp [hk] at hqk⟩
    simp only [hit, dec, hk, Bool.and_eq_true, decide_eq_true_eq] at e3
    have hkw : s.hadKw = false := by simpa using e3.1
    have hnokw : ¬ ∃ n, Arg.kw n ∈ prev := by
      intro hx; have := h3.mpr hx; rw [hkw] at this; simp at this
    have hge : positions prev ≤ j := by omega
    have heq : j = positions prev := by
      rcases Nat.lt_or_ge (positions prev) j with hl | hl
      · obtain ⟨hlen, -⟩ := List.getElem?_eq_some_iff.mp e2
        have hx : ps[positions prev]? = some (ps[positions prev]'(by omega)) := List.getElem?_eq_getElem (by omega)
        have := hit_at hw hkw hx (positional_before hw hl hx e2 (Or.inl hk))
        exact absurd (e4 _ _ hl hx) (by rw [this.1]; simp)
      · omega
    refine ⟨⟨p, e2, Or.inr ?_⟩, Or.inl ⟨hnokw, Or.inl ⟨heq, p, e2, Or.inl hk⟩⟩⟩
    rintro j' (⟨c, hc, hcp, hs⟩ | ⟨n, hc, -⟩)
    · exact notPos j' (Or.inl hge) (by simp [hk]) c hc hcp hs
    · exact hnokw ⟨n, List.mem_of_getElem? hc⟩
  | posOrKw =>
    refine ⟨?_, by intro q n _ hq hqk; rw [e2] at hq; simp only [Option.some.injEq] at hq; subst hq; simp [hk] at hqk⟩
    simp only [hit, hk, Bool.and_eq_true, decide_eq_true_eq] at e3
    obtain ⟨hdec, hle⟩ := e3
    have hge : positions prev ≤ j := by omega
    obtain ⟨n, hn⟩ := hw.named p (List.mem_of_getElem? e2) (Or.inl hk)
    refine ⟨⟨p, e2, Or.inr ?_⟩, Or.inr ⟨n, Or.inl ⟨p, e2, Or.inl hk, hn⟩⟩⟩
    rintro j' (⟨c, hc, hcp, hs⟩ | ⟨m, hc, hs⟩)
    · exact notPos j' (Or.inl hge) (by simp [hk]) c hc hcp hs
    · have hmem := List.mem_of_getElem? hc
      rcases hs with ⟨q, hq, -, hqn⟩ | ⟨-, q, hq, hqs⟩
      · rw [e2] at hq
        simp only [Option.some.injEq] at hq
        subst hq
        have h1 := h3.mpr ⟨m, hmem⟩
        have h2 := (h4 m).mpr hmem
        simp [dec, hk, h1, isUsed, hqn, h2] at hdec
      · rw [e2] at hq
        simp only [Option.some.injEq] at hq
        subst hq
        rw [hk] at hqs; simp at hqs
  | kwOnly =>
    simp only [hit, hk, kwOnlyHit] at e3
    obtain ⟨n, hn⟩ := hw.named p (List.mem_of_getElem? e2) (Or.inr hk)
    simp only [hn] at e3
    by_cases hu : n ∈ s.used
    · simp [hu] at e3
    · rw [if_neg hu] at e3
      constructor
      · refine ⟨⟨p, e2, Or.inr ?_⟩, Or.inr ⟨n, Or.inl ⟨p, e2, Or.inr hk, hn⟩⟩⟩
        rintro j' (⟨c, hc, hcp, hs⟩ | ⟨m, hc, hs⟩)
        · exact notPos j' (Or.inr (by simp [Positional, hk])) (by simp [hk]) c hc hcp hs
        · have hmem := List.mem_of_getElem? hc
          rcases hs with ⟨q, hq, -, hqn⟩ | ⟨-, q, hq, hqs⟩
          · rw [e2] at hq
            simp only [Option.some.injEq] at hq
            subst hq
            rw [hn] at hqn
            simp only [Option.some.injEq] at hqn
            subst hqn
            exact hu ((h4 _).mpr hmem)
          · rw [e2] at hq
            simp only [Option.some.injEq] at hq
            subst hq
            rw [hk] at hqs; simp at hqs
      · intro p' n' q hp' _ hn' hq
        rw [e2] at hp'
        simp only [Option.some.injEq] at hp'
        subst hp'
        rw [hn] at hn'
        simp only [Option.some.injEq] at hn'
        subst hn'
        rw [hpot q hq] at e3
        simpa using e3
  | star =>
    refine ⟨?_, by intro q n _ hq hqk; rw [e2] at hq; simp only [Option.some.injEq] at hq; subst hq; simp [hk] at hqk⟩
    have hkw : s.hadKw = false := by simpa [hit, hk] using e3
    have hnokw : ¬ ∃ n, Arg.kw n ∈ prev := by
      intro hx; have := h3.mpr hx; rw [hkw] at this; simp at this
    refine ⟨⟨p, e2, Or.inl (Or.inl hk)⟩, Or.inl ⟨hnokw, Or.inr ⟨?_, p, e2, hk⟩⟩⟩
    intro q hq hqp
    rcases Nat.lt_trichotomy (positions prev) j with hl | hl | hl
    · exact absurd (e4 _ _ hl hq) (by rw [(hit_at hw hkw hq hqp).1]; simp)
    · rw [hl, e2] at hq
      simp only [Option.some.injEq] at hq
      subst hq
      simp [Positional, hk] at hqp
    · have := positional_before hw hl e2 hq hqp
      simp [Positional, hk] at this
  | starStar =>
    refine ⟨?_, by intro q n _ hq hqk; rw [e2] at hq; simp only [Option.some.injEq] at hq; subst hq; simp [hk] at hqk⟩
    obtain ⟨n, hn⟩ := fresh ps
    exact ⟨⟨p, e2, Or.inl (Or.inr hk)⟩, Or.inr ⟨n, Or.inr ⟨fun q hq _ => hn q hq, p, e2, hk⟩⟩⟩

/-- `def f(a, b, c=1)` and `f(1, b=2, `: `c` is marked. -/
example : current [pA, pB, pC] ([.pos, .kw ['b']] ++ [.pos]) = (some 2, true) := by decide +kernel

/-- `def f(a)` and the call `f(1, **kw`: `a` is marked although it has already got the first argument. -/
theorem double_star_taken_violation :
    current [pA] ([.pos] ++ [.starStar]) = (some 0, true) ∧ ¬ Free [pA] [.pos] 0 :=
  ⟨by decide +kernel, keyword_taken_violation.2.2⟩

/-- C223, which signatures are valid: if the arguments before the cursor fit the parameters, a signature is called
invalid only if no parameter can get another argument, except for keyword-only parameters that do not begin with the
name that is written; and it is called valid only if the marked parameter can get it.  Missing: parameters that are
positional only, in calls with keywords; an empty call of a function without parameters; arguments with stars. -/
theorem valid_partial {ps : List Param} (hw : WellFormed ps) {prev : List Arg} (hp : ∀ a ∈ prev, Plain a)
    (hf : Fits ps prev) (ho : (¬ ∃ n, Arg.kw n ∈ prev) ∨ ∀ p ∈ ps, p.kind ≠ .posOnly) {a : Arg} (ha : IsPos a) :
    (∃ i, current ps (prev ++ [a]) = (some i, true) ∧ CanBe ps prev i) ∨
    (current ps (prev ++ [a]) = (none, false) ∧ ∀ i, CanBe ps prev i →
      ∃ p n q, ps[i]? = some p ∧ p.kind = .kwOnly ∧ p.name = some n ∧ a = .posName q ∧ ¬ q <+: n) := by
  cases hc : current ps (prev ++ [a]) with
  | mk r b =>
    obtain ⟨-, -, h3, h4, -, h6⟩ := collect_pos prev hp a ha
    cases r with
    | some i =>
      refine Or.inl ⟨i, ?_, (active_free hw hp ha hc).1⟩
      rw [current_pos hp ha] at hc
      have : b = true := by
        refine byPosition_flag ?_ hc
        rcases ho with ho | ho
        · left
          cases hh : (collect (prev ++ [a])).hadKw with
          | false => rfl
          | true => exact absurd (h3.mp hh) ho
        · exact Or.inr (Or.inl ho)
      rw [this]
    | none =>
      right
      rw [current_pos hp ha] at hc
      generalize collect (prev ++ [a]) = s at hc h3 h4 h6
      obtain ⟨hb, hn⟩ := byPosition_none hc
      refine ⟨by rw [hb], ?_⟩
      rintro i ⟨⟨p, hpi, hfree⟩, hslot⟩
      have hni := hn i p hpi
      -- a parameter that has not got an argument is not among the used names
      have unused : ¬ Variadic p → ∀ n, Named p → p.name = some n → n ∉ s.used := by
        intro hv n hnm hpn hu
        obtain ⟨j, hj⟩ := List.mem_iff_getElem?.mp ((h4 n).mp hu)
        rcases hfree with hfree | hfree
        · exact hv hfree
        · exact hfree j (Or.inr ⟨n, hj, Or.inl ⟨p, hpi, hnm, hpn⟩⟩)
      have nokw : s.hadKw = false ∨ s.hadKw = true := by cases s.hadKw <;> simp
      cases hk : p.kind with
      | starStar => simp [hit, hk] at hni
      | star =>
        have hkw : s.hadKw = true := by simpa [hit, hk] using hni
        rcases hslot with ⟨h, -⟩ | ⟨n, h⟩
        · exact absurd (h3.mp hkw) h
        · rcases h with ⟨q, hq, hqn, -⟩ | ⟨-, q, hq, hqs⟩
          · rw [hpi] at hq
            simp only [Option.some.injEq] at hq
            subst hq
            simp [Named, hk] at hqn
          · rw [hpi] at hq
            simp only [Option.some.injEq] at hq
            subst hq
            rw [hk] at hqs; simp at hqs
      | kwOnly =>
        obtain ⟨n, hnm⟩ := hw.named p (List.mem_of_getElem? hpi) (Or.inr hk)
        have hu := unused (by simp [Variadic, hk]) n (Or.inr hk) hnm
        simp only [hit, hk, kwOnlyHit, hnm, if_neg hu, h6] at hni
        cases a with
        | posName q =>
          refine ⟨p, n, q, hpi, hk, hnm, rfl, ?_⟩
          simp only [prefixOf] at hni
          intro hpre
          rw [List.isPrefixOf_iff_prefix.mpr hpre] at hni
          simp at hni
        | pos => simp [prefixOf] at hni
        | _ => exact absurd ha (by simp [IsPos])
      | posOnly =>
        rcases hslot with ⟨hnk, h⟩ | ⟨n, h⟩
        · have hkw : s.hadKw = false := by
            cases hh : s.hadKw with
            | false => rfl
            | true => exact absurd (h3.mp hh) hnk
          rcases h with ⟨rfl, -⟩ | ⟨-, q, hq, hqs⟩
          · rw [(hit_at hw hkw hpi (Or.inl hk)).1] at hni
            simp at hni
          · rw [hpi] at hq
            simp only [Option.some.injEq] at hq
            subst hq
            rw [hk] at hqs; simp at hqs
        · rcases h with ⟨q, hq, hqn, -⟩ | ⟨-, q, hq, hqs⟩
          · rw [hpi] at hq
            simp only [Option.some.injEq] at hq
            subst hq
            simp [Named, hk] at hqn
          · rw [hpi] at hq
            simp only [Option.some.injEq] at hq
            subst hq
            rw [hk] at hqs; simp at hqs
      | posOrKw =>
        obtain ⟨m, hnm⟩ := hw.named p (List.mem_of_getElem? hpi) (Or.inl hk)
        have hu := unused (by simp [Variadic, hk]) m (Or.inl hk) hnm
        have hdec : dec s p = true := by simp [dec, hk, isUsed, hnm, hu]
        simp only [hit, hk, hdec, Bool.true_and, decide_eq_false_iff_not] at hni
        have hge : positions prev ≤ i := by
          rcases Nat.lt_or_ge i (positions prev) with hl | hl
          · obtain ⟨j, c, g1, g2, g3⟩ := exists_position hl
            rcases hfree with hfree | hfree
            · simp [Variadic, hk] at hfree
            · exact absurd (Or.inl ⟨c, g1, g2, by rw [g3]; exact Or.inl ⟨rfl, p, hpi, Or.inr hk⟩⟩) (hfree j)
          · exact hl
        obtain ⟨hlen, -⟩ := List.getElem?_eq_some_iff.mp hpi
        have hall : cnt s (ps.take (positions prev)) = positions prev := by
          refine cnt_take_all (by omega) ?_
          intro j0 q hj0 hq
          have hqp := positional_before hw (by omega) hq hpi (Or.inr hk)
          obtain ⟨j, c, g1, g2, g3⟩ := exists_position hj0
          have hb1 : BindsTo ps prev j j0 := Or.inl ⟨c, g1, g2, by rw [g3]; exact Or.inl ⟨rfl, q, hq, hqp⟩⟩
          rcases hqp with hqk | hqk
          · have hkw : s.hadKw = false := by
              rcases ho with ho | ho
              · cases hh : s.hadKw with
                | false => rfl
                | true => exact absurd (h3.mp hh) ho
              · exact absurd hqk (ho q (List.mem_of_getElem? hq))
            simp [dec, hqk, hkw]
          · obtain ⟨m', hm'⟩ := hw.named q (List.mem_of_getElem? hq) (Or.inl hqk)
            have : m' ∉ s.used := by
              intro hx
              obtain ⟨j1, hj1⟩ := List.mem_iff_getElem?.mp ((h4 m').mp hx)
              have hb2 : BindsTo ps prev j1 j0 := Or.inr ⟨m', hj1, Or.inl ⟨q, hq, Or.inl hqk, hm'⟩⟩
              have he := hf.once j j1 j0 q hb1 hb2 hq (by simp [Variadic, hqk])
              subst he
              rw [g1] at hj1
              simp only [Option.some.injEq] at hj1
              subst hj1
              simp [IsPos] at g2
            simp [dec, hqk, isUsed, hm', this]
        have := cnt_mono s ps hge
        omega

/-- `def f(a, b, c=1)`, `f(1, ` fits and can be continued. -/
example : Fits [pA, pB, pC] [.pos] ∧ current [pA, pB, pC] ([.pos] ++ [.pos]) = (some 1, true) := by
  refine ⟨⟨?_, ?_⟩, by decide +kernel⟩
  · intro j hj
    have : j = 0 := by simp at hj; omega
    subst this
    exact ⟨0, Or.inl ⟨.pos, by simp, trivial, Or.inl ⟨rfl, pA, by simp, Or.inr rfl⟩⟩⟩
  · have gen : ∀ j i, BindsTo [pA, pB, pC] [.pos] j i → j = 0 := by
      intro j i h
      rcases h with ⟨a, h, -, -⟩ | ⟨n, h, -⟩ <;> (cases j with
        | zero => rfl
        | succ j => simp at h)
    intro j j' i p h h' _ _
    rw [gen j i h, gen j' i h']

/-- C223: the signature that is marked is the first valid one, and the parameter that is marked is its parameter. -/
theorem active_signature (sigs : List (Option Nat × Bool)) :
    (∀ k c, activeSignature 0 sigs = some (k, c) ↔
      sigs[k]? = some (c, true) ∧ ∀ (j : Nat) (x : Option Nat × Bool), j < k → sigs[j]? = some x → x.2 = false) ∧
    (activeSignature 0 sigs = none ↔ ∀ x ∈ sigs, x.2 = false) := by
  have gen : ∀ (sigs : List (Option Nat × Bool)) (o : Nat),
      (∀ k c, activeSignature o sigs = some (k, c) ↔
        ∃ m, k = o + m ∧ sigs[m]? = some (c, true) ∧
          ∀ (j : Nat) (x : Option Nat × Bool), j < m → sigs[j]? = some x → x.2 = false) ∧
      (activeSignature o sigs = none ↔ ∀ x ∈ sigs, x.2 = false) := by
    intro sigs
    induction sigs with
    | nil => intro o; simp [activeSignature]
    | cons y ys ih =>
      intro o
      obtain ⟨c0, v⟩ := y
      cases v with
      | true =>
        constructor
        · intro k c
          simp only [activeSignature, if_true, Option.some.injEq, Prod.mk.injEq]
          constructor
          · rintro ⟨rfl, rfl⟩
            exact ⟨0, by omega, by simp, by intro j x hj; omega⟩
          · rintro ⟨m, hm, h1, h2⟩
            cases m with
            | zero => simp at h1; exact ⟨by omega, h1⟩
            | succ m => exact absurd (h2 0 (c0, true) (by omega) (by simp)) (by simp)
        · simp [activeSignature]
      | false =>
        obtain ⟨i1, i2⟩ := ih (o + 1)
        constructor
        · intro k c
          simp only [activeSignature, Bool.false_eq_true, if_false]
          rw [i1]
          constructor
          · rintro ⟨m, hm, h1, h2⟩
            refine ⟨m + 1, by omega, by simpa using h1, ?_⟩
            intro j x hj hx
            cases j with
            | zero => simp at hx; rw [← hx]
            | succ j => exact h2 j x (by omega) (by simpa using hx)
          · rintro ⟨m, hm, h1, h2⟩
            cases m with
            | zero => simp at h1
            | succ m =>
              refine ⟨m, by omega, by simpa using h1, ?_⟩
              intro j x hj hx
              exact h2 (j + 1) x (by omega) (by simpa using hx)
        · simp only [activeSignature, Bool.false_eq_true, if_false]
          rw [i2]
          simp
  obtain ⟨g1, g2⟩ := gen sigs 0
  refine ⟨?_, g2⟩
  intro k c
  rw [g1]
  constructor
  · rintro ⟨m, hm, h⟩
    have : k = m := by omega
    subst this; exact h
  · intro h; exact ⟨k, by omega, h⟩

example : activeSignature 0 [(none, false), (some 2, true), (some 1, true)] = some (1, some 2) := by decide +kernel

/-- The call `f()` of an overloaded function whose first signature has no parameters: it accepts the call, but it is
called invalid and the second one is marked, which wants an argument. -/
theorem no_parameters_violation :
    Fits [] [] ∧ current [] [] = (none, false) ∧
    activeSignature 0 [current [] [], current [pA] []] = some (1, some 0) :=
  ⟨⟨by simp, by intro j j' i p _ _ hp; simp at hp⟩, by decide +kernel, by decide +kernel⟩

/-- `def f(a, /, b, c=1)` and the call `f(1, c=3, `: `a` got the first argument and `b` can get the next one as `b=`,
but the signature is called invalid and no parameter is marked. -/
theorem positional_only_violation :
    WellFormed [pAonly, pB, pC] ∧ Fits [pAonly, pB, pC] [.pos, .kw ['c']] ∧
    CanBe [pAonly, pB, pC] [.pos, .kw ['c']] 1 ∧
    current [pAonly, pB, pC] ([.pos, .kw ['c']] ++ [.pos]) = (none, false) := by
  have b0 : ∀ j i, BindsTo [pAonly, pB, pC] [.pos, .kw ['c']] j i → j = 0 ∧ i = 0 ∨ j = 1 ∧ i = 2 := by
    intro j i h
    rcases h with ⟨a, h1, h2, h3⟩ | ⟨n, h1, h2⟩
    · match j, h1 with
      | 0, h1 =>
        rcases h3 with ⟨h3, -⟩ | ⟨h3, -⟩
        · exact Or.inl ⟨rfl, by simpa [positions] using h3⟩
        · exact absurd (h3 pAonly (by simp [positions])) (by simp [Positional, pAonly])
      | 1, h1 => simp at h1; subst h1; simp [IsPos] at h2
      | (j + 2), h1 => simp at h1
    · match j, h1 with
      | 0, h1 => simp at h1
      | 1, h1 =>
        simp at h1
        subst h1
        have : KwSlot [pAonly, pB, pC] ['c'] 2 := Or.inl ⟨pC, by simp, Or.inl rfl, rfl⟩
        refine Or.inr ⟨rfl, kwSlot_unique ⟨?_, ?_, ?_⟩ h2 this⟩ <;> simp [pAonly, pB, pC, Before, Named]
      | (j + 2), h1 => simp at h1
  refine ⟨⟨?_, ?_, ?_⟩, ⟨?_, ?_⟩, ⟨⟨pB, by simp, Or.inr ?_⟩, Or.inr ⟨['b'], Or.inl ⟨pB, by simp, Or.inl rfl, rfl⟩⟩⟩,
    by decide +kernel⟩
  · simp [pAonly, pB, pC, Before]
  · simp [pAonly, pB, pC, Named]
  · simp [pAonly, pB, pC, Named]
  · intro j hj
    match j, hj with
    | 0, _ => exact ⟨0, Or.inl ⟨.pos, by simp, trivial, Or.inl ⟨rfl, pAonly, by simp, Or.inl rfl⟩⟩⟩
    | 1, _ => exact ⟨2, Or.inr ⟨['c'], by simp, Or.inl ⟨pC, by simp, Or.inl rfl, rfl⟩⟩⟩
    | (j + 2), hj => simp only [List.length_cons, List.length_nil] at hj; omega
  · intro j j' i p h h' _ _
    have := b0 j i h
    have := b0 j' i h'
    omega
  · intro j h
    have := b0 j 1 h
    omega

/-- `def f(a, *, b)` and the call `f(1, 2, `: the second argument has no parameter, Python raises a `TypeError`, but the
signature is called valid, so that later overloads with two positions are not marked. -/
theorem too_many_violation :
    WellFormed [pA, pBkw] ∧ ¬ Fits [pA, pBkw] [.pos, .pos] ∧
    current [pA, pBkw] ([.pos, .pos] ++ [.pos]) = (some 1, true) := by
  refine ⟨⟨?_, ?_, ?_⟩, ?_, by decide +kernel⟩
  · simp [pA, pBkw, Before]
  · simp [pA, pBkw, Named]
  · simp [pA, pBkw, Named]
  · intro h
    obtain ⟨i, hi⟩ := h.slot 1 (by simp)
    rcases hi with ⟨a, h1, h2, h3⟩ | ⟨n, h1, h2⟩
    · rcases h3 with ⟨h3, p, h4, h5⟩ | ⟨h3, p, h4, h5⟩
      · have : i = 1 := by simpa [positions, IsPos] using h3
        subst this
        simp only [List.getElem?_cons_succ, List.getElem?_cons_zero, Option.some.injEq] at h4
        subst h4
        simp [Positional, pBkw] at h5
      · match i, h4 with
        | 0, h4 => simp at h4; subst h4; simp [pA] at h5
        | 1, h4 => simp at h4; subst h4; simp [pBkw] at h5
        | (i + 2), h4 => simp at h4
    · simp at h1

/-! ## C224: the label -/

theorem join_cons (x : Str) {l : List Str} (h : l ≠ []) : join (x :: l) = x ++ [',', ' '] ++ join l := by
  cases l with
  | nil => exact absurd rfl h
  | cons y ys => rfl

theorem join_snoc {xs : List Str} (h : xs ≠ []) (y : Str) : join (xs ++ [y]) = join xs ++ [',', ' '] ++ y := by
  induction xs with
  | nil => exact absurd rfl h
  | cons x xs ih =>
    cases xs with
    | nil => simp [join]
    | cons z zs =>
      rw [List.cons_append, join_cons x (by simp), ih (by simp), join_cons x (by simp)]
      simp

theorem join_split (xs : List Str) (a b c : Str) (ys : List Str) :
    ∃ post, join (xs ++ (a ++ b ++ c) :: ys) = join (xs ++ [a]) ++ b ++ post := by
  induction xs with
  | nil =>
    cases ys with
    | nil => exact ⟨c, by simp [join]⟩
    | cons y ys => exact ⟨c ++ [',', ' '] ++ join (y :: ys), by simp [join]⟩
  | cons x xs ih =>
    obtain ⟨post, h⟩ := ih
    refine ⟨post, ?_⟩
    rw [List.cons_append, join_cons x (by simp), h, List.cons_append, join_cons x (by simp)]
    simp

theorem stars_eq (p : Param) : stars p = starsOf p := by
  unfold stars starsOf; cases p.kind <;> simp

theorem render_split (p : Param) : ∃ c, render p = starsOf p ++ shown p ++ c := by
  unfold render starsOf shown
  cases p.name with
  | none => exact ⟨_, rfl⟩
  | some n => exact ⟨[':', ' '] ++ p.ty ++ (if p.hasDefault then [' ', '='] else []), by simp⟩

theorem join_ne {xs : List Str} (h : xs ≠ []) (hx : ∀ x ∈ xs, x ≠ []) : join xs ≠ [] := by
  cases xs with
  | nil => exact absurd rfl h
  | cons x xs =>
    cases xs with
    | nil => exact hx x (by simp)
    | cons y ys => simp [join]

theorem pushParam_eq {done : List Param} (hd : ∀ p ∈ done, render p ≠ []) (p : Param) :
    pushParam (join (done.map render)) p =
      (join ((done ++ [p]).map render),
        (bytes (join (done.map render ++ [starsOf p])) + 1, bytes (join (done.map render ++ [starsOf p]) ++ shown p) + 1)) := by
  have hl : (if (join (done.map render)).isEmpty then join (done.map render)
      else join (done.map render) ++ [',', ' ']) ++ stars p = join (done.map render ++ [starsOf p]) := by
    cases done with
    | nil => simp [join, stars_eq]
    | cons d ds =>
      have hne : join ((d :: ds).map render) ≠ [] := join_ne (by simp) (by
        intro x hx
        obtain ⟨q, hq, rfl⟩ := List.mem_map.mp hx
        exact hd q hq)
      rw [join_snoc (by simp), if_neg (by simpa using hne), stars_eq]
  have hr : ∀ c, render p = starsOf p ++ c → join ((done ++ [p]).map render) = join (done.map render ++ [starsOf p]) ++ c := by
    intro c hc
    rw [List.map_append, List.map_cons, List.map_nil, hc]
    cases done with
    | nil => simp [join]
    | cons d ds => rw [join_snoc (by simp), join_snoc (by simp)]; simp
  unfold pushParam
  simp only [hl]
  cases hn : p.name with
  | some n =>
    have := hr (n ++ [':', ' '] ++ p.ty ++ defaultMark p) (by simp [render, hn, starsOf, defaultMark])
    rw [this]
    simp [shown, hn, preParamsOffset]
  | none =>
    have := hr (p.ty ++ defaultMark p) (by simp [render, hn, starsOf, defaultMark])
    rw [this]
    simp [shown, hn, preParamsOffset]

theorem pushParams_eq (done ps : List Param) (hd : ∀ p ∈ done ++ ps, render p ≠ []) :
    (pushParams (join (done.map render)) ps).1 = join ((done ++ ps).map render) ∧
    (pushParams (join (done.map render)) ps).2.length = ps.length ∧
    ∀ k p, ps[k]? = some p → (pushParams (join (done.map render)) ps).2[k]? =
      some (bytes (join ((done ++ ps.take k).map render ++ [starsOf p])) + 1,
        bytes (join ((done ++ ps.take k).map render ++ [starsOf p]) ++ shown p) + 1) := by
  induction ps generalizing done with
  | nil => simp [pushParams]
  | cons q qs ih =>
    have h1 := pushParam_eq (done := done) (fun p hp => hd p (by simp [hp])) q
    obtain ⟨i1, i2, i3⟩ := ih (done ++ [q]) (by simpa using hd)
    simp only [pushParams, h1]
    refine ⟨by rw [i1]; simp, by simp only [List.length_cons, i2], ?_⟩
    intro k p hk
    cases k with
    | zero =>
      simp only [List.getElem?_cons_zero, Option.some.injEq] at hk
      subst hk
      simp
    | succ k =>
      simp only [List.getElem?_cons_succ] at hk ⊢
      rw [i3 k p hk]
      simp

theorem units_eq (s : Str) : units s = (utf16 s).length := by
  induction s with
  | nil => rfl
  | cons c s ih =>
    have e : utf16 (c :: s) = encode16 c ++ utf16 s := by simp [utf16]
    rw [e, List.length_append, units, ih]
    unfold encode16
    by_cases h : c.toNat ≤ 0xFFFF
    · have h' : c.val < 0x10000 := by
        rw [UInt32.lt_iff_toNat_lt]; exact Nat.lt_succ_of_le h
      simp [h, h']
    · have h' : ¬ c.val < 0x10000 := by
        rw [UInt32.lt_iff_toNat_lt]; intro hx; exact h (Nat.le_of_lt_succ hx)
      simp [h, h']

/-- C224: the label of a signature is the list of its parameters in parentheses and the type that is returned.  There is
one range for each parameter, its text is the name of the parameter, or the type if there is no name, and the range in
UTF-16 code units, which clients use, covers the same text. -/
theorem label_ranges (ps : List Param) (ret : Str) (hty : ∀ p ∈ ps, p.ty ≠ []) :
    (signature ps ret).1 = ['('] ++ join (ps.map render) ++ [')', ' ', '-', '>', ' '] ++ ret ∧
    (signature ps ret).2.length = ps.length ∧
    ∀ k p, ps[k]? = some p → ∃ r pre post,
      (signature ps ret).2[k]? = some r ∧
      (signature ps ret).1 = pre ++ shown p ++ post ∧
      pre = ['('] ++ join ((ps.take k).map render ++ [starsOf p]) ∧
      nameOf (signature ps ret).1 r = some (shown p) ∧
      utf16Range (signature ps ret).1 r = some ((utf16 pre).length, (utf16 (pre ++ shown p)).length) := by
  have hne : ∀ p ∈ ([] : List Param) ++ ps, render p ≠ [] := by
    intro p hp
    have := hty p (by simpa using hp)
    unfold render
    cases p.name <;> simp [this]
  obtain ⟨g1, g2, g3⟩ := pushParams_eq [] ps hne
  simp only [List.map_nil, join, List.nil_append] at g1 g2 g3
  have hl : (signature ps ret).1 = ['('] ++ join (ps.map render) ++ [')', ' ', '-', '>', ' '] ++ ret := by
    unfold signature; simp only [g1]
  have hr2 : (signature ps ret).2 = (pushParams [] ps).2 := rfl
  refine ⟨hl, g2, ?_⟩
  intro k p hk
  obtain ⟨c, hc⟩ := render_split p
  obtain ⟨post, hpost⟩ := join_split ((ps.take k).map render) (starsOf p) (shown p) c ((ps.drop (k + 1)).map render)
  have hsplit : ps.map render = (ps.take k).map render ++ (starsOf p ++ shown p ++ c) :: (ps.drop (k + 1)).map render := by
    obtain ⟨hlen, hget⟩ := List.getElem?_eq_some_iff.mp hk
    conv => lhs; rw [← List.take_append_drop k ps, List.drop_eq_getElem_cons hlen, hget]
    simp [hc]
  obtain ⟨pre, hpre⟩ : ∃ pre, ['('] ++ join ((ps.take k).map render ++ [starsOf p]) = pre := ⟨_, rfl⟩
  have hlab : (signature ps ret).1 = pre ++ (shown p ++ (post ++ [')', ' ', '-', '>', ' '] ++ ret)) := by
    rw [hl, hsplit, hpost, ← hpre]; simp
  have hlab2 : (signature ps ret).1 = (pre ++ shown p) ++ (post ++ [')', ' ', '-', '>', ' '] ++ ret) := by
    rw [hlab]; simp
  have hb : bytes pre = bytes (join ((ps.take k).map render ++ [starsOf p])) + 1 := by
    rw [← hpre, bytes_append]
    have : bytes ['('] = 1 := by decide +kernel
    omega
  have hrange : (signature ps ret).2[k]? = some (bytes pre, bytes (pre ++ shown p)) := by
    rw [hr2, g3 k p hk, bytes_append, bytes_append, hb]
    simp; omega
  refine ⟨(bytes pre, bytes (pre ++ shown p)), pre, post ++ [')', ' ', '-', '>', ' '] ++ ret, hrange, hlab2, hpre.symm, ?_, ?_⟩
  · unfold nameOf
    have : upTo (bytes (pre ++ shown p)) (signature ps ret).1 = some (pre ++ shown p) := by
      rw [hlab2]; exact upTo_append _ _
    simp only [this]
    exact since_append _ _
  · unfold utf16Range
    have h1 : upTo (bytes pre) (signature ps ret).1 = some pre := by rw [hlab]; exact upTo_append _ _
    have h2 : upTo (bytes (pre ++ shown p)) (signature ps ret).1 = some (pre ++ shown p) := by
      rw [hlab2]; exact upTo_append _ _
    simp only [h1, h2, units_eq]

/-- `(a: i, *r: i, ü: i =) -> i`. -/
example : signature [pA, pArgs, ⟨.kwOnly, some ['ü'], ['i'], true⟩] ['i'] =
    ("(a: i, *r: i, ü: i =) -> i".toList, [(1, 2), (8, 9), (14, 16)]) := by decide +kernel

/-! ## C225: the arguments up to the cursor -/

theorem classify_eq {l : Leaf} : classify l = meaning l := by
  cases l with
  | errKwarg n eq => cases eq <;> rfl
  | _ => rfl

theorem iter_arg {position : Nat} {l : Leaf} (h : IsArg l) (rest : List Leaf) :
    iterLeaves position (l :: rest) = meaning l :: iterLeaves position rest := by
  cases l with
  | comma e => exact absurd rfl (h e)
  | _ => simp only [iterLeaves, classify_eq]

theorem iter_comma {position e : Nat} {w : List (Leaf × Nat)} {last : Option Leaf} (hw : ∀ x ∈ w, IsArg x.1)
    (hl : ∀ l, last = some l → IsArg l) (hs : (w.map (·.2)).Pairwise (· ≤ ·)) (he : ∀ x ∈ w, e ≤ x.2) :
    iterLeaves position (.comma e :: layout w last) =
      if e > position then []
      else (w.map (fun x => meaning x.1) ++ [lastArg last]).take (commas position w + 1) := by
  induction w generalizing e with
  | nil =>
    cases last with
    | none => simp [layout, iterLeaves, lastArg, commas]
    | some l => simp [layout, iterLeaves, lastArg, commas, classify_eq]
  | cons x w ih =>
    obtain ⟨l, e'⟩ := x
    simp only [List.map_cons, List.pairwise_cons] at hs
    have hle : ∀ x ∈ w, e' ≤ x.2 := by
      intro x hx
      exact hs.1 _ (List.mem_map.mpr ⟨x, hx, rfl⟩)
    have := ih (e := e') (fun x hx => hw x (by simp [hx])) hs.2 hle
    by_cases hep : e > position
    · simp [layout, iterLeaves, hep]
    · rw [if_neg hep, layout]
      simp only [iterLeaves, if_neg hep]
      rw [this, classify_eq]
      by_cases hep' : e' > position
      · have hz : commas position w = 0 := by
          unfold commas
          rw [List.length_eq_zero_iff, List.filter_eq_nil_iff]
          intro x hx
          have := hle x hx
          simp; omega
        have hz' : commas position ((l, e') :: w) = 0 := by
          have : ¬ e' ≤ position := by omega
          unfold commas at hz ⊢
          simpa [List.filter_cons, this] using hz
        simp [hep', hz']
      · have hz' : commas position ((l, e') :: w) = commas position w + 1 := by
          have : e' ≤ position := by omega
          unfold commas
          simp [List.filter_cons, this]
        simp [hep', hz']

theorem iter_layout {position : Nat} {w : List (Leaf × Nat)} {last : Option Leaf} (hw : ∀ x ∈ w, IsArg x.1)
    (hl : ∀ l, last = some l → IsArg l) (hs : (w.map (·.2)).Pairwise (· ≤ ·)) (hne : w ≠ [] ∨ last ≠ none) :
    iterLeaves position (layout w last) =
      (w.map (fun x => meaning x.1) ++ [lastArg last]).take (commas position w + 1) := by
  cases w with
  | nil =>
    cases last with
    | none => simp at hne
    | some l => rw [layout, iter_arg (hl l rfl)]; simp [iterLeaves, lastArg, commas]
  | cons x w =>
    obtain ⟨l, e⟩ := x
    simp only [List.map_cons, List.pairwise_cons] at hs
    have hle : ∀ x ∈ w, e ≤ x.2 := by
      intro x hx
      exact hs.1 _ (List.mem_map.mpr ⟨x, hx, rfl⟩)
    rw [layout, iter_arg (hw (l, e) (by simp)), iter_comma (fun x hx => hw x (by simp [hx])) hl hs.2 hle]
    by_cases hep : e > position
    · have hz : commas position ((l, e) :: w) = 0 := by
        unfold commas
        rw [List.length_eq_zero_iff, List.filter_eq_nil_iff]
        intro x hx
        rcases List.mem_cons.mp hx with rfl | hx
        · simp; omega
        · have := hle x hx
          simp; omega
      simp [hep, hz]
    · have hz : commas position ((l, e) :: w) = commas position w + 1 := by
        have : e ≤ position := by omega
        unfold commas
        simp [List.filter_cons, this]
      simp [hep, hz]

theorem iterNodes_leaves (position : Nat) (cs : List Leaf) :
    iterNodes position (cs.map .leaf) = iterLeaves position cs ∧
    ∀ l, iterNodes position (.leaf l :: cs.map .leaf) = iterLeaves position (l :: cs) := by
  induction cs with
  | nil =>
    refine ⟨by simp [iterNodes, iterLeaves], ?_⟩
    intro l
    cases l <;> simp [iterNodes, iterLeaves]
  | cons c cs ih =>
    have h1 := ih.2 c
    refine ⟨by simpa using h1, ?_⟩
    intro l
    cases l with
    | comma e =>
      simp only [List.map_cons, iterNodes, iterLeaves, ih.1]
    | _ => simp only [List.map_cons, iterNodes, iterLeaves, h1]

theorem iterNodes_kwargs (position : Nat) (w1 : List (Leaf × Nat)) (hw : ∀ x ∈ w1, IsArg x.1) (cs : List Leaf)
    (hc : ∃ l rest, cs = l :: rest ∧ IsArg l) :
    iterNodes position ((layout w1 none).map .leaf ++ [.kwargs cs]) = iterLeaves position (layout w1 none ++ cs) ∧
    ∀ e, iterNodes position (.leaf (.comma e) :: (layout w1 none).map .leaf ++ [.kwargs cs]) =
      iterLeaves position (.comma e :: layout w1 none ++ cs) := by
  induction w1 with
  | nil =>
    obtain ⟨l, rest, rfl, hl⟩ := hc
    refine ⟨by simp [layout, iterNodes], ?_⟩
    intro e
    simp only [layout, List.map_nil, List.nil_append, List.cons_append, iterNodes]
    rw [iter_arg hl]
    by_cases he : e > position
    · simp [iterLeaves, he]
    · simp [iterLeaves, he, classify_eq]
  | cons x w ih =>
    obtain ⟨l, e'⟩ := x
    obtain ⟨i1, i2⟩ := ih (fun x hx => hw x (by simp [hx]))
    have hl := hw (l, e') (by simp)
    have h1 : iterNodes position ((layout ((l, e') :: w) none).map .leaf ++ [.kwargs cs]) =
        iterLeaves position (layout ((l, e') :: w) none ++ cs) := by
      have := i2 e'
      simp only [layout, List.map_cons, List.cons_append] at this ⊢
      rw [iter_arg hl, ← this]
      cases l with
      | comma e => exact absurd rfl (hl e)
      | _ => simp only [iterNodes, classify_eq]
    refine ⟨h1, ?_⟩
    intro e
    have h2 := i2 e'
    simp only [layout, List.map_cons, List.cons_append] at h2 ⊢
    by_cases he : e > position
    · simp [iterNodes, iterLeaves, he]
    · simp only [iterNodes, iterLeaves, if_neg he, h2]

theorem layout_append (w1 w2 : List (Leaf × Nat)) (last : Option Leaf) :
    layout (w1 ++ w2) last = layout w1 none ++ layout w2 last := by
  induction w1 with
  | nil => simp [layout]
  | cons x w ih => obtain ⟨l, e⟩ := x; simp [layout, ih]

/-- C225: signature help sees the arguments of the text up to the one the cursor is in, that is one more than there are
commas before the cursor, whether they are grouped as keyword arguments by the parser or not.  After a comma at the end
there is an empty argument.  Missing: arguments that are read from statements after a syntax error. -/
theorem arguments_partial {position : Nat} {w1 w2 : List (Leaf × Nat)} {last : Option Leaf}
    (hw : ∀ x ∈ w1 ++ w2, IsArg x.1) (hl : ∀ l, last = some l → IsArg l)
    (hs : ((w1 ++ w2).map (·.2)).Pairwise (· ≤ ·)) (hne : w2 ≠ [] ∨ last ≠ none) :
    iterNodes position ((layout w1 none).map .leaf ++ [.kwargs (layout w2 last)]) =
      ((w1 ++ w2).map (fun x => meaning x.1) ++ [lastArg last]).take (commas position (w1 ++ w2) + 1) ∧
    iterNodes position ((layout (w1 ++ w2) last).map .leaf) =
      ((w1 ++ w2).map (fun x => meaning x.1) ++ [lastArg last]).take (commas position (w1 ++ w2) + 1) := by
  have hmain := iter_layout (position := position) hw hl hs (by
    rcases hne with h | h
    · left; simp [h]
    · exact Or.inr h)
  constructor
  · rw [(iterNodes_kwargs position w1 (fun x hx => hw x (by simp [hx])) _ ?_).1, ← layout_append, hmain]
    cases w2 with
    | nil =>
      cases last with
      | none => simp at hne
      | some l => exact ⟨l, [], rfl, hl l rfl⟩
    | cons x w =>
      obtain ⟨l, e⟩ := x
      exact ⟨l, _, rfl, hw (l, e) (by simp)⟩
  · rw [(iterNodes_leaves position _).1, hmain]

/-- `f(x, k=1, |)` with the cursor at the end and `f(x, |k=1, )` with the cursor before the keyword. -/
example : iterNodes 9 ((layout [(.name ['x'], 4)] none).map .leaf ++ [.kwargs (layout [(.kwarg ['k'], 9)] none)]) =
      [.posName ['x'], .kw ['k'], .pos] ∧
    iterNodes 5 ((layout [(.name ['x'], 4)] none).map .leaf ++ [.kwargs (layout [(.kwarg ['k'], 9)] none)]) =
      [.posName ['x'], .kw ['k']] := by decide +kernel

end Verif.Signature
