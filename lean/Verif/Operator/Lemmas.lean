import Verif.Operator.Spec

namespace Verif.Operator

variable {w : World} {run : Run}

theorem sub_iff {a b : Nat} : sub w a b = true ↔ Is w a b := by
  simp [sub, Is]

theorem accepts_iff {s : Sig} {a : Nat} : accepts w s a = true ↔ IsOneOf w a s.param := by
  simp [accepts, IsOneOf, sub_iff]

theorem subUnion_iff {a b : List Nat} : subUnion w a b = true ↔ ∀ x ∈ a, IsOneOf w x b := by
  simp [subUnion, IsOneOf, sub_iff]

/-- The lookup finds the first class of the MRO. -/
theorem lookup_some {c d : Nat} {n : Name} {s : Sig} (h : lookup w c n = some (d, s)) :
    Finds w c n d ∧ w.defs d n = some s := by
  unfold lookup at h
  have key : ∀ (ms : List Nat), ms.findSome? (fun d => (w.defs d n).map (d, ·)) = some (d, s) →
      (∃ (before after : List Nat), ms = before ++ d :: after ∧ ∀ x ∈ before, w.defs x n = none) ∧
      w.defs d n = some s := by
    intro ms
    induction ms with
    | nil => intro h; cases h
    | cons m ms ih =>
      intro h
      rw [List.findSome?_cons] at h
      cases hm : w.defs m n with
      | some s' =>
        rw [hm] at h
        cases h
        exact ⟨⟨[], ms, rfl, fun x hx => absurd hx List.not_mem_nil⟩, hm⟩
      | none =>
        rw [hm] at h
        obtain ⟨⟨b, a, e, hb⟩, hd⟩ := ih h
        refine ⟨⟨m :: b, a, by rw [e]; rfl, ?_⟩, hd⟩
        intro x hx
        rcases List.mem_cons.mp hx with rfl | hx
        · exact hm
        · exact hb x hx
  obtain ⟨⟨b, a, e, hb⟩, hd⟩ := key _ h
  exact ⟨⟨b, a, e, ⟨s, hd⟩, hb⟩, hd⟩

theorem lookup_none {c : Nat} {n : Name} (h : lookup w c n = none) (d : Nat) : ¬ Finds w c n d := by
  rintro ⟨b, a, e, ⟨s, hs⟩, _⟩
  unfold lookup at h
  rw [List.findSome?_eq_none_iff] at h
  have := h d (by rw [e]; simp)
  rw [hs] at this
  cases this

theorem finds_unique {c d e : Nat} {n : Name} (h1 : Finds w c n d) (h2 : Finds w c n e) : d = e := by
  obtain ⟨b1, a1, e1, ⟨s1, hs1⟩, hb1⟩ := h1
  obtain ⟨b2, a2, e2, ⟨s2, hs2⟩, hb2⟩ := h2
  rw [e1] at e2
  rcases List.append_eq_append_iff.mp e2 with ⟨m, rfl, h⟩ | ⟨m, rfl, h⟩
  · cases m with
    | nil =>
      simp only [List.nil_append, List.cons.injEq] at h
      exact h.1
    | cons x m =>
      simp only [List.cons_append, List.cons.injEq] at h
      have := hb2 x (by simp)
      rw [← h.1, hs1] at this
      cases this
  · cases m with
    | nil =>
      simp only [List.nil_append, List.cons.injEq] at h
      exact h.1.symm
    | cons x m =>
      simp only [List.cons_append, List.cons.injEq] at h
      have := hb1 x (by simp)
      rw [← h.1, hs2] at this
      cases this

theorem finds_lookup {c d : Nat} {n : Name} (h : Finds w c n d) :
    ∃ (s : Sig), lookup w c n = some (d, s) ∧ w.defs d n = some s := by
  cases hl : lookup w c n with
  | none => exact absurd h (lookup_none hl d)
  | some p =>
    obtain ⟨d', s⟩ := p
    obtain ⟨h', hs⟩ := lookup_some hl
    cases finds_unique h h'
    exact ⟨s, rfl, hs⟩

theorem finds_mem {c d : Nat} {n : Name} (h : Finds w c n d) : d ∈ w.mro c := by
  obtain ⟨b, a, e, _⟩ := h
  rw [e]
  simp

theorem exists_finds {c d : Nat} {n : Name} {s : Sig} (hm : d ∈ w.mro c) (hs : w.defs d n = some s) :
    ∃ (e : Nat), Finds w c n e := by
  cases hl : lookup w c n with
  | some p => exact ⟨p.1, (lookup_some (d := p.1) (s := p.2) hl).1⟩
  | none =>
    unfold lookup at hl
    rw [List.findSome?_eq_none_iff] at hl
    have := hl d hm
    rw [hs] at this
    cases this

/-- What the call of a method does, if the program is faithful. -/
theorem calls_run (hf : Faithful w run) {c a : Nat} {n : Name} {o : Out} (h : Calls w run c n a o) :
    (∀ (ret : List Nat), Operator.run w (lookup w c n) a = some ret →
      ∃ (v : Nat), o = .value v ∧ IsOneOf w v ret) ∧
    (Operator.run w (lookup w c n) a = none → o = .notImplemented) := by
  cases h with
  | found hd =>
    obtain ⟨s, hl, hs⟩ := finds_lookup hd
    have hf := hf _ n s c a hs (finds_mem hd)
    rw [hl]
    unfold Operator.run
    dsimp only
    split
    · rename_i ha
      refine ⟨?_, (nomatch ·)⟩
      intro ret e
      cases e
      exact hf.1 (accepts_iff.mp ha)
    · rename_i ha
      exact ⟨(fun _ e => nomatch e), fun _ => hf.2 fun h => ha (accepts_iff.mpr h)⟩
  | missing hd =>
    cases hl : lookup w c n with
    | none => exact ⟨(fun _ e => nomatch e), fun _ => rfl⟩
    | some p => exact absurd (lookup_some (d := p.1) (s := p.2) hl).1 (hd _)

theorem calls_exists (c : Nat) (n : Name) (a : Nat) : ∃ (o : Out), Calls w run c n a o := by
  by_cases h : ∃ (d : Nat), Finds w c n d
  · obtain ⟨d, h⟩ := h
    exact ⟨_, .found h⟩
  · exact ⟨_, .missing fun d hd => h ⟨d, hd⟩⟩

theorem calls_unique {c a : Nat} {n : Name} {o o' : Out} (h : Calls w run c n a o)
    (h' : Calls w run c n a o') : o = o' := by
  cases h with
  | found hd =>
    cases h' with
    | found hd' => rw [finds_unique hd hd']
    | missing hm => exact absurd hd (hm _)
  | missing hm =>
    cases h' with
    | found hd' => exact absurd hd' (hm _)
    | missing _ => rfl

/-- Python evaluates each operator to exactly one result. -/
theorem evals_exists (arith : Bool) (l r : Nat) : ∃ (o : Out), Evals w run arith l r o := by
  obtain ⟨n, hn⟩ := calls_exists (w := w) (run := run) l .op r
  obtain ⟨m, hm⟩ := calls_exists (w := w) (run := run) r .rop l
  by_cases hf : RightFirst w arith l r
  · cases m with
    | value c => exact ⟨_, .reflected hf hm⟩
    | notImplemented => exact ⟨_, .normalAfter hf hm hn⟩
  · cases n with
    | value c => exact ⟨_, .normal hf hn⟩
    | notImplemented =>
      by_cases hs : arith = true ∧ l = r
      · exact ⟨_, .same hs.1 hs.2 hn⟩
      · exact ⟨_, .reflectedAfter hf hs hn hm⟩

/-- The strategy is the order of Python. -/
theorem strategy_order {arith : Bool} {l r : Nat} (hs : SameOrder w arith l r) {a b : Nat} {sa sb : Sig}
    (ha : lookup w l .op = some (a, sa)) (hb : lookup w r .rop = some (b, sb)) :
    strategy w arith l r = .reverseThenNormal ↔ RightFirst w arith l r := by
  obtain ⟨h1, h2, h3, h4⟩ := hs
  have fa := (lookup_some ha).1
  have fb := (lookup_some hb).1
  have he : elsewhere w l r = (a != b) := by
    unfold elsewhere
    rw [ha, hb]
  unfold strategy
  rw [he]
  cases arith with
  | true =>
    by_cases e : l = r
    · subst e
      rw [if_pos (by simp)]
      exact ⟨(nomatch ·), fun h => absurd rfl h.1⟩
    · rw [if_neg (by simpa using e)]
      constructor
      · intro h
        split at h
        · rename_i hc
          rw [Bool.and_eq_true, sub_iff, bne_iff_ne] at hc
          refine ⟨e, h1 hc.1, fun _ => ⟨b, fb, fun hl => ?_⟩⟩
          exact hc.2 (finds_unique fa (h2 rfl b hl))
        · cases h
      · rintro ⟨_, hm, hd⟩
        obtain ⟨d, hd, hn⟩ := hd rfl
        cases finds_unique fb hd
        rw [if_pos]
        rw [Bool.and_eq_true, sub_iff, bne_iff_ne]
        refine ⟨⟨l, hm, .inl rfl⟩, fun hab => ?_⟩
        subst hab
        obtain ⟨x, hx⟩ := exists_finds (n := .rop) (finds_mem fa) (lookup_some hb).2
        have := finds_unique fa (h2 rfl x hx)
        subst this
        exact hn hx
  | false =>
    rw [if_neg (by simp)]
    constructor
    · intro h
      split at h
      · rename_i hc
        rw [Bool.and_eq_true, sub_iff, bne_iff_ne] at hc
        refine ⟨fun e => hc.2 (h3 rfl e a b fa fb), h1 hc.1, (nomatch ·)⟩
      · cases h
    · rintro ⟨e, hm, _⟩
      rw [if_pos]
      rw [Bool.and_eq_true, sub_iff, bne_iff_ne]
      exact ⟨⟨l, hm, .inl rfl⟩, fun hab => h4 rfl e a fa (hab ▸ fb)⟩

theorem short_iff {arith : Bool} {l r : Nat} :
    strategy w arith l r = .shortCircuit ↔ arith = true ∧ l = r := by
  unfold strategy
  split
  · rename_i h
    rw [Bool.and_eq_true, beq_iff_eq] at h
    exact ⟨fun _ => h, fun _ => rfl⟩
  · rename_i h
    rw [Bool.and_eq_true, beq_iff_eq] at h
    constructor
    · intro h'
      split at h' <;> cases h'
    · exact fun h' => absurd h' h

theorem run_none {a : Nat} : Operator.run w none a = none := rfl

theorem pair_some {arith : Bool} {l r : Nat} {ret : List Nat} (h : chosen w arith l r = some ret) :
    pair w arith l r = ⟨ret.map .cls, []⟩ := by
  unfold pair
  rw [h]

theorem pair_none {arith : Bool} {l r : Nat} (h : chosen w arith l r = none) :
    pair w arith l r = ⟨[.any], [.left l]⟩ ∧ lookup w l .op = none ∨
    pair w arith l r = ⟨[.any], [.operands l r]⟩ := by
  unfold pair
  rw [h]
  dsimp only
  split
  · rename_i hc
    rw [Bool.and_eq_true, Option.isNone_iff_eq_none] at hc
    exact .inl ⟨rfl, hc.1⟩
  · exact .inr rfl

/-- If nothing is chosen, then no method that Python asks accepts its argument. -/
theorem chosen_none {arith : Bool} {l r : Nat} (h : chosen w arith l r = none) :
    Operator.run w (lookup w l .op) r = none ∧
    (¬ (arith = true ∧ l = r) → Operator.run w (lookup w r .rop) l = none) := by
  unfold chosen at h
  split at h
  · rename_i e
    exact ⟨h, fun h' => absurd (short_iff.mp e) h'⟩
  · rw [Option.or_eq_none_iff] at h
    exact ⟨h.1, fun _ => h.2⟩
  · rw [Option.or_eq_none_iff] at h
    exact ⟨h.2, fun _ => h.1⟩

theorem chosen_right (hf : Faithful w run) {arith : Bool} {l r : Nat} (hs : SameOrder w arith l r)
    {ret : List Nat} (h : chosen w arith l r = some ret) {o : Out} (he : Evals w run arith l r o) :
    ∃ (v : Nat), o = .value v ∧ IsOneOf w v ret := by
  by_cases hsame : arith = true ∧ l = r
  · unfold chosen at h
    rw [short_iff.mpr hsame] at h
    dsimp only at h
    have nf : ¬ RightFirst w arith l r := fun hf => hf.1 hsame.2
    cases he with
    | reflected h' _ => exact absurd h' nf
    | normalAfter h' _ _ => exact absurd h' nf
    | normal _ hc => exact (calls_run hf hc).1 ret h
    | same _ _ hc =>
      obtain ⟨v, e, _⟩ := (calls_run hf hc).1 ret h
      cases e
    | reflectedAfter _ h' _ _ => exact absurd hsame h'
  · have ns : strategy w arith l r ≠ .shortCircuit := fun h' => hsame (short_iff.mp h')
    -- one of the two methods is missing, or the order is the one of Python
    by_cases hlr : ∃ (a b : Nat × Sig), lookup w l .op = some a ∧ lookup w r .rop = some b
    · obtain ⟨⟨a, sa⟩, ⟨b, sb⟩, ha, hb⟩ := hlr
      have ord := strategy_order hs ha hb
      cases hst : strategy w arith l r with
      | shortCircuit => exact absurd hst ns
      | reverseThenNormal =>
        have first := ord.mp hst
        unfold chosen at h
        rw [hst] at h
        dsimp only at h
        cases he with
        | reflected _ hc =>
          cases hr : Operator.run w (lookup w r .rop) l with
          | none => cases (calls_run hf hc).2 hr
          | some ret' =>
            rw [hr, Option.some_or] at h
            cases h
            exact (calls_run hf hc).1 _ hr
        | normalAfter _ hc hc' =>
          cases hr : Operator.run w (lookup w r .rop) l with
          | none =>
            rw [hr, Option.none_or] at h
            exact (calls_run hf hc').1 _ h
          | some ret' =>
            obtain ⟨v, e, _⟩ := (calls_run hf hc).1 _ hr
            cases e
        | normal h' _ => exact absurd first h'
        | same h1 h2 _ => exact absurd ⟨h1, h2⟩ hsame
        | reflectedAfter h' _ _ _ => exact absurd first h'
      | normalThenReverse =>
        have nf : ¬ RightFirst w arith l r := fun h' => by
          have := ord.mpr h'
          rw [hst] at this
          cases this
        unfold chosen at h
        rw [hst] at h
        dsimp only at h
        cases he with
        | reflected h' _ => exact absurd h' nf
        | normalAfter h' _ _ => exact absurd h' nf
        | normal _ hc =>
          cases hr : Operator.run w (lookup w l .op) r with
          | none => cases (calls_run hf hc).2 hr
          | some ret' =>
            rw [hr, Option.some_or] at h
            cases h
            exact (calls_run hf hc).1 _ hr
        | same h1 h2 _ => exact absurd ⟨h1, h2⟩ hsame
        | reflectedAfter _ _ hc hc' =>
          cases hr : Operator.run w (lookup w l .op) r with
          | none =>
            rw [hr, Option.none_or] at h
            exact (calls_run hf hc').1 _ h
          | some ret' =>
            obtain ⟨v, e, _⟩ := (calls_run hf hc).1 _ hr
            cases e
    · -- at most one of the methods exists
      have hor : (Operator.run w (lookup w l .op) r = none ∧ Operator.run w (lookup w r .rop) l = some ret) ∨
          (Operator.run w (lookup w r .rop) l = none ∧ Operator.run w (lookup w l .op) r = some ret) := by
        have hone : Operator.run w (lookup w l .op) r = none ∨ Operator.run w (lookup w r .rop) l = none := by
          cases hl : lookup w l .op with
          | none => exact .inl rfl
          | some a =>
            cases hr : lookup w r .rop with
            | none => exact .inr rfl
            | some b => exact absurd ⟨a, b, hl, hr⟩ hlr
        unfold chosen at h
        cases hst : strategy w arith l r with
        | shortCircuit => exact absurd hst ns
        | reverseThenNormal =>
          rw [hst] at h
          dsimp only at h
          rcases hone with h' | h'
          · rw [h', Option.or_none] at h
            exact .inl ⟨h', h⟩
          · rw [h', Option.none_or] at h
            exact .inr ⟨h', h⟩
        | normalThenReverse =>
          rw [hst] at h
          dsimp only at h
          rcases hone with h' | h'
          · rw [h', Option.none_or] at h
            exact .inl ⟨h', h⟩
          · rw [h', Option.or_none] at h
            exact .inr ⟨h', h⟩
      rcases hor with ⟨hn, hr⟩ | ⟨hn, hr⟩
      · cases he with
        | reflected _ hc => exact (calls_run hf hc).1 _ hr
        | normalAfter _ hc _ =>
          obtain ⟨v, e, _⟩ := (calls_run hf hc).1 _ hr
          cases e
        | normal _ hc => cases (calls_run hf hc).2 hn
        | same h1 h2 _ => exact absurd ⟨h1, h2⟩ hsame
        | reflectedAfter _ _ _ hc => exact (calls_run hf hc).1 _ hr
      · cases he with
        | reflected _ hc => cases (calls_run hf hc).2 hn
        | normalAfter _ _ hc => exact (calls_run hf hc).1 _ hr
        | normal _ hc => exact (calls_run hf hc).1 _ hr
        | same h1 h2 _ => exact absurd ⟨h1, h2⟩ hsame
        | reflectedAfter _ _ hc _ =>
          obtain ⟨v, e, _⟩ := (calls_run hf hc).1 _ hr
          cases e

/-- If no method that Python asks accepts its argument, then there is a `TypeError`. -/
theorem chosen_type_error (hf : Faithful w run) {arith : Bool} {l r : Nat}
    (h : chosen w arith l r = none) {o : Out} (he : Evals w run arith l r o) : o = .notImplemented := by
  obtain ⟨h1, h2⟩ := chosen_none h
  have nf : RightFirst w arith l r → ¬ (arith = true ∧ l = r) := fun h' h'' => h'.1 h''.2
  cases he with
  | reflected hr hc => exact (calls_run hf hc).2 (h2 (nf hr))
  | normalAfter _ _ hc => exact (calls_run hf hc).2 h1
  | normal _ hc => exact (calls_run hf hc).2 h1
  | same _ _ _ => rfl
  | reflectedAfter _ hn _ hc => exact (calls_run hf hc).2 (h2 hn)

/-- If a method is chosen, then there is no `TypeError`, whatever the order is. -/
theorem chosen_no_error (hf : Faithful w run) {arith : Bool} {l r : Nat} {ret : List Nat}
    (h : chosen w arith l r = some ret) : ¬ Evals w run arith l r .notImplemented := by
  intro he
  have key : Operator.run w (lookup w l .op) r = none → ¬ (arith = true ∧ l = r) →
      Operator.run w (lookup w r .rop) l = none → False := by
    intro h1 hn h2
    unfold chosen at h
    dsimp only at h
    rw [h1, h2] at h
    split at h <;> cases h
  have none_of : ∀ {c : Nat} {n : Name} {a : Nat}, Calls w run c n a .notImplemented →
      Operator.run w (lookup w c n) a = none := by
    intro c n a hc
    cases hr : Operator.run w (lookup w c n) a with
    | none => rfl
    | some ret =>
      obtain ⟨v, e, _⟩ := (calls_run hf hc).1 _ hr
      cases e
  cases he with
  | normalAfter hr hc hc' => exact key (none_of hc') (fun h' => hr.1 h'.2) (none_of hc)
  | same h1 h2 hc =>
    unfold chosen at h
    rw [short_iff.mpr ⟨h1, h2⟩] at h
    dsimp only at h
    rw [none_of hc] at h
    cases h
  | reflectedAfter _ hn hc hc' => exact key (none_of hc) hn (none_of hc')

/-! ## Unions -/

theorem rights_types {arith : Bool} {l r : Nat} : ∀ {rs : List Ty}, .cls r ∈ rs →
    .any ∈ (rights w arith (.cls l) rs).types ∨
    ∀ t ∈ (pair w arith l r).types, t ∈ (rights w arith (.cls l) rs).types
  | .any :: rs, _ => .inl List.mem_cons_self
  | .cls r' :: rs, h => by
    simp only [rights]
    rcases List.mem_cons.mp h with h | h
    · cases h
      exact .inr fun t ht => List.mem_append_left _ ht
    · rcases rights_types h with h' | h'
      · exact .inl (List.mem_append_right _ h')
      · exact .inr fun t ht => List.mem_append_right _ (h' t ht)

theorem rights_issues {arith : Bool} {l r : Nat} : ∀ {rs : List Ty}, .cls r ∈ rs → .any ∉ rs →
    ∀ i ∈ (pair w arith l r).issues, i ∈ (rights w arith (.cls l) rs).issues
  | .any :: rs, _, ha, _, _ => absurd List.mem_cons_self ha
  | .cls r' :: rs, h, ha, i, hi => by
    simp only [rights]
    rcases List.mem_cons.mp h with h | h
    · cases h
      exact List.mem_append_left _ hi
    · exact List.mem_append_right _
        (rights_issues h (fun h' => ha (List.mem_cons_of_mem _ h')) i hi)

theorem rights_issue {arith : Bool} {l : Ty} {i : Issue} : ∀ {rs : List Ty},
    i ∈ (rights w arith l rs).issues →
    ∃ (a b : Nat), l = .cls a ∧ .cls b ∈ rs ∧ i ∈ (pair w arith a b).issues
  | [], h => absurd h List.not_mem_nil
  | .any :: rs, h => absurd h List.not_mem_nil
  | .cls r :: rs, h => by
    simp only [rights] at h
    rcases List.mem_append.mp h with h | h
    · cases l with
      | any => exact absurd h List.not_mem_nil
      | cls a => exact ⟨a, r, rfl, List.mem_cons_self, h⟩
    · obtain ⟨a, b, e, hb, hi⟩ := rights_issue h
      exact ⟨a, b, e, List.mem_cons_of_mem _ hb, hi⟩

/-! ## Concrete programs -/

theorem finds_iff {c d : Nat} {n : Name} : Finds w c n d ↔ (lookup w c n).map (·.1) = some d := by
  constructor
  · intro h
    obtain ⟨s, hl, _⟩ := finds_lookup h
    rw [hl]
    rfl
  · intro h
    cases hl : lookup w c n with
    | none => rw [hl] at h; cases h
    | some p =>
      rw [hl] at h
      cases h
      exact (lookup_some (d := p.1) (s := p.2) hl).1

/-- Who is asked first, computed. -/
def firstB (w : World) (arith : Bool) (l r : Nat) : Bool :=
  l != r && (w.mro r).contains l &&
    (!arith || ((lookup w r .rop).isSome &&
      (lookup w r .rop).map (·.1) != (lookup w l .rop).map (·.1)))

theorem firstB_iff {arith : Bool} {l r : Nat} : firstB w arith l r = true ↔ RightFirst w arith l r := by
  unfold firstB RightFirst
  simp only [Bool.and_eq_true, bne_iff_ne, List.contains_iff_mem, Bool.or_eq_true,
    Bool.not_eq_true', finds_iff, and_assoc]
  refine and_congr_right fun _ => and_congr_right fun _ => ?_
  cases arith with
  | false => simp
  | true =>
    simp only [Bool.true_eq_false, false_or, true_implies]
    cases h : lookup w r .rop with
    | none => simp
    | some p =>
      constructor
      · intro h'
        exact ⟨p.1, rfl, fun h'' => h'.2 (by rw [h'']; rfl)⟩
      · rintro ⟨d, hd, hn⟩
        exact ⟨rfl, fun h' => hn (by rw [← h', ← hd])⟩

/-- What a call does, computed. -/
def callB (w : World) (run : Run) (c : Nat) (n : Name) (a : Nat) : Out :=
  match lookup w c n with
  | some (d, _) => run.call d n c a
  | none => .notImplemented

theorem callB_calls (c : Nat) (n : Name) (a : Nat) : Calls w run c n a (callB w run c n a) := by
  unfold callB
  split
  · rename_i h
    exact .found (lookup_some h).1
  · rename_i h
    exact .missing (lookup_none h)

/-- What an operator does, computed. -/
def evalB (w : World) (run : Run) (arith : Bool) (l r : Nat) : Out :=
  if firstB w arith l r then
    match callB w run r .rop l with
    | .value c => .value c
    | .notImplemented => callB w run l .op r
  else
    match callB w run l .op r with
    | .value c => .value c
    | .notImplemented =>
      if arith && l == r then .notImplemented else callB w run r .rop l

theorem evalB_evals (arith : Bool) (l r : Nat) : Evals w run arith l r (evalB w run arith l r) := by
  have hr := callB_calls (w := w) (run := run) r .rop l
  have hl := callB_calls (w := w) (run := run) l .op r
  unfold evalB
  split
  · rename_i hf
    have hf := firstB_iff.mp hf
    split
    · rename_i h
      rw [h] at hr
      exact .reflected hf hr
    · rename_i h
      rw [h] at hr
      exact .normalAfter hf hr hl
  · rename_i hf
    have hf : ¬ RightFirst w arith l r := fun h => hf (firstB_iff.mpr h)
    split
    · rename_i h
      rw [h] at hl
      exact .normal hf hl
    · rename_i h
      rw [h] at hl
      split
      · rename_i hs
        rw [Bool.and_eq_true, beq_iff_eq] at hs
        exact .same hs.1 hs.2 hl
      · rename_i hs
        rw [Bool.and_eq_true, beq_iff_eq] at hs
        exact .reflectedAfter hf hs hl hr

/-- A program that does what its methods declare. -/
def obedient (w : World) : Run where
  call d n _ a :=
    match w.defs d n with
    | some s => if accepts w s a then .value (s.ret.headD 0) else .notImplemented
    | none => .notImplemented

theorem obedient_faithful (hself : ∀ (c : Nat), c ∈ w.mro c)
    (hret : ∀ (d : Nat) (n : Name) (s : Sig), w.defs d n = some s → s.ret ≠ []) :
    Faithful w (obedient w) := by
  intro d n s c a hs _
  have hr := hret d n s hs
  simp only [obedient, hs]
  constructor
  · intro h
    rw [if_pos (accepts_iff.mpr h)]
    refine ⟨_, rfl, ?_⟩
    cases hret : s.ret with
    | nil => exact absurd hret hr
    | cons t ts => exact ⟨t, List.mem_cons_self, t, hself t, .inl rfl⟩
  · intro h
    rw [if_neg fun h' => h (accepts_iff.mp h')]

/-- A class of a concrete program. -/
structure Cls where
  bases : List Nat
  op : Option Sig := none
  rop : Option Sig := none
  iop : Option Sig := none

def program (cs : List Cls) (promote : Nat → Nat → Bool := fun _ _ => false) : World where
  mro c := c :: ((cs[c]?).map (·.bases)).getD []
  promote := promote
  defs c n := (cs[c]?).bind fun k => match n with
    | .op => k.op
    | .rop => k.rop
    | .iop => k.iop

theorem program_faithful {cs : List Cls} {promote : Nat → Nat → Bool}
    (h : ∀ k ∈ cs, k.op.all (·.ret ≠ []) ∧ k.rop.all (·.ret ≠ []) ∧ k.iop.all (·.ret ≠ [])) :
    Faithful (program cs promote) (obedient (program cs promote)) := by
  apply obedient_faithful
  · exact fun c => List.mem_cons_self
  · intro d n s hs
    simp only [program] at hs
    cases hk : cs[d]? with
    | none => rw [hk] at hs; cases hs
    | some k =>
      rw [hk] at hs
      obtain ⟨h1, h2, h3⟩ := h k (List.mem_of_getElem? hk)
      cases n with
      | op =>
        have hs : k.op = some s := hs
        rw [hs] at h1
        simpa using h1
      | rop =>
        have hs : k.rop = some s := hs
        rw [hs] at h2
        simpa using h2
      | iop =>
        have hs : k.iop = some s := hs
        rw [hs] at h3
        simpa using h3

end Verif.Operator
