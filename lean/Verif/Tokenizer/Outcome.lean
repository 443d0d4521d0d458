import Verif.Tokenizer.Lemmas

/-! # The tokenizer: what one step does -/

namespace Verif.Tokenizer

/-- The stack of indentations increases strictly and starts at column 0; the top is first. -/
def Stacked (l : List Nat) : Prop := l.Pairwise (fun a b => b < a) ∧ l.getLast? = some 0

/-- How a token changes the stack of indentations. -/
def KindOk (k : Kind) (l l' : List Nat) : Prop :=
  match k with
  | .indent => ∃ n, l' = n :: l
  | .dedent => ∃ n, l = n :: l' ∧ l' ≠ []
  | .errorDedent => ∃ n m b, l = n :: b ∧ l' = m :: b
  | _ => l' = l

/-- The tokenizer comes closer to the end. -/
def Less (s' s : State) : Prop :=
  s'.rest.length < s.rest.length ∨ (s'.rest.length ≤ s.rest.length ∧ (s'.indents.sum < s.indents.sum ∨ (s'.indents = s.indents ∧ s'.fstack.length < s.fstack.length)))

/-- Brackets or f-strings are open. -/
def Inside (s : State) : Prop := s.parens ≠ 0 ∨ s.fstack ≠ []

/-- A token opens a bracket or an f-string. -/
def Opens (t : Token) : Prop := t.text = ['('] ∨ t.text = ['['] ∨ t.text = ['{'] ∨ t.kind = .fstringStart

/-- A token at the index. -/
structure Outcome (s : State) (t : Token) (s' : State) : Prop where
  text : t.text ++ s'.rest = s.rest
  start : t.start = size s.seen
  seen : s'.seen = t.text.reverse ++ s.seen
  kind : KindOk t.kind s.indents s'.indents
  stacked : Stacked s'.indents
  inside : Inside s' → Inside s ∨ Opens t
  line : t.kind = .newline → ¬ Inside s' ∧ s'.newline = true
  newline : s'.newline = true → t.kind = .newline ∧ ∃ c b, s'.seen = c :: b ∧ isBreak c = true
  ended : s'.ended = true ↔ t.kind = .endmarker
  last : t.kind = .endmarker → s.rest = [] ∧ s'.indents = [0]
  less : s'.ended = false → Less s' s
  noIndent : t.kind ≠ .indent
  long : t.kind ≠ .dedent → t.kind ≠ .errorDedent → t.kind ≠ .endmarker → t.text ≠ []
  drop : t.kind = .dedent ∨ t.kind = .errorDedent → t.text = [] ∧ ((t.kind = .dedent ∧ s.rest = []) ∨
    ∃ n, Inside s ∧ lineIndentation 0 s.seen = some n ∧ dedentIfNecessary n s.indents = .ok (some (t.kind, s'.indents)))

/-- A call of `next` by itself. -/
structure Onward (s s' : State) : Prop where
  gap : Gap true s.rest s'.rest
  whole : s'.seen.reverse ++ s'.rest = s.seen.reverse ++ s.rest
  indents : s'.indents = s.indents
  wasInside : Inside s
  newline : s'.newline = s.newline
  ended : s'.ended = s.ended
  less : Less s' s

theorem Stacked.ne {l : List Nat} (h : Stacked l) : l ≠ [] := by rintro rfl; exact absurd h.2 (by simp)

theorem Stacked.tail {a b : Nat} {l : List Nat} (h : Stacked (a :: b :: l)) : Stacked (b :: l) :=
  ⟨(List.pairwise_cons.mp h.1).2, by have := h.2; rwa [List.getLast?_cons_cons] at this⟩

theorem stacked_single {n : Nat} (h : Stacked [n]) : n = 0 := by
  have := h.2
  simpa using this

theorem dedent_spec {count : Nat} {l : List Nat} (h : Stacked l) :
    (∃ r, dedentIfNecessary count l = .ok r) ∧
    ∀ kind l', dedentIfNecessary count l = .ok (some (kind, l')) → Stacked l' ∧ KindOk kind l l' ∧ l'.sum < l.sum ∧ (kind = .dedent ∨ kind = .errorDedent) ∧ ∃ n b, l = n :: b ∧ count < n := by
  cases l with
  | nil => exact absurd rfl h.ne
  | cons last below =>
    rw [dedentIfNecessary.eq_def]
    dsimp only
    by_cases hc : count < last
    · rw [if_pos hc]
      cases below with
      | nil => rw [stacked_single h] at hc; omega
      | cons before more =>
        dsimp only
        by_cases hb : before < count
        · rw [if_pos hb]
          refine ⟨⟨_, rfl⟩, ?_⟩
          intro kind l' hk
          cases hk
          have ht := h.tail
          refine ⟨⟨?_, ?_⟩, ⟨_, _, _, rfl, rfl⟩, by simp; omega, .inr rfl, _, _, rfl, hc⟩
          · rw [List.pairwise_cons]
            refine ⟨?_, ht.1⟩
            intro x hx
            rcases List.mem_cons.mp hx with rfl | hx
            · exact hb
            · exact Nat.lt_trans ((List.pairwise_cons.mp ht.1).1 x hx) hb
          · rw [List.getLast?_cons_cons]; exact ht.2
        · rw [if_neg hb]
          refine ⟨⟨_, rfl⟩, ?_⟩
          intro kind l' hk
          cases hk
          exact ⟨h.tail, ⟨_, rfl, by simp⟩, by simp; omega, .inl rfl, _, _, rfl, hc⟩
    · rw [if_neg hc]
      refine ⟨⟨_, rfl⟩, ?_⟩
      intro kind l' hk
      cases hk

theorem less_advance {s s' : State} {n : Nat} (hr : s.rest ≠ []) (hn : 0 < n) (h : s'.rest = s.rest.drop n) : Less s' s := by
  refine .inl ?_
  rw [h, List.length_drop]
  have := List.length_pos_iff.mpr hr
  omega

/-- A token of `n` characters that changes neither blocks nor brackets. -/
theorem outcome_plain {s s' : State} {kind : Kind} {n : Nat} (hst : Stacked s.indents) (hr : s.rest ≠ []) (hn : 0 < n)
    (h1 : s'.seen = (s.advance n).seen) (h2 : s'.rest = (s.advance n).rest) (h3 : s'.indents = s.indents) (h4 : s'.newline = true → kind = .newline ∧ ∃ c b, s'.seen = c :: b ∧ isBreak c = true)
    (h5 : s'.ended = false) (hk : kind ≠ .indent ∧ kind ≠ .dedent ∧ kind ≠ .errorDedent ∧ kind ≠ .endmarker)
    (h6 : Inside s' → Inside s ∨ Opens (s.token kind n)) (h7 : kind = .newline → ¬ Inside s' ∧ s'.newline = true) : Outcome s (s.token kind n) s' := by
  refine ⟨?_, rfl, h1, ?_, by rw [h3]; exact hst, h6, h7, h4, ?_, ?_, fun _ => less_advance hr hn h2, hk.1, (fun _ _ _ h => by
    have := List.take_eq_nil_iff.mp h
    rcases this with h | h
    · omega
    · exact hr h), fun h => h.elim (fun h => absurd h hk.2.1) (fun h => absurd h hk.2.2.1)⟩
  · rw [h2]; exact List.take_append_drop n s.rest
  · show KindOk kind _ _
    rw [h3]
    cases kind <;> first | rfl | exact absurd rfl hk.1 | exact absurd rfl hk.2.1 | exact absurd rfl hk.2.2.1
  · rw [h5]; exact ⟨(fun h => by cases h), fun h => absurd h hk.2.2.2⟩
  · intro h; exact absurd h hk.2.2.2

theorem breakToken_spec {s : State} (hst : Stacked s.indents) (hnl : s.newline = false) (hen : s.ended = false) :
    (∃ r, breakToken s = .ok r) ∧ ∀ o s1, breakToken s = .ok (o, s1) →
      (o = none → s1.seen = s.seen ∧ s1.rest = s.rest ∧ s1.indents = s.indents ∧ s1.newline = false ∧ s1.ended = false ∧ (Inside s1 → Inside s)) ∧
      ∀ t, o = some t → Outcome s t s1 := by
  rw [breakToken]
  by_cases hin : s.parens ≠ 0 ∨ s.fstack ≠ []
  · rw [if_pos hin]
    dsimp only
    have hout : ¬ Inside { s with parens := 0, fstack := [] } := by rintro (h | h) <;> exact h rfl
    cases hli : lineIndentation 0 s.seen with
    | none =>
      refine ⟨⟨_, rfl⟩, ?_⟩
      intro o s1 h
      cases h
      exact ⟨fun _ => ⟨rfl, rfl, rfl, hnl, hen, fun h => absurd h hout⟩, by intro t h; cases h⟩
    | some n =>
      dsimp only
      obtain ⟨⟨r, hr⟩, hd⟩ := dedent_spec (count := n) hst
      rw [hr]
      cases r with
      | none =>
        refine ⟨⟨_, rfl⟩, ?_⟩
        intro o s1 h
        cases h
        exact ⟨fun _ => ⟨rfl, rfl, rfl, hnl, hen, fun h => absurd h hout⟩, by intro t h; cases h⟩
      | some x =>
        obtain ⟨kind, l'⟩ := x
        refine ⟨⟨_, rfl⟩, ?_⟩
        intro o s1 h
        cases h
        refine ⟨(by intro h; cases h), ?_⟩
        intro t h
        cases h
        obtain ⟨k1, k2, k3, k4, _⟩ := hd kind l' hr
        refine ⟨rfl, rfl, rfl, k2, k1, fun h => absurd h hout, (by intro h; have : kind = .newline := h; rcases k4 with k4 | k4 <;> rw [k4] at this <;> cases this), ?_, ?_, ?_, fun _ => .inr ⟨Nat.le_refl _, .inl k3⟩, (by show kind ≠ _; rcases k4 with k4 | k4 <;> rw [k4] <;> simp), (fun h1 h2 => (k4.elim (fun h => absurd h h1) (fun h => absurd h h2))), fun _ => ⟨rfl, .inr ⟨n, hin, hli, hr⟩⟩⟩
        · intro h
          exact absurd (show s.newline = true from h) (by rw [hnl]; simp)
        · refine ⟨fun h => absurd (show s.ended = true from h) (by rw [hen]; simp), ?_⟩
          intro h
          have : kind = .endmarker := h
          rcases k4 with k4 | k4 <;> rw [k4] at this <;> cases this
        · intro h
          have : kind = .endmarker := h
          rcases k4 with k4 | k4 <;> rw [k4] at this <;> cases this
  · rw [if_neg hin]
    refine ⟨⟨_, rfl⟩, ?_⟩
    intro o s1 h
    cases h
    exact ⟨fun _ => ⟨rfl, rfl, rfl, hnl, hen, fun h => h⟩, by intro t h; cases h⟩

/-- What a step gives. -/
def Fine (s : State) (r : Except Fault Step) : Prop :=
  match r with
  | .error _ => False
  | .ok .stop => s.ended = true
  | .ok (.emit t s') => Outcome s t s'
  | .ok (.again s') => Onward s s'

theorem inside_congr {s s' : State} (h1 : s'.parens = s.parens) (h2 : s'.fstack = s.fstack) : Inside s' ↔ Inside s := by
  rw [Inside, Inside, h1, h2]

theorem nameLength_ne {L : Lexers} {cs : List Char} (h : 0 < nameLength L cs) : cs ≠ [] := by
  rintro rfl; simp [nameLength] at h

theorem newline_spec {cs : List Char} (h : 0 < newlineLength cs) : cs ≠ [] ∧ (∀ x, Gap true (cs.drop (newlineLength cs)) x → Gap true cs x) ∧
    ∃ c b, (cs.take (newlineLength cs)).reverse = c :: b ∧ isBreak c = true := by
  unfold newlineLength at h ⊢
  split
  · exact ⟨by simp, fun x hx => .line rfl (.inr rfl) (.line rfl (.inl rfl) hx), _, _, rfl, rfl⟩
  · exact ⟨by simp, fun x hx => .line rfl (.inr rfl) hx, _, _, rfl, rfl⟩
  · exact ⟨by simp, fun x hx => .line rfl (.inl rfl) hx, _, _, rfl, rfl⟩
  · rename_i h1 h2 h3
    exfalso
    revert h
    split
    · rename_i heq; exact absurd rfl (h1 _)
    · rename_i heq; exact absurd rfl (h2 _)
    · rename_i heq; exact absurd rfl (h3 _)
    · simp

theorem lexName_fine {L : Lexers} {s : State} (hst : Stacked s.indents) (hnl : s.newline = false) (hen : s.ended = false) : Fine s (lexName L s) := by
  rw [lexName]
  dsimp only
  by_cases hn : 0 < nameLength L s.rest
  · rw [if_pos hn]
    have hr := nameLength_ne hn
    have plain : ∀ s1 : State, s1.seen = s.seen → s1.rest = s.rest → s1.indents = s.indents → s1.newline = false → s1.ended = false → (Inside s1 → Inside s) →
        Outcome s (s1.token .name (nameLength L s.rest)) (s1.advance (nameLength L s.rest)) := by
      intro s1 e1 e2 e3 e4 e5 e6
      have : s1.token .name (nameLength L s.rest) = s.token .name (nameLength L s.rest) := by simp only [State.token, e1, e2]
      rw [this]
      refine outcome_plain hst hr hn ?_ ?_ e3 (by intro h; exact absurd (show s1.newline = true from h) (by rw [e4]; simp)) e5 (by decide) (fun h => .inl (e6 h)) (by intro h; cases h)
      · simp only [State.advance, e1, e2]
      · simp only [State.advance, e2]
    by_cases hb : breakNames.contains (s.rest.take (nameLength L s.rest)) = true
    · rw [if_pos hb]
      obtain ⟨⟨⟨o, s1⟩, hr1⟩, hs1⟩ := breakToken_spec hst hnl hen
      obtain ⟨h1, h2⟩ := hs1 o s1 hr1
      rw [hr1]
      cases o with
      | some t => exact h2 t rfl
      | none =>
        obtain ⟨e1, e2, e3, e4, e5, e6⟩ := h1 rfl
        exact plain s1 e1 e2 e3 e4 e5 e6
    · rw [if_neg hb]
      exact plain s rfl rfl rfl hnl hen (fun h => h)
  · rw [if_neg hn]
    by_cases hk : 0 < newlineLength s.rest
    · rw [if_pos hk]
      obtain ⟨hr, hg, c, b, hcb, hbr⟩ := newline_spec hk
      by_cases hin : s.parens = 0 ∧ s.fstack = []
      · rw [if_pos hin]
        have hout : ¬ Inside { s.advance (newlineLength s.rest) with newline := true } := by
          rintro (h | h)
          · exact h hin.1
          · exact h hin.2
        exact outcome_plain hst hr hk rfl rfl rfl (fun _ => ⟨rfl, c, b ++ s.seen, by show (s.rest.take _).reverse ++ s.seen = _; rw [hcb]; rfl, hbr⟩) hen (by decide) (fun h => absurd h hout) (fun _ => ⟨hout, rfl⟩)
      · rw [if_neg hin]
        refine ⟨hg _ (.refl _), ?_, rfl, ?_, rfl, rfl, less_advance hr hk rfl⟩
        · simp [State.advance]
        · by_cases hp : s.parens = 0
          · exact .inr (fun h => hin ⟨hp, h⟩)
          · exact .inl hp
    · rw [if_neg hk]
      cases hrest : s.rest with
      | nil =>
        have hdone : ∀ n below, s.indents = n :: below → below ≠ [] → Outcome s (s.token .dedent 0) { s with indents := s.indents.tail } := by
          intro n below hi hb
          cases below with
          | nil => exact absurd rfl hb
          | cons m below =>
            have hst' := hst
            rw [hi] at hst'
            refine ⟨rfl, rfl, rfl, ⟨n, ?_⟩, ?_, fun h => .inl h, (by intro h; cases h), ?_, ?_, (by intro h; cases h), fun _ => .inr ⟨Nat.le_refl _, .inl ?_⟩, (by intro h; cases h), (fun h => absurd rfl h), fun _ => ⟨rfl, .inl ⟨rfl, hrest⟩⟩⟩
            · rw [hi]; exact ⟨rfl, by simp⟩
            · show Stacked s.indents.tail
              rw [hi]; exact hst'.tail
            · intro h; exact absurd (show s.newline = true from h) (by rw [hnl]; simp)
            · refine ⟨fun h => absurd (show s.ended = true from h) (by rw [hen]; simp), by intro h; cases h⟩
            · show s.indents.tail.sum < s.indents.sum
              rw [hi]
              have := (List.pairwise_cons.mp hst'.1).1 m (by simp)
              simp only [List.tail_cons, List.sum_cons]
              omega
        have hst0 := hst
        cases hi : s.indents with
        | nil => exact absurd hi hst.ne
        | cons n below =>
          cases below with
          | nil =>
            rw [hi] at hst
            have hn0 := stacked_single hst
            subst hn0
            refine ⟨?_, rfl, rfl, ?_, hst, fun h => .inl h, (by intro h; cases h), ?_, ?_, fun _ => ⟨hrest, rfl⟩, (by intro h; cases h), (by intro h; cases h), (fun _ _ h => absurd rfl h), fun h => h.elim (by intro h; cases h) (by intro h; cases h)⟩
            · rw [hrest]; simp [State.token]
            · exact hi.symm
            · intro h; exact absurd (show s.newline = true from h) (by rw [hnl]; simp)
            · exact ⟨fun _ => rfl, fun _ => rfl⟩
          | cons m below =>
            have := hdone n (m :: below) hi (by simp)
            rw [hi, hrest] at this
            exact this
      | cons c cs =>
        have hr : s.rest ≠ [] := by rw [hrest]; simp
        exact outcome_plain hst hr (Nat.one_pos) rfl rfl rfl (by intro h; exact absurd (show s.newline = true from h) (by rw [hnl]; simp)) hen (by decide) (fun h => .inl h) (by intro h; cases h)

end Verif.Tokenizer
