import Verif.Tokenizer.Outcome

/-! # The tokenizer: f-strings, operators and literals -/

namespace Verif.Tokenizer

/-- What the scan of an f-string finds is there. -/
def FStep.Fine (stack : List FNode) (n : Nat) : FStep → Prop
  | .pass => True
  | .text m => 0 < m
  | .finish m j _ => n ≤ m ∧ j < stack.length
  | .newline m j => n ≤ m ∧ j < stack.length

theorem FStep.Fine.mono {stack : List FNode} {n m : Nat} {x : FStep} (h : x.Fine stack m) (hn : n ≤ m) : x.Fine stack n := by
  cases x with
  | pass => trivial
  | text k => exact h
  | finish k j q => exact ⟨Nat.le_trans hn h.1, h.2⟩
  | newline k j => exact ⟨Nat.le_trans hn h.1, h.2⟩

theorem endsDouble_lt {stack : List FNode} {cs : List Char} {j : Nat} (h : endsDouble stack cs = some j) : j < stack.length := by
  rw [endsDouble, List.findIdx?_eq_some_iff_getElem] at h
  exact h.1

theorem endsSingle_lt {stack : List FNode} {cs : List Char} {j : Nat} (h : endsSingle stack cs = some j) : j < stack.length := by
  rw [endsSingle, Option.map_eq_some_iff] at h
  obtain ⟨i, hi, rfl⟩ := h
  rw [List.findIdx?_eq_some_iff_getElem] at hi
  have := hi.1
  rw [List.length_reverse] at this
  omega

theorem fscan_fine (L : Lexers) (stack : List FNode) (inSpec : Bool) (n : Nat) (rest : List Char) : (fscan L stack inSpec n rest).Fine stack n := by
  fun_induction fscan L stack inSpec n rest
  all_goals first
    | trivial
    | assumption
    | exact ⟨Nat.le_refl _, endsDouble_lt (by assumption)⟩
    | exact ⟨Nat.le_refl _, endsSingle_lt (by assumption)⟩
    | exact FStep.Fine.mono (by assumption) (by omega)
    | (rename_i h; exact ⟨Nat.le_refl _, (List.findIdx?_eq_some_iff_getElem.mp h).1⟩)

theorem fscan_rest {L : Lexers} {stack : List FNode} {inSpec : Bool} {n : Nat} {rest : List Char} (h : fscan L stack inSpec n rest ≠ .pass) : rest ≠ [] := by
  rintro rfl
  rw [fscan] at h
  exact h rfl

theorem fstring_fine {L : Lexers} {s : State} {x : Step} (hst : Stacked s.indents) (hnl : s.newline = false) (hen : s.ended = false) (h : fstring L s = some x) :
    Fine s (.ok x) := by
  rw [fstring] at h
  have hnl' : ∀ {p : Prop}, s.newline = true → p := fun h => absurd h (by rw [hnl]; simp)
  cases ht : s.fstack.getLast? with
  | none => rw [ht] at h; cases h
  | some top =>
    have hin : Inside s := .inr (by intro h0; rw [h0] at ht; cases ht)
    rw [ht] at h
    dsimp only at h
    split at h
    · split at h
      · rename_i hc
        split at h
        · cases h
          exact outcome_plain hst (by rw [hc]; simp) Nat.one_pos rfl rfl rfl (fun h => hnl' h) hen (by decide) (fun _ => .inl hin) (by intro h; cases h)
        · cases h
      · cases h
    · have hf := fscan_fine L s.fstack top.inSpec 0 s.rest
      split at h
      · cases h
      · rename_i n hs
        cases h
        rw [hs] at hf
        exact outcome_plain hst (fscan_rest (by rw [hs]; simp)) hf rfl rfl rfl (fun h => hnl' h) hen (by decide) (fun h => .inl h) (by intro h; cases h)
      · rename_i n j q hs
        have hr := fscan_rest (L := L) (stack := s.fstack) (inSpec := top.inSpec) (n := 0) (rest := s.rest) (by rw [hs]; simp)
        split at h
        · rename_i hn
          cases h
          exact outcome_plain hst hr hn rfl rfl rfl (fun h => hnl' h) hen (by decide) (fun h => .inl h) (by intro h; cases h)
        · cases h
          exact outcome_plain hst hr (by cases q <;> decide) rfl rfl rfl (fun h => hnl' h) hen (by decide) (fun _ => .inl hin) (by intro h; cases h)
      · rename_i n j hs
        have hr := fscan_rest (L := L) (stack := s.fstack) (inSpec := top.inSpec) (n := 0) (rest := s.rest) (by rw [hs]; simp)
        rw [hs] at hf
        split at h
        · rename_i hn
          cases h
          exact outcome_plain hst hr hn rfl rfl rfl (fun h => hnl' h) hen (by decide) (fun h => .inl h) (by intro h; cases h)
        · cases h
          refine ⟨.refl _, rfl, rfl, hin, rfl, rfl, .inr ⟨Nat.le_refl _, .inr ⟨rfl, ?_⟩⟩⟩
          show (s.fstack.take j).length < s.fstack.length
          rw [List.length_take]
          have := hf.2
          omega

theorem bracket_fields (s : State) (c : Char) : (s.bracket c).seen = s.seen ∧ (s.bracket c).rest = s.rest ∧ (s.bracket c).indents = s.indents ∧
    (s.bracket c).newline = s.newline ∧ (s.bracket c).ended = s.ended := by
  unfold State.bracket
  split
  · split <;> exact ⟨rfl, rfl, rfl, rfl, rfl⟩
  · split
    · split <;> exact ⟨rfl, rfl, rfl, rfl, rfl⟩
    · exact ⟨rfl, rfl, rfl, rfl, rfl⟩

theorem bracket_inside {s : State} {c : Char} (h : Inside (s.bracket c)) : Inside s ∨ c = '(' ∨ c = '[' ∨ c = '{' := by
  unfold State.bracket at h
  split at h
  · rename_i hc; exact .inr hc
  · split at h
    · cases ht : s.fstack.getLast? with
      | none =>
        rw [ht] at h
        refine .inl ?_
        rcases h with h | h
        · refine .inl (fun h0 => h ?_)
          show s.parens - 1 = 0
          rw [h0]
        · exact .inr h
      | some top => exact .inl (.inr (by intro h0; rw [h0] at ht; cases ht))
    · exact .inl h

theorem lex_fine {L : Lexers} {s : State} (hL : L.Sound) (hst : Stacked s.indents) (hnl : s.newline = false) (hen : s.ended = false) : Fine s (lex L s) := by
  have hnl' : ∀ {p : Prop}, s.newline = true → p := fun h => absurd h (by rw [hnl]; simp)
  have hne : ∀ {f : List Char → Option Nat} {n : Nat}, Bounded f → f s.rest = some n → 0 < n ∧ s.rest ≠ [] := by
    intro f n hb h
    obtain ⟨h1, h2⟩ := hb _ _ h
    exact ⟨h1, by intro h0; rw [h0] at h2; exact absurd h2 (by simp; omega)⟩
  rw [lex]
  split
  · rename_i n h
    obtain ⟨h1, h2⟩ := hne hL.number h
    exact outcome_plain hst h2 h1 rfl rfl rfl (fun h => hnl' h) hen (by decide) (fun h => .inl h) (by intro h; cases h)
  · split
    · rename_i n h
      obtain ⟨h1, h2⟩ := hne hL.operator h
      obtain ⟨c, b, hcb⟩ := List.exists_cons_of_ne_nil h2
      have hhead : s.rest.headD ' ' = c := by rw [hcb]; rfl
      rw [hhead]
      dsimp only
      have plain : ∀ s1 : State, s1.seen = s.seen → s1.rest = s.rest → s1.indents = s.indents → s1.newline = false → s1.ended = false → (Inside s1 → Inside s) →
          Outcome s (s1.token .operator n) ((s1.advance n).bracket c) := by
        intro s1 e1 e2 e3 e4 e5 e6
        have : s1.token .operator n = s.token .operator n := by simp only [State.token, e1, e2]
        rw [this]
        obtain ⟨f1, f2, f3, f4, f5⟩ := bracket_fields (s1.advance n) c
        refine outcome_plain hst h2 h1 ?_ ?_ (f3.trans e3) ?_ (f5.trans e5) (by decide) ?_ (by intro h; cases h)
        · rw [f1]; simp only [State.advance, e1, e2]
        · rw [f2]; simp only [State.advance, e2]
        · intro h
          rw [f4] at h
          exact absurd (show s1.newline = true from h) (by rw [e4]; simp)
        · intro hi
          rcases bracket_inside hi with hi | hc
          · exact .inl (e6 hi)
          · have hn := hL.bracket s.rest c b n hcb (by rcases hc with rfl | rfl | rfl <;> simp) h
            subst hn
            refine .inr ?_
            unfold Opens
            simp only [State.token, hcb, List.take_succ_cons, List.take_zero]
            rcases hc with rfl | rfl | rfl
            · exact .inl rfl
            · exact .inr (.inl rfl)
            · exact .inr (.inr (.inl rfl))
      by_cases hb : c = ';'
      · rw [if_pos hb]
        obtain ⟨⟨⟨o, s1⟩, hr1⟩, hs1⟩ := breakToken_spec hst hnl hen
        obtain ⟨h1, h2⟩ := hs1 o s1 hr1
        rw [hr1]
        cases o with
        | some t => exact h2 t rfl
        | none =>
          obtain ⟨e1, e2, e3, e4, e5, e6⟩ := h1 rfl
          exact plain s1 e1 e2 e3 e4 e5 e6
      · rw [if_neg hb]
        exact plain s rfl rfl rfl hnl hen (fun h => h)
    · split
      · rename_i n h
        obtain ⟨h1, h2⟩ := hne hL.string h
        exact outcome_plain hst h2 h1 rfl rfl rfl (fun h => hnl' h) hen (by split <;> decide) (fun h => .inl h) (by split <;> (intro h; cases h))
      · split
        · rename_i n h
          obtain ⟨h1, h2⟩ := hne hL.bytes h
          exact outcome_plain hst h2 h1 rfl rfl rfl (fun h => hnl' h) hen (by split <;> decide) (fun h => .inl h) (by split <;> (intro h; cases h))
        · split
          · rename_i n h
            obtain ⟨h1, h2⟩ := hne hL.fstart h
            exact outcome_plain hst h2 h1 rfl rfl rfl (fun h => hnl' h) hen (by decide) (fun _ => .inr (.inr (.inr (.inr rfl)))) (by intro h; cases h)
          · exact lexName_fine hst hnl hen

end Verif.Tokenizer
