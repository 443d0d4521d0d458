import Verif.Tokenizer.Runs

/-! # The tokenizer: the number of open brackets -/

namespace Verif.Tokenizer

/-- The number of open brackets is what the tokens say, until the end of the code. -/
def Counts (s : State) (level : Option Nat) : Prop := ∀ n, level = some n → s.fstack = [] ∧ (s.parens = n ∨ s.rest = [])

/-- What a step does with the number of open brackets, outside of f-strings. -/
def CountOk (s : State) (r : Except Fault Step) : Prop :=
  match r with
  | .ok (.emit t s') => (t.kind ≠ .fstringStart → s'.fstack = [] ∧ (s'.parens = nextLevel s.parens t ∨ s'.rest = [])) ∧ (t.kind = .newline → s.parens = 0)
  | .ok (.again s') => s'.fstack = [] ∧ s'.parens = s.parens
  | _ => True

theorem breakToken_counts {s : State} (hst : Stacked s.indents) (hf : s.fstack = []) {o : Option Token} {s1 : State} (h : breakToken s = .ok (o, s1)) :
    s1.parens = 0 ∧ s1.fstack = [] ∧ s1.rest = s.rest ∧ s1.seen = s.seen ∧ ∀ t, o = some t → t.kind = .dedent ∨ t.kind = .errorDedent := by
  rw [breakToken] at h
  by_cases hin : s.parens ≠ 0 ∨ s.fstack ≠ []
  · rw [if_pos hin] at h
    dsimp only at h
    cases hli : lineIndentation 0 s.seen with
    | none => rw [hli] at h; cases h; exact ⟨rfl, rfl, rfl, rfl, by intro t h; cases h⟩
    | some n =>
      rw [hli] at h
      dsimp only at h
      obtain ⟨⟨r, hr⟩, hd⟩ := dedent_spec (count := n) hst
      rw [hr] at h
      cases r with
      | none => cases h; exact ⟨rfl, rfl, rfl, rfl, by intro t h; cases h⟩
      | some x =>
        obtain ⟨kind, l'⟩ := x
        cases h
        refine ⟨rfl, rfl, rfl, rfl, ?_⟩
        intro t h
        cases h
        exact (hd kind l' hr).2.2.2.1
  · rw [if_neg hin] at h
    cases h
    refine ⟨?_, hf, rfl, rfl, by intro t h; cases h⟩
    exact Nat.eq_zero_of_not_pos (fun hp => hin (.inl (by omega)))

theorem breakNames_eq : breakNames = statementKeywords.map String.toList := by rfl

theorem mem_breakNames (w : List Char) : breakNames.contains w = true ↔ String.ofList w ∈ statementKeywords := by
  rw [breakNames_eq, List.contains_iff_mem, List.mem_map]
  constructor
  · rintro ⟨k, hk, rfl⟩
    rwa [String.ofList_toList]
  · intro h
    exact ⟨_, h, String.toList_ofList⟩

theorem nextLevel_dedent {n : Nat} {t : Token} (h : t.kind = .dedent ∨ t.kind = .errorDedent) : nextLevel n t = 0 := by
  rcases h with h | h <;> rw [nextLevel, h]

theorem nextLevel_other {n : Nat} {t : Token} (h : t.kind ≠ .operator ∧ t.kind ≠ .name ∧ t.kind ≠ .dedent ∧ t.kind ≠ .errorDedent) : nextLevel n t = n := by
  obtain ⟨k, p, x⟩ := t
  cases k <;> simp_all [nextLevel]

theorem lexName_counts {L : Lexers} {s : State} (hst : Stacked s.indents) (hf : s.fstack = []) : CountOk s (lexName L s) := by
  rw [lexName]
  dsimp only
  by_cases hn : 0 < nameLength L s.rest
  · rw [if_pos hn]
    by_cases hb : breakNames.contains (s.rest.take (nameLength L s.rest)) = true
    · rw [if_pos hb]
      cases hbt : breakToken s with
      | error e => trivial
      | ok x =>
        obtain ⟨o, s1⟩ := x
        obtain ⟨h1, h2, h3, h4, h5⟩ := breakToken_counts hst hf hbt
        cases o with
        | some t =>
          refine ⟨fun _ => ⟨h2, .inl ?_⟩, ?_⟩
          · rw [h1, nextLevel_dedent (h5 t rfl)]
          · intro h; rcases h5 t rfl with h' | h' <;> rw [h'] at h <;> cases h
        | none =>
          refine ⟨fun _ => ⟨h2, .inl ?_⟩, by intro h; cases h⟩
          refine h1.trans (if_pos ?_).symm
          simp only [State.token, h3]
          exact (mem_breakNames _).mp hb
    · rw [if_neg hb]
      refine ⟨fun _ => ⟨hf, .inl ?_⟩, by intro h; cases h⟩
      exact (if_neg (fun h => hb ((mem_breakNames _).mpr h))).symm
  · rw [if_neg hn]
    by_cases hk : 0 < newlineLength s.rest
    · rw [if_pos hk]
      by_cases hin : s.parens = 0 ∧ s.fstack = []
      · rw [if_pos hin]
        exact ⟨fun _ => ⟨hf, .inl rfl⟩, fun _ => hin.1⟩
      · rw [if_neg hin]
        exact ⟨hf, rfl⟩
    · rw [if_neg hk]
      cases hrest : s.rest with
      | nil =>
        dsimp only
        split
        · exact ⟨fun _ => ⟨hf, .inr rfl⟩, by intro h; cases h⟩
        · exact ⟨fun _ => ⟨hf, .inr rfl⟩, by intro h; cases h⟩
      | cons c cs => exact ⟨fun _ => ⟨hf, .inl rfl⟩, by intro h; cases h⟩

theorem nextLevel_operator {s1 : State} {n : Nat} {c : Char} {b : List Char} (hcb : s1.rest = c :: b) (hpos : 0 < n) (hf : s1.fstack = [])
    (hone : c ∈ ['(', '[', '{', ')', ']', '}', ';'] → n = 1) (hs : c = ';' → s1.parens = 0) :
    ((s1.advance n).bracket c).fstack = [] ∧ ((s1.advance n).bracket c).parens = nextLevel s1.parens (s1.token .operator n) := by
  have hgl : (s1.advance n).fstack.getLast? = none := by show s1.fstack.getLast? = none; rw [hf]; rfl
  by_cases hm : c ∈ ['(', '[', '{', ')', ']', '}', ';']
  · have hn := hone hm
    subst hn
    have ht : (s1.token .operator 1).text = [c] := by simp only [State.token, hcb]; rfl
    rw [nextLevel, ht]
    unfold State.bracket
    rw [hgl]
    simp only [List.mem_cons, List.not_mem_nil, or_false] at hm
    rcases hm with rfl | rfl | rfl | rfl | rfl | rfl | rfl
    · exact ⟨hf, rfl⟩
    · exact ⟨hf, rfl⟩
    · exact ⟨hf, rfl⟩
    · exact ⟨hf, rfl⟩
    · exact ⟨hf, rfl⟩
    · exact ⟨hf, rfl⟩
    · exact ⟨hf, hs rfl⟩
  · obtain ⟨m, rfl⟩ : ∃ m, n = m + 1 := ⟨n - 1, by omega⟩
    have ht : (s1.token .operator (m + 1)).text = c :: b.take m := by simp only [State.token, hcb]; rfl
    simp only [List.mem_cons, List.not_mem_nil, or_false, not_or] at hm
    obtain ⟨h1, h2, h3, h4, h5, h6, h7⟩ := hm
    rw [nextLevel, ht]
    unfold State.bracket
    rw [if_neg (by rintro (h | h | h) <;> contradiction), if_neg (by rintro (h | h | h) <;> contradiction)]
    refine ⟨hf, ?_⟩
    dsimp only [State.token]
    rw [if_neg, if_neg, if_neg]
    · rfl
    · intro h; exact h7 (List.cons.inj h).1
    · rintro (h | h | h) <;> have := (List.cons.inj h).1 <;> contradiction
    · rintro (h | h | h) <;> have := (List.cons.inj h).1 <;> contradiction

theorem lex_counts {L : Lexers} {s : State} (hL : L.Sound) (hst : Stacked s.indents) (hf : s.fstack = []) : CountOk s (lex L s) := by
  rw [lex]
  split
  · exact ⟨fun _ => ⟨hf, .inl rfl⟩, by intro h; cases h⟩
  · split
    · rename_i n h
      obtain ⟨hpos, hle⟩ := hL.operator _ _ h
      obtain ⟨c, b, hcb⟩ : ∃ c b, s.rest = c :: b := by
        cases hr : s.rest with
        | nil => rw [hr] at hle; exact absurd hle (by simp; omega)
        | cons c b => exact ⟨c, b, rfl⟩
      have hhead : s.rest.headD ' ' = c := by rw [hcb]; rfl
      have hone : c ∈ ['(', '[', '{', ')', ']', '}', ';'] → n = 1 := fun hc => hL.bracket s.rest c b n hcb hc h
      rw [hhead]
      dsimp only
      by_cases hb : c = ';'
      · rw [if_pos hb]
        cases hbt : breakToken s with
        | error e => trivial
        | ok x =>
          obtain ⟨o, s1⟩ := x
          obtain ⟨h1, h2, h3, h4, h5⟩ := breakToken_counts hst hf hbt
          cases o with
          | some t =>
            refine ⟨fun _ => ⟨h2, .inl ?_⟩, ?_⟩
            · rw [h1, nextLevel_dedent (h5 t rfl)]
            · intro h; rcases h5 t rfl with h' | h' <;> rw [h'] at h <;> cases h
          | none =>
            obtain ⟨k1, k2⟩ := nextLevel_operator (s1 := s1) (by rw [h3]; exact hcb) hpos h2 hone (fun _ => h1)
            refine ⟨fun _ => ⟨k1, .inl ?_⟩, by intro h; cases h⟩
            rw [k2]
            have hn := hone (by rw [hb]; simp)
            subst hn
            subst hb
            have ht : (s1.token .operator 1).text = [';'] := by simp only [State.token, h3, hcb]; rfl
            have hk : (s1.token .operator 1).kind = .operator := rfl
            simp only [nextLevel, hk, ht]
            rfl
      · rw [if_neg hb]
        obtain ⟨k1, k2⟩ := nextLevel_operator (s1 := s) hcb hpos hf hone (fun h => absurd h hb)
        exact ⟨fun _ => ⟨k1, .inl k2⟩, by intro h; cases h⟩
    · split
      · refine ⟨fun _ => ⟨hf, .inl ?_⟩, ?_⟩
        · exact (nextLevel_other (by simp only [State.token]; split <;> decide)).symm
        · simp only [State.token]; split <;> (intro h; cases h)
      · split
        · refine ⟨fun _ => ⟨hf, .inl ?_⟩, ?_⟩
          · exact (nextLevel_other (by simp only [State.token]; split <;> decide)).symm
          · simp only [State.token]; split <;> (intro h; cases h)
        · split
          · exact ⟨fun h => absurd rfl h, by intro h; cases h⟩
          · exact lexName_counts hst hf

theorem lineStart_counts {s : State} {k : Nat} (hst : Stacked s.indents) (hf : s.fstack = []) {x : Step} (h : lineStart s k = .ok (some x)) : CountOk s (.ok x) := by
  unfold lineStart at h
  split at h
  · cases h
  · rename_i c b hr
    split at h
    · rename_i hc
      have hp : s.parens = 0 := by
        simp only [Bool.and_eq_true, beq_iff_eq] at hc
        exact hc.1.2
      split at h
      · cases h
      · rename_i last below hi
        split at h
        · cases h
          refine ⟨fun _ => ⟨hf, .inl rfl⟩, by intro h; cases h⟩
        · obtain ⟨⟨r, hr'⟩, hd⟩ := dedent_spec (count := k) hst
          rw [hr'] at h
          cases r with
          | none => cases h
          | some y =>
            obtain ⟨kind, l'⟩ := y
            dsimp only at h
            have hk := (hd kind l' hr').2.2.2.1
            split at h
            · cases h
            · cases h
              refine ⟨fun _ => ⟨hf, .inl ?_⟩, ?_⟩
              · rw [nextLevel_dedent hk]; exact hp
              · intro h; rcases hk with hk | hk <;> rw [State.token] at h <;> rw [hk] at h <;> cases h
    · cases h

theorem plain_counts {L : Lexers} {s : State} (hL : L.Sound) (hst : Stacked s.indents) (hf : s.fstack = []) : CountOk s (plain L s) := by
  rw [plain]
  dsimp only
  have hmono : ∀ (s1 : State) r, s1.parens = s.parens → CountOk s1 r → CountOk s r := by
    intro s1 r hp h
    cases r with
    | error e => trivial
    | ok x =>
      cases x with
      | stop => trivial
      | emit t s' => exact ⟨by rw [← hp]; exact h.1, by rw [← hp]; exact h.2⟩
      | again s' => exact ⟨h.1, h.2.trans hp⟩
  generalize skipWhitespace s.newline false 0 s.seen s.rest = w
  obtain ⟨k, seen, rest⟩ := w
  dsimp only
  by_cases hn : s.newline = true
  · rw [if_pos hn]
    cases hl : lineStart { s with seen := seen, rest := rest } k with
    | error e => trivial
    | ok o =>
      cases o with
      | some x => exact hmono { s with seen := seen, rest := rest } _ rfl (lineStart_counts (s := { s with seen := seen, rest := rest }) hst hf hl)
      | none => exact hmono _ _ rfl (lex_counts (s := { s with seen := seen, rest := rest, newline := false }) hL hst hf)
  · rw [if_neg hn]
    exact hmono _ _ rfl (lex_counts (s := { s with seen := seen, rest := rest }) hL hst hf)

/-- At the end of the code there are only dedents and the end. -/
theorem plain_end {L : Lexers} {s : State} (hL : L.Sound) (hr : s.rest = []) {t : Token} {s' : State} (h : plain L s = .ok (.emit t s')) :
    s'.rest = [] ∧ s'.fstack = s.fstack ∧ t.kind ≠ .newline ∧ t.kind ≠ .fstringStart := by
  have hnone : ∀ {f : List Char → Option Nat}, Bounded f → f [] = none := by
    intro f hb
    cases hx : f [] with
    | none => rfl
    | some n => obtain ⟨h1, h2⟩ := hb _ _ hx; simp at h2; omega
  have hlex : ∀ s1 : State, s1.rest = [] → s1.fstack = s.fstack → lex L s1 = .ok (.emit t s') → s'.rest = [] ∧ s'.fstack = s.fstack ∧ t.kind ≠ .newline ∧ t.kind ≠ .fstringStart := by
    intro s1 h1 h2 h
    rw [lex, h1, hnone hL.number, hnone hL.operator, hnone hL.string, hnone hL.bytes, hnone hL.fstart] at h
    dsimp only at h
    rw [lexName, h1] at h
    simp only [nameLength, newlineLength, Nat.lt_irrefl, if_false] at h
    split at h
    · cases h; exact ⟨rfl, h2, (by intro h; cases h), by intro h; cases h⟩
    · cases h; exact ⟨rfl, h2, (by intro h; cases h), by intro h; cases h⟩
  rw [plain] at h
  dsimp only at h
  have hsk : skipWhitespace s.newline false 0 s.seen s.rest = (0, s.seen, []) := by rw [hr, skipWhitespace.eq_def]
  rw [hsk] at h
  dsimp only at h
  split at h
  · rw [lineStart] at h
    dsimp only at h
    exact hlex { s with seen := s.seen, rest := [], newline := false } rfl rfl h
  · exact hlex { s with seen := s.seen, rest := [] } rfl rfl h

/-- Only `next` calls itself before the end of the code. -/
theorem plain_again {L : Lexers} {s : State} (hL : L.Sound) (hr : s.rest = []) {s' : State} (h : plain L s = .ok (.again s')) : False := by
  have hnone : ∀ {f : List Char → Option Nat}, Bounded f → f [] = none := by
    intro f hb
    cases hx : f [] with
    | none => rfl
    | some n => obtain ⟨h1, h2⟩ := hb _ _ hx; simp at h2; omega
  have hlex : ∀ s1 : State, s1.rest = [] → lex L s1 = .ok (.again s') → False := by
    intro s1 h1 h
    rw [lex, h1, hnone hL.number, hnone hL.operator, hnone hL.string, hnone hL.bytes, hnone hL.fstart] at h
    dsimp only at h
    rw [lexName, h1] at h
    simp only [nameLength, newlineLength, Nat.lt_irrefl, if_false] at h
    split at h <;> cases h
  rw [plain] at h
  dsimp only at h
  have hsk : skipWhitespace s.newline false 0 s.seen s.rest = (0, s.seen, []) := by rw [hr, skipWhitespace.eq_def]
  rw [hsk] at h
  dsimp only at h
  split at h
  · rw [lineStart] at h
    dsimp only at h
    exact hlex { s with seen := s.seen, rest := [], newline := false } rfl h
  · exact hlex { s with seen := s.seen, rest := [] } rfl h

theorem step_plain {L : Lexers} {s : State} (he : s.ended = false) (hf : s.fstack = []) : step L s = plain L s := by
  rw [step, if_neg (by rw [he]; simp), if_pos (by rw [hf]; rfl)]

/-- The state after a newline is outside of brackets. -/
theorem step_newline {L : Lexers} {s s' : State} {t : Token} (hL : L.Sound) (he : s.ended = false) (hg : Good s) (h : step L s = .ok (.emit t s')) (hk : t.kind = .newline) :
    s'.fstack = [] ∧ s'.parens = 0 := by
  have hout : ¬ Inside s' → s'.fstack = [] ∧ s'.parens = 0 := by
    intro hi
    refine ⟨?_, Nat.eq_zero_of_not_pos (fun hp => hi (.inl (by omega)))⟩
    cases hf : s'.fstack with
    | nil => rfl
    | cons a b => exact absurd (.inr (by rw [hf]; simp)) hi
  have hplain : plain L s = .ok (.emit t s') → s'.fstack = [] ∧ s'.parens = 0 := by
    intro h
    rw [plain] at h
    dsimp only at h
    generalize skipWhitespace s.newline false 0 s.seen s.rest = w at h
    obtain ⟨k, seen, rest⟩ := w
    dsimp only at h
    by_cases hn : s.newline = true
    · rw [if_pos hn] at h
      cases hl : lineStart { s with seen := seen, rest := rest } k with
      | error e => rw [hl] at h; cases h
      | ok o =>
        rw [hl] at h
        cases o with
        | some x =>
          cases h
          exfalso
          unfold lineStart at hl
          split at hl
          · cases hl
          · split at hl
            · split at hl
              · cases hl
              · split at hl
                · cases hl; cases hk
                · obtain ⟨⟨r, hr'⟩, hd⟩ := dedent_spec (count := k) hg.stacked
                  dsimp only at hl
                  rw [hr'] at hl
                  cases r with
                  | none => cases hl
                  | some y =>
                    obtain ⟨kind, l'⟩ := y
                    dsimp only at hl
                    have hk' := (hd kind l' hr').2.2.2.1
                    split at hl
                    · cases hl
                    · cases hl
                      rcases hk' with hk' | hk' <;> rw [State.token] at hk <;> rw [hk'] at hk <;> cases hk
            · cases hl
        | none =>
          have := lex_fine (s := { s with seen := seen, rest := rest, newline := false }) hL hg.stacked rfl he
          dsimp only at h
          rw [h] at this
          exact hout (Outcome.line this hk).1
    · rw [if_neg hn] at h
      have := lex_fine (s := { s with seen := seen, rest := rest }) hL hg.stacked (by simpa using hn) he
      rw [h] at this
      exact hout (Outcome.line this hk).1
  rw [step, if_neg (by rw [he]; simp)] at h
  split at h
  · exact hplain h
  · rename_i hf
    have hnl : s.newline = false := by
      cases hn : s.newline with
      | false => rfl
      | true => exact absurd (.inr (by intro h; rw [h] at hf; exact hf rfl)) (hg.line hn)
    split at h
    · rename_i x hx
      cases h
      exact hout (Outcome.line (fstring_fine hg.stacked hnl he hx) hk).1
    · exact hplain h

theorem step_counts {L : Lexers} {s s' : State} {t : Token} {level : Option Nat} (hL : L.Sound) (he : s.ended = false) (hg : Good s) (hc : Counts s level)
    (h : step L s = .ok (.emit t s')) : Counts s' (opened level t) ∧ (t.kind = .newline → level = none ∨ level = some 0) := by
  by_cases hk : t.kind = .newline
  · obtain ⟨h1, h2⟩ := step_newline hL he hg h hk
    refine ⟨?_, fun _ => ?_⟩
    · intro n hn
      rw [opened, if_pos hk] at hn
      cases hn
      exact ⟨h1, .inl h2⟩
    · cases level with
      | none => exact .inl rfl
      | some n =>
        obtain ⟨c1, c2⟩ := hc n rfl
        rw [step_plain he c1] at h
        rcases c2 with c2 | c2
        · have := plain_counts hL hg.stacked c1
          rw [h] at this
          rw [← c2, this.2 hk]
          exact .inr rfl
        · exact absurd hk (plain_end hL c2 h).2.2.1
  · refine ⟨?_, fun h => absurd h hk⟩
    intro m hm
    rw [opened, if_neg hk] at hm
    by_cases hs : t.kind = .fstringStart
    · rw [if_pos hs] at hm; cases hm
    · rw [if_neg hs] at hm
      cases level with
      | none => cases hm
      | some n =>
        cases hm
        obtain ⟨c1, c2⟩ := hc n rfl
        rw [step_plain he c1] at h
        rcases c2 with c2 | c2
        · have := plain_counts hL hg.stacked c1
          rw [h] at this
          rw [← c2]
          exact this.1 hs
        · obtain ⟨k1, k2, _⟩ := plain_end hL c2 h
          exact ⟨k2.trans c1, .inr k1⟩

theorem step_counts_again {L : Lexers} {s s' : State} {level : Option Nat} (hL : L.Sound) (he : s.ended = false) (hg : Good s) (hc : Counts s level)
    (h : step L s = .ok (.again s')) : Counts s' level := by
  intro n hn
  obtain ⟨c1, c2⟩ := hc n hn
  rw [step_plain he c1] at h
  rcases c2 with c2 | c2
  · have := plain_counts hL hg.stacked c1
    rw [h] at this
    exact ⟨this.1, .inl (this.2.trans c2)⟩
  · exact (plain_again hL c2 h).elim

end Verif.Tokenizer
