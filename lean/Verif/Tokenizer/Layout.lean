import Verif.Tokenizer.Levels

/-! # The tokenizer: where the tokens are -/

namespace Verif.Tokenizer

theorem Gap.trans {l : Bool} {a b c : List Char} (h1 : Gap l a b) (h2 : Gap l b c) : Gap l a c := by
  induction h1 with
  | refl => exact h2
  | blank h _ ih => exact .blank h (ih h2)
  | line h hc _ ih => exact .line h hc (ih h2)
  | comment hb he _ ih => exact .comment hb he (ih h2)
  | continued hx _ ih => exact .continued hx (ih h2)

theorem Gap.mono {l l' : Bool} {a b : List Char} (h : Gap l a b) (hl : l = true → l' = true) : Gap l' a b := by
  induction h with
  | refl => exact .refl _
  | blank h _ ih => exact .blank h ih
  | line h hc _ ih => exact .line (hl h) hc ih
  | comment hb he _ ih => exact .comment hb he ih
  | continued hx _ ih => exact .continued hx ih

/-- Where the tokenizer is, if the last token ended before `cs`. -/
structure Lay (code : List Char) (s : State) (pos : Nat) (start isOpen : Bool) (cs : List Char) : Prop where
  whole : s.seen.reverse ++ s.rest = code
  total : pos + size cs = size code
  place : Gap (start || isOpen) cs s.rest ∨ (s.newline = true ∧ Stuck cs ∧ ∃ u, (∀ c ∈ u, isBlank c = true) ∧ s.rest = u ++ cs)
  line : s.newline = true → start = true ∧ BlankLine s.seen 0
  inside : Inside s → isOpen = true
  good : Good s

def LayOk (code : List Char) (pos : Nat) (start isOpen : Bool) (cs : List Char) : Except Fault Step → Prop
  | .error _ => False
  | .ok .stop => False
  | .ok (.emit t s') => ∃ rest, Gap (start || isOpen) cs (t.text ++ rest) ∧ t.start + size (t.text ++ rest) = pos + size cs ∧ (s'.rest = [] → rest = []) ∧
      ∀ isOpen', (Inside s' → isOpen' = true) → Lay code s' (t.start + size t.text) t.kind.beginsLine isOpen' rest
  | .ok (.again s') => Lay code s' pos start isOpen cs

theorem Fine.lay {code : List Char} {s1 : State} {pos : Nat} {start isOpen : Bool} {cs : List Char} {r : Except Fault Step} (h : Fine s1 r)
    (hw : s1.seen.reverse ++ s1.rest = code) (ht : pos + size cs = size code) (hgap : Gap (start || isOpen) cs s1.rest) (hin : Inside s1 → isOpen = true)
    (hst : Stacked s1.indents) (hnl : s1.newline = false) (he : s1.ended = false) : LayOk code pos start isOpen cs r := by
  cases r with
  | error e => exact h.elim
  | ok x =>
    cases x with
    | stop => exact absurd (show s1.ended = true from h) (by rw [he]; simp)
    | emit t s' =>
      have h : Outcome s1 t s' := h
      have hsz : size s1.seen + size s1.rest = size code := by rw [← hw, size_append, size_reverse]
      refine ⟨s'.rest, by rw [h.text]; exact hgap, by rw [h.text, h.start, hsz, ht], fun hr => hr, fun o ho => ⟨?_, ?_, .inl (.refl _), ?_, ho, ⟨h.stacked, fun hn => (h.line (h.newline hn).1).1⟩⟩⟩
      · rw [← hw, h.seen, ← h.text]; simp
      · have := h.text
        rw [h.start, Nat.add_assoc, ← size_append, this, hsz]
      · intro hn
        obtain ⟨h1, c, b, h2, h3⟩ := h.newline hn
        exact ⟨by rw [h1]; rfl, [], s'.seen, rfl, rfl, by simp, .inr ⟨c, b, h2, h3⟩⟩
    | again s' =>
      have h : Onward s1 s' := h
      have hopen := hin h.wasInside
      have hno : s'.newline = true → False := by rw [h.newline, hnl]; simp
      refine ⟨h.whole.trans hw, ht, .inl (hgap.trans (h.gap.mono (by simp [hopen]))), fun hn => (hno hn).elim, fun _ => hopen, ?_, fun hn => (hno hn).elim⟩
      rw [h.indents]; exact hst

theorem lineStart_lay {code : List Char} {s1 : State} {k : Nat} {pos : Nat} {start isOpen : Bool} {cs : List Char} 
    (hw : s1.seen.reverse ++ s1.rest = code) (ht : pos + size cs = size code) (hgap : Gap (start || isOpen) cs s1.rest) (hg : Good s1)
    (hnl : s1.newline = true) (hk : s1.rest = [] ∨ BlankLine s1.seen k) (hstuck : Stuck s1.rest) :
    match lineStart s1 k with
    | .error _ => False
    | .ok none => True
    | .ok (some x) => LayOk code pos start isOpen cs (.ok x) := by
  have hin : ¬ Inside s1 := hg.line hnl
  have hsz : size s1.seen + size s1.rest = size code := by rw [← hw, size_append, size_reverse]
  have htok : ∀ kind, (s1.token kind 0).text = [] := fun _ => rfl
  cases hr : s1.rest with
  | nil => unfold lineStart; rw [hr]; trivial
  | cons c b =>
    have hb : BlankLine s1.seen k := by
      rcases hk with hk | hk
      · rw [hr] at hk; cases hk
      · exact hk
    obtain ⟨u, a, h1, h2, h3, h4⟩ := hb
    have hback : back k s1.seen s1.rest = .ok (a, u.reverse ++ s1.rest) := by
      rw [h1, ← h2]
      exact back_small u a _ (fun c hc => blank_size (h3 c hc))
    unfold lineStart
    rw [hr]
    dsimp only
    cases hcond : (!isBreak c && s1.parens == 0 && s1.fstack.isEmpty) with
    | false => trivial
    | true =>
      cases hi : s1.indents with
      | nil => exact absurd hi hg.stacked.ne
      | cons last below =>
        dsimp only
        by_cases hlt : last < k
        · rw [if_pos rfl, if_pos hlt]
          have hstk := hg.stacked
          rw [hi] at hstk
          refine ⟨s1.rest, hgap, by rw [ht]; exact hsz, fun h => hr.trans h, fun o ho => ⟨?_, by rw [htok]; exact hsz, .inl ?_, (by intro h; cases h), fun h => absurd h hin, ?_, by intro h; cases h⟩⟩
          · rw [← hw, hr]
          · rw [hr]; exact .refl _
          · refine ⟨List.pairwise_cons.mpr ⟨?_, hstk.1⟩, by rw [List.getLast?_cons_cons]; exact hstk.2⟩
            intro y hy
            rcases List.mem_cons.mp hy with rfl | hy
            · exact hlt
            · exact Nat.lt_trans ((List.pairwise_cons.mp hstk.1).1 y hy) hlt
        · rw [if_pos rfl, if_neg hlt, ← hi]
          obtain ⟨⟨r, hr'⟩, hd⟩ := dedent_spec (count := k) hg.stacked
          rw [hr']
          cases r with
          | none => trivial
          | some y =>
            obtain ⟨kind, l'⟩ := y
            obtain ⟨k1, _, _, k4, _⟩ := hd kind l' hr'
            rw [← hr, hback]
            refine ⟨s1.rest, hgap, by rw [ht]; exact hsz, fun h => (List.append_eq_nil_iff.mp h).2, fun o ho => ⟨?_, by rw [htok]; exact hsz, .inr ⟨hnl, hstuck, u.reverse, ?_, rfl⟩, ?_, fun h => absurd h hin, k1, fun _ => hin⟩⟩
            · show a.reverse ++ (u.reverse ++ s1.rest) = code
              rw [← hw, h1]; simp
            · intro c hc; exact h3 c (List.mem_reverse.mp hc)
            · intro _
              refine ⟨?_, [], a, rfl, rfl, by simp, h4⟩
              show kind.beginsLine = true
              rcases k4 with k4 | k4 <;> rw [k4] <;> rfl

theorem plain_lay {L : Lexers} {code : List Char} {s : State} {pos : Nat} {start isOpen : Bool} {cs : List Char} (hL : L.Sound) (hno : NoBlankContinuation code)
    (h : Lay code s pos start isOpen cs) (he : s.ended = false) : LayOk code pos start isOpen cs (plain L s) := by
  rw [plain]
  dsimp only
  obtain ⟨w, h1, h2, h3, h4, h5⟩ := skip_spec s.newline false 0 s.seen s.rest
  have hsk := skip_stuck s.newline false 0 s.seen s.rest
  have hsl := skip_line hno s.newline false 0 s.seen s.rest
  have hgap : Gap (start || isOpen) cs (skipWhitespace s.newline false 0 s.seen s.rest).2.2 := by
    rcases h.place with hp | ⟨hn, hst, u, hu, hr⟩
    · refine hp.trans (Gap.mono (l := s.newline) h5 ?_)
      intro hn
      rw [(h.line hn).1]; rfl
    · rw [hn, hr, skip_blanks hst u 0 s.seen hu]
      exact .refl _
  generalize skipWhitespace s.newline false 0 s.seen s.rest = x at h1 h2 h3 h4 h5 hsk hsl hgap
  obtain ⟨k, seen, rest⟩ := x
  dsimp only at h1 h2 h3 h4 h5 hsk hsl hgap ⊢
  have hwhole : seen.reverse ++ rest = code := by rw [← h.whole, h1, h2]; simp
  by_cases hn : s.newline = true
  · rw [if_pos hn]
    have := lineStart_lay (s1 := { s with seen := seen, rest := rest }) (k := k) hwhole h.total hgap ⟨h.good.stacked, h.good.line⟩ hn
      (hsl hn h.whole.symm (fun _ => (h.line hn).2)) (hsk hn)
    cases hl : lineStart { s with seen := seen, rest := rest } k with
    | error e => rw [hl] at this; exact this
    | ok o =>
      rw [hl] at this
      cases o with
      | some x => exact this
      | none => exact (lex_fine (s := { s with seen := seen, rest := rest, newline := false }) hL h.good.stacked rfl he).lay hwhole h.total hgap h.inside h.good.stacked rfl he
  · rw [if_neg hn]
    exact (lex_fine (s := { s with seen := seen, rest := rest }) hL h.good.stacked (by simpa using hn) he).lay hwhole h.total hgap h.inside h.good.stacked (by simpa using hn) he

theorem step_lay {L : Lexers} {code : List Char} {s : State} {pos : Nat} {start isOpen : Bool} {cs : List Char} (hL : L.Sound) (hno : NoBlankContinuation code)
    (h : Lay code s pos start isOpen cs) (he : s.ended = false) : LayOk code pos start isOpen cs (step L s) := by
  rw [step, if_neg (by rw [he]; simp)]
  by_cases hf : s.fstack.isEmpty = true
  · rw [if_pos hf]
    exact plain_lay hL hno h he
  · rw [if_neg hf]
    have hnl : s.newline = false := by
      cases hn : s.newline with
      | false => rfl
      | true => exact absurd (.inr (by intro h; rw [h] at hf; exact hf rfl)) (h.good.line hn)
    cases hx : fstring L s with
    | none => exact plain_lay hL hno h he
    | some x =>
      have hgap : Gap (start || isOpen) cs s.rest := by
        rcases h.place with hp | ⟨hn, _⟩
        · exact hp
        · rw [hnl] at hn; cases hn
      exact (fstring_fine h.good.stacked hnl he hx).lay h.whole h.total hgap h.inside h.good.stacked hnl he

theorem gap_nil {l : Bool} {x : List Char} (h : Gap l [] x) : x = [] := by cases h; rfl

theorem Counts.inside {s : State} {level : Option Nat} {rest : List Char} (h : Counts s level) (hr : s.rest = [] → rest = []) : Inside s → (isOpen level || rest.isEmpty) = true := by
  intro hi
  cases level with
  | none => rfl
  | some n =>
    obtain ⟨h1, h2⟩ := h n rfl
    rcases h2 with h2 | h2
    · rcases hi with hi | hi
      · rw [h2] at hi
        have : decide (0 < n) = true := by simpa using Nat.pos_of_ne_zero hi
        rw [isOpen, this]; rfl
      · exact absurd h1 hi
    · rw [hr h2]; simp

theorem counts_start (code : List Char) : Counts (State.start code) (some 0) := by intro n h; cases h; exact ⟨rfl, .inl rfl⟩

/-- A run from a state, and no fault after it. -/
theorem run_lay {L : Lexers} {code : List Char} (hL : L.Sound) (hno : NoBlankContinuation code) {s s' : State} {ts : List Token} (h : Steps L s ts s') :
    ∀ pos start level cs, Lay code s pos start (isOpen level || cs.isEmpty) cs → Counts s level → Laid pos start level cs ts ∧ ∀ e, step L s' ≠ .error e := by
  have hend : ∀ {s : State}, s.ended = true → ∀ e, step L s ≠ .error e := by
    intro s he e h
    rw [step_ended he] at h; cases h
  have hgo : ∀ {s : State} {x : Step}, step L s = .ok x → x ≠ .stop → s.ended = false := by
    intro s x h hx
    cases he : s.ended with
    | false => rfl
    | true => rw [step_ended he] at h; cases h; exact absurd rfl hx
  induction h with
  | refl s =>
    intro pos start level cs hl _
    refine ⟨.nil, ?_⟩
    intro e h
    cases he : s.ended with
    | true => exact hend he e h
    | false =>
      have := step_lay hL hno hl he
      rw [h] at this
      exact this
  | @emit s s1 s2 t ts h hs ih =>
    intro pos start level cs hl hc
    have hlay := step_lay hL hno hl (hgo h (by simp))
    rw [h] at hlay
    obtain ⟨rest, h1, h2, h4, h3⟩ := hlay
    have hcount := step_counts hL (hgo h (by simp)) hl.good hc h
    obtain ⟨k1, k2⟩ := ih (t.start + size t.text) t.kind.beginsLine (opened level t) rest (h3 _ (hcount.1.inside h4)) hcount.1
    refine ⟨.cons ?_ h2 hcount.2 k1, k2⟩
    cases cs with
    | nil => rw [gap_nil h1]; exact .refl _
    | cons c cs => simpa using h1
  | again h hs ih =>
    intro pos start level cs hl hc
    have := step_lay hL hno hl (hgo h (by simp))
    rw [h] at this
    exact ih _ _ _ _ this (step_counts_again hL (hgo h (by simp)) hl.good hc h)

theorem lay_start (code : List Char) (o : Bool) : Lay code (State.start code) 0 true o code :=
  ⟨rfl, Nat.zero_add _, .inl (.refl _), fun _ => ⟨rfl, [], [], rfl, rfl, by simp, .inl rfl⟩, fun h => absurd h ((good_start code).line rfl), good_start code⟩

/-! ## Only ASCII -/

theorem back_ascii (k : Nat) (seen rest : List Char) (hk : k ≤ size seen) (hs : ∀ c ∈ seen, c.utf8Size = 1) : ∃ x, back k seen rest = .ok x := by
  rw [size_small hs] at hk
  have := back_small (seen.take k) (seen.drop k) rest (fun c hc => hs c (List.mem_of_mem_take hc))
  rw [List.length_take, Nat.min_eq_left hk, List.take_append_drop] at this
  exact ⟨_, this⟩

theorem step_ascii {L : Lexers} {s : State} (hL : L.Sound) (hg : Good s) (hs : ∀ c ∈ s.seen.reverse ++ s.rest, c.utf8Size = 1) : ∀ e, step L s ≠ .error e := by
  intro e h
  cases he : s.ended with
  | true => rw [step_ended he] at h; cases h
  | false =>
    have hplain : ∀ e, plain L s ≠ .error e := by
      intro e h
      rw [plain] at h
      dsimp only at h
      obtain ⟨w, h1, h2, h3, h4, h5⟩ := skip_spec s.newline false 0 s.seen s.rest
      generalize skipWhitespace s.newline false 0 s.seen s.rest = x at h1 h2 h3 h4 h5 h
      obtain ⟨k, seen, rest⟩ := x
      dsimp only at h1 h2 h3 h4 h5 h
      have hseen : ∀ c ∈ seen, c.utf8Size = 1 := by
        intro c hc
        rw [h2] at hc
        refine hs c ?_
        rw [h1]
        simp only [List.mem_append, List.mem_reverse] at hc ⊢
        rcases hc with hc | hc
        · exact .inr (.inl hc)
        · exact .inl hc
      have hlex : ∀ s1 : State, s1.indents = s.indents → s1.newline = false → s1.ended = false → ∀ e, lex L s1 ≠ .error e := by
        intro s1 e1 e2 e3 e h
        have := lex_fine hL (by rw [e1]; exact hg.stacked) e2 e3
        rw [h] at this
        exact this
      by_cases hn : s.newline = true
      · rw [if_pos hn] at h
        cases hl : lineStart { s with seen := seen, rest := rest } k with
        | error e' =>
          unfold lineStart at hl
          revert hl
          split
          · intro h; cases h
          · split
            · split
              · rename_i hi0; exact absurd hi0 hg.stacked.ne
              · rename_i last below hi0
                split
                · intro h; cases h
                · obtain ⟨⟨r, hr⟩, _⟩ := dedent_spec (count := k) hg.stacked
                  rw [hr]
                  cases r with
                  | none => intro h; cases h
                  | some y =>
                    obtain ⟨kind, l'⟩ := y
                    dsimp only
                    obtain ⟨x, hx⟩ := back_ascii k seen rest (by rw [h2, size_append, size_reverse]; omega) hseen
                    rw [hx]
                    intro h; cases h
            · intro h; cases h
        | ok o =>
          rw [hl] at h
          cases o with
          | some x => cases h
          | none => exact hlex { s with seen := seen, rest := rest, newline := false } rfl rfl he e h
      · rw [if_neg hn] at h
        exact hlex { s with seen := seen, rest := rest } rfl (by simpa using hn) he e h
    rw [step, if_neg (by rw [he]; simp)] at h
    by_cases hf : s.fstack.isEmpty = true
    · rw [if_pos hf] at h; exact hplain e h
    · rw [if_neg hf] at h
      cases hx : fstring L s with
      | none => rw [hx] at h; exact hplain e h
      | some x => rw [hx] at h; cases h

end Verif.Tokenizer
