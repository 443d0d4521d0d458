import Verif.Tokenizer.Columns
import Verif.Tokenizer.RegexLemmas

/-! # The tokenizer: properties -/

namespace Verif.Tokenizer

/-- The regular expressions of the tokenizer do not match the empty text, and brackets are alone. -/
theorem python_sound (alphabetic numeric : Char → Bool) : (python alphabetic numeric).Sound where
  number := fun _ _ h => Rx.find_bounded (r := numberRx) (by decide) h
  operator := fun _ _ h => Rx.find_bounded (r := operatorRx) (by decide) h
  string := fun _ _ h => Rx.find_bounded (r := stringRx) (by decide) h
  bytes := fun _ _ h => Rx.find_bounded (r := bytesRx) (by decide) h
  fstart := fun _ _ h => Rx.find_bounded (r := fstartRx) (by decide) h
  bracket := by
    rintro cs c b n rfl hc h
    have h : operatorRx.find (c :: b) = some n := h
    have hlf : LongestFirst operatorWords := by unfold LongestFirst; decide +kernel
    obtain ⟨_, h2, _⟩ := (words_find operator_words hlf _ _).mp h
    have hpos := (Rx.find_bounded (r := operatorRx) (by decide) h).1
    obtain ⟨m, rfl⟩ : ∃ m, n = m + 1 := ⟨n - 1, by omega⟩
    rw [List.take_succ_cons] at h2
    have hlone : ∀ w ∈ operatorWords, ∀ c ∈ ['(', '[', '{', ')', ']', '}', ';'], w.head? = some c → w.length = 1 := by decide +kernel
    have := hlone _ h2 c hc rfl
    rw [List.length_cons, List.length_take] at this
    have hb := (Rx.find_bounded (r := operatorRx) (by decide) h).2
    rw [List.length_cons] at hb
    omega

/-- **C10.** For any code, however malformed, blocks are balanced: at any time no more dedent than
indent tokens were given, and as many blocks are open as the stack has indentations above column 0,
which increase; at the end all blocks are closed. -/
theorem indentation_balanced {L : Lexers} (hL : L.Sound) (code : List Char) :
    (∀ ts s, Steps L (State.start code) ts s →
      depth 0 ts = some (s.indents.length - 1) ∧ s.indents.getLast? = some 0 ∧ s.indents.Pairwise (fun inner outer => outer < inner)) ∧
    ∀ ts, Tokenizes L code ts → depth 0 ts = some 0 := by
  constructor
  · intro ts s h
    have := run_ok hL h (good_start code)
    exact ⟨this.depth, this.good.stacked.2, this.good.stacked.1⟩
  · rintro ts ⟨s, h, hs⟩
    have := run_ok hL h (good_start code)
    cases he : s.ended with
    | false =>
      have hm := step_move hL this.good he
      rw [hs] at hm
      exact hm.elim
    | true =>
      rcases this.ended he with ⟨h0, _⟩ | ⟨ts', t, rfl, _, _, _, _, h5, _⟩
      · cases h0
      · have hd := this.depth
        rw [h5] at hd
        exact hd

/-- **C69.** The tokenizer comes to an end for any code: it gives one sequence of tokens, which has
an end marker at the end of the code and nowhere else. Partial: unless it goes back into the middle
of a character (`character_boundary_violation`). It never panics. -/
theorem tokenizer_ends_partial {L : Lexers} (hL : L.Sound) (code : List Char) :
    ((∃ ts, Tokenizes L code ts) ∨ Fails L code .boundary) ∧ ¬ Fails L code .panic ∧
    (∀ ts ts', Tokenizes L code ts → Tokenizes L code ts' → ts = ts') ∧
    ∀ ts, Tokenizes L code ts → ∃ before t, ts = before ++ [t] ∧ t.kind = .endmarker ∧ t.text = [] ∧ t.start = size code ∧ ∀ x ∈ before, x.kind ≠ .endmarker := by
  refine ⟨?_, ?_, ?_, ?_⟩
  · obtain ⟨ts, s, h1, h2 | h2⟩ := runs_end hL _ _ _ (State.start code) rfl rfl rfl (good_start code) rfl
    · exact .inl ⟨ts, s, h1, h2⟩
    · exact .inr ⟨ts, s, h1, h2⟩
  · rintro ⟨ts, s, h1, h2⟩
    have := run_ok hL h1 (good_start code)
    cases he : s.ended with
    | true => rw [step_ended he] at h2; cases h2
    | false =>
      have hm := step_move hL this.good he
      rw [h2] at hm
      cases hm
  · rintro ts ts' ⟨s, h1, h2⟩ ⟨s', h1', h2'⟩
    exact (runs_unique h1 h1' (by simp [h2]) (by simp [h2]) (by simp [h2']) (by simp [h2'])).1
  · rintro ts ⟨s, h, hs⟩
    have := run_ok hL h (good_start code)
    cases he : s.ended with
    | false =>
      have hm := step_move hL this.good he
      rw [hs] at hm
      exact hm.elim
    | true =>
      rcases this.ended he with ⟨h0, _⟩ | ⟨ts', t, h1, h2, h3, h4, h5, _, h7⟩
      · cases h0
      · refine ⟨ts', t, h1, h2, h3, ?_, h7⟩
        have hw := this.whole
        rw [h5, List.append_nil] at hw
        have hw : s.seen.reverse = code := hw
        rw [h4, ← hw, size_reverse]

/-- **C69.** Codes of ASCII characters, and codes without blank lines that are continued, are
tokenized. -/
theorem ordinary_code_tokenized {L : Lexers} (hL : L.Sound) (code : List Char) (h : (∀ c ∈ code, c.utf8Size = 1) ∨ NoBlankContinuation code) :
    ∃ ts, Tokenizes L code ts := by
  rcases (tokenizer_ends_partial hL code).1 with h1 | ⟨ts, s, h1, h2⟩
  · exact h1
  · rcases h with h | h
    · have := run_ok hL h1 (good_start code)
      refine absurd h2 (step_ascii hL this.good ?_ .boundary)
      intro c hc
      rw [this.whole] at hc
      exact h c hc
    · exact absurd h2 ((run_lay hL h h1 0 true (some 0) code (lay_start code _) (counts_start code)).2 .boundary)

/-- **C70.** The tokens are in the code one after the other, and between them there are only blanks,
comments and continued lines, and, at the beginning of a line or inside of brackets, ends of lines;
other ends of lines are tokens. Partial: on a line with an f-string brackets are not counted, and for code without blank lines that are continued (`comment_tokens_violation`). -/
theorem tokens_in_order_partial {L : Lexers} (hL : L.Sound) {code : List Char} (hno : NoBlankContinuation code) {ts : List Token} (h : Tokenizes L code ts) :
    Laid 0 true (some 0) code ts := by
  obtain ⟨s, h1, _⟩ := h
  exact (run_lay hL hno h1 0 true (some 0) code (lay_start code _) (counts_start code)).1

/-- **C71.** Blocks follow the columns of the lines. Partial: for code without blank lines that are
continued; the line of a keyword that ends an open bracket can be left in a deeper block
(`break_keyword_violation`), and a form feed counts as a column (`form_feed_violation`). -/
theorem blocks_follow_columns_partial {L : Lexers} (hL : L.Sound) {code : List Char} (hno : NoBlankContinuation code) {ts : List Token} (h : Tokenizes L code ts) :
    Blocks code [0] true ts := by
  obtain ⟨s, h1, _⟩ := h
  exact run_cols hL hno h1 true (cols_start code)

/-- Python's operators and delimiters, and the backquote of Python 2. -/
def pythonOperators : List String :=
  ["+", "-", "*", "**", "/", "//", "%", "@", "<<", ">>", "&", "|", "^", "~", ":=", "<", ">", "<=", ">=", "==", "!=",
    "(", ")", "[", "]", "{", "}", ",", ":", "!", ".", ";", "=", "->",
    "+=", "-=", "*=", "/=", "//=", "%=", "@=", "&=", "|=", "^=", ">>=", "<<=", "**=", "...", "`", "`="]

/-- **C72.** Of the operators at the beginning of a text, the longest one is taken. -/
theorem operators_longest (alphabetic numeric : Char → Bool) (cs : List Char) (n : Nat) :
    (python alphabetic numeric).operator cs = some n ↔
      (n ≤ cs.length ∧ String.ofList (cs.take n) ∈ pythonOperators ∧ ∀ m, m ≤ cs.length → String.ofList (cs.take m) ∈ pythonOperators → m ≤ n) := by
  have hlf : LongestFirst operatorWords := by unfold LongestFirst; decide +kernel
  have hmem : ∀ w, w ∈ operatorWords ↔ String.ofList w ∈ pythonOperators := by
    have h1 : ∀ w ∈ operatorWords, String.ofList w ∈ pythonOperators := by decide +kernel
    have h2 : ∀ p ∈ pythonOperators, p.toList ∈ operatorWords := by decide +kernel
    intro w
    refine ⟨h1 w, fun h => ?_⟩
    have := h2 _ h
    rwa [String.toList_ofList] at this
  rw [← hmem]
  simp only [← hmem]
  exact words_find operator_words hlf cs n

end Verif.Tokenizer
