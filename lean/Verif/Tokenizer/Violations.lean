import Verif.Tokenizer.FStringProps

/-! # The tokenizer: examples, and where it is wrong -/

namespace Verif.Tokenizer

/-- Repeated steps. -/
def run (L : Lexers) : Nat → State → Except Fault (Option (List Token))
  | 0, _ => .ok none
  | n + 1, s =>
    match step L s with
    | .error e => .error e
    | .ok .stop => .ok (some [])
    | .ok (.again s') => run L n s'
    | .ok (.emit t s') =>
      match run L n s' with
      | .error e => .error e
      | .ok none => .ok none
      | .ok (some ts) => .ok (some (t :: ts))

theorem run_ok_steps {L : Lexers} : ∀ (n : Nat) (s : State) (ts : List Token), run L n s = .ok (some ts) → ∃ s', Steps L s ts s' ∧ step L s' = .ok .stop := by
  intro n
  induction n with
  | zero => intro s ts h; cases h
  | succ n ih =>
    intro s ts h
    rw [run] at h
    split at h
    · cases h
    · rename_i hs; cases h; exact ⟨s, .refl s, hs⟩
    · rename_i s' hs
      obtain ⟨s'', h1, h2⟩ := ih _ _ h
      exact ⟨s'', .again hs h1, h2⟩
    · rename_i t s' hs
      split at h
      · cases h
      · cases h
      · rename_i ts' hr
        cases h
        obtain ⟨s'', h1, h2⟩ := ih _ _ hr
        exact ⟨s'', .emit hs h1, h2⟩

theorem run_error_steps {L : Lexers} {e : Fault} : ∀ (n : Nat) (s : State), run L n s = .error e → ∃ ts s', Steps L s ts s' ∧ step L s' = .error e := by
  intro n
  induction n with
  | zero => intro s h; cases h
  | succ n ih =>
    intro s h
    rw [run] at h
    split at h
    · rename_i hs; cases h; exact ⟨[], s, .refl s, hs⟩
    · cases h
    · rename_i s' hs
      obtain ⟨ts, s'', h1, h2⟩ := ih _ h
      exact ⟨ts, s'', .again hs h1, h2⟩
    · rename_i t s' hs
      split at h
      · rename_i e' hr
        cases h
        obtain ⟨ts, s'', h1, h2⟩ := ih _ hr
        exact ⟨t :: ts, s'', .emit hs h1, h2⟩
      · cases h
      · cases h

/-- The letters and digits of ASCII. -/
def ascii : Lexers := python (fun c => ('a' ≤ c && c ≤ 'z') || ('A' ≤ c && c ≤ 'Z')) (fun c => '0' ≤ c && c ≤ '9')

theorem ascii_sound : ascii.Sound := python_sound _ _

/-- What tokens look like. -/
def look (code : String) : Option (List (Kind × Nat × String)) :=
  match run ascii 100 (State.start code.toList) with
  | .error _ => none
  | .ok none => none
  | .ok (some ts) => some (ts.map (fun t => (t.kind, t.start, String.ofList t.text)))

/-- How tokenizing fails. -/
def fault (code : String) : Option Fault :=
  match run ascii 100 (State.start code.toList) with
  | .error e => some e
  | .ok _ => none

theorem fault_fails {code : String} {e : Fault} (h : fault code = some e) : Fails ascii code.toList e := by
  rw [fault] at h
  split at h
  · rename_i hr; cases h; exact run_error_steps _ _ hr
  · cases h

def tok (x : Kind × Nat × String) : Token := ⟨x.1, x.2.1, x.2.2.toList⟩

theorem look_tokenizes {code : String} {ts : List (Kind × Nat × String)} (h : look code = some ts) : Tokenizes ascii code.toList (ts.map tok) := by
  rw [look] at h
  split at h
  · cases h
  · cases h
  · rename_i ts' hr
    cases h
    obtain ⟨s, h1, h2⟩ := run_ok_steps _ _ _ hr
    refine ⟨s, ?_, h2⟩
    have : (ts'.map (fun t => (t.kind, t.start, String.ofList t.text))).map tok = ts' := by
      rw [List.map_map]
      have : (tok ∘ fun t : Token => (t.kind, t.start, String.ofList t.text)) = id := by
        funext t
        simp [tok, Function.comp, String.toList_ofList]
      rw [this, List.map_id]
    rw [this]
    exact h1

/-! ## Examples -/

/-- Two blocks, a bracket over two lines and a comment. -/
example : look "if x:\n  f(1,\n# c\n\t2)\n  if y:\n    z\na" = some [
    (.name, 0, "if"), (.name, 3, "x"), (.operator, 4, ":"), (.newline, 5, "\n"), (.indent, 8, ""), (.name, 8, "f"), (.operator, 9, "("), (.number, 10, "1"),
    (.operator, 11, ","), (.number, 18, "2"), (.operator, 19, ")"), (.newline, 20, "\n"), (.name, 23, "if"), (.name, 26, "y"), (.operator, 27, ":"), (.newline, 28, "\n"),
    (.indent, 33, ""), (.name, 33, "z"), (.newline, 34, "\n"), (.dedent, 35, ""), (.dedent, 35, ""), (.name, 35, "a"), (.endmarker, 36, "")] := by decide +kernel

/-- A line between two blocks. -/
example : look "if x:\n    a\n  b" = some [(.name, 0, "if"), (.name, 3, "x"), (.operator, 4, ":"), (.newline, 5, "\n"), (.indent, 10, ""), (.name, 10, "a"),
    (.newline, 11, "\n"), (.errorDedent, 14, ""), (.name, 14, "b"), (.dedent, 15, ""), (.endmarker, 15, "")] := by decide +kernel

/-- A nested format spec. -/
example : look "f'a{{{x!r:>{y}}' 1e5j" = some [(.fstringStart, 0, "f'"), (.fstringString, 2, "a{{"), (.operator, 5, "{"), (.name, 6, "x"), (.operator, 7, "!"), (.name, 8, "r"),
    (.operator, 9, ":"), (.fstringString, 10, ">"), (.operator, 11, "{"), (.name, 12, "y"), (.operator, 13, "}"), (.operator, 14, "}"), (.fstringEnd, 15, "'"),
    (.number, 17, "1e5j"), (.endmarker, 21, "")] := by decide +kernel

/-- The hypotheses of the theorems. -/
example : ∃ ts, Tokenizes ascii "if x:\n  a\nb".toList ts := ordinary_code_tokenized ascii_sound _ (.inl (by decide))

theorem no_continuation {code : List Char} (h : '\\' ∉ code) : NoBlankContinuation code := by
  intro a u b c hc _ _ _
  exact h (by rw [hc]; simp)

example : Blocks "if x:\n  a\nb".toList [0] true ([(.name, 0, "if"), (.name, 3, "x"), (.operator, 4, ":"), (.newline, 5, "\n"), (.indent, 8, ""), (.name, 8, "a"),
    (.newline, 9, "\n"), (.dedent, 10, ""), (.name, 10, "b"), (.endmarker, 11, "")].map tok) :=
  blocks_follow_columns_partial ascii_sound (no_continuation (by decide)) (look_tokenizes (by decide +kernel))

example : Laid 0 true (some 0) "(a,\n b) # c".toList ([(.operator, 0, "("), (.name, 1, "a"), (.operator, 2, ","), (.name, 5, "b"), (.operator, 6, ")"), (.endmarker, 11, "")].map tok) :=
  tokens_in_order_partial ascii_sound (no_continuation (by decide)) (look_tokenizes (by decide +kernel))

/-- A text with an escaped end of a line has no blank line that is continued. -/
example : ∃ n, ascii.operator "**=x".toList = some n := ⟨3, by decide +kernel⟩
example : Literal stringPrefixes "r'a\\'b' + 1".toList " + 1".toList := ⟨['r'], _, rfl, by decide, .short (.inl rfl) (by decide) (.char (by decide) (.escape (by decide) (.char (by decide) (.close _))))⟩
example : Literal bytesPrefixes "bR\"\"\"a\"\"b\"\"\"".toList [] :=
  ⟨['b', 'R'], _, rfl, by decide, .long (.inr rfl) (.char (by decide) (by decide) (.char (by decide) (by decide) (.char (by decide) (by decide) (.char (by decide) (by decide) (.close _)))))⟩

/-! ## Where it is wrong -/

theorem Gap.size_le {l : Bool} {a b : List Char} (h : Gap l a b) : size b ≤ size a := by
  induction h with
  | refl => exact Nat.le_refl _
  | blank _ _ ih => rw [size_cons]; omega
  | line _ _ _ ih => rw [size_cons]; omega
  | comment _ _ _ ih => rw [size_cons, size_append]; omega
  | continued _ _ ih => rw [size_cons, size_append]; omega

theorem Laid.sorted {pos : Nat} {start : Bool} {level : Option Nat} {code : List Char} {ts : List Token} (h : Laid pos start level code ts) :
    (∀ t ∈ ts, pos ≤ t.start) ∧ ts.Pairwise (fun a b => a.start + size a.text ≤ b.start) := by
  induction h with
  | nil => exact ⟨by simp, .nil⟩
  | @cons pos start level code rest t ts g hp _ h ih =>
    have hle := g.size_le
    refine ⟨?_, List.pairwise_cons.mpr ⟨ih.1, ih.2⟩⟩
    intro x hx
    rcases List.mem_cons.mp hx with rfl | hx
    · omega
    · have := ih.1 x hx; omega

/-- **C70.** After a blank line that is continued, the tokenizer goes back into a comment: the tokens
are not in order, and a word of the comment is a token. -/
theorem comment_tokens_violation : ∃ ts, Tokenizes ascii "if x:\n      a\n    \\\n#foo\nb\n".toList ts ∧ ¬ Laid 0 true (some 0) "if x:\n      a\n    \\\n#foo\nb\n".toList ts ∧
    ⟨.name, 21, "foo".toList⟩ ∈ ts := by
  refine ⟨_, look_tokenizes (ts := [(.name, 0, "if"), (.name, 3, "x"), (.operator, 4, ":"), (.newline, 5, "\n"), (.indent, 12, ""), (.name, 12, "a"), (.newline, 13, "\n"),
    (.errorDedent, 25, ""), (.dedent, 21, ""), (.name, 21, "foo"), (.newline, 24, "\n"), (.name, 25, "b"), (.newline, 26, "\n"), (.endmarker, 27, "")]) (by decide +kernel), ?_, by decide⟩
  intro h
  exact absurd h.sorted.2 (by decide)

/-- **C69.** With other characters in the comment, the tokenizer goes back into the middle of a
character (undefined behaviour, since the text from there is taken as UTF-8). -/
theorem character_boundary_violation : Fails ascii "if x:\n      a\n  \\\n#ä\nb\n".toList .boundary :=
  fault_fails (by decide +kernel)

/-- **C71.** A keyword after an open bracket closes only one block: this class is at column 0, but
still in a block. -/
theorem break_keyword_violation : ∃ a t b, Tokenizes ascii "if x:\n  if y:\n    f(\nclass C: 1".toList (a ++ t :: b) ∧ t.text = "class".toList ∧
    Col "if x:\n  if y:\n    f(\nclass C: 1".toList t 0 ∧ depth 0 a = some 1 := by
  refine ⟨[(.name, 0, "if"), (.name, 3, "x"), (.operator, 4, ":"), (.newline, 5, "\n"), (.indent, 8, ""), (.name, 8, "if"), (.name, 11, "y"), (.operator, 12, ":"),
    (.newline, 13, "\n"), (.indent, 18, ""), (.name, 18, "f"), (.operator, 19, "("), (.dedent, 21, "")].map tok, tok (.name, 21, "class"),
    [(.name, 27, "C"), (.operator, 28, ":"), (.number, 30, "1"), (.dedent, 31, ""), (.endmarker, 31, "")].map tok, ?_, rfl, ⟨"if x:\n  if y:\n    f(\n".toList, " C: 1".toList, rfl, rfl, rfl⟩, rfl⟩
  exact look_tokenizes (ts := [(.name, 0, "if"), (.name, 3, "x"), (.operator, 4, ":"), (.newline, 5, "\n"), (.indent, 8, ""), (.name, 8, "if"), (.name, 11, "y"), (.operator, 12, ":"),
    (.newline, 13, "\n"), (.indent, 18, ""), (.name, 18, "f"), (.operator, 19, "("), (.dedent, 21, ""), (.name, 21, "class"),
    (.name, 27, "C"), (.operator, 28, ":"), (.number, 30, "1"), (.dedent, 31, ""), (.endmarker, 31, "")]) (by decide +kernel)

/-- **C71.** A form feed at the beginning of a line, which Python ignores, is taken as indentation:
the last line is not in the outer block. -/
theorem form_feed_violation : ∃ a t b, Tokenizes ascii "if x:\n    a\n\x0Cb".toList (a ++ t :: b) ∧ t.kind = .errorDedent ∧
    ∃ ts, Tokenizes ascii "if x:\n    a\nb".toList ts ∧ ∀ t ∈ ts, t.kind ≠ .errorDedent := by
  refine ⟨[(.name, 0, "if"), (.name, 3, "x"), (.operator, 4, ":"), (.newline, 5, "\n"), (.indent, 10, ""), (.name, 10, "a"), (.newline, 11, "\n")].map tok,
    tok (.errorDedent, 13, ""), [(.name, 13, "b"), (.dedent, 14, ""), (.endmarker, 14, "")].map tok, ?_, rfl,
    [(.name, 0, "if"), (.name, 3, "x"), (.operator, 4, ":"), (.newline, 5, "\n"), (.indent, 10, ""), (.name, 10, "a"), (.newline, 11, "\n"),
      (.dedent, 12, ""), (.name, 12, "b"), (.endmarker, 13, "")].map tok, ?_, ?_⟩
  · exact look_tokenizes (ts := [(.name, 0, "if"), (.name, 3, "x"), (.operator, 4, ":"), (.newline, 5, "\n"), (.indent, 10, ""), (.name, 10, "a"), (.newline, 11, "\n"),
      (.errorDedent, 13, ""), (.name, 13, "b"), (.dedent, 14, ""), (.endmarker, 14, "")]) (by decide +kernel)
  · exact look_tokenizes (ts := [(.name, 0, "if"), (.name, 3, "x"), (.operator, 4, ":"), (.newline, 5, "\n"), (.indent, 10, ""), (.name, 10, "a"), (.newline, 11, "\n"),
      (.dedent, 12, ""), (.name, 12, "b"), (.endmarker, 13, "")]) (by decide +kernel)
  · decide

/-! ## F-strings -/

/-- The text of this f-string goes on after the continued line, but it ends there. -/
theorem crlf_continuation_violation : FText .single false false "a\\\r\nb'".toList "a\\\r\nb".toList "'".toList ∧
    Tokenizes ascii "f'a\\\r\nb'".toList ([(.fstringStart, 0, "f'"), (.fstringString, 2, "a\\\r"), (.newline, 5, "\n"), (.name, 6, "b"), (.errorToken, 7, "'"), (.endmarker, 8, "")].map tok) :=
  ⟨.char (by decide) (by decide) (by decide) (.crlf (.char (by decide) (by decide) (by decide) (.quote (by decide)))), look_tokenizes (by decide +kernel)⟩

/-- In a raw f-string this is a field, but it is taken as the name of a character. -/
theorem raw_name_violation : FText .single true false "\\N{a}'".toList "\\N".toList "{a}'".toList ∧
    Tokenizes ascii "rf'\\N{a}'".toList ([(.fstringStart, 0, "rf'"), (.fstringString, 3, "\\N{a}"), (.fstringEnd, 8, "'"), (.endmarker, 9, "")].map tok) :=
  ⟨.escape (by decide) (by decide) (by decide) (.field (by decide) (by decide)), look_tokenizes (by decide +kernel)⟩

/-- The end of the f-string is missed, because a brace comes somewhere after it. -/
theorem character_name_violation : FText .single true false "\\N' + f'{a}'".toList "\\N".toList "' + f'{a}'".toList ∧
    Tokenizes ascii "rf'\\N' + f'{a}'".toList ([(.fstringStart, 0, "rf'"), (.fstringString, 3, "\\N' + f'{a}"), (.fstringEnd, 14, "'"), (.endmarker, 15, "")].map tok) :=
  ⟨.escape (by decide) (by decide) (by decide) (.quote (by decide)), look_tokenizes (by decide +kernel)⟩

/-- A quote in the text of the inner f-string ends the outer one. -/
theorem nested_quote_violation : FText .single false false "a\"b'}\"".toList "a\"b".toList "'}\"".toList ∧
    Tokenizes ascii "f\"{f'a\"b'}\"".toList ([(.fstringStart, 0, "f\""), (.operator, 2, "{"), (.fstringStart, 3, "f'"), (.fstringString, 5, "a"), (.fstringEnd, 6, "\""),
      (.name, 7, "b"), (.errorToken, 8, "'"), (.operator, 9, "}"), (.errorToken, 10, "\""), (.endmarker, 11, "")].map tok) :=
  ⟨.char (by decide) (by decide) (by decide) (.char (by decide) (by decide) (by decide) (.char (by decide) (by decide) (by decide) (.quote (by decide)))), look_tokenizes (by decide +kernel)⟩

/-- After a blank, a colon does not begin a format specification. -/
theorem blank_before_colon_violation : FText .single false true ">9}'".toList ">9".toList "}'".toList ∧
    Tokenizes ascii "f'{x:>9}'".toList ([(.fstringStart, 0, "f'"), (.operator, 2, "{"), (.name, 3, "x"), (.operator, 4, ":"), (.fstringString, 5, ">9"), (.operator, 7, "}"),
      (.fstringEnd, 8, "'"), (.endmarker, 9, "")].map tok) ∧
    Tokenizes ascii "f'{x :>9}'".toList ([(.fstringStart, 0, "f'"), (.operator, 2, "{"), (.name, 3, "x"), (.operator, 5, ":"), (.operator, 6, ">"), (.number, 7, "9"), (.operator, 8, "}"),
      (.fstringEnd, 9, "'"), (.endmarker, 10, "")].map tok) :=
  ⟨.char (by decide) (by decide) (by decide) (.char (by decide) (by decide) (by decide) (.field (by decide) (by decide))), look_tokenizes (by decide +kernel), look_tokenizes (by decide +kernel)⟩

/-- After a format specification inside of a format specification, the next field is taken as text:
the name `z` is no token. -/
theorem second_specification_violation :
    Tokenizes ascii "f'{x:{y:1}{z}}'".toList ([(.fstringStart, 0, "f'"), (.operator, 2, "{"), (.name, 3, "x"), (.operator, 4, ":"), (.operator, 5, "{"), (.name, 6, "y"), (.operator, 7, ":"),
      (.fstringString, 8, "1"), (.operator, 9, "}"), (.operator, 10, "{"), (.fstringString, 11, "z"), (.operator, 12, "}"), (.operator, 13, "}"), (.fstringEnd, 14, "'"),
      (.endmarker, 15, "")].map tok) ∧
    Tokenizes ascii "f'{x:{y}{z}}'".toList ([(.fstringStart, 0, "f'"), (.operator, 2, "{"), (.name, 3, "x"), (.operator, 4, ":"), (.operator, 5, "{"), (.name, 6, "y"),
      (.operator, 7, "}"), (.operator, 8, "{"), (.name, 9, "z"), (.operator, 10, "}"), (.operator, 11, "}"), (.fstringEnd, 12, "'"), (.endmarker, 13, "")].map tok) :=
  ⟨look_tokenizes (by decide +kernel), look_tokenizes (by decide +kernel)⟩

/-- The token and the state after a step. -/
def emitted (s : State) : Option (Token × State) :=
  match step ascii s with
  | .ok (.emit t s') => some (t, s')
  | _ => none

theorem emitted_step {s s' : State} {t : Token} (h : emitted s = some (t, s')) : step ascii s = .ok (.emit t s') := by
  rw [emitted] at h
  split at h
  · rename_i hs; cases h; exact hs
  · cases h

/-- A state of `fstring_text_partial`. -/
example : ∃ s ts, Steps ascii (State.start "f'a{{b{x:>9}'".toList) ts s ∧ s.ended = false ∧ s.fstack = [⟨.single, 0, 0⟩] ∧
    FText .single false false s.rest "a{{b".toList "{x:>9}'".toList ∧ NoNames s.rest :=
  ⟨⟨['\'', 'f'], ['a', '{', '{', 'b', '{', 'x', ':', '>', '9', '}', '\''], false, false, [0], 0, [⟨.single, 0, 0⟩]⟩, _,
    .emit (t := ⟨.fstringStart, 0, ['f', '\'']⟩) (emitted_step (by decide +kernel)) (.refl _), rfl, rfl,
    .char (by decide) (by decide) (by decide) (.doubled (by decide) rfl (.char (by decide) (by decide) (by decide) (.field (by decide) (by decide)))), by unfold NoNames; decide⟩

end Verif.Tokenizer
