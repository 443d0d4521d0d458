import Verif.Tokenizer.FStringSpec
import Verif.Tokenizer.StringProps

/-! # The text of an f-string: properties -/

namespace Verif.Tokenizer

theorem ftext_append {q : Quote} {raw spec : Bool} {cs text rest : List Char} (h : FText q raw spec cs text rest) : cs = text ++ rest := by
  induction h with
  | quote _ => rfl
  | field _ _ => rfl
  | line _ _ => rfl
  | char _ _ _ _ ih => rw [ih]; rfl
  | doubled _ _ _ ih => rw [ih]; rfl
  | escape _ _ _ _ ih => rw [ih]; rfl
  | crlf _ ih => rw [ih]; rfl
  | backslash _ _ ih => rw [ih]; rfl
  | named _ _ _ ih => rw [ih]; simp

theorem noNames_tail {c : Char} {cs : List Char} (h : NoNames (c :: cs)) : NoNames cs :=
  ⟨fun hx => h.1 (hx.trans (List.infix_cons List.infix_rfl)), fun hx => h.2 (hx.trans (List.infix_cons List.infix_rfl))⟩

/-- What ends the text of an f-string. -/
def fend (n : Nat) (q : Quote) (rest : List Char) : FStep :=
  if closing q <+: rest then .finish n 0 q
  else match rest with
    | c :: _ => if c = '{' ∨ c = '}' then (if 0 < n then .text n else .pass) else .newline n 0
    | [] => .pass

theorem endsDouble_one (n : FNode) (cs : List Char) :
    endsDouble [n] ('"' :: cs) = if closing n.quote <+: '"' :: cs then some 0 else none := by
  rcases n with ⟨q, p, s⟩
  cases q
  · simp [endsDouble, closing]
  · simp [endsDouble, closing]
  · simp [endsDouble, closing]
  · by_cases h : closing .doubleTriple <+: '"' :: cs
    · rw [if_pos h]
      obtain ⟨r, hr⟩ := h
      rw [← hr]
      simp [endsDouble, closing]
    · rw [if_neg h]
      have : ¬ List.take 3 ('"' :: cs) = ['"', '"', '"'] := by
        intro h'
        exact h ⟨List.drop 3 ('"' :: cs), by rw [closing, ← h', List.take_append_drop]⟩
      simp only [endsDouble, List.findIdx?_cons, List.findIdx?_nil]
      simp only [beq_iff_eq, this, if_false]
      rfl

theorem endsSingle_one (n : FNode) (cs : List Char) :
    endsSingle [n] ('\'' :: cs) = if closing n.quote <+: '\'' :: cs then some 0 else none := by
  rcases n with ⟨q, p, s⟩
  cases q
  · simp [endsSingle, closing]
  · simp [endsSingle, closing]
  · by_cases h : closing .singleTriple <+: '\'' :: cs
    · rw [if_pos h]
      obtain ⟨r, hr⟩ := h
      rw [← hr]
      simp [endsSingle, closing]
    · rw [if_neg h]
      have : ¬ List.take 3 ('\'' :: cs) = ['\'', '\'', '\''] := by
        intro h'
        exact h ⟨List.drop 3 ('\'' :: cs), by rw [closing, ← h', List.take_append_drop]⟩
      simp only [endsSingle, List.reverse_singleton, List.findIdx?_cons, List.findIdx?_nil]
      simp only [beq_iff_eq, this, if_false]
      rfl
  · simp [endsSingle, closing]

theorem closing_head {q : Quote} {cs : List Char} (h : closing q <+: cs) : ∃ c r, cs = c :: r ∧ (c = '"' ∨ c = '\'') := by
  obtain ⟨r, rfl⟩ := h
  cases q <;> exact ⟨_, _, rfl, by decide⟩

theorem multiline_iff (q : Quote) : q.multiline = true ↔ (closing q).length ≠ 1 := by cases q <;> decide

theorem fscan_text {L : Lexers} {n : FNode} {raw spec : Bool} {cs text rest : List Char} (h : FText n.quote raw spec cs text rest) (hno : NoNames cs) :
    ∀ k, fscan L [n] spec k cs = fend (k + text.length) n.quote rest := by
  induction h with
  | @quote cs h =>
    intro k
    obtain ⟨c, r, rfl, hc⟩ := closing_head h
    rw [fend, if_pos h, fscan.eq_def]
    dsimp only
    rcases hc with rfl | rfl
    · rw [if_neg (by decide), if_pos rfl, endsDouble_one, if_pos h]; rfl
    · rw [if_neg (by decide), if_neg (by decide), if_pos rfl, endsSingle_one, if_pos h]; rfl
  | @field c d cs hc h =>
    intro k
    have hcl : ¬ closing n.quote <+: c :: d :: cs := by
      intro hx
      obtain ⟨c', r, he, hc'⟩ := closing_head hx
      cases he
      rcases hc with rfl | rfl <;> rcases hc' with hc' | hc' <;> cases hc'
    rw [fend, if_neg hcl, fscan.eq_def]
    dsimp only
    rw [if_pos hc, if_pos h, if_pos hc]
    rfl
  | @line c cs hc hq =>
    intro k
    have hcl : ¬ closing n.quote <+: c :: cs := by
      intro hx
      obtain ⟨c', r, he, hc'⟩ := closing_head hx
      cases he
      rcases hc with rfl | rfl <;> rcases hc' with hc' | hc' <;> cases hc'
    have hm : n.quote.multiline = false := by
      cases hm : n.quote.multiline with
      | false => rfl
      | true => exact absurd hq ((multiline_iff _).mp hm)
    rw [fend, if_neg hcl, fscan.eq_def]
    dsimp only
    rcases hc with rfl | rfl <;>
      · rw [if_neg (by decide), if_neg (by decide), if_neg (by decide), if_neg (by decide), if_pos (by decide)]
        rw [if_neg (by decide)]
        simp [hm]
  | @char c cs text rest hc hn hq h ih =>
    intro k
    have ih := ih (noNames_tail hno) (k + 1)
    have he : k + (c :: text).length = k + 1 + text.length := by simp; omega
    rw [he, ← ih, fscan.eq_def]
    dsimp only
    rw [if_neg (by rintro (h | h) <;> simp_all)]
    by_cases h1 : c = '"'
    · subst h1
      rw [if_pos rfl, endsDouble_one, if_neg hq]
    · rw [if_neg h1]
      by_cases h2 : c = '\''
      · subst h2
        rw [if_pos rfl, endsSingle_one, if_neg hq]
      · rw [if_neg h2, if_neg hc.2.2]
        by_cases hb : isBreak c = true
        · rw [if_pos hb]
          have hm : n.quote.multiline = true := by
            rw [multiline_iff]
            intro h1
            have := hn h1
            simp [isBreak, this] at hb
          simp [hm]
        · rw [if_neg hb]
  | @doubled c cs text rest hc hs h ih =>
    intro k
    have ih := ih (noNames_tail (noNames_tail hno)) (k + 2)
    have he : k + (c :: c :: text).length = k + 2 + text.length := by simp; omega
    rw [he, ← ih, fscan.eq_def]
    dsimp only
    rw [if_pos hc, if_neg (by simp [hs])]
  | @escape c cs text rest hc hN hr h ih =>
    intro k
    have ih := ih (noNames_tail (noNames_tail hno)) (k + 2)
    have he : k + ('\\' :: c :: text).length = k + 2 + text.length := by simp; omega
    have hnN : c ≠ 'N' := by
      rintro rfl
      exact hno.1 ⟨[], cs, rfl⟩
    rw [he, ← ih, fscan.eq_def]
    dsimp only
    rw [if_neg (by decide), if_neg (by decide), if_neg (by decide), if_pos rfl, if_neg hnN]
    dsimp only
    rw [if_pos hc]
  | @crlf cs text rest h ih => exact absurd ⟨[], cs, rfl⟩ hno.2
  | @backslash c cs text rest hc h ih =>
    intro k
    have ih := ih (noNames_tail hno) (k + 1)
    have he : k + ('\\' :: text).length = k + 1 + text.length := by simp; omega
    have hnN : c ≠ 'N' := by rcases hc with rfl | rfl <;> decide
    rw [he, ← ih, fscan.eq_def]
    dsimp only
    rw [if_neg (by decide), if_neg (by decide), if_neg (by decide), if_pos rfl, if_neg hnN]
    dsimp only
    rw [if_neg (by rcases hc with rfl | rfl <;> simp)]
  | named hr hn h ih => exact absurd ⟨[], _, rfl⟩ hno.1

theorem ftext_rest {q : Quote} {raw spec : Bool} {cs text rest : List Char} (h : FText q raw spec cs text rest) : rest ≠ [] := by
  induction h with
  | quote h => obtain ⟨c, r, rfl, _⟩ := closing_head h; simp
  | field _ _ => simp
  | line _ _ => simp
  | char _ _ _ _ ih => exact ih
  | doubled _ _ _ ih => exact ih
  | escape _ _ _ _ ih => exact ih
  | crlf _ ih => exact ih
  | backslash _ _ ih => exact ih
  | named _ _ _ ih => exact ih

theorem fend_pos {n : Nat} {q : Quote} {rest : List Char} (hn : 0 < n) (hr : rest ≠ []) : fend n q rest = .finish n 0 q ∨ fend n q rest = .text n ∨ fend n q rest = .newline n 0 := by
  cases rest with
  | nil => exact absurd rfl hr
  | cons c r =>
    by_cases h1 : closing q <+: c :: r
    · exact .inl (if_pos h1)
    · by_cases h2 : c = '{' ∨ c = '}'
      · refine .inr (.inl ?_)
        rw [fend.eq_def, if_neg h1]
        dsimp only
        rw [if_pos h2, if_pos hn]
      · refine .inr (.inr ?_)
        rw [fend.eq_def, if_neg h1]
        dsimp only
        rw [if_neg h2]

/-- **C74.** In an f-string that is not inside of another one, outside of its fields, the next token
is the whole literal text up to the next field, the end of the f-string or the end of the line; if
there is none, the end of the f-string is the next token. Partial: for text without names of
characters (`raw_name_violation`, `character_name_violation`), without continued lines that end with
`\r\n` (`crlf_continuation_violation`); for f-strings in fields see `nested_quote_violation`. -/
theorem fstring_text_partial {L : Lexers} {s : State} {q : Quote} {raw : Bool} {level specs : Nat} {text rest : List Char}
    (he : s.ended = false) (hs : s.fstack = [⟨q, level, specs⟩]) (hl : level ≤ specs) (h : FText q raw (decide (0 < specs)) s.rest text rest) (hno : NoNames s.rest) :
    (text ≠ [] → step L s = .ok (.emit ⟨.fstringString, size s.seen, text⟩ { s with seen := text.reverse ++ s.seen, rest := rest })) ∧
    (text = [] → ∀ after, rest = closing q ++ after →
      step L s = .ok (.emit ⟨.fstringEnd, size s.seen, closing q⟩ { s with seen := (closing q).reverse ++ s.seen, rest := after, fstack := [] })) := by
  have hx : (FNode.inExpr ⟨q, level, specs⟩) = false := by simp [FNode.inExpr]; omega
  have hsp : (FNode.inSpec ⟨q, level, specs⟩) = decide (0 < specs) := by simp [FNode.inSpec, hx]
  have hscan := fscan_text (L := L) (n := ⟨q, level, specs⟩) h hno 0
  have hcs := ftext_append h
  have hstep : step L s = match fstring L s with
      | some x => .ok x
      | none => plain L s := by
    rw [step, he, hs]
    rfl
  have hf : fstring L s = (match fscan L s.fstack (decide (0 < specs)) 0 s.rest with
      | .pass => none
      | .text n => some (.emit (s.token .fstringString n) (s.advance n))
      | .finish n j q =>
        if 0 < n then some (.emit (s.token .fstringString n) (s.advance n))
        else some (.emit (s.token .fstringEnd q.length) { s.advance q.length with fstack := s.fstack.take j })
      | .newline n j =>
        if 0 < n then some (.emit (s.token .fstringString n) (s.advance n))
        else some (.again { s with fstack := s.fstack.take j })) := by
    rw [fstring, hs]
    dsimp only [List.getLast?_singleton]
    rw [hx, hsp]
    rfl
  rw [hs, hscan, Nat.zero_add] at hf
  have hne := ftext_rest h
  constructor
  · intro ht
    have hpos : 0 < text.length := List.length_pos_iff.mpr ht
    have : fstring L s = some (.emit (s.token .fstringString text.length) (s.advance text.length)) := by
      rcases fend_pos (q := q) hpos hne with h1 | h1 | h1 <;> rw [hf, h1] <;> dsimp only
      · rw [if_pos hpos]
      · rw [if_pos hpos]
    rw [hstep, this]
    simp only [State.token, State.advance]
    rw [hcs, List.take_left, List.drop_left]
  · rintro rfl after rfl
    have h1 : fend ([] : List Char).length q (closing q ++ after) = .finish 0 0 q := if_pos ⟨after, rfl⟩
    have hlen : q.length = (closing q).length := by cases q <;> rfl
    rw [hstep, hf, h1]
    dsimp only
    rw [if_neg (by omega)]
    simp only [State.token, State.advance]
    rw [hcs, List.nil_append, hlen, List.take_left, List.drop_left]
    rfl

/-- **C75.** In a field of an f-string that is not inside of another one, a colon outside of brackets
begins a format specification: the next token is the colon alone, and the one after it is the whole
text up to the next brace. Partial: unless there is a blank before the colon
(`blank_before_colon_violation`) or another specification before it in the f-string
(`second_specification_violation`). -/
theorem format_specification_partial {L : Lexers} {s : State} {q : Quote} {raw : Bool} {specs : Nat} {cs text rest : List Char}
    (he : s.ended = false) (hs : s.fstack = [⟨q, specs + 1, specs⟩]) (hr : s.rest = ':' :: cs) (h : FText q raw true cs text rest) (hno : NoNames cs) (ht : text ≠ []) :
    ∃ s', Steps L s [⟨.operator, size s.seen, [':']⟩, ⟨.fstringString, size s.seen + 1, text⟩] s' ∧ s'.rest = rest ∧ s'.fstack = [⟨q, specs + 1, specs + 1⟩] := by
  have h1 : step L s = .ok (.emit ⟨.operator, size s.seen, [':']⟩ { s with seen := ':' :: s.seen, rest := cs, fstack := [⟨q, specs + 1, specs + 1⟩] }) := by
    rw [step, he, hs]
    simp only [Bool.false_eq_true, if_false, List.isEmpty_cons]
    rw [fstring, hs]
    dsimp only [List.getLast?_singleton]
    have hx : (FNode.inExpr ⟨q, specs + 1, specs⟩) = true := by simp [FNode.inExpr]
    rw [hx, if_pos rfl, hr]
    rw [if_pos (by omega)]
    simp only [State.token, State.advance, hr, he]
    rfl
  have h2 := (fstring_text_partial (L := L) (s := { s with seen := ':' :: s.seen, rest := cs, fstack := [⟨q, specs + 1, specs + 1⟩] }) (text := text) (rest := rest) (raw := raw)
    he rfl (Nat.le_refl _) (by simpa using h) hno).1 ht
  refine ⟨_, .emit h1 (.emit (s' := { s with seen := text.reverse ++ ':' :: s.seen, rest := rest, fstack := [⟨q, specs + 1, specs + 1⟩] }) ?_ (.refl _)), rfl, rfl⟩
  rw [h2]
  have : size (':' :: s.seen) = size s.seen + 1 := by rw [size_cons, Nat.add_comm]; rfl
  rw [this]

/-- **C75.** A colon inside of brackets does not begin a format specification: the next token is the
longest operator there, and what comes after it is code as before. -/
theorem colon_in_brackets {alphabetic numeric : Char → Bool} {s : State} {q : Quote} {level specs : Nat} {cs : List Char}
    (he : s.ended = false) (hl : s.newline = false) (hs : s.fstack = [⟨q, level, specs⟩]) (hlevel : specs + 2 ≤ level) (hr : s.rest = ':' :: cs) :
    ∃ op rest, (op = [':'] ∨ op = [':', '=']) ∧ s.rest = op ++ rest ∧ (op = [':'] → rest.head? ≠ some '=') ∧
      step (python alphabetic numeric) s = .ok (.emit ⟨.operator, size s.seen, op⟩ { s with seen := op.reverse ++ s.seen, rest := rest }) := by
  have hx : (FNode.inExpr ⟨q, level, specs⟩) = true := by simp [FNode.inExpr]; omega
  have hf : fstring (python alphabetic numeric) s = none := by
    rw [fstring, hs]
    dsimp only [List.getLast?_singleton]
    rw [hx, if_pos rfl, hr]
    rw [if_neg (by omega)]
    rfl
  have hskip : skipWhitespace false false 0 s.seen (':' :: cs) = (0, s.seen, ':' :: cs) := by
    rw [skipWhitespace.eq_def]
    dsimp only
    rw [if_neg (by decide), if_neg (by decide), if_neg (by decide), if_neg (by decide), if_neg (by decide)]
  have hnum : (python alphabetic numeric).number (':' :: cs) = none := rfl
  have hstep : ∀ n, (python alphabetic numeric).operator (':' :: cs) = some n →
      step (python alphabetic numeric) s = .ok (.emit (s.token .operator n) (s.advance n)) := by
    intro n hn
    rw [step, if_neg (by rw [he]; simp), if_neg (by rw [hs]; simp), hf]
    dsimp only
    rw [plain, hl, hr, hskip]
    dsimp only
    rw [if_neg (by simp), lex]
    dsimp only
    rw [hnum]
    dsimp only
    rw [hn]
    dsimp only
    rw [if_neg (show ¬ (':' :: cs).headD ' ' = ';' by rw [List.headD_cons]; decide)]
    dsimp only
    have hb : ∀ s1 : State, s1.bracket ':' = s1 := fun s1 => rfl
    rw [List.headD_cons, hb]
    simp only [State.token, State.advance, hr]
    rw [hl]
  have hcolon : ∀ m, m ≤ (':' :: cs).length → String.ofList ((':' :: cs).take m) ∈ pythonOperators → (m = 1 ∨ m = 2 ∧ ∃ ds, cs = '=' :: ds) := by
    intro m hm hmem
    have hall : ∀ w ∈ pythonOperators, w.toList.head? = some ':' → w = ":" ∨ w = ":=" := by decide +kernel
    have hno : ∀ w ∈ pythonOperators, w.toList ≠ [] := by decide +kernel
    cases m with
    | zero => exact absurd rfl (hno _ hmem)
    | succ m =>
      rw [List.take_succ_cons] at hmem
      have hlen : (cs.take m).length = m := by rw [List.length_take]; simp at hm; omega
      rcases hall _ hmem (by rw [String.toList_ofList]; rfl) with h | h
      · have := congrArg String.toList h
        rw [String.toList_ofList] at this
        have : cs.take m = [] := (List.cons.inj this).2
        rw [this] at hlen
        exact .inl (by simp at hlen; omega)
      · have := congrArg String.toList h
        rw [String.toList_ofList] at this
        have : cs.take m = ['='] := (List.cons.inj this).2
        rw [this] at hlen
        cases cs with
        | nil => simp at this
        | cons d ds =>
          cases m with
          | zero => cases hlen
          | succ m => exact .inr ⟨by simp at hlen; omega, ds, by rw [List.take_succ_cons] at this; rw [(List.cons.inj this).1]⟩
  by_cases hd : ∃ ds, cs = '=' :: ds
  · obtain ⟨ds, rfl⟩ := hd
    have hop : (python alphabetic numeric).operator (':' :: '=' :: ds) = some 2 := by
      rw [operators_longest]
      refine ⟨by simp, by show ":=" ∈ pythonOperators; decide +kernel, ?_⟩
      intro m hm hmem
      rcases hcolon m hm hmem with h | h <;> omega
    refine ⟨[':', '='], ds, .inr rfl, hr, (by intro h; cases h), ?_⟩
    rw [hstep 2 hop]
    simp only [State.token, State.advance, hr]
    rfl
  · have hop : (python alphabetic numeric).operator (':' :: cs) = some 1 := by
      rw [operators_longest]
      refine ⟨by simp, by show ":" ∈ pythonOperators; decide +kernel, ?_⟩
      intro m hm hmem
      rcases hcolon m hm hmem with h | h
      · omega
      · exact absurd h.2 hd
    refine ⟨[':'], cs, .inl rfl, hr, ?_, ?_⟩
    · intro _ h
      cases cs with
      | nil => cases h
      | cons d ds => simp at h; subst h; exact hd ⟨ds, rfl⟩
    · rw [hstep 1 hop]
      simp only [State.token, State.advance, hr]
      rfl

end Verif.Tokenizer
