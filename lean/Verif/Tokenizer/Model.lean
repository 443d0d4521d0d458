/-!
# The tokenizer

`PythonTokenizer` of crates/parsa_python/src/tokenizer.rs. The regular expressions and the character
classes of Unicode are parameters (`Lexers`); the regular expressions are modelled in
`Verif.Tokenizer.Regex`. The code is a list of characters, split at the index into what was read
(reversed) and what is left. `next` calls itself in three places; here each call is one `step`, and
such a call is `Step.again`.
-/

namespace Verif.Tokenizer

/-- `TerminalType`, tokenizer.rs 85-90. -/
inductive Kind where
  | name | operator | string | bytes | number | endmarker | newline | errorToken | indent | dedent | errorDedent
  | fstringStart | fstringString | fstringEnd
  deriving DecidableEq, Repr

/-- `PyTerminal`: the kind, the start in bytes and the text. -/
structure Token where
  kind : Kind
  start : Nat
  text : List Char
  deriving DecidableEq, Repr

/-- `QuoteType`, tokenizer.rs 106-111. -/
inductive Quote where
  | single | double | singleTriple | doubleTriple
  deriving DecidableEq, Repr

/-- `allow_multiline`, tokenizer.rs 138-143. -/
def Quote.multiline : Quote → Bool
  | .single => false
  | .double => false
  | .singleTriple => true
  | .doubleTriple => true

/-- The length of a quote, tokenizer.rs 360-363. -/
def Quote.length : Quote → Nat
  | .single => 1
  | .double => 1
  | .singleTriple => 3
  | .doubleTriple => 3

/-- `FStringNode`, tokenizer.rs 114-118. -/
structure FNode where
  quote : Quote
  parens : Nat
  specs : Nat
  deriving DecidableEq, Repr

/-- `open_parentheses`, tokenizer.rs 122-124. -/
def FNode.open (n : FNode) : FNode := { n with parens := n.parens + 1 }

/-- `close_parentheses`, tokenizer.rs 127-135. -/
def FNode.close (n : FNode) : FNode :=
  let p := n.parens - 1
  { n with parens := p, specs := if p = 0 then 0 else n.specs }

/-- `in_expr`, tokenizer.rs 146-148. -/
def FNode.inExpr (n : FNode) : Bool := n.specs < n.parens

/-- `in_format_spec`, tokenizer.rs 151-154. -/
def FNode.inSpec (n : FNode) : Bool := !n.inExpr && 0 < n.specs

/-- The regular expressions and character classes. Regular expressions give the number of characters
of the match at the beginning. `charName` gives the end of the first match anywhere, in bytes. -/
structure Lexers where
  number : List Char → Option Nat
  operator : List Char → Option Nat
  string : List Char → Option Nat
  bytes : List Char → Option Nat
  fstart : List Char → Option Nat
  charName : List Char → Option Nat
  alphabetic : Char → Bool
  numeric : Char → Bool

/-- `PythonTokenizer`, tokenizer.rs 93-103. The stack of indentations has its top first, the stack of
f-strings has its top last. -/
structure State where
  seen : List Char
  rest : List Char
  newline : Bool
  ended : Bool
  indents : List Nat
  parens : Nat
  fstack : List FNode
  deriving DecidableEq, Repr

/-- What goes wrong: a panic, or an index that is inside a character (undefined behaviour of
`code_from_start`, tokenizer.rs 599-603). -/
inductive Fault where
  | panic | boundary
  deriving DecidableEq, Repr

/-- `new`, tokenizer.rs 158-165. -/
def State.start (code : List Char) : State :=
  { seen := [], rest := code, newline := true, ended := false, indents := [0], parens := 0, fstack := [] }

/-- The number of bytes of a text. -/
def size (cs : List Char) : Nat := (cs.map Char.utf8Size).sum

/-- `self.index += …` over `n` characters. -/
def State.advance (s : State) (n : Nat) : State := { s with seen := (s.rest.take n).reverse ++ s.seen, rest := s.rest.drop n }

/-- `new_tok`, tokenizer.rs 170-182, for the next `n` characters. -/
def State.token (s : State) (kind : Kind) (n : Nat) : Token := ⟨kind, size s.seen, s.rest.take n⟩

def isBreak (c : Char) : Bool := c == '\n' || c == '\r'
def isBlank (c : Char) : Bool := c == ' ' || c == '\t' || c == '\x0C'

/-- `self.index -= k` in bytes, tokenizer.rs 481. -/
def back : Nat → List Char → List Char → Except Fault (List Char × List Char)
  | 0, seen, rest => .ok (seen, rest)
  | _ + 1, [], _ => .error .panic
  | k + 1, c :: seen, rest => if c.utf8Size ≤ k + 1 then back (k + 1 - c.utf8Size) seen (c :: rest) else .error .boundary
termination_by k => k
decreasing_by have := Char.utf8Size_pos c; omega

/-- The end of a line after a backslash, tokenizer.rs 413-427: the characters that are skipped. -/
def continuation : List Char → Option (List Char × List Char)
  | '\r' :: '\n' :: cs => some (['\n', '\r'], cs)
  | '\r' :: cs => some (['\r'], cs)
  | '\n' :: cs => some (['\n'], cs)
  | _ => none

theorem continuation_length {cs : List Char} {x : List Char × List Char} (h : continuation cs = some x) : x.2.length < cs.length := by
  unfold continuation at h
  split at h <;> cases h <;> simp <;> omega

/-- `skip_whitespace`, tokenizer.rs 389-440: the indentation, and the code before and after. -/
def skipWhitespace (newline : Bool) (comment : Bool) (indentation : Nat) (seen rest : List Char) : Nat × List Char × List Char :=
  match rest with
  | [] => (indentation, seen, [])
  | c :: cs =>
    if isBreak c then
      if !newline then (indentation, seen, c :: cs) else skipWhitespace newline false 0 (c :: seen) cs
    else if comment then skipWhitespace newline true indentation (c :: seen) cs
    else if isBlank c then skipWhitespace newline false (indentation + newline.toNat) (c :: seen) cs
    else if c = '#' then skipWhitespace newline true 0 (c :: seen) cs
    else if c = '\\' then
      match h : continuation cs with
      | none => (indentation, seen, c :: cs)
      | some (x, cs') => (indentation, (skipWhitespace newline false 0 (x ++ c :: seen) cs').2)
    else (indentation, seen, c :: cs)
termination_by rest.length
decreasing_by all_goals first | (simp; done) | (have := continuation_length h; simp at this ⊢; omega)

/-- `dedent_if_necessary`, tokenizer.rs 185-195: the token and the new stack. -/
def dedentIfNecessary (count : Nat) (indents : List Nat) : Except Fault (Option (Kind × List Nat)) :=
  match indents with
  | [] => .error .panic
  | last :: below =>
    if count < last then
      match below with
      | [] => .error .panic
      | before :: _ => if before < count then .ok (some (.errorDedent, count :: below)) else .ok (some (.dedent, below))
    else .ok none

/-- The indentation of the line that is read, tokenizer.rs 203-213: the blanks before the index, if
nothing else is before it on its line. The characters are in reverse order. -/
def lineIndentation (count : Nat) : List Char → Option Nat
  | [] => none
  | c :: cs =>
    if c = ' ' ∨ c = '\t' then lineIndentation (count + 1) cs
    else if isBreak c then some count
    else none

/-- `encountered_break_token`, tokenizer.rs 198-216. -/
def breakToken (s : State) : Except Fault (Option Token × State) :=
  if s.parens ≠ 0 ∨ s.fstack ≠ [] then
    let s1 := { s with parens := 0, fstack := [] }
    match lineIndentation 0 s.seen with
    | none => .ok (none, s1)
    | some n =>
      match dedentIfNecessary n s1.indents with
      | .error e => .error e
      | .ok none => .ok (none, s1)
      | .ok (some (kind, indents)) => .ok (some (s1.token kind 0), { s1 with indents := indents })
  else .ok (none, s)

/-- What the scan of the text of an f-string finds. -/
inductive FStep where
  /-- Nothing: the rest of `next` goes on. -/
  | pass
  /-- `FStringString` with that many characters. -/
  | text (n : Nat)
  /-- The end of the `j`-th f-string, after `n` characters. -/
  | finish (n j : Nat) (q : Quote)
  /-- The end of the line after `n` characters, which ends the `j`-th f-string. -/
  | newline (n j : Nat)
  deriving DecidableEq, Repr

/-- The f-string that a double quote ends, tokenizer.rs 253-266, or that a single quote ends, 267-280. -/
def endsDouble (stack : List FNode) (cs : List Char) : Option Nat :=
  stack.findIdx? (fun n => match n.quote with
    | .double => true
    | .doubleTriple => cs.take 3 == ['"', '"', '"']
    | _ => false)

def endsSingle (stack : List FNode) (cs : List Char) : Option Nat :=
  (stack.reverse.findIdx? (fun n => match n.quote with
    | .single => true
    | .singleTriple => cs.take 3 == ['\'', '\'', '\'']
    | _ => false)).map (fun j => stack.length - 1 - j)

/-- The quote of the `j`-th f-string. -/
def quoteAt (stack : List FNode) (j : Nat) : Quote := ((stack[j]?).map FNode.quote).getD .single

/-- The loop of `handle_fstring_stack`, tokenizer.rs 237-337, where `in_expr` is false, for what is left
after `n` characters. -/
def fscan (L : Lexers) (stack : List FNode) (inSpec : Bool) (n : Nat) (rest : List Char) : FStep :=
  match rest with
  | [] => .pass
  | c :: cs =>
    if c = '{' ∨ c = '}' then
      match cs with
      | [] => .pass
      | d :: ds => if d ≠ c ∨ inSpec then (if 0 < n then .text n else .pass) else fscan L stack inSpec (n + 2) ds
    else if c = '"' then
      match endsDouble stack (c :: cs) with
      | some j => .finish n j (quoteAt stack j)
      | none => fscan L stack inSpec (n + 1) cs
    else if c = '\'' then
      match endsSingle stack (c :: cs) with
      | some j => .finish n j (quoteAt stack j)
      | none => fscan L stack inSpec (n + 1) cs
    else if c = '\\' then
      match cs with
      | [] => .pass
      | d :: ds =>
        match (if d = 'N' then L.charName ds else none) with
        | some e => fscan L stack inSpec (n + 2 + e) (ds.drop e)
        | none => if d ≠ '{' ∧ d ≠ '}' then fscan L stack inSpec (n + 2) ds else fscan L stack inSpec (n + 1) (d :: ds)
    else if isBreak c then
      match stack.findIdx? (fun n => !n.quote.multiline) with
      | some j => .newline n j
      | none => fscan L stack inSpec (n + 1) cs
    else fscan L stack inSpec (n + 1) cs
termination_by rest.length
decreasing_by all_goals (simp; try omega)

/-- One step of the tokenizer. -/
inductive Step where
  | emit (t : Token) (s : State)
  /-- `next` calls itself -/
  | again (s : State)
  /-- the iterator has ended -/
  | stop
  deriving DecidableEq, Repr

/-- `handle_fstring_stack`, tokenizer.rs 219-341. -/
def fstring (L : Lexers) (s : State) : Option Step :=
  match s.fstack.getLast? with
  | none => none
  | some top =>
    if top.inExpr then
      match s.rest with
      | ':' :: _ =>
        if top.parens - top.specs = 1 then
          some (.emit (s.token .operator 1) { s.advance 1 with fstack := s.fstack.dropLast ++ [{ top with specs := top.specs + 1 }] })
        else none
      | _ => none
    else
      match fscan L s.fstack top.inSpec 0 s.rest with
      | .pass => none
      | .text n => some (.emit (s.token .fstringString n) (s.advance n))
      | .finish n j q =>
        if 0 < n then some (.emit (s.token .fstringString n) (s.advance n))
        else some (.emit (s.token .fstringEnd q.length) { s.advance q.length with fstack := s.fstack.take j })
      | .newline n j =>
        if 0 < n then some (.emit (s.token .fstringString n) (s.advance n))
        else some (.again { s with fstack := s.fstack.take j })

/-- `find_name_length`, tokenizer.rs 443-452. -/
def nameLength (L : Lexers) : List Char → Nat
  | [] => 0
  | c :: cs => if L.alphabetic c || c == '_' then 1 + (cs.takeWhile (fun c => L.alphabetic c || c == '_' || L.numeric c)).length else 0

/-- `ALWAYS_BREAK_NAMES`, tokenizer.rs 44-48. -/
def breakNames : List (List Char) :=
  ["import".toList, "class".toList, "def".toList, "try".toList, "except".toList, "finally".toList, "while".toList, "with".toList,
    "return".toList, "continue".toList, "break".toList, "del".toList, "pass".toList, "global".toList, "assert".toList, "nonlocal".toList]

/-- Opening and closing brackets, tokenizer.rs 498-513. -/
def State.bracket (s : State) (c : Char) : State :=
  if c = '(' ∨ c = '[' ∨ c = '{' then
    match s.fstack.getLast? with
    | none => { s with parens := s.parens + 1 }
    | some top => { s with fstack := s.fstack.dropLast ++ [top.open] }
  else if c = ')' ∨ c = ']' ∨ c = '}' then
    match s.fstack.getLast? with
    | none => { s with parens := s.parens - 1 }
    | some top => { s with fstack := s.fstack.dropLast ++ [top.close] }
  else s

/-- Does a list contain another one in a row? -/
def hasInfix (x : List Char) : List Char → Bool
  | [] => x.isEmpty
  | c :: cs => x.isPrefixOf (c :: cs) || hasInfix x cs

/-- An unfinished literal with three quotes, tokenizer.rs 526-530. -/
def unfinished (text : List Char) : Bool :=
  size text ≤ 5 && ((hasInfix ['\'', '\'', '\''] text && text.getLast? != some '"') || (hasInfix ['"', '"', '"'] text && text.getLast? != some '\''))

/-- The quote of the start of an f-string, tokenizer.rs 540-551. -/
def startQuote (text : List Char) : Quote :=
  if hasInfix ['\'', '\''] text then .singleTriple
  else if hasInfix ['"', '"'] text then .doubleTriple
  else if text.contains '"' then .double
  else .single

/-- The end of a line, `NEWLINE`, tokenizer.rs 40. -/
def newlineLength : List Char → Nat
  | '\r' :: '\n' :: _ => 2
  | '\r' :: _ => 1
  | '\n' :: _ => 1
  | _ => 0

/-- A name, the end of a line, the end of the code or an error, tokenizer.rs 558-594. -/
def lexName (L : Lexers) (s : State) : Except Fault Step :=
  let n := nameLength L s.rest
  if 0 < n then
    match (if breakNames.contains (s.rest.take n) then breakToken s else .ok (none, s)) with
    | .error e => .error e
    | .ok (some t, s1) => .ok (.emit t s1)
    | .ok (none, s1) => .ok (.emit (s1.token .name n) (s1.advance n))
  else
    let k := newlineLength s.rest
    if 0 < k then
      if s.parens = 0 ∧ s.fstack = [] then .ok (.emit (s.token .newline k) { s.advance k with newline := true })
      else .ok (.again (s.advance k))
    else
      match s.rest with
      | [] =>
        match s.indents with
        | [_] => .ok (.emit (s.token .endmarker 0) { s with ended := true })
        | indents => .ok (.emit (s.token .dedent 0) { s with indents := indents.tail })
      | _ :: _ => .ok (.emit (s.token .errorToken 1) (s.advance 1))

/-- The end of `next`, tokenizer.rs 486-594. -/
def lex (L : Lexers) (s : State) : Except Fault Step :=
  match L.number s.rest with
  | some n => .ok (.emit (s.token .number n) (s.advance n))
  | none =>
    match L.operator s.rest with
    | some n =>
      let c := s.rest.headD ' '
      match (if c = ';' then breakToken s else .ok (none, s)) with
      | .error e => .error e
      | .ok (some t, s1) => .ok (.emit t s1)
      | .ok (none, s1) => .ok (.emit (s1.token .operator n) ((s1.advance n).bracket c))
    | none =>
      match L.string s.rest with
      | some n => .ok (.emit (s.token (if unfinished (s.rest.take n) then .errorToken else .string) n) (s.advance n))
      | none =>
        match L.bytes s.rest with
        | some n => .ok (.emit (s.token (if unfinished (s.rest.take n) then .errorToken else .bytes) n) (s.advance n))
        | none =>
          match L.fstart s.rest with
          | some n => .ok (.emit (s.token .fstringStart n) { s.advance n with fstack := s.fstack ++ [⟨startQuote (s.rest.take n), 0, 0⟩] })
          | none => lexName L s

/-- The beginning of a line, tokenizer.rs 466-485: a token for the indentation. -/
def lineStart (s : State) (indentation : Nat) : Except Fault (Option Step) :=
  match s.rest with
  | [] => .ok none
  | c :: _ =>
    if !isBreak c && s.parens == 0 && s.fstack.isEmpty then
      match s.indents with
      | [] => .error .panic
      | last :: _ =>
        if last < indentation then .ok (some (.emit (s.token .indent 0) { s with indents := indentation :: s.indents, newline := false }))
        else
          match dedentIfNecessary indentation s.indents with
          | .error e => .error e
          | .ok none => .ok none
          | .ok (some (kind, indents)) =>
            match back indentation s.seen s.rest with
            | .error e => .error e
            | .ok (seen, rest) => .ok (some (.emit (s.token kind 0) { s with seen := seen, rest := rest, indents := indents }))
    else .ok none

/-- The part of `next` after f-strings, tokenizer.rs 464-594. -/
def plain (L : Lexers) (s : State) : Except Fault Step :=
  let w := skipWhitespace s.newline false 0 s.seen s.rest
  let s1 := { s with seen := w.2.1, rest := w.2.2 }
  if s.newline then
    match lineStart s1 w.1 with
    | .error e => .error e
    | .ok (some x) => .ok x
    | .ok none => lex L { s1 with newline := false }
  else lex L s1

/-- `next`, tokenizer.rs 455-594. -/
def step (L : Lexers) (s : State) : Except Fault Step :=
  if s.ended then .ok .stop
  else if s.fstack.isEmpty then plain L s
  else
    match fstring L s with
    | some x => .ok x
    | none => plain L s

end Verif.Tokenizer
