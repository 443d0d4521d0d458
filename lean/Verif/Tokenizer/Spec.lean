import Verif.Tokenizer.Model

/-!
# What the tokenizer should do

Stated with the code and the tokens.
-/

namespace Verif.Tokenizer

/-- What the tokenizer gives from one state to another. -/
inductive Steps (L : Lexers) : State → List Token → State → Prop where
  | refl (s : State) : Steps L s [] s
  | emit {s s' s'' : State} {t : Token} {ts : List Token} (h : step L s = .ok (.emit t s')) (hs : Steps L s' ts s'') : Steps L s (t :: ts) s''
  | again {s s' s'' : State} {ts : List Token} (h : step L s = .ok (.again s')) (hs : Steps L s' ts s'') : Steps L s ts s''

/-- The tokenizer gives these tokens for a code, and nothing more. -/
def Tokenizes (L : Lexers) (code : List Char) (ts : List Token) : Prop :=
  ∃ s, Steps L (State.start code) ts s ∧ step L s = .ok .stop

/-- The tokenizer fails. -/
def Fails (L : Lexers) (code : List Char) (e : Fault) : Prop :=
  ∃ ts s, Steps L (State.start code) ts s ∧ step L s = .error e

/-- The depth of blocks after some tokens, if no block is closed that was not opened. -/
def depth : Nat → List Token → Option Nat
  | n, [] => some n
  | n, t :: ts =>
    match t.kind with
    | .indent => depth (n + 1) ts
    | .dedent => if n = 0 then none else depth (n - 1) ts
    | _ => depth n ts

/-- A match has characters, and not more than there are. -/
def Bounded (f : List Char → Option Nat) : Prop := ∀ cs n, f cs = some n → 0 < n ∧ n ≤ cs.length

/-- The regular expressions match at least one character, and a bracket or a semicolon is alone. -/
structure Lexers.Sound (L : Lexers) : Prop where
  number : Bounded L.number
  operator : Bounded L.operator
  string : Bounded L.string
  bytes : Bounded L.bytes
  fstart : Bounded L.fstart
  bracket : ∀ cs c b n, cs = c :: b → c ∈ ['(', '[', '{', ')', ']', '}', ';'] → L.operator cs = some n → n = 1

/-- The text `rest` is what is left of a text after blanks, comments, continued lines and, if
`lines`, ends of lines. A comment goes to the end of its line. -/
inductive Gap (lines : Bool) : List Char → List Char → Prop where
  | refl (cs : List Char) : Gap lines cs cs
  | blank {c : Char} {cs rest : List Char} (h : c = ' ' ∨ c = '\t' ∨ c = '\x0C') (g : Gap lines cs rest) : Gap lines (c :: cs) rest
  | line {c : Char} {cs rest : List Char} (h : lines = true) (hc : c = '\n' ∨ c = '\r') (g : Gap lines cs rest) : Gap lines (c :: cs) rest
  | comment {body cs rest : List Char} (hb : ∀ c ∈ body, c ≠ '\n' ∧ c ≠ '\r') (he : cs = [] ∨ ∃ c cs', cs = c :: cs' ∧ (c = '\n' ∨ c = '\r'))
      (g : Gap lines cs rest) : Gap lines ('#' :: (body ++ cs)) rest
  | continued {x cs rest : List Char} (hx : x = ['\n'] ∨ x = ['\r'] ∨ x = ['\r', '\n']) (g : Gap lines cs rest) : Gap lines ('\\' :: (x ++ cs)) rest

/-- After a token of this kind a line begins. -/
def Kind.beginsLine : Kind → Bool
  | .newline => true
  | .dedent => true
  | .errorDedent => true
  | _ => false

/-- Keywords that begin a statement: they end brackets that were not closed. -/
def statementKeywords : List String :=
  ["import", "class", "def", "try", "except", "finally", "while", "with", "return", "continue", "break", "del", "pass", "global", "assert", "nonlocal"]

/-- The number of open brackets after a token. -/
def nextLevel (n : Nat) (t : Token) : Nat :=
  match t.kind with
  | .operator =>
    if t.text = ['('] ∨ t.text = ['['] ∨ t.text = ['{'] then n + 1
    else if t.text = [')'] ∨ t.text = [']'] ∨ t.text = ['}'] then n - 1
    else if t.text = [';'] then 0
    else n
  | .name => if String.ofList t.text ∈ statementKeywords then 0 else n
  | .dedent => 0
  | .errorDedent => 0
  | _ => n

/-- The number of open brackets, if it is known: not after the start of an f-string, until the end of
the line. -/
def opened (before : Option Nat) (t : Token) : Option Nat :=
  if t.kind = .newline then some 0
  else if t.kind = .fstringStart then none
  else before.map (nextLevel · t)

/-- Ends of lines can be skipped. -/
def isOpen : Option Nat → Bool
  | none => true
  | some n => 0 < n

/-- The tokens are in the code one after the other, with gaps between them. `pos` is the place of the
code, `start` says that a line begins, and `level` is the number of open brackets. Ends of lines are
between tokens only if a line begins or brackets are open, and they are tokens only if no brackets are
open. -/
inductive Laid : Nat → Bool → Option Nat → List Char → List Token → Prop where
  | nil {pos : Nat} {start : Bool} {level : Option Nat} {code : List Char} : Laid pos start level code []
  | cons {pos : Nat} {start : Bool} {level : Option Nat} {code rest : List Char} {t : Token} {ts : List Token}
      (g : Gap (start || isOpen level) code (t.text ++ rest)) (hp : t.start + size (t.text ++ rest) = pos + size code)
      (hn : t.kind = .newline → level = none ∨ level = some 0)
      (h : Laid (t.start + size t.text) t.kind.beginsLine (opened level t) rest ts) : Laid pos start level code (t :: ts)

/-- The column of the end of a text: the number of characters since the last end of a line. -/
def column (before : List Char) : Nat := (before.reverse.takeWhile (fun c => !(c == '\n' || c == '\r'))).length

/-- A token is in the code at a column. -/
def Col (code : List Char) (t : Token) (n : Nat) : Prop :=
  ∃ before rest, code = before ++ t.text ++ rest ∧ size before = t.start ∧ column before = n

/-- Blocks by columns: the columns of the open blocks (innermost first), whether a line begins, and
tokens. A block is opened by a line that is farther to the right, closed by a line that is not to the
right of the block around it (or by the end of the code), and each line is in the block of its column.
A line between two columns takes the place of the inner block, with an error token. -/
inductive Blocks (code : List Char) : List Nat → Bool → List Token → Prop where
  | nil {cols : List Nat} {start : Bool} : Blocks code cols start []
  | indent {a n : Nat} {cols : List Nat} {t : Token} {ts : List Token} (hk : t.kind = .indent) (hc : Col code t n) (hn : a < n)
      (h : Blocks code (n :: a :: cols) true ts) : Blocks code (a :: cols) true (t :: ts)
  | dedent {a b n : Nat} {cols : List Nat} {start : Bool} {t : Token} {ts : List Token} (hk : t.kind = .dedent) (hc : Col code t n) (hn : n ≤ b) (hb : b < a)
      (h : Blocks code (b :: cols) start ts) : Blocks code (a :: b :: cols) start (t :: ts)
  | finish {a b : Nat} {cols : List Nat} {start : Bool} {t : Token} {ts : List Token} (hk : t.kind = .dedent) (hs : t.start = size code) (hb : b < a)
      (h : Blocks code (b :: cols) false ts) : Blocks code (a :: b :: cols) start (t :: ts)
  | between {a b n : Nat} {cols : List Nat} {start : Bool} {t : Token} {ts : List Token} (hk : t.kind = .errorDedent) (hc : Col code t n) (hb : b < n) (hn : n < a)
      (h : Blocks code (n :: b :: cols) start ts) : Blocks code (a :: b :: cols) start (t :: ts)
  | other {a : Nat} {cols : List Nat} {start : Bool} {t : Token} {ts : List Token} (hk : t.kind ≠ .indent ∧ t.kind ≠ .dedent ∧ t.kind ≠ .errorDedent)
      (hc : start = true → t.kind ≠ .endmarker → Col code t a) (h : Blocks code (a :: cols) (t.kind == .newline) ts) : Blocks code (a :: cols) start (t :: ts)

/-- No line has a backslash at its end and only blanks before it. -/
def NoBlankContinuation (code : List Char) : Prop :=
  ∀ a u b : List Char, ∀ c, code = a ++ u ++ '\\' :: c :: b → (c = '\n' ∨ c = '\r') → (∀ x ∈ u, x = ' ' ∨ x = '\t' ∨ x = '\x0C') →
    a = [] ∨ a.getLast? = some '\n' ∨ a.getLast? = some '\r' → False

end Verif.Tokenizer
