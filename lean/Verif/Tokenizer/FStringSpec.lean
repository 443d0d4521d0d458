import Verif.Tokenizer.Model

/-!
# The text of an f-string

The literal text between the replacement fields of an f-string, after the language reference and
PEP 701.
-/

namespace Verif.Tokenizer

/-- The characters that end an f-string. -/
def closing : Quote → List Char
  | .single => ['\'']
  | .double => ['"']
  | .singleTriple => ['\'', '\'', '\'']
  | .doubleTriple => ['"', '"', '"']

/-- Literal text at the beginning of a code, and what comes after it: the end of the f-string, a brace
of a field, or, with one quote, the end of the line. `raw` is for f-strings with an `r`, `spec` for
the text of a format specification, which has no doubled braces. -/
inductive FText (q : Quote) (raw spec : Bool) : List Char → List Char → List Char → Prop where
  | quote {cs : List Char} (h : closing q <+: cs) : FText q raw spec cs [] cs
  | field {c d : Char} {cs : List Char} (hc : c = '{' ∨ c = '}') (h : d ≠ c ∨ spec = true) : FText q raw spec (c :: d :: cs) [] (c :: d :: cs)
  | line {c : Char} {cs : List Char} (hc : c = '\n' ∨ c = '\r') (hq : (closing q).length = 1) : FText q raw spec (c :: cs) [] (c :: cs)
  | char {c : Char} {cs text rest : List Char} (hc : c ≠ '{' ∧ c ≠ '}' ∧ c ≠ '\\') (hn : (closing q).length = 1 → c ≠ '\n' ∧ c ≠ '\r')
      (hq : ¬ closing q <+: c :: cs) (h : FText q raw spec cs text rest) : FText q raw spec (c :: cs) (c :: text) rest
  | doubled {c : Char} {cs text rest : List Char} (hc : c = '{' ∨ c = '}') (hs : spec = false) (h : FText q raw spec cs text rest) :
      FText q raw spec (c :: c :: cs) (c :: c :: text) rest
  | escape {c : Char} {cs text rest : List Char} (hc : c ≠ '{' ∧ c ≠ '}') (hN : c = 'N' → raw = true ∨ cs.head? ≠ some '{') (hr : c = '\r' → cs.head? ≠ some '\n')
      (h : FText q raw spec cs text rest) : FText q raw spec ('\\' :: c :: cs) ('\\' :: c :: text) rest
  | crlf {cs text rest : List Char} (h : FText q raw spec cs text rest) : FText q raw spec ('\\' :: '\r' :: '\n' :: cs) ('\\' :: '\r' :: '\n' :: text) rest
  | backslash {c : Char} {cs text rest : List Char} (hc : c = '{' ∨ c = '}') (h : FText q raw spec (c :: cs) text rest) : FText q raw spec ('\\' :: c :: cs) ('\\' :: text) rest
  | named {name cs text rest : List Char} (hr : raw = false) (hn : '}' ∉ name) (h : FText q raw spec cs text rest) :
      FText q raw spec ('\\' :: 'N' :: '{' :: (name ++ '}' :: cs)) ('\\' :: 'N' :: '{' :: (name ++ '}' :: text)) rest

/-- A text without `\N` and without a backslash before `\r\n`. -/
def NoNames (cs : List Char) : Prop := ¬ ['\\', 'N'] <:+: cs ∧ ¬ ['\\', '\r', '\n'] <:+: cs

end Verif.Tokenizer
