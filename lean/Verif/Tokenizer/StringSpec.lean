import Verif.Tokenizer.Model

/-!
# Python's string literals

The lexical grammar of string and bytes literals of the language reference.
-/

namespace Verif.Tokenizer

/-- The rest of a literal with one quote, after the quote, and what comes after the literal. -/
inductive Short (q : Char) : List Char → List Char → Prop where
  | close (rest : List Char) : Short q (q :: rest) rest
  | char {c : Char} {cs rest : List Char} (hc : c ≠ q ∧ c ≠ '\\' ∧ c ≠ '\n' ∧ c ≠ '\r') (h : Short q cs rest) : Short q (c :: cs) rest
  | escape {c : Char} {cs rest : List Char} (hc : c ≠ '\r') (h : Short q cs rest) : Short q ('\\' :: c :: cs) rest
  | crlf {cs rest : List Char} (h : Short q cs rest) : Short q ('\\' :: '\r' :: '\n' :: cs) rest
  | cr {cs rest : List Char} (hn : cs.head? ≠ some '\n') (h : Short q cs rest) : Short q ('\\' :: '\r' :: cs) rest

/-- The rest of a literal with three quotes, after the quotes, and what comes after the literal. -/
inductive Long (q : Char) : List Char → List Char → Prop where
  | close (rest : List Char) : Long q (q :: q :: q :: rest) rest
  | char {c : Char} {cs rest : List Char} (hc : c ≠ '\\') (hq : ¬ [q, q, q] <+: c :: cs) (h : Long q cs rest) : Long q (c :: cs) rest
  | escape {c : Char} {cs rest : List Char} (h : Long q cs rest) : Long q ('\\' :: c :: cs) rest

/-- A literal with its quotes. Three quotes always begin a long literal. -/
inductive Quoted : List Char → List Char → Prop where
  | short {q : Char} {cs rest : List Char} (hq : q = '\'' ∨ q = '"') (hn : ¬ [q, q] <+: cs) (h : Short q cs rest) : Quoted (q :: cs) rest
  | long {q : Char} {cs rest : List Char} (hq : q = '\'' ∨ q = '"') (h : Long q cs rest) : Quoted (q :: q :: q :: cs) rest

/-- A literal with one of some prefixes. -/
def Literal (prefixes : List String) (cs rest : List Char) : Prop :=
  ∃ p body, cs = p ++ body ∧ String.ofList p ∈ prefixes ∧ Quoted body rest

def stringPrefixes : List String := ["", "r", "R", "u", "U", "t", "T"]
def bytesPrefixes : List String := ["b", "B", "br", "Br", "bR", "BR", "rb", "rB", "Rb", "RB"]

end Verif.Tokenizer
