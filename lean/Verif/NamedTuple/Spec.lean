import Verif.NamedTuple.Model

/-!
# `collections.namedtuple` and `typing.NamedTuple` in Python
-/

namespace Verif.NamedTuple.Spec

/-- `keyword.kwlist`. -/
def kwlist : List Str :=
  ["False", "None", "True", "and", "as", "assert", "async", "await", "break", "class", "continue", "def", "del", "elif",
   "else", "except", "finally", "for", "from", "global", "if", "import", "in", "is", "lambda", "nonlocal", "not", "or",
   "pass", "raise", "return", "try", "while", "with", "yield"].map String.toList

/-- `str.isidentifier` for ASCII: letters, digits and `_`, not beginning with a digit. -/
def Letter (c : Char) : Prop := c = '_' ∨ (97 ≤ c.toNat ∧ c.toNat ≤ 122) ∨ (65 ≤ c.toNat ∧ c.toNat ≤ 90)

def Digit (c : Char) : Prop := 48 ≤ c.toNat ∧ c.toNat ≤ 57

def Ident (s : Str) : Prop := ∃ c cs, s = c :: cs ∧ Letter c ∧ ∀ d ∈ cs, Letter d ∨ Digit d

def Ascii (s : Str) : Prop := ∀ c ∈ s, c.toNat < 128

/-- Python does not take the name at index `i` for a field, or replaces it if there is `rename=True`. -/
def Bad (names : List Str) (i : Nat) (s : Str) : Prop :=
  ¬ Ident s ∨ s ∈ kwlist ∨ (∃ t, s = '_' :: t) ∨ s ∈ names.take i

/-- Python's soft keywords, which are names. -/
def Soft (s : Str) : Prop := s = "match".toList ∨ s = "case".toList ∨ s = "type".toList

/-- White space for `str.split` in ASCII. -/
def Space (c : Char) : Prop := c = ' ' ∨ (9 ≤ c.toNat ∧ c.toNat ≤ 13) ∨ (28 ≤ c.toNat ∧ c.toNat ≤ 31)

/-- What separates field names in a text. -/
def Sep (c : Char) : Prop := c = ',' ∨ Space c

/-- The words of a text, `text.replace(',', ' ').split()`. -/
inductive Words : Str → List Str → Prop where
  | nil : Words [] []
  | skip {c s ws} : Sep c → Words s ws → Words (c :: s) ws
  | last {w} : w ≠ [] → (∀ c ∈ w, ¬ Sep c) → Words w [w]
  | word {w c s ws} : w ≠ [] → (∀ c ∈ w, ¬ Sep c) → Sep c → Words s ws → Words (w ++ c :: s) (w :: ws)

/-- The bytes of a text in UTF-8. -/
def size (s : Str) : Nat := (s.map Char.utf8Size).sum

/-- Python accepts the argument. -/
def Accepts : Opt → Prop
  | .defaults _ => True
  | .rename _ => True
  | .keyword n => n = "module".toList
  | .positional => False

/-- The annotations of a class: names come where they are first annotated. -/
def annotated : List Field → List Str → List Str
  | [], seen => seen
  | f :: fs, seen => annotated fs (if f.name ∈ seen then seen else seen ++ [f.name])

/-- Python makes the class: no field begins with `_`, and no field without a default comes after one with a default. -/
def ClassOk (stmts : List Field) : Prop :=
  (∀ f ∈ stmts, ¬ ∃ t, f.name = '_' :: t) ∧
  stmts.Pairwise (fun f g => f.hasDefault = true → g.hasDefault = true)

end Verif.NamedTuple.Spec
