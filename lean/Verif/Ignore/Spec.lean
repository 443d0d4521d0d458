/-!
What a `type: ignore` comment is, stated on the text itself: no splitting functions, only
decompositions of the text.
-/

namespace Verif.Ignore.Spec

def LineBreak (c : Char) : Prop := c = '\n' ∨ c = '\r'

/-- `t` is empty or begins with a character satisfying `P`. -/
def StopsAt (P : Char → Prop) (t : List Char) : Prop := ∀ c r, t = c :: r → P c

/-- `t` is empty or ends with a character satisfying `P`. -/
def StopsBefore (P : Char → Prop) (t : List Char) : Prop := ∀ c r, t = r ++ [c] → P c

/-- `region` is the text from `start` up to the end of the line that contains `stop`. -/
def LinesOf (code : List Char) (start stop : Nat) (region : List Char) : Prop :=
  ∃ before line after, code = before ++ region ++ after ∧ before.length = start ∧
    (∃ head, before ++ region = head ++ line ∧ head.length = stop) ∧
    (∀ c ∈ line, ¬ LineBreak c) ∧ StopsAt LineBreak after

/-- `seg` is the text of a comment in `region`: it follows a `#` and reaches to the next `#`, the
end of the line or the end of the region. -/
def HasComment (region seg : List Char) : Prop :=
  ∃ pre post, region = pre ++ '#' :: (seg ++ post) ∧
    (∀ c ∈ seg, c ≠ '#' ∧ ¬ LineBreak c) ∧ StopsAt (fun c => c = '#' ∨ LineBreak c) post

def spaces (n : Nat) : List Char := List.replicate n ' '

/-- ` type: ignore…` or ` zuban: ignore…`, with any number of spaces before the keyword and after
the colon; `word` is `type` or `zuban`, `rest` is what follows `ignore`. -/
def Marked (seg word rest : List Char) : Prop :=
  (word = "type".toList ∨ word = "zuban".toList) ∧
    ∃ a b, seg = spaces a ++ word ++ [':'] ++ spaces b ++ "ignore".toList ++ rest

/-- An ignore comment with a bracketed list: `ignore [codes]`, the brackets not empty. -/
def Coded (seg word codes : List Char) : Prop :=
  ∃ c d, Marked seg word (spaces c ++ ['['] ++ codes ++ [']'] ++ spaces d) ∧ codes ≠ []

/-- An ignore comment without codes: nothing, or a space or a tab, follows `ignore`, and it is not
one with codes. -/
def Bare (seg : List Char) : Prop :=
  (∃ word rest, Marked seg word rest ∧ StopsAt (fun c => c = ' ' ∨ c = '\t') rest) ∧
    ¬ ∃ word codes, Coded seg word codes

/-- `code` is one of the comma separated entries of `codes`, not counting spaces around it. -/
def Lists (codes code : List Char) : Prop :=
  ∃ pre a b post, codes = pre ++ spaces a ++ code ++ spaces b ++ post ∧
    StopsBefore (· = ',') pre ∧ StopsAt (· = ',') post ∧ (∀ c ∈ code, c ≠ ',') ∧
    StopsAt (· ≠ ' ') code ∧ StopsBefore (· ≠ ' ') code

/-- The comment suppresses an issue with error code `code` and parent code `parent`. -/
def Covers (seg : List Char) (code parent : Option (List Char)) : Prop :=
  Bare seg ∨
    ∃ word codes, Coded seg word codes ∧
      (code = none ∨ ∃ c, Lists codes c ∧ (code = some c ∨ parent = some c))

end Verif.Ignore.Spec
