import Verif.Lines.Model

/-!
# Specification: lines, positions and edits of a text document

Written from the LSP specification ("Text Documents", end-of-line sequences `\n`, `\r\n`, `\r`),
without offsets tables.  From the model only the data types `Enc`, `Pos`, `Change` and the sizes of
characters (`size`, `utf16Len`) are used.
-/

namespace Verif.Lines.Spec

/-- The lines of a text: content and terminator; the last terminator is empty. -/
def splitLines : List Char → List (List Char × List Char)
  | [] => [([], [])]
  | c :: cs =>
    if c = '\n' then ([], ['\n']) :: splitLines cs
    else if c = '\r' then
      match cs with
      | '\n' :: cs => ([], ['\r', '\n']) :: splitLines cs
      | cs => ([], ['\r']) :: splitLines cs
    else
      match splitLines cs with
      | (l, t) :: r => (c :: l, t) :: r
      | [] => [([c], [])]
termination_by cs => cs.length

/-- The text made of some lines. -/
def textOf (ls : List (List Char × List Char)) : List Char := (ls.map fun l => l.1 ++ l.2).flatten

/-- Number of code units. -/
def width (enc : Enc) : List Char → Nat
  | [] => 0
  | c :: cs => (match enc with
      | .utf8 => c.utf8Size
      | .utf16 => utf16Len c
      | .utf32 => 1) + width enc cs

/-- The position designates the place after `pre` and before `post` in the text `pre ++ post`:
its line consists of the content `p ++ q`, and `p` has the given width. -/
def PosAt (enc : Enc) (text : List Char) (pos : Pos) (pre : List Char) : Prop :=
  ∃ A p q t B, splitLines text = A ++ (p ++ q, t) :: B ∧ A.length = pos.line ∧
    width enc p = pos.col ∧ pre = textOf A ++ p

/-- As `PosAt`, but the place between the `\r` and the `\n` of a terminator `\r\n` is also
addressable, as one code unit after the end of the line. -/
def LaxPosAt (enc : Enc) (text : List Char) (pos : Pos) (pre : List Char) : Prop :=
  PosAt enc text pos pre ∨
  ∃ A l B, splitLines text = A ++ (l, ['\r', '\n']) :: B ∧ A.length = pos.line ∧
    width enc l + 1 = pos.col ∧ pre = textOf A ++ l ++ ['\r']

/-- One content change event applied to a text, positions resolved by `P`. -/
def Applies (P : List Char → Pos → List Char → Prop) (text : List Char) (c : Change) (text' : List Char) : Prop :=
  match c.range with
  | none => text' = c.text
  | some (rs, re) => ∃ pre mid post, text = pre ++ mid ++ post ∧ P text rs pre ∧ P text re (pre ++ mid) ∧
      text' = pre ++ c.text ++ post

/-- Applying a batch of events one after another. -/
inductive AppliesAll (P : List Char → Pos → List Char → Prop) : List Char → List Change → List Char → Prop
  | nil (text) : AppliesAll P text [] text
  | cons {text c text' cs text''} : Applies P text c text' → AppliesAll P text' cs text'' →
      AppliesAll P text (c :: cs) text''

end Verif.Lines.Spec
