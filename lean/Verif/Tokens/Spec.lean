import Verif.Tokens.Model
import Verif.Lines.Spec

/-!
# What a client makes of semantic tokens

As in the specification of the language server protocol.
-/

namespace Verif.Tokens.Spec

open Verif.Lines

/-- The legend that is sent to the client is a list of names. -/
structure Decoded where
  pos : Pos
  length : Nat
  kind : Option Kind
  modifiers : List Modifier
deriving DecidableEq, Repr

/-- The modifiers whose bits are set. -/
def decodeModifiers (legend : List Modifier) (bits : Nat) : List Modifier :=
  (legend.zipIdx.filter fun (_, i) => bits / 2 ^ i % 2 = 1).map (·.1)

/-- Tokens are relative to the token before; the first one is relative to the start of the document. -/
def decode (legend : List Kind) (modifiers : List Modifier) : Pos → List Encoded → List Decoded
  | _, [] => []
  | prev, e :: es =>
    let pos : Pos := if e.deltaLine = 0 then ⟨prev.line, prev.col + e.deltaStart⟩ else ⟨prev.line + e.deltaLine, e.deltaStart⟩
    ⟨pos, e.length, legend[e.kind]?, decodeModifiers modifiers e.modifiers⟩ :: decode legend modifiers pos es

/-- The property that a modifier stands for. -/
def Has (p : Props) : Modifier → Prop
  | .declaration => p.declaration = true
  | .definition => p.definition = true
  | .readonly => p.readOnly = true
  | .static => p.static = true
  | .deprecated => p.deprecated = true
  | .abstract => p.abstract = true
  | .async => p.async = true
  | .defaultLibrary => p.inStdlib = true

/-- The leaves are in order and do not overlap. -/
def Ordered (leaves : List Leaf) : Prop :=
  (∀ l ∈ leaves, l.start ≤ l.stop) ∧ leaves.Pairwise fun a b => a.stop ≤ b.start

/-- The leaves are pieces of the code. -/
def InCode (code : List Char) (leaves : List Leaf) : Prop :=
  ∀ l ∈ leaves, ∃ pre mid post, code = pre ++ mid ++ post ∧ size pre = l.start ∧ size (pre ++ mid) = l.stop

/-- The text of a leaf. -/
def TextOf (code : List Char) (l : Leaf) (pre mid : List Char) : Prop :=
  ∃ post, code = pre ++ mid ++ post ∧ size pre = l.start ∧ size (pre ++ mid) = l.stop

end Verif.Tokens.Spec
