import Verif.Lines.Model

/-!
# Semantic tokens

Model of crates/zubanls/src/semantic_tokens.rs, of `semantic_tokens_internal` in request_handlers.rs and of the loop over
names in crates/zuban_python/src/semantic_tokens.rs. Which kind of token a name is, is an arbitrary function.
-/

namespace Verif.Tokens

open Verif.Lines

/-- `SUPPORTED_TYPES`, zubanls/src/semantic_tokens.rs 44-76. -/
inductive Kind where
  | namespace_ | type | class_ | enum | interface | struct | typeParameter | parameter | variable | property | enumMember
  | event | function | method | macro_ | keyword | modifier | comment | string | number | regexp | operator | decorator
deriving DecidableEq, Repr

def kinds : List Kind :=
  [.namespace_, .type, .class_, .enum, .interface, .struct, .typeParameter, .parameter, .variable, .property, .enumMember,
    .event, .function, .method, .macro_, .keyword, .modifier, .comment, .string, .number, .regexp, .operator, .decorator]

/-- `SUPPORTED_MODIFIERS`, zubanls/src/semantic_tokens.rs 109-130. -/
inductive Modifier where
  | declaration | definition | readonly | static | deprecated | abstract | async | defaultLibrary
deriving DecidableEq, Repr

def modifiers : List Modifier :=
  [.declaration, .definition, .readonly, .static, .deprecated, .abstract, .async, .defaultLibrary]

/-- `SemanticTokenProperties`, zuban_python/src/semantic_tokens.rs 243-255. -/
structure Props where
  definition : Bool := false
  declaration : Bool := false
  inStdlib : Bool := false
  readOnly : Bool := false
  static : Bool := false
  deprecated : Bool := false
  abstract : Bool := false
  async : Bool := false
deriving DecidableEq, Repr

/-- `bitor_assign`, zubanls/src/semantic_tokens.rs 143-151. -/
def orAssign (s : Nat) (m : Modifier) : Nat := s ||| (1 <<< modifiers.findIdx (· == m))

/-- The closure `add`, zubanls/src/semantic_tokens.rs 180-184. -/
def add (s : Nat) (b : Bool) (m : Modifier) : Nat := if b then orAssign s m else s

/-- zubanls/src/semantic_tokens.rs 179-192. -/
def bitset (p : Props) : Nat :=
  let s := add 0 p.definition .definition
  let s := add s p.declaration .declaration
  let s := add s p.inStdlib .defaultLibrary
  let s := add s p.readOnly .readonly
  let s := add s p.static .static
  let s := add s p.deprecated .deprecated
  let s := add s p.async .async
  add s p.abstract .abstract

/-- `type_index`, zubanls/src/semantic_tokens.rs 226-231. -/
def typeIndex (k : Kind) : Nat := kinds.findIdx (· == k)

/-- What is sent: `SemanticToken` of lsp_types. -/
structure Encoded where
  deltaLine : Nat
  deltaStart : Nat
  length : Nat
  kind : Nat
  modifiers : Nat
deriving DecidableEq, Repr

/-- `SemanticTokensBuilder`, zubanls/src/semantic_tokens.rs 156-160. -/
structure Builder where
  prevLine : Nat
  prevChar : Nat
  data : List Encoded

def Builder.new : Builder := ⟨0, 0, []⟩

/-- `push`, zubanls/src/semantic_tokens.rs 172-216; `none` is an underflow. -/
def Builder.push (b : Builder) (start : Pos) (len : Nat) (k : Kind) (p : Props) : Option Builder :=
  let out (line char : Nat) : Builder :=
    ⟨start.line, start.col, b.data ++ [⟨line, char, len, typeIndex k, bitset p⟩]⟩
  if b.data.isEmpty then some (out start.line start.col)
  else if start.line < b.prevLine then none
  else if start.line - b.prevLine = 0 then
    if start.col < b.prevChar then none else some (out (start.line - b.prevLine) (start.col - b.prevChar))
  else some (out (start.line - b.prevLine) start.col)

/-- A leaf of the tree, with its place in bytes. -/
structure Leaf where
  start : Nat
  stop : Nat
  isName : Bool
deriving DecidableEq, Repr

/-- `leaf_by_position`, parsa/src/lib.rs 817-845: the index of the leaf. Nodes that are no leaves are left out. -/
def leafByPosition (leaves : List Leaf) (pos : Nat) : Nat :=
  let idx := (leaves.takeWhile (·.start ≤ pos)).length
  if idx = 0 then 0
  else
    match leaves[(idx - 1 : Nat)]? with
    | some l => if l.stop < pos ∧ idx < leaves.length then idx else idx - 1
    | none => idx - 1

/-- `filter_all_names`, parsa_python_cst/src/lib.rs 397-415. -/
def allNames (leaves : List Leaf) (start : Nat) : List Leaf :=
  let i := leafByPosition leaves start
  let i := if (leaves[(i : Nat)]?).any (·.start == start) then i - 1 else i
  (leaves.drop i).filter (·.isName)

/-- A token before it is sent. -/
structure Token where
  leaf : Leaf
  kind : Kind
  props : Props

/-- `semantic_tokens`, zuban_python/src/semantic_tokens.rs 19-60; `u32::MAX` is `maxByte`. -/
def tokens (leaves : List Leaf) (resolve : Leaf → Option (Kind × Props)) (maxByte : Nat) (range : Option (Nat × Nat)) :
    List Token :=
  let (start, stop) := range.getD (0, maxByte)
  (allNames leaves start).filterMap fun l =>
    if l.stop < start ∨ l.start > stop then none
    else (resolve l).map fun (k, p) => ⟨l, k, p⟩

/-- `to_position`, request_handlers.rs 94-101; `none` is a panic. -/
def toPosition (enc : Enc) (code : List Char) (byte : Nat) : Option Pos :=
  (column enc code byte).map fun c => ⟨(positionInfos code byte).1, c⟩

/-- `length`, zuban_python/src/semantic_tokens.rs 202-204. -/
def Token.length (t : Token) : Nat := t.leaf.stop - t.leaf.start

/-- The loop in `semantic_tokens_internal`, request_handlers.rs 688-695. -/
def pushAll (enc : Enc) (code : List Char) : List Token → Builder → Option Builder
  | [], b => some b
  | t :: ts, b =>
    match toPosition enc code t.leaf.start with
    | none => none
    | some pos =>
      match b.push pos t.length t.kind t.props with
      | none => none
      | some b => pushAll enc code ts b

/-- `semantic_tokens_internal`, request_handlers.rs 674-697. -/
def respond (enc : Enc) (code : List Char) (leaves : List Leaf) (resolve : Leaf → Option (Kind × Props)) (maxByte : Nat)
    (range : Option (Nat × Nat)) : Option (List Encoded) :=
  (pushAll enc code (tokens leaves resolve maxByte range) .new).map (·.data)

end Verif.Tokens
