/-!
# The backtracking tokenizer

Model of `crates/parsa/src/backtracking.rs`.
-/

namespace Verif.Backtrack

/-- A token: its position and what else is known about it. -/
structure Token where
  start : Nat
  length : Nat
  kind : Nat
deriving DecidableEq, Repr

/-- `BacktrackingTokenizer`, backtracking.rs 4-9.  The tokenizer is the list of the tokens it still produces. -/
structure Tokenizer where
  tokenizer : List Token
  tokens : List Token
  nextIndex : Nat
  isRecording : Bool
deriving DecidableEq, Repr

/-- `new`, backtracking.rs 12-19. -/
def Tokenizer.new (tokenizer : List Token) : Tokenizer := ⟨tokenizer, [], 0, false⟩

/-- `start`, backtracking.rs 22-31; `none` is the underflow of `next_index - 1`. -/
def Tokenizer.start (s : Tokenizer) (token : Token) : Option (Nat × Tokenizer) :=
  if s.tokens.isEmpty then some (0, { s with isRecording := true, tokens := [token], nextIndex := 1 })
  else if s.nextIndex = 0 then none
  else some (s.nextIndex - 1, { s with isRecording := true })

/-- `reset`, backtracking.rs 34-36. -/
def Tokenizer.reset (s : Tokenizer) (i : Nat) : Tokenizer := { s with nextIndex := i }

/-- `stop`, backtracking.rs 39-41. -/
def Tokenizer.stop (s : Tokenizer) : Tokenizer := { s with isRecording := false }

/-- The search in `reset_to_last_leaf`, backtracking.rs 45-51, over the reversed tokens; `i` is the number of tokens
that are left. -/
def lastLeafLoop (start length : Nat) : List Token → Nat → Option Nat
  | [], _ => none
  | t :: ts, i => if t.start = start ∧ t.length = length then some i else lastLeafLoop start length ts (i - 1)

/-- `reset_to_last_leaf`, backtracking.rs 43-53; `none` is `unreachable!`. -/
def Tokenizer.resetToLastLeaf (s : Tokenizer) (start length : Nat) : Option Tokenizer :=
  (lastLeafLoop start length s.tokens.reverse s.tokens.length).map fun i => { s with nextIndex := i }

/-- `next`, backtracking.rs 58-83. -/
def Tokenizer.next (s : Tokenizer) : Option Token × Tokenizer :=
  if s.tokens.isEmpty then (s.tokenizer.head?, { s with tokenizer := s.tokenizer.tail })
  else
    match s.tokens[s.nextIndex]? with
    | some t => (some t, { s with nextIndex := s.nextIndex + 1 })
    | none =>
      let next := s.tokenizer.head?
      let rest := s.tokenizer.tail
      if s.isRecording then (next, ⟨rest, s.tokens ++ next.toList, s.nextIndex + 1, true⟩)
      else (next, ⟨rest, [], 0, false⟩)

/-! ## The parser as the user of the tokenizer -/

/-- What the parser does: reads a token, starts a backtracking point at the token it has just read, returns to the
`n`-th backtracking point since the last `stop`, or behind a leaf it has read, stops recording. -/
inductive Op where
  | next
  | start
  | reset (n : Nat)
  | lastLeaf (start length : Nat)
  | stop
deriving DecidableEq, Repr

/-- The tokenizer, the backtracking points and the token that was read last. -/
structure Client where
  state : Tokenizer
  points : List Nat
  last : Option Token
deriving DecidableEq, Repr

/-- One operation and what the parser reads.  `none` is a panic or a misuse. -/
def Client.step (c : Client) : Op → Option (Client × List (Option Token))
  | .next =>
    let r := c.state.next
    some (⟨r.2, c.points, r.1⟩, [r.1])
  | .start =>
    match c.last with
    | none => none
    | some t => (c.state.start t).map fun r => (⟨r.2, c.points ++ [r.1], c.last⟩, [])
  | .reset n => (c.points[n]?).map fun i => (⟨c.state.reset i, c.points, none⟩, [])
  | .lastLeaf start length => (c.state.resetToLastLeaf start length).map fun s => (⟨s, c.points, none⟩, [])
  | .stop => some (⟨c.state.stop, [], c.last⟩, [])

def Client.run (c : Client) : List Op → Option (List (Option Token))
  | [] => some []
  | o :: os =>
    match c.step o with
    | none => none
    | some (c, out) => (c.run os).map (out ++ ·)

end Verif.Backtrack
