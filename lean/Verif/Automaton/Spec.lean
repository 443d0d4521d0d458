import Verif.Automaton.Model

/-
What a grammar rule means: the sequences of symbols it derives.  This does not mention states or
transitions.
-/

namespace Verif.Automaton

/-- Zero or more words of a language, one after the other. -/
inductive Star (L : List Sym → Prop) : List Sym → Prop where
  | nil : Star L []
  | cons {u v : List Sym} : L u → Star L v → Star L (u ++ v)

/-- The sequences a right-hand side derives. -/
def Derives (names : Names) : Expr → List Sym → Prop
  | .name s, w =>
    (s ∈ names.terminals ∧ w = [.terminal s]) ∨
    (s ∉ names.terminals ∧ s ∈ names.nonterminals ∧ w = [.nonterminal s])
  | .literal s, w => w = [.keyword s]
  | .alt a b, w => Derives names a w ∨ Derives names b w
  | .seq a b, w => ∃ u v, w = u ++ v ∧ Derives names a u ∧ Derives names b v
  | .opt a, w => w = [] ∨ Derives names a w
  | .plus a, w => ∃ u v, w = u ++ v ∧ Derives names a u ∧ Star (Derives names a) v
  | .star a, w => Star (Derives names a) w
  | .sepPlus sep a, w =>
    ∃ u v, w = u ++ v ∧ Derives names a u ∧
      Star (fun x => ∃ p q, x = p ++ q ∧ Derives names sep p ∧ Derives names a q) v

/-- Every name in the right-hand side is a terminal or a nonterminal of the grammar. -/
def Known (names : Names) : Expr → Prop
  | .name s => s ∈ names.terminals ∨ s ∈ names.nonterminals
  | .literal _ => True
  | .alt a b | .seq a b | .sepPlus a b => Known names a ∧ Known names b
  | .opt a | .plus a | .star a => Known names a

/-- The right-hand side begins with a repetition, so that after one round the automaton is back
in its first state. -/
def startsWithLoop : Expr → Bool
  | .name _ | .literal _ | .alt _ _ => false
  | .seq a _ => startsWithLoop a
  | .opt a => startsWithLoop a
  | .plus _ | .star _ => true
  | .sepPlus _ a => startsWithLoop a

/-- The right-hand side ends with a repetition, so that the automaton can leave its last state
again. -/
def endsWithLoop : Expr → Bool
  | .name _ | .literal _ | .alt _ _ => false
  | .seq _ b => endsWithLoop b
  | .opt a => endsWithLoop a
  | .plus _ | .star _ | .sepPlus _ _ => true

/-- Neither begins nor ends with a repetition. -/
def noLoopAtEnds (a : Expr) : Prop := startsWithLoop a = false ∧ endsWithLoop a = false

/-- No part that may be left out as a whole begins or ends with a repetition, except for `x*`,
`[x+]` and `[s s.x+]`, whose `x` must not. -/
def WellShaped : Expr → Prop
  | .name _ | .literal _ => True
  | .alt a b | .seq a b => WellShaped a ∧ WellShaped b
  | .opt a => WellShaped a ∧ (noLoopAtEnds a ∨ (∃ x, a = .plus x ∧ noLoopAtEnds x) ∨
      ∃ s x, a = .seq s (.sepPlus s x) ∧ startsWithLoop s = false)
  | .plus a => WellShaped a
  | .star a => WellShaped a ∧ noLoopAtEnds a
  | .sepPlus sep a => WellShaped sep ∧ WellShaped a ∧
      startsWithLoop sep = false ∧ endsWithLoop a = false

end Verif.Automaton
