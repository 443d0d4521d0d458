/-
Model of how a grammar rule becomes a deterministic automaton.

Source: `crates/parsa/src/automaton.rs` lines 17-29 (`Rule`), 259-351 (`build`), 361-379
(`new_nfa_states`, `add_transition`, `add_empty_transition`), 381-396 (`group_nfas`), 402-433
(`nfa_to_dfa`), 435-499 (`construct_powerset`, `construct_powerset_for_dfa`) and
`crates/parsa/src/lib.rs` lines 544-648 (the macros that turn grammar text into a `Rule`).

Simplifications:
* `Rule::Cut` (`unimplemented!` in the source), `NegativeLookahead` and `PositiveLookahead` are
  not part of the model; without them `is_lookahead_end` is always false and every transition is
  a terminal, a nonterminal or a keyword;
* a `HashSet` of states is a list without duplicates, compared as a set;
* a `HashMap` of grouped transitions is an association list in order of first insertion, so one
  particular iteration order is fixed;
* the maps from names to terminals and nonterminals are two lists of names; the panic for an
  unknown name is `none`;
* pinned pointers to DFA states are their list indices;
* the recursions of `group_nfas` and `construct_powerset_for_dfa` carry a bound on their depth,
  which the proofs show is never reached.
-/

namespace Verif.Automaton

/-- `Rule` without the lookaheads and the cut (automaton.rs 17-29). -/
inductive Rule where
  | identifier (name : String)
  | keyword (text : String)
  | or (a b : Rule)
  | maybe (a : Rule)
  | multiple (a : Rule)
  | next (a b : Rule)
  | nodeMayBeOmitted (a : Rule)
  | doesErrorRecovery (a : Rule)
  deriving DecidableEq, Repr

/-- `TransitionType` without the lookahead markers. -/
inductive Sym where
  | terminal (name : String)
  | nonterminal (name : String)
  | keyword (text : String)
  deriving DecidableEq, Repr

/-- The names known to the grammar (`terminal_map` and `nonterminal_map`). -/
structure Names where
  terminals : List String
  nonterminals : List String
  deriving Repr

/-- The transitions of every NFA state; `none` is an empty move. -/
abbrev Nfa := List (List (Option Sym × Nat))

/-- `new_nfa_states`, automaton.rs 361-369. -/
def newStates (nfa : Nfa) : Nfa × Nat × Nat :=
  (nfa ++ [[], []], nfa.length, nfa.length + 1)

/-- `add_transition`, automaton.rs 371-375. -/
def addTransition (nfa : Nfa) (start to : Nat) (type : Option Sym) : Nfa :=
  nfa.modify start (fun ts => ts ++ [(type, to)])

/-- `add_empty_transition`, automaton.rs 377-379. -/
def addEmpty (nfa : Nfa) (start to : Nat) : Nfa :=
  addTransition nfa start to none

/-- The symbol of an identifier: terminals first, then nonterminals (automaton.rs 273-282). -/
def resolve (names : Names) (s : String) : Option Sym :=
  if s ∈ names.terminals then some (.terminal s)
  else if s ∈ names.nonterminals then some (.nonterminal s)
  else none

/-- A fresh pair of states joined by one labelled edge (automaton.rs 272-291). -/
def buildLeaf (nfa : Nfa) (t : Sym) : Nfa × Nat × Nat :=
  let (nfa, start, stop) := newStates nfa
  (addTransition nfa start stop (some t), start, stop)

/-- `build`, automaton.rs 259-351.  The result is the automaton, the start and the end state. -/
def build (names : Names) : Nfa → Rule → Option (Nfa × Nat × Nat)
  | nfa, .identifier s => (resolve names s).map (buildLeaf nfa)
  | nfa, .keyword s => some (buildLeaf nfa (.keyword s))
  | nfa, .or a b =>
    let (nfa, start, stop) := newStates nfa
    (build names nfa a).bind fun (nfa, x, y) =>
    let nfa := addEmpty (addEmpty nfa start x) y stop
    (build names nfa b).bind fun (nfa, x, y) =>
    some (addEmpty (addEmpty nfa start x) y stop, start, stop)
  | nfa, .maybe a =>
    (build names nfa a).bind fun (nfa, start, stop) =>
    some (addEmpty nfa start stop, start, stop)
  | nfa, .multiple a =>
    (build names nfa a).bind fun (nfa, start, stop) =>
    some (addEmpty nfa stop start, start, stop)
  | nfa, .next a b =>
    (build names nfa a).bind fun (nfa, start1, stop1) =>
    (build names nfa b).bind fun (nfa, start2, stop2) =>
    some (addEmpty nfa stop1 start2, start1, stop2)
  | nfa, .nodeMayBeOmitted a => build names nfa a
  | nfa, .doesErrorRecovery a => build names nfa a

/-- The transitions of a state (`nfa_state(id).transitions`). -/
def transitionsOf (nfa : Nfa) (i : Nat) : List (Option Sym × Nat) := nfa[i]?.getD []

/-- Inserting into a `HashSet`. -/
def insertState (set : List Nat) (i : Nat) : List Nat :=
  if i ∈ set then set else set ++ [i]

/-- `HashSet::extend`. -/
def extendStates (set : List Nat) (more : List Nat) : List Nat :=
  more.foldl insertState set

/-- `group_nfas`, automaton.rs 381-396; the first argument bounds the recursion depth. -/
def groupNfas (nfa : Nfa) : Nat → List Nat → List Nat
  | 0, ids => extendStates [] ids
  | depth + 1, ids =>
    (ids.flatMap (transitionsOf nfa)).foldl
      (fun set tr =>
        match tr.1 with
        | some _ => set
        | none =>
          let set := insertState set tr.2
          if tr.2 ∈ ids then set
          else extendStates set (groupNfas nfa depth set))
      (extendStates [] ids)

/-- `DFAState`, the parts that matter here. -/
structure DState where
  nfaSet : List Nat
  isFinal : Bool
  isCalculated : Bool
  transitions : List (Sym × Nat)
  deriving DecidableEq, Repr

/-- Equality of two `HashSet`s. -/
def sameSet (a b : List Nat) : Bool :=
  a.all (fun x => decide (x ∈ b)) && b.all (fun x => decide (x ∈ a))

/-- `nfa_to_dfa`, automaton.rs 402-433: the state with this set, created if there is none. -/
def nfaToDfa (nfa : Nfa) (stop : Nat) (dfas : List DState) (starts : List Nat) :
    List DState × Nat :=
  let grouped := groupNfas nfa (nfa.length + 1) starts
  match dfas.findIdx? (fun d => sameSet d.nfaSet grouped) with
  | some i => (dfas, i)
  | none =>
    (dfas ++ [{ nfaSet := grouped, isFinal := decide (stop ∈ grouped),
                isCalculated := false, transitions := [] }], dfas.length)

/-- Adding one transition to the grouped transitions (automaton.rs 457-468). -/
def addGrouped (grouped : List (Sym × List Nat)) (t : Sym) (to : Nat) :
    List (Sym × List Nat) :=
  match grouped with
  | [] => [(t, [to])]
  | (t', v) :: rest =>
    if t' = t then (t', v ++ [to]) :: rest else (t', v) :: addGrouped rest t to

/-- The grouped transitions of a set of NFA states (automaton.rs 447-470).  The states are
visited in increasing order. -/
def groupTransitions (nfa : Nfa) (set : List Nat) : List (Sym × List Nat) :=
  (((List.range nfa.length).filter (fun i => decide (i ∈ set))).flatMap
      (transitionsOf nfa)).foldl
    (fun grouped tr =>
      match tr.1 with
      | some t => addGrouped grouped t tr.2
      | none => grouped) []

/-- The loop that creates the target states (automaton.rs 472-479). -/
def makeTargets (nfa : Nfa) (stop : Nat) :
    List DState → List (Sym × List Nat) → List DState × List (Sym × Nat)
  | dfas, [] => (dfas, [])
  | dfas, (t, starts) :: rest =>
    let (dfas, i) := nfaToDfa nfa stop dfas starts
    let (dfas, trs) := makeTargets nfa stop dfas rest
    (dfas, (t, i) :: trs)

/-- `construct_powerset_for_dfa`, automaton.rs 440-488; the first argument bounds the recursion
depth, and running into the bound is `none`. -/
def construct (nfa : Nfa) (stop : Nat) : Nat → List DState → Nat → Option (List DState)
  | 0, _, _ => none
  | depth + 1, dfas, i =>
    match dfas[i]? with
    | none => none
    | some state =>
      if state.isCalculated then some dfas
      else
        let (dfas, trs) := makeTargets nfa stop dfas (groupTransitions nfa state.nfaSet)
        let dfas := dfas.modify i
          (fun s => { s with transitions := trs, isCalculated := true })
        trs.foldlM (fun dfas tr => construct nfa stop depth dfas tr.2) dfas

/-- `construct_powerset` on a fresh automaton, automaton.rs 435-438 and 721-723. -/
def powerset (nfa : Nfa) (start stop : Nat) : Option (List DState) :=
  let (dfas, i) := nfaToDfa nfa stop [] [start]
  construct nfa stop (2 ^ nfa.length + 1) dfas i

/-- The compiled automaton of one rule (`generate_automatons`, automaton.rs 715-723).  `none` is
the panic for an unknown name. -/
def compile (names : Names) (r : Rule) : Option (List DState) :=
  (build names [] r).bind fun (nfa, start, stop) => powerset nfa start stop

/-- Following the transitions of the automaton, starting in a given state. -/
def run (dfas : List DState) : Nat → List Sym → Bool
  | i, [] =>
    match dfas[i]? with
    | some s => s.isFinal
    | none => false
  | i, t :: w =>
    match dfas[i]? with
    | some s =>
      match s.transitions.find? (fun tr => tr.1 = t) with
      | some tr => run dfas tr.2 w
      | none => false
    | none => false

/-- A sequence of symbols is accepted from state 0, where parsing a rule starts. -/
def accepts (dfas : List DState) (w : List Sym) : Bool := run dfas 0 w

/-! ### The grammar notation -/

/-- The right-hand side of a grammar rule as it is written in `create_grammar!`. -/
inductive Expr where
  | name (s : String)
  | literal (s : String)
  | alt (a b : Expr)
  | seq (a b : Expr)
  | opt (a : Expr)
  | plus (a : Expr)
  | star (a : Expr)
  | sepPlus (sep a : Expr)
  deriving DecidableEq, Repr

/-- The macros `__parse_or`, `__parse_identifier`, `__parse_operators` (parsa/src/lib.rs
562-648): `|` is `Or`, juxtaposition is `Next`, `[x]` and `x?` are `Maybe`, `x+` is `Multiple`,
`x*` is `Maybe(Multiple)` and `s.e+` is `e (s e)*`. -/
def desugar : Expr → Rule
  | .name s => .identifier s
  | .literal s => .keyword s
  | .alt a b => .or (desugar a) (desugar b)
  | .seq a b => .next (desugar a) (desugar b)
  | .opt a => .maybe (desugar a)
  | .plus a => .multiple (desugar a)
  | .star a => .maybe (.multiple (desugar a))
  | .sepPlus sep a =>
    .next (desugar a) (.maybe (.multiple (.next (desugar sep) (desugar a))))

end Verif.Automaton
