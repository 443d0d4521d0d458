/-!
# The stored syntax tree

Model of the node array of `parsa`: how the parser writes it (`crates/parsa/src/grammar.rs`) and how it is navigated
(`crates/parsa/src/lib.rs`, the methods generated by `create_parser!`).

Types of nodes are numbers; the two questions asked about them, "is it a leaf" and "is it this type", are the fields
`leaf` and `kind`.  Integers are natural numbers (`u32` in the code; files are far smaller).
-/

namespace Verif.Tree

/-- `InternalNode`, grammar.rs 36-43. -/
structure Node where
  /-- `next_node_offset`: the distance to the next sibling, 0 if there is none -/
  offset : Nat
  leaf : Bool
  kind : Nat
  start : Nat
  length : Nat
deriving DecidableEq, Repr

/-- `end`, lib.rs 207-209. -/
def Node.stop (n : Node) : Nat := n.start + n.length

/-! ## Navigation -/

/-- `next_sibling`, lib.rs 266-276; the outer `none` is an index out of range. -/
def nextSibling (nodes : List Node) (i : Nat) : Option (Option Nat) :=
  match nodes[i]? with
  | none => none
  | some n => if n.offset ≠ 0 then if i + n.offset < nodes.length then some (some (i + n.offset)) else none else some none

/-- `SiblingIterator::next`, lib.rs 475-490, collected; `none` is an index out of range. -/
def siblings (nodes : List Node) (i : Nat) : Option (List Nat) :=
  match h : nodes[i]? with
  | none => none
  | some n => if n.offset = 0 then some [i] else (siblings nodes (i + n.offset)).map (i :: ·)
termination_by nodes.length - i
decreasing_by
  have : i < nodes.length := by
    rw [List.getElem?_eq_some_iff] at h
    exact h.1
  omega

/-- `iter_children`, lib.rs 246-259, collected. -/
def children (nodes : List Node) (i : Nat) : Option (List Nat) :=
  match nodes[i]? with
  | none => none
  | some n => if n.leaf then some [] else siblings nodes (i + 1)

/-- The loop of `previous_sibling`, lib.rs 279-292, over the nodes before the node in reversed order; `i` is the
distance of the node before the first of them.  The result is a distance. -/
def previousSiblingLoop : List Node → Nat → Option Nat
  | [], _ => none
  | n :: rest, i =>
    if n.offset = i + 1 then some (i + 1)
    else if n.offset > i + 1 then none
    else previousSiblingLoop rest (i + 1)

/-- `previous_sibling`, lib.rs 278-294. -/
def previousSibling (nodes : List Node) (index : Nat) : Option Nat :=
  (previousSiblingLoop (nodes.take index).reverse 0).map (index - ·)

/-- The loop of `parent`, lib.rs 302-315. -/
def parentLoop : List Node → Nat → Nat → Option Nat
  | [], _, _ => none
  | n :: rest, i, sibling =>
    if (n.offset > i + 1 ∨ n.offset = 0 ∧ i + 1 = sibling + 1) ∧ n.leaf = false then some (i + 1)
    else parentLoop rest (i + 1) (if sibling + n.offset = i + 1 then i + 1 else sibling)

/-- `parent`, lib.rs 300-317. -/
def parent (nodes : List Node) (index : Nat) : Option Nat :=
  (parentLoop (nodes.take index).reverse 0 0).map (index - ·)

/-- `previous_leaf`, lib.rs 344-355. -/
def previousLeaf (nodes : List Node) (index : Nat) : Option Nat :=
  ((nodes.take index).reverse.findIdx? (·.leaf)).map (index - 1 - ·)

/-- `next_leaf`, lib.rs 357-370. -/
def nextLeaf (nodes : List Node) (index : Nat) : Option Nat :=
  ((nodes.drop (index + 1)).findIdx? (·.leaf)).map (index + 1 + ·)

/-- `last_leaf_in_subtree`, lib.rs 372-378; the depth of the recursion is at most the number of nodes. -/
def lastLeaf (nodes : List Node) : Nat → Nat → Option Nat
  | 0, _ => none
  | fuel + 1, i =>
    match nodes[i]? with
    | none => none
    | some n =>
      if n.leaf then some i
      else
        match siblings nodes (i + 1) with
        | none => none
        | some cs =>
          match cs.getLast? with
          | none => none
          | some c => lastLeaf nodes fuel c

/-- The loop of `SearchIterator::next`, lib.rs 515-537: the index of the next match; `none` is `unreachable!`. -/
def searchLoop (types : List Nat) (endIndex : Nat) : List Node → Nat → Option (Option (Nat × Node))
  | [], _ => none
  | n :: rest, i =>
    if n.start ≥ endIndex then some none
    else if n.kind ∈ types then some (some (i, n))
    else searchLoop types endIndex rest (i + 1)

/-- `search` (lib.rs 333-342) with `SearchIterator::next` (514-538), collected; the outer `none` is a panic.
`fuel` bounds the number of matches. -/
def searchFrom (nodes : List Node) (types : List Nat) (avoid : Bool) (endIndex : Nat) : Nat → Nat → Option (List Nat)
  | 0, _ => none
  | fuel + 1, next =>
    match searchLoop types endIndex (nodes.drop next) next with
    | none => none
    | some none => some []
    | some (some (i, n)) =>
      let after :=
        if avoid then
          if n.offset = 0 then (lastLeaf nodes nodes.length i).map (· + 1) else some (i + n.offset)
        else some (i + 1)
      match after with
      | none => none
      | some after => (searchFrom nodes types avoid endIndex fuel after).map (i :: ·)

/-- `search`, lib.rs 333-342. -/
def search (nodes : List Node) (types : List Nat) (avoid : Bool) (i : Nat) : Option (List Nat) :=
  match nodes[i]? with
  | none => none
  | some n => if n.leaf then none else searchFrom nodes types avoid n.stop (nodes.length + 1) i

/-- `leaf_by_position`, lib.rs 817-845; `none` is `unreachable!`.  `partition_point` is the length of the longest prefix
of nodes with the property, as the starts are sorted (`Verif.Tree.starts_sorted`). -/
def leafByPosition (nodes : List Node) (position : Nat) : Option Nat :=
  let index := (nodes.takeWhile (fun n => decide (n.start ≤ position))).length
  match previousLeaf nodes index with
  | some i =>
    match nodes[i]? with
    | none => none
    | some n =>
      if n.stop < position then
        match nextLeaf nodes i with
        | some next => some next
        | none => some i
      else some i
  | none => nodes.findIdx? (·.leaf)

/-! ## Construction -/

/-- The part of `StackNode` (grammar.rs 118-127) that concerns the tree.  `opt` is `node_may_be_omitted` of the states
of the rule (automaton.rs 426: it is the same for all of them). -/
structure Frame where
  treeNode : Nat
  latestChild : Nat
  kind : Nat
  opt : Bool
  count : Nat
deriving DecidableEq, Repr

/-- `Stack`, grammar.rs 150-153; the top of the stack is the head of the list. -/
structure Stack where
  frames : List Frame
  nodes : List Node
deriving DecidableEq, Repr

/-- A token. -/
structure Token where
  kind : Nat
  start : Nat
  length : Nat
deriving DecidableEq, Repr

/-- `Stack::new`, grammar.rs 629-640, for a start rule that may not be omitted. -/
def Stack.new (kind : Nat) : Stack := ⟨[⟨0, 0, kind, false, 0⟩], [⟨0, false, kind, 0, 0⟩]⟩

/-- `calculate_previous_next_node`, grammar.rs 701-714; `none` is an `unwrap` of an empty stack. -/
def Stack.calculatePreviousNextNode (s : Stack) : Option Stack :=
  match s.frames with
  | [] => none
  | f :: fs =>
    let next := s.nodes.length
    let nodes :=
      if f.latestChild ≠ 0 then s.nodes.modify f.latestChild (fun n => { n with offset := next - f.latestChild }) else s.nodes
    some ⟨{ f with latestChild := next } :: fs, nodes⟩

/-- Counting a child of the top of the stack. -/
def Stack.countChild (s : Stack) : Stack :=
  match s.frames with
  | [] => s
  | f :: fs => { s with frames := { f with count := f.count + 1 } :: fs }

/-- One push of a plan in LL mode, grammar.rs 570-585 and 615, with `Stack::push` 668-698. -/
def Stack.push (s : Stack) (kind : Nat) (opt : Bool) (start : Nat) : Stack :=
  let s := s.countChild
  let nodes := if opt then s.nodes else s.nodes ++ [⟨0, false, kind, start, 0⟩]
  ⟨⟨s.nodes.length, nodes.length, kind, opt, 0⟩ :: s.frames, nodes⟩

/-- `update_tree_node_position`, grammar.rs 838-843. -/
def updatePosition (nodes : List Node) (f : Frame) : Option (List Node) :=
  match nodes.getLast? with
  | some last =>
    if f.treeNode < nodes.length then some (nodes.modify f.treeNode (fun n => { n with length := last.stop - n.start })) else none
  | none => none

/-- The node of the top of the stack is inserted before its first child, grammar.rs 526-540 and 547-567. -/
def insertNode (nodes : List Node) (f : Frame) : Option (List Node) :=
  match nodes[f.treeNode]? with
  | some n => some (nodes.insertIdx f.treeNode ⟨0, false, f.kind, n.start, 0⟩)
  | none => none

/-- The beginning of `apply_plan`, grammar.rs 522-567: the node of the top of the stack is made if it was left out
until now, or if it becomes the first child of a node of the same rule (`left`). -/
def Stack.reopen (s : Stack) (left : Bool) : Option Stack :=
  match s.frames with
  | [] => none
  | f :: fs =>
    if left then
      ((updatePosition s.nodes f).bind (insertNode · f)).map fun nodes =>
        ⟨{ f with count := 1, latestChild := f.treeNode + 1 } :: fs, nodes⟩
    else if f.opt ∧ f.count = 1 then
      (insertNode s.nodes f).map fun nodes => ⟨{ f with count := 1, latestChild := f.treeNode + 1 } :: fs, nodes⟩
    else some s

/-- The pushes of a plan and the token, grammar.rs 569-625. -/
def Stack.addToken (s : Stack) (pushes : List (Nat × Bool)) (t : Token) : Stack :=
  let s := (pushes.foldl (fun s k => s.push k.1 k.2 t.start) s).countChild
  { s with nodes := s.nodes ++ [⟨0, true, t.kind, t.start, t.length⟩] }

/-- `apply_plan`, grammar.rs 508-625, without lookaheads and alternatives: the nodes of `pushes` are opened (with
the flag "may be omitted"), and the token is added to the innermost.  `left` is `PlanMode::LeftRecursive`. -/
def Stack.applyPlan (s : Stack) (left : Bool) (pushes : List (Nat × Bool)) (t : Token) : Option Stack :=
  ((s.reopen left).bind Stack.calculatePreviousNextNode).map (·.addToken pushes t)

/-- `pop_normal`, grammar.rs 658-664. -/
def Stack.popNormal (s : Stack) : Option Stack :=
  match s.frames with
  | f :: fs =>
    match updatePosition s.nodes f with
    | some nodes => some ⟨fs, nodes⟩
    | none => none
  | [] => none

/-- What the parser does with its stack while it reads tokens. -/
inductive Step where
  | plan (left : Bool) (pushes : List (Nat × Bool)) (token : Token)
  | pop
deriving DecidableEq, Repr

def Stack.step (s : Stack) : Step → Option Stack
  | .plan left pushes t => s.applyPlan left pushes t
  | .pop => s.popNormal

def Stack.run (s : Stack) : List Step → Option Stack
  | [] => some s
  | e :: es => (s.step e).bind (·.run es)

end Verif.Tree
