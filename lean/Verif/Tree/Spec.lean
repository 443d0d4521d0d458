import Verif.Tree.Model

/-!
# Ordered trees

The tree that was parsed.  Every inner node has at least one child.
-/

namespace Verif.Tree

mutual
inductive Tree where
  | leaf (kind start length : Nat)
  | node (kind : Nat) (children : Forest)
/-- The children of a node. -/
inductive Forest where
  | one (t : Tree)
  | cons (t : Tree) (f : Forest)
end

mutual
/-- The number of nodes. -/
def Tree.size : Tree → Nat
  | .leaf .. => 1
  | .node _ f => 1 + f.size
def Forest.size : Forest → Nat
  | .one t => t.size
  | .cons t f => t.size + f.size
end

mutual
/-- Where the first leaf begins. -/
def Tree.start : Tree → Nat
  | .leaf _ s _ => s
  | .node _ f => f.start
def Forest.start : Forest → Nat
  | .one t => t.start
  | .cons t _ => t.start
end

mutual
/-- Where the last leaf ends. -/
def Tree.stop : Tree → Nat
  | .leaf _ s l => s + l
  | .node _ f => f.stop
def Forest.stop : Forest → Nat
  | .one t => t.stop
  | .cons _ f => f.stop
end

def Tree.isLeaf : Tree → Bool
  | .leaf .. => true
  | .node .. => false

def Tree.kind : Tree → Nat
  | .leaf k _ _ => k
  | .node k _ => k

/-- The trees of a forest with their numbers in pre-order, if the first has number `i`. -/
def Forest.placed : Forest → Nat → List (Nat × Tree)
  | .one t, i => [(i, t)]
  | .cons t f, i => (i, t) :: f.placed (i + t.size)

mutual
/-- The numbers in pre-order of all leaves. -/
def Tree.leaves : Tree → Nat → List (Nat × Tree)
  | .leaf k s l, i => [(i, .leaf k s l)]
  | .node _ f, i => f.leaves (i + 1)
def Forest.leaves : Forest → Nat → List (Nat × Tree)
  | .one t, i => t.leaves i
  | .cons t f, i => t.leaves i ++ f.leaves (i + t.size)
end

mutual
/-- All nodes in pre-order, with their numbers. -/
def Tree.preorder : Tree → Nat → List (Nat × Tree)
  | .leaf k s l, i => [(i, .leaf k s l)]
  | .node k f, i => (i, .node k f) :: f.preorder (i + 1)
def Forest.preorder : Forest → Nat → List (Nat × Tree)
  | .one t, i => t.preorder i
  | .cons t f, i => t.preorder i ++ f.preorder (i + t.size)
end

/-- `t` is the subtree of `root` whose number in pre-order is `i`. -/
inductive Loc (root : Tree) : Nat → Tree → Prop
  | root : Loc root 0 root
  | child {i k f j c} : Loc root i (.node k f) → (j, c) ∈ f.placed (i + 1) → Loc root j c

/-- The node that stores the tree, given the distance to its next sibling. -/
def Tree.head (t : Tree) (offset : Nat) : Node := ⟨offset, t.isLeaf, t.kind, t.start, t.stop - t.start⟩

mutual
/-- The array that stores the tree: all nodes in pre-order, each with the distance to its next sibling. -/
def Tree.flat (offset : Nat) : Tree → List Node
  | .leaf k s l => [(Tree.leaf k s l).head offset]
  | .node k f => (Tree.node k f).head offset :: f.flat
def Forest.flat : Forest → List Node
  | .one t => t.flat 0
  | .cons t f => t.flat t.size ++ f.flat
end

/-- The array the parser keeps for a file; the root begins with the text, not with the first leaf. -/
def stored (kind : Nat) (f : Forest) : List Node := ⟨0, false, kind, 0, f.stop⟩ :: f.flat

mutual
/-- The leaves are in the order of the text and do not overlap. -/
def Tree.Ordered : Tree → Prop
  | .leaf .. => True
  | .node _ f => f.Ordered
def Forest.Ordered : Forest → Prop
  | .one t => t.Ordered
  | .cons t f => t.Ordered ∧ f.Ordered ∧ t.stop ≤ f.start
end

/-! ## Derivations -/

mutual
/-- A derivation of the grammar.  `node k opt f ls` is a node of rule `k` with the children `f`; every forest of `ls` is
a left recursion: a node of rule `k` whose first child is the node so far and whose other children are the forest. -/
inductive Deriv where
  | leaf (kind start length : Nat)
  | node (kind : Nat) (opt : Bool) (children : Derivs) (lefts : Lefts)
inductive Derivs where
  | one (t : Deriv)
  | cons (t : Deriv) (f : Derivs)
inductive Lefts where
  | nil
  | cons (f : Derivs) (ls : Lefts)
end

mutual
/-- The tree of a derivation: a node that may be omitted and has a single child is replaced by the child. -/
def Deriv.tree : Deriv → Tree
  | .leaf k s l => .leaf k s l
  | .node k opt f ls =>
    match opt, f with
    | true, .one t => ls.wrap k t.tree
    | _, f => ls.wrap k (.node k f.forest)
def Derivs.forest : Derivs → Forest
  | .one t => .one t.tree
  | .cons t f => .cons t.tree f.forest
def Lefts.wrap (kind : Nat) (t : Tree) : Lefts → Tree
  | .nil => t
  | .cons f ls => ls.wrap kind (.node kind (.cons t f.forest))
end

mutual
/-- The left spine of a derivation: the rules that begin with its first token. -/
def Deriv.spine : Deriv → List (Nat × Bool)
  | .leaf .. => []
  | .node k opt f _ => (k, opt) :: f.spine
def Derivs.spine : Derivs → List (Nat × Bool)
  | .one t => t.spine
  | .cons t _ => t.spine
end

mutual
def Deriv.firstToken : Deriv → Token
  | .leaf k s l => ⟨k, s, l⟩
  | .node _ _ f _ => f.firstToken
def Derivs.firstToken : Derivs → Token
  | .one t => t.firstToken
  | .cons t _ => t.firstToken
end

mutual
/-- What the parser does for a derivation: it opens all rules of the spine with the first token, and then (`rest`) the
other children of the innermost node, its left recursions, closing it, and so on. -/
def Deriv.rest : Deriv → List Step
  | .leaf .. => []
  | .node _ _ f ls => f.rest ++ (ls.rest ++ [.pop])
def Derivs.rest : Derivs → List Step
  | .one t => t.rest
  | .cons t f => t.rest ++ (.plan false f.spine f.firstToken :: f.rest)
def Lefts.rest : Lefts → List Step
  | .nil => []
  | .cons f ls => .plan true f.spine f.firstToken :: (f.rest ++ ls.rest)
end

/-- The moves for the children of the start rule. -/
def Derivs.steps (f : Derivs) : List Step := .plan false f.spine f.firstToken :: f.rest

end Verif.Tree
