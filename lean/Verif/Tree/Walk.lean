import Verif.Tree.Model

/-!
# Walking over the nodes: inlay hints and folding

Model of `potential_inlay_hints` and `folding_blocks`, `crates/parsa_python_cst/src/lib.rs` 417-459.

Not modelled: what the hint for a function or an assignment is (`crates/zuban_python/src/inlay_hints.rs`), and the range
for the imports at the beginning of a file.
-/

namespace Verif.Tree

/-- `nodes().skip(..).take_while(|n| n.start() <= end)`, lib.rs 445-448: the nodes with their indexes. -/
def walk (stop : Nat) : List Node → Nat → List (Nat × Node)
  | [], _ => []
  | n :: rest, i => if n.start ≤ stop then (i, n) :: walk stop rest (i + 1) else []

/-- `potential_inlay_hints`, lib.rs 434-459: the indexes of the functions and assignments; `none` is a panic. -/
def hintNodes (hint : Nat → Bool) (nodes : List Node) (start stop : Nat) : Option (List Nat) :=
  match leafByPosition nodes start with
  | none => none
  | some leaf =>
    let skip := match previousLeaf nodes leaf with
      | some previous => previous
      | none => 0
    some (((walk stop (nodes.drop skip) skip).filter (fun p => hint p.2.kind)).map (·.1))

/-- The types of nodes that matter for folding. -/
structure FoldKinds where
  matchStmt : Nat → Bool
  block : Nat → Bool
  simpleStmts : Nat → Bool
  dedent : Nat → Bool

/-- The loop of `end`, lib.rs 420-425; `none` is a panic of `unwrap`. -/
def foldEnd (K : FoldKinds) (nodes : List Node) : Nat → Nat → Option Nat
  | 0, _ => none
  | fuel + 1, i =>
    match nodes[i]? with
    | none => none
    | some n =>
      if K.dedent n.kind then
        match previousLeaf nodes i with
        | none => none
        | some j => foldEnd K nodes fuel j
      else some n.start

/-- `end`, lib.rs 419-426. -/
def foldEndOf (K : FoldKinds) (nodes : List Node) (i : Nat) : Option Nat :=
  match lastLeaf nodes nodes.length i with
  | none => none
  | some l => foldEnd K nodes (nodes.length + 1) l

/-- The start of the child with this number. -/
def childStart (nodes : List Node) (i number : Nat) : Option Nat :=
  match children nodes i with
  | none => none
  | some cs =>
    match cs[number]? with
    | none => none
    | some c => (nodes[c]?).map (·.start)

/-- The type of the first child. -/
def firstKind (nodes : List Node) (i : Nat) : Option Nat :=
  match children nodes i with
  | none => none
  | some cs =>
    match cs[(0 : Nat)]? with
    | none => none
    | some c => (nodes[c]?).map (·.kind)

/-- The closure of `folding_blocks`, lib.rs 418-433, for the node at an index: the outer `none` is a panic. -/
def foldOf (K : FoldKinds) (nodes : List Node) (i : Nat) : Option (Option (Nat × Nat)) :=
  match nodes[i]? with
  | none => none
  | some n =>
    if K.matchStmt n.kind then
      match childStart nodes i 3, foldEndOf K nodes i with
      | some s, some e => some (some (s, e))
      | _, _ => none
    else if K.block n.kind then
      match firstKind nodes i with
      | none => none
      | some k =>
        if K.simpleStmts k then some none
        else
          match foldEndOf K nodes i with
          | some e => some (some (n.start, e))
          | none => none
    else some none

end Verif.Tree
