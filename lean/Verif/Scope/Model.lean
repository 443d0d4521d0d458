/-! # The name binder

`NameBinder`, crates/zuban_python/src/file/name_binder.rs: it walks over a file once and connects
every name that is used with a definition of it.  Functions and other nested scopes are walked over
when the scope around them is complete.

Simplified: expressions are reduced to the names in them and statements to what they do with names.
Branches that are never taken (`is_expr_reachable_for_name_binder`) are not part of a program here.
Annotations, type parameters, star imports and `match` are not modelled, and neither are the flags
for the flow analysis. -/

namespace Verif.Scope

/-- Names and the nodes of their occurrences. -/
abbrev Name := Nat
abbrev Node := Nat

mutual

/-- What `search_interesting_nodes` finds in an expression or a target, parsa_python_cst/src/lib.rs
511-555.  A conjunction, a call, a tuple and so on is `both`, in the order in which the name binder
walks over the parts. -/
inductive Expr where
  | empty
  /-- A name that is used. -/
  | ref (id : Node) (x : Name)
  /-- A name that is assigned, imported, deleted or a loop variable. -/
  | bind (id : Node) (x : Name)
  /-- `x := e` -/
  | walrus (id : Node) (x : Name) (e : Expr)
  | both (a b : Expr)
  | lambda (defaults : Expr) (params : List (Name × Node)) (body : Expr)
  | comp (generator : Bool) (c : Comp)

/-- A comprehension without its brackets: `for target in iter if .. for .. element`. -/
inductive Comp where
  | elt (e : Expr)
  | clause (iter target ifs : Expr) (rest : Comp)

end

/-- Statements. -/
inductive Block where
  | done
  /-- `return`, `raise`, `break` or `continue`: the rest of the block is unreachable. -/
  | stop (rest : Block)
  /-- Everything without a block, for instance an assignment: first the right side, then the
  targets. -/
  | expr (e : Expr) (rest : Block)
  | global (id : Node) (x : Name) (rest : Block)
  | nonlocal (id : Node) (x : Name) (rest : Block)
  | func (id : Node) (x : Name) (defaults : Expr) (params : List (Name × Node)) (body : Block)
      (rest : Block)
  | cls (id : Node) (x : Name) (args : Expr) (body : Block) (rest : Block)
  /-- `for` and `while`, with the block after `else`. -/
  | loop (head : Expr) (body els : Block) (rest : Block)
  /-- A block of `if`, `try` or `with`. -/
  | group (b : Block) (rest : Block)

/-- `NameBinderKind`, name_binder.rs 35-43. -/
inductive Kind where
  | global | function | cls | lambda | comp
deriving DecidableEq

/-- `Unresolved`, name_binder.rs 46-58. -/
inductive Unresolved where
  | func (params : List (Name × Node)) (body : Block)
  | lambda (params : List (Name × Node)) (body : Expr)
  | comp (c : Comp)
  | name (id : Node) (x : Name)

/-- `SymbolTable`, utils.rs 118-137. -/
abbrev Table := List (Name × Node)

/-- The fields of `NameBinder` that are used for names, name_binder.rs 82-95. -/
structure Frame where
  kind : Kind
  table : Table := []
  /-- `unordered_references`, and whether they are ordered. -/
  unordered : List (Node × Name × Bool) := []
  unresolved : List Unresolved := []
  /-- `names_to_be_resolved_in_parent` -/
  toParent : List (Node × Name) := []
  /-- Names of `:=` in a comprehension; the code adds them to the scope around it at once. -/
  walruses : List (Name × Node) := []

/-- What the name binder writes down. -/
inductive Event where
  /-- The point of a name that is used redirects to a definition. -/
  | redirect (id to : Node)
  /-- The point of a `global` or `nonlocal` statement. -/
  | declare (id : Node) (to : Option Node)
  /-- `NameUsedBeforeDefinition` -/
  | usedBefore (id : Node)
  /-- The other issues of `global` and `nonlocal`. -/
  | issue (id : Node)
deriving DecidableEq

/-- The state: the current scope, and what was written down. -/
structure St where
  frame : Frame
  events : List Event := []

/-- `lookup_symbol`, utils.rs 134-136. -/
def lookup (x : Name) : Table → Option Node
  | [] => none
  | (y, d) :: t => if x = y then some d else lookup x t

/-- `add_new_definition_with_cause`, name_binder.rs 296-329: only the first definition is in the
table. -/
def define (id : Node) (x : Name) (s : St) : St :=
  match lookup x s.frame.table with
  | some _ => s
  | none => { s with frame := { s.frame with table := s.frame.table ++ [(x, id)] } }

/-- Several of them. -/
def defineAll : List (Name × Node) → St → St
  | [], s => s
  | (x, id) :: ds, s => defineAll ds (define id x s)

/-- `add_new_walrus_definition`, name_binder.rs 271-279. -/
def defineWalrus (id : Node) (x : Name) (s : St) : St :=
  match s.frame.kind with
  | .comp => { s with frame := { s.frame with walruses := s.frame.walruses ++ [(x, id)] } }
  | _ => define id x s

/-- Several of them. -/
def defineWalruses : List (Name × Node) → St → St
  | [], s => s
  | (x, id) :: ds, s => defineWalruses ds (defineWalrus id x s)

/-- `maybe_add_reference`, name_binder.rs 1679-1693. -/
def addReference (id : Node) (x : Name) (ordered : Bool) (s : St) : St :=
  match lookup x s.frame.table with
  | some d => { s with events := s.events ++ [.redirect id d] }
  | none =>
    if !ordered || s.frame.kind ≠ .cls then
      { s with frame := { s.frame with unordered := s.frame.unordered ++ [(id, x, ordered)] } }
    else { s with frame := { s.frame with toParent := s.frame.toParent ++ [(id, x)] } }

/-- The loop of `index_unordered_references`, name_binder.rs 1735-1766. -/
def flushAll : List (Node × Name × Bool) → St → St
  | [], s => s
  | (id, x, ordered) :: us, s =>
    match lookup x s.frame.table with
    | some d =>
      flushAll us { s with
        events := s.events ++ .redirect id d :: if ordered then [.usedBefore id] else [] }
    | none =>
      flushAll us { s with frame := { s.frame with toParent := s.frame.toParent ++ [(id, x)] } }

/-- `index_unordered_references`, name_binder.rs 1735-1766. -/
def flush (s : St) : St :=
  flushAll s.frame.unordered { s with frame := { s.frame with unordered := [] } }

/-- `lookup_in_global_scope`, name_binder.rs 1456-1462. -/
def lookupGlobal (x : Name) : List Frame → Option Node
  | [] => none
  | [f] => lookup x f.table
  | _ :: fs => lookupGlobal x fs

/-- `lookup_nonlocal_in_parents`, name_binder.rs 1464-1494; `none` comes with an issue. -/
def lookupNonlocal (x : Name) : List Frame → Option Node
  | [] => none
  | f :: fs =>
    if f.kind ≠ .function then none
    else
      match lookup x f.table with
      | some d => some d
      | none => lookupNonlocal x fs

/-- `NameDefParent::GlobalStmt`, name_binder.rs 1167-1212. -/
def declareGlobal (parents : List Frame) (id : Node) (x : Name) (s : St) : St :=
  match lookup x s.frame.table with
  | some _ => { s with events := s.events ++ [.issue id] }
  | none =>
    define id x { s with
      events := s.events ++ [.declare id (lookupGlobal x (s.frame :: parents))] }

/-- `NameDefParent::NonlocalStmt`, name_binder.rs 1213-1284. -/
def declareNonlocal (parents : List Frame) (id : Node) (x : Name) (s : St) : St :=
  match lookupNonlocal x parents with
  | some d =>
    match lookup x s.frame.table with
    | some _ => { s with events := s.events ++ [.issue id] }
    | none => define id x { s with events := s.events ++ [.declare id (some d)] }
  | none => define id x { s with events := s.events ++ [.issue id, .declare id none] }

/-- The end of `with_nested`, name_binder.rs 176-192: what the nested scope did not resolve. -/
def merge (s inner : St) : St :=
  defineWalruses inner.frame.walruses
    { frame := { s.frame with
        unresolved := s.frame.unresolved ++ inner.frame.toParent.map (fun r => .name r.1 r.2) ++
          inner.frame.unresolved }
      events := inner.events }

/-- The beginning of `with_nested`, name_binder.rs 166-175. -/
def enter (kind : Kind) (s : St) : St := { frame := { kind }, events := s.events }

/-- Leaves work for later. -/
def postpone (u : Unresolved) (s : St) : St :=
  { s with frame := { s.frame with unresolved := s.frame.unresolved ++ [u] } }

/-- Without the work. -/
def idle (s : St) : St := { s with frame := { s.frame with unresolved := [] } }

mutual

/-- `index_non_block_node_full`, name_binder.rs 1115-1367.  The number limits the depth of
recursion; `none` means that it was too small. -/
def indexExpr (n : Nat) (parents : List Frame) (ordered : Bool) (e : Expr) (s : St) : Option St :=
  match n with
  | 0 => none
  | n + 1 =>
    match e with
    | .empty => some s
    | .ref id x => some (addReference id x ordered s)
    | .bind id x => some (define id x s)
    | .walrus id x e => (indexExpr n parents ordered e s).map (defineWalrus id x)
    | .both a b => (indexExpr n parents ordered a s).bind (indexExpr n parents ordered b)
    | .lambda defaults params body =>
      (indexExpr n parents ordered defaults s).map (postpone (.lambda params body))
    | .comp true c => some (postpone (.comp c) s)
    | .comp false c => indexComp n parents c s

/-- `index_comprehension` and `index_comprehension_clause`, name_binder.rs 1411-1454. -/
def indexComp (n : Nat) (parents : List Frame) (c : Comp) (s : St) : Option St :=
  match n with
  | 0 => none
  | n + 1 =>
    match c with
    | .elt e => indexExpr n parents true e s
    | .clause iter target ifs rest => do
      let s ← indexExpr n parents true iter s
      let inside := s.frame :: parents
      let i ← indexExpr n inside true target (enter .comp s)
      let i ← indexExpr n inside true ifs i
      let i ← indexComp n inside rest i
      let i ← close n inside i
      some (merge s i)

/-- `index_stmts` and what it calls, name_binder.rs 404-568, 794-981 and 1557-1621. -/
def indexBlock (n : Nat) (parents : List Frame) (ordered : Bool) (b : Block) (s : St) :
    Option St :=
  match n with
  | 0 => none
  | n + 1 =>
    match b with
    | .done => some s
    | .stop rest => do
      let i ← indexBlock n (s.frame :: parents) ordered rest (enter s.frame.kind s)
      let i ← close n (s.frame :: parents) i
      some (merge s i)
    | .expr e rest => do
      let s ← indexExpr n parents ordered e s
      indexBlock n parents ordered rest s
    | .global id x rest => indexBlock n parents ordered rest (declareGlobal parents id x s)
    | .nonlocal id x rest => indexBlock n parents ordered rest (declareNonlocal parents id x s)
    | .func id x defaults params body rest => do
      let s ← indexExpr n parents ordered defaults s
      indexBlock n parents ordered rest (define id x (postpone (.func params body) s))
    | .cls id x args body rest => do
      let s ← indexExpr n parents true args s
      let i ← indexBlock n (s.frame :: parents) true body (enter .cls s)
      let i ← close n (s.frame :: parents) i
      indexBlock n parents ordered rest (define id x (merge s i))
    | .loop head body els rest => do
      let s ← indexExpr n parents ordered head s
      let s ← indexBlock n parents false body s
      let s := if ordered then flush s else s
      let s ← indexBlock n parents ordered els s
      indexBlock n parents ordered rest s
    | .group b rest => do
      let s ← indexBlock n parents ordered b s
      indexBlock n parents ordered rest s

/-- `close`, name_binder.rs 738-792. -/
def close (n : Nat) (parents : List Frame) (s : St) : Option St :=
  match n with
  | 0 => none
  | n + 1 =>
    match s.frame.kind with
    | .cls => some (flush s)
    | _ => (work n parents s.frame.unresolved (idle s)).map flush

/-- The loop of `close`, name_binder.rs 746-787: what is found on the way is done next, the last
first. -/
def work (n : Nat) (parents : List Frame) (us : List Unresolved) (s : St) : Option St :=
  match n with
  | 0 => none
  | n + 1 =>
    match us with
    | [] => some s
    | u :: us => do
      let s ← resolve n parents u s
      work n parents (s.frame.unresolved.reverse ++ us) (idle s)

/-- One round of the loop of `close`, name_binder.rs 747-786. -/
def resolve (n : Nat) (parents : List Frame) (u : Unresolved) (s : St) : Option St :=
  match n with
  | 0 => none
  | n + 1 =>
    match u with
    | .name id x =>
      match lookup x s.frame.table with
      | some d => some { s with events := s.events ++ [.redirect id d] }
      | none => some { s with frame := { s.frame with toParent := s.frame.toParent ++ [(id, x)] } }
    | .func params body => do
      let i ← indexBlock n (s.frame :: parents) true body (defineAll params (enter .function s))
      let i ← close n (s.frame :: parents) i
      some (merge s i)
    | .lambda params body => do
      let i ← indexExpr n (s.frame :: parents) true body (defineAll params (enter .lambda s))
      let i ← close n (s.frame :: parents) i
      some (merge s i)
    | .comp c => indexComp n parents c s

end

/-- `with_global_binder`, name_binder.rs 120-164, for the statements of a file. -/
def bindFile (n : Nat) (b : Block) : Option St := do
  let s ← indexBlock n [] true b { frame := { kind := .global } }
  close n [] s

end Verif.Scope
