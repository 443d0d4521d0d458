import Verif.Scope.Model

/-! # The scopes of Python

Which variable a name means, following the section "Resolution of names" of the Python reference:
a name that is bound anywhere in a block is local to it; other names belong to the nearest enclosing
scope that binds them, where classes around it do not count.  Each `for` of a comprehension is a
scope of its own here, inside of the one before. -/

namespace Verif.Scope

/-- A scope and everything that is bound in it. -/
structure Scope where
  kind : Kind
  binders : List (Name × Node)
  /-- Whether there is a loop in it. -/
  loops : Bool := false
deriving DecidableEq

abbrev Ctx := List Scope

/-- The names bound in a scope. -/
def Scope.names (S : Scope) : List Name := S.binders.map Prod.fst

/-- What nested scopes see: the scope itself, unless it is a class. -/
def visible : Ctx → Ctx
  | [] => []
  | S :: C => if S.kind = .cls then C else S :: C

mutual

/-- The names of `:=`, which are bound in the scope around comprehensions. -/
def Expr.walruses : Expr → List (Name × Node)
  | .empty | .ref _ _ | .bind _ _ => []
  | .walrus id x e => e.walruses ++ [(x, id)]
  | .both a b => a.walruses ++ b.walruses
  | .lambda defaults _ _ => defaults.walruses
  | .comp _ c => c.walruses

/-- The names of `:=` in a comprehension. -/
def Comp.walruses : Comp → List (Name × Node)
  | .elt e => e.walruses
  | .clause iter target ifs rest =>
    iter.walruses ++ target.walruses ++ ifs.walruses ++ rest.walruses

end

mutual

/-- The other names that are bound. -/
def Expr.targets : Expr → List (Name × Node)
  | .empty | .ref _ _ => []
  | .bind id x => [(x, id)]
  | .walrus _ _ e => e.targets
  | .both a b => a.targets ++ b.targets
  | .lambda defaults _ _ => defaults.targets
  | .comp _ c => c.outer

/-- The names that are bound by a comprehension in the scope around it. -/
def Comp.outer : Comp → List (Name × Node)
  | .elt e => e.targets
  | .clause iter _ _ _ => iter.targets

end

/-- What an expression binds in a scope of some kind. -/
def Expr.binds (k : Kind) (e : Expr) : List (Name × Node) :=
  match k with
  | .comp => e.targets
  | _ => e.targets ++ e.walruses

/-- What a comprehension binds in a scope of some kind. -/
def Comp.binds (k : Kind) (c : Comp) : List (Name × Node) :=
  match k with
  | .comp => c.outer
  | _ => c.outer ++ c.walruses

/-- What statements bind in their scope. -/
def Block.binds : Block → List (Name × Node)
  | .done => []
  | .stop rest => rest.binds
  | .expr e rest => e.binds .function ++ rest.binds
  | .global id x rest | .nonlocal id x rest => (x, id) :: rest.binds
  | .func id x defaults _ _ rest => defaults.binds .function ++ (x, id) :: rest.binds
  | .cls id x args _ rest => args.binds .function ++ (x, id) :: rest.binds
  | .loop head body els rest =>
    head.binds .function ++ body.binds ++ els.binds ++ rest.binds
  | .group b rest => b.binds ++ rest.binds

/-- Whether there is a loop directly in the scope. -/
def Block.loops : Block → Bool
  | .done => false
  | .stop rest | .expr _ rest | .global _ _ rest | .nonlocal _ _ rest | .func _ _ _ _ _ rest
  | .cls _ _ _ _ rest => rest.loops
  | .loop _ _ _ _ => true
  | .group b rest => b.loops || rest.loops

def moduleScope (b : Block) : Scope := ⟨.global, b.binds, b.loops⟩
def funcScope (params : List (Name × Node)) (body : Block) : Scope :=
  ⟨.function, params ++ body.binds, body.loops⟩
def classScope (body : Block) : Scope := ⟨.cls, body.binds, body.loops⟩
def lambdaScope (params : List (Name × Node)) (body : Expr) : Scope :=
  ⟨.lambda, params ++ body.binds .lambda, false⟩
def clauseScope (target ifs : Expr) (rest : Comp) : Scope :=
  ⟨.comp, target.binds .comp ++ ifs.binds .comp ++ rest.binds .comp, false⟩

/-- The nearest scope that binds a name. -/
def meaning (C : Ctx) (x : Name) : Option Scope := C.find? fun S => x ∈ S.names

/-- The nearest function that binds a name. -/
def nonlocalMeaning (C : Ctx) (x : Name) : Option Scope :=
  (C.filter fun S => S.kind = .function).find? fun S => x ∈ S.names

/-- The module, if it binds a name. -/
def globalMeaning (C : Ctx) (x : Name) : Option Scope :=
  (C.filter fun S => S.kind = .global).find? fun S => x ∈ S.names

/-- An occurrence of a name and the scope of the variable that it means, `none` if it is a builtin
or not defined. -/
inductive Use where
  | ref (id : Node) (x : Name) (scope : Option Scope)
  /-- In a `global` statement. -/
  | global (id : Node) (x : Name) (scope : Option Scope)
  /-- In a `nonlocal` statement. -/
  | nonlocal (id : Node) (x : Name) (scope : Option Scope)
deriving DecidableEq

mutual

/-- All names that are used in an expression. -/
def Expr.uses (C : Ctx) : Expr → List Use
  | .empty | .bind _ _ => []
  | .ref id x => [.ref id x (meaning C x)]
  | .walrus _ _ e => e.uses C
  | .both a b => a.uses C ++ b.uses C
  | .lambda defaults params body =>
    defaults.uses C ++ body.uses (lambdaScope params body :: visible C)
  | .comp _ c => c.uses C

/-- All names that are used in a comprehension. -/
def Comp.uses (C : Ctx) : Comp → List Use
  | .elt e => e.uses C
  | .clause iter target ifs rest =>
    let inner := clauseScope target ifs rest :: visible C
    iter.uses C ++ target.uses inner ++ ifs.uses inner ++ rest.uses inner

end

/-- All names that are used in statements. -/
def Block.uses (C : Ctx) : Block → List Use
  | .done => []
  | .stop rest => rest.uses C
  | .expr e rest => e.uses C ++ rest.uses C
  | .global id x rest => .global id x (globalMeaning C x) :: rest.uses C
  | .nonlocal id x rest => .nonlocal id x (nonlocalMeaning (C.drop 1) x) :: rest.uses C
  | .func _ _ defaults params body rest =>
    defaults.uses C ++ body.uses (funcScope params body :: visible C) ++ rest.uses C
  | .cls _ _ args body rest =>
    args.uses C ++ body.uses (classScope body :: visible C) ++ rest.uses C
  | .loop head body els rest =>
    head.uses C ++ body.uses C ++ els.uses C ++ rest.uses C
  | .group b rest => b.uses C ++ rest.uses C

/-- All names that are used in a file. -/
def fileUses (b : Block) : List Use := b.uses [moduleScope b]

/-- What should be written down for a name. -/
inductive Right : Use → Event → Prop where
  | ref {id x S d} : (x, d) ∈ Scope.binders S → Right (.ref id x (some S)) (.redirect id d)
  | global {id x S d} : (x, d) ∈ Scope.binders S →
      Right (.global id x (some S)) (.declare id (some d))
  | globalNone {id x} : Right (.global id x none) (.declare id none)
  | nonlocal {id x S d} : (x, d) ∈ Scope.binders S →
      Right (.nonlocal id x (some S)) (.declare id (some d))
  | nonlocalNone {id x} : Right (.nonlocal id x none) (.declare id none)

end Verif.Scope
