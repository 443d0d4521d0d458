import Verif.Scope.Spec

/-! # The programs covered

Every name that is bound in a scope is bound before it is used there, if the scope is a class or has
loops.  In a loop, names that are bound anywhere in the loop may be used.  There is no `:=` in a
generator expression, no unreachable code, no `global` or `nonlocal` in a class or after a use of
the name, and generator expressions in classes iterate over nothing that is defined in the class. -/

namespace Verif.Scope

def names (ds : List (Name × Node)) : List Name := ds.map Prod.fst

/-- Whether a name may be used in a scope.  `above` are the names bound before, `soon` those that
are bound in the loop around it.  If `quiet`, this matters for all scopes. -/
def MayUse (quiet : Bool) (S : Scope) (ordered : Bool) (above : List Name)
    (soon : Option (List Name)) (x : Name) : Prop :=
  (quiet = true ∨ S.kind = .cls ∨ S.loops = true) → x ∈ S.names →
    if ordered = true ∧ (quiet = true ∨ S.kind = .cls) then x ∈ above else x ∈ soon.getD above

mutual

/-- The names used in the scope itself. -/
def Expr.direct : Expr → List Name
  | .empty | .bind _ _ => []
  | .ref _ x => [x]
  | .walrus _ _ e => e.direct
  | .both a b => a.direct ++ b.direct
  | .lambda defaults _ _ => defaults.direct
  | .comp _ c => c.direct

/-- The names used in the scope around a comprehension. -/
def Comp.direct : Comp → List Name
  | .elt e => e.direct
  | .clause iter _ _ _ => iter.direct

end

/-- A scope without names. -/
def nowhere : Scope := ⟨.global, [], false⟩

mutual

/-- Expressions that are covered. -/
def Expr.Tame (quiet : Bool) (S : Scope) (ordered : Bool) (above : List Name)
    (soon : Option (List Name)) : Expr → Prop
  | .empty | .bind _ _ => True
  | .ref _ x => MayUse quiet S ordered above soon x
  | .walrus _ _ e => e.Tame quiet S ordered above soon
  | .both a b => a.Tame quiet S ordered above soon ∧
      b.Tame quiet S ordered (above ++ names (a.binds S.kind)) soon
  | .lambda defaults params body => defaults.Tame quiet S ordered above soon ∧
      body.Tame quiet (lambdaScope params body) true (names params) none
  | .comp false c => c.Tame quiet S above soon
  | .comp true c => c.walruses = [] ∧ c.outer = [] ∧
      (S.kind = .cls → ∀ x ∈ c.direct, x ∉ S.names) ∧ c.Tame quiet nowhere [] none

/-- Comprehensions that are covered. -/
def Comp.Tame (quiet : Bool) (S : Scope) (above : List Name) (soon : Option (List Name)) :
    Comp → Prop
  | .elt e => e.Tame quiet S true above soon
  | .clause iter target ifs rest => iter.Tame quiet S true above soon ∧
      target.Tame quiet (clauseScope target ifs rest) true [] none ∧
      ifs.Tame quiet (clauseScope target ifs rest) true (names (target.binds .comp)) none ∧
      rest.Tame quiet (clauseScope target ifs rest)
        (names (target.binds .comp) ++ names (ifs.binds .comp)) none

end

/-- Statements that are covered. -/
def Block.Tame (quiet : Bool) (S : Scope) (above : List Name) (soon : Option (List Name)) :
    Block → Prop
  | .done => True
  | .stop rest => rest = .done
  | .expr e rest => e.Tame quiet S soon.isNone above soon ∧
      rest.Tame quiet S (above ++ names (e.binds .function)) soon
  | .global _ x rest | .nonlocal _ x rest => S.kind = .function ∧ x ∉ above ∧
      rest.Tame quiet S (above ++ [x]) soon
  | .func _ x defaults params body rest => defaults.Tame quiet S soon.isNone above soon ∧
      body.Tame quiet (funcScope params body) (names params) none ∧
      rest.Tame quiet S (above ++ names (defaults.binds .function) ++ [x]) soon
  | .cls _ x args body rest => args.Tame quiet S true above soon ∧
      body.Tame quiet (classScope body) [] none ∧
      rest.Tame quiet S (above ++ names (args.binds .function) ++ [x]) soon
  | .loop head body els rest => head.Tame quiet S soon.isNone above soon ∧
      body.Tame quiet S (above ++ names (head.binds .function))
        (some (soon.getD (above ++ names (head.binds .function) ++ names body.binds))) ∧
      els.Tame quiet S (above ++ names (head.binds .function) ++ names body.binds) soon ∧
      rest.Tame quiet S
        (above ++ names (head.binds .function) ++ names body.binds ++ names els.binds) soon
  | .group b rest => b.Tame quiet S above soon ∧ rest.Tame quiet S (above ++ names b.binds) soon

/-- Files that are covered. -/
def FileTame (quiet : Bool) (b : Block) : Prop := b.Tame quiet (moduleScope b) [] none

end Verif.Scope
