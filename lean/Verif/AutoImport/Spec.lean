import Verif.AutoImport.Model

/-!
# What auto imports should do
-/

namespace Verif.AutoImport.Spec

/-! ## The grammar of the targets -/

/-- A name that is imported, and its alias. -/
abbrev Target := List Char × Option (List Char)

def IsName (n : List Char) : Prop := n ≠ [] ∧ ∀ c ∈ n, c ≠ '(' ∧ c ≠ ')' ∧ c ≠ ',' ∧ c ≠ '*' ∧ c ≠ ' '

inductive Item : List (List Char) → Target → Prop
  | plain (n : List Char) : IsName n → Item [n] (n, none)
  | as (n m : List Char) : IsName n → IsName m → Item [n, "as".toList, m] (n, some m)

inductive Items : List (List Char) → List Target → Prop
  | one {ts : List (List Char)} {t : Target} : Item ts t → Items ts [t]
  | snoc {us ts : List (List Char)} {rest : List Target} {t : Target} :
      Items us rest → Item ts t → Items (us ++ [','] :: ts) (rest ++ [t])

/-- The targets of an import that are no star, as leaves. -/
inductive Targets : List (List Char) → List Target → Prop
  | plain {ts : List (List Char)} {l : List Target} : Items ts l → Targets ts l
  | paren {ts : List (List Char)} {l : List Target} : Items ts l → Targets (['('] :: ts ++ [[')']]) l
  | comma {ts : List (List Char)} {l : List Target} : Items ts l → Targets (['('] :: ts ++ [[','], [')']]) l

/-! ## The tree of an import -/

/-- The children for names and commas. -/
inductive Kids : List Child → List Target → Prop
  | one {c : Child} {t : Target} : Item (c.map Leaf.text) t → Kids [c] [t]
  | snoc {cs : List Child} {p : List Char} {c : Child} {l : List Target} {t : Target} :
      Kids cs l → Item (c.map Leaf.text) t → Kids (cs ++ [[⟨p, [',']⟩], c]) (l ++ [t])

/-- The tree of an import that is no star. -/
inductive Tree : List Child → List Target → Prop
  | plain {cs : List Child} {l : List Target} : Kids cs l → Tree cs l
  | paren {p q : List Char} {cs : List Child} {l : List Target} :
      Kids cs l → Tree ([⟨p, ['(']⟩] :: cs ++ [[⟨q, [')']⟩]]) l
  | comma {p q r : List Char} {cs : List Child} {l : List Target} :
      Kids cs l → Tree ([⟨p, ['(']⟩] :: cs ++ [[⟨r, [',']⟩], [⟨q, [')']⟩]]) l

/-! ## Execution -/

/-- Conditions with the branch that a node is in. -/
abbrev Guards := List (Nat × Bool)

/-- Which nodes are in which branches. -/
structure Prog where
  guards : Nat → Guards

/-- A node is executed if all conditions have the right value. -/
def Runs (p : Prog) (env : Nat → Bool) (node : Nat) : Prop := ∀ g ∈ p.guards node, env g.1 = g.2

/-- Where the name is used, and when: for a function this is when it is called. -/
structure Use where
  index : Nat
  inFunction : Bool
  time : Nat

def Use.Ok (u : Use) : Prop := u.inFunction = false → u.time = u.index

/-- The import is executed before the name is used, in all executions. -/
def Bound (p : Prog) (u : Use) (i : Imp) : Prop :=
  ∀ env : Nat → Bool, Runs p env u.index → Runs p env i.index ∧ i.index < u.time

/-! ## Statements -/

/-- The position is at the beginning of a line. -/
def AtLineStart (t : List Char) : Prop := t = [] ∨ t.getLast? = some '\n'

/-- The statement `line`, between others. -/
def newStmt (pre line : List Char) : Stmt := ⟨pre, .simple ⟨line, .other⟩ [] [], ['\n']⟩

/-- A statement without anything but imports or strings. -/
def Quiet (s : Stmt) : Prop :=
  ∃ first more tail, s.body = .simple first more tail ∧ ∀ x ∈ first :: more.map (·.2), x.kind ≠ .other

/-- The new text is the old one with the statement `line` before a statement `s`. Otherwise only newlines are added; before
the new statement there are only imports and strings. -/
def Added (stmts : List Stmt) (endPre line text : List Char) : Prop :=
  ∃ (A : List Stmt) (s : Stmt) (B : List Stmt) (p q nls more : List Char), stmts = A ++ s :: B ∧ s.pre = p ++ q ∧
    text = render (A ++ newStmt (p ++ nls) line :: { s with pre := more ++ q } :: B) endPre ∧
    AtLineStart (A.flatMap Stmt.text ++ p) ∧ (∀ c ∈ nls ++ more, c = '\n') ∧ ∀ a ∈ A, Quiet a

/-- First the standard library, then third party packages, then the project. -/
def NotAfter (a b : Kind) : Prop := a = b ∨ a = .stdLib ∨ b = .project

instance (a b : Kind) : Decidable (NotAfter a b) := by unfold NotAfter; infer_instance

/-- The kinds of the imports of a statement. -/
def kinds (s : Stmt) : List Kind :=
  match s.body with
  | .simple first more _ => (first :: more.map (·.2)).filterMap fun x =>
    match x.kind with
    | .imp k => k
    | _ => none
  | .compound _ => []

/-- One import per line, or a string; the newline ends with `\n`. -/
structure Plain (s : Stmt) : Prop where
  body : ∃ first tail, s.body = .simple first [] tail ∧ first.kind ≠ .other ∧ '\n' ∉ tail ∧ first.text ≠ []
  nl : s.nl = ['\n'] ∨ s.nl = ['\r', '\n']
  pre : AtLineStart s.pre

/-- A statement that ends the imports at the beginning. -/
def Stops (i : Nat) (s : Stmt) : Prop :=
  match s.body with
  | .simple first _ _ => first.kind = .other ∨ (first.kind = .str ∧ i ≠ 0)
  | .compound _ => True

/-- A file with imports at the beginning and other statements after them. -/
structure File (init : List Stmt) (s : Stmt) : Prop where
  plain : ∀ x ∈ init, Plain x
  /-- a string is only at the beginning -/
  str : ∀ x ∈ init.tail, ∀ first more tail, x.body = .simple first more tail → first.kind ≠ .str
  stops : Stops init.length s
  pre : AtLineStart s.pre

end Verif.AutoImport.Spec
