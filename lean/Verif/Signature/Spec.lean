import Verif.Signature.Model

/-!
# What Python does with the arguments of a call

Only the types of the model are used here, none of its functions.
-/

namespace Verif.Signature.Spec

/-- The order of parameters in Python. -/
def Before : Kind → Kind → Prop
  | .posOnly, _ => True
  | .posOrKw, .posOnly => False
  | .posOrKw, _ => True
  | .star, .kwOnly => True
  | .star, .starStar => True
  | .star, _ => False
  | .kwOnly, .kwOnly => True
  | .kwOnly, .starStar => True
  | .kwOnly, _ => False
  | .starStar, _ => False

/-- A parameter that can be given as `name=...`. -/
def Named (p : Param) : Prop := p.kind = .posOrKw ∨ p.kind = .kwOnly

/-- A parameter that is filled by a position. -/
def Positional (p : Param) : Prop := p.kind = .posOnly ∨ p.kind = .posOrKw

/-- A parameter that takes any number of arguments. -/
def Variadic (p : Param) : Prop := p.kind = .star ∨ p.kind = .starStar

/-- The parameters of a Python function: they come in the right order, there is at most one `*args` and one `**kwargs`,
those that can be named have names and the names are different. -/
structure WellFormed (ps : List Param) : Prop where
  order : ps.Pairwise (fun p q => Before p.kind q.kind)
  named : ∀ p ∈ ps, Named p → ∃ n, p.name = some n
  distinct : ps.Pairwise (fun p q => Named p → Named q → p.name ≠ q.name)

/-- The argument at position `n` goes to parameter `i`. -/
def PosSlot (ps : List Param) (n i : Nat) : Prop :=
  (i = n ∧ ∃ p, ps[i]? = some p ∧ Positional p) ∨
  ((∀ p, ps[n]? = some p → ¬ Positional p) ∧ ∃ p, ps[i]? = some p ∧ p.kind = .star)

/-- The argument `n=...` goes to parameter `i`. -/
def KwSlot (ps : List Param) (n : Str) (i : Nat) : Prop :=
  (∃ p, ps[i]? = some p ∧ Named p ∧ p.name = some n) ∨
  ((∀ p ∈ ps, Named p → p.name ≠ some n) ∧ ∃ p, ps[i]? = some p ∧ p.kind = .starStar)

/-- An argument that is given by its position. -/
def IsPos : Arg → Prop
  | .pos => True
  | .posName _ => True
  | _ => False

instance : DecidablePred IsPos := fun a => by
  cases a <;> unfold IsPos <;> infer_instance

/-- An argument without stars. -/
def Plain : Arg → Prop
  | .star => False
  | .starStar => False
  | _ => True

/-- How many arguments are given by their position. -/
def positions : List Arg → Nat
  | [] => 0
  | a :: as => (if IsPos a then 1 else 0) + positions as

/-- Argument `j` of the call goes to parameter `i`. -/
def BindsTo (ps : List Param) (args : List Arg) (j i : Nat) : Prop :=
  (∃ a, args[j]? = some a ∧ IsPos a ∧ PosSlot ps (positions (args.take j)) i) ∨
  (∃ n, args[j]? = some (.kw n) ∧ KwSlot ps n i)

/-- Python accepts the arguments as the beginning of a call: each has a parameter, and no parameter gets two. -/
structure Fits (ps : List Param) (args : List Arg) : Prop where
  slot : ∀ j, j < args.length → ∃ i, BindsTo ps args j i
  once : ∀ j j' i p, BindsTo ps args j i → BindsTo ps args j' i → ps[i]? = some p → ¬ Variadic p → j = j'

/-- Parameter `i` has no argument yet, or takes any number. -/
def Free (ps : List Param) (args : List Arg) (i : Nat) : Prop :=
  ∃ p, ps[i]? = some p ∧ (Variadic p ∨ ∀ j, ¬ BindsTo ps args j i)

/-- Parameter `i` can get one more argument after `args`: as the next position if no names were used yet, or by a
name. -/
def CanBe (ps : List Param) (args : List Arg) (i : Nat) : Prop :=
  Free ps args i ∧
  ((¬ (∃ n, Arg.kw n ∈ args) ∧ PosSlot ps (positions args) i) ∨ ∃ n, KwSlot ps n i)

/-- The text of a parameter. -/
def render (p : Param) : Str :=
  (if p.kind = .star then ['*'] else if p.kind = .starStar then ['*', '*'] else []) ++
  (match p.name with
    | some n => n ++ [':', ' '] ++ p.ty
    | none => p.ty) ++
  (if p.hasDefault then [' ', '='] else [])

/-- The texts of all parameters, with `, ` between them. -/
def join : List Str → Str
  | [] => []
  | [x] => x
  | x :: y :: xs => x ++ [',', ' '] ++ join (y :: xs)

/-- What is marked of a parameter: its name, or its type if it has none. -/
def shown (p : Param) : Str := p.name.getD p.ty

/-- The stars in front of a parameter. -/
def starsOf (p : Param) : Str := if p.kind = .star then ['*'] else if p.kind = .starStar then ['*', '*'] else []

/-- What is written for an argument. -/
def meaning : Leaf → Arg
  | .kwarg n => .kw n
  | .errKwarg n true => .kw n
  | .errKwarg n false => .posName n
  | .name n => .posName n
  | .starred => .star
  | .doubleStarred => .starStar
  | _ => .pos

/-- The children of a node: arguments with the ends of the commas after them, and a last argument without a comma. -/
def layout : List (Leaf × Nat) → Option Leaf → List Leaf
  | [], none => []
  | [], some l => [l]
  | (l, e) :: w, last => l :: .comma e :: layout w last

/-- The last argument.  After a comma it is still empty. -/
def lastArg : Option Leaf → Arg
  | none => .pos
  | some l => meaning l

/-- The leaf is an argument. -/
def IsArg (l : Leaf) : Prop := ∀ e, l ≠ .comma e

/-- How many commas are before the cursor. -/
def commas (position : Nat) (w : List (Leaf × Nat)) : Nat := (w.filter (fun x => decide (x.2 ≤ position))).length

/-- The code units of a character in UTF-16: one, or a high and a low surrogate. -/
def encode16 (c : Char) : List Nat :=
  if c.toNat ≤ 0xFFFF then [c.toNat]
  else [0xD800 + (c.toNat - 0x10000) / 0x400, 0xDC00 + (c.toNat - 0x10000) % 0x400]

/-- The text as clients count it. -/
def utf16 (s : List Char) : List Nat := s.flatMap encode16

end Verif.Signature.Spec
