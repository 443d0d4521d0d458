import Verif.Contains.Model

/-!
# Values and `in`
-/

namespace Verif.Contains.Spec

inductive Val where
  | none
  | str (s : String)
  | inst (c : Nat)
  /-- A dictionary, with its keys -/
  | dict (keys : List String)
deriving DecidableEq, Repr

/-- What is known about classes and type variables. -/
structure Env where
  /-- Instances of a class are instances of another one. -/
  sub : Nat → Nat → Prop
  /-- The values of a type variable -/
  vars : Nat → Val → Prop
  /-- `x in y` for a value `y` that is no dictionary -/
  inOther : Val → Val → Prop

/-- A dictionary fits a typed dict: required keys are there; others are not, if it is final. -/
def Fits (d : TDef) (keys : List String) : Prop :=
  (∀ m ∈ d.members, m.2 = true → m.1 ∈ keys) ∧
  (d.final = true → ∀ k ∈ keys, ∃ m ∈ d.members, m.1 = k)

def HasAtom (w : World) (e : Env) (v : Val) : Atom → Prop
  | .none => v = .none
  | .lit s => v = .str s
  | .str => ∃ s, v = .str s
  | .cls c => ∃ d, v = .inst d ∧ e.sub d c
  | .any => True
  | .object => True
  | .typeVar n => e.vars n v
  | .td n => ∃ keys, v = .dict keys ∧ Fits (w.tds n) keys

def HasType (w : World) (e : Env) (v : Val) (t : Ty) : Prop := ∃ a ∈ t, HasAtom w e v a

/-- A value in a dictionary: it is one of the keys. -/
def InDict (v : Val) (keys : List String) : Prop := ∃ s ∈ keys, v = .str s

/-- What the right side is: something with items, or any other value. -/
inductive CVal where
  | items (vs : List Val)
  | val (v : Val)

def HasContainer (w : World) (e : Env) : CVal → Container → Prop
  | .items vs, .known t => ∀ v ∈ vs, HasType w e v t
  | .items vs, .tuple t => ∀ v ∈ vs, HasType w e v t
  | .val v, .other t => HasType w e v t
  | _, _ => False

/-- `x in y` -/
def In (e : Env) (x : Val) : CVal → Prop
  | .items vs => x ∈ vs
  | .val (.dict keys) => InDict x keys
  | .val y => e.inOther x y

/-- The first branch is executed. -/
def First (op : Op) (isIn : Prop) : Prop :=
  match op with
  | .in_ => isIn
  | .notIn => ¬ isIn

/-- The types in the branches are right. -/
def Right (w : World) (e : Env) (op : Op) (x : Val) (y : CVal) (fr : Frames) : Prop :=
  (First op (In e x y) → HasType w e x fr.left.1 ∧ ∀ v, y = .val v → HasType w e v fr.right.1) ∧
  (¬ First op (In e x y) → HasType w e x fr.left.2 ∧ ∀ v, y = .val v → HasType w e v fr.right.2)

end Verif.Contains.Spec
