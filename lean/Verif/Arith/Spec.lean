import Verif.Arith.Model

/-!
# Arithmetic in Python (specification)

What the language reference says about the operators of `int`, `bool`, `str` and `bytes`. Nothing
here uses the functions of the model.
-/

namespace Verif.Arith

/-- What happens if an operator is evaluated. -/
inductive Eval where
  | value (l : Lit)
  | float
  | zeroDivision
  /-- `ValueError`: negative shift count -/
  | negativeShift
  /-- `OverflowError` or `MemoryError` -/
  | tooLarge
  deriving DecidableEq

/-- The bit number `i` of a number in two's complement with an infinite number of sign bits. -/
def bit (n : Int) (i : Nat) : Prop := (n / 2 ^ i) % 2 = 1

/-- The operators of `int` (comparisons and `@` are not among them). `x // y` is rounded towards
minus infinity and `x % y` is `x - (x // y) * y`. -/
inductive IntEval : Int → Op → Int → Eval → Prop
  | add {l r : Int} : IntEval l .add r (.value (.int (l + r)))
  | sub {l r : Int} : IntEval l .sub r (.value (.int (l - r)))
  | mul {l r : Int} : IntEval l .mul r (.value (.int (l * r)))
  | div {l r : Int} : r ≠ 0 → IntEval l .div r .float
  /-- a quotient that is too large for a float -/
  | divLarge {l r : Int} : r ≠ 0 → IntEval l .div r .tooLarge
  | divZero {l : Int} : IntEval l .div 0 .zeroDivision
  | floordiv {l r q : Int} : r ≠ 0 → (0 < r → q * r ≤ l ∧ l < (q + 1) * r) →
      (r < 0 → q * r ≥ l ∧ l > (q + 1) * r) → IntEval l .floordiv r (.value (.int q))
  | floordivZero {l : Int} : IntEval l .floordiv 0 .zeroDivision
  | mod {l r m : Int} : r ≠ 0 → (∃ (q : Int), l = q * r + m) → (0 < r → 0 ≤ m ∧ m < r) →
      (r < 0 → r < m ∧ m ≤ 0) → IntEval l .mod r (.value (.int m))
  | modZero {l : Int} : IntEval l .mod 0 .zeroDivision
  | pow {l : Int} {n : Nat} : IntEval l .pow n (.value (.int (l ^ n)))
  | powNegative {l r : Int} : r < 0 → l ≠ 0 → IntEval l .pow r .float
  | powZero {r : Int} : r < 0 → IntEval 0 .pow r .zeroDivision
  | shl {l : Int} {n : Nat} : IntEval l .shl n (.value (.int (l * 2 ^ n)))
  | shlNegative {l r : Int} : r < 0 → IntEval l .shl r .negativeShift
  | shr {l q : Int} {n : Nat} : q * 2 ^ n ≤ l → l < (q + 1) * 2 ^ n →
      IntEval l .shr n (.value (.int q))
  | shrNegative {l r : Int} : r < 0 → IntEval l .shr r .negativeShift
  | or {l r n : Int} : (∀ (i : Nat), bit n i ↔ bit l i ∨ bit r i) → IntEval l .or r (.value (.int n))
  | and {l r n : Int} : (∀ (i : Nat), bit n i ↔ bit l i ∧ bit r i) →
      IntEval l .and r (.value (.int n))
  | xor {l r n : Int} : (∀ (i : Nat), bit n i ↔ ¬ (bit l i ↔ bit r i)) →
      IntEval l .xor r (.value (.int n))

/-- `True` is 1 and `False` is 0. -/
inductive IsInt : Lit → Int → Prop
  | int {n : Int} : IsInt (.int n) n
  | true : IsInt (.bool true) 1
  | false : IsInt (.bool false) 0

/-- The sequence is repeated; a negative number counts as zero, and a number that has more than 64
bits is an error. -/
inductive Repeats {α : Type} (s : List α) (mk : List α → Lit) : Int → Eval → Prop
  | nonneg {n : Nat} : n < 2 ^ 63 → Repeats s mk n (.value (mk (List.replicate n s).flatten))
  | negative {n : Int} : n < 0 → -(2 ^ 63) ≤ n → Repeats s mk n (.value (mk []))
  | tooLarge {n : Int} : ¬ (-(2 ^ 63) ≤ n ∧ n < 2 ^ 63) → Repeats s mk n .tooLarge
  /-- there is not enough memory -/
  | memory {n : Int} : s ≠ [] → Repeats s mk n .tooLarge

/-- What an operator of Python does with two literals. -/
inductive Evals : Lit → Op → Lit → Eval → Prop
  | int {a b : Lit} {l r : Int} {op : Op} {e : Eval} : IsInt a l → IsInt b r → IntEval l op r e →
      ¬ (∃ (x y : Bool), a = .bool x ∧ b = .bool y ∧ (op = .or ∨ op = .and ∨ op = .xor)) →
      Evals a op b e
  | boolOr {a b : Bool} : Evals (.bool a) .or (.bool b) (.value (.bool (a || b)))
  | boolAnd {a b : Bool} : Evals (.bool a) .and (.bool b) (.value (.bool (a && b)))
  | boolXor {a b : Bool} : Evals (.bool a) .xor (.bool b) (.value (.bool (a ^^ b)))
  | addStr {a b : List Char} : Evals (.str a) .add (.str b) (.value (.str (a ++ b)))
  | addBytes {a b : List Nat} : Evals (.bytes a) .add (.bytes b) (.value (.bytes (a ++ b)))
  | mulStr {s : List Char} {a : Lit} {n : Int} {e : Eval} : IsInt a n → Repeats s .str n e →
      Evals (.str s) .mul a e
  | strMul {s : List Char} {a : Lit} {n : Int} {e : Eval} : IsInt a n → Repeats s .str n e →
      Evals a .mul (.str s) e
  | mulBytes {s : List Nat} {a : Lit} {n : Int} {e : Eval} : IsInt a n → Repeats s .bytes n e →
      Evals (.bytes s) .mul a e
  | bytesMul {s : List Nat} {a : Lit} {n : Int} {e : Eval} : IsInt a n → Repeats s .bytes n e →
      Evals a .mul (.bytes s) e

/-- The value has the type; an `int` is not always a literal, and `bool` is a subclass of `int`. -/
def Out.Has : Out → Eval → Prop
  | .lit l, .value v => v = l
  | .int, .value (.int _) => True
  | .int, .value (.bool _) => True
  | .float, .float => True
  | .bytes, .value (.bytes _) => True
  | .literalString, .value (.str _) => True
  | _, _ => False

/-- The evaluation ends with a value. -/
def Eval.ok : Eval → Prop
  | .value _ => True
  | .float => True
  | _ => False

end Verif.Arith
