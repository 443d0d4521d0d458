import Verif.Backtrack.Model

/-!
# A cursor over the tokens of the file
-/

namespace Verif.Backtrack

/-- A position in the list of all tokens of the file, the positions of the backtracking points, how many tokens have
been read, and whether the last operation that moved the cursor read a token. -/
structure Cursor where
  pos : Nat
  points : List Nat
  seen : Nat
  fresh : Bool
deriving DecidableEq, Repr

/-- The operations on the cursor.  `none`: the operation is not allowed.  A backtracking point may be started only at a
token that was just read; only points since the last `stop` may be returned to; the leaf to return to has to be a
token read since the first of these points, and not empty. -/
inductive Cursor.Step (file : List Token) : Cursor → Op → Cursor → List (Option Token) → Prop
  | next {c t} : file[c.pos]? = some t → Step file c .next ⟨c.pos + 1, c.points, max c.seen (c.pos + 1), true⟩ [some t]
  | atEnd {c} : file[c.pos]? = none → Step file c .next { c with fresh := false } [none]
  | start {c} : c.fresh = true → Step file c .start { c with points := c.points ++ [c.pos - 1] } []
  | reset {c n p} : c.points[n]? = some p → Step file c (.reset n) { c with pos := p, fresh := false } []
  | lastLeaf {c q t p} : p ∈ c.points → p ≤ q → q < c.seen → file[q]? = some t → t.length ≠ 0 →
      Step file c (.lastLeaf t.start t.length) { c with pos := q + 1, fresh := false } []
  | stop {c} : Step file c .stop { c with points := [] } []

inductive Cursor.Run (file : List Token) : Cursor → List Op → List (Option Token) → Prop
  | nil {c} : Run file c [] []
  | cons {c o c' out os outs} : Step file c o c' out → Run file c' os outs → Run file c (o :: os) (out ++ outs)

/-- The tokens follow each other in the text. -/
def Ordered (file : List Token) : Prop :=
  ∀ (i j : Nat) (a b : Token), i < j → file[i]? = some a → file[j]? = some b → a.start + a.length ≤ b.start

end Verif.Backtrack
