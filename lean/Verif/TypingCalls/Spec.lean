import Verif.TypingCalls.Model

/-! # What the arguments of a call are, apart from how they are iterated -/

namespace Verif.TypingCalls

/-- The call passes exactly the given expressions by position: everything else in the call is an empty tuple. -/
inductive Passes {T : Type} : List (Src T) → List (Ex T) → Prop where
  | nil : Passes [] []
  | pos {e l es} : Passes l es → Passes (.pos e :: l) (e :: es)
  | empty {l es} : Passes l es → Passes (.fixed 0 :: l) es

end Verif.TypingCalls
