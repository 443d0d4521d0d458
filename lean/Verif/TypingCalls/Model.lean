/-!
# `typing.cast`, `reveal_type` and `assert_type`

Model of `execute_cast`, `execute_reveal_type` and `execute_assert_type`
(`crates/zuban_python/src/type_helpers/typing.rs` 19-146 and 200-266) and of the arguments that
`ArgIterator::next` (`arguments.rs` 1082-1127, 1156-1200) hands out for them.
Types, their equality and the inference of expressions are parameters.
-/

namespace Verif.TypingCalls

/-- An expression: what it means as a type (`none` if it is not a valid type) and the type it is inferred to. -/
structure Ex (T : Type) where
  asTarget : Option T
  ty : T

/-- An argument in the source code.  `fixed n` is `*x` for a tuple of length `n`, `many` is `*x` for an iterable of
unknown length (or `**x`), `comp` a lone comprehension. -/
inductive Src (T : Type) where
  | pos (e : Ex T)
  | fixed (n : Nat)
  | many
  | kw
  | comp (e : Ex T)

/-- `ArgKind`, arguments.rs 407-445; `positional` has the 1-based position in the source code. -/
inductive Arg (T : Type) where
  | positional (position : Nat) (e : Ex T)
  | inferred (arbitrary : Bool)
  | keyword
  | comprehension (e : Ex T)

/-- The arguments from position `i` (0-based) on. -/
def argsOf {T : Type} : Nat → List (Src T) → List (Arg T)
  | _, [] => []
  | i, .pos e :: l => .positional (i + 1) e :: argsOf (i + 1) l
  | i, .fixed n :: l => List.replicate n (.inferred false) ++ argsOf (i + 1) l
  | i, .many :: l => .inferred true :: argsOf (i + 1) l
  | i, .kw :: l => .keyword :: argsOf (i + 1) l
  | i, .comp e :: l => .comprehension e :: argsOf (i + 1) l

inductive Issue (T : Type) where
  | invalidType
  | castCount
  | castPositional
  | redundant
  | tooFew
  | tooMany
  | revealPositional
  | revealed (t : T)
  | assertCount
  | assertPositional
  | mismatch (actual wanted : T)

structure Out (T : Type) where
  issues : List (Issue T)
  result : T

/-- The world: `Any` from an error, `is_equal_type`, `is_any` and the flag `warn_redundant_casts`. -/
structure World (T : Type) where
  anyErr : T
  eq : T → T → Bool
  isAny : T → Bool
  warn : Bool

/-- The variables of the loop, typing.rs 20-23, and whether the target was an invalid type. -/
structure St (T : Type) where
  result : Option T
  actual : Option T
  count : Nat
  nonPos : Bool
  invalid : Bool

/-- typing.rs 24-50 -/
def castLoop {T : Type} : List (Arg T) → St T → St T
  | [], s => s
  | .inferred true :: _, s => { s with count := 2, nonPos := true }
  | .positional p e :: l, s =>
    castLoop l (if p = 1 then { s with result := e.asTarget, invalid := e.asTarget.isNone, count := s.count + 1 }
      else { s with actual := some e.ty, count := s.count + 1 })
  | .inferred false :: l, s => castLoop l { s with nonPos := true, count := s.count + 1 }
  | .keyword :: l, s => castLoop l { s with nonPos := true, count := s.count + 1 }
  | .comprehension _ :: l, s => castLoop l { s with nonPos := true, count := s.count + 1 }

def invalidIssues {T : Type} (b : Bool) : List (Issue T) := if b then [.invalidType] else []

/-- typing.rs 64-79 -/
def redundantIssues {T : Type} (w : World T) (actual : Option T) (result : T) : List (Issue T) :=
  match actual with
  | some a => if w.warn && (w.eq a result && !w.isAny a) then [.redundant] else []
  | none => []

/-- `execute_cast`, typing.rs 19-82 -/
def cast {T : Type} (w : World T) (src : List (Src T)) : Out T :=
  let s := castLoop (argsOf 0 src) ⟨none, none, 0, false, false⟩
  if s.count = 2 then
    let r := s.result.getD w.anyErr
    ⟨invalidIssues s.invalid ++ ((if s.nonPos then [.castPositional] else []) ++ redundantIssues w s.actual r), r⟩
  else ⟨invalidIssues s.invalid ++ [.castCount], w.anyErr⟩

/-- `execute_reveal_type`, typing.rs 84-146 -/
def reveal {T : Type} (w : World T) (src : List (Src T)) : Out T :=
  match argsOf 0 src with
  | [] => ⟨[.tooFew], w.anyErr⟩
  | [.positional _ e] => ⟨[.revealed e.ty], e.ty⟩
  | [.comprehension e] => ⟨[.revealed e.ty], e.ty⟩
  | [_] => ⟨[.revealPositional], w.anyErr⟩
  | _ :: _ :: _ => ⟨[.tooMany], w.anyErr⟩

/-- `execute_assert_type`, typing.rs 200-266 -/
def assertType {T : Type} (w : World T) (src : List (Src T)) : Out T :=
  match argsOf 0 src with
  | [.positional _ a, .positional _ b] =>
    match b.asTarget with
    | none => ⟨[.invalidType], w.anyErr⟩
    | some t => ⟨if w.eq a.ty t then [] else [.mismatch a.ty t], a.ty⟩
  | [_, _] => ⟨[.assertPositional], w.anyErr⟩
  | _ => ⟨[.assertCount], w.anyErr⟩

end Verif.TypingCalls
