import Verif.Call.Model

/-!
# Comparing the parameters of two callables

`matches_simple_params` in crates/zuban_python/src/params.rs: can a function with parameters `params2` be used where one
with parameters `params1` is expected?

Not modelled: `ParamSpec`, `TypeVarTuple` and unpacked tuples (`*args: *Ts`), `**kwargs: Unpack[TD]`, and the
inside of types: comparing two types is a parameter of the model.
-/

namespace Verif.Callable

open Verif.Call

variable {τ : Type}

/-- What the comparison depends on.  `ok t1 t2` is `match_` (params.rs 165-176), a value for a parameter of type `t1` can
be given to one of type `t2`; `inv` is the same with `Variance::Invariant`; `isAny` is the closure in
`is_trivial_suffix` (705-712).  The flags are those of the `Matcher`. -/
structure Cfg (τ : Type) where
  ok : τ → τ → Bool
  inv : τ → τ → Bool
  isAny : τ → Bool
  ignoreNames : Bool := false
  precise : Bool := false

/-- The state of the loop in `matches_simple_params_part2`, params.rs 178-182: parameters of `params2` that were passed
over, the names that differed, and the `*args` that was matched before. -/
structure St (τ : Type) where
  unused : List (Param τ) := []
  names1 : List (Option String) := []
  names2 : List (Option String) := []
  previous : Option (Param τ) := none

/-- `ParamKind::Star | ParamKind::StarStar`. -/
def many (p : Param τ) : Bool := p.kind == .star || p.kind == .starStar

/-- The loop over `rest_specifics` in `is_trivial_suffix`, params.rs 727-735: the first `**kwargs` decides. -/
def suffixDouble (c : Cfg τ) : List (Param τ) → Option Bool
  | [] => none
  | p :: ps => if p.kind = .starStar then some (c.isAny p.ty) else suffixDouble c ps

/-- `is_trivial_suffix`, params.rs 685-736. -/
def trivialSuffix (c : Cfg τ) (previous : Option (Param τ)) (p1 : Param τ) (rest1 ps2 : List (Param τ)) : Bool :=
  let star := previous.getD p1
  let rest := if previous.isSome then p1 :: rest1 else rest1
  if star.kind != .star then false
  else
    match suffixDouble c rest with
    | some b => b
    | none => rest.isEmpty && c.isAny star.ty &&
        ps2.all fun p => p.kind == .posOnly || p.kind == .posOrKw || p.kind == .star

/-- The loop for `*args` that has to take a parameter with a name, params.rs 290-336. -/
def behindStar (c : Cfg τ) (p1 s2 : Param τ) : List (Param τ) → Bool
  | [] => false
  | p :: ps =>
    match p.kind with
    | .starStar => c.inv s2.ty p.ty
    | .kwOnly =>
      if p.name = p1.name then (if p.hasDefault then c.ok p1.ty p.ty else false)
      else behindStar c p1 s2 ps
    | _ => false

/-- `unused_keyword_params.remove(i)` for the first one with the name, params.rs 370-381. -/
def takeNamed (n : Option String) : List (Param τ) → Option (Param τ × List (Param τ))
  | [] => none
  | p :: ps => if n = p.name then some (p, ps) else (takeNamed n ps).map fun r => (r.1, p :: r.2)

/-- The loop for a keyword-only parameter, params.rs 382-427: the parameter that was found, the rest of `params2` after
it, and `unused_keyword_params`. -/
def scan (p1 : Param τ) : List (Param τ) → List (Param τ) → Option (Param τ × List (Param τ) × List (Param τ))
  | [], _ => none
  | p :: ps, unused =>
    if p1.name = p.name ∧ (p.kind = .posOrKw ∨ p.kind = .kwOnly) then some (p, ps, unused)
    else
      match p.kind with
      | .posOrKw => scan p1 ps (unused ++ [p])
      | .kwOnly => scan p1 ps (unused ++ [p])
      | .starStar => some (p, ps, unused)
      | .star => scan p1 ps unused
      | .posOnly => if p.hasDefault then scan p1 ps unused else none

/-- `match_star_star`, params.rs 632-683. -/
def matchStarStar (c : Cfg τ) (p1 : Param τ) (ps2 : List (Param τ)) : Bool :=
  ps2.any (fun p => p.kind == .starStar) && ps2.all fun p =>
    match p.kind with
    | .starStar => c.ok p1.ty p.ty
    | .posOrKw => p.hasDefault && c.ok p1.ty p.ty
    | .kwOnly => p.hasDefault && c.ok p1.ty p.ty
    | .star => true
    | .posOnly => p.hasDefault

/-- `matches_simple_params_part2`, params.rs 149-630.  `matches &= ..` is a conjunction here: a mismatch is never taken
back. -/
def loop (c : Cfg τ) : List (Param τ) → List (Param τ) → St τ → Bool
  | [], ps2, st => st.unused.all (fun p => p.hasDefault) && ps2.all fun p => p.hasDefault || many p
  | p1 :: ps1, ps2, st =>
    match ps2.head? <|> st.unused.head? with
    | none => !c.precise && trivialSuffix c st.previous p1 ps1 ps2
    | some p2 =>
      if p1.hasDefault && !(p2.hasDefault || many p2) then false
      else
        match p1.kind with
        | .posOnly =>
          match p2.kind with
          | .posOnly => c.ok p1.ty p2.ty && loop c ps1 ps2.tail st
          | .posOrKw => c.ok p1.ty p2.ty && loop c ps1 ps2.tail st
          | .star => c.ok p1.ty p2.ty && loop c ps1 ps2 st
          | _ => false
        | .posOrKw =>
          match p2.kind with
          | .posOrKw =>
            if p1.name = p2.name then c.ok p1.ty p2.ty && loop c ps1 ps2.tail st
            else if c.ignoreNames then
              !(st.names2.contains p1.name) && !(st.names1.contains p2.name) && c.ok p1.ty p2.ty &&
                loop c ps1 ps2.tail { st with names1 := st.names1 ++ [p1.name], names2 := st.names2 ++ [p2.name] }
            else false
          | .star => c.ok p1.ty p2.ty && behindStar c p1 p2 ps2.tail && loop c ps1 ps2 st
          | .posOnly => c.ignoreNames && c.ok p1.ty p2.ty && loop c ps1 ps2.tail st
          | _ => false
        | .kwOnly =>
          let ps2' := if p2.kind = .star then ps2.tail else ps2
          let p2' := if p2.kind = .star then ps2'.head?.getD p2 else p2
          if p2'.kind = .starStar then c.ok p1.ty p2'.ty && loop c ps1 ps2' st
          else
            match takeNamed p1.name st.unused with
            | some (q, un) => c.ok p1.ty q.ty && loop c ps1 ps2' { st with unused := un }
            | none =>
              match scan p1 ps2' st.unused with
              | some (q, rest2, un) => c.ok p1.ty q.ty && loop c ps1 rest2 { st with unused := un }
              | none => false
        | .star =>
          if p2.kind = .star then c.ok p1.ty p2.ty && loop c ps1 ps2.tail { st with previous := some p1 }
          else !c.precise && trivialSuffix c st.previous p1 ps1 ps2
        | .starStar => matchStarStar c p1 ps2 && loop c ps1 [] st

/-- `matches_simple_params`, params.rs 104-147, without unpacked `TypedDict`s. -/
def matchesParams (c : Cfg τ) (ps1 ps2 : List (Param τ)) : Bool := loop c ps1 ps2 {}

end Verif.Callable
