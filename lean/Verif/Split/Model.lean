/-!
# Narrowing by `isinstance`

Model of `split_and_intersect` and `replace_promoted` in
`crates/zuban_python/src/file/flow_analysis.rs` 5753-5990.  A type is the list of
its members (`iter_with_unpacked_unions`); `Never` has none.  What is asked about
the members is a parameter: the theorems hold for all of it.  Left out: the order
in which `Any` is put into a union (5822-5831).
-/

namespace Verif.Split

/-- A match with or without `Any`, or none. -/
inductive Cmp where
  | no
  | yes (withAny : Bool)
  deriving DecidableEq

inductive Num where
  | int
  | float
  | complex
  deriving DecidableEq

structure World (A : Type) where
  /-- `isinstance_t.is_super_type_of(t)` without promotions. -/
  compare : A → A → Cmp
  /-- `isinstance_t.is_sub_type_of(t)` without promotions. -/
  within : A → A → Bool
  /-- `simplified_union`. -/
  simplify : List A → List A
  /-- `union`. -/
  union : List A → List A → List A
  /-- `type[A]` and `type[B]` for `type[A | B]`, otherwise the type itself. -/
  parts : A → List A
  isAny : A → Bool
  /-- A type variable without bound and constraints. -/
  freeVar : A → Bool
  /-- The first is a typed dict and the second is the class `dict`. -/
  typedDict : A → A → Bool
  /-- `original_t.overlaps(isinstance_type)`. -/
  overlaps : List A → List A → Bool
  /-- `intersect`, 5992-6006. -/
  intersect : A → List A → Option (List A)
  /-- There is a protocol among the types, 5861-5877. -/
  protocol : List A → Bool
  /-- The classes `int`, `float` and `complex`; with `false` if the type is not one
  that might be promoted. -/
  kind : A → Option (Num × Bool)
  int : A
  float : A
  exactFloat : A
  exactComplex : A
  /-- `is_simple_super_type_of` for the type `int`. -/
  covers : List A → A → Bool

variable {A : Type} (w : World A)

/-- `simplified_union_in_place`. -/
def World.add (l r : List A) : List A := w.simplify (l ++ r)

/-- The variables of `split`, 5770-5772, and `true_type`. -/
structure Found (A : Type) where
  matched : Bool := false
  withAny : Bool := true
  hadAny : Option A := none
  truthy : List A

/-- The body of the loop over the types of `isinstance`, 5773-5804. -/
def look (t : A) (s : Found A) (i : A) : Found A :=
  if w.typedDict t i then { s with matched := true, withAny := false }
  else if w.isAny i then { s with hadAny := some i }
  else
    match w.compare i t with
    | .yes true => { s with matched := true }
    | .yes false => { s with matched := true, withAny := false }
    | .no => if w.within i t then { s with truthy := w.add s.truthy [i] } else s

/-- The variables of `split_and_intersect`, 5760-5763. -/
structure State (A : Type) where
  truthy : List A := []
  other : List A := []
  varSplit : Bool := false

/-- `split`, 5769-5832. -/
def split (inst : List A) (s : State A) (t : A) : State A :=
  let f := inst.foldl (look w t) { truthy := s.truthy }
  let s' : State A :=
    if f.matched then
      if f.withAny then
        { s with truthy := w.add f.truthy inst, other := w.union s.other [t] }
      else { s with truthy := w.add f.truthy [t] }
    else { s with truthy := f.truthy, other := w.union s.other [t] }
  match f.hadAny with
  | some a => { s' with truthy := w.union s'.truthy [a] }
  | none => s'

/-- The loop over the members of the original type, 5765-5857. -/
def member (inst : List A) (s : State A) (t : A) : State A :=
  if w.isAny t then { s with truthy := inst, other := w.union s.other [t] }
  else if w.freeVar t then
    match w.intersect t inst with
    | some new => { truthy := new, other := w.union s.other [t], varSplit := true }
    | none => split w inst s t
  else (w.parts t).foldl (split w inst) s

/-- One member that has nothing in common with the classes so far, 5862-5884. -/
def meet (inst r : List A) (t : A) : List A :=
  match w.intersect t inst with
  | some new => w.add r new
  | none => if w.protocol inst then w.add r [t] else r

/-- The types of the overlap if nothing was found, 5858-5886. -/
def fallback (original inst truthy : List A) : List A :=
  if truthy.isEmpty then
    if w.overlaps original inst then inst
    else original.foldl (meet w inst) truthy
  else truthy

/-- One class in `replace_promoted`, 5951-5974. -/
def replaceOne (r : Num) (t : A) : Option (List A) :=
  match r, (w.kind t).map Prod.fst with
  | .int, some .float => some [w.exactFloat]
  | .int, some .complex => some (w.union [w.exactFloat] [w.exactComplex])
  | .float, some .complex => some [w.exactComplex]
  | _, _ => none

/-- `replace_promoted`, 5944-5990. -/
def replace (r : Num) (ts : List A) : Option (List A) :=
  match ts with
  | [t] => replaceOne w r t
  | ts =>
    if ts.any (fun t => (w.kind t).map Prod.fst == some .float || (w.kind t).map Prod.fst == some .complex)
    then some (w.simplify (ts.flatMap fun t => (replaceOne w r t).getD [t]))
    else none

/-- `is_non_promotable`, 5891-5905. -/
def exact (original : List A) (n : Num) : Bool := original.any fun t => w.kind t == some (n, false)

/-- The promotions, 5887-5935. -/
def promotions (original inst : List A) (s : State A) : List A :=
  match inst with
  | [c] =>
    match (w.kind c).map Prod.fst with
    | some .float =>
      if exact w original .float then s.other
      else
        match replace w .float s.other with
        | some new => w.union new [w.int]
        | none =>
          if !s.varSplit && !w.covers s.other w.int then w.union s.other [w.int] else s.other
    | some .int => (replace w .int s.other).getD s.other
    | some .complex =>
      if s.other.isEmpty && !exact w original .complex then [w.float] else s.other
    | none => s.other
  | _ => s.other

/-- `split_and_intersect`, 5753-5942: the type where `isinstance` is true and the
type where it is false. -/
def splitAndIntersect (original inst : List A) : List A × List A :=
  let s := original.foldl (member w inst) {}
  (fallback w original inst s.truthy, promotions w original inst s)

end Verif.Split
