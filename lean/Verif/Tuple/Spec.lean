import Verif.Tuple.Model

/-!
# Specification for tuple types: run-time values and Python's sequence operations

Nothing here refers to the functions of the model; only the syntax of tuple
types (`Args`) is shared.
-/

namespace Verif.Tuple.Spec

variable {V T : Type}

/-- The run-time tuple `vs` is a value of the tuple type. -/
def Conforms (mem : V → T → Prop) : Args T → List V → Prop
  | .fixedLen ts, vs => List.Forall₂ mem vs ts
  | .arbitraryLen t, vs => ∀ v ∈ vs, mem v t
  | .withUnpack b u a, vs =>
    ∃ v1 v2 v3, vs = v1 ++ v2 ++ v3 ∧ List.Forall₂ mem v1 b ∧
      (match u with
        | .typeVarTuple => True
        | .arbitraryLen t => ∀ v ∈ v2, mem v t) ∧
      List.Forall₂ mem v3 a

/-- Python's `vs[i]`; `none` is `IndexError`. -/
def pyIndex (vs : List V) (i : Int) : Option V :=
  let i := if i < 0 then i + vs.length else i
  if 0 ≤ i then vs[i.toNat]? else none

/-- The run-time value is covered by the outcome of type inference for an index expression
(after a reported error the inferred type is `Any`). -/
def Covers (mem : V → T → Prop) (v : V) : IndexResult T → Prop
  | .outOfRange => True
  | .object => True
  | .union us => ∃ t ∈ us, mem v t

/-- CPython `PySlice_AdjustIndices` for one bound. -/
def adjust (len : Int) (step : Int) (i : Int) : Int :=
  if i < 0 then
    (if i + len < 0 then (if step < 0 then -1 else 0) else i + len)
  else if i ≥ len then (if step < 0 then len - 1 else len)
  else i

/-- First index selected by a slice. -/
def sliceStart (len : Int) (step : Int) : Option Int → Int
  | none => if step < 0 then len - 1 else 0
  | some i => adjust len step i

/-- Exclusive end of a slice. -/
def sliceStop (len : Int) (step : Int) : Option Int → Int
  | none => if step < 0 then -1 else len
  | some i => adjust len step i

/-- Number of selected elements (CPython `PySlice_AdjustIndices`). -/
def sliceLen (start stop step : Int) : Nat :=
  if step < 0 then
    (if stop < start then ((start - stop - 1) / (-step) + 1).toNat else 0)
  else
    (if start < stop then ((stop - start - 1) / step + 1).toNat else 0)

/-- Python's `vs[start:stop:step]`, as the list of selected elements; the entries are
options so that the theorems also say that every selected index exists. -/
def pySlice (vs : List V) (start stop : Option Int) (step : Int) : List (Option V) :=
  let s := sliceStart vs.length step start
  let e := sliceStop vs.length step stop
  (List.range (sliceLen s e step)).map fun (i : Nat) =>
    if 0 ≤ s + i * step then vs[(s + i * step).toNat]? else none

/-- Python's `vs * n`. -/
def pyRepeat (vs : List V) (n : Int) : List V := (List.replicate n.toNat vs).flatten

end Verif.Tuple.Spec
