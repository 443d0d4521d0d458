import Verif.Point.Model

/-!
# What a cache entry says

Independent of the bit layout: the readers of `Point` must give the parts of the entry.
-/

namespace Verif.Point.Spec

open Verif.Point

/-- What was found out about a node. -/
inductive Value where
  | specific (s : Specific) (node : Nat) (flags : PartialFlags)
  | complex (index : Nat)
  | redirect (file node : Nat)
  | fileReference (file : Nat)

structure Entry where
  value : Value
  locality : Locality
  global : Bool
  flow : Bool

/-- No flag set. -/
def noFlags : PartialFlags := ⟨false, false, false⟩

/-- The entry of a fresh point. -/
def Entry.fresh (value : Value) (locality : Locality) : Entry := ⟨value, locality, false, false⟩

/-- What the readers give for the value. -/
def ReadsValue (p : Point) : Value → Prop
  | .specific s node flags =>
    p.kind = some .specific ∧ p.specific = some s ∧ p.nodeIndex = node ∧ p.partialFlags = flags ∧
      p.functionWasChecked = flags.nullable ∧ p.maybeComplexIndex = none ∧ p.maybeFileReference = none ∧
      ∀ f n, f < 2 ^ 23 → p.maybeRedirectTo f n = false
  | .complex index =>
    p.kind = some .complex ∧ p.maybeComplexIndex = some index ∧ p.maybeFileReference = none ∧ ∀ f n, f < 2 ^ 23 → p.maybeRedirectTo f n = false
  | .redirect file node =>
    p.kind = some .redirect ∧ p.rest = file ∧ p.nodeIndex = node ∧ p.maybeComplexIndex = none ∧ p.maybeFileReference = none ∧
      ∀ f n, f < 2 ^ 23 → (p.maybeRedirectTo f n = true ↔ f = file ∧ n = node)
  | .fileReference file =>
    p.kind = some .fileReference ∧ p.maybeFileReference = some file ∧ p.maybeComplexIndex = none ∧ ∀ f n, f < 2 ^ 23 → p.maybeRedirectTo f n = false

/-- The readers of a point give the parts of the entry. -/
structure Reads (p : Point) (e : Entry) : Prop where
  calculated : p.calculated = true
  notCalculating : p.calculating = false
  locality : p.locality = some e.locality
  global : p.inGlobalScope = e.global
  flow : p.needsFlow = e.flow
  value : ReadsValue p e.value

end Verif.Point.Spec
