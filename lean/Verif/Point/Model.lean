/-!
# The cache of one file

Model of `Point` and `Points`, `crates/zuban_python/src/database.rs` 36-484.  A `u32` is a natural number below `2 ^ 32`;
no operation here can leave that range when its arguments are in it, because shifts are only done on enum discriminants
and booleans.  `debug_assert!` is not modelled (release builds), `assert!` and slice accesses are: they give `none`.
-/

namespace Verif.Point

/-- `PointKind`, database.rs 469-476. -/
inductive Kind where
  | specific | complex | redirect | fileReference
deriving DecidableEq, Repr

/-- `as u32`. -/
def Kind.num : Kind → Nat
  | .specific => 0 | .complex => 1 | .redirect => 2 | .fileReference => 3

/-- `mem::transmute` of three bits to `PointKind`; `none` is undefined behaviour. -/
def Kind.ofBits : Nat → Option Kind
  | 0 => some .specific | 1 => some .complex | 2 => some .redirect | 3 => some .fileReference | _ => none

/-- `Locality`, database.rs 656-670. -/
inductive Locality where
  | nameBinder | reserved1 | reserved2 | file | directExtern | complex | implicitExtern | todo
deriving DecidableEq, Repr

def Locality.num : Locality → Nat
  | .nameBinder => 0 | .reserved1 => 1 | .reserved2 => 2 | .file => 3
  | .directExtern => 4 | .complex => 5 | .implicitExtern => 6 | .todo => 7

def Locality.ofBits : Nat → Option Locality
  | 0 => some .nameBinder | 1 => some .reserved1 | 2 => some .reserved2 | 3 => some .file
  | 4 => some .directExtern | 5 => some .complex | 6 => some .implicitExtern | 7 => some .todo | _ => none

/-- `Specific`, database.rs 478-588: 97 variants, represented by their discriminants. -/
abbrev Specific := Fin 97

namespace Specific
def analyzed : Specific := 1
def calculating : Specific := 2
def firstNameOfNameDef : Specific := 5
def nameOfNameDef : Specific := 6
def parent : Specific := 7
end Specific

/-- database.rs 45-49. -/
def isAnalyzedIndex : Nat := 31
def inGlobalScopeIndex : Nat := 30
def localityIndex : Nat := 27
def needsFlowIndex : Nat := 26
def kindIndex : Nat := 23

/-- database.rs 51-53. -/
def restMask : Nat := (1 <<< kindIndex) - 1
def specificBitLen : Nat := 8
def specificMask : Nat := (1 <<< specificBitLen) - 1

/-- database.rs 56-60. -/
def isAnalyzedMask : Nat := 1 <<< isAnalyzedIndex
def inGlobalScopeMask : Nat := 1 <<< inGlobalScopeIndex
def needsFlowMask : Nat := 1 <<< needsFlowIndex
def localityMask : Nat := 0b111 <<< localityIndex
def kindMask : Nat := 0b111 <<< kindIndex

/-- database.rs 62-70. -/
def functionCheckedIndex : Nat := specificBitLen + 1
def partialNullableIndex : Nat := specificBitLen + 1
def partialReportedErrorIndex : Nat := specificBitLen + 2
def partialFinishedIndex : Nat := specificBitLen + 3

/-- `Point`, database.rs 78-81. -/
structure Point where
  flags : Nat
  nodeIndex : Nat
deriving DecidableEq, Repr

/-- `calculate_flags`, database.rs 85-94. -/
def calculateFlags (kind : Kind) (rest : Nat) (locality : Locality) : Nat :=
  rest ||| isAnalyzedMask ||| locality.num <<< localityIndex ||| kind.num <<< kindIndex

/-- `with_in_global_scope`, database.rs 201-204. -/
def Point.withInGlobalScope (p : Point) (b : Bool) : Point := { p with flags := p.flags ||| b.toNat <<< inGlobalScopeIndex }

/-- `with_needs_flow_analysis`, database.rs 186-189. -/
def Point.withNeedsFlow (p : Point) (b : Bool) : Point := { p with flags := p.flags ||| b.toNat <<< needsFlowIndex }

/-- `with_changed_node_index`, database.rs 191-198. -/
def Point.withNodeIndex (p : Point) (n : Nat) : Point := { p with nodeIndex := n }

/-- `new_redirect`, database.rs 95-98. -/
def newRedirect (file nodeIndex : Nat) (locality : Locality) : Point := ⟨calculateFlags .redirect file locality, nodeIndex⟩

/-- `new_first_name_of_name_def`, database.rs 101-115. -/
def newFirstNameOfNameDef (nodeIndex : Nat) (inGlobalScope : Bool) (locality : Locality) : Point :=
  Point.withInGlobalScope ⟨calculateFlags .specific Specific.firstNameOfNameDef.val locality, nodeIndex⟩ inGlobalScope

/-- `new_name_of_name_def`, database.rs 117-131. -/
def newNameOfNameDef (nodeIndex : Nat) (inGlobalScope : Bool) (locality : Locality) : Point :=
  Point.withInGlobalScope ⟨calculateFlags .specific Specific.nameOfNameDef.val locality, nodeIndex⟩ inGlobalScope

/-- `new_parent`, database.rs 133-138. -/
def newParent (nodeIndex : Nat) (locality : Locality) : Point := ⟨calculateFlags .specific Specific.parent.val locality, nodeIndex⟩

/-- `new_complex_point`, database.rs 140-147. -/
def newComplexPoint (complexIndex : Nat) (locality : Locality) : Option Point :=
  if complexIndex ≤ restMask then some ⟨calculateFlags .complex complexIndex locality, 0⟩ else none

/-- `new_specific`, database.rs 149-155. -/
def newSpecific (specific : Specific) (locality : Locality) : Point := ⟨calculateFlags .specific specific.val locality, 0⟩

/-- `new_calculating`, database.rs 157-162. -/
def newCalculating : Point := ⟨Specific.calculating.val, 0⟩

/-- `new_file_reference`, database.rs 164-170. -/
def newFileReference (file : Nat) (locality : Locality) : Point := ⟨calculateFlags .fileReference file locality, 0⟩

/-- `new_analyzed_with_node_index`, database.rs 172-177. -/
def newAnalyzedWithNodeIndex (locality : Locality) (nodeIndex : Nat) : Point :=
  { newSpecific Specific.analyzed locality with nodeIndex }

/-- `new_uncalculated`, database.rs 179-184. -/
def newUncalculated : Point := ⟨0, 0⟩

/-- `kind`, database.rs 206-209. -/
def Point.kind (p : Point) : Option Kind := Kind.ofBits ((p.flags &&& kindMask) >>> kindIndex)

/-- `locality`, database.rs 211-213. -/
def Point.locality (p : Point) : Option Locality := Locality.ofBits ((p.flags &&& localityMask) >>> localityIndex)

/-- `needs_flow_analysis`, database.rs 215-218. -/
def Point.needsFlow (p : Point) : Bool := p.flags &&& needsFlowMask > 0

/-- `calculated`, database.rs 226-228. -/
def Point.calculated (p : Point) : Bool := p.flags &&& isAnalyzedMask != 0

/-- `calculating`, database.rs 230-232. -/
def Point.calculating (p : Point) : Bool := p.flags == Specific.calculating.val

/-- `in_global_scope`, database.rs 234-237. -/
def Point.inGlobalScope (p : Point) : Bool := p.flags &&& inGlobalScopeMask != 0

/-- `file_index` 239-246 and `complex_index` 248-254 of database.rs. -/
def Point.rest (p : Point) : Nat := p.flags &&& restMask

/-- `maybe_redirect_to`, database.rs 286-291; the masks are at 72-73. -/
def Point.maybeRedirectTo (p : Point) (file nodeIndex : Nat) : Bool :=
  p.nodeIndex == nodeIndex &&
    (p.flags &&& (isAnalyzedMask ||| kindMask ||| restMask)) == (isAnalyzedMask ||| Kind.redirect.num <<< kindIndex ||| file)

/-- `maybe_complex_index`, database.rs 256-261. -/
def Point.maybeComplexIndex (p : Point) : Option Nat :=
  if p.calculated ∧ p.kind = some .complex then some p.rest else none

/-- `maybe_file_reference`, database.rs 298-300. -/
def Point.maybeFileReference (p : Point) : Option Nat := if p.kind = some .fileReference then some p.rest else none

/-- `specific`, database.rs 318-321; `none` is undefined behaviour of the `transmute`. -/
def Point.specific (p : Point) : Option Specific :=
  if h : p.flags &&& specificMask < 97 then some ⟨p.flags &&& specificMask, h⟩ else none

/-- `function_was_checked`, database.rs 323-326. -/
def Point.functionWasChecked (p : Point) : Bool := p.flags &&& 1 <<< functionCheckedIndex > 0

/-- `set_checked_function`, database.rs 328-332. -/
def Point.setCheckedFunction (p : Point) : Point := { p with flags := p.flags ||| 1 <<< functionCheckedIndex }

/-- `PartialFlags`, database.rs 708-713. -/
structure PartialFlags where
  nullable : Bool
  reportedError : Bool
  finished : Bool
deriving DecidableEq, Repr

/-- `partial_flags`, database.rs 334-341. -/
def Point.partialFlags (p : Point) : PartialFlags :=
  ⟨p.flags &&& 1 <<< partialNullableIndex != 0, p.flags &&& 1 <<< partialReportedErrorIndex != 0,
    p.flags &&& 1 <<< partialFinishedIndex != 0⟩

/-- `!x` on `u32`. -/
def not32 (x : Nat) : Nat := (2 ^ 32 - 1) ^^^ x

/-- `set_partial_flags`, database.rs 343-366. -/
def Point.setPartialFlags (p : Point) (f : PartialFlags) : Point :=
  { p with flags := p.flags &&& not32 (1 <<< partialNullableIndex) &&& not32 (1 <<< partialReportedErrorIndex)
      ||| f.nullable.toNat <<< partialNullableIndex ||| f.reportedError.toNat <<< partialReportedErrorIndex
      ||| f.finished.toNat <<< partialFinishedIndex }

/-- `Points`, database.rs 406. -/
abbrev Points := List Point

/-- `Points::new`, database.rs 413-415. -/
def Points.new (length : Nat) : Points := List.replicate length newUncalculated

/-- `get`, database.rs 418-420. -/
def Points.get (ps : Points) (i : Nat) : Option Point := ps[i]?

/-- `set`, database.rs 423-425. -/
def Points.set (ps : Points) (i : Nat) (p : Point) : Option Points := if i < ps.length then some (List.set ps i p) else none

/-- The body of the loop in `invalidate_references_to`, database.rs 429-434. -/
def invalidateCell (fileIndex : Option Nat) (p : Point) : Point :=
  if p.locality = some .directExtern ∧ some p.rest = fileIndex then newUncalculated
  else if (p.flags &&& localityMask) >>> localityIndex ≥ Locality.complex.num then newUncalculated
  else p

/-- `invalidate_references_to`, database.rs 427-436. -/
def Points.invalidateReferencesTo (ps : Points) (fileIndex : Option Nat) : Points := ps.map (invalidateCell fileIndex)

/-- `invalidate_full_db`, database.rs 438-442. -/
def Points.invalidateFullDb (ps : Points) : Points := ps.map fun _ => newUncalculated

/-- `PointsBackup`, database.rs 464-467. -/
structure Backup where
  start : Nat
  stop : Nat
  points : List Point

/-- `backup`, database.rs 449-455. -/
def Points.backup (ps : Points) (start stop : Nat) : Option Backup :=
  if start ≤ stop ∧ stop ≤ ps.length then some ⟨start, stop, (ps.drop start).take (stop - start)⟩ else none

/-- The loop of `reset_from_backup`, database.rs 458-460. -/
def resetLoop (ps : Points) : Nat → List Point → Points
  | _, [] => ps
  | i, p :: rest => resetLoop (List.set ps i p) (i + 1) rest

/-- `reset_from_backup`, database.rs 457-461; the points vector of a file never changes its length. -/
def Points.resetFromBackup (ps : Points) (b : Backup) : Points := resetLoop ps b.start b.points

end Verif.Point
