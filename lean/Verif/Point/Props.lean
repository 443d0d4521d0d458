import Verif.Point.Lemmas

/-!
# Cached analysis results read back as written (C47), speculation can be undone (C61), invalidation (C62)
-/

namespace Verif.Point

open Verif.Point.Spec

theorem kind_num_lt (k : Kind) : k.num < 2 ^ 3 := by cases k <;> decide
theorem locality_num_lt (l : Locality) : l.num < 2 ^ 3 := by cases l <;> decide
theorem kind_ofBits (k : Kind) : Kind.ofBits k.num = some k := by cases k <;> rfl
theorem locality_ofBits (l : Locality) : Locality.ofBits l.num = some l := by cases l <;> rfl

/-- The bits of fresh flags. -/
theorem flags_low (k : Kind) (r : Nat) (l : Locality) (a w : Nat) (h : a + w ≤ 23) :
    field a w (calculateFlags k r l) = field a w r := by
  rw [calculateFlags, field_or, field_or, field_or, isAnalyzedMask, field_shift_above _ _ _ _ (by simp [isAnalyzedIndex]; omega),
    field_shift_above _ _ _ _ (by simp [localityIndex]; omega), field_shift_above _ _ _ _ (by simp [kindIndex]; omega)]
  simp

theorem flags_kind (k : Kind) (r : Nat) (l : Locality) (h : r < 2 ^ 23) : field 23 3 (calculateFlags k r l) = k.num := by
  rw [calculateFlags, field_or, field_or, field_or, field_small 23 3 r h, isAnalyzedMask,
    field_shift_above _ _ _ _ (by decide), field_shift_above _ _ _ _ (by decide), kindIndex,
    field_shift_self _ _ _ (kind_num_lt k)]
  simp

theorem shift_small {v m j k : Nat} (h : v < 2 ^ m) (hj : m + j ≤ k) : v <<< j < 2 ^ k := by
  rw [Nat.shiftLeft_eq]
  calc v * 2 ^ j < 2 ^ m * 2 ^ j := Nat.mul_lt_mul_of_pos_right h (Nat.two_pow_pos j)
    _ = 2 ^ (m + j) := (Nat.pow_add 2 m j).symm
    _ ≤ 2 ^ k := Nat.pow_le_pow_right (by omega) hj

theorem flags_flow (k : Kind) (r : Nat) (l : Locality) (h : r < 2 ^ 23) : field 26 1 (calculateFlags k r l) = 0 := by
  rw [calculateFlags, field_or, field_or, field_or, field_small 26 1 r (by omega), isAnalyzedMask,
    field_shift_above _ _ _ _ (by decide), field_shift_above _ _ _ _ (by decide),
    field_small 26 1 _ (shift_small (kind_num_lt k) (by decide))]
  rfl

theorem flags_locality (k : Kind) (r : Nat) (l : Locality) (h : r < 2 ^ 23) : field 27 3 (calculateFlags k r l) = l.num := by
  rw [calculateFlags, field_or, field_or, field_or, field_small 27 3 r (by omega), isAnalyzedMask,
    field_shift_above _ _ _ _ (by decide), localityIndex, field_shift_self _ _ _ (locality_num_lt l),
    field_small 27 3 _ (shift_small (kind_num_lt k) (by decide))]
  simp

theorem flags_global (k : Kind) (r : Nat) (l : Locality) (h : r < 2 ^ 23) : field 30 1 (calculateFlags k r l) = 0 := by
  rw [calculateFlags, field_or, field_or, field_or, field_small 30 1 r (by omega), isAnalyzedMask,
    field_shift_above _ _ _ _ (by decide), field_small 30 1 _ (shift_small (locality_num_lt l) (by decide)),
    field_small 30 1 _ (shift_small (kind_num_lt k) (by decide))]
  rfl

theorem flags_analyzed (k : Kind) (r : Nat) (l : Locality) (h : r < 2 ^ 23) : field 31 1 (calculateFlags k r l) = 1 := by
  rw [calculateFlags, field_or, field_or, field_or, field_small 31 1 r (by omega),
    field_small 31 1 _ (shift_small (locality_num_lt l) (by decide)),
    field_small 31 1 _ (shift_small (kind_num_lt k) (by decide)), show field 31 1 isAnalyzedMask = 1 from by decide]
  rfl

/-- What the readers say in terms of the fields. -/
structure Fields (x : Nat) (e : Entry) : Prop where
  analyzed : field 31 1 x = 1
  locality : field 27 3 x = e.locality.num
  global : field 30 1 x = e.global.toNat
  flow : field 26 1 x = e.flow.toNat
  value : match e.value with
    | .specific s _ f => field 23 3 x = 0 ∧ field 0 8 x = s.val ∧ field 9 1 x = f.nullable.toNat ∧
        field 10 1 x = f.reportedError.toNat ∧ field 11 1 x = f.finished.toNat
    | .complex i => field 23 3 x = 1 ∧ field 0 23 x = i
    | .redirect f _ => field 23 3 x = 2 ∧ field 0 23 x = f
    | .fileReference f => field 23 3 x = 3 ∧ field 0 23 x = f

/-- The node of the entry, for values that have one. -/
def NodeOk (n : Nat) : Value → Prop
  | .specific _ node _ => n = node
  | .redirect _ node => n = node
  | _ => True

theorem decide_toNat (b : Bool) : decide (b.toNat ≠ 0) = b := by cases b <;> rfl

theorem reads_of_fields {p : Point} {e : Entry} (h : Fields p.flags e) (hn : NodeOk p.nodeIndex e.value) : Reads p e := by
  have hc : p.calculated = true := by rw [calculated_field, h.analyzed]; rfl
  constructor
  · exact hc
  · rw [Point.calculating, beq_eq_false_iff_ne]
    intro he
    have := h.analyzed
    rw [he] at this
    exact absurd this (by decide)
  · rw [locality_field, h.locality, locality_ofBits]
  · rw [global_field, h.global, decide_toNat]
  · rw [flow_field, h.flow, decide_toNat]
  · have hv := h.value
    have red : field 23 3 p.flags ≠ 2 → ∀ f n, f < 2 ^ 23 → p.maybeRedirectTo f n = false := by
      intro hk f n hf
      rw [Bool.eq_false_iff, ne_eq, redirect_fields p f n hf]
      rintro ⟨_, _, h2, _⟩
      exact hk h2
    cases hval : e.value with
    | specific s node f =>
      rw [hval] at hv hn
      obtain ⟨h1, h2, h3, h4, h5⟩ := hv
      have hk : p.kind = some .specific := by rw [kind_field, h1]; rfl
      refine ⟨hk, ?_, hn, ?_, ?_, ?_, ?_, red (by omega)⟩
      · rw [specific_field]
        have : field 0 8 p.flags < 97 := by rw [h2]; exact s.isLt
        rw [dif_pos this]
        congr 1
        exact Fin.ext h2
      · rw [partial_field, h3, h4, h5, decide_toNat, decide_toNat, decide_toNat]
      · rw [checked_field, h3, decide_toNat]
      · rw [Point.maybeComplexIndex, if_neg (by rw [hk]; simp)]
      · rw [Point.maybeFileReference, if_neg (by rw [hk]; simp)]
    | complex i =>
      rw [hval] at hv
      have hk : p.kind = some .complex := by rw [kind_field, hv.1]; rfl
      refine ⟨hk, ?_, ?_, red (by omega)⟩
      · rw [Point.maybeComplexIndex, if_pos ⟨hc, hk⟩, rest_field, hv.2]
      · rw [Point.maybeFileReference, if_neg (by rw [hk]; simp)]
    | redirect f node =>
      rw [hval] at hv hn
      have hk : p.kind = some .redirect := by rw [kind_field, hv.1]; rfl
      refine ⟨hk, ?_, hn, ?_, ?_, ?_⟩
      · rw [rest_field, hv.2]
      · rw [Point.maybeComplexIndex, if_neg (by rw [hk]; simp)]
      · rw [Point.maybeFileReference, if_neg (by rw [hk]; simp)]
      · intro f' n' hf'
        rw [redirect_fields p f' n' hf', h.analyzed, hv.1, hv.2]
        have : p.nodeIndex = node := hn
        rw [this]
        constructor
        · rintro ⟨a, _, _, b⟩; exact ⟨b.symm, a.symm⟩
        · rintro ⟨a, b⟩; exact ⟨b.symm, rfl, rfl, a.symm⟩
    | fileReference f =>
      rw [hval] at hv
      have hk : p.kind = some .fileReference := by rw [kind_field, hv.1]; rfl
      refine ⟨hk, ?_, ?_, red (by omega)⟩
      · rw [Point.maybeFileReference, if_pos hk, rest_field, hv.2]
      · rw [Point.maybeComplexIndex, if_neg (by rw [hk]; simp)]

theorem bit_of_decide {x k : Nat} {b : Bool} (h : decide (field k 1 x ≠ 0) = b) : field k 1 x = b.toNat := by
  have := field_lt k 1 x
  cases b
  · simpa using h
  · simp at h ⊢; omega

theorem kind_num_of {x : Nat} {k : Kind} (h : Kind.ofBits x = some k) : x = k.num := by
  unfold Kind.ofBits at h
  split at h <;> simp at h <;> subst h <;> rfl

theorem locality_num_of {x : Nat} {k : Locality} (h : Locality.ofBits x = some k) : x = k.num := by
  unfold Locality.ofBits at h
  split at h <;> simp at h <;> subst h <;> rfl

theorem fields_of_reads {p : Point} {e : Entry} (h : Reads p e) : Fields p.flags e ∧ NodeOk p.nodeIndex e.value := by
  have hv := h.value
  have ha : field 31 1 p.flags = 1 := by
    have := h.calculated
    rw [calculated_field] at this
    exact bit_of_decide this
  refine ⟨⟨ha, ?_, ?_, ?_, ?_⟩, ?_⟩
  · exact locality_num_of (by rw [← locality_field]; exact h.locality)
  · exact bit_of_decide (by rw [← global_field]; exact h.global)
  · exact bit_of_decide (by rw [← flow_field]; exact h.flow)
  · cases hval : e.value with
    | specific s node f =>
      rw [hval] at hv
      obtain ⟨h1, h2, _, h4, _⟩ := hv
      rw [partial_field] at h4
      refine ⟨kind_num_of (by rw [← kind_field]; exact h1), ?_, ?_, ?_, ?_⟩
      · rw [specific_field] at h2
        split at h2
        · rw [Option.some.injEq] at h2
          rw [← h2]
        · simp at h2
      · exact bit_of_decide (by rw [← h4])
      · exact bit_of_decide (by rw [← h4])
      · exact bit_of_decide (by rw [← h4])
    | complex i =>
      rw [hval] at hv
      obtain ⟨h1, h2, _⟩ := hv
      refine ⟨kind_num_of (by rw [← kind_field]; exact h1), ?_⟩
      rw [Point.maybeComplexIndex, if_pos ⟨h.calculated, h1⟩, Option.some.injEq, rest_field] at h2
      exact h2
    | redirect f node =>
      rw [hval] at hv
      exact ⟨kind_num_of (by rw [← kind_field]; exact hv.1), by rw [← rest_field]; exact hv.2.1⟩
    | fileReference f =>
      rw [hval] at hv
      obtain ⟨h1, h2, _⟩ := hv
      refine ⟨kind_num_of (by rw [← kind_field]; exact h1), ?_⟩
      rw [Point.maybeFileReference, if_pos h1, Option.some.injEq, rest_field] at h2
      exact h2
  · cases hval : e.value with
    | specific s node f => rw [hval] at hv; exact hv.2.2.1
    | redirect f node => rw [hval] at hv; exact hv.2.2.1
    | complex => trivial
    | fileReference => trivial

theorem fields_specific (s : Specific) (l : Locality) (node : Nat) :
    Fields (calculateFlags .specific s.val l) (.fresh (.specific s node noFlags) l) := by
  have hs : s.val < 2 ^ 7 := by omega
  refine ⟨flags_analyzed _ _ _ (by omega), flags_locality _ _ _ (by omega), flags_global _ _ _ (by omega),
    flags_flow _ _ _ (by omega), flags_kind _ _ _ (by omega), ?_, ?_, ?_, ?_⟩
  · rw [flags_low _ _ _ _ _ (by omega)]; simp only [field]; omega
  · rw [flags_low _ _ _ _ _ (by omega), field_small _ _ _ (by omega)]; rfl
  · rw [flags_low _ _ _ _ _ (by omega), field_small _ _ _ (by omega)]; rfl
  · rw [flags_low _ _ _ _ _ (by omega), field_small _ _ _ (by omega)]; rfl

theorem low_id (r : Nat) (h : r < 2 ^ 23) : field 0 23 r = r := by simp only [field]; omega

/-- Or-ing one bit into the flags changes that bit and no field beside it. -/
theorem field_setBit (x k w j : Nat) (b : Bool) (h : j < k ∨ k + w ≤ j) : field k w (x ||| b.toNat <<< j) = field k w x := by
  rw [field_or]
  have : field k w (b.toNat <<< j) = 0 := by
    rcases h with h | h
    · exact field_small _ _ _ (shift_small (m := 1) (by cases b <;> decide) (by omega))
    · exact field_shift_above _ _ _ _ h
  rw [this, Nat.or_zero]

theorem field_setBit_self (x j : Nat) (a b : Bool) (h : field j 1 x = a.toNat) : field j 1 (x ||| b.toNat <<< j) = (a || b).toNat := by
  rw [field_or, h, field_shift_self j 1 _ (by cases b <;> decide)]
  cases a <;> cases b <;> rfl

/-- C47: setting the scope of a name. -/
theorem with_global {p : Point} {e : Entry} (h : Reads p e) (b : Bool) :
    Reads (p.withInGlobalScope b) { e with global := e.global || b } := by
  obtain ⟨hf, hn⟩ := fields_of_reads h
  refine reads_of_fields ⟨?_, ?_, ?_, ?_, ?_⟩ hn
  · exact (field_setBit p.flags 31 1 30 b (by decide)).trans hf.analyzed
  · rw [show (Entry.mk e.value e.locality (e.global || b) e.flow).locality = e.locality from rfl, ← hf.locality]
    exact field_setBit _ _ _ _ _ (by decide)
  · exact field_setBit_self _ _ _ _ hf.global
  · rw [show (Entry.mk e.value e.locality (e.global || b) e.flow).flow = e.flow from rfl, ← hf.flow]
    exact field_setBit _ _ _ _ _ (by decide)
  · have hv := hf.value
    have eq : ∀ k w, k + w ≤ 30 → field k w (p.withInGlobalScope b).flags = field k w p.flags :=
      fun k w h => field_setBit _ _ _ _ _ (.inr h)
    simp only [eq 23 3 (by omega), eq 0 8 (by omega), eq 9 1 (by omega), eq 10 1 (by omega), eq 11 1 (by omega), eq 0 23 (by omega)]
    exact hv

/-- C47: marking a name for flow analysis. -/
theorem with_flow {p : Point} {e : Entry} (h : Reads p e) (b : Bool) :
    Reads (p.withNeedsFlow b) { e with flow := e.flow || b } := by
  obtain ⟨hf, hn⟩ := fields_of_reads h
  refine reads_of_fields ⟨?_, ?_, ?_, ?_, ?_⟩ hn
  · exact (field_setBit p.flags 31 1 26 b (by decide)).trans hf.analyzed
  · rw [show (Entry.mk e.value e.locality e.global (e.flow || b)).locality = e.locality from rfl, ← hf.locality]
    exact field_setBit _ _ _ _ _ (by decide)
  · rw [show (Entry.mk e.value e.locality e.global (e.flow || b)).global = e.global from rfl, ← hf.global]
    exact field_setBit _ _ _ _ _ (by decide)
  · exact field_setBit_self _ _ _ _ hf.flow
  · have hv := hf.value
    have eq : ∀ k w, k + w ≤ 26 → field k w (p.withNeedsFlow b).flags = field k w p.flags :=
      fun k w h => field_setBit _ _ _ _ _ (.inr h)
    simp only [eq 23 3 (by omega), eq 0 8 (by omega), eq 9 1 (by omega), eq 10 1 (by omega), eq 11 1 (by omega), eq 0 23 (by omega)]
    exact hv

/-- The value with another node. -/
def setNode (n : Nat) : Value → Value
  | .specific s _ f => .specific s n f
  | .redirect f _ => .redirect f n
  | v => v

/-- C47: moving an entry to another node. -/
theorem with_node {p : Point} {e : Entry} (h : Reads p e) (n : Nat) :
    Reads (p.withNodeIndex n) { e with value := setNode n e.value } := by
  obtain ⟨hf, _⟩ := fields_of_reads h
  refine reads_of_fields ⟨hf.analyzed, hf.locality, hf.global, hf.flow, ?_⟩ ?_
  · have hv := hf.value
    revert hv
    cases e.value <;> exact id
  · cases e.value <;> simp [setNode, NodeOk, Point.withNodeIndex]

/-- C47: every way of storing a result reads back as stored. -/
theorem stored (l : Locality) :
    (∀ f n, f < 2 ^ 23 → Reads (newRedirect f n l) (.fresh (.redirect f n) l)) ∧
    (∀ f, f < 2 ^ 23 → Reads (newFileReference f l) (.fresh (.fileReference f) l)) ∧
    (∀ i p, newComplexPoint i l = some p → Reads p (.fresh (.complex i) l)) ∧
    (∀ s, Reads (newSpecific s l) (.fresh (.specific s 0 noFlags) l)) ∧
    (∀ n, Reads (newParent n l) (.fresh (.specific 7 n noFlags) l)) ∧
    (∀ n, Reads (newAnalyzedWithNodeIndex l n) (.fresh (.specific 1 n noFlags) l)) ∧
    (∀ n g, Reads (newNameOfNameDef n g l) ⟨.specific 6 n noFlags, l, g, false⟩) ∧
    (∀ n g, Reads (newFirstNameOfNameDef n g l) ⟨.specific 5 n noFlags, l, g, false⟩) := by
  refine ⟨?_, ?_, ?_, ?_, ?_, ?_, ?_, ?_⟩
  · intro f n hf
    refine reads_of_fields ⟨flags_analyzed _ _ _ hf, flags_locality _ _ _ hf, flags_global _ _ _ hf, flags_flow _ _ _ hf,
      flags_kind _ _ _ hf, ?_⟩ rfl
    rw [newRedirect, flags_low _ _ _ _ _ (by omega), low_id f hf]
  · intro f hf
    refine reads_of_fields ⟨flags_analyzed _ _ _ hf, flags_locality _ _ _ hf, flags_global _ _ _ hf, flags_flow _ _ _ hf,
      flags_kind _ _ _ hf, ?_⟩ trivial
    rw [newFileReference, flags_low _ _ _ _ _ (by omega), low_id f hf]
  · intro i p h
    rw [newComplexPoint] at h
    split at h
    · rename_i hi
      have hf : i < 2 ^ 23 := by simp [restMask, kindIndex] at hi; omega
      rw [Option.some.injEq] at h
      subst h
      refine reads_of_fields ⟨flags_analyzed _ _ _ hf, flags_locality _ _ _ hf, flags_global _ _ _ hf, flags_flow _ _ _ hf,
        flags_kind _ _ _ hf, ?_⟩ trivial
      rw [flags_low _ _ _ _ _ (by omega), low_id i hf]
    · simp at h
  · intro s
    exact reads_of_fields (fields_specific s l 0) rfl
  · intro n
    exact reads_of_fields (fields_specific 7 l n) rfl
  · intro n
    exact reads_of_fields (fields_specific 1 l n) rfl
  · intro n g
    have := with_global (p := ⟨calculateFlags .specific 6 l, n⟩) (reads_of_fields (fields_specific 6 l n) rfl) g
    simp only [Entry.fresh, Bool.false_or] at this
    exact this
  · intro n g
    have := with_global (p := ⟨calculateFlags .specific 5 l, n⟩) (reads_of_fields (fields_specific 5 l n) rfl) g
    simp only [Entry.fresh, Bool.false_or] at this
    exact this

/-- C47: a complex entry is stored exactly if its index fits. -/
theorem complex_fits (l : Locality) (i : Nat) : (newComplexPoint i l).isSome = decide (i < 2 ^ 23) := by
  rw [newComplexPoint]
  by_cases h : i < 2 ^ 23
  · rw [if_pos (by simp [restMask, kindIndex]; omega)]; simp [h]
  · rw [if_neg (by simp [restMask, kindIndex]; omega)]; simp [h]

/-- C47: a node that is not calculated, or being calculated, is neither a result nor confused with the other. -/
theorem not_stored : newUncalculated.calculated = false ∧ newUncalculated.calculating = false ∧
    newCalculating.calculated = false ∧ newCalculating.calculating = true ∧
    (∀ f n, f < 2 ^ 23 → newUncalculated.maybeRedirectTo f n = false ∧ newCalculating.maybeRedirectTo f n = false) := by
  refine ⟨by decide, by decide, by decide, by decide, fun f n hf => ⟨?_, ?_⟩⟩
  · rw [Bool.eq_false_iff, ne_eq, redirect_fields _ f n hf]
    rintro ⟨_, h, _⟩
    exact absurd h (by decide)
  · rw [Bool.eq_false_iff, ne_eq, redirect_fields _ f n hf]
    rintro ⟨_, h, _⟩
    exact absurd h (by decide)

/-- C47: remembering that a function was checked. -/
theorem checked {p : Point} {e : Entry} {s : Specific} {n : Nat} {f : PartialFlags} (h : Reads p e) (he : e.value = .specific s n f) :
    p.setCheckedFunction.functionWasChecked = true ∧
    Reads p.setCheckedFunction { e with value := .specific s n { f with nullable := true } } := by
  obtain ⟨hf, hn⟩ := fields_of_reads h
  have hv := hf.value
  rw [he] at hv hn
  obtain ⟨h1, h2, h3, h4, h5⟩ := hv
  have eq : ∀ k w, (9 < k ∨ k + w ≤ 9) → field k w p.setCheckedFunction.flags = field k w p.flags :=
    fun k w h => field_setBit p.flags k w 9 true h
  have hr : Reads p.setCheckedFunction { e with value := .specific s n { f with nullable := true } } := by
    refine reads_of_fields ⟨?_, ?_, ?_, ?_, ?_, ?_, ?_, ?_, ?_⟩ hn
    · rw [eq _ _ (by omega)]; exact hf.analyzed
    · rw [eq _ _ (by omega)]; exact hf.locality
    · rw [eq _ _ (by omega)]; exact hf.global
    · rw [eq _ _ (by omega)]; exact hf.flow
    · rw [eq _ _ (by omega)]; exact h1
    · rw [eq _ _ (by omega)]; exact h2
    · have := field_setBit_self p.flags 9 f.nullable true h3
      rw [Bool.or_true] at this
      exact this
    · rw [eq _ _ (by omega)]; exact h4
    · rw [eq _ _ (by omega)]; exact h5
  exact ⟨hr.value.2.2.2.2.1, hr⟩

theorem field_not (x k w j : Nat) (h : j < k ∨ k + w ≤ j) (hk : k + w ≤ 32) :
    field k w (x &&& not32 (1 <<< j)) = field k w x := by
  apply Nat.eq_of_testBit_eq
  intro i
  rw [field_testBit, field_testBit, Nat.testBit_and, not32, Nat.testBit_xor, Nat.testBit_two_pow_sub_one, Nat.testBit_shiftLeft]
  by_cases hi : i < w
  · have h1 : k + i < 32 := by omega
    by_cases h2 : j ≤ k + i
    · have h3 : ¬ k + i - j = 0 := by omega
      have h4 : Nat.testBit 1 (k + i - j) = false := by
        generalize k + i - j = m at h3
        cases m with
        | zero => exact absurd rfl h3
        | succ m => simp [Nat.testBit_succ]
      simp [h1, h4]
    · simp [h1, h2]
  · simp [hi]

theorem field_not_self (x j : Nat) (hj : j < 32) : field j 1 (x &&& not32 (1 <<< j)) = 0 := by
  apply Nat.eq_of_testBit_eq
  intro i
  rw [field_testBit, Nat.testBit_and, not32, Nat.testBit_xor, Nat.testBit_two_pow_sub_one, Nat.testBit_shiftLeft, Nat.zero_testBit]
  by_cases hi : i < 1
  · have : i = 0 := by omega
    subst this
    simp [hj]
  · simp [hi]

/-- C47: flags of a partially known type.  Partial: `finished` once set cannot be taken back. -/
theorem partial_flags_partial {p : Point} {e : Entry} {s : Specific} {n : Nat} {f : PartialFlags} (h : Reads p e)
    (he : e.value = .specific s n f) (g : PartialFlags) (hg : f.finished = true → g.finished = true) :
    (p.setPartialFlags g).partialFlags = g ∧ Reads (p.setPartialFlags g) { e with value := .specific s n g } := by
  obtain ⟨hf, hn⟩ := fields_of_reads h
  have hv := hf.value
  rw [he] at hv hn
  obtain ⟨h1, h2, h3, h4, h5⟩ := hv
  have out : ∀ k w, k + w ≤ 9 ∨ 12 ≤ k ∧ k + w ≤ 32 → field k w (p.setPartialFlags g).flags = field k w p.flags := by
    intro k w hw
    simp only [Point.setPartialFlags]
    rw [field_setBit _ _ _ _ _ (by simp only [partialFinishedIndex, specificBitLen]; omega),
      field_setBit _ _ _ _ _ (by simp only [partialReportedErrorIndex, specificBitLen]; omega),
      field_setBit _ _ _ _ _ (by simp only [partialNullableIndex, specificBitLen]; omega),
      field_not _ _ _ _ (by simp only [partialReportedErrorIndex, specificBitLen]; omega) (by omega),
      field_not _ _ _ _ (by simp only [partialNullableIndex, specificBitLen]; omega) (by omega)]
  have hr : Reads (p.setPartialFlags g) { e with value := .specific s n g } := by
    refine reads_of_fields ⟨?_, ?_, ?_, ?_, ?_, ?_, ?_, ?_, ?_⟩ hn
    · rw [out _ _ (by omega)]; exact hf.analyzed
    · rw [out _ _ (by omega)]; exact hf.locality
    · rw [out _ _ (by omega)]; exact hf.global
    · rw [out _ _ (by omega)]; exact hf.flow
    · rw [out _ _ (by omega)]; exact h1
    · rw [out _ _ (by omega)]; exact h2
    · simp only [Point.setPartialFlags]
      rw [field_setBit _ _ _ _ _ (by decide), field_setBit _ _ _ _ _ (by decide)]
      have := field_setBit_self (p.flags &&& not32 (1 <<< partialNullableIndex) &&& not32 (1 <<< partialReportedErrorIndex)) 9 false
        g.nullable (by
          rw [field_not _ _ _ _ (by decide) (by decide)]
          exact field_not_self _ _ (by decide))
      rw [Bool.false_or] at this
      exact this
    · simp only [Point.setPartialFlags]
      rw [field_setBit _ _ _ _ _ (by decide)]
      have := field_setBit_self (p.flags &&& not32 (1 <<< partialNullableIndex) &&& not32 (1 <<< partialReportedErrorIndex)
        ||| g.nullable.toNat <<< partialNullableIndex) 10 false g.reportedError (by
          rw [field_setBit _ _ _ _ _ (by decide)]
          exact field_not_self _ _ (by decide))
      rw [Bool.false_or] at this
      exact this
    · simp only [Point.setPartialFlags]
      have := field_setBit_self (p.flags &&& not32 (1 <<< partialNullableIndex) &&& not32 (1 <<< partialReportedErrorIndex)
        ||| g.nullable.toNat <<< partialNullableIndex ||| g.reportedError.toNat <<< partialReportedErrorIndex) 11 f.finished g.finished (by
          rw [field_setBit _ _ _ _ _ (by decide), field_setBit _ _ _ _ _ (by decide),
            field_not _ _ _ _ (by decide) (by decide), field_not _ _ _ _ (by decide) (by decide)]
          exact h5)
      have e2 : (f.finished || g.finished) = g.finished := by
        cases hfin : f.finished
        · rfl
        · rw [hg hfin]; rfl
      rw [e2] at this
      exact this
  exact ⟨hr.value.2.2.2.1, hr⟩

/-- C47 fails: a partially known type marked as finished stays so when it is stored as not finished. -/
theorem partial_flags_violation : ∃ (p : Point) (e : Entry), Reads p e ∧ e.value = .specific 91 0 ⟨false, false, true⟩ ∧
    (p.setPartialFlags noFlags).partialFlags ≠ noFlags := by
  refine ⟨(newSpecific 91 .file).setPartialFlags ⟨false, false, true⟩, _,
    (partial_flags_partial ((stored .file).2.2.2.1 91) rfl ⟨false, false, true⟩ (by decide)).2, rfl, by decide⟩

/-- C47 fails for very large file indices: the file index spills over into the kind (only a debug build notices). -/
theorem redirect_violation : (newRedirect (2 ^ 23) 0 .file).kind = some .fileReference := by decide

example : ∃ p, Reads p ⟨.redirect 77 12, .complex, true, true⟩ := by
  have := with_flow (with_global ((stored .complex).1 77 12 (by decide)) true) true
  exact ⟨_, this⟩

/-! ### The points of a file -/

/-- C47: reading after writing. -/
theorem get_set (ps ps' : Points) (i j : Nat) (p : Point) (h : ps.set i p = some ps') :
    ps'.get j = if i = j then some p else ps.get j := by
  rw [Points.set] at h
  split at h
  · rename_i hi
    rw [Option.some.injEq] at h
    subst h
    rw [Points.get, Points.get, List.getElem?_set]
    by_cases hij : i = j
    · subst hij; simp [hi]
    · simp [hij]
  · simp at h

theorem resetLoop_get : ∀ (bs : List Point) (ps : Points) (i j : Nat), i + bs.length ≤ ps.length →
    (resetLoop ps i bs)[j]? = if i ≤ j ∧ j < i + bs.length then bs[j - i]? else ps[j]?
  | [], ps, i, j, _ => by
    rw [resetLoop, if_neg (by simp only [List.length_nil]; omega)]
  | b :: bs, ps, i, j, h => by
    rw [List.length_cons] at h
    rw [resetLoop, resetLoop_get bs (List.set ps i b) (i + 1) j (by rw [List.length_set]; omega), List.length_cons]
    by_cases h1 : i + 1 ≤ j ∧ j < i + 1 + bs.length
    · rw [if_pos h1, if_pos (by omega), show j - i = (j - (i + 1)) + 1 from by omega, List.getElem?_cons_succ]
    · rw [if_neg h1, List.getElem?_set]
      by_cases hij : i = j
      · subst hij
        rw [if_pos rfl, if_pos (by omega), if_pos (by omega), Nat.sub_self, List.getElem?_cons_zero]
      · rw [if_neg hij, if_neg (by omega)]

/-- C61: after a backup of a range, whatever is stored while an alternative is tried out, resetting brings back exactly
the entries of the range and leaves the others. -/
theorem reset_backup (ps ps' : Points) (start stop : Nat) (b : Backup) (h : ps.backup start stop = some b)
    (hl : ps'.length = ps.length) (i : Nat) :
    (ps'.resetFromBackup b).get i = if start ≤ i ∧ i < stop then ps.get i else ps'.get i := by
  rw [Points.backup] at h
  split at h
  · rename_i hs
    rw [Option.some.injEq] at h
    subst h
    have hlen : ((ps.drop start).take (stop - start)).length = stop - start := by
      rw [List.length_take, List.length_drop]; omega
    rw [Points.get, Points.resetFromBackup, resetLoop_get _ _ _ _ (by rw [hlen, hl]; simp only; omega), hlen]
    simp only
    by_cases hi : start ≤ i ∧ i < stop
    · rw [if_pos hi, if_pos (by omega), List.getElem?_take, if_pos (by omega), List.getElem?_drop, Points.get]
      congr 1; omega
    · rw [if_neg hi, if_neg (by omega), Points.get]
  · simp at h

/-- C61: a range inside the file can be backed up. -/
theorem backup_some (ps : Points) (start stop : Nat) : (ps.backup start stop).isSome = decide (start ≤ stop ∧ stop ≤ ps.length) := by
  rw [Points.backup]
  by_cases h : start ≤ stop ∧ stop ≤ ps.length
  · rw [if_pos h, decide_eq_true h]; rfl
  · rw [if_neg h, decide_eq_false h]; rfl

/-- Entries that can depend on other files. -/
def External : Locality → Prop
  | .complex | .implicitExtern | .todo => True
  | _ => False

theorem locality_bits (p : Point) (l : Locality) (h : p.locality = some l) :
    (p.flags &&& localityMask) >>> localityIndex = l.num := locality_num_of h

/-- C62: the entries of a file after a file it depends on changed.  Entries that can depend on other files, and direct
links to the changed file, have to be calculated again; all others are kept. -/
theorem invalidated (ps : Points) (file : Option Nat) (i : Nat) (p : Point) (e : Entry) (hi : ps.get i = some p) (h : Reads p e) :
    (ps.invalidateReferencesTo file).length = ps.length ∧
    (External e.locality → (ps.invalidateReferencesTo file).get i = some newUncalculated) ∧
    (∀ f n, e.value = .redirect f n ∨ e.value = .fileReference f → e.locality = .directExtern →
      (ps.invalidateReferencesTo file).get i = some (if file = some f then newUncalculated else p)) ∧
    (¬ External e.locality → e.locality ≠ .directExtern → (ps.invalidateReferencesTo file).get i = some p) := by
  have hl := h.locality
  have hb := locality_bits p _ hl
  have hg : (ps.invalidateReferencesTo file).get i = some (invalidateCell file p) := by
    rw [Points.get] at hi ⊢
    rw [Points.invalidateReferencesTo, List.getElem?_map, hi]; rfl
  rw [hg]
  refine ⟨by rw [Points.invalidateReferencesTo, List.length_map], ?_, ?_, ?_⟩
  · intro hx
    rw [invalidateCell, hl, hb]
    cases hloc : e.locality <;> rw [hloc] at hx <;> simp_all [External, Locality.num]
  · intro f n hv hd
    have hr : p.rest = f := by
      have hval := h.value
      rcases hv with hv | hv
      · rw [hv] at hval; exact hval.2.1
      · rw [hv] at hval
        have := hval.2.1
        rw [Point.maybeFileReference, if_pos hval.1, Option.some.injEq] at this
        exact this
    rw [invalidateCell, hl, hb, hr, hd]
    by_cases hf : file = some f
    · simp [hf]
    · rw [if_neg (fun h => hf h.2.symm), if_neg hf, if_neg (by decide)]
  · intro hx hd
    rw [invalidateCell, hl, hb, if_neg (fun h => hd (Option.some.inj h.1))]
    cases hloc : e.locality <;> rw [hloc] at hx hd <;> simp_all [External, Locality.num]

/-- C62: what is not calculated stays so. -/
theorem invalidated_uncalculated (ps : Points) (file : Option Nat) (i : Nat) (h : ps.get i = some newUncalculated ∨ ps.get i = some newCalculating) :
    (ps.invalidateReferencesTo file).get i = ps.get i := by
  rw [Points.get] at h ⊢
  rw [Points.invalidateReferencesTo, List.getElem?_map, Points.get]
  rcases h with h | h <;> rw [h] <;> rw [Option.map_some] <;> congr 1

/-- C62: a change of the configuration drops everything. -/
theorem invalidated_full (ps : Points) (i : Nat) (h : i < ps.length) : ps.invalidateFullDb.get i = some newUncalculated := by
  rw [Points.get, Points.invalidateFullDb, List.getElem?_map, List.getElem?_eq_getElem h]; rfl

example : Points.invalidateReferencesTo [newRedirect 3 1 .directExtern, newRedirect 4 1 .directExtern, newRedirect 3 1 .file, newSpecific 20 .todo]
    (some 3) = [newUncalculated, newRedirect 4 1 .directExtern, newRedirect 3 1 .file, newUncalculated] := by decide

example : (Points.backup [newParent 1 .file, newParent 2 .file, newParent 3 .file] 1 3).isSome = true := by decide

end Verif.Point
