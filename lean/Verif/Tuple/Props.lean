import Verif.Tuple.Sound

/-!
# Properties of tuple types (C38 - C41)
-/

namespace Verif.Tuple

open Spec

variable {V T : Type}

theorem toUsize_eq_some {i : Int} {n : Nat} : toUsize i = some n ↔ i = n ∧ n ≤ usizeMax := by
  unfold toUsize
  split
  · simp only [Option.some.injEq]; omega
  · simp only [reduceCtorEq, false_iff]; omega

theorem toUsize_eq_none {i : Int} : toUsize i = none ↔ i < 0 ∨ usizeMax < i := by
  unfold toUsize
  split
  · simp only [reduceCtorEq, false_iff]; omega
  · simp only [true_iff]; omega

/-! ## C38: indexing -/

/-- C38, fixed-length part: for every value of the type, an error is reported exactly when
Python raises `IndexError`, otherwise the inferred type is a single type which contains
the element. -/
theorem index_fixed (mem : V → T → Prop) (ts : List T) (hlen : ts.length ≤ usizeMax) (vs : List V)
    (h : Conforms mem (.fixedLen ts) vs) (i : Int) :
    match getItem (.fixedLen ts) i with
    | .outOfRange => pyIndex vs i = none
    | .object => False
    | .union us => ∃ v t, pyIndex vs i = some v ∧ us = [t] ∧ mem v t := by
  simp only [Conforms] at h
  have hl := h.length_eq
  have hidx : (if i < 0 then (ts.length : Int) + i else i) = (if i < 0 then i + (vs.length : Int) else i) := by
    split <;> omega
  simp only [getItem, hidx, pyIndex]
  generalize (if i < 0 then i + (vs.length : Int) else i) = j
  cases hj : toUsize j with
  | none =>
    simp only
    rcases toUsize_eq_none.mp hj with h0 | h0
    · rw [if_neg (by omega)]
    · rw [if_pos (by omega)]; exact List.getElem?_eq_none (by omega)
  | some n =>
    obtain ⟨rfl, -⟩ := toUsize_eq_some.mp hj
    simp only [Int.toNat_natCast, Nat.cast_nonneg, if_true]
    cases ht : ts[n]? with
    | none => simp only; rw [List.getElem?_eq_none_iff] at *; omega
    | some t =>
      simp only
      have hn : n < vs.length := by have := (List.getElem?_eq_some_iff.mp ht).1; omega
      obtain ⟨t', ht', hm⟩ := forall₂_getElem? h (List.getElem?_eq_getElem hn)
      rw [ht] at ht'; cases ht'
      exact ⟨_, t, List.getElem?_eq_getElem hn, rfl, hm⟩

/-- C38, general part: whenever Python's indexing succeeds, the inferred type contains the
element. -/
theorem index_sound (mem : V → T → Prop) (args : Args T)
    (hlen : ∀ ts, args = .fixedLen ts → ts.length ≤ usizeMax)
    (vs : List V) (h : Conforms mem args vs) (i : Int) (v : V) (hv : pyIndex vs i = some v) :
    Covers mem v (getItem args i) := by
  cases args with
  | fixedLen ts =>
    have := index_fixed mem ts (hlen ts rfl) vs h i
    revert this
    cases getItem (.fixedLen ts) i with
    | outOfRange => simp [hv]
    | object => simp
    | union us => rintro ⟨v', t, h1, rfl, hm⟩; rw [hv] at h1; cases h1; simpa [Covers] using hm
  | arbitraryLen t =>
    simp only [getItem, Covers, List.mem_singleton, exists_eq_left]
    have hm : v ∈ vs := by
      simp only [pyIndex] at hv
      split at hv
      · split at hv
        · exact List.mem_of_getElem? hv
        · simp at hv
      · split at hv
        · exact List.mem_of_getElem? hv
        · simp at hv
    exact h v hm
  | withUnpack b u a =>
    obtain ⟨v1, v2, v3, rfl, h1, h2, h3⟩ := h
    have l1 := h1.length_eq
    have l3 := h3.length_eq
    simp only [getItem]
    by_cases hi : i < 0
    · simp only [hi, if_true]
      cases hj : toUsize (-i - 1) with
      | none => trivial
      | some n =>
        obtain ⟨hn, hn'⟩ := toUsize_eq_some.mp hj
        simp only
        by_cases hlt : n ≥ a.length + b.length
        · rw [if_pos hlt]; trivial
        rw [if_neg hlt]
        simp only [pyIndex, hi, if_true] at hv
        split at hv
        swap
        · simp at hv
        rename_i hpos
        simp only [List.length_append] at hv hpos
        by_cases hna : n < a.length
        · rw [if_pos hna]
          rw [List.getElem?_append_right (by simp; omega)] at hv
          obtain ⟨t, ht, hm⟩ := forall₂_getElem? h3 hv
          have : a[a.length - n - 1]? = some t := by
            rw [← ht]; congr 1; simp; omega
          simp only [this, Covers, List.mem_singleton, exists_eq_left]
          exact hm
        · rw [if_neg hna]
          cases u with
          | typeVarTuple => trivial
          | arbitraryLen t =>
            simp only [Covers] at h2 ⊢
            rw [List.getElem?_append_left (by simp; omega), List.getElem?_append] at hv
            split at hv
            · obtain ⟨t', ht', hm⟩ := forall₂_getElem? h1 hv
              refine ⟨t', ?_, hm⟩
              simp only [List.mem_append, List.mem_reverse, List.mem_singleton]
              left
              apply List.mem_of_getElem? (i := b.length - 1 - (i + ((v1.length + v2.length + v3.length : Nat) : Int)).toNat)
              have hb := (List.getElem?_eq_some_iff.mp ht').1
              rw [List.getElem?_take_of_lt (by omega), List.getElem?_reverse (by omega), ← ht']
              congr 1; omega
            · exact ⟨t, by simp, h2 v (List.mem_of_getElem? hv)⟩
    · simp only [hi, if_false]
      cases hj : toUsize i with
      | none => trivial
      | some n =>
        obtain ⟨hn, hn'⟩ := toUsize_eq_some.mp hj
        subst hn
        simp only
        by_cases hlt : n ≥ b.length + a.length
        · rw [if_pos hlt]; trivial
        rw [if_neg hlt]
        simp only [pyIndex, hi, if_false, Nat.cast_nonneg, if_true, Int.toNat_natCast] at hv
        rw [List.append_assoc] at hv
        by_cases hnb : n < b.length
        · rw [if_pos hnb]
          rw [List.getElem?_append_left (by omega)] at hv
          obtain ⟨t, ht, hm⟩ := forall₂_getElem? h1 hv
          simp only [ht, Covers, List.mem_singleton, exists_eq_left]
          exact hm
        · rw [if_neg hnb]
          cases u with
          | typeVarTuple => trivial
          | arbitraryLen t =>
            simp only [Covers] at h2 ⊢
            rw [List.getElem?_append_right (by omega)] at hv
            rw [List.getElem?_append] at hv
            split at hv
            · exact ⟨t, by simp, h2 v (List.mem_of_getElem? hv)⟩
            · obtain ⟨t', ht', hm⟩ := forall₂_getElem? h3 hv
              refine ⟨t', ?_, hm⟩
              simp only [List.mem_cons]
              right
              apply List.mem_of_getElem? (i := n - v1.length - v2.length)
              rw [List.getElem?_take_of_lt (by omega), ht']

/-- C38, error part for variadic tuples: an error is reported exactly if the index does not
exist in the shortest values of the type (those whose variadic part is empty). -/
theorem index_error_variadic (b : List T) (u : Unpack T) (a : List T)
    (hlen : b.length + a.length ≤ usizeMax) (i : Int) (vs : List V)
    (hvs : vs.length = b.length + a.length) :
    getItem (.withUnpack b u a) i = .outOfRange ↔ pyIndex vs i = none := by
  simp only [getItem, pyIndex]
  by_cases hi : i < 0
  · simp only [hi, if_true]
    cases hj : toUsize (-i - 1) with
    | none =>
      have := toUsize_eq_none.mp hj
      rw [if_neg (by omega)]; simp
    | some n =>
      obtain ⟨hn, hn'⟩ := toUsize_eq_some.mp hj
      simp only
      by_cases hlt : n ≥ a.length + b.length
      · rw [if_pos hlt, if_neg (show ¬ 0 ≤ i + (vs.length : Int) by omega)]; simp
      rw [if_neg hlt, if_pos (show 0 ≤ i + (vs.length : Int) by omega)]
      have : vs[(i + (vs.length : Int)).toNat]? ≠ none := by
        rw [Ne, List.getElem?_eq_none_iff]; omega
      simp only [this, iff_false]
      by_cases hna : n < a.length
      · rw [if_pos hna, List.getElem?_eq_getElem (by omega)]; simp
      · rw [if_neg hna]; cases u <;> simp
  · simp only [hi, if_false]
    have hp : (0 : Int) ≤ i := by omega
    simp only [hp, if_true]
    cases hj : toUsize i with
    | none =>
      have := toUsize_eq_none.mp hj
      simp; omega
    | some n =>
      obtain ⟨hn, hn'⟩ := toUsize_eq_some.mp hj
      subst hn
      simp only
      by_cases hlt : n ≥ b.length + a.length
      · rw [if_pos hlt]; simp; omega
      rw [if_neg hlt]
      have : vs[((n : Int)).toNat]? ≠ none := by
        rw [Ne, List.getElem?_eq_none_iff]; omega
      simp only [this, iff_false]
      by_cases hna : n < b.length
      · rw [if_pos hna, List.getElem?_eq_getElem (by omega)]; simp
      · rw [if_neg hna]; cases u <;> simp

/-- The hypotheses of `index_sound` are met by `tuple[int, *tuple[str, ...], bytes]`
(types 0, 1, 2; a value belongs to the type with its number) and a value of length 4. -/
example : Conforms (fun v t : Nat => v = t) (.withUnpack [0] (.arbitraryLen 1) [2]) [0, 1, 1, 2] ∧
    pyIndex [0, 1, 1, 2] (-2) = some 1 ∧
    getItem (.withUnpack [0] (.arbitraryLen 1) [2]) (-2) = .union [0, 1] := by
  refine ⟨⟨[0], [1, 1], [2], rfl, by simp, by simp, by simp⟩, rfl, by decide +kernel⟩

example : getItem (.withUnpack [0] (.arbitraryLen 1) [2]) 2 = .outOfRange ∧ [0, 2].length = [0].length + [2].length := by
  decide +kernel

example : Conforms (fun v t : Nat => v = t) (.fixedLen [0, 1, 2]) [0, 1, 2] ∧
    getItem (.fixedLen [0, 1, 2]) (-3) = .union [0] := by
  refine ⟨by simp [Conforms], by decide +kernel⟩

/-! ## C39: slices of fixed-length tuples -/

/-- C39: the element types of the slice are exactly Python's selection, in Python's order, for
every start, stop and non-zero step; a zero step is reported. -/
theorem slice_fixed (ts : List T) (hlen : ts.length ≤ usizeMax) (start stop : Option Int) (step : Int) :
    (step = 0 → getSlice (.fixedLen ts) start stop step = .stepZero) ∧
    (step ≠ 0 → ∃ us, getSlice (.fixedLen ts) start stop step = .tuple (.fixedLen us) ∧
      us.map some = pySlice ts start stop step) := by
  constructor
  · intro h; simp [getSlice, h]
  · intro h
    exact ⟨asFixedLenTuple ts start stop step, by simp [getSlice, h], asFixed_eq_pySlice ts start stop step h hlen⟩

example : getSlice (.fixedLen [10, 11, 12, 13, 14]) (some (-1)) (some 0) (-2) = .tuple (.fixedLen [14, 12]) ∧
    pySlice [10, 11, 12, 13, 14] (some (-1)) (some 0) (-2) = [some 14, some 12] := by
  constructor
  · decide +kernel
  · decide +kernel

/-! ## C40: slices of variadic tuples -/

/-- The slices of a variadic tuple type for which the code is right: every forward slice, the
full reversal, and the backward slices that are answered from the prefix or suffix. -/
def SliceFine (before : List T) (start stop : Option Int) (step : Int) : Prop :=
  step < 0 → (start = none ∧ stop = none) ∨
    (start ≠ some (before.length : Int) ∧
      (step ≠ -1 ∨ (∃ s, start = some s ∧ 0 ≤ s) ∨ (∃ e, stop = some e ∧ e < 0)))

/-- C40, partial: full statement is without `hfine`, which is false
(`slice_variadic_start_violation`, `slice_variadic_stop_violation`,
`slice_variadic_reverse_violation`).  For every run-time tuple of the type, the sliced value
exists and has the inferred type. -/
theorem slice_sound_partial (mem : V → T → Prop) (args : Args T) (start stop : Option Int) (step : Int)
    (hlen : match args with
      | .fixedLen ts => ts.length ≤ usizeMax
      | .arbitraryLen _ => True
      | .withUnpack b _ a => b.length ≤ usizeMax ∧ a.length ≤ usizeMax)
    (hfine : ∀ b u a, args = .withUnpack b u a → SliceFine b start stop step)
    (res : Args T) (hres : getSlice args start stop step = .tuple res)
    (vs : List V) (hvs : Conforms mem args vs) :
    ∃ rs, pySlice vs start stop step = rs.map some ∧ Conforms mem res rs := by
  unfold getSlice at hres
  split at hres
  · simp at hres
  rename_i hstep
  cases args with
  | fixedLen ts =>
    simp only [SliceResult.tuple.injEq] at hres
    subst hres
    have hl : vs.length = ts.length := hvs.length_eq
    exact ⟨_, (asFixed_eq_pySlice vs start stop step hstep (hl ▸ hlen)).symm,
      forall₂_asFixed hvs start stop step⟩
  | arbitraryLen t =>
    simp only [SliceResult.tuple.injEq] at hres
    subst hres
    obtain ⟨rs, h1, h2⟩ := pySlice_mem vs start stop step hstep
    exact ⟨rs, h1, fun v hv => hvs v (h2 v hv)⟩
  | withUnpack b u a =>
    have hfine := hfine b u a rfl
    obtain ⟨hlb, hla⟩ := hlen
    obtain ⟨v1, v2, v3, rfl, h1, h2, h3⟩ := hvs
    have l1 := h1.length_eq
    have l3 := h3.length_eq
    simp only [sliceUnpack] at hres
    cases hsp : sliceSpecial b a start stop step with
    | some ts =>
      rw [hsp] at hres
      simp only [SliceResult.tuple.injEq] at hres
      subst hres
      obtain ⟨r, hr, hc⟩ := sliceSpecial_sound mem b a start stop step hstep hlb hla ts hsp
        (by intro hneg heq; rcases hfine hneg with ⟨h, -⟩ | ⟨h, -⟩
            · rw [h] at heq; simp at heq
            · exact h heq) v1 v2 v3 h1 h3
      exact ⟨r, hr, hc⟩
    | none =>
      rw [hsp] at hres
      simp only at hres
      split at hres
      · rename_i hs1
        subst hs1
        split at hres
        · simp at hres
        rename_i hc1
        split at hres
        · simp at hres
        rename_i hc2
        simp only [SliceResult.tuple.injEq] at hres
        subst hres
        push Not at hc1 hc2
        refine ⟨v1.drop (start.getD 0).toNat ++ v2 ++ (v3.reverse.drop (-(stop.getD 0)).toNat).reverse, ?_, ?_⟩
        · apply pySlice_one
          · omega
          · omega
          · cases stop with
            | none => simp
            | some e => simp at hc1 ⊢; omega
          · omega
        · apply simplify_conforms
          exact ⟨_, _, _, rfl, forall₂_drop _ h1, h2,
            forall₂_reverse (forall₂_drop _ (forall₂_reverse h3))⟩
      · rename_i hs1
        split at hres
        · rename_i hs2
          subst hs2
          split at hres
          · simp at hres
          rename_i hc1
          split at hres
          · simp at hres
          rename_i hc2
          simp only [SliceResult.tuple.injEq] at hres
          subst hres
          push Not at hc1 hc2
          rcases hfine (by omega) with ⟨rfl, rfl⟩ | ⟨-, h | ⟨s, rfl, hs⟩ | ⟨e, rfl, he⟩⟩
          · refine ⟨v3.reverse ++ v2.reverse ++ v1.reverse, ?_, ?_⟩
            · rw [pySlice_reverse]; simp
            · apply simplify_conforms
              refine ⟨_, _, _, rfl, by simpa using forall₂_reverse h3, ?_, by simpa using forall₂_reverse h1⟩
              cases u with
              | typeVarTuple => trivial
              | arbitraryLen t => simpa using h2
          · simp at h
          · simp at hc1; omega
          · simp at hc1; omega
        · simp at hres

/-- C40 violated: `t: tuple[int, *tuple[str, ...]]`, `t[1::-1]` is inferred as `tuple[int]`, but
for `t = (0, "a")` the value is `("a", 0)`. -/
theorem slice_variadic_start_violation :
    ∃ (b : List Nat) (u : Unpack Nat) (a : List Nat) (start stop : Option Int) (step : Int)
      (res : Args Nat) (vs rs : List Nat),
      Conforms (fun v t : Nat => v = t) (.withUnpack b u a) vs ∧
      getSlice (.withUnpack b u a) start stop step = .tuple res ∧
      pySlice vs start stop step = rs.map some ∧
      ¬ Conforms (fun v t : Nat => v = t) res rs := by
  refine ⟨[0], .arbitraryLen 1, [], some 1, none, -1, .fixedLen [0], [0, 1], [1, 0],
    ⟨[0], [1], [], rfl, by simp, by simp, by simp⟩, by decide +kernel, by decide +kernel, ?_⟩
  simp [Conforms]

/-- C40 violated: `t: tuple[int, *tuple[str, ...]]`, `t[:0:-1]` is inferred as
`tuple[*tuple[str, ...], int]`, but the first element is never selected. -/
theorem slice_variadic_stop_violation :
    ∃ (b : List Nat) (u : Unpack Nat) (a : List Nat) (start stop : Option Int) (step : Int)
      (res : Args Nat) (vs rs : List Nat),
      start = none ∧ stop = some 0 ∧ step = -1 ∧
      Conforms (fun v t : Nat => v = t) (.withUnpack b u a) vs ∧
      getSlice (.withUnpack b u a) start stop step = .tuple res ∧
      pySlice vs start stop step = rs.map some ∧
      ¬ Conforms (fun v t : Nat => v = t) res rs := by
  refine ⟨[0], .arbitraryLen 1, [], none, some 0, -1, .withUnpack [] (.arbitraryLen 1) [0], [0, 1], [1],
    rfl, rfl, rfl,
    ⟨[0], [1], [], rfl, by simp, by simp, by simp⟩, by decide +kernel, by decide +kernel, ?_⟩
  rintro ⟨v1, v2, v3, h, h1, -, h3⟩
  simp only [List.forall₂_nil_right_iff] at h1
  subst h1
  rcases h3 with _ | ⟨rfl, h3⟩
  simp only [List.forall₂_nil_right_iff] at h3
  subst h3
  cases v2 with
  | nil => simp at h
  | cons _ v2 => simp at h

/-- C40 violated: `t: tuple[*tuple[int, ...], str]`, `t[-1::-1]` is inferred without the last
element although it is the first one selected. -/
theorem slice_variadic_reverse_violation :
    ∃ (b : List Nat) (u : Unpack Nat) (a : List Nat) (start stop : Option Int) (step : Int)
      (res : Args Nat) (vs rs : List Nat),
      start = some (-1) ∧ stop = none ∧ step = -1 ∧
      Conforms (fun v t : Nat => v = t) (.withUnpack b u a) vs ∧
      getSlice (.withUnpack b u a) start stop step = .tuple res ∧
      pySlice vs start stop step = rs.map some ∧
      ¬ Conforms (fun v t : Nat => v = t) res rs := by
  refine ⟨[], .arbitraryLen 0, [1], some (-1), none, -1, .arbitraryLen 0, [0, 1], [1, 0],
    rfl, rfl, rfl,
    ⟨[], [0], [1], rfl, by simp, by simp, by simp⟩, by decide +kernel, by decide +kernel, ?_⟩
  simp [Conforms]

/-- `slice_sound_partial` is not vacuous: `tuple[int, *tuple[str, ...], bytes]`, `t[1:-1]`. -/
example : SliceFine [0] (some 1) (some (-1)) 1 ∧
    getSlice (.withUnpack [0] (.arbitraryLen 1) [2]) (some 1) (some (-1)) 1 = .tuple (.arbitraryLen 1) ∧
    Conforms (fun v t : Nat => v = t) (.withUnpack [0] (.arbitraryLen 1) [2]) [0, 1, 1, 2] := by
  refine ⟨by simp [SliceFine], by decide +kernel, ⟨[0], [1, 1], [2], rfl, by simp, by simp, by simp⟩⟩

/-- ... and a backward one, `t[:-3:-1]` answered from the suffix. -/
example : SliceFine [0] none (some (-3)) (-1) ∧
    getSlice (.withUnpack [0] (.arbitraryLen 1) [2, 3]) none (some (-3)) (-1) = .tuple (.fixedLen [3, 2]) := by
  refine ⟨?_, by decide +kernel⟩
  intro _; right; exact ⟨by simp, .inr (.inr ⟨_, rfl, by omega⟩)⟩

/-! ## C41: concatenation and repetition -/

/-- C41: concatenation of two tuples. -/
theorem add_sound (mem : V → T → Prop) (x y res : Args T) (h : tupleAdd x y = some res)
    (vs ws : List V) (hv : Conforms mem x vs) (hw : Conforms mem y ws) :
    Conforms mem res (vs ++ ws) := by
  unfold tupleAdd at h
  split at h <;> cases h
  · exact List.rel_append hv hw
  · obtain ⟨v1, v2, v3, rfl, h1, h2, h3⟩ := hw
    exact ⟨vs ++ v1, v2, v3, by simp, List.rel_append hv h1, h2, h3⟩
  · obtain ⟨v1, v2, v3, rfl, h1, h2, h3⟩ := hv
    exact ⟨v1, v2, v3 ++ ws, by simp, h1, h2, List.rel_append h3 hw⟩

/-- C41: repetition of a tuple by an integer literal (negative numbers included). -/
theorem mul_sound (mem : V → T → Prop) (x res : Args T) (n : Int) (h : tupleMul x n = some res)
    (vs : List V) (hv : Conforms mem x vs) : Conforms mem res (pyRepeat vs n) := by
  unfold tupleMul at h
  split at h
  · simp only at h
    split at h
    · simp at h
    · cases h
      rename_i ts _
      have e : (max n 0).toNat = n.toNat := by omega
      rw [e, cycleTake_mul]
      exact forall₂_repeat hv _
  · cases h
    intro v hm
    simp only [pyRepeat, List.mem_flatten, List.mem_replicate] at hm
    obtain ⟨l, ⟨-, rfl⟩, hm⟩ := hm
    exact hv v hm
  · simp at h

/-- C41, tuple displays with several unpacked parts `(*a, *b, ...)`: whenever the parts can be
gathered, every run-time concatenation has the gathered type. -/
theorem gather_sound (mem : V → T → Prop) (pieces : List (Args T)) (res : Args T)
    (h : gather pieces = some res) (vss : List (List V))
    (hv : List.Forall₂ (fun vs p => Conforms mem p vs) vss pieces) :
    Conforms mem res vss.flatten := by
  unfold gather at h
  rw [Option.map_eq_some_iff] at h
  obtain ⟨g, hg, rfl⟩ := h
  apply gathered_conforms
  simpa using gather_fold mem pieces _ g hg vss hv [] ⟨rfl, .nil⟩

/-- C41, partial (full statement: without `hok`; false by `add_before_and_after_violation`):
splicing a tuple type between element types. -/
theorem add_before_and_after_sound_partial (mem : V → T → Prop) (args : Args T) (before after : List T)
    (hok : ∀ b u a, args = .withUnpack b u a → after = [] ∨ a = [])
    (vb vs va : List V) (hb : List.Forall₂ mem vb before) (ha : List.Forall₂ mem va after)
    (hv : Conforms mem args vs) :
    Conforms mem (addBeforeAndAfter args before after) (vb ++ vs ++ va) := by
  cases args with
  | fixedLen ts => exact List.rel_append (List.rel_append hb hv) ha
  | arbitraryLen t =>
    simp only [addBeforeAndAfter]
    split
    · rename_i hc
      obtain ⟨hc1, rfl⟩ := hc
      rw [List.length_eq_zero_iff] at hc1
      subst hc1
      cases hb; cases ha
      simpa using hv
    · exact ⟨vb, vs, va, rfl, hb, hv, ha⟩
  | withUnpack b u a =>
    obtain ⟨v1, v2, v3, rfl, h1, h2, h3⟩ := hv
    refine ⟨vb ++ v1, v2, v3 ++ va, by simp, List.rel_append hb h1, h2, ?_⟩
    rcases hok b u a rfl with rfl | rfl
    · cases ha; simpa using h3
    · cases h3; simpa using ha

/-- C41 violated: `tuple[*tuple[*Ts, str], int]` is normalised to `tuple[*Ts, int, str]`. -/
theorem add_before_and_after_violation :
    ∃ (args : Args Nat) (before after : List Nat) (vs va : List Nat),
      Conforms (fun v t : Nat => v = t) args vs ∧ List.Forall₂ (fun v t : Nat => v = t) va after ∧
      ¬ Conforms (fun v t : Nat => v = t) (addBeforeAndAfter args before after) (vs ++ va) := by
  refine ⟨.withUnpack [] (.arbitraryLen 0) [1], [], [2], [1], [2], ⟨[], [], [1], rfl, by simp, by simp, by simp⟩,
    by simp, ?_⟩
  rintro ⟨v1, v2, v3, h, h1, -, h3⟩
  simp only [List.append_nil, List.forall₂_nil_right_iff] at h1
  subst h1
  rcases h3 with _ | ⟨rfl, _ | ⟨rfl, h3⟩⟩
  simp only [List.forall₂_nil_right_iff] at h3
  subst h3
  rcases v2 with _ | ⟨x, _ | ⟨y, v2⟩⟩ <;> simp at h

example : tupleAdd (.fixedLen [0]) (.withUnpack [1] (.arbitraryLen 2) [3]) =
    some (.withUnpack [0, 1] (.arbitraryLen 2) [3]) := by decide +kernel

example : tupleMul (.fixedLen [0, 1]) 2 = some (.fixedLen [0, 1, 0, 1]) ∧
    pyRepeat [0, 1] 2 = [0, 1, 0, 1] := by decide +kernel

example : gather [.fixedLen [0], .withUnpack [1] (.arbitraryLen 2) [3], .fixedLen [4]] =
    some (.withUnpack [0, 1] (.arbitraryLen 2) [3, 4]) := by decide +kernel

example : ∃ args : Args Nat, (∀ b u a, args = .withUnpack b u a → ([2] : List Nat) = [] ∨ a = []) ∧
    Conforms (fun v t : Nat => v = t) args [0, 5, 5] ∧
    addBeforeAndAfter args [9] [2] = .withUnpack [9, 0] (.arbitraryLen 5) [2] :=
  ⟨.withUnpack [0] (.arbitraryLen 5) [], by simp, ⟨[0], [5, 5], [], rfl, by simp, by simp, by simp⟩, by decide +kernel⟩

end Verif.Tuple
