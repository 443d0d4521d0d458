import Verif.Len.Lemmas

/-!
# Properties of the narrowing by the length of a tuple

`then_branch`, `else_branch`: whatever a test of `len(x)` says, the branch that Python executes
gets a type that the value has. `branches_inside`: no branch gets values that were not there
before. `then_exact`, `else_exact`: for numbers below eight the branches have only the values for
which Python executes them. `panics_iff` and `no_panic_partial` are on the crash for the types
`tuple[A, B, *tuple[C, ...]]`.
-/

namespace Verif.Len

section
variable {E V : Type} (item : E → V → Prop) (vars : Nat → List V → Prop)
  (isOther : Nat → Val V → Prop)

/-- If the test holds, the value has the type of the branch. -/
theorem then_branch {parts t f : List (Part E)} {op : Operator} {n : Int} {swapped : Bool}
    (h : guard parts op n swapped = .ok (some (t, f))) {v : Val V}
    (hv : Has item vars isOther parts v) (htest : Test op n swapped v.len) :
    Has item vars isOther t v := by
  obtain ⟨m, rfl, ht, _⟩ := guard_cases h
  refine retain_covers ht hv fun len hlen => ?_
  rw [hlen] at htest
  exact matches_test.mpr htest

/-- If the test does not hold, the value has the type of the other branch. -/
theorem else_branch {parts t f : List (Part E)} {op : Operator} {n : Int} {swapped : Bool}
    (h : guard parts op n swapped = .ok (some (t, f))) {v : Val V}
    (hv : Has item vars isOther parts v) (htest : ¬ Test op n swapped v.len) :
    Has item vars isOther f v := by
  obtain ⟨m, rfl, _, hf⟩ := guard_cases h
  refine retain_covers hf hv fun len hlen => ?_
  rw [hlen, ← matches_test] at htest
  revert htest
  cases matchesLen len m _ <;> cases decide (op = .ne) <;> simp

/-- No branch has values that the type did not have before. -/
theorem branches_inside {parts t f : List (Part E)} {op : Operator} {n : Int} {swapped : Bool}
    (h : guard parts op n swapped = .ok (some (t, f))) {v : Val V}
    (hv : Has item vars isOther t v ∨ Has item vars isOther f v) :
    Has item vars isOther parts v := by
  obtain ⟨m, rfl, ht, hf⟩ := guard_cases h
  rcases hv with hv | hv
  · exact retain_inside ht hv
  · exact retain_inside hf hv

/-- The branch has only values for which the test holds, for numbers below eight. -/
theorem then_exact {parts t f : List (Part E)} {op : Operator} {n : Int} {swapped : Bool}
    (h : guard parts op n swapped = .ok (some (t, f))) (hs : ∀ p ∈ parts, Sized p) (hn : n < 8)
    (hop : op ≠ .ne) {v : Val V} (hv : Has item vars isOther t v) :
    Test op n swapped v.len := by
  obtain ⟨m, rfl, ht, _⟩ := guard_cases h
  obtain ⟨r, hr, hh⟩ := hv
  obtain ⟨p, hp, a, ha, hra⟩ := retain_mem ht hr
  obtain ⟨len, hlen, hmatch⟩ := retainPart_exact (hs p hp)
    (by simp only [maxPrecise]; omega) (.inr (decide_eq_false hop)) ha ⟨r, hra, hh⟩
  rw [hlen]
  exact matches_test.mp hmatch

/-- The other branch has only values for which the test does not hold, for numbers below eight
and the operators other than `==`: no type says that a length is not a given one. -/
theorem else_exact {parts t f : List (Part E)} {op : Operator} {n : Int} {swapped : Bool}
    (h : guard parts op n swapped = .ok (some (t, f))) (hs : ∀ p ∈ parts, Sized p) (hn : n < 8)
    (hop : op ≠ .eq) {v : Val V} (hv : Has item vars isOther f v) :
    ¬ Test op n swapped v.len := by
  obtain ⟨m, rfl, _, hf⟩ := guard_cases h
  obtain ⟨r, hr, hh⟩ := hv
  obtain ⟨p, hp, a, ha, hra⟩ := retain_mem hf hr
  obtain ⟨len, hlen, hmatch⟩ := retainPart_exact (hs p hp)
    (by simp only [maxPrecise]; omega)
    (by cases op <;> cases swapped <;> simp [Kind.fromOperand, Kind.invert] at hop ⊢)
    ha ⟨r, hra, hh⟩
  rw [hlen, ← matches_test]
  rw [hmatch]
  cases decide (op = .ne) <;> simp

/-- No type says that a length is not a given one: the other branch of `==` keeps all lengths of
a tuple of arbitrary length, so `else_exact` cannot hold for it. -/
theorem else_of_equals_is_not_exact (t : E) (x : V) (hx : item t x) (n : Nat) :
    ∃ (th el : List (Part E)),
      guard [.tuple (.arbitrary t)] .eq n false = .ok (some (th, el)) ∧
      Has item vars isOther el (.tuple (List.replicate n x)) := by
  have h0 : ¬ ((n : Int) < 0) := by omega
  by_cases hn : n ≤ maxPrecise
  · refine ⟨[.tuple (.fixed (List.replicate n t))], [.tuple (.arbitrary t)], ?_,
      _, List.mem_singleton.mpr rfl, ?_⟩
    · simp [guard, narrowLen, retain, retainPart, narrowTuple, lowerThan, Kind.fromOperand, hn,
        bind, Except.bind, pure, Except.pure, h0]
    · intro v hv
      rw [(List.mem_replicate.mp hv).2]; exact hx
  · refine ⟨[.tuple (.arbitrary t)], [.tuple (.arbitrary t)], ?_, _, List.mem_singleton.mpr rfl, ?_⟩
    · simp [guard, narrowLen, retain, retainPart, narrowTuple, hn, bind, Except.bind, pure,
        Except.pure, h0]
    · intro v hv
      rw [(List.mem_replicate.mp hv).2]; exact hx

end

/-- There is something to conclude exactly from numbers that can be a length. -/
theorem no_conclusion_iff {E : Type} {parts : List (Part E)} {op : Operator} {n : Int}
    {swapped : Bool} : guard parts op n swapped = .ok none ↔ n < 0 := by
  constructor
  · intro h
    refine Int.lt_of_not_ge fun hn => ?_
    simp only [guard] at h
    generalize (if swapped then (Kind.fromOperand op).invert else Kind.fromOperand op) = kind at h
    unfold narrowLen at h
    rw [if_neg (by omega)] at h
    cases h1 : retain n.toNat false kind parts with
    | error e => rw [h1] at h; cases h
    | ok a =>
      cases h2 : retain n.toNat true kind parts with
      | error e => rw [h1, h2] at h; cases h
      | ok b =>
        rw [h1, h2] at h
        have h : (if op = .ne then (Except.ok (some (b, a)) : Except Panic _)
              else .ok (some (a, b))) = .ok none := h
        split at h <;> cases h
  · intro h
    simp [guard, narrowLen, h, bind, Except.bind, pure, Except.pure]

theorem turns_lowerThan {op : Operator} {m : Nat} {swapped : Bool} {l : Nat} {i : Bool}
    (h : lowerThan m (if swapped then (Kind.fromOperand op).invert else Kind.fromOperand op) =
      (some l, i)) : op.Orders ∧ Turns op m swapped l := by
  cases op <;> cases swapped <;> simp [Kind.fromOperand, Kind.invert, lowerThan] at h <;>
    obtain ⟨rfl, rfl⟩ := h <;>
    simp [Operator.Orders, Turns, Test, Operator.Holds] <;> omega

theorem turns_unique {op : Operator} {n : Int} {swapped : Bool} {a b : Nat}
    (ha : Turns op n swapped a) (hb : Turns op n swapped b) : a = b := by
  have h1 := ha b
  have h2 := hb a
  have : a ≤ b ↔ b ≤ a := by rw [← h1, ← h2]; exact ⟨Iff.symm, Iff.symm⟩
  omega

theorem orders_lowerThan {op : Operator} (h : op.Orders) (m : Nat) (swapped : Bool) :
    ∃ (l : Nat) (i : Bool),
      lowerThan m (if swapped then (Kind.fromOperand op).invert else Kind.fromOperand op) =
        (some l, i) := by
  obtain ⟨h1, h2⟩ := h
  cases op <;> cases swapped <;> simp [Kind.fromOperand, Kind.invert, lowerThan] at h1 h2 ⊢

/-- When the type checker crashes: the test is an ordering whose answer changes at a length of at
most eight that is below the least length of a tuple with an unpacked tuple. -/
theorem panics_iff {E : Type} {parts : List (Part E)} {op : Operator} {n : Int}
    {swapped : Bool} : guard parts op n swapped = .error .underflow ↔
      0 ≤ n ∧ op.Orders ∧ ∃ (b : List E) (m : E) (c : List E) (length : Nat),
        .tuple (.unpack b m c) ∈ parts ∧ Turns op n swapped length ∧
        length ≤ 8 ∧ length < b.length + c.length := by
  rw [guard_error, narrowLen_error_iff]
  constructor
  · rintro ⟨hn, b, m, c, l, i, hmem, hl, hle, hlt⟩
    obtain ⟨k, rfl⟩ : ∃ (k : Nat), n = k := ⟨n.toNat, by omega⟩
    obtain ⟨ho, ht⟩ := turns_lowerThan (op := op) (swapped := swapped) hl
    exact ⟨hn, ho, b, m, c, l, hmem, ht, hle, hlt⟩
  · rintro ⟨hn, ho, b, m, c, l, hmem, ht, hle, hlt⟩
    obtain ⟨k, rfl⟩ : ∃ (k : Nat), n = k := ⟨n.toNat, by omega⟩
    obtain ⟨l', i, hl⟩ := orders_lowerThan ho k swapped
    have := turns_unique ht (turns_lowerThan hl).2
    subst this
    exact ⟨hn, b, m, c, l, i, hmem, hl, hle, hlt⟩

/-- There is no crash if no tuple with an unpacked tuple has more than `n` items that are always
there, or if the test is `==` or `!=`. -/
theorem no_panic_partial {E : Type} {parts : List (Part E)} {op : Operator} {n : Int}
    {swapped : Bool}
    (h : ¬ op.Orders ∨ ∀ (b : List E) (m : E) (c : List E), .tuple (.unpack b m c) ∈ parts →
      (b.length + c.length : Int) ≤ n) (e : Panic) :
    guard parts op n swapped ≠ .error e := by
  cases e
  intro he
  obtain ⟨hn, ho, b, m, c, l, hmem, ht, _, hlt⟩ := panics_iff.mp he
  rcases h with h | h
  · exact h ho
  · have hb := h b m c hmem
    obtain ⟨k, rfl⟩ : ∃ (k : Nat), n = k := ⟨n.toNat, by omega⟩
    obtain ⟨l', i, hl⟩ := orders_lowerThan ho k swapped
    have := turns_unique ht (turns_lowerThan hl).2
    subst this
    have : k ≤ l := by
      revert hl
      cases op <;> cases swapped <;> simp [Kind.fromOperand, Kind.invert, lowerThan] <;> omega
    omega

/-- `x: tuple[int, int, *tuple[str, ...]]` and `if len(x) > 0`: the code subtracts the two items
that are always there from one. A debug build panics and a release build asks for 2^64 - 1
items. -/
theorem no_panic_violation :
    guard [.tuple (.unpack [0, 0] 1 [])] .gt 0 false = (.error .underflow : Except Panic
      (Option (List (Part Nat) × List (Part Nat)))) := rfl

/-! ## The hypotheses can be met -/

/-- `x: tuple[int, ...] | tuple[str, str] | list[int]`, `if len(x) < 2`: the three lengths are
split. -/
example : guard [.tuple (.arbitrary 0), .tuple (.fixed [1, 1]), .other 0] .lt 2 false =
    .ok (some ([.tuple (.fixed []), .tuple (.fixed [0]), .other 0],
      [.tuple (.unpack [0, 0] 0 []), .tuple (.fixed [1, 1]), .other 0])) := rfl

/-- `if 3 <= len(x)` for `x: tuple[int, *tuple[str, ...], int]` -/
example : guard [.tuple (.unpack [0] 1 [0])] .le 3 true =
    .ok (some ([.tuple (.unpack [0, 1] 1 [0])], [.tuple (.fixed [0, 0])])) := rfl

/-- `if len(x) != 2` for a named tuple of two fields is never executed. -/
example : guard [.namedTuple [0, 0]] .ne 2 false = .ok (some ([], [.namedTuple [0, 0]])) := rfl

example : (Test .lt 2 false (Val.tuple [7]).len) ∧
    Has (fun (t : Nat) (v : Nat) => t = 0 ∧ v = 7) (fun _ _ => False) (fun _ _ => False)
      [.tuple (.arbitrary 0)] (.tuple [7]) := by
  refine ⟨by simp [Test, Operator.Holds, Val.len], _, List.mem_singleton.mpr rfl, ?_⟩
  simp [Part.Has, Args.Has]

example : Turns .gt 0 false 1 ∧ Operator.Orders .gt := by
  refine ⟨fun len => ?_, by simp [Operator.Orders]⟩
  simp [Test, Operator.Holds]; omega

example : ∀ p ∈ ([.tuple (.arbitrary 0), .namedTuple [1]] : List (Part Nat)), Sized p := by
  intro p hp
  simp only [List.mem_cons, List.not_mem_nil, or_false] at hp
  rcases hp with rfl | rfl
  · exact .arbitrary 0
  · exact .namedTuple [1]

end Verif.Len
