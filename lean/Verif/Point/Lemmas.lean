import Verif.Point.Spec

namespace Verif.Point

/-- `w` bits from bit `k` on. -/
def field (k w x : Nat) : Nat := x / 2 ^ k % 2 ^ w

theorem field_testBit (k w x i : Nat) : (field k w x).testBit i = (decide (i < w) && x.testBit (k + i)) := by
  rw [field, Nat.testBit_mod_two_pow, Nat.testBit_div_two_pow]
  congr 2; omega

theorem field_or (k w x y : Nat) : field k w (x ||| y) = field k w x ||| field k w y := by
  apply Nat.eq_of_testBit_eq
  intro i
  rw [Nat.testBit_or, field_testBit, field_testBit, field_testBit, Nat.testBit_or]
  cases decide (i < w) <;> simp

theorem field_shift_self (k w v : Nat) (h : v < 2 ^ w) : field k w (v <<< k) = v := by
  rw [field, Nat.shiftLeft_eq, Nat.mul_div_cancel _ (Nat.two_pow_pos k), Nat.mod_eq_of_lt h]

theorem field_shift_above (k w v j : Nat) (h : k + w ≤ j) : field k w (v <<< j) = 0 := by
  apply Nat.eq_of_testBit_eq
  intro i
  rw [field_testBit, Nat.testBit_shiftLeft, Nat.zero_testBit]
  by_cases hi : i < w
  · have : ¬ j ≤ k + i := by omega
    simp [this]
  · simp [hi]

theorem field_small (k w v : Nat) (h : v < 2 ^ k) : field k w v = 0 := by
  rw [field, Nat.div_eq_of_lt h, Nat.zero_mod]

theorem and_shift (x k w : Nat) : (x &&& (2 ^ w - 1) <<< k) >>> k = field k w x := by
  apply Nat.eq_of_testBit_eq
  intro i
  rw [field_testBit, Nat.testBit_shiftRight, Nat.testBit_and, Nat.testBit_shiftLeft, Nat.testBit_two_pow_sub_one]
  have h1 : k ≤ k + i := by omega
  have h2 : k + i - k = i := by omega
  rw [h2]
  simp [Bool.and_comm]

theorem and_low (x w : Nat) : x &&& (2 ^ w - 1) = field 0 w x := by
  have := and_shift x 0 w
  simpa using this

theorem and_bit_zero (x k : Nat) : x &&& 1 <<< k = 0 ↔ field k 1 x = 0 := by
  have h1 : ∀ j, Nat.testBit 1 j = decide (j = 0) := by
    intro j; cases j <;> simp [Nat.testBit_succ]
  have h : (x &&& 1 <<< k) >>> k = field k 1 x := by
    have := and_shift x k 1
    simpa using this
  constructor
  · intro e; rw [← h, e, Nat.zero_shiftRight]
  · intro e
    apply Nat.eq_of_testBit_eq
    intro i
    rw [Nat.testBit_and, Nat.zero_testBit, Nat.testBit_shiftLeft, h1]
    by_cases hi : i = k
    · subst hi
      have := field_testBit i 1 x 0
      rw [e] at this
      simp at this
      simp [this]
    · by_cases h2 : k ≤ i
      · have : ¬ i - k = 0 := by omega
        simp [this]
      · simp [h2]

theorem kind_field (p : Point) : p.kind = Kind.ofBits (field 23 3 p.flags) := by
  rw [Point.kind, kindMask, kindIndex]
  have := and_shift p.flags 23 3
  rw [show (2 ^ 3 - 1 : Nat) = 0b111 from rfl] at this
  rw [this]

theorem locality_field (p : Point) : p.locality = Locality.ofBits (field 27 3 p.flags) := by
  rw [Point.locality, localityMask, localityIndex]
  have := and_shift p.flags 27 3
  rw [show (2 ^ 3 - 1 : Nat) = 0b111 from rfl] at this
  rw [this]

theorem rest_field (p : Point) : p.rest = field 0 23 p.flags := by
  rw [Point.rest, ← and_low]; rfl

theorem specific_field (p : Point) :
    p.specific = if h : field 0 8 p.flags < 97 then some ⟨field 0 8 p.flags, h⟩ else none := by
  have e : p.flags &&& specificMask = field 0 8 p.flags := by rw [← and_low]; rfl
  simp only [Point.specific, e]

theorem bit_ne (x k : Nat) : (x &&& 1 <<< k != 0) = decide (field k 1 x ≠ 0) := by
  rw [Bool.eq_iff_iff, bne_iff_ne, decide_eq_true_iff, ne_eq, ne_eq, and_bit_zero]

theorem bit_pos (x k : Nat) : (decide (x &&& 1 <<< k > 0)) = decide (field k 1 x ≠ 0) := by
  rw [Bool.eq_iff_iff, decide_eq_true_iff, decide_eq_true_iff, ne_eq, ← and_bit_zero]
  exact Nat.pos_iff_ne_zero

theorem calculated_field (p : Point) : p.calculated = decide (field 31 1 p.flags ≠ 0) := bit_ne _ _
theorem global_field (p : Point) : p.inGlobalScope = decide (field 30 1 p.flags ≠ 0) := bit_ne _ _
theorem flow_field (p : Point) : p.needsFlow = decide (field 26 1 p.flags ≠ 0) := bit_pos _ _
theorem checked_field (p : Point) : p.functionWasChecked = decide (field 9 1 p.flags ≠ 0) := bit_pos _ _
theorem partial_field (p : Point) :
    p.partialFlags = ⟨decide (field 9 1 p.flags ≠ 0), decide (field 10 1 p.flags ≠ 0), decide (field 11 1 p.flags ≠ 0)⟩ := by
  rw [Point.partialFlags, bit_ne, bit_ne, bit_ne]; rfl

theorem fields_ext {x y : Nat} (h0 : field 0 23 x = field 0 23 y) (h1 : field 23 3 x = field 23 3 y)
    (h2 : field 26 5 x = field 26 5 y) (h3 : field 31 1 x = field 31 1 y) (h4 : x / 2 ^ 32 = y / 2 ^ 32) : x = y := by
  simp only [field] at *
  omega

theorem field_and (k w x y : Nat) : field k w (x &&& y) = field k w x &&& field k w y := by
  apply Nat.eq_of_testBit_eq
  intro i
  rw [Nat.testBit_and, field_testBit, field_testBit, field_testBit, Nat.testBit_and]
  cases decide (i < w) <;> simp

theorem field_lt (k w x : Nat) : field k w x < 2 ^ w := Nat.mod_lt _ (Nat.two_pow_pos w)

theorem redirect_fields (p : Point) (f n : Nat) (hf : f < 2 ^ 23) : p.maybeRedirectTo f n = true ↔
    p.nodeIndex = n ∧ field 31 1 p.flags = 1 ∧ field 23 3 p.flags = 2 ∧ field 0 23 p.flags = f := by
  have and_ones : ∀ k w x, field k w x &&& (2 ^ w - 1) = field k w x := by
    intro k w x
    rw [Nat.and_two_pow_sub_one_eq_mod, Nat.mod_eq_of_lt (field_lt k w x)]
  have hm : isAnalyzedMask ||| kindMask ||| restMask = 2 ^ 31 + 7 * 2 ^ 23 + (2 ^ 23 - 1) := by decide
  have hr : isAnalyzedMask ||| Kind.redirect.num <<< kindIndex = 2 ^ 31 + 2 * 2 ^ 23 := by decide
  rw [Point.maybeRedirectTo, Bool.and_eq_true, beq_iff_eq, beq_iff_eq, hm, hr]
  have g0 : field 0 23 f = f := by simp only [field]; omega
  have g1 : field 23 3 f = 0 := by simp only [field]; omega
  have g2 : field 26 5 f = 0 := by simp only [field]; omega
  have g3 : field 31 1 f = 0 := by simp only [field]; omega
  have l0 : field 0 23 (p.flags &&& (2 ^ 31 + 7 * 2 ^ 23 + (2 ^ 23 - 1))) = field 0 23 p.flags := by
    rw [field_and, show field 0 23 (2 ^ 31 + 7 * 2 ^ 23 + (2 ^ 23 - 1)) = 2 ^ 23 - 1 from by decide, and_ones]
  have l1 : field 23 3 (p.flags &&& (2 ^ 31 + 7 * 2 ^ 23 + (2 ^ 23 - 1))) = field 23 3 p.flags := by
    rw [field_and, show field 23 3 (2 ^ 31 + 7 * 2 ^ 23 + (2 ^ 23 - 1)) = 2 ^ 3 - 1 from by decide, and_ones]
  have l2 : field 26 5 (p.flags &&& (2 ^ 31 + 7 * 2 ^ 23 + (2 ^ 23 - 1))) = 0 := by
    rw [field_and, show field 26 5 (2 ^ 31 + 7 * 2 ^ 23 + (2 ^ 23 - 1)) = 0 from by decide, Nat.and_zero]
  have l3 : field 31 1 (p.flags &&& (2 ^ 31 + 7 * 2 ^ 23 + (2 ^ 23 - 1))) = field 31 1 p.flags := by
    rw [field_and, show field 31 1 (2 ^ 31 + 7 * 2 ^ 23 + (2 ^ 23 - 1)) = 2 ^ 1 - 1 from by decide, and_ones]
  have r0 : field 0 23 (2 ^ 31 + 2 * 2 ^ 23 ||| f) = f := by
    rw [field_or, show field 0 23 (2 ^ 31 + 2 * 2 ^ 23) = 0 from by decide, g0, Nat.zero_or]
  have r1 : field 23 3 (2 ^ 31 + 2 * 2 ^ 23 ||| f) = 2 := by
    rw [field_or, show field 23 3 (2 ^ 31 + 2 * 2 ^ 23) = 2 from by decide, g1]; rfl
  have r2 : field 26 5 (2 ^ 31 + 2 * 2 ^ 23 ||| f) = 0 := by
    rw [field_or, show field 26 5 (2 ^ 31 + 2 * 2 ^ 23) = 0 from by decide, g2]; rfl
  have r3 : field 31 1 (2 ^ 31 + 2 * 2 ^ 23 ||| f) = 1 := by
    rw [field_or, show field 31 1 (2 ^ 31 + 2 * 2 ^ 23) = 1 from by decide, g3]; rfl
  constructor
  · rintro ⟨hn, he⟩
    refine ⟨hn, ?_, ?_, ?_⟩
    · rw [← l3, he, r3]
    · rw [← l1, he, r1]
    · rw [← l0, he, r0]
  · rintro ⟨hn, h3, h1, h0⟩
    refine ⟨hn, ?_⟩
    apply fields_ext
    · rw [l0, r0, h0]
    · rw [l1, r1, h1]
    · rw [l2, r2]
    · rw [l3, r3, h3]
    · have a : (p.flags &&& (2 ^ 31 + 7 * 2 ^ 23 + (2 ^ 23 - 1))) / 2 ^ 32 = 0 := by
        have : p.flags &&& (2 ^ 31 + 7 * 2 ^ 23 + (2 ^ 23 - 1)) ≤ 2 ^ 31 + 7 * 2 ^ 23 + (2 ^ 23 - 1) := Nat.and_le_right
        omega
      have b : (2 ^ 31 + 2 * 2 ^ 23 ||| f) / 2 ^ 32 = 0 := by
        have : 2 ^ 31 + 2 * 2 ^ 23 ||| f < 2 ^ 32 := Nat.or_lt_two_pow (by decide) (by omega)
        omega
      rw [a, b]

end Verif.Point
