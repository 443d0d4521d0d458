import Verif.Arith.Spec
import Mathlib.Tactic.Linarith
import Mathlib.Tactic.Ring

/-!
# Operations on literals (lemmas)
-/

namespace Verif.Arith

theorem fits_iff {n : Int} : fits n = true ↔ -(2 ^ 63) ≤ n ∧ n < 2 ^ 63 := by
  simp [fits]

theorem checked_some {n m : Int} (h : checked n = some m) : m = n ∧ fits n = true := by
  unfold checked at h
  split at h
  · rename_i hf
    exact ⟨(Option.some.inj h).symm, hf⟩
  · cases h

theorem checked_fits {n : Int} (h : fits n = true) : checked n = some n := by
  simp [checked, h]

/-! ## Division -/

theorem tdiv_tmod (a b : Int) : b * Int.tdiv a b + Int.tmod a b = a := Int.mul_tdiv_add_tmod a b

theorem tmod_bounds {a b : Int} (hb : b ≠ 0) :
    (0 ≤ a → 0 ≤ Int.tmod a b) ∧ (a ≤ 0 → Int.tmod a b ≤ 0) ∧
    -(|b|) < Int.tmod a b ∧ Int.tmod a b < |b| := by
  have h1 : 0 ≤ a → 0 ≤ Int.tmod a b := fun h => Int.tmod_nonneg b h
  have h2 : a ≤ 0 → Int.tmod a b ≤ 0 := by
    intro h
    have := Int.tmod_nonneg b (a := -a) (by omega)
    rw [Int.neg_tmod] at this
    omega
  have h3 : Int.tmod a b < |b| := by
    rcases lt_or_gt_of_ne hb with h | h
    · rw [abs_of_neg h, ← Int.tmod_neg]
      exact Int.tmod_lt_of_pos a (by omega)
    · rw [abs_of_pos h]
      exact Int.tmod_lt_of_pos a h
  have h4 : -(|b|) < Int.tmod a b := by
    have : Int.tmod (-a) b < |b| := by
      rcases lt_or_gt_of_ne hb with h | h
      · rw [abs_of_neg h, ← Int.tmod_neg]
        exact Int.tmod_lt_of_pos _ (by omega)
      · rw [abs_of_pos h]
        exact Int.tmod_lt_of_pos _ h
    rw [Int.neg_tmod] at this
    omega
  exact ⟨h1, h2, h4, h3⟩

/-- The quotient rounded towards minus infinity. -/
def IsFloor (a b q : Int) : Prop :=
  (0 < b → q * b ≤ a ∧ a < (q + 1) * b) ∧ (b < 0 → q * b ≥ a ∧ a > (q + 1) * b)

theorem isFloor_unique {a b q q' : Int} (hb : b ≠ 0) (h : IsFloor a b q) (h' : IsFloor a b q') :
    q = q' := by
  rcases lt_or_gt_of_ne hb with hneg | hpos
  · obtain ⟨h1, h2⟩ := h.2 hneg
    obtain ⟨h3, h4⟩ := h'.2 hneg
    have a1 : q < q' + 1 := by nlinarith
    have a2 : q' < q + 1 := by nlinarith
    omega
  · obtain ⟨h1, h2⟩ := h.1 hpos
    obtain ⟨h3, h4⟩ := h'.1 hpos
    have a1 : q < q' + 1 := by nlinarith
    have a2 : q' < q + 1 := by nlinarith
    omega

/-- The correction of the truncated quotient. -/
theorem floor_fix {a b : Int} (hb : b ≠ 0) :
    IsFloor a b (if Int.tmod a b ≠ 0 ∧ ((Int.tmod a b > 0) ≠ (b > 0)) then Int.tdiv a b - 1
      else Int.tdiv a b) := by
  have h := tdiv_tmod a b
  obtain ⟨h1, h2, h3, h4⟩ := tmod_bounds (a := a) hb
  generalize Int.tdiv a b = q at *
  generalize Int.tmod a b = r at *
  subst h
  rcases lt_or_gt_of_ne hb with hneg | hpos
  · rw [abs_of_neg hneg] at h3 h4
    refine ⟨fun h => by omega, fun _ => ?_⟩
    have hb' : ¬ (b > 0) := by omega
    split
    · rename_i hc
      have : r > 0 := by
        by_contra hr
        exact hc.2 (by simp [hr, hb'])
      constructor <;> nlinarith
    · rename_i hc
      have : r ≤ 0 := by
        by_contra hr
        exact hc ⟨by omega, by simp [hb']; omega⟩
      constructor <;> nlinarith
  · rw [abs_of_pos hpos] at h3 h4
    refine ⟨fun _ => ?_, fun h => by omega⟩
    split
    · rename_i hc
      have : r < 0 := by
        rcases lt_trichotomy r 0 with hr | hr | hr
        · exact hr
        · exact absurd hr hc.1
        · exact absurd (by simp [hr, hpos]) hc.2
      constructor <;> nlinarith
    · rename_i hc
      have : r ≥ 0 := by
        by_contra hr
        exact hc ⟨by omega, by simp [hpos]; omega⟩
      constructor <;> nlinarith

theorem pyDivFloor_floor {a b q : Int} (hb : b ≠ 0) (h : pyDivFloor a b = some q) :
    IsFloor a b q := by
  have hf := floor_fix (a := a) hb
  unfold pyDivFloor at h
  split at h
  · cases h
  · rename_i t ht
    obtain ⟨rfl, _⟩ := checked_some ht
    dsimp only at h
    split at h
    · rename_i hc
      rw [if_pos hc] at hf
      obtain ⟨rfl, _⟩ := checked_some h
      exact hf
    · rename_i hc
      rw [if_neg hc] at hf
      rw [← Option.some.inj h]
      exact hf

/-- The remainder. -/
def IsMod (a b m : Int) : Prop :=
  (∃ (q : Int), a = q * b + m) ∧ (0 < b → 0 ≤ m ∧ m < b) ∧ (b < 0 → b < m ∧ m ≤ 0)

theorem isMod_floor {a b m : Int} (h : IsMod a b m) :
    ∃ (q : Int), IsFloor a b q ∧ m = a - q * b := by
  obtain ⟨⟨q, rfl⟩, h1, h2⟩ := h
  refine ⟨q, ⟨fun hb => ?_, fun hb => ?_⟩, by ring⟩
  · obtain ⟨ha, hb'⟩ := h1 hb
    constructor <;> nlinarith
  · obtain ⟨ha, hb'⟩ := h2 hb
    constructor <;> nlinarith

theorem isMod_unique {a b m m' : Int} (hb : b ≠ 0) (h : IsMod a b m) (h' : IsMod a b m') :
    m = m' := by
  obtain ⟨q, hq, rfl⟩ := isMod_floor h
  obtain ⟨q', hq', rfl⟩ := isMod_floor h'
  rw [isFloor_unique hb hq hq']

theorem floor_isMod {a b q : Int} (h : IsFloor a b q) : IsMod a b (a - q * b) := by
  refine ⟨⟨q, by ring⟩, fun hb => ?_, fun hb => ?_⟩
  · obtain ⟨h1, h2⟩ := h.1 hb
    constructor <;> nlinarith
  · obtain ⟨h1, h2⟩ := h.2 hb
    constructor <;> nlinarith

theorem mod_fix {a b : Int} (hb : b ≠ 0) :
    IsMod a b (if Int.tmod a b ≠ 0 ∧ ((Int.tmod a b > 0) ≠ (b > 0)) then Int.tmod a b + b
      else Int.tmod a b) := by
  have h := tdiv_tmod a b
  have hf := floor_isMod (floor_fix (a := a) hb)
  split
  · rename_i hc
    rw [if_pos hc] at hf
    have : a - (Int.tdiv a b - 1) * b = Int.tmod a b + b := by linarith
    rwa [this] at hf
  · rename_i hc
    rw [if_neg hc] at hf
    have : a - Int.tdiv a b * b = Int.tmod a b := by linarith
    rwa [this] at hf

theorem pyMod_mod {a b m : Int} (hb : b ≠ 0) (h : pyMod a b = some m) : IsMod a b m := by
  have hf := mod_fix (a := a) hb
  unfold pyMod at h
  split at h
  · cases h
  · dsimp only at h
    split at h
    · rename_i hc
      rw [if_pos hc] at hf
      obtain ⟨rfl, _⟩ := checked_some h
      exact hf
    · rename_i hc
      rw [if_neg hc] at hf
      rw [← Option.some.inj h]
      exact hf

/-! ## Bits -/

instance (n : Int) (i : Nat) : Decidable (bit n i) := by
  unfold bit
  infer_instance

theorem bit_nat (n i : Nat) : bit (n : Int) i ↔ n.testBit i = true := by
  unfold bit
  rw [Nat.testBit_eq_decide_div_mod_eq]
  simp only [decide_eq_true_eq]
  norm_cast

theorem bit_bitVec (b : BitVec 64) (i : Nat) :
    bit b.toInt i ↔ (if i < 64 then b.getLsbD i else b.msb) = true := by
  rw [BitVec.toInt_eq_msb_cond]
  cases hm : b.msb with
  | false =>
    simp only [Bool.false_eq_true, if_false, bit_nat, BitVec.testBit_toNat]
    split
    · exact Iff.rfl
    · rename_i h
      rw [BitVec.getLsbD_of_ge b i (by omega)]
  | true =>
    simp only [if_true]
    have hlt : b.toNat < 2 ^ 64 := b.isLt
    split
    · rename_i h
      rw [← BitVec.testBit_toNat, ← bit_nat]
      unfold bit
      have e : ((2 ^ 64 : Nat) : Int) = 2 ^ (63 - i) * 2 * 2 ^ i := by
        push_cast
        rw [mul_assoc, ← pow_succ', ← pow_add, show 63 - i + (i + 1) = 64 by omega]
        norm_num
      rw [e]
      have hp : (2 : Int) ^ i ≠ 0 := by positivity
      rw [Int.sub_mul_ediv_right _ _ hp]
      omega
    · rename_i h
      simp only [iff_true]
      unfold bit
      have hp : (0 : Int) < 2 ^ i := by positivity
      have hge : (2 : Int) ^ 64 ≤ 2 ^ i := pow_le_pow_right₀ (by norm_num) (by omega)
      have hq : ((b.toNat : Int) - ((2 ^ 64 : Nat) : Int)) / 2 ^ i = -1 := by
        rw [Int.ediv_eq_iff_of_pos hp]
        push_cast
        omega
      rw [hq]
      rfl

theorem toInt_ofInt {n : Int} (h : fits n = true) : (BitVec.ofInt 64 n).toInt = n := by
  rw [fits_iff] at h
  exact BitVec.toInt_ofInt_eq_self (by norm_num) h.1 h.2

theorem bit_bits {f : BitVec 64 → BitVec 64 → BitVec 64} {g : Bool → Bool → Bool}
    (hf : ∀ (x y : BitVec 64) (i : Nat), i < 64 → (f x y).getLsbD i = g (x.getLsbD i) (y.getLsbD i))
    {a b : Int} (ha : fits a = true) (hb : fits b = true) (i : Nat) :
    bit (bits f a b) i ↔ g (decide (bit a i)) (decide (bit b i)) = true := by
  have key : ∀ (x y : BitVec 64), bit (f x y).toInt i ↔
      g (decide (bit x.toInt i)) (decide (bit y.toInt i)) = true := by
    intro x y
    rw [bit_bitVec]
    have e : ∀ (z : BitVec 64), decide (bit z.toInt i) = (if i < 64 then z.getLsbD i else z.msb) := by
      intro z
      have := bit_bitVec z i
      cases h : (if i < 64 then z.getLsbD i else z.msb) with
      | false => rw [h] at this; simpa using this
      | true => rw [h] at this; simpa using this
    rw [e, e]
    split
    · rw [hf x y i (by assumption)]
    · simp only [BitVec.msb_eq_getLsbD_last]
      rw [hf x y _ (by omega)]
  have := key (BitVec.ofInt 64 a) (BitVec.ofInt 64 b)
  rw [toInt_ofInt ha, toInt_ofInt hb] at this
  exact this

theorem emod_bits {n m : Int} (h : ∀ (i : Nat), bit n i ↔ bit m i) :
    ∀ (k : Nat), n % 2 ^ k = m % 2 ^ k
  | 0 => by simp [Int.emod_one]
  | k + 1 => by
    have ih := emod_bits h k
    have split : ∀ (x : Int), x % 2 ^ (k + 1) = 2 ^ k * (x / 2 ^ k % 2) + x % 2 ^ k := by
      intro x
      have hp : (0 : Int) < 2 ^ k := by positivity
      have h1 := Int.mul_ediv_add_emod x (2 ^ k)
      have h2 := Int.emod_nonneg x (ne_of_gt hp)
      have h3 := Int.emod_lt_of_pos x hp
      have h4 := Int.mul_ediv_add_emod (x / 2 ^ k) 2
      have h5 : x / 2 ^ k % 2 = 0 ∨ x / 2 ^ k % 2 = 1 := by omega
      have hp' : (0 : Int) < 2 ^ (k + 1) := by positivity
      refine ((Int.ediv_emod_unique hp' (q := x / 2 ^ k / 2)).mpr ⟨?_, ?_, ?_⟩).2
      · rw [pow_succ]
        calc _ = 2 ^ k * (2 * (x / 2 ^ k / 2) + x / 2 ^ k % 2) + x % 2 ^ k := by ring
          _ = x := by rw [h4, h1]
      · rcases h5 with h | h <;> rw [h] <;> omega
      · rw [pow_succ]
        rcases h5 with h | h <;> rw [h] <;> omega
    have par : n / 2 ^ k % 2 = m / 2 ^ k % 2 := by
      have hk := h k
      unfold bit at hk
      omega
    rw [split n, split m, ih, par]

theorem bits_ext {n m : Int} (h : ∀ (i : Nat), bit n i ↔ bit m i) : n = m := by
  have hk : |n - m| < 2 ^ (n - m).natAbs := by
    have : (n - m).natAbs < 2 ^ (n - m).natAbs := Nat.lt_two_pow_self
    rw [Int.abs_eq_natAbs]
    exact_mod_cast this
  have hd : (2 : Int) ^ (n - m).natAbs ∣ n - m :=
    Int.dvd_of_emod_eq_zero (Int.emod_eq_emod_iff_emod_sub_eq_zero.mp (emod_bits h _))
  have := Int.eq_zero_of_abs_lt_dvd hd hk
  omega

/-! ## Python is deterministic -/

theorem shr_floor {l q : Int} {n : Nat} (h1 : q * 2 ^ n ≤ l) (h2 : l < (q + 1) * 2 ^ n) :
    IsFloor l (2 ^ n) q :=
  ⟨fun _ => ⟨h1, h2⟩, fun h => absurd (by positivity : (0 : Int) < 2 ^ n) (by omega)⟩

theorem intEval_unique {l r : Int} {op : Op} {x y : Lit} (hx : IntEval l op r (.value x))
    (hy : IntEval l op r (.value y)) : x = y := by
  cases hx with
  | add => cases hy; rfl
  | sub => cases hy; rfl
  | mul => cases hy; rfl
  | floordiv h0 h1 h2 =>
    cases hy with
    | floordiv _ h3 h4 => rw [isFloor_unique h0 ⟨h1, h2⟩ ⟨h3, h4⟩]
  | mod h0 h1 h2 h3 =>
    cases hy with
    | mod _ h4 h5 h6 => rw [isMod_unique h0 ⟨h1, h2, h3⟩ ⟨h4, h5, h6⟩]
  | pow => cases hy; rfl
  | shl => cases hy; rfl
  | shr h1 h2 =>
    cases hy with
    | shr h3 h4 =>
      rw [isFloor_unique (by positivity) (shr_floor h1 h2) (shr_floor h3 h4)]
  | or h =>
    cases hy with
    | or h' => rw [bits_ext fun i => (h i).trans (h' i).symm]
  | and h =>
    cases hy with
    | and h' => rw [bits_ext fun i => (h i).trans (h' i).symm]
  | xor h =>
    cases hy with
    | xor h' => rw [bits_ext fun i => (h i).trans (h' i).symm]

/-! ## Numbers -/

theorem fitsU32_iff {n : Int} : fitsU32 n = true ↔ 0 ≤ n ∧ n < 2 ^ 32 := by
  simp [fitsU32]

theorem orInt_lit {n : Option Int} {x : Lit} (h : orInt n = .lit x) : ∃ (k : Int), n = some k ∧ x = .int k := by
  cases n with
  | none => cases h
  | some k => exact ⟨k, rfl, by simpa [orInt] using h.symm⟩

/-- A literal is the result. -/
theorem intOp_lit {l r : Int} (hl : fits l = true) (hr : fits r = true) {op : Op} {x : Lit}
    (h : intOp l op r = .lit x) : IntEval l op r (.value x) := by
  cases op with
  | add =>
    obtain ⟨k, hk, rfl⟩ := orInt_lit h
    rw [(checked_some hk).1]
    exact .add
  | sub =>
    obtain ⟨k, hk, rfl⟩ := orInt_lit h
    rw [(checked_some hk).1]
    exact .sub
  | mul =>
    obtain ⟨k, hk, rfl⟩ := orInt_lit h
    rw [(checked_some hk).1]
    exact .mul
  | div =>
    simp only [intOp] at h
    split at h <;> cases h
  | floordiv =>
    simp only [intOp] at h
    split at h
    · cases h
    · rename_i h0
      obtain ⟨k, hk, rfl⟩ := orInt_lit h
      obtain ⟨h1, h2⟩ := pyDivFloor_floor h0 hk
      exact .floordiv h0 h1 h2
  | mod =>
    simp only [intOp] at h
    split at h
    · cases h
    · rename_i h0
      obtain ⟨k, hk, rfl⟩ := orInt_lit h
      obtain ⟨h1, h2, h3⟩ := pyMod_mod h0 hk
      exact .mod h0 h1 h2 h3
  | pow =>
    simp only [intOp] at h
    split at h
    · rename_i hu
      obtain ⟨k, hk, rfl⟩ := orInt_lit h
      rw [(checked_some hk).1]
      have hn := (fitsU32_iff.mp hu).1
      conv => arg 3; rw [← Int.toNat_of_nonneg hn]
      exact .pow
    · split at h <;> cases h
  | shr =>
    simp only [intOp] at h
    split at h
    · rename_i hu
      obtain ⟨k, hk, rfl⟩ := orInt_lit h
      have hn := (fitsU32_iff.mp hu).1
      split at hk
      · rw [← Option.some.inj hk, BitVec.toInt_sshiftRight, toInt_ofInt hl,
          Int.shiftRight_eq_div_pow]
        conv => arg 3; rw [← Int.toNat_of_nonneg hn]
        have hp : (0 : Int) < 2 ^ r.toNat := by positivity
        have e : ((2 ^ r.toNat : Nat) : Int) = 2 ^ r.toNat := by push_cast; rfl
        rw [e]
        refine .shr ?_ ?_
        · exact Int.ediv_mul_le l (ne_of_gt hp)
        · exact Int.lt_ediv_add_one_mul_self l hp
      · cases hk
    · split at h <;> cases h
  | shl =>
    simp only [intOp] at h
    split at h
    · rename_i hu
      have hn := (fitsU32_iff.mp hu).1
      split at h
      · cases h
      · obtain ⟨k, hk, rfl⟩ := orInt_lit h
        rw [(checked_some hk).1]
        conv => arg 3; rw [← Int.toNat_of_nonneg hn]
        exact .shl
    · split at h <;> cases h
  | or =>
    simp only [intOp, Out.lit.injEq] at h
    subst h
    refine .or fun i => ?_
    rw [bit_bits (g := fun x y => x || y) (fun x y i _ => BitVec.getLsbD_or) hl hr]
    simp
  | and =>
    simp only [intOp, Out.lit.injEq] at h
    subst h
    refine .and fun i => ?_
    rw [bit_bits (g := fun x y => x && y) (fun x y i _ => BitVec.getLsbD_and) hl hr]
    simp
  | xor =>
    simp only [intOp, Out.lit.injEq] at h
    subst h
    refine .xor fun i => ?_
    rw [bit_bits (g := fun x y => x ^^ y) (fun x y i _ => BitVec.getLsbD_xor) hl hr]
    by_cases h1 : bit l i <;> by_cases h2 : bit r i <;> simp [h1, h2]
  | matmul => cases h
  | compare => cases h

theorem intEval_det {l r : Int} {op : Op} {x : Lit} {e : Eval} (hx : IntEval l op r (.value x))
    (he : IntEval l op r e) : e = .value x := by
  cases he with
  | div h => cases hx
  | divLarge h => cases hx
  | divZero => cases hx
  | floordivZero =>
    cases hx with
    | floordiv h _ _ => exact absurd rfl h
  | modZero =>
    cases hx with
    | mod h _ _ _ => exact absurd rfl h
  | powNegative h _ =>
    cases hx with
    | pow => omega
  | powZero h =>
    cases hx with
    | pow => omega
  | shlNegative h =>
    cases hx with
    | shl => omega
  | shrNegative h =>
    cases hx with
    | shr _ _ => omega
  | _ => rw [intEval_unique hx (by constructor <;> assumption)]

theorem intEval_value {l r : Int} {op : Op} {x : Lit} (h : IntEval l op r (.value x)) :
    (∃ (n : Int), x = .int n) ∧ op ≠ .div ∧ (op = .pow → 0 ≤ r) := by
  cases h <;> simp

theorem intEval_float {l r : Int} {op : Op} (h : IntEval l op r .float) :
    op = .div ∨ (op = .pow ∧ r < 0) := by
  cases h with
  | div => exact .inl rfl
  | powNegative h _ => exact .inr ⟨rfl, h⟩

theorem orInt_cases (n : Option Int) : orInt n = .int ∨ ∃ (k : Int), orInt n = .lit (.int k) := by
  cases n with
  | none => exact .inl rfl
  | some k => exact .inr ⟨k, rfl⟩

/-- What `intOp` may return. -/
theorem intOp_cases (l : Int) (op : Op) (r : Int) :
    (∃ (k : Int), intOp l op r = .lit (.int k)) ∨
    (intOp l op r = .int ∧ op ≠ .div ∧ (op = .pow → 0 ≤ r)) ∨
    (intOp l op r = .float ∧ (op = .div ∧ r ≠ 0 ∨ op = .pow ∧ r < 0)) ∨
    (intOp l op r = .issue .divisionByZero ∧ r = 0 ∧ (op = .div ∨ op = .floordiv ∨ op = .mod)) ∨
    (intOp l op r = .issue .negativeShift ∧ r < 0 ∧ (op = .shl ∨ op = .shr)) ∨
    (intOp l op r = .unknown ∧ (op = .shl ∧ 0 ≤ r ∨ op = .compare)) ∨
    (intOp l op r = .assertion ∧ op = .matmul) := by
  have small : ∀ {n : Int}, fitsU32 n = true → 0 ≤ n := fun h => (fitsU32_iff.mp h).1
  cases op with
  | add =>
    rcases orInt_cases (checked (l + r)) with h | h
    · exact .inr (.inl ⟨h, by simp⟩)
    · exact .inl h
  | sub =>
    rcases orInt_cases (checked (l - r)) with h | h
    · exact .inr (.inl ⟨h, by simp⟩)
    · exact .inl h
  | mul =>
    rcases orInt_cases (checked (l * r)) with h | h
    · exact .inr (.inl ⟨h, by simp⟩)
    · exact .inl h
  | div =>
    simp only [intOp]
    split
    · exact .inr (.inr (.inr (.inl ⟨rfl, by assumption, by simp⟩)))
    · exact .inr (.inr (.inl ⟨rfl, .inl ⟨trivial, by assumption⟩⟩))
  | floordiv =>
    simp only [intOp]
    split
    · exact .inr (.inr (.inr (.inl ⟨rfl, by assumption, by simp⟩)))
    · rcases orInt_cases (pyDivFloor l r) with h | h
      · exact .inr (.inl ⟨h, by simp⟩)
      · exact .inl h
  | mod =>
    simp only [intOp]
    split
    · exact .inr (.inr (.inr (.inl ⟨rfl, by assumption, by simp⟩)))
    · rcases orInt_cases (pyMod l r) with h | h
      · exact .inr (.inl ⟨h, by simp⟩)
      · exact .inl h
  | pow =>
    simp only [intOp]
    split
    · rename_i hu
      rcases orInt_cases (checked (l ^ r.toNat)) with h | h
      · exact .inr (.inl ⟨h, by simp, fun _ => small hu⟩)
      · exact .inl h
    · split
      · rename_i h
        exact .inr (.inl ⟨rfl, by simp, fun _ => h⟩)
      · rename_i h
        exact .inr (.inr (.inl ⟨rfl, .inr ⟨trivial, by omega⟩⟩))
  | shr =>
    simp only [intOp]
    split
    · rcases orInt_cases (if r.toNat < 64 then some ((BitVec.ofInt 64 l).sshiftRight r.toNat).toInt
        else none) with h | h
      · exact .inr (.inl ⟨h, by simp⟩)
      · exact .inl h
    · split
      · exact .inr (.inl ⟨rfl, by simp⟩)
      · exact .inr (.inr (.inr (.inr (.inl ⟨rfl, by omega, by simp⟩))))
  | shl =>
    simp only [intOp]
    split
    · rename_i hu
      split
      · exact .inr (.inr (.inr (.inr (.inr (.inl ⟨rfl, .inl ⟨trivial, small hu⟩⟩)))))
      · rcases orInt_cases (checked (l * 2 ^ r.toNat)) with h | h
        · exact .inr (.inl ⟨h, by simp⟩)
        · exact .inl h
    · split
      · exact .inr (.inl ⟨rfl, by simp⟩)
      · exact .inr (.inr (.inr (.inr (.inl ⟨rfl, by omega, by simp⟩))))
  | or => exact .inl ⟨_, rfl⟩
  | and => exact .inl ⟨_, rfl⟩
  | xor => exact .inl ⟨_, rfl⟩
  | matmul => exact .inr (.inr (.inr (.inr (.inr (.inr ⟨rfl, rfl⟩)))))
  | compare => exact .inr (.inr (.inr (.inr (.inr (.inl ⟨rfl, .inr rfl⟩)))))

/-- If both operands count as numbers, then it is an operation on numbers. -/
theorem operation_int {a b : Lit} {l r : Int} {op : Op} (ha : IsInt a l) (hb : IsInt b r)
    (hn : ¬ (∃ (x y : Bool), a = .bool x ∧ b = .bool y ∧ (op = .or ∨ op = .and ∨ op = .xor))) :
    operation a op b = if fits l && fits r then intOp l op r else .unknown := by
  have f1 : fits 1 = true := rfl
  have f0 : fits 0 = true := rfl
  have both : ∀ (x y : Bool), a = .bool x → b = .bool y →
      boolOp x op y = intOp (if x then 1 else 0) op (if y then 1 else 0) := by
    intro x y hx hy
    cases op with
    | or => exact absurd ⟨x, y, hx, hy, by simp⟩ hn
    | and => exact absurd ⟨x, y, hx, hy, by simp⟩ hn
    | xor => exact absurd ⟨x, y, hx, hy, by simp⟩ hn
    | _ => rfl
  cases ha <;> cases hb
  · rfl
  · simp only [operation, plainOp, ofBool]; rfl
  · simp only [operation, plainOp, ofBool]; rfl
  · simp only [operation, plainOp, ofBool]; rfl
  · simp only [operation, both true true rfl rfl]; rfl
  · simp only [operation, both true false rfl rfl]; rfl
  · simp only [operation, plainOp, ofBool]; rfl
  · simp only [operation, both false true rfl rfl]; rfl
  · simp only [operation, both false false rfl rfl]; rfl

/-! ## Texts -/

theorem mulStr_eq {s : List Char} {a : Lit} {n : Int} (ha : IsInt a n) :
    operation (.str s) .mul a = repeatStr s n ∧ operation a .mul (.str s) = repeatStr s n := by
  cases ha <;> exact ⟨rfl, rfl⟩

theorem mulBytes_eq {s : List Nat} {a : Lit} {n : Int} (ha : IsInt a n) :
    operation (.bytes s) .mul a = repeatBytes s n ∧ operation a .mul (.bytes s) = repeatBytes s n := by
  cases ha <;> exact ⟨rfl, rfl⟩

theorem times_nat {n : Nat} (h : n < 2 ^ 63) : times (n : Int) = n := by
  unfold times
  rw [if_pos (by omega)]
  rfl

theorem times_neg {n : Int} (h : n < 0) : times n = 0 := by
  unfold times
  rw [if_neg (by omega)]

theorem replicate_nil {α : Type} (n : Nat) : (List.replicate n ([] : List α)).flatten = [] := by
  simp

/-- What the multiplication of a text may return. -/
theorem repeatStr_cases (s : List Char) (n : Int) :
    repeatStr s n = .overflow ∨ repeatStr s n = .literalString ∨
    repeatStr s n = .lit (.str (List.replicate (times n) s).flatten) := by
  unfold repeatStr
  split
  · exact .inl rfl
  · split
    · exact .inr (.inl rfl)
    · split
      · rename_i h
        rw [List.isEmpty_iff.mp h, replicate_nil]
        exact .inr (.inr rfl)
      · exact .inr (.inr rfl)

theorem repeatBytes_cases (s : List Nat) (n : Int) :
    repeatBytes s n = .overflow ∨ repeatBytes s n = .bytes ∨
    repeatBytes s n = .lit (.bytes (List.replicate (times n) s).flatten) := by
  unfold repeatBytes
  split
  · exact .inl rfl
  · split
    · exact .inr (.inl rfl)
    · exact .inr (.inr rfl)

theorem repeats_value {α : Type} {s : List α} {mk : List α → Lit} {n : Int} {e : Eval}
    (h : Repeats s mk n e) :
    e = .value (mk (List.replicate (times n) s).flatten) ∨ e = .tooLarge := by
  cases h with
  | nonneg h => rw [times_nat h]; exact .inl rfl
  | negative h _ => rw [times_neg h]; exact .inl rfl
  | tooLarge _ => exact .inr rfl
  | memory _ => exact .inr rfl

theorem repeats_exists {α : Type} (s : List α) (mk : List α → Lit) (n : Int) :
    Repeats s mk n (.value (mk (List.replicate (times n) s).flatten)) ∨ Repeats s mk n .tooLarge := by
  by_cases h : -(2 ^ 63) ≤ n ∧ n < 2 ^ 63
  · left
    by_cases h0 : n < 0
    · rw [times_neg h0]
      exact .negative h0 h.1
    · obtain ⟨k, rfl⟩ := Int.eq_ofNat_of_zero_le (by omega : 0 ≤ n)
      have hk : k < 2 ^ 63 := by omega
      rw [times_nat hk]
      exact .nonneg hk
  · exact .inr (.tooLarge h)

theorem utf8Len_append (a b : List Char) : utf8Len (a ++ b) = utf8Len a + utf8Len b := by
  simp [utf8Len]

theorem utf8Len_replicate (n : Nat) (s : List Char) :
    utf8Len (List.replicate n s).flatten = utf8Len s * n := by
  induction n with
  | zero => simp [utf8Len]
  | succ n ih =>
    rw [List.replicate_succ, List.flatten_cons, utf8Len_append, ih]
    ring

theorem utf8Len_pos {s : List Char} (h : s ≠ []) : 0 < utf8Len s := by
  cases s with
  | nil => exact absurd rfl h
  | cons c s =>
    have := c.utf8Size_pos
    simp only [utf8Len, List.map_cons, List.sum_cons]
    omega

/-! ## Precision -/

theorem tdiv_fits {a b : Int} (ha : fits a = true) (hb : b ≠ 0)
    (h : ¬ (a = -(2 ^ 63) ∧ b = -1)) : fits (Int.tdiv a b) = true := by
  rw [fits_iff] at ha ⊢
  by_cases h1 : b = 1
  · subst h1
    rw [Int.tdiv_one]
    exact ha
  by_cases h2 : b = -1
  · subst h2
    have : a ≠ -(2 ^ 63) := fun h' => h ⟨h', rfl⟩
    rw [Int.tdiv_neg, Int.tdiv_one]
    omega
  · have e : (Int.tdiv a b).natAbs = a.natAbs / b.natAbs := Int.natAbs_tdiv a b
    have : a.natAbs / b.natAbs ≤ a.natAbs / 2 := Nat.div_le_div_left (by omega) (by omega)
    omega

theorem pyDivFloor_some {a b q : Int} (ha : fits a = true) (hb : b ≠ 0) (hq : fits q = true)
    (h : IsFloor a b q) : pyDivFloor a b = some q := by
  have hne : ¬ (a = -(2 ^ 63) ∧ b = -1) := by
    rintro ⟨rfl, rfl⟩
    have := h.2 (by omega)
    rw [fits_iff] at hq
    omega
  have e := isFloor_unique hb h (floor_fix hb)
  unfold pyDivFloor
  rw [checked_fits (tdiv_fits ha hb hne)]
  dsimp only
  split
  · rename_i hc
    rw [if_pos hc] at e
    rw [← e, checked_fits hq]
  · rename_i hc
    rw [if_neg hc] at e
    rw [← e]

theorem pyMod_some {a b m : Int} (ha : fits a = true) (hb : b ≠ 0) (hm : fits m = true)
    (hne : ¬ (a = -(2 ^ 63) ∧ b = -1)) (h : IsMod a b m) : pyMod a b = some m := by
  have e := isMod_unique hb h (mod_fix hb)
  unfold pyMod
  rw [checked_fits (tdiv_fits ha hb hne)]
  dsimp only
  split
  · rename_i hc
    rw [if_pos hc] at e
    rw [← e, checked_fits hm]
  · rename_i hc
    rw [if_neg hc] at e
    rw [← e]

end Verif.Arith
