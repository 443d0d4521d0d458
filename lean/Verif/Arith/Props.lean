import Verif.Arith.Lemmas

/-!
# Arithmetic with literals: the properties

C158: the literals that are computed are those of Python, and other types are right.
C159: a division by zero and a negative shift are reported if and only if they happen.
C160: the computation ends, without a crash, after a bounded number of steps, with a small literal.
-/

namespace Verif.Arith

/-! ## C158: the results -/

/-- The type that is inferred for an operator is the type of what Python computes: if it is a
literal, then it is exactly the value. -/
theorem type_right {a b : Lit} {op : Op} {e : Eval} (he : Evals a op b e) (ok : e.ok)
    (hi : ∀ (i : Issue), operation a op b ≠ .issue i) :
    (operation a op b).Has e ∨ operation a op b = .unknown ∨ operation a op b = .overflow := by
  cases he with
  | @int _ _ l r _ _ ha hb hE hn =>
    rw [operation_int ha hb hn] at hi ⊢
    split
    · rename_i hf
      rw [if_pos hf] at hi
      rw [Bool.and_eq_true] at hf
      rcases intOp_cases l op r with ⟨k, h⟩ | ⟨h, h1, h2⟩ | ⟨h, h1⟩ | ⟨h, _⟩ | ⟨h, _⟩ | ⟨h, _⟩ | ⟨h, h1⟩
      · rw [intEval_det (intOp_lit hf.1 hf.2 h) hE, h]
        exact .inl rfl
      · rw [h]
        left
        cases e with
        | value x =>
          obtain ⟨⟨n, rfl⟩, _⟩ := intEval_value hE
          trivial
        | float =>
          rcases intEval_float hE with h' | ⟨h', h3⟩
          · exact absurd h' h1
          · exact absurd (h2 h') (by omega)
        | _ => exact ok.elim
      · rw [h]
        left
        cases e with
        | value x =>
          obtain ⟨_, h2, h3⟩ := intEval_value hE
          rcases h1 with ⟨h', _⟩ | ⟨h', h4⟩
          · exact absurd h' h2
          · exact absurd (h3 h') (by omega)
        | float => trivial
        | _ => exact ok.elim
      · exact absurd h (hi _)
      · exact absurd h (hi _)
      · exact .inr (.inl h)
      · subst h1
        cases hE
    · exact .inr (.inl rfl)
  | boolOr => exact .inl rfl
  | boolAnd => exact .inl rfl
  | @boolXor a b => cases a <;> cases b <;> exact .inl rfl
  | addStr => exact .inl rfl
  | addBytes => exact .inl rfl
  | @mulStr s _ n _ ha hR =>
    rw [(mulStr_eq ha).1]
    rcases repeats_value hR with rfl | rfl
    · rcases repeatStr_cases s n with h | h | h
      · exact .inr (.inr h)
      · rw [h]; exact .inl trivial
      · rw [h]; exact .inl rfl
    · exact ok.elim
  | @strMul s _ n _ ha hR =>
    rw [(mulStr_eq ha).2]
    rcases repeats_value hR with rfl | rfl
    · rcases repeatStr_cases s n with h | h | h
      · exact .inr (.inr h)
      · rw [h]; exact .inl trivial
      · rw [h]; exact .inl rfl
    · exact ok.elim
  | @mulBytes s _ n _ ha hR =>
    rw [(mulBytes_eq ha).1]
    rcases repeats_value hR with rfl | rfl
    · rcases repeatBytes_cases s n with h | h | h
      · exact .inr (.inr h)
      · rw [h]; exact .inl trivial
      · rw [h]; exact .inl rfl
    · exact ok.elim
  | @bytesMul s _ n _ ha hR =>
    rw [(mulBytes_eq ha).2]
    rcases repeats_value hR with rfl | rfl
    · rcases repeatBytes_cases s n with h | h | h
      · exact .inr (.inr h)
      · rw [h]; exact .inl trivial
      · rw [h]; exact .inl rfl
    · exact ok.elim

/-- `-7 // 2` is `-4`. -/
example : Evals (.int (-7)) .floordiv (.int 2) (.value (.int (-4))) ∧
    operation (.int (-7)) .floordiv (.int 2) = .lit (.int (-4)) :=
  ⟨.int .int .int (.floordiv (by decide) (by decide) (by decide)) (by simp), by decide +kernel⟩

/-- `2 ** 70` is an `int` but not a literal. -/
example : operation (.int 2) .pow (.int 70) = .int := by decide +kernel

/-- What Python does with the numbers of two literals, if the result of the model is a literal. -/
theorem literal_int {a b : Lit} {op : Op} {x : Lit} {l r : Int} (ha : IsInt a l) (hb : IsInt b r)
    (hn : ¬ (∃ (x y : Bool), a = .bool x ∧ b = .bool y ∧ (op = .or ∨ op = .and ∨ op = .xor)))
    (h : operation a op b = .lit x) : IntEval l op r (.value x) := by
  rw [operation_int ha hb hn] at h
  split at h
  · rename_i hf
    rw [Bool.and_eq_true] at hf
    rcases intOp_cases l op r with ⟨k, h'⟩ | ⟨h', _⟩ | ⟨h', _⟩ | ⟨h', _⟩ | ⟨h', _⟩ | ⟨h', _⟩ | ⟨h', _⟩
    · have := intOp_lit hf.1 hf.2 h'
      rw [h'] at h
      cases h
      exact this
    all_goals
      rw [h'] at h
      cases h
  · cases h

/-- If a literal is inferred, then the operator exists in Python, and it never raises a
`ZeroDivisionError` or a `ValueError` and never has another value. -/
theorem literal_right {a b : Lit} {op : Op} {x : Lit} (h : operation a op b = .lit x) :
    (Evals a op b (.value x) ∨ Evals a op b .tooLarge) ∧
    ∀ (e : Eval), Evals a op b e → e = .value x ∨ e = .tooLarge := by
  have key : ∀ {l r : Int}, IsInt a l → IsInt b r →
      ¬ (∃ (x y : Bool), a = .bool x ∧ b = .bool y ∧ (op = .or ∨ op = .and ∨ op = .xor)) →
      Evals a op b (.value x) := fun ha hb hn => .int ha hb (literal_int ha hb hn h) hn
  constructor
  · cases a with
    | int l =>
      cases b with
      | int r => exact .inl (key .int .int (by simp))
      | bool y =>
        cases y
        · exact .inl (key .int .false (by simp))
        · exact .inl (key .int .true (by simp))
      | str s =>
        cases op <;> try (cases h; done)
        rcases repeats_exists s .str l with h' | h'
        · rw [(mulStr_eq .int).2] at h
          rcases repeatStr_cases s l with h'' | h'' | h'' <;> rw [h''] at h <;> cases h
          exact .inl (.strMul .int h')
        · exact .inr (.strMul .int h')
      | bytes s =>
        cases op <;> try (cases h; done)
        rcases repeats_exists s .bytes l with h' | h'
        · rw [(mulBytes_eq .int).2] at h
          rcases repeatBytes_cases s l with h'' | h'' | h'' <;> rw [h''] at h <;> cases h
          exact .inl (.bytesMul .int h')
        · exact .inr (.bytesMul .int h')
    | str s =>
      cases b with
      | str t =>
        cases op <;> cases h
        exact .inl .addStr
      | bytes t => cases op <;> cases h
      | int r =>
        cases op <;> try (cases h; done)
        rcases repeats_exists s .str r with h' | h'
        · rw [(mulStr_eq .int).1] at h
          rcases repeatStr_cases s r with h'' | h'' | h'' <;> rw [h''] at h <;> cases h
          exact .inl (.mulStr .int h')
        · exact .inr (.mulStr .int h')
      | bool y =>
        have hy : IsInt (.bool y) (if y then 1 else 0) := by cases y <;> constructor
        cases op <;> try (cases y <;> cases h; done)
        rcases repeats_exists s .str (if y then 1 else 0) with h' | h'
        · rw [(mulStr_eq hy).1] at h
          rcases repeatStr_cases s (if y then 1 else 0) with h'' | h'' | h'' <;> rw [h''] at h <;>
            cases h
          exact .inl (.mulStr hy h')
        · exact .inr (.mulStr hy h')
    | bytes s =>
      cases b with
      | bytes t =>
        cases op <;> cases h
        exact .inl .addBytes
      | str t => cases op <;> cases h
      | int r =>
        cases op <;> try (cases h; done)
        rcases repeats_exists s .bytes r with h' | h'
        · rw [(mulBytes_eq .int).1] at h
          rcases repeatBytes_cases s r with h'' | h'' | h'' <;> rw [h''] at h <;> cases h
          exact .inl (.mulBytes .int h')
        · exact .inr (.mulBytes .int h')
      | bool y =>
        have hy : IsInt (.bool y) (if y then 1 else 0) := by cases y <;> constructor
        cases op <;> try (cases y <;> cases h; done)
        rcases repeats_exists s .bytes (if y then 1 else 0) with h' | h'
        · rw [(mulBytes_eq hy).1] at h
          rcases repeatBytes_cases s (if y then 1 else 0) with h'' | h'' | h'' <;> rw [h''] at h <;>
            cases h
          exact .inl (.mulBytes hy h')
        · exact .inr (.mulBytes hy h')
    | bool x' =>
      have hx : IsInt (.bool x') (if x' then 1 else 0) := by cases x' <;> constructor
      cases b with
      | int r => exact .inl (key hx .int (by simp))
      | bool y =>
        have hy : IsInt (.bool y) (if y then 1 else 0) := by cases y <;> constructor
        by_cases ho : op = .or ∨ op = .and ∨ op = .xor
        · rcases ho with rfl | rfl | rfl
          · cases h; exact .inl .boolOr
          · cases h; exact .inl .boolAnd
          · have : x = .bool (x' ^^ y) := by cases x' <;> cases y <;> cases h <;> rfl
            rw [this]
            exact .inl .boolXor
        · exact .inl (key hx hy (by rintro ⟨_, _, _, _, h'⟩; exact ho h'))
      | str s =>
        cases op <;> try (cases x' <;> cases h; done)
        rcases repeats_exists s .str (if x' then 1 else 0) with h' | h'
        · rw [(mulStr_eq hx).2] at h
          rcases repeatStr_cases s (if x' then 1 else 0) with h'' | h'' | h'' <;> rw [h''] at h <;>
            cases h
          exact .inl (.strMul hx h')
        · exact .inr (.strMul hx h')
      | bytes s =>
        cases op <;> try (cases x' <;> cases h; done)
        rcases repeats_exists s .bytes (if x' then 1 else 0) with h' | h'
        · rw [(mulBytes_eq hx).2] at h
          rcases repeatBytes_cases s (if x' then 1 else 0) with h'' | h'' | h'' <;> rw [h''] at h <;>
            cases h
          exact .inl (.bytesMul hx h')
        · exact .inr (.bytesMul hx h')
  · intro e he
    by_cases ok : e.ok
    · rcases type_right he ok (by rw [h]; intro i hi; cases hi) with h' | h' | h'
      · rw [h] at h'
        cases e with
        | value v => exact .inl (congrArg _ h')
        | _ => exact h'.elim
      · rw [h] at h'; cases h'
      · rw [h] at h'; cases h'
    · cases he with
      | int ha hb hE hn => exact .inl (intEval_det (literal_int ha hb hn h) hE)
      | mulStr _ hR => exact (repeats_value hR).elim (fun h' => absurd (by rw [h']; trivial) ok) .inr
      | strMul _ hR => exact (repeats_value hR).elim (fun h' => absurd (by rw [h']; trivial) ok) .inr
      | mulBytes _ hR => exact (repeats_value hR).elim (fun h' => absurd (by rw [h']; trivial) ok) .inr
      | bytesMul _ hR => exact (repeats_value hR).elim (fun h' => absurd (by rw [h']; trivial) ok) .inr
      | _ => exact absurd trivial ok

/-- `"ab" * 3`, `-7 % -3`, `True | False`, `-1 >> 3` and `6 ^ -1`. -/
example : operation (.str ['a', 'b']) .mul (.int 3) = .lit (.str ['a', 'b', 'a', 'b', 'a', 'b']) ∧
    operation (.int (-7)) .mod (.int (-3)) = .lit (.int (-1)) ∧
    operation (.bool true) .or (.bool false) = .lit (.bool true) ∧
    operation (.int (-1)) .shr (.int 3) = .lit (.int (-1)) ∧
    operation (.int 6) .xor (.int (-1)) = .lit (.int (-7)) := by decide +kernel

/-- If Python's value is a number of 64 bits, then it is inferred as a literal. -/
theorem precise_partial {a b : Lit} {op : Op} {l r n : Int} (ha : IsInt a l) (hb : IsInt b r)
    (hl : -(2 ^ 63) ≤ l ∧ l < 2 ^ 63) (hr : -(2 ^ 63) ≤ r ∧ r < 2 ^ 63)
    (h : -(2 ^ 63) ≤ n ∧ n < 2 ^ 63) (he : Evals a op b (.value (.int n)))
    (hm : ¬ (op = .mod ∧ l = -(2 ^ 63) ∧ r = -1))
    (hs : op = .shr ∨ op = .shl → r < 64) (hp : op = .pow → r < 2 ^ 32) :
    operation a op b = .lit (.int n) := by
  have fl := fits_iff.mpr hl
  have fr := fits_iff.mpr hr
  have fn := fits_iff.mpr h
  have int_unique : ∀ {a : Lit} {l l' : Int}, IsInt a l → IsInt a l' → l = l' := by
    intro a l l' h1 h2
    cases h1 <;> cases h2 <;> rfl
  cases he with
  | mulStr _ hR => cases ha
  | strMul _ hR => cases hb
  | mulBytes _ hR => cases ha
  | bytesMul _ hR => cases hb
  | int ha' hb' hE hn =>
    rw [operation_int ha hb hn, if_pos (by rw [fl, fr]; rfl)]
    cases int_unique ha ha'
    cases int_unique hb hb'
    have det : ∀ {k : Int}, intOp l op r = .lit (.int k) → intOp l op r = .lit (.int n) := by
      intro k hk
      have := intEval_unique (intOp_lit fl fr hk) hE
      rw [hk]
      simpa using this
    cases hE with
    | add => simp only [intOp, checked_fits fn]; rfl
    | sub => simp only [intOp, checked_fits fn]; rfl
    | mul => simp only [intOp, checked_fits fn]; rfl
    | floordiv h0 h1 h2 =>
      simp only [intOp, if_neg h0]
      rw [pyDivFloor_some fl h0 fn ⟨h1, h2⟩]
      rfl
    | mod h0 h1 h2 h3 =>
      simp only [intOp, if_neg h0]
      rw [pyMod_some fl h0 fn (fun h' => hm ⟨rfl, h'⟩) ⟨h1, h2, h3⟩]
      rfl
    | @pow _ k =>
      have hk := hp rfl
      simp only [intOp]
      rw [if_pos (fitsU32_iff.mpr ⟨by omega, hk⟩)]
      simp only [Int.toNat_natCast, checked_fits fn]
      rfl
    | @shl _ k =>
      have hk := hs (.inr rfl)
      simp only [intOp]
      rw [if_pos (fitsU32_iff.mpr ⟨by omega, by omega⟩)]
      simp only [Int.toNat_natCast]
      rw [if_neg (by omega), checked_fits fn]
      rfl
    | @shr _ _ k _ _ =>
      have hk := hs (.inl rfl)
      apply det (k := ((BitVec.ofInt 64 l).sshiftRight k).toInt)
      simp only [intOp]
      rw [if_pos (fitsU32_iff.mpr ⟨by omega, by omega⟩)]
      simp only [Int.toNat_natCast]
      rw [if_pos (by omega)]
      rfl
    | or _ => exact det rfl
    | and _ => exact det rfl
    | xor _ => exact det rfl

example : operation (.int (-(2 ^ 63))) .floordiv (.int 1) = .lit (.int (-(2 ^ 63))) ∧
    operation (.int 3) .pow (.int 39) = .lit (.int 4052555153018976267) := by decide +kernel

/-- The number of bytes of a text in UTF-8. -/
def size : Lit → Nat
  | .str s => (s.map Char.utf8Size).sum
  | .bytes b => b.length
  | _ => 0

/-- If Python's value is a text of at most 16 KB, the sum of two texts or a `bool`, then it is
inferred as a literal. -/
theorem precise_other {a b x : Lit} {op : Op} (he : Evals a op b (.value x))
    (hx : ∀ (n : Int), x ≠ .int n) (h : op = .add ∨ size x ≤ 16384) : operation a op b = .lit x := by
  have rs : ∀ {s : List Char} {n : Int}, x = .str (List.replicate (times n) s).flatten →
      size x ≤ 16384 → repeatStr s n = .lit x := by
    intro s n hx h
    subst hx
    have e := utf8Len_replicate (times n) s
    have h' : utf8Len (List.replicate (times n) s).flatten ≤ 16384 := h
    rcases repeatStr_cases s n with hr | hr | hr
    · unfold repeatStr at hr
      split at hr
      · omega
      · split at hr
        · cases hr
        · split at hr <;> cases hr
    · unfold repeatStr at hr
      split at hr
      · cases hr
      · split at hr
        · rename_i hm
          simp only [maxSize] at hm
          omega
        · split at hr <;> cases hr
    · exact hr
  have rb : ∀ {s : List Nat} {n : Int}, x = .bytes (List.replicate (times n) s).flatten →
      size x ≤ 16384 → repeatBytes s n = .lit x := by
    intro s n hx h
    subst hx
    simp only [size, List.length_flatten, List.map_replicate, List.sum_replicate_nat] at h
    rw [Nat.mul_comm] at h
    unfold repeatBytes
    rw [if_neg (by omega), if_neg (by simp only [maxSize]; omega)]
  have inj : ∀ {u v : Lit}, Eval.value u = .value v ∨ Eval.value u = .tooLarge → u = v := by
    rintro u v (h | h)
    · exact Eval.value.inj h
    · cases h
  cases he with
  | int ha hb hE hn =>
    obtain ⟨⟨n, rfl⟩, _⟩ := intEval_value hE
    exact absurd rfl (hx n)
  | boolOr => rfl
  | boolAnd => rfl
  | @boolXor a b => cases a <;> cases b <;> rfl
  | addStr => rfl
  | addBytes => rfl
  | mulStr ha hR =>
    rw [(mulStr_eq ha).1]
    exact rs (inj (repeats_value hR)) (h.elim (nomatch ·) id)
  | strMul ha hR =>
    rw [(mulStr_eq ha).2]
    exact rs (inj (repeats_value hR)) (h.elim (nomatch ·) id)
  | mulBytes ha hR =>
    rw [(mulBytes_eq ha).1]
    exact rb (inj (repeats_value hR)) (h.elim (nomatch ·) id)
  | bytesMul ha hR =>
    rw [(mulBytes_eq ha).2]
    exact rb (inj (repeats_value hR)) (h.elim (nomatch ·) id)

/-- `True * b"ab"`. -/
example : Evals (.bool true) .mul (.bytes [97, 98]) (.value (.bytes [97, 98])) ∧
    size (.bytes [97, 98]) = 2 :=
  ⟨.bytesMul .true (Repeats.nonneg (s := [97, 98]) (mk := Lit.bytes) (n := 1) (by decide)), rfl⟩

/-- Four values that fit are not inferred: `-2**63 % -1`, `1 >> 64` are just `int`, and
`0 << 64` as well as `0 << 100` are left to the declaration of `int.__lshift__`. -/
theorem precise_violation :
    (Evals (.int (-(2 ^ 63))) .mod (.int (-1)) (.value (.int 0)) ∧
      operation (.int (-(2 ^ 63))) .mod (.int (-1)) = .int) ∧
    (Evals (.int 1) .shr (.int 64) (.value (.int 0)) ∧
      operation (.int 1) .shr (.int 64) = .int) ∧
    (Evals (.int 0) .shl (.int 64) (.value (.int 0)) ∧
      operation (.int 0) .shl (.int 64) = .unknown) := by
  refine ⟨⟨.int .int .int (.mod (by decide) ⟨2 ^ 63, by decide⟩ (by decide) (by decide)) (by simp),
    by decide +kernel⟩, ⟨.int .int .int ?_ (by simp), by decide +kernel⟩,
    ⟨.int .int .int ?_ (by simp), by decide +kernel⟩⟩
  · exact IntEval.shr (n := 64) (by decide) (by decide)
  · have := @IntEval.shl 0 64
    simpa using this

/-! ## C159: what is reported -/

/-- A division by zero and a negative shift count are reported only if Python raises. -/
theorem issue_real {a b : Lit} {op : Op} {i : Issue} (h : operation a op b = .issue i) :
    (∃ (e : Eval), Evals a op b e) ∧
    ∀ (e : Eval), Evals a op b e →
      e = (match i with | .divisionByZero => .zeroDivision | .negativeShift => .negativeShift) := by
  have num : ∃ (l r : Int), IsInt a l ∧ IsInt b r ∧
      ¬ (∃ (x y : Bool), a = .bool x ∧ b = .bool y ∧ (op = .or ∨ op = .and ∨ op = .xor)) := by
    cases a with
    | int l =>
      cases b with
      | int r => exact ⟨l, r, .int, .int, by simp⟩
      | bool y => cases y <;> exact ⟨l, _, .int, by constructor, by simp⟩
      | str s =>
        cases op <;> try (cases h; done)
        rw [(mulStr_eq .int).2] at h
        rcases repeatStr_cases s l with h' | h' | h' <;> rw [h'] at h <;> cases h
      | bytes s =>
        cases op <;> try (cases h; done)
        rw [(mulBytes_eq .int).2] at h
        rcases repeatBytes_cases s l with h' | h' | h' <;> rw [h'] at h <;> cases h
    | bool x =>
      have hx : IsInt (.bool x) (if x then 1 else 0) := by cases x <;> constructor
      cases b with
      | int r => exact ⟨_, r, hx, .int, by simp⟩
      | bool y =>
        have hy : IsInt (.bool y) (if y then 1 else 0) := by cases y <;> constructor
        refine ⟨_, _, hx, hy, ?_⟩
        rintro ⟨x', y', hx', hy', h'⟩
        cases hx'
        cases hy'
        rcases h' with rfl | rfl | rfl <;> cases h
      | str s =>
        cases op <;> try (cases x <;> cases h; done)
        rw [(mulStr_eq hx).2] at h
        rcases repeatStr_cases s (if x then 1 else 0) with h' | h' | h' <;> rw [h'] at h <;> cases h
      | bytes s =>
        cases op <;> try (cases x <;> cases h; done)
        rw [(mulBytes_eq hx).2] at h
        rcases repeatBytes_cases s (if x then 1 else 0) with h' | h' | h' <;> rw [h'] at h <;> cases h
    | str s =>
      have rep : ∀ {n : Int}, repeatStr s n ≠ .issue i := by
        intro n h
        rcases repeatStr_cases s n with h' | h' | h' <;> rw [h'] at h <;> cases h
      cases b with
      | str t => cases op <;> cases h
      | bytes t => cases op <;> cases h
      | int r =>
        cases op <;> try (cases h; done)
        exact absurd ((mulStr_eq .int).1 ▸ h) rep
      | bool y =>
        have hy : IsInt (.bool y) (if y then 1 else 0) := by cases y <;> constructor
        cases op <;> try (cases y <;> cases h; done)
        exact absurd ((mulStr_eq hy).1 ▸ h) rep
    | bytes s =>
      have rep : ∀ {n : Int}, repeatBytes s n ≠ .issue i := by
        intro n h
        rcases repeatBytes_cases s n with h' | h' | h' <;> rw [h'] at h <;> cases h
      cases b with
      | str t => cases op <;> cases h
      | bytes t => cases op <;> cases h
      | int r =>
        cases op <;> try (cases h; done)
        exact absurd ((mulBytes_eq .int).1 ▸ h) rep
      | bool y =>
        have hy : IsInt (.bool y) (if y then 1 else 0) := by cases y <;> constructor
        cases op <;> try (cases y <;> cases h; done)
        exact absurd ((mulBytes_eq hy).1 ▸ h) rep
  obtain ⟨l, r, ha, hb, hn⟩ := num
  have hop : intOp l op r = .issue i := by
    rw [operation_int ha hb hn] at h
    split at h
    · exact h
    · cases h
  have int_unique : ∀ {a : Lit} {l l' : Int}, IsInt a l → IsInt a l' → l = l' := by
    intro a l l' h1 h2
    cases h1 <;> cases h2 <;> rfl
  have inv : ∀ {e : Eval}, Evals a op b e → IntEval l op r e := by
    intro e he
    cases he with
    | int ha' hb' hE _ => rw [int_unique ha ha', int_unique hb hb']; exact hE
    | boolOr => exact absurd ⟨_, _, rfl, rfl, .inl rfl⟩ hn
    | boolAnd => exact absurd ⟨_, _, rfl, rfl, .inr (.inl rfl)⟩ hn
    | boolXor => exact absurd ⟨_, _, rfl, rfl, .inr (.inr rfl)⟩ hn
    | addStr => cases ha
    | addBytes => cases ha
    | mulStr _ _ => cases ha
    | strMul _ _ => cases hb
    | mulBytes _ _ => cases ha
    | bytesMul _ _ => cases hb
  rcases intOp_cases l op r with ⟨k, h'⟩ | ⟨h', _⟩ | ⟨h', _⟩ | ⟨h', h0, h1⟩ | ⟨h', h0, h1⟩ | ⟨h', _⟩ | ⟨h', _⟩
  · rw [h'] at hop; cases hop
  · rw [h'] at hop; cases hop
  · rw [h'] at hop; cases hop
  · rw [h'] at hop
    cases hop
    subst h0
    rcases h1 with rfl | rfl | rfl
    · refine ⟨⟨_, .int ha hb .divZero hn⟩, fun e he => ?_⟩
      have := inv he
      cases this with
      | divZero => rfl
      | div h => exact absurd rfl h
      | divLarge h => exact absurd rfl h
    · refine ⟨⟨_, .int ha hb .floordivZero hn⟩, fun e he => ?_⟩
      have := inv he
      cases this with
      | floordivZero => rfl
      | floordiv h _ _ => exact absurd rfl h
    · refine ⟨⟨_, .int ha hb .modZero hn⟩, fun e he => ?_⟩
      have := inv he
      cases this with
      | modZero => rfl
      | mod h _ _ _ => exact absurd rfl h
  · rw [h'] at hop
    cases hop
    rcases h1 with rfl | rfl
    · refine ⟨⟨_, .int ha hb (.shlNegative h0) hn⟩, fun e he => ?_⟩
      have := inv he
      cases this with
      | shlNegative _ => rfl
      | shl => omega
    · refine ⟨⟨_, .int ha hb (.shrNegative h0) hn⟩, fun e he => ?_⟩
      have := inv he
      cases this with
      | shrNegative _ => rfl
      | shr _ _ => omega
  · rw [h'] at hop; cases hop
  · rw [h'] at hop; cases hop

example : operation (.int 5) .mod (.bool false) = .issue .divisionByZero ∧
    operation (.bool true) .shl (.int (-1)) = .issue .negativeShift := by decide +kernel

/-- A division by zero and a negative shift count of numbers of 64 bits are reported; only the
division by zero of `0 ** -1` is not. -/
theorem issue_reported_partial {a b : Lit} {op : Op} {e : Eval} (he : Evals a op b e)
    (hw : ∀ (n : Int), IsInt a n ∨ IsInt b n → -(2 ^ 63) ≤ n ∧ n < 2 ^ 63) :
    (e = .zeroDivision → op ≠ .pow → operation a op b = .issue .divisionByZero) ∧
    (e = .negativeShift → operation a op b = .issue .negativeShift) := by
  cases he with
  | @int _ _ l r _ _ ha hb hE hn =>
    have fl := fits_iff.mpr (hw l (.inl ha))
    have fr := fits_iff.mpr (hw r (.inr hb))
    rw [operation_int ha hb hn, if_pos (by rw [fl, fr]; rfl)]
    have small : ∀ {n : Int}, n < 0 → ¬ fitsU32 n = true := by
      intro n h h'
      have := (fitsU32_iff.mp h').1
      omega
    cases hE with
    | divZero => exact ⟨fun _ _ => rfl, (nomatch ·)⟩
    | floordivZero => exact ⟨fun _ _ => rfl, (nomatch ·)⟩
    | modZero => exact ⟨fun _ _ => rfl, (nomatch ·)⟩
    | powZero _ => exact ⟨fun _ h => absurd rfl h, (nomatch ·)⟩
    | shlNegative h =>
      refine ⟨(nomatch ·), fun _ => ?_⟩
      simp only [intOp]
      rw [if_neg (small h), if_neg (by omega)]
    | shrNegative h =>
      refine ⟨(nomatch ·), fun _ => ?_⟩
      simp only [intOp]
      rw [if_neg (small h), if_neg (by omega)]
    | _ => exact ⟨(nomatch ·), (nomatch ·)⟩
  | mulStr _ hR => rcases repeats_value hR with rfl | rfl <;> exact ⟨(nomatch ·), (nomatch ·)⟩
  | strMul _ hR => rcases repeats_value hR with rfl | rfl <;> exact ⟨(nomatch ·), (nomatch ·)⟩
  | mulBytes _ hR => rcases repeats_value hR with rfl | rfl <;> exact ⟨(nomatch ·), (nomatch ·)⟩
  | bytesMul _ hR => rcases repeats_value hR with rfl | rfl <;> exact ⟨(nomatch ·), (nomatch ·)⟩
  | _ => exact ⟨(nomatch ·), (nomatch ·)⟩

example : Evals (.int 3) .shr (.int (-2)) .negativeShift := .int .int .int (.shrNegative (by decide)) (by simp)

/-- `0 ** -1` raises a `ZeroDivisionError` that is not reported, and the type is `float`; and
`10**20 // 0` and `1 << -10**20` are not reported, because one of the numbers needs more than 64
bits. -/
theorem issue_reported_violation :
    (Evals (.int 0) .pow (.int (-1)) .zeroDivision ∧
      operation (.int 0) .pow (.int (-1)) = .float) ∧
    (Evals (.int (10 ^ 20)) .floordiv (.int 0) .zeroDivision ∧
      operation (.int (10 ^ 20)) .floordiv (.int 0) = .unknown) ∧
    (Evals (.int 1) .shl (.int (-(10 ^ 20))) .negativeShift ∧
      operation (.int 1) .shl (.int (-(10 ^ 20))) = .unknown) :=
  ⟨⟨.int .int .int (.powZero (by decide)) (by simp), by decide +kernel⟩,
   ⟨.int .int .int .floordivZero (by simp), by decide +kernel⟩,
   ⟨.int .int .int (.shlNegative (by decide)) (by simp), by decide +kernel⟩⟩

/-! ## C160: the effort -/

/-- A text that is the result of a multiplication has at most 16 KB. -/
theorem size_bounded {a b x : Lit} (h : operation a .mul b = .lit x) : size x ≤ 16384 := by
  have rs : ∀ {s : List Char} {n : Int}, repeatStr s n = .lit x → size x ≤ 16384 := by
    intro s n h
    unfold repeatStr at h
    split at h
    · cases h
    · split at h
      · cases h
      · rename_i hm
        split at h
        · cases h; exact Nat.zero_le _
        · cases h
          have := utf8Len_replicate (times n) s
          unfold utf8Len at this hm
          simp only [maxSize] at hm
          simp only [size]
          omega
  have rb : ∀ {s : List Nat} {n : Int}, repeatBytes s n = .lit x → size x ≤ 16384 := by
    intro s n h
    unfold repeatBytes at h
    split at h
    · cases h
    · split at h
      · cases h
      · rename_i hm
        cases h
        simp only [maxSize] at hm
        simp only [size, List.length_flatten, List.map_replicate, List.sum_replicate_nat]
        rw [Nat.mul_comm]
        omega
  have num : ∀ {l r : Int}, IsInt a l → IsInt b r → size x ≤ 16384 := by
    intro l r ha hb
    obtain ⟨⟨n, rfl⟩, _⟩ := intEval_value (literal_int ha hb (by simp) h)
    exact Nat.zero_le _
  have toInt : ∀ (y : Bool), IsInt (.bool y) (if y then 1 else 0) := by
    intro y
    cases y <;> constructor
  cases a with
  | int l =>
    cases b with
    | int r => exact num .int .int
    | bool y => exact num .int (toInt y)
    | str s => exact rs ((mulStr_eq .int).2 ▸ h)
    | bytes s => exact rb ((mulBytes_eq .int).2 ▸ h)
  | bool y =>
    cases b with
    | int r => exact num (toInt y) .int
    | bool y' => exact num (toInt y) (toInt y')
    | str s => exact rs ((mulStr_eq (toInt y)).2 ▸ h)
    | bytes s => exact rb ((mulBytes_eq (toInt y)).2 ▸ h)
  | str s =>
    cases b with
    | int r => exact rs ((mulStr_eq .int).1 ▸ h)
    | bool y => exact rs ((mulStr_eq (toInt y)).1 ▸ h)
    | str t => cases h
    | bytes t => cases h
  | bytes s =>
    cases b with
    | int r => exact rb ((mulBytes_eq .int).1 ▸ h)
    | bool y => exact rb ((mulBytes_eq (toInt y)).1 ▸ h)
    | str t => cases h
    | bytes t => cases h

/-- A text of 16 KB is still a literal, and one byte more is not. -/
example : operation (.str ['a']) .mul (.int 16385) = .literalString ∧
    operation (.bytes [1, 2]) .mul (.int 8193) = .bytes := by decide +kernel

/-- If no operand is an empty `bytes`, then the loops run at most 16384 times. -/
theorem steps_partial {a b : Lit} {op : Op} (ha : a ≠ .bytes []) (hb : b ≠ .bytes []) :
    steps a op b ≤ 16384 := by
  have mul : ∀ {k n : Nat}, 0 < k → ¬ k * n > maxSize → n ≤ 16384 := by
    intro k n hk h
    simp only [maxSize] at h
    have : n ≤ k * n := Nat.le_mul_of_pos_left n hk
    omega
  have str : ∀ (s : List Char) (n : Int),
      (if utf8Len s * times n > maxSize ∨ s.isEmpty then 0 else times n) ≤ 16384 := by
    intro s n
    split
    · exact Nat.zero_le _
    · rename_i h
      have h1 : ¬ utf8Len s * times n > maxSize := fun h' => h (.inl h')
      have h2 : s ≠ [] := fun h' => h (.inr (List.isEmpty_iff.mpr h'))
      exact mul (utf8Len_pos h2) h1
  have bytes : ∀ (s : List Nat) (n : Int), s ≠ [] →
      (if s.length * times n > maxSize then 0 else times n) ≤ 16384 := by
    intro s n hs
    split
    · exact Nat.zero_le _
    · rename_i h
      exact mul (List.length_pos_iff.mpr hs) h
  have ne : ∀ {s : List Nat}, Lit.bytes s ≠ .bytes [] → s ≠ [] := fun h h' => h (by rw [h'])
  unfold steps
  dsimp only
  split
  · exact Nat.zero_le _
  · split
    · exact str _ _
    · exact str _ _
    · exact bytes _ _ (ne ha)
    · exact bytes _ _ (ne hb)
    · exact str _ _
    · exact str _ _
    · exact bytes _ _ (ne ha)
    · exact bytes _ _ (ne hb)
    · exact Nat.zero_le _

example : steps (.str ['a', 'b']) .mul (.int 8192) = 8192 := by decide +kernel

/-- `b"" * 10**18` is computed in a loop of 10^18 steps: the empty text is treated separately, but
the empty `bytes` is not. Type checking this expression never ends. -/
theorem steps_violation :
    steps (.bytes []) .mul (.int (10 ^ 18)) = 10 ^ 18 ∧ steps (.str []) .mul (.int (10 ^ 18)) = 0 := by
  decide +kernel

/-- The computation of the size does not overflow if the size of the text that Python builds is
below 2^64, and only `@` reaches the assertion. -/
theorem total_partial {a b : Lit} {op : Op} (hop : op ≠ .matmul)
    (hs : ∀ (n : Nat), IsInt a n ∨ IsInt b n → (size a + size b) * n < 2 ^ 64) :
    operation a op b ≠ .overflow ∧ operation a op b ≠ .assertion := by
  have small : ∀ {k : Nat} {n : Int}, (∀ (m : Nat), n = m → k * m < 2 ^ 64) →
      ¬ k * times n ≥ 2 ^ 64 := by
    intro k n h
    unfold times
    split
    · rename_i hn
      have := h n.toNat (by omega)
      omega
    · simp
  have rs : ∀ {s : List Char} {n : Int}, (∀ (m : Nat), n = m → size (.str s) * m < 2 ^ 64) →
      repeatStr s n ≠ .overflow ∧ repeatStr s n ≠ .assertion := by
    intro s n h
    unfold repeatStr
    rw [if_neg (small (k := utf8Len s) h)]
    split
    · simp
    · split <;> simp
  have rb : ∀ {s : List Nat} {n : Int}, (∀ (m : Nat), n = m → size (.bytes s) * m < 2 ^ 64) →
      repeatBytes s n ≠ .overflow ∧ repeatBytes s n ≠ .assertion := by
    intro s n h
    unfold repeatBytes
    rw [if_neg (small (k := s.length) h)]
    split <;> simp
  have toInt : ∀ (y : Bool), IsInt (.bool y) (if y then 1 else 0) := by
    intro y
    cases y <;> constructor
  have num : ∀ {l r : Int}, IsInt a l → IsInt b r →
      operation a op b ≠ .overflow ∧ operation a op b ≠ .assertion := by
    intro l r ha hb
    by_cases hn : ∃ (x y : Bool), a = .bool x ∧ b = .bool y ∧ (op = .or ∨ op = .and ∨ op = .xor)
    · obtain ⟨x, y, rfl, rfl, h⟩ := hn
      rcases h with rfl | rfl | rfl <;> exact ⟨nofun, nofun⟩
    · rw [operation_int ha hb hn]
      split
      · rcases intOp_cases l op r with ⟨k, h'⟩ | ⟨h', _⟩ | ⟨h', _⟩ | ⟨h', _⟩ | ⟨h', _⟩ | ⟨h', _⟩ | ⟨h', h⟩
        all_goals first | exact absurd h hop | (rw [h']; simp)
      · exact ⟨nofun, nofun⟩
  cases a with
  | int l =>
    cases b with
    | int r => exact num .int .int
    | bool y => exact num .int (toInt y)
    | str s =>
      by_cases ho : op = .mul
      · rw [ho, (mulStr_eq .int).2]
        exact rs fun m hm => by simpa [size] using hs m (.inl (hm ▸ .int))
      · cases op <;> first | exact absurd rfl ho | exact ⟨nofun, nofun⟩
    | bytes s =>
      by_cases ho : op = .mul
      · rw [ho, (mulBytes_eq .int).2]
        exact rb fun m hm => by simpa [size] using hs m (.inl (hm ▸ .int))
      · cases op <;> first | exact absurd rfl ho | exact ⟨nofun, nofun⟩
  | bool y =>
    cases b with
    | int r => exact num (toInt y) .int
    | bool y' => exact num (toInt y) (toInt y')
    | str s =>
      by_cases ho : op = .mul
      · rw [ho, (mulStr_eq (toInt y)).2]
        exact rs fun m hm => by simpa [size] using hs m (.inl (hm ▸ toInt y))
      · cases op <;> first | exact absurd rfl ho | exact ⟨nofun, nofun⟩
    | bytes s =>
      by_cases ho : op = .mul
      · rw [ho, (mulBytes_eq (toInt y)).2]
        exact rb fun m hm => by simpa [size] using hs m (.inl (hm ▸ toInt y))
      · cases op <;> first | exact absurd rfl ho | exact ⟨nofun, nofun⟩
  | str s =>
    cases b with
    | int r =>
      by_cases ho : op = .mul
      · rw [ho, (mulStr_eq .int).1]
        exact rs fun m hm => by simpa [size] using hs m (.inr (hm ▸ .int))
      · cases op <;> first | exact absurd rfl ho | exact ⟨nofun, nofun⟩
    | bool y =>
      by_cases ho : op = .mul
      · rw [ho, (mulStr_eq (toInt y)).1]
        exact rs fun m hm => by simpa [size] using hs m (.inr (hm ▸ toInt y))
      · cases op <;> first | exact absurd rfl ho | exact ⟨nofun, nofun⟩
    | str t => cases op <;> exact ⟨nofun, nofun⟩
    | bytes t => cases op <;> exact ⟨nofun, nofun⟩
  | bytes s =>
    cases b with
    | int r =>
      by_cases ho : op = .mul
      · rw [ho, (mulBytes_eq .int).1]
        exact rb fun m hm => by simpa [size] using hs m (.inr (hm ▸ .int))
      · cases op <;> first | exact absurd rfl ho | exact ⟨nofun, nofun⟩
    | bool y =>
      by_cases ho : op = .mul
      · rw [ho, (mulBytes_eq (toInt y)).1]
        exact rb fun m hm => by simpa [size] using hs m (.inr (hm ▸ toInt y))
      · cases op <;> first | exact absurd rfl ho | exact ⟨nofun, nofun⟩
    | str t => cases op <;> exact ⟨nofun, nofun⟩
    | bytes t => cases op <;> exact ⟨nofun, nofun⟩

/-- `"aa" * 2**63` overflows when the size is computed, and `1 @ 1` reaches an assertion that no
other operator is left. -/
theorem total_violation :
    operation (.str ['a', 'a']) .mul (.int (2 ^ 63)) = .overflow ∧
    operation (.int 1) .matmul (.int 1) = .assertion := by
  decide +kernel

end Verif.Arith
