import Verif.Strings.Value

/-! # Literals with complete hexadecimal escapes do not crash -/

namespace Verif.Strings

open Spec

theorem complete_plain {w : List (Char × Nat)} {c : Char} {cs : List Char} (hc : c ≠ '\\') (h : Complete w (c :: cs)) :
    Complete w cs := by
  cases h with
  | plain _ h => exact h
  | escaped _ _ => exact absurd rfl hc
  | hex _ _ _ _ => exact absurd rfl hc

/-- The octal digits that the loop uses are characters of the body. -/
theorem octalLoop_used {w : List (Char × Nat)} (k : Nat) : ∀ (cs : List Char) (used result : Nat), Complete w cs →
    ∃ m, (octalLoop k (encode cs) used result).1 = used + m ∧ (octalLoop k (encode cs) used result).2 < (result + 1) * 8 ^ k ∧ 
      m ≤ k ∧ m ≤ cs.length ∧
      (encode cs).drop m = encode (cs.drop m) ∧ Complete w (cs.drop m) := by
  induction k with
  | zero => 
    intro cs used result h
    exact ⟨0, rfl, by simp [octalLoop], by simp, by simp, rfl, h⟩
  | succ k ih =>
    intro cs used result h
    have hpos : 0 < 8 ^ (k + 1) := Nat.pow_pos (by decide)
    have hle : result < (result + 1) * 8 ^ (k + 1) := by
      have := Nat.mul_le_mul_left (result + 1) hpos
      omega
    cases cs with
    | nil => exact ⟨0, rfl, by simp [encode_nil, octalLoop]; exact hle, by simp, by simp, rfl, h⟩
    | cons c cs =>
      by_cases hc : 48 ≤ c.toNat ∧ c.toNat ≤ 55
      · rw [encode_ascii_cons (by omega)]
        obtain ⟨m, h1, h2, h3, h4, h5, h6⟩ := ih cs (used + 1) (result * 8 + (c.toNat - 48)) (complete_plain (by
          rintro rfl
          have : '\\'.toNat = 92 := rfl
          omega) h)
        refine ⟨m + 1, ?_, ?_, by omega, by simp; omega, by simpa using h5, by simpa using h6⟩
        · rw [octalLoop, if_pos hc, h1]; omega
        · rw [octalLoop, if_pos hc, Nat.pow_succ]
          refine Nat.lt_of_lt_of_le h2 ?_
          rw [Nat.mul_comm (8 ^ k) 8, ← Nat.mul_assoc]
          exact Nat.mul_le_mul_right _ (by omega)
      · refine ⟨0, ?_, ?_, by simp, by simp, rfl, h⟩
        · by_cases ha : c.toNat < 128
          · rw [encode_ascii_cons ha, octalLoop, if_neg hc]; rfl
          · obtain ⟨b, bs, hb, hb0, -⟩ := encodeChar_multi (c := c) (by omega)
            rw [encode_cons, hb, List.cons_append, octalLoop, if_neg (by omega)]; rfl
        · by_cases ha : c.toNat < 128
          · rw [encode_ascii_cons ha, octalLoop, if_neg hc]; exact hle
          · obtain ⟨b, bs, hb, hb0, -⟩ := encodeChar_multi (c := c) (by omega)
            rw [encode_cons, hb, List.cons_append, octalLoop, if_neg (by omega)]; exact hle

/-- The rest of the iterator behind an escape is aligned and complete. -/
theorem escape_complete {c : Char} {cs : List Char} (hc : c ≠ 'x' ∧ c ≠ 'u' ∧ c ≠ 'U')
    (h : Complete [('x', 2), ('u', 4), ('U', 8)] cs) :
    ∃ b r x cs', encode (c :: cs) = b :: r ∧ escape b r = (x, encode cs') ∧ cs'.length ≤ cs.length ∧
      Complete [('x', 2), ('u', 4), ('U', 8)] cs' := by
  have hn : ∀ d : Char, c ≠ d → c.toNat ≠ d.toNat := fun d hd h => hd (toNat_inj h)
  have hx : c.toNat ≠ 120 := hn 'x' hc.1
  have hu : c.toNat ≠ 117 := hn 'u' hc.2.1
  have hU : c.toNat ≠ 85 := hn 'U' hc.2.2
  by_cases ha : c.toNat < 128
  · refine ⟨c.toNat, encode cs, ?_⟩
    rw [encode_ascii_cons ha]
    simp only [true_and, exists_and_left]
    unfold escape
    split
    · exact ⟨_, cs, rfl, by simp, h⟩
    · split
      · exact ⟨_, cs, rfl, by simp, h⟩
      · split
        · split
          · rename_i rest he
            have := (encode_head (s := cs) (d := '\n') (by decide)).mp (by rw [he]; rfl)
            cases cs with
            | nil => simp at this
            | cons d cs =>
              simp only [List.head?_cons, Option.some.injEq] at this
              subst this
              rw [encode_ascii_cons (by decide)] at he
              have he2 : encode cs = rest := (List.cons.inj he).2
              exact ⟨_, cs, by rw [he2], by simp, complete_plain (by decide) h⟩
          · exact ⟨_, cs, rfl, by simp, h⟩
        · split
          · exact ⟨_, cs, rfl, by simp, h⟩
          · split
            · rename_i len octal he
              obtain ⟨m, h1, h2, h3, h4, h5, h6⟩ := octalLoop_used 2 cs 1 (c.toNat - 48) h
              have : len - 1 = m := by
                unfold parseOctal at he
                rw [octalLoop] at he
                by_cases hd : 48 ≤ c.toNat ∧ c.toNat ≤ 55
                · rw [if_pos hd] at he
                  simp only [Nat.zero_mul, Nat.zero_add] at he
                  rw [h1] at he
                  split at he
                  · simp only [Option.some.injEq, Prod.mk.injEq] at he; omega
                  · simp at he
                · rw [if_neg hd] at he
                  simp at he
              rw [this, h5]
              exact ⟨_, cs.drop m, rfl, by simp, h6⟩
            · rw [show charLen c.toNat = 1 by unfold charLen; rw [if_pos ha]]
              exact ⟨_, cs, rfl, by simp, h⟩
  · obtain ⟨b, bs, hb, hb0, hlen, -⟩ := encodeChar_multi (c := c) (by omega)
    refine ⟨b, bs ++ encode cs, 92 :: b :: bs, cs, ?_, ?_, by simp, h⟩
    · rw [encode_cons, hb]; rfl
    · unfold escape
      rw [simpleEscape_none (by simp only [List.mem_cons, List.not_mem_nil, or_false, not_or]; omega)]
      simp only
      rw [if_neg (by omega), if_neg (by omega), if_neg (by omega), if_neg (by omega), if_neg (by omega), if_neg (by omega),
        parseOctal_none (by omega)]
      simp only
      rw [← hlen]
      simp

theorem loop_complete (n : Nat) : ∀ (cs p : List Char) (string : Option (List Nat)), cs.length = n →
    Complete [('x', 2), ('u', 4), ('U', 8)] cs → ∃ r, loop string (encode p) (encode cs) = .ok r := by
  induction n using Nat.strongRecOn with
  | ind n ih =>
  intro cs p string hn h
  cases h with
  | nil =>
    rw [encode_nil, loop.eq_def]
    cases string with
    | none => exact ⟨_, rfl⟩
    | some s => simp [boundary_encode]
  | @plain c cs hc h =>
    simp only [List.length_cons] at hn
    by_cases hr : c = '\r'
    · subst hr
      rw [encode_ascii_cons (by decide), show '\r'.toNat = 13 from rfl, loop_cr]
      exact ih cs.length (by omega) cs [] _ rfl h
    · rw [encode_cons, loop_plain _ _ _ _ (fun hm => not_mem_encodeChar hc (d := '\\') (by decide) hm)
        (fun hm => not_mem_encodeChar hr (d := '\r') (by decide) hm)]
      have : encode p ++ encodeChar c = encode (p ++ [c]) := by rw [encode_append, encode_cons, encode_nil, List.append_nil]
      rw [this]
      exact ih cs.length (by omega) cs (p ++ [c]) _ rfl h
  | @escaped c cs hc h =>
    simp only [List.length_cons] at hn
    obtain ⟨b, r, x, cs', h1, h2, h3, h4⟩ := escape_complete (c := c) ⟨fun he => hc 2 (by simp [he]), fun he => hc 4 (by simp [he]),
      fun he => hc 8 (by simp [he])⟩ h
    rw [encode_ascii_cons (by decide), h1, show '\\'.toNat = 92 from rfl, loop_escape, h2]
    exact ih cs'.length (by omega) cs' [] _ rfl h4
  | @hex c n ds cs hc hl hd h =>
    rw [List.cons_append, List.cons_append] at hn ⊢
    simp only [List.length_cons, List.length_append] at hn
    have hca : c.toNat < 128 := by simp at hc; rcases hc with ⟨rfl, -⟩ | ⟨rfl, -⟩ | ⟨rfl, -⟩ <;> decide
    rw [encode_ascii_cons (by decide), encode_ascii_cons hca, encode_digits hd, show '\\'.toNat = 92 from rfl, loop_escape]
    have : (escape c.toNat (ds.map Char.toNat ++ encode cs)).2 = encode cs := by
      have hp := parseHex_digits (rest := encode cs) hd
      rw [hl] at hp
      simp at hc
      rcases hc with ⟨rfl, rfl⟩ | ⟨rfl, rfl⟩ | ⟨rfl, rfl⟩
      · show (parseHex 2 _).2 = _
        rw [hp]
      · show (parseHex 4 _).2 = _
        rw [hp]
      · show (parseHex 8 _).2 = _
        rw [hp]
    rw [this]
    exact ih cs.length (by omega) cs [] _ rfl h

/-! ## Bytes -/

/-- Bytes that are no backslash are skipped. -/
theorem bytesLoop_skip (inner : List Nat) (out : Option (List Nat)) (prev i : Nat) (bs rest : List Nat) (h : 92 ∉ bs) :
    bytesLoop inner out prev i (bs ++ rest) = bytesLoop inner out prev (i + bs.length) rest := by
  induction bs generalizing i with
  | nil => rfl
  | cons b bs ih =>
    rw [List.cons_append, bytesLoop.eq_def]
    simp only
    rw [if_neg (fun hb => h (by simp [hb])), ih _ (fun hb => h (by simp [hb]))]
    congr 1
    simp; omega

theorem bytesLoop_complete (n : Nat) : ∀ (cs : List Char) (inner : List Nat) (out : Option (List Nat)) (prev i : Nat), cs.length = n →
    Complete [('x', 2)] cs → prev ≤ i → i + (encode cs).length = inner.length →
    ∃ r, bytesLoop inner out prev i (encode cs) = .ok r := by
  induction n using Nat.strongRecOn with
  | ind n ih =>
  intro cs inner out prev i hn h hp hi
  cases h with
  | nil =>
    rw [encode_nil] at hi ⊢
    rw [bytesLoop.eq_def]
    cases out with
    | none => exact ⟨_, rfl⟩
    | some s =>
      simp only [List.length_nil] at hi
      simp only
      rw [if_pos (by omega)]
      exact ⟨_, rfl⟩
  | @plain c cs hc h =>
    simp only [List.length_cons] at hn
    rw [encode_cons] at hi ⊢
    rw [bytesLoop_skip _ _ _ _ _ _ (fun hm => not_mem_encodeChar hc (d := '\\') (by decide) hm)]
    rw [List.length_append] at hi
    exact ih cs.length (by omega) cs inner _ _ _ rfl h (by omega) (by omega)
  | @escaped c cs hc h =>
    simp only [List.length_cons] at hn
    have hx : c.toNat ≠ 120 := fun he => hc 2 (by simp [toNat_inj (d := 'x') he])
    rw [encode_ascii_cons (by decide), show '\\'.toNat = 92 from rfl] at hi ⊢
    rw [bytesLoop.eq_def]
    simp only
    rw [if_pos trivial, if_pos hp]
    by_cases ha : c.toNat < 128
    · rw [encode_ascii_cons ha] at hi ⊢
      simp only [List.length_cons] at hi
      simp only
      unfold bytesEscape
      cases hs : simpleEscape c.toNat with
      | some x =>
        simp only
        exact ih cs.length (by omega) cs inner _ _ _ rfl h (by omega) (by omega)
      | none =>
        simp only
        by_cases h10 : c.toNat = 10
        · rw [if_pos h10]
          simp only
          exact ih cs.length (by omega) cs inner _ _ _ rfl h (by omega) (by omega)
        · rw [if_neg h10, if_neg hx]
          cases he : parseOctal (c.toNat :: encode cs) with
          | none =>
            simp only
            exact ih cs.length (by omega) cs inner _ _ _ rfl h (by omega) (by omega)
          | some r =>
            obtain ⟨len, octal⟩ := r
            simp only
            obtain ⟨m, h1, h2, h3, h4, h5, h6⟩ := octalLoop_used 2 cs 1 (c.toNat - 48) h
            have hm : len - 1 = m := by
              unfold parseOctal at he
              rw [octalLoop] at he
              by_cases hd : 48 ≤ c.toNat ∧ c.toNat ≤ 55
              · rw [if_pos hd] at he
                simp only [Nat.zero_mul, Nat.zero_add] at he
                rw [h1] at he
                split at he
                · simp only [Option.some.injEq, Prod.mk.injEq] at he; omega
                · simp at he
              · rw [if_neg hd] at he
                simp at he
            have hlen : ∀ l : List Char, l.length ≤ (encode l).length := by
              intro l
              induction l with
              | nil => simp
              | cons d l ihl =>
                rw [encode_cons, List.length_append, List.length_cons]
                by_cases hd : d.toNat < 128
                · rw [encodeChar_ascii hd]; simp; omega
                · obtain ⟨b, bs, hb, -⟩ := encodeChar_multi (c := d) (by omega)
                  rw [hb]; simp; omega
            have hlc := hlen cs
            have hdl := congrArg List.length h5
            rw [List.length_drop] at hdl
            rw [hm, h5]
            exact ih (cs.drop m).length (by simp; omega) (cs.drop m) inner _ _ _ rfl h6 (by omega) (by omega)
    · obtain ⟨b, bs, hb, hb0, -, hbs⟩ := encodeChar_multi (c := c) (by omega)
      rw [encode_cons, hb, List.cons_append] at hi ⊢
      simp only [List.length_cons, List.length_append] at hi
      simp only
      have hesc : bytesEscape b (bs ++ encode cs) = ([92, b], 0, bs ++ encode cs) := by
        unfold bytesEscape
        rw [simpleEscape_none (by simp only [List.mem_cons, List.not_mem_nil, or_false, not_or]; omega)]
        simp only
        rw [if_neg (by omega), if_neg (by omega), parseOctal_none (by omega)]
      rw [hesc]
      simp only
      rw [bytesLoop_skip _ _ _ _ bs _ (fun hm => by have := hbs _ hm; omega)]
      exact ih cs.length (by omega) cs inner _ _ _ rfl h (by omega) (by omega)
  | @hex c n ds cs hc hl hd h =>
    rw [List.cons_append, List.cons_append] at hn hi ⊢
    simp only [List.length_cons, List.length_append] at hn
    simp at hc
    obtain ⟨rfl, rfl⟩ := hc
    rw [encode_ascii_cons (by decide), encode_ascii_cons (by decide), encode_digits hd] at hi ⊢
    simp only [List.length_cons, List.length_append, List.length_map] at hi
    rw [show '\\'.toNat = 92 from rfl, show 'x'.toNat = 120 from rfl, bytesLoop.eq_def]
    simp only
    rw [if_pos trivial, if_pos hp]
    have hp := parseHex_digits (rest := encode cs) hd
    rw [hl] at hp
    unfold bytesEscape
    rw [show simpleEscape 120 = none from rfl]
    simp only
    rw [if_neg (by decide), if_pos trivial, hp]
    cases hcf : charFromU32 (number 16 ds) with
    | none =>
      simp only [List.length_append, List.length_map]
      exact ih cs.length (by omega) cs inner _ _ _ rfl h (by omega) (by omega)
    | some c =>
      simp only [List.length_append, List.length_map]
      exact ih cs.length (by omega) cs inner _ _ _ rfl h (by omega) (by omega)

end Verif.Strings
