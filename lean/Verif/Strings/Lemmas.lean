import Verif.Strings.Model
import Verif.Strings.Spec

/-! # Lemmas about string literals -/

namespace Verif.Strings

open Spec

/-! ## UTF-8 -/

theorem encodeChar_ascii {c : Char} (h : c.toNat < 128) : encodeChar c = [c.toNat] := by
  unfold encodeChar; simp only; rw [if_pos h]

theorem toNat_lt (c : Char) : c.toNat < 0x110000 := by
  have := c.valid
  unfold UInt32.isValidChar Nat.isValidChar at this
  have h : c.toNat = c.val.toNat := rfl
  omega

theorem encodeChar_multi {c : Char} (h : 128 ≤ c.toNat) :
    ∃ b bs, encodeChar c = b :: bs ∧ 0xC0 ≤ b ∧ bs.length = charLen b - 1 ∧ ∀ x ∈ bs, 0x80 ≤ x ∧ x < 0xC0 := by
  have hlt := toNat_lt c
  generalize hv : c.toNat = v at h hlt
  unfold encodeChar charLen
  simp only [hv]
  rw [if_neg (by omega)]
  split
  · refine ⟨_, _, rfl, by omega, ?_, ?_⟩
    · rw [if_neg (by omega), if_pos (by omega)]; rfl
    · intro x hx; simp only [List.mem_cons, List.not_mem_nil, or_false] at hx; omega
  · split
    · refine ⟨_, _, rfl, by omega, ?_, ?_⟩
      · rw [if_neg (by omega), if_neg (by omega), if_pos (by omega)]; rfl
      · intro x hx; simp only [List.mem_cons, List.not_mem_nil, or_false] at hx; omega
    · refine ⟨_, _, rfl, by omega, ?_, ?_⟩
      · rw [if_neg (by omega), if_neg (by omega), if_neg (by omega)]; rfl
      · intro x hx; simp only [List.mem_cons, List.not_mem_nil, or_false] at hx; omega

theorem encode_cons (c : Char) (cs : List Char) : encode (c :: cs) = encodeChar c ++ encode cs := by
  simp [encode]

theorem encode_append (a b : List Char) : encode (a ++ b) = encode a ++ encode b := by
  simp [encode]

theorem encode_nil : encode [] = [] := rfl

theorem encode_ascii_cons {c : Char} (h : c.toNat < 128) (cs : List Char) : encode (c :: cs) = c.toNat :: encode cs := by
  rw [encode_cons, encodeChar_ascii h]; rfl

theorem encode_ascii {s : List Char} (h : ∀ c ∈ s, c.toNat < 128) : encode s = s.map Char.toNat := by
  induction s with
  | nil => rfl
  | cons c s ih =>
    rw [encode_ascii_cons (h c (by simp)), ih (fun c hc => h c (by simp [hc]))]; rfl

theorem boundary_encode (s : List Char) : boundary (encode s) = true := by
  cases s with
  | nil => rfl
  | cons c s =>
    rw [encode_cons]
    by_cases h : c.toNat < 128
    · rw [encodeChar_ascii h]
      simp only [List.cons_append, boundary]
      simp; omega
    · obtain ⟨b, bs, he, hb, -⟩ := encodeChar_multi (c := c) (by omega)
      rw [he]
      simp only [List.cons_append, boundary]
      simp; omega

/-- The bytes of a character other than `c` with code below 128 do not contain that code. -/
theorem not_mem_encodeChar {c d : Char} (h : c ≠ d) (hd : d.toNat < 128) : d.toNat ∉ encodeChar c := by
  by_cases hc : c.toNat < 128
  · rw [encodeChar_ascii hc]
    simp only [List.mem_cons, List.not_mem_nil, or_false]
    intro he
    exact h (Char.ext (UInt32.toNat_inj.mp he.symm))
  · obtain ⟨b, bs, he, hb, -, hbs⟩ := encodeChar_multi (c := c) (by omega)
    rw [he]
    intro hm
    rcases List.mem_cons.mp hm with hm | hm
    · omega
    · have := hbs _ hm; omega

theorem encode_head {s : List Char} {d : Char} (hd : d.toNat < 128) :
    (encode s).head? = some d.toNat ↔ s.head? = some d := by
  cases s with
  | nil => simp [encode]
  | cons c s =>
    rw [encode_cons, List.head?_cons]
    by_cases h : c = d
    · subst h; rw [encodeChar_ascii hd]; simp
    · constructor
      · intro he
        exfalso
        have hne : encodeChar c ≠ [] := by
          by_cases hc : c.toNat < 128
          · rw [encodeChar_ascii hc]; simp
          · obtain ⟨b, bs, he, -⟩ := encodeChar_multi (c := c) (by omega)
            rw [he]; simp
        have hmem : d.toNat ∈ encodeChar c := by
          generalize encodeChar c = l at hne he
          cases l with
          | nil => exact absurd rfl hne
          | cons x l => simp at he; simp [he]
        exact not_mem_encodeChar h hd hmem
      · intro he; simp at he; exact absurd he h

theorem charFromU32_toNat (c : Char) : charFromU32 c.toNat = some c := by
  unfold charFromU32
  have h : c.toNat.isValidChar := c.valid
  rw [dif_pos h]
  congr 1

/-! ## Digits -/

theorem digit_some {c : Char} {k : Nat} (h : digit c = some k) : c.toNat < 128 ∧ hexDigit c.toNat = some k ∧ k < 16 := by
  have le : ∀ a b : Char, a ≤ b ↔ a.toNat ≤ b.toNat := fun a b => Iff.rfl
  unfold digit at h
  simp only [le] at h
  have e1 : '0'.toNat = 48 := rfl
  have e2 : '9'.toNat = 57 := rfl
  have e3 : 'a'.toNat = 97 := rfl
  have e4 : 'f'.toNat = 102 := rfl
  have e5 : 'A'.toNat = 65 := rfl
  have e6 : 'F'.toNat = 70 := rfl
  rw [e1, e2, e3, e4, e5, e6] at h
  unfold hexDigit
  generalize c.toNat = n at h ⊢
  split at h
  · rename_i hc
    simp only [Option.some.injEq] at h
    refine ⟨by omega, ?_, by omega⟩
    rw [if_pos hc, h]
  · rename_i h1
    split at h
    · rename_i hc
      simp only [Option.some.injEq] at h
      refine ⟨by omega, ?_, by omega⟩
      rw [if_neg h1, if_pos hc, h]
    · rename_i h2
      split at h
      · rename_i hc
        simp only [Option.some.injEq] at h
        refine ⟨by omega, ?_, by omega⟩
        rw [if_neg h1, if_neg h2, if_pos hc, h]
      · simp at h

theorem octal_digit {c : Char} : Digits 8 [c] ↔ 48 ≤ c.toNat ∧ c.toNat ≤ 55 := by
  have hd : Digits 8 [c] ↔ ∃ k, digit c = some k ∧ k < 8 := by simp [Digits]
  rw [hd]
  constructor
  · rintro ⟨k, hk, h8⟩
    obtain ⟨-, h, -⟩ := digit_some hk
    unfold hexDigit at h
    split at h
    · simp at h; omega
    · split at h
      · simp at h; omega
      · split at h
        · simp at h; omega
        · simp at h
  · rintro ⟨h1, h2⟩
    refine ⟨c.toNat - 48, ?_, by omega⟩
    unfold digit
    have le : ∀ a b : Char, a ≤ b ↔ a.toNat ≤ b.toNat := fun a b => Iff.rfl
    rw [if_pos (show '0' ≤ c ∧ c ≤ '9' from ⟨(le _ _).mpr h1, (le _ _).mpr (by have : '9'.toNat = 57 := rfl; omega)⟩)]
    rfl

theorem digits_ascii {base : Nat} {ds : List Char} (h : Digits base ds) : ∀ c ∈ ds, c.toNat < 128 := by
  intro c hc
  obtain ⟨k, hk, -⟩ := h c hc
  exact (digit_some hk).1

theorem number_cons (base : Nat) (d : Char) (ds : List Char) :
    number base (d :: ds) = (digit d).getD 0 * base ^ ds.length + number base ds := by
  have gen : ∀ (ds : List Char) (n : Nat), ds.foldl (fun n d => n * base + (digit d).getD 0) n =
      n * base ^ ds.length + ds.foldl (fun n d => n * base + (digit d).getD 0) 0 := by
    intro ds
    induction ds with
    | nil => intro n; simp
    | cons d ds ih =>
      intro n
      simp only [List.foldl_cons, List.length_cons]
      rw [ih, ih (0 * base + (digit d).getD 0), Nat.pow_succ, Nat.add_mul]
      have : n * base * base ^ ds.length = n * (base ^ ds.length * base) := by rw [Nat.mul_assoc, Nat.mul_comm base]
      rw [this]
      simp [Nat.add_assoc]
  unfold number
  rw [List.foldl_cons, gen]
  simp

theorem parseHexLoop_digits (ds : List Char) (rest : List Nat) (n : Nat) (h : Digits 16 ds) :
    parseHexLoop ds.length (ds.map Char.toNat ++ rest) n = (some (n + number 16 ds), rest) := by
  induction ds generalizing n with
  | nil => simp [parseHexLoop, number]
  | cons d ds ih =>
    obtain ⟨k, hk, -⟩ := h d (by simp)
    obtain ⟨-, hk2, -⟩ := digit_some hk
    simp only [List.map_cons, List.cons_append, List.length_cons, parseHexLoop, hk2]
    rw [ih _ (fun x hx => h x (by simp [hx])), number_cons, hk]
    simp only [Option.getD_some, Prod.mk.injEq, Option.some.injEq, and_true]
    omega

theorem octalLoop_digits (ds : List Char) (rest : List Nat) (k used res : Nat) (h : Digits 8 ds) (hk : ds.length ≤ k)
    (hend : ds.length = k ∨ ∀ b, rest.head? = some b → ¬ (48 ≤ b ∧ b ≤ 55)) :
    octalLoop k (ds.map Char.toNat ++ rest) used res = (used + ds.length, res * 8 ^ ds.length + number 8 ds) := by
  induction ds generalizing k used res with
  | nil =>
    cases k with
    | zero => simp [octalLoop, number]
    | succ k =>
      have hend := hend.resolve_left (by simp)
      cases rest with
      | nil => simp [octalLoop, number]
      | cons b rest =>
        have := hend b rfl
        simp [octalLoop, number, if_neg this]
  | cons d ds ih =>
    cases k with
    | zero => simp at hk
    | succ k =>
      have hd : Digits 8 [d] := by intro x hx; simp at hx; subst hx; exact h _ (by simp)
      have hd' := octal_digit.mp hd
      obtain ⟨m, hm, hm8⟩ := h d (by simp)
      obtain ⟨-, hm2, -⟩ := digit_some hm
      have hmv : m = d.toNat - 48 := by
        unfold hexDigit at hm2
        rw [if_pos (by omega)] at hm2
        simpa using hm2.symm
      simp only [List.map_cons, List.cons_append, octalLoop, if_pos hd']
      rw [ih _ _ _ (fun x hx => h x (by simp [hx])) (by simpa using hk) (by simpa using hend)]
      rw [number_cons, hm, List.length_cons]
      simp only [Option.getD_some, Prod.mk.injEq]
      refine ⟨by omega, ?_⟩
      rw [← hmv, Nat.add_mul, Nat.pow_succ]
      have : res * 8 * 8 ^ ds.length = res * (8 ^ ds.length * 8) := by rw [Nat.mul_assoc, Nat.mul_comm 8]
      rw [this]
      omega

theorem parseOctal_digits (ds : List Char) (rest : List Nat) (h : Digits 8 ds) (hne : ds ≠ []) (hk : ds.length ≤ 3)
    (hend : ds.length = 3 ∨ ∀ b, rest.head? = some b → ¬ (48 ≤ b ∧ b ≤ 55)) :
    parseOctal (ds.map Char.toNat ++ rest) = some (ds.length, number 8 ds) := by
  unfold parseOctal
  rw [octalLoop_digits ds rest 3 0 0 h hk hend]
  have : 0 < ds.length := List.length_pos_iff.mpr hne
  simp [this]

theorem parseOctal_none {b : Nat} {rest : List Nat} (h : ¬ (48 ≤ b ∧ b ≤ 55)) : parseOctal (b :: rest) = none := by
  unfold parseOctal
  simp [octalLoop, h]

/-! ## Universal newlines -/

theorem universal_cons {c : Char} (h : c ≠ '\r') (cs : List Char) : universal (c :: cs) = c :: universal cs := by
  rw [universal.eq_def]
  split
  · rename_i he; simp at he; exact absurd he.1 h
  · rename_i he; simp at he; exact absurd he.1 h
  · rename_i he; simp at he; obtain ⟨rfl, rfl⟩ := he; rfl
  · rename_i he; simp at he

theorem universal_crlf (cs : List Char) : universal ('\r' :: '\n' :: cs) = '\n' :: universal cs := by
  rw [universal]

theorem universal_cr {cs : List Char} (h : cs.head? ≠ some '\n') : universal ('\r' :: cs) = '\n' :: universal cs := by
  cases cs with
  | nil => rfl
  | cons c cs =>
    rw [universal.eq_def]
    split
    · rename_i he; simp at he; obtain ⟨rfl, rfl⟩ := he; simp at h
    · rename_i he; simp at he; subst he; rfl
    · rename_i h1 h2 he
      simp at he
      obtain ⟨rfl, rfl⟩ := he
      exact (h2 rfl).elim
    · rename_i he; simp at he

/-- The ways to write a text. -/
theorem universal_inv {b : List Char} {c : Char} {t : List Char} (h : universal b = c :: t) :
    (c ≠ '\r' ∧ ∃ b', b = c :: b' ∧ universal b' = t) ∨
    (c = '\n' ∧ ∃ b', b = '\r' :: '\n' :: b' ∧ universal b' = t) ∨
    (c = '\n' ∧ ∃ b', b = '\r' :: b' ∧ b'.head? ≠ some '\n' ∧ universal b' = t) := by
  cases b with
  | nil => simp [universal] at h
  | cons x b =>
    by_cases hx : x = '\r'
    · subst hx
      by_cases hb : b.head? = some '\n'
      · cases b with
        | nil => simp at hb
        | cons y b =>
          simp at hb; subst hb
          rw [universal_crlf] at h
          simp at h
          exact .inr (.inl ⟨h.1.symm, b, rfl, h.2⟩)
      · rw [universal_cr hb] at h
        simp at h
        exact .inr (.inr ⟨h.1.symm, b, rfl, hb, h.2⟩)
    · rw [universal_cons hx] at h
      simp at h
      obtain ⟨rfl, rfl⟩ := h
      exact .inl ⟨hx, b, rfl, rfl⟩

theorem universal_prefix {b p t : List Char} (hp : ∀ c ∈ p, c ≠ '\n') (h : universal b = p ++ t) :
    ∃ b', b = p ++ b' ∧ universal b' = t := by
  induction p generalizing b with
  | nil => exact ⟨b, rfl, h⟩
  | cons c p ih =>
    rcases universal_inv h with ⟨-, b', rfl, h'⟩ | ⟨rfl, -⟩ | ⟨rfl, -⟩
    · obtain ⟨b'', rfl, h''⟩ := ih (fun c hc => hp c (by simp [hc])) h'
      exact ⟨b'', rfl, h''⟩
    · exact absurd rfl (hp _ (by simp))
    · exact absurd rfl (hp _ (by simp))

theorem universal_nil {b : List Char} (h : universal b = []) : b = [] := by
  cases b with
  | nil => rfl
  | cons c b =>
    by_cases hc : c = '\r'
    · subst hc
      by_cases hb : b.head? = some '\n'
      · cases b with
        | nil => simp at hb
        | cons y b => simp at hb; subst hb; rw [universal_crlf] at h; simp at h
      · rw [universal_cr hb] at h; simp at h
    · rw [universal_cons hc] at h; simp at h

theorem universal_no_cr {b : List Char} (h : '\r' ∉ b) : universal b = b := by
  induction b with
  | nil => rfl
  | cons c b ih =>
    rw [universal_cons (fun hc => h (by simp [hc])), ih (fun hb => h (by simp [hb]))]

theorem removeCarriageReturns_eq (s : List Char) : removeCarriageReturns s = universal s := by
  induction hn : s.length using Nat.strongRecOn generalizing s with
  | _ n ih =>
    cases s with
    | nil => rfl
    | cons c s =>
      simp only [removeCarriageReturns]
      simp only [List.length_cons] at hn
      by_cases hc : c = '\r'
      · subst hc
        rw [if_pos rfl]
        by_cases hb : s.head? = some '\n'
        · rw [if_pos hb]
          cases s with
          | nil => simp at hb
          | cons y s =>
            simp at hb; subst hb
            simp only [List.length_cons] at hn
            rw [universal_crlf, removeCarriageReturns, if_neg (by decide), ih s.length (by omega) s rfl]
        · rw [if_neg hb, universal_cr hb, ih s.length (by omega) s rfl]
      · rw [if_neg hc, universal_cons hc, ih s.length (by omega) s rfl]

/-! ## The loop -/

theorem loop_plain (string : Option (List Nat)) (pending bs rest : List Nat) (h1 : 92 ∉ bs) (h2 : 13 ∉ bs) :
    loop string pending (bs ++ rest) = loop string (pending ++ bs) rest := by
  induction bs generalizing pending with
  | nil => simp
  | cons b bs ih =>
    simp only [List.mem_cons, not_or] at h1 h2
    rw [List.cons_append, loop.eq_def]
    simp only
    rw [if_neg (fun h => h1.1 h.symm), if_neg (fun h => h2.1 h.symm), ih _ h1.2 h2.2]
    simp

theorem boundary_append (p body : List Char) : boundary (encode p ++ encode body) = true := by
  rw [← encode_append]; exact boundary_encode _

/-- One escape. -/
theorem loop_escape (string : Option (List Nat)) (p : List Char) (b : Nat) (rest : List Nat) :
    loop string (encode p) (92 :: b :: rest) =
      loop (some (string.getD [] ++ encode p ++ (escape b rest).1)) [] (escape b rest).2 := by
  rw [loop.eq_def]
  simp only
  rw [if_pos trivial, if_pos]
  cases p with
  | nil => rfl
  | cons c p =>
    have := boundary_encode (c :: p)
    have hne : encode (c :: p) ≠ [] := by
      rw [encode_cons]
      by_cases hc : c.toNat < 128
      · rw [encodeChar_ascii hc]; simp
      · obtain ⟨b, bs, he, -⟩ := encodeChar_multi (c := c) (by omega)
        rw [he]; simp
    generalize encode (c :: p) = l at this hne
    cases l with
    | nil => exact absurd rfl hne
    | cons x l => exact this

end Verif.Strings
