import Verif.Strings.Lemmas

/-! # The loop computes the value of a literal -/

namespace Verif.Strings

open Spec

theorem toNat_inj {c d : Char} (h : c.toNat = d.toNat) : c = d := Char.ext (UInt32.toNat_inj.mp h)

theorem simpleEscape_single {e : Char} {x : Nat} (h : (e, x) ∈ single) :
    e.toNat < 128 ∧ simpleEscape e.toNat = some x ∧ x < 128 ∧ e ≠ '\n' ∧ e ≠ '\r' := by
  simp only [single, List.mem_cons, Prod.mk.injEq, List.not_mem_nil, or_false] at h
  rcases h with ⟨rfl, rfl⟩ | ⟨rfl, rfl⟩ | ⟨rfl, rfl⟩ | ⟨rfl, rfl⟩ | ⟨rfl, rfl⟩ | ⟨rfl, rfl⟩ | ⟨rfl, rfl⟩ | ⟨rfl, rfl⟩ | ⟨rfl, rfl⟩ | ⟨rfl, rfl⟩ <;> decide

theorem simpleEscape_none {b : Nat} (h : b ∉ [92, 39, 34, 97, 98, 116, 110, 118, 102, 114]) : simpleEscape b = none := by
  simp only [List.mem_cons, List.not_mem_nil, or_false, not_or] at h
  unfold simpleEscape
  rw [if_neg (by omega), if_neg (by omega), if_neg (by omega), if_neg (by omega), if_neg (by omega), if_neg (by omega),
    if_neg (by omega), if_neg (by omega)]

/-- The head of an encoded text that is an ASCII byte. -/
theorem head_encode {b : List Char} {x : Nat} (h : (encode b).head? = some x) (hx : x < 128) :
    ∃ c, b.head? = some c ∧ c.toNat = x := by
  cases b with
  | nil => simp [encode] at h
  | cons c b =>
    refine ⟨c, rfl, ?_⟩
    rw [encode_cons] at h
    by_cases hc : c.toNat < 128
    · rw [encodeChar_ascii hc] at h; simpa using h
    · obtain ⟨y, ys, he, hy, -⟩ := encodeChar_multi (c := c) (by omega)
      rw [he] at h
      simp at h
      omega

theorem octal_end {cs b : List Char} {ds : List Char} (hb : universal b = cs)
    (h : ds.length = 3 ∨ ∀ c, cs.head? = some c → ¬ Digits 8 [c]) :
    ds.length = 3 ∨ ∀ x, (encode b).head? = some x → ¬ (48 ≤ x ∧ x ≤ 55) := by
  rcases h with h | h
  · exact .inl h
  · right
    intro x hx hd
    obtain ⟨c, hc, rfl⟩ := head_encode hx (by omega)
    cases b with
    | nil => simp at hc
    | cons d b =>
      simp at hc; subst hc
      have hne : d ≠ '\r' := by
        rintro rfl
        have : '\r'.toNat = 13 := rfl
        omega
      rw [universal_cons hne] at hb
      exact h d (by rw [← hb]; rfl) (octal_digit.mpr hd)

theorem escape_octal {ds : List Char} {rest : List Nat} (h1 : ds ≠ []) (h2 : ds.length ≤ 3) (h3 : Digits 8 ds)
    (h4 : ds.length = 3 ∨ ∀ x, rest.head? = some x → ¬ (48 ≤ x ∧ x ≤ 55)) :
    ∃ d r, ds.map Char.toNat ++ rest = d :: r ∧ escape d r = (encodeChar (Char.ofNat (number 8 ds)), rest) := by
  cases ds with
  | nil => exact absurd rfl h1
  | cons d ds =>
    refine ⟨d.toNat, ds.map Char.toNat ++ rest, rfl, ?_⟩
    have hd : Digits 8 [d] := by intro x hx; simp at hx; subst hx; exact h3 _ (by simp)
    have hd := octal_digit.mp hd
    have hp := parseOctal_digits (d :: ds) rest h3 h1 h2 h4
    simp only [List.map_cons, List.cons_append] at hp
    unfold escape
    rw [simpleEscape_none (by simp only [List.mem_cons, List.not_mem_nil, or_false, not_or]; omega)]
    simp only
    rw [if_neg (by omega), if_neg (by omega), if_neg (by omega), if_neg (by omega), if_neg (by omega), if_neg (by omega), hp]
    simp

theorem parseHex_digits {ds : List Char} {rest : List Nat} (h : Digits 16 ds) :
    parseHex ds.length (ds.map Char.toNat ++ rest) = (charFromU32 (number 16 ds), rest) := by
  unfold parseHex
  rw [parseHexLoop_digits ds rest 0 h]
  simp

theorem map_toNat_cons {s : List Char} {n : Nat} {v : List Nat} (h : s.map Char.toNat = n :: v) :
    ∃ c s', s = c :: s' ∧ c.toNat = n ∧ s'.map Char.toNat = v := by
  cases s with
  | nil => simp at h
  | cons c s => simp at h; exact ⟨c, s, rfl, h.1, h.2⟩

theorem encode_digits {base : Nat} {ds : List Char} (h : Digits base ds) (b : List Char) :
    encode (ds ++ b) = ds.map Char.toNat ++ encode b := by
  rw [encode_append, encode_ascii (digits_ascii h)]

theorem digits_no_newline {base : Nat} {ds : List Char} (h : Digits base ds) : ∀ c ∈ ds, c ≠ '\n' := by
  rintro c hc rfl
  obtain ⟨k, hk, -⟩ := h _ hc
  have : digit '\n' = none := by decide
  rw [this] at hk
  simp at hk

theorem loop_cr (string : Option (List Nat)) (p : List Char) (rest : List Nat) :
    loop string (encode p) (13 :: rest) =
      loop (some (if rest.head? = some 10 then string.getD [] ++ encode p else string.getD [] ++ encode p ++ [10])) [] rest := by
  rw [loop.eq_def]
  simp only
  rw [if_neg (by decide), if_pos trivial, if_pos]
  cases p with
  | nil => rfl
  | cons c p =>
    have := boundary_encode (c :: p)
    have hne : encode (c :: p) ≠ [] := by
      rw [encode_cons]
      by_cases hc : c.toNat < 128
      · rw [encodeChar_ascii hc]; simp
      · obtain ⟨b, bs, he, -⟩ := encodeChar_multi (c := c) (by omega)
        rw [he]; simp
    generalize encode (c :: p) = l at this hne
    cases l with
    | nil => exact absurd rfl hne
    | cons x l => exact this

/-- The value of a body without `\N{…}` and without surrogates. -/
theorem loop_value {cs : List Char} {v : List Nat} (h : Body (fun _ => none) cs v) :
    ∀ (body s : List Char) (string : Option (List Nat)) (p : List Char), universal body = cs → s.map Char.toNat = v →
      loop string (encode p) (encode body) = .ok (string.getD [] ++ encode p ++ encode s) := by
  -- a hexadecimal escape
  have hex : ∀ (n : Nat) (letter : Char) (ds cs : List Char) (v : List Nat), letter.toNat < 128 → letter ≠ '\n' →
      (∀ rest, escape letter.toNat rest = (((parseHex n rest).1.map encodeChar).getD [], (parseHex n rest).2)) →
      ds.length = n → Digits 16 ds →
      (∀ (body s : List Char) (string : Option (List Nat)) (p : List Char), universal body = cs → s.map Char.toNat = v →
        loop string (encode p) (encode body) = .ok (string.getD [] ++ encode p ++ encode s)) →
      ∀ (body s : List Char) (string : Option (List Nat)) (p : List Char),
        universal body = '\\' :: letter :: ds ++ cs → s.map Char.toNat = number 16 ds :: v →
        loop string (encode p) (encode body) = .ok (string.getD [] ++ encode p ++ encode s) := by
    intro n letter ds cs v hl hl2 hesc hn hd ih body s string p hu hs
    obtain ⟨b', rfl, hb'⟩ := universal_prefix (p := '\\' :: letter :: ds) (by
      intro c hc
      simp only [List.mem_cons] at hc
      rcases hc with rfl | rfl | hc
      · decide
      · exact hl2
      · exact digits_no_newline hd c hc) hu
    obtain ⟨c, s', rfl, hc, hs'⟩ := map_toNat_cons hs
    rw [List.cons_append, List.cons_append, encode_ascii_cons (by decide), encode_ascii_cons hl, encode_digits hd]
    rw [show '\\'.toNat = 92 from rfl, loop_escape, hesc, ← hn, parseHex_digits hd, ← hc, charFromU32_toNat]
    simp only [Option.map_some, Option.getD_some]
    have := ih b' s' (some (string.getD [] ++ encode p ++ encodeChar c)) [] hb' hs'
    rw [encode_nil] at this
    rw [this, encode_cons]
    simp
  induction h with
  | nil =>
    intro body s string p hu hs
    have := universal_nil hu
    subst this
    have : s = [] := by simpa using hs
    subst this
    rw [loop.eq_def]
    cases string with
    | none => simp [encode]
    | some x => simp [encode_nil, boundary_encode]
  | @plain c cs v hc h ih =>
    intro body s string p hu hs
    obtain ⟨c', s', rfl, hc', hs'⟩ := map_toNat_cons hs
    have := toNat_inj hc'
    subst this
    rcases universal_inv hu with ⟨hcr, b', rfl, hb'⟩ | ⟨rfl, b', rfl, hb'⟩ | ⟨rfl, b', rfl, hh, hb'⟩
    · rw [encode_cons, loop_plain _ _ _ _ (not_mem_encodeChar hc (by decide)) (not_mem_encodeChar hcr (by decide))]
      have e : encode p ++ encodeChar c' = encode (p ++ [c']) := by rw [encode_append, encode_cons, encode_nil]; simp
      rw [e, ih b' s' string (p ++ [c']) hb' hs', ← e, encode_cons]
      simp
    · rw [encode_ascii_cons (by decide), encode_ascii_cons (by decide), show '\r'.toNat = 13 from rfl, loop_cr,
        if_pos (show ('\n'.toNat :: encode b').head? = some 10 from rfl)]
      have := loop_plain (some (string.getD [] ++ encode p)) [] ['\n'.toNat] (encode b') (by decide) (by decide)
      rw [List.singleton_append] at this
      rw [this]
      have := ih b' s' (some (string.getD [] ++ encode p)) ['\n'] hb' hs'
      rw [show encode ['\n'] = [] ++ ['\n'.toNat] from rfl] at this
      rw [this, encode_ascii_cons (by decide)]
      simp
    · rw [encode_ascii_cons (by decide), show '\r'.toNat = 13 from rfl, loop_cr, if_neg]
      · have := ih b' s' (some (string.getD [] ++ encode p ++ [10])) [] hb' hs'
        rw [encode_nil] at this
        rw [this, encode_ascii_cons (by decide)]
        simp
      · intro he
        exact hh ((encode_head (d := '\n') (by decide)).mp he)
  | @newline cs v h ih =>
    intro body s string p hu hs
    obtain ⟨b', rfl, hb'⟩ := universal_prefix (p := ['\\']) (by simp) hu
    rw [List.singleton_append, encode_ascii_cons (by decide), show '\\'.toNat = 92 from rfl]
    rcases universal_inv hb' with ⟨-, b'', rfl, hb''⟩ | ⟨-, b'', rfl, hb''⟩ | ⟨-, b'', rfl, hh, hb''⟩
    · rw [encode_ascii_cons (by decide), loop_escape]
      have := ih b'' s (some (string.getD [] ++ encode p)) [] hb'' hs
      rw [encode_nil] at this
      have e : escape '\n'.toNat (encode b'') = ([], encode b'') := by unfold escape; rfl
      rw [e, List.append_nil, this]
      simp
    · rw [encode_ascii_cons (by decide), encode_ascii_cons (by decide), loop_escape]
      have := ih b'' s (some (string.getD [] ++ encode p)) [] hb'' hs
      rw [encode_nil] at this
      have e : escape '\r'.toNat ('\n'.toNat :: encode b'') = ([], encode b'') := by unfold escape; rfl
      rw [e, List.append_nil, this]
      simp
    · rw [encode_ascii_cons (by decide), loop_escape]
      have := ih b'' s (some (string.getD [] ++ encode p)) [] hb'' hs
      rw [encode_nil] at this
      have e : escape '\r'.toNat (encode b'') = ([], encode b'') := by
        have hne : ∀ rest, encode b'' ≠ 10 :: rest := by
          intro rest he
          exact hh ((encode_head (d := '\n') (by decide)).mp (by rw [he]; rfl))
        unfold escape
        rw [show simpleEscape '\r'.toNat = none from rfl]
        simp only
        rw [if_neg (by decide), if_pos (by decide)]
      rw [e, List.append_nil, this]
      simp
  | @single e x cs v hm h ih =>
    intro body s string p hu hs
    obtain ⟨he, hse, hx, hen, her⟩ := simpleEscape_single hm
    obtain ⟨b', rfl, hb'⟩ := universal_prefix (p := ['\\', e]) (by
      intro c hc
      simp only [List.mem_cons, List.not_mem_nil, or_false] at hc
      rcases hc with rfl | rfl
      · decide
      · exact hen) hu
    obtain ⟨c, s', rfl, hc, hs'⟩ := map_toNat_cons hs
    rw [List.cons_append, List.singleton_append, encode_ascii_cons (by decide), encode_ascii_cons he, show '\\'.toNat = 92 from rfl, loop_escape]
    have he2 : escape e.toNat (encode b') = ([x], encode b') := by unfold escape; rw [hse]
    rw [he2]
    have := ih b' s' (some (string.getD [] ++ encode p ++ [x])) [] hb' hs'
    rw [encode_nil] at this
    rw [this, encode_ascii_cons (by omega), hc]
    simp
  | @octal ds cs v h1 h2 h3 h4 h ih =>
    intro body s string p hu hs
    obtain ⟨b', rfl, hb'⟩ := universal_prefix (p := '\\' :: ds) (by
      intro c hc
      simp only [List.mem_cons] at hc
      rcases hc with rfl | hc
      · decide
      · exact digits_no_newline h3 c hc) hu
    obtain ⟨c, s', rfl, hc, hs'⟩ := map_toNat_cons hs
    rw [List.cons_append, encode_ascii_cons (by decide), encode_digits h3, show '\\'.toNat = 92 from rfl]
    obtain ⟨d, r, hdr, hesc⟩ := escape_octal h1 h2 h3 (octal_end hb' h4)
    rw [hdr, loop_escape, hesc, ← hc]
    have e : Char.ofNat c.toNat = c := Char.ofNat_toNat c
    rw [e]
    have := ih b' s' (some (string.getD [] ++ encode p ++ encodeChar c)) [] hb' hs'
    rw [encode_nil] at this
    rw [this, encode_cons]
    simp
  | @hex2 ds cs v h1 h2 h ih =>
    exact hex 2 'x' ds cs v (by decide) (by decide) (fun rest => by unfold escape; rfl) h1 h2 ih
  | @hex4 ds cs v h1 h2 h ih =>
    exact hex 4 'u' ds cs v (by decide) (by decide) (fun rest => by unfold escape; rfl) h1 h2 ih
  | @hex8 ds cs v h1 h2 h3 h ih =>
    exact hex 8 'U' ds cs v (by decide) (by decide) (fun rest => by unfold escape; rfl) h1 h2 ih
  | named _ hn _ _ => simp at hn
  | @unknown c cs v h1 h2 h3 h4 h ih =>
    intro body s string p hu hs
    obtain ⟨b1, rfl, hb1⟩ := universal_prefix (p := ['\\']) (by simp) hu
    rcases universal_inv hb1 with ⟨hcr, b', rfl, hb'⟩ | ⟨rfl, -⟩ | ⟨rfl, -⟩
    · obtain ⟨c1, s1, rfl, hc1, hs1⟩ := map_toNat_cons hs
      obtain ⟨c2, s', rfl, hc2, hs'⟩ := map_toNat_cons hs1
      have := toNat_inj hc1; subst this
      have := toNat_inj hc2; subst this
      have hoct := fun h => h4 (octal_digit.mpr h)
      have hkey : ∃ b bs, encodeChar c2 = b :: bs ∧ escape b (bs ++ encode b') = (92 :: encodeChar c2, encode b') := by
        by_cases hc : c2.toNat < 128
        · refine ⟨c2.toNat, [], encodeChar_ascii hc, ?_⟩
          have hn : ∀ d : Char, c2 ≠ d → c2.toNat ≠ d.toNat := fun d hd h => hd (toNat_inj h)
          have hs0 : simpleEscape c2.toNat = none := by
            have h1' : ∀ e x, (e, x) ∈ Spec.single → c2.toNat ≠ e.toNat := by
              intro e x hm he
              exact h1 x (by rw [toNat_inj he]; exact hm)
            apply simpleEscape_none
            simp only [List.mem_cons, List.not_mem_nil, or_false, not_or]
            exact ⟨h1' '\\' 92 (by decide), h1' '\'' 39 (by decide), h1' '"' 34 (by decide), h1' 'a' 7 (by decide), h1' 'b' 8 (by decide),
              h1' 't' 9 (by decide), h1' 'n' 10 (by decide), h1' 'v' 11 (by decide), h1' 'f' 12 (by decide), h1' 'r' 13 (by decide)⟩
          simp only [List.mem_cons, List.not_mem_nil, or_false, not_or] at h3
          unfold escape
          rw [hs0]
          simp only
          rw [if_neg (show ¬ c2.toNat = 10 from hn '\n' h2), if_neg (show ¬ c2.toNat = 13 from hn '\r' hcr), if_neg (show ¬ c2.toNat = 117 from hn 'u' h3.2.1),
            if_neg (show ¬ c2.toNat = 85 from hn 'U' h3.2.2.1), if_neg (show ¬ c2.toNat = 120 from hn 'x' h3.1), if_neg (show ¬ c2.toNat = 78 from hn 'N' h3.2.2.2), parseOctal_none hoct]
          simp [charLen, hc, encodeChar_ascii hc]
        · obtain ⟨b, bs, he, hb, hlen, -⟩ := encodeChar_multi (c := c2) (by omega)
          refine ⟨b, bs, he, ?_⟩
          unfold escape
          rw [simpleEscape_none (by simp only [List.mem_cons, List.not_mem_nil, or_false, not_or]; omega)]
          simp only
          rw [if_neg (by omega), if_neg (by omega), if_neg (by omega), if_neg (by omega), if_neg (by omega), if_neg (by omega),
            parseOctal_none (by omega), ← hlen, he]
          simp
      obtain ⟨b, bs, he, hesc⟩ := hkey
      rw [List.singleton_append, encode_ascii_cons (by decide), encode_cons, he, List.cons_append, show '\\'.toNat = 92 from rfl, loop_escape, hesc]
      have := ih b' s' (some (string.getD [] ++ encode p ++ (92 :: encodeChar c2))) [] hb' hs'
      rw [encode_nil] at this
      simp only at this ⊢
      rw [this, encode_ascii_cons (by decide), encode_cons]
      simp
    · exact absurd rfl h2
    · exact absurd rfl h2

end Verif.Strings
