import Verif.Strings.Safe

/-!
# Properties of string and bytes literals (C11 - C14, C50, C58)
-/

namespace Verif.Strings

open Spec

deriving instance DecidableEq for Except

/-! ## C11 -/

/-- C11, partial (full statement: for all `names` and lists of code points; false by `named_violation` and
`surrogate_violation`): the value of a literal whose value Python gives as the characters `s`
without using `\N{…}`. -/
theorem string_value_partial (body s : List Char) (h : Body (fun _ => none) (universal body) (s.map Char.toNat)) :
    fromLiteral ⟨body, false⟩ = .ok (encode s) := by
  unfold fromLiteral
  have := loop_value h body s none [] rfl rfl
  simpa [encode_nil] using this

/-- C11 for raw literals: only the line endings are converted. -/
theorem raw_value (body : List Char) : fromLiteral ⟨body, true⟩ = .ok (encode (universal body)) := by
  simp [fromLiteral, removeCarriageReturns_eq]

/-- `a\x41\n\101\ud\é` followed by a line continuation with `\r\n`. -/
example : Body (fun _ => none) (universal "a\\x41\\n\\1018\\é\\\r\nb".toList) ("aA\nA8\\éb".toList.map Char.toNat) := by
  have e : universal "a\\x41\\n\\1018\\é\\\r\nb".toList = "a\\x41\\n\\1018\\é\\\nb".toList := by
    simp only [String.toList]
    decide +kernel
  rw [e]
  refine .plain (by decide) (.hex2 (ds := ['4', '1']) (v := _) rfl ?_ (.single (e := 'n') (x := 10) (by decide)
    (.octal (ds := ['1', '0', '1']) (by decide) (by decide) ?_ (.inl rfl) (.plain (by decide) (.unknown (c := 'é') ?_ (by decide) (by decide) ?_
      (.newline (.plain (by decide) .nil)))))))
  · intro d hd; simp at hd; rcases hd with rfl | rfl <;> exact ⟨_, rfl, by decide⟩
  · intro d hd; simp at hd; rcases hd with rfl | rfl | rfl <;> exact ⟨_, rfl, by decide⟩
  · intro x hx; simp [Spec.single] at hx
  · rw [octal_digit]; decide

/-- C11 violated: `"\N{DASH}"` has one character, zuban keeps the text. -/
theorem named_violation : ∃ (names : List Char → Option Nat) (body : List Char) (c : Char),
    Body names (universal body) [c.toNat] ∧ fromLiteral ⟨body, false⟩ = .ok (encode body) ∧ body.length = 8 := by
  refine ⟨fun n => if n = "DASH".toList then some 45 else none, "\\N{DASH}".toList, '-', ?_, ?_, rfl⟩
  · have e : universal "\\N{DASH}".toList = '\\' :: 'N' :: '{' :: "DASH".toList ++ '}' :: [] := by decide
    rw [e]
    exact .named (by decide) (by simp) .nil
  · decide +kernel

/-- C11 violated: `"\ud800"` has one code point, zuban gives the empty string. -/
theorem surrogate_violation : ∃ body : List Char, Body (fun _ => none) (universal body) [0xD800] ∧
    fromLiteral ⟨body, false⟩ = .ok [] := by
  refine ⟨"\\ud800".toList, ?_, by decide +kernel⟩
  have e : universal "\\ud800".toList = '\\' :: 'u' :: ['d', '8', '0', '0'] ++ [] := by decide
  rw [e]
  refine .hex4 (ds := ['d', '8', '0', '0']) (v := []) rfl ?_ .nil
  intro d hd; simp at hd; rcases hd with rfl | rfl | rfl <;> exact ⟨_, rfl, by decide⟩

/-! ## C12 -/

theorem parseHexLoop_suffix (k : Nat) (bs : List Nat) (n : Nat) : (parseHexLoop k bs n).2 <:+ bs := by
  induction k generalizing bs n with
  | zero => exact List.suffix_refl _
  | succ k ih =>
    cases bs with
    | nil => exact List.suffix_refl _
    | cons b bs =>
      simp only [parseHexLoop]
      split
      · exact List.suffix_cons _ _
      · exact (ih _ _).trans (List.suffix_cons _ _)

theorem parseHex_suffix (k : Nat) (bs : List Nat) : (parseHex k bs).2 <:+ bs := by
  have := parseHexLoop_suffix k bs 0
  unfold parseHex
  split <;> (rename_i h; rw [h] at this; exact this)

theorem escape_suffix (b : Nat) (rest : List Nat) : (escape b rest).2 <:+ rest := by
  unfold escape
  split
  · exact List.suffix_refl _
  · split
    · exact List.suffix_refl _
    · split
      · split
        · exact List.suffix_cons _ _
        · exact List.suffix_refl _
      · split
        · exact parseHex_suffix 4 rest
        · split
          · exact parseHex_suffix 8 rest
          · split
            · exact parseHex_suffix 2 rest
            · split
              · exact List.suffix_refl _
              · split <;> exact List.drop_suffix _ _

theorem loop_ascii (n : Nat) : ∀ (bs : List Nat) (string : Option (List Nat)) (pending : List Nat), bs.length = n →
    (∀ b ∈ bs, b < 128) → (∀ b ∈ pending, b < 128) → ∃ r, loop string pending bs = .ok r := by
  have hb : ∀ l : List Nat, (∀ b ∈ l, b < 128) → boundary l = true := by
    intro l hl
    cases l with
    | nil => rfl
    | cons b l =>
      have := hl b (by simp)
      simp [boundary]; omega
  induction n using Nat.strongRecOn with
  | ind n ih =>
  intro bs string pending hn h1 h2
  cases bs with
  | nil =>
    rw [loop.eq_def]
    cases string with
    | none => exact ⟨_, rfl⟩
    | some s => simp [hb pending h2]
  | cons ch rest =>
    have hbd : boundary (pending ++ ch :: rest) = true := hb _ (by
      intro b hm
      rcases List.mem_append.mp hm with hm | hm
      · exact h2 b hm
      · exact h1 b hm)
    have hrest : ∀ b ∈ rest, b < 128 := fun b hb => h1 b (by simp [hb])
    simp only [List.length_cons] at hn
    rw [loop.eq_def]
    simp only [hbd, if_true]
    split
    · cases rest with
      | nil => exact ⟨_, rfl⟩
      | cons b rest =>
        simp only
        have hs := escape_suffix b rest
        simp only [List.length_cons] at hn
        exact ih _ (by have := hs.length_le; omega) _ _ _ rfl (fun x hx => hrest x (by simp [hs.subset hx])) (by simp)
    · split
      · exact ih _ (by omega) _ _ _ rfl hrest (by simp)
      · refine ih _ (by omega) rest string (pending ++ [ch]) rfl hrest ?_
        intro b hm
        rcases List.mem_append.mp hm with hm | hm
        · exact h2 b hm
        · simp at hm; subst hm; exact h1 _ (by simp)

/-- C12 for strings, partial (full statement: for all bodies; false by `string_panic_violation`): bodies of ASCII
characters, and bodies of any characters whose hexadecimal escapes have all their digits. -/
theorem string_no_panic_partial (u : Unpacked)
    (h : (∀ c ∈ u.inner, c.toNat < 128) ∨ Complete [('x', 2), ('u', 4), ('U', 8)] u.inner) : ∃ r, fromLiteral u = .ok r := by
  unfold fromLiteral
  split
  · exact ⟨_, rfl⟩
  · rcases h with h | h
    · refine loop_ascii _ _ none [] rfl ?_ (by simp)
      rw [encode_ascii h]
      intro b hb
      obtain ⟨c, hc, rfl⟩ := List.mem_map.mp hb
      exact h c hc
    · exact loop_complete _ u.inner [] none rfl h

/-- C12 for bytes, partial (full statement: for all bodies; false by `bytes_panic_violation`): bodies whose `\x` have
two digits. -/
theorem bytes_no_panic_partial (u : Unpacked) (h : Complete [('x', 2)] u.inner) : ∃ r, bytesLiteral u = .ok r := by
  unfold bytesLiteral
  split
  · exact ⟨_, rfl⟩
  · exact bytesLoop_complete _ u.inner _ none 0 0 rfl h (Nat.le_refl _) (by simp)

/-- `\xe9\U00110000é\` and a non-character. -/
example : Complete [('x', 2), ('u', 4), ('U', 8)] "\\xe9\\U00110000é\\é".toList := by
  refine .hex (c := 'x') (ds := ['e', '9']) (by simp) rfl ?_ (.hex (c := 'U') (ds := ['0', '0', '1', '1', '0', '0', '0', '0']) (by simp) rfl ?_
    (.plain (c := 'é') (by decide) (.escaped (c := 'é') (by simp) .nil)))
  · intro d hd; simp at hd; rcases hd with rfl | rfl <;> exact ⟨_, rfl, by decide⟩
  · intro d hd; simp at hd; rcases hd with rfl | rfl | rfl <;> exact ⟨_, rfl, by decide⟩

/-- C12 violated: `'\xé'` crashes. -/
theorem string_panic_violation : fromLiteral ⟨"\\xé".toList, false⟩ = .error .panic := by decide +kernel

/-- C12 violated: `b'\x'`, `b'\x4'` and `b'\x\\'` crash. -/
theorem bytes_panic_violation : bytesLiteral ⟨"\\x".toList, false⟩ = .error .panic ∧
    bytesLiteral ⟨"\\x4".toList, false⟩ = .error .panic ∧ bytesLiteral ⟨"\\x\\\\".toList, false⟩ = .error .panic := by
  decide +kernel

/-! ## C58 -/

theorem bytesEscape_octal {ds : List Char} {rest : List Nat} (h1 : ds ≠ []) (h2 : ds.length ≤ 3) (h3 : Digits 8 ds)
    (h4 : ds.length = 3 ∨ ∀ x, rest.head? = some x → ¬ (48 ≤ x ∧ x ≤ 55)) :
    ∃ d r, ds.map Char.toNat ++ rest = d :: r ∧ bytesEscape d r = ([number 8 ds % 256], ds.length - 1, rest) := by
  cases ds with
  | nil => exact absurd rfl h1
  | cons d ds =>
    refine ⟨d.toNat, ds.map Char.toNat ++ rest, rfl, ?_⟩
    have hd : Digits 8 [d] := by intro x hx; simp at hx; subst hx; exact h3 _ (by simp)
    have hd := octal_digit.mp hd
    have hp := parseOctal_digits (d :: ds) rest h3 h1 h2 h4
    simp only [List.map_cons, List.cons_append] at hp
    unfold bytesEscape
    rw [simpleEscape_none (by simp only [List.mem_cons, List.not_mem_nil, or_false, not_or]; omega)]
    simp only
    rw [if_neg (by omega), if_neg (by omega), hp]
    simp

theorem number_lt {ds : List Char} (h : Digits 16 ds) : number 16 ds < 16 ^ ds.length := by
  induction ds with
  | nil => simp [number]
  | cons d ds ih =>
    obtain ⟨k, hk, hk16⟩ := h d (by simp)
    have := ih (fun x hx => h x (by simp [hx]))
    rw [number_cons, hk, List.length_cons, Nat.pow_succ]
    simp only [Option.getD_some]
    have : k * 16 ^ ds.length ≤ 15 * 16 ^ ds.length := Nat.mul_le_mul_right _ (by omega)
    omega

theorem charFromU32_small {n : Nat} (h : n < 256) : ∃ c, charFromU32 n = some c ∧ c.toNat = n := by
  have hv : n.isValidChar := .inl (by omega)
  refine ⟨Char.ofNatAux n hv, ?_, ?_⟩
  · unfold charFromU32; rw [dif_pos hv]
  · rfl

/-- The step over an escape: the iterator is behind it and so is `previous_insert`. -/
theorem bytesLoop_step (inner pre : List Nat) (out : Option (List Nat)) (prev : Nat) (b : Nat) (r rest pushed : List Nat) (skip : Nat)
    (hprev : prev ≤ pre.length) (hr : bytesEscape b r = (pushed, skip, rest)) (hlen : r.length = skip + rest.length) :
    bytesLoop inner out prev pre.length (92 :: b :: r) =
      bytesLoop inner (some (out.getD [] ++ (inner.drop prev).take (pre.length - prev) ++ pushed)) (pre.length + 2 + skip)
        (pre.length + 2 + skip) rest := by
  conv => lhs; rw [bytesLoop.eq_def]
  simp only
  rw [if_pos trivial, if_pos hprev, hr]
  simp only
  rw [show pre.length + 2 + (r.length - rest.length) = pre.length + 2 + skip by omega]

theorem bytesLoop_value {cs : List Char} {v : List Nat} (h : BytesBody cs v) :
    ∀ (inner pre : List Nat) (out : Option (List Nat)) (prev : Nat), inner = pre ++ encode cs → prev ≤ pre.length →
      (out = none → prev = 0) →
      bytesLoop inner out prev pre.length (encode cs) = .ok (out.getD [] ++ (inner.drop prev).take (pre.length - prev) ++ v) := by
  induction h with
  | nil =>
    intro inner pre out prev hi hp ho
    rw [encode_nil, List.append_nil] at hi
    subst hi
    rw [encode_nil, bytesLoop.eq_def]
    cases out with
    | none => simp [ho rfl]
    | some s =>
      simp only [if_pos hp, Option.getD_some, List.append_nil]
      congr 2
      rw [List.take_of_length_le]
      simp
  | @plain c cs v hc ha h ih =>
    intro inner pre out prev hi hp ho
    rw [encode_ascii_cons ha] at hi ⊢
    rw [bytesLoop.eq_def]
    simp only
    rw [if_neg (show ¬ c.toNat = 92 from fun he => hc (toNat_inj (d := '\\') he))]
    have := ih inner (pre ++ [c.toNat]) out prev (by rw [hi]; simp) (by simp; omega) ho
    rw [List.length_append, List.length_singleton] at this
    rw [this]
    simp only [Except.ok.injEq]
    have e : (inner.drop prev).take (pre.length + 1 - prev) = (inner.drop prev).take (pre.length - prev) ++ [c.toNat] := by
      rw [hi, List.drop_append_of_le_length hp]
      rw [List.take_append_of_le_length (i := pre.length - prev) (by simp)]
      rw [List.take_append, List.take_of_length_le (by simp; omega), List.take_of_length_le (l := List.drop prev pre) (by simp)]
      simp only [List.length_drop]
      rw [show pre.length + 1 - prev - (pre.length - prev) = 1 by omega]
      rfl
    rw [e]
    simp
  | @newline cs v h ih =>
    intro inner pre out prev hi hp ho
    rw [encode_ascii_cons (by decide), encode_ascii_cons (by decide)] at hi ⊢
    rw [show '\\'.toNat = 92 from rfl] at hi ⊢
    rw [bytesLoop_step inner pre out prev '\n'.toNat (encode cs) (encode cs) [] 0 hp (by unfold bytesEscape; rfl) (by simp)]
    have := ih inner (pre ++ [92, '\n'.toNat]) (some (out.getD [] ++ (inner.drop prev).take (pre.length - prev) ++ [])) (pre.length + 2)
      (by rw [hi]; simp) (by simp) (by simp)
    simp only [List.length_append, List.length_cons, List.length_nil] at this
    rw [show pre.length + 2 + 0 = pre.length + (0 + 1 + 1) by omega, this]
    simp
  | @single e x cs v hm h ih =>
    intro inner pre out prev hi hp ho
    obtain ⟨he, hse, hx, hen, her⟩ := simpleEscape_single hm
    rw [encode_ascii_cons (by decide), encode_ascii_cons he] at hi ⊢
    rw [show '\\'.toNat = 92 from rfl] at hi ⊢
    rw [bytesLoop_step inner pre out prev e.toNat (encode cs) (encode cs) [x] 0 hp (by unfold bytesEscape; rw [hse]) (by simp)]
    have := ih inner (pre ++ [92, e.toNat]) (some (out.getD [] ++ (inner.drop prev).take (pre.length - prev) ++ [x])) (pre.length + 2)
      (by rw [hi]; simp) (by simp) (by simp)
    simp only [List.length_append, List.length_cons, List.length_nil] at this
    rw [show pre.length + 2 + 0 = pre.length + (0 + 1 + 1) by omega, this]
    simp
  | @octal ds cs v h1 h2 h3 h4 h ih =>
    intro inner pre out prev hi hp ho
    rw [List.cons_append, encode_ascii_cons (by decide), encode_digits h3] at hi ⊢
    rw [show '\\'.toNat = 92 from rfl] at hi ⊢
    have h4' : ds.length = 3 ∨ ∀ x, (encode cs).head? = some x → ¬ (48 ≤ x ∧ x ≤ 55) := by
      rcases h4 with h | h
      · exact .inl h
      · right
        intro x hx hd
        obtain ⟨c, hc, rfl⟩ := head_encode hx (by omega)
        exact h c hc (octal_digit.mpr hd)
    obtain ⟨d, r, hdr, hesc⟩ := bytesEscape_octal h1 h2 h3 h4'
    have hl := congrArg List.length hdr
    simp only [List.length_append, List.length_map, List.length_cons] at hl
    have hpos : 0 < ds.length := List.length_pos_iff.mpr h1
    rw [hdr, bytesLoop_step inner pre out prev d r (encode cs) _ _ hp hesc (by omega)]
    have := ih inner (pre ++ 92 :: ds.map Char.toNat) (some (out.getD [] ++ (inner.drop prev).take (pre.length - prev) ++ [number 8 ds % 256]))
      (pre.length + 2 + (ds.length - 1)) (by rw [hi]; simp) (by simp; omega) (by simp)
    simp only [List.length_append, List.length_cons, List.length_map] at this
    rw [show pre.length + (ds.length + 1) = pre.length + 2 + (ds.length - 1) by omega] at this
    rw [this]
    simp
  | @hex2 ds cs v h1 h2 h ih =>
    intro inner pre out prev hi hp ho
    rw [List.cons_append, List.cons_append, encode_ascii_cons (by decide), encode_ascii_cons (by decide), encode_digits h2] at hi ⊢
    rw [show '\\'.toNat = 92 from rfl, show 'x'.toNat = 120 from rfl] at hi ⊢
    have hlt := number_lt h2
    rw [h1] at hlt
    obtain ⟨c, hc, hcn⟩ := charFromU32_small (n := number 16 ds) (by simpa using hlt)
    have hesc : bytesEscape 120 (ds.map Char.toNat ++ encode cs) = ([number 16 ds], 2, encode cs) := by
      have hph := parseHex_digits (rest := encode cs) h2
      rw [h1] at hph
      unfold bytesEscape
      rw [show simpleEscape 120 = none from rfl]
      simp only
      rw [if_neg (by decide), if_pos trivial, hph, hc]
      simp only [hcn]
      rw [Nat.mod_eq_of_lt (by simpa using hlt)]
    rw [bytesLoop_step inner pre out prev 120 _ (encode cs) _ _ hp hesc (by simp [h1])]
    have := ih inner (pre ++ 92 :: 120 :: ds.map Char.toNat) (some (out.getD [] ++ (inner.drop prev).take (pre.length - prev) ++ [number 16 ds]))
      (pre.length + 2 + 2) (by rw [hi]; simp) (by simp; omega) (by simp)
    simp only [List.length_append, List.length_cons, List.length_map, h1] at this
    rw [show pre.length + (2 + 1 + 1) = pre.length + 2 + 2 by omega] at this
    rw [this]
    simp
  | @unknown c cs v ha h1 h2 h3 h4 h ih =>
    intro inner pre out prev hi hp ho
    rw [encode_ascii_cons (by decide), encode_ascii_cons ha] at hi ⊢
    rw [show '\\'.toNat = 92 from rfl] at hi ⊢
    have hn : ∀ d : Char, c ≠ d → c.toNat ≠ d.toNat := fun d hd h => hd (toNat_inj h)
    have hesc : bytesEscape c.toNat (encode cs) = ([92, c.toNat], 0, encode cs) := by
      have hs0 : simpleEscape c.toNat = none := by
        have h1' : ∀ e x, (e, x) ∈ Spec.single → c.toNat ≠ e.toNat := by
          intro e x hm he
          exact h1 x (by rw [toNat_inj he]; exact hm)
        apply simpleEscape_none
        simp only [List.mem_cons, List.not_mem_nil, or_false, not_or]
        exact ⟨h1' '\\' 92 (by decide), h1' '\'' 39 (by decide), h1' '"' 34 (by decide), h1' 'a' 7 (by decide), h1' 'b' 8 (by decide),
          h1' 't' 9 (by decide), h1' 'n' 10 (by decide), h1' 'v' 11 (by decide), h1' 'f' 12 (by decide), h1' 'r' 13 (by decide)⟩
      unfold bytesEscape
      rw [hs0]
      simp only
      rw [if_neg (show ¬ c.toNat = 10 from hn '\n' h2), if_neg (show ¬ c.toNat = 120 from hn 'x' h3),
        parseOctal_none (fun h => h4 (octal_digit.mpr h))]
    rw [bytesLoop_step inner pre out prev c.toNat (encode cs) (encode cs) _ 0 hp hesc (by simp)]
    have := ih inner (pre ++ [92, c.toNat]) (some (out.getD [] ++ (inner.drop prev).take (pre.length - prev) ++ [92, c.toNat])) (pre.length + 2)
      (by rw [hi]; simp) (by simp) (by simp)
    simp only [List.length_append, List.length_cons, List.length_nil] at this
    rw [show pre.length + 2 + 0 = pre.length + (0 + 1 + 1) by omega, this]
    simp

/-- C58, partial (full statement: without `hcr`, i.e. `BytesBody (universal body) v`; false by
`bytes_value_violation`): the value of a bytes literal is Python's, if the literal has no carriage return. -/
theorem bytes_value_partial (body : List Char) (v : List Nat) (hcr : '\r' ∉ body) (h : BytesBody (universal body) v) :
    bytesLiteral ⟨body, false⟩ = .ok v := by
  rw [universal_no_cr hcr] at h
  have := bytesLoop_value h (encode body) [] none 0 rfl (by simp) (fun _ => rfl)
  simpa [bytesLiteral] using this

/-- C58 violated: in a file with Windows line endings the line endings of a bytes literal are kept. -/
theorem bytes_value_violation : ∃ body v, BytesBody (universal body) v ∧ v = [97, 10, 98] ∧
    bytesLiteral ⟨body, false⟩ = .ok [97, 13, 10, 98] := by
  refine ⟨"a\r\nb".toList, [97, 10, 98], ?_, rfl, by decide +kernel⟩
  have e : universal "a\r\nb".toList = ['a', '\n', 'b'] := by decide +kernel
  rw [e]
  exact .plain (c := 'a') (by decide) (by decide) (.plain (c := '\n') (by decide) (by decide) (.plain (c := 'b') (by decide) (by decide) .nil))

/-! ## C13 -/

theorem unpack_prefix (raw : Bool) (p rest : List Char) (hp : ∀ c ∈ p, c ≠ '\'' ∧ c ≠ '"') :
    unpack raw (p ++ rest) = unpack (raw || p.any (fun c => c = 'r' ∨ c = 'R')) rest := by
  induction p generalizing raw with
  | nil => simp
  | cons c p ih =>
    have hc := hp c (by simp)
    have ih := fun raw => ih raw (fun c hc => hp c (by simp [hc]))
    rw [List.cons_append, unpack]
    split
    · rename_i h; rw [ih, List.any_cons, decide_eq_true h]; simp
    · rename_i h
      rw [if_neg (by simp [hc]), ih, List.any_cons, decide_eq_false h]; simp

/-- C13: for every prefix without quotes, both quotes and both styles, the content is exactly the body, and the literal is
raw iff the prefix has an `r`.  In the single style every quote of the body is escaped. -/
theorem unpack_exact (p body : List Char) (q : Char) (hq : q = '\'' ∨ q = '"') (hp : ∀ c ∈ p, c ≠ '\'' ∧ c ≠ '"') :
    (Closed q body → unpack false (p ++ q :: body ++ [q]) = some ⟨body, p.any (fun c => c = 'r' ∨ c = 'R')⟩) ∧
    unpack false (p ++ q :: q :: q :: body ++ [q, q, q]) = some ⟨body, p.any (fun c => c = 'r' ∨ c = 'R')⟩ := by
  have hqr : ¬ (q = 'r' ∨ q = 'R') := by rcases hq with rfl | rfl <;> decide
  have hqa : encodeChar q = [q.toNat] := encodeChar_ascii (by rcases hq with rfl | rfl <;> decide)
  constructor
  · intro hc
    rw [List.append_assoc, unpack_prefix _ _ _ hp, List.cons_append, unpack]
    rw [if_neg hqr, if_pos hq]
    simp only [Bool.false_or]
    have hstop : (if 1 ≤ (body ++ [q]).length then
        some (Unpacked.mk ((body ++ [q]).take ((body ++ [q]).length - 1)) (p.any (fun c => c = 'r' ∨ c = 'R'))) else none) =
        some ⟨body, p.any (fun c => c = 'r' ∨ c = 'R')⟩ := by
      rw [if_pos (by simp)]
      simp
    split
    · split
      · rename_i h4 second third rest he
        rw [if_neg]
        · exact hstop
        · rintro ⟨rfl, rfl⟩
          cases hc with
          | nil => simp at he
          | plain h1 _ _ _ _ => simp at he; exact h1 he.1
          | escaped _ => simp at he; rcases hq with rfl | rfl <;> simp at he
      · exact hstop
    · exact hstop
  · rw [List.append_assoc, unpack_prefix _ _ _ hp, List.cons_append, unpack]
    rw [if_neg hqr, if_pos hq, if_pos]
    · simp only [List.cons_append, true_and, Bool.false_or, if_true]
      rw [if_pos (by simp)]
      simp
    · simp only [List.cons_append, encode_cons, encode_append, hqa, encode_nil]
      simp only [List.length_append, List.length_cons, List.length_nil]
      omega

example : Closed '\'' "it\\'s \"x\"".toList ∧
    unpack false "rb'it\\'s \"x\"'".toList = some ⟨"it\\'s \"x\"".toList, true⟩ := by
  refine ⟨?_, by decide +kernel⟩
  refine .plain (by decide) (by decide) (by decide) (by decide) (.plain (by decide) (by decide) (by decide) (by decide) (.escaped (.plain (by decide) (by decide) (by decide) (by decide)
    (.plain (by decide) (by decide) (by decide) (by decide) (.plain (by decide) (by decide) (by decide) (by decide) (.plain (by decide) (by decide) (by decide) (by decide)
    (.plain (by decide) (by decide) (by decide) (by decide) .nil)))))))

/-! ## C50 -/

/-- C50: the value of adjacent literals is the concatenation of their values, unknown iff one of them is an
f-string. -/
theorem concatenation_value (ls : List PythonString) (s : PythonString) (h : PythonString.new ls = some s) :
    (∀ t, s.asStr = some t → ∃ parts : List (List Nat), ls.map PythonString.asStr = parts.map some ∧ t = parts.flatten) ∧
    (s.asStr = none ↔ .fstring ∈ ls) := by
  have key : ∀ (rest : List PythonString) (a : PythonString),
      (∀ t, (rest.foldl PythonString.union a).asStr = some t →
        ∃ parts : List (List Nat), (a :: rest).map PythonString.asStr = parts.map some ∧ t = parts.flatten) ∧
      ((rest.foldl PythonString.union a).asStr = none ↔ .fstring ∈ a :: rest) := by
    intro rest
    induction rest with
    | nil =>
      intro a
      constructor
      · intro t ht; exact ⟨[t], by simpa using ht, by simp⟩
      · cases a <;> simp [PythonString.asStr]
    | cons b rest ih =>
      intro a
      obtain ⟨h1, h2⟩ := ih (a.union b)
      rw [List.foldl_cons]
      constructor
      · intro t ht
        obtain ⟨parts, hp, rfl⟩ := h1 t ht
        cases parts with
        | nil => simp at hp
        | cons x parts =>
          simp only [List.map_cons, List.cons.injEq] at hp
          cases a <;> cases b <;> simp only [PythonString.union, PythonString.asStr, Option.some.injEq, reduceCtorEq, false_and] at hp
          all_goals (rename_i s1 _ s2; exact ⟨s1 :: s2 :: parts, by simp [PythonString.asStr, hp.2], by simp [← hp.1]⟩)
      · rw [h2]
        cases a <;> cases b <;> simp [PythonString.union]
  cases ls with
  | nil => simp [PythonString.new] at h
  | cons a rest =>
    simp only [PythonString.new, Option.some.injEq] at h
    subst h
    exact key rest a

/-- C50: concatenation is associative, and the empty literal changes no value. -/
theorem union_algebra (a b c : PythonString) (n : Nat) :
    (a.union b).union c = a.union (b.union c) ∧
    ((PythonString.ref n []).union a).asStr = a.asStr ∧ (a.union (.ref n [])).asStr = a.asStr := by
  refine ⟨?_, ?_, ?_⟩
  · cases a <;> cases b <;> cases c <;> simp [PythonString.union]
  · cases a <;> simp [PythonString.union, PythonString.asStr]
  · cases a <;> simp [PythonString.union, PythonString.asStr]

example : PythonString.new [.ref 0 [97], .string 5 [98], .ref 9 []] = some (.string 0 [97, 98]) ∧
    PythonString.new [.ref 0 [97], .fstring] = some .fstring := by decide

/-! ## C14 -/

theorem hexDigit_digitChar (n : Nat) (h : n < 16) : digit (Nat.digitChar n) = some n := by
  have : ∀ n : Fin 16, digit (Nat.digitChar n) = some n.val := by decide
  exact this ⟨n, h⟩

theorem hex2_number (n : Nat) (h : n < 256) : Digits 16 (hex2 n) ∧ number 16 (hex2 n) = n := by
  have h1 := hexDigit_digitChar (n / 16 % 16) (by omega)
  have h2 := hexDigit_digitChar (n % 16) (by omega)
  constructor
  · intro d hd
    simp only [hex2, List.mem_cons, List.not_mem_nil, or_false] at hd
    rcases hd with rfl | rfl
    · exact ⟨_, h1, by omega⟩
    · exact ⟨_, h2, by omega⟩
  · simp only [hex2, number, List.foldl_cons, List.foldl_nil, h1, h2, Option.getD_some]
    omega

theorem digitChar_plain (n : Nat) (h : n < 16) : Nat.digitChar n ≠ '\'' ∧ Nat.digitChar n ≠ '\\' ∧ Nat.digitChar n ≠ '\n' ∧ Nat.digitChar n ≠ '\r' := by
  have : ∀ n : Fin 16, Nat.digitChar n ≠ '\'' ∧ Nat.digitChar n ≠ '\\' ∧ Nat.digitChar n ≠ '\n' ∧ Nat.digitChar n ≠ '\r' := by decide
  exact this ⟨n, h⟩

theorem closed_hex {q : Char} {n : Nat} {cs : List Char} (hq : q = '\'') (h : Closed q cs) : Closed q ('\\' :: 'x' :: hex2 n ++ cs) := by
  subst hq
  refine .escaped ?_
  have h1 := digitChar_plain (n / 16 % 16) (by omega)
  have h2 := digitChar_plain (n % 16) (by omega)
  exact .plain h1.1 h1.2.1 h1.2.2.1 h1.2.2.2 (.plain h2.1 h2.2.1 h2.2.2.1 h2.2.2.2 h)

theorem closed_no_cr {cs : List Char} (h : ∀ c ∈ cs, c ≠ '\r') : universal cs = cs :=
  universal_no_cr (fun hm => h _ hm rfl)

/-- C14 for strings, partial (full statement: without `hq`; false by `str_repr_violation`): the text printed for a string
without `'` is a quoted body that denotes the string. -/
theorem str_repr_partial (s : List Char) (hq : '\'' ∉ s) :
    ∃ body, strRepr s = '\'' :: body ++ ['\''] ∧ Closed '\'' body ∧ Body (fun _ => none) (universal body) (s.map Char.toNat) := by
  refine ⟨s.flatMap strReprChar, rfl, ?_⟩
  have hcr : ∀ (s : List Char), ∀ c ∈ s.flatMap strReprChar, c ≠ '\r' := by
    intro s c hc
    obtain ⟨d, -, hc⟩ := List.mem_flatMap.mp hc
    unfold strReprChar at hc
    split at hc
    · rename_i hctl
      split at hc
      · simp at hc; rcases hc with rfl | rfl <;> decide
      · split at hc
        · simp at hc; rcases hc with rfl | rfl <;> decide
        · split at hc
          · simp at hc; rcases hc with rfl | rfl <;> decide
          · simp only [List.mem_cons, hex2, List.not_mem_nil, or_false] at hc
            rcases hc with rfl | rfl | rfl | rfl
            · decide
            · decide
            · exact (digitChar_plain _ (by omega)).2.2.2
            · exact (digitChar_plain _ (by omega)).2.2.2
    · rename_i hctl
      split at hc
      · simp at hc; subst hc; decide
      · simp at hc; subst hc
        rintro rfl
        exact hctl rfl
  rw [closed_no_cr (hcr s)]
  induction s with
  | nil => exact ⟨.nil, .nil⟩
  | cons c s ih =>
    obtain ⟨h1, h2⟩ := ih (fun h => hq (by simp [h]))
    rw [List.flatMap_cons, List.map_cons]
    unfold strReprChar
    split
    · rename_i hctl
      split
      · rename_i hc; subst hc
        exact ⟨.escaped h1, .single (e := 'n') (by decide) h2⟩
      · split
        · rename_i hc; subst hc
          exact ⟨.escaped h1, .single (e := 'r') (by decide) h2⟩
        · split
          · rename_i hc; subst hc
            exact ⟨.escaped h1, .single (e := 't') (by decide) h2⟩
          · have hlt : c.toNat < 256 := by
              unfold isControl at hctl
              simp at hctl
              omega
            obtain ⟨hd, hn⟩ := hex2_number c.toNat hlt
            refine ⟨closed_hex rfl h1, ?_⟩
            have := Body.hex2 (names := fun _ => none) (ds := hex2 c.toNat) rfl hd h2
            rw [hn] at this
            exact this
    · rename_i hctl
      split
      · rename_i hc; subst hc
        exact ⟨.escaped h1, .single (e := '\\') (by decide) h2⟩
      · rename_i hc
        refine ⟨.plain ?_ hc ?_ ?_ h1, .plain hc h2⟩
        · rintro rfl; exact hq (by simp)
        · rintro rfl; exact hctl rfl
        · rintro rfl; exact hctl rfl

/-- C14 violated: the type of `"'"` is printed as `'''`, which is no literal. -/
theorem str_repr_violation : ∃ s : List Char, ¬ ∃ body, strRepr s = '\'' :: body ++ ['\''] ∧ Closed '\'' body := by
  refine ⟨['\''], ?_⟩
  rintro ⟨body, he, hc⟩
  have e : strRepr ['\''] = ['\'', '\'', '\''] := by decide
  rw [e] at he
  simp only [List.cons_append, List.cons.injEq, true_and] at he
  have : body = ['\''] := by
    have h2 : ['\''] ++ ['\''] = body ++ ['\''] := he
    exact (List.append_inj' h2 rfl).1.symm
  subst this
  cases hc with
  | plain h _ _ _ _ => exact h rfl

/-- C14 for bytes, partial (full statement: without `hq`; false by `bytes_repr_violation`). -/
theorem bytes_repr_partial (s : List Nat) (hb : ∀ b ∈ s, b < 256) (hq : 39 ∉ s) :
    ∃ body, bytesRepr s = 'b' :: '\'' :: body ++ ['\''] ∧ Closed '\'' body ∧ BytesBody (universal body) s := by
  refine ⟨s.flatMap bytesReprByte, rfl, ?_⟩
  have hval : ∀ b : Nat, b < 256 → (Char.ofNat b).toNat = b := by
    intro b hb
    obtain ⟨c, hc, hcn⟩ := charFromU32_small hb
    rw [← hcn, Char.ofNat_toNat]
  have hne : ∀ (b : Nat) (c : Char), b < 256 → b ≠ c.toNat → Char.ofNat b ≠ c := by
    intro b c hb h he
    exact h (by rw [← he, hval b hb])
  have hcr : ∀ (s : List Nat), (∀ b ∈ s, b < 256) → ∀ c ∈ s.flatMap bytesReprByte, c ≠ '\r' := by
    intro s hs c hc
    obtain ⟨d, hd, hc⟩ := List.mem_flatMap.mp hc
    have hd256 := hs d hd
    unfold bytesReprByte at hc
    repeat' split at hc
    · simp at hc; rcases hc with rfl | rfl <;> decide
    · simp at hc; rcases hc with rfl | rfl <;> decide
    · simp at hc; rcases hc with rfl | rfl <;> decide
    · simp at hc; subst hc; decide
    · simp at hc; subst hc
      apply hne d _ hd256
      have : '\r'.toNat = 13 := rfl
      omega
    · simp only [List.mem_cons, hex2, List.not_mem_nil, or_false] at hc
      rcases hc with rfl | rfl | rfl | rfl
      · decide
      · decide
      · exact (digitChar_plain _ (by omega)).2.2.2
      · exact (digitChar_plain _ (by omega)).2.2.2
  rw [closed_no_cr (hcr s hb)]
  induction s with
  | nil => exact ⟨.nil, .nil⟩
  | cons b s ih =>
    obtain ⟨h1, h2⟩ := ih (fun b h => hb b (by simp [h])) (fun h => hq (by simp [h]))
    have hb256 := hb b (by simp)
    have hb39 : b ≠ 39 := fun h => hq (by simp [h])
    rw [List.flatMap_cons]
    unfold bytesReprByte
    split
    · rename_i hc; subst hc; exact ⟨.escaped h1, .single (e := 't') (by decide) h2⟩
    · split
      · rename_i hc; subst hc; exact ⟨.escaped h1, .single (e := 'n') (by decide) h2⟩
      · split
        · rename_i hc; subst hc; exact ⟨.escaped h1, .single (e := 'r') (by decide) h2⟩
        · split
          · rename_i hc; subst hc; exact ⟨.escaped h1, .single (e := '\\') (by decide) h2⟩
          · split
            · rename_i h9 h10 h13 h92 hr
              have hc := hval b hb256
              refine ⟨.plain ?_ ?_ ?_ ?_ h1, ?_⟩
              · exact hne b _ hb256 (by have : '\''.toNat = 39 := rfl; omega)
              · exact hne b _ hb256 (by have : '\\'.toNat = 92 := rfl; omega)
              · exact hne b _ hb256 (by have : '\n'.toNat = 10 := rfl; omega)
              · exact hne b _ hb256 (by have : '\r'.toNat = 13 := rfl; omega)
              · have := BytesBody.plain (c := Char.ofNat b) (hne b _ hb256 (by have : '\\'.toNat = 92 := rfl; omega)) (by omega) h2
                rw [hc] at this
                exact this
            · obtain ⟨hd, hn⟩ := hex2_number b hb256
              refine ⟨closed_hex rfl h1, ?_⟩
              have := BytesBody.hex2 (ds := hex2 b) rfl hd h2
              rw [hn] at this
              exact this

/-- C14 violated: the type of `b"'"` is printed as `b'''`. -/
theorem bytes_repr_violation : ∃ s : List Nat, ¬ ∃ body, bytesRepr s = 'b' :: '\'' :: body ++ ['\''] ∧ Closed '\'' body := by
  refine ⟨[39], ?_⟩
  rintro ⟨body, he, hc⟩
  have e : bytesRepr [39] = ['b', '\'', '\'', '\''] := by decide
  rw [e] at he
  simp only [List.cons_append, List.cons.injEq, true_and] at he
  have : body = ['\''] := by
    have h2 : ['\''] ++ ['\''] = body ++ ['\''] := he
    exact (List.append_inj' h2 rfl).1.symm
  subst this
  cases hc with
  | plain h _ _ _ _ => exact h rfl

example : '\'' ∉ "a\\b\n\x07\u009fé".toList ∧ strRepr "a\\b\n\x07\u009fé".toList = "'a\\\\b\\n\\x07\\x9fé'".toList ∧
    bytesRepr [0, 9, 65, 255, 92] = "b'\\x00\\tA\\xff\\\\'".toList := by decide +kernel

/-- C14 and C11 together: zuban reads back what it prints. -/
theorem repr_round_trip (s : List Char) (hq : '\'' ∉ s) :
    ∃ u, unpack false (strRepr s) = some u ∧ fromLiteral u = .ok (encode s) := by
  obtain ⟨body, he, hc, hb⟩ := str_repr_partial s hq
  refine ⟨⟨body, false⟩, ?_, string_value_partial body s hb⟩
  rw [he]
  exact (unpack_exact [] body '\'' (.inl rfl) (by simp)).1 hc

theorem digitChar_printable (n : Nat) (h : n < 16) : 32 ≤ (Nat.digitChar n).toNat ∧ (Nat.digitChar n).toNat < 127 := by
  have : ∀ n : Fin 16, 32 ≤ (Nat.digitChar n).toNat ∧ (Nat.digitChar n).toNat < 127 := by decide
  exact this ⟨n, h⟩

theorem hex2_printable (b : Nat) : ∀ c ∈ hex2 b, 32 ≤ c.toNat ∧ c.toNat < 127 := by
  intro c hc
  rw [hex2] at hc
  simp only [List.mem_cons, List.not_mem_nil, or_false] at hc
  rcases hc with rfl | rfl
  · exact digitChar_printable _ (Nat.mod_lt _ (by omega))
  · exact digitChar_printable _ (Nat.mod_lt _ (by omega))

/-- C14: what is printed for a string contains no control character (category Cc). -/
theorem str_repr_printable (s : List Char) : ∀ c ∈ strRepr s, 32 ≤ c.toNat ∧ (c.toNat < 127 ∨ 160 ≤ c.toNat) := by
  have lit : ∀ c ∈ ['\\', 'n', 'r', 't', 'x', '\''], 32 ≤ c.toNat ∧ c.toNat < 127 := by decide
  have up : ∀ c : Char, 32 ≤ c.toNat ∧ c.toNat < 127 → 32 ≤ c.toNat ∧ (c.toNat < 127 ∨ 160 ≤ c.toNat) :=
    fun c h => ⟨h.1, .inl h.2⟩
  intro c hc
  rw [strRepr] at hc
  simp only [List.cons_append, List.mem_cons, List.mem_append, List.mem_flatMap, List.not_mem_nil, or_false] at hc
  rcases hc with rfl | ⟨a, _, hc⟩ | rfl
  · exact up _ (by decide)
  · rw [strReprChar] at hc
    split at hc
    · split at hc
      · exact up _ (lit c (by simp at hc ⊢; rcases hc with rfl | rfl <;> simp))
      · split at hc
        · exact up _ (lit c (by simp at hc ⊢; rcases hc with rfl | rfl <;> simp))
        · split at hc
          · exact up _ (lit c (by simp at hc ⊢; rcases hc with rfl | rfl <;> simp))
          · simp only [List.mem_cons] at hc
            rcases hc with rfl | rfl | hc
            · exact up _ (by decide)
            · exact up _ (by decide)
            · exact up _ (hex2_printable _ c hc)
    · rename_i hctl
      split at hc
      · exact up _ (lit c (by simp at hc ⊢; rcases hc with rfl | rfl <;> simp))
      · simp only [List.mem_cons, List.not_mem_nil, or_false] at hc
        subst hc
        simp only [isControl, Bool.or_eq_true, decide_eq_true_eq, Bool.and_eq_true, not_or, not_and] at hctl
        omega
  · exact up _ (by decide)

/-- C14: what is printed for bytes is printable ASCII. -/
theorem bytes_repr_printable (s : List Nat) : ∀ c ∈ bytesRepr s, 32 ≤ c.toNat ∧ c.toNat < 127 := by
  have lit : ∀ c ∈ ['\\', 'n', 'r', 't', 'x', '\'', 'b'], 32 ≤ c.toNat ∧ c.toNat < 127 := by decide
  intro c hc
  rw [bytesRepr] at hc
  simp only [List.cons_append, List.mem_cons, List.mem_append, List.mem_flatMap, List.not_mem_nil, or_false] at hc
  rcases hc with rfl | rfl | ⟨a, _, hc⟩ | rfl
  · decide
  · decide
  · rw [bytesReprByte] at hc
    split at hc
    · exact lit c (by simp at hc ⊢; rcases hc with rfl | rfl <;> simp)
    · split at hc
      · exact lit c (by simp at hc ⊢; rcases hc with rfl | rfl <;> simp)
      · split at hc
        · exact lit c (by simp at hc ⊢; rcases hc with rfl | rfl <;> simp)
        · split at hc
          · exact lit c (by simp at hc ⊢; rcases hc with rfl | rfl <;> simp)
          · split at hc
            · rename_i h
              simp only [List.mem_cons, List.not_mem_nil, or_false] at hc
              subst hc
              have : ∀ n : Fin 127, 32 ≤ n.val → 32 ≤ (Char.ofNat n).toNat ∧ (Char.ofNat n).toNat < 127 := by decide
              exact this ⟨a, h.2⟩ h.1
            · simp only [List.mem_cons] at hc
              rcases hc with rfl | rfl | hc
              · decide
              · decide
              · exact hex2_printable _ c hc
  · decide

end Verif.Strings
