import Verif.Server.Protocol
import Verif.Lines.Props
/-
C30, C31, C32, C34, C35, C36, C37, C66, C67: what clients and users get to see.
-/
namespace Verif.Server

open Verif.Lines (Enc)

/-! ### C30 -/

/-- The encodings the client offered, in order of preference. -/
def Offers (caps : EncodingCaps) (es : List String) : Prop :=
  caps = some (some es) ∨ (es = [] ∧ (caps = none ∨ caps = some none))

theorem offers_total (caps : EncodingCaps) : ∃ es, Offers caps es := by
  rcases caps with _ | _ | es
  · exact ⟨[], .inr ⟨rfl, .inl rfl⟩⟩
  · exact ⟨[], .inr ⟨rfl, .inr rfl⟩⟩
  · exact ⟨es, .inl rfl⟩

theorem negotiate_offers (caps : EncodingCaps) (es : List String) (h : Offers caps es) :
    negotiate caps = negotiateLoop es := by
  rcases h with rfl | ⟨rfl, rfl | rfl⟩ <;> rfl

theorem negotiateLoop_spec (es : List String) :
    (announce (negotiateLoop es) = "utf-16" ∧ "utf-8" ∉ es ∧ "utf-32" ∉ es) ∨
    ∃ a e b, es = a ++ e :: b ∧ announce (negotiateLoop es) = e ∧ (e = "utf-8" ∨ e = "utf-32") ∧
      "utf-8" ∉ a ∧ "utf-32" ∉ a := by
  induction es with
  | nil => exact .inl ⟨rfl, by simp, by simp⟩
  | cons e es ih =>
    by_cases h1 : e = "utf-8"
    · exact .inr ⟨[], e, es, rfl, by simp [negotiateLoop, h1, announce], .inl h1, by simp, by simp⟩
    · by_cases h2 : e = "utf-32"
      · exact .inr ⟨[], e, es, rfl, by simp [negotiateLoop, h2, announce], .inr h2, by simp, by simp⟩
      · have hl : negotiateLoop (e :: es) = negotiateLoop es := by simp [negotiateLoop, h1, h2]
        rw [hl]
        rcases ih with ⟨h3, h4, h5⟩ | ⟨a, e', b, h3, h4, h5, h6, h7⟩
        · exact .inl ⟨h3, by simp [h4, Ne.symm h1], by simp [h5, Ne.symm h2]⟩
        · exact .inr ⟨e :: a, e', b, by simp [h3], h4, h5, by simp [h6, Ne.symm h1],
            by simp [h7, Ne.symm h2]⟩

/-- **C30 (negotiation).**  The announced encoding is the client's most preferred one among UTF-8
and UTF-32, or UTF-16, which every client has to support, if it offered neither. -/
theorem negotiation (caps : EncodingCaps) (es : List String) (h : Offers caps es) :
    (announce (negotiate caps) = "utf-16" ∧ "utf-8" ∉ es ∧ "utf-32" ∉ es) ∨
    ∃ a e b, es = a ++ e :: b ∧ announce (negotiate caps) = e ∧ (e = "utf-8" ∨ e = "utf-32") ∧
      "utf-8" ∉ a ∧ "utf-32" ∉ a := by
  rw [negotiate_offers caps es h]
  exact negotiateLoop_spec es

/-- The number of units of the announced encoding that text takes, by the definition of the
encodings. -/
def units (announced : String) (text : List Char) : Nat :=
  if announced = "utf-8" then (text.map Char.utf8Size).sum
  else if announced = "utf-16" then (text.map fun c => if c.toNat < 65536 then 1 else 2).sum
  else text.length

theorem width_units (enc : Enc) (l : List Char) :
    Verif.Lines.Spec.width enc l = units (announce enc) l := by
  induction l with
  | nil => cases enc <;> rfl
  | cons c l ih =>
    cases enc with
    | utf8 => simp_all [Verif.Lines.Spec.width, units, announce]
    | utf16 =>
      simp_all [Verif.Lines.Spec.width, units, announce, Verif.Lines.utf16Len]
      have : (c.val < 65536) ↔ c.toNat < 65536 := Iff.rfl
      simp [this]
    | utf32 => simp_all [Verif.Lines.Spec.width, units, announce]; omega

/-- **C30 (positions).**  Every place of a text is sent to the client as a line and a column whose
column counts units of the announced encoding (or is the place between `\r` and `\n`), and the same
position sent back by the client denotes the same place. -/
theorem announced_positions (caps : EncodingCaps) (code pre post : List Char) (h : code = pre ++ post) :
    ∃ line col, toPosition (negotiate caps) code (Verif.Lines.size pre) = some (line, col) ∧
      fromPosition (negotiate caps) code (line, col) = some (Verif.Lines.size pre) ∧
      ∃ A p t rest B, Verif.Lines.Spec.splitLines code = A ++ (rest, t) :: B ∧ A.length = line ∧
        pre = Verif.Lines.Spec.textOf A ++ p ∧ col = units (announce (negotiate caps)) p ∧
        p <+: rest ++ t := by
  obtain ⟨col, oob, h1, h2, h3, -⟩ := Verif.Lines.offset_round_trip (negotiate caps) code pre post h
  refine ⟨_, col, by simp only [toPosition, h1, Option.map_some]; rfl, by simp [fromPosition, h3], ?_⟩
  rcases h2 with ⟨A, p, q, t, B, hs, hA, hw, hp⟩ | ⟨A, l, B, hs, hA, hw, hp⟩
  · exact ⟨A, p, t, p ++ q, B, hs, hA, hp, by rw [← width_units]; exact hw.symm, by simp⟩
  · refine ⟨A, l ++ ['\r'], _, l, B, hs, hA, by simpa using hp, ?_, by simp [List.prefix_append_right_inj]⟩
    have : units (announce (negotiate caps)) (l ++ ['\r']) =
        units (announce (negotiate caps)) l + 1 := by
      cases negotiate caps <;> simp [units, announce] <;> decide
    rw [this, ← width_units]
    exact hw.symm

example : Offers (some (some ["utf-16", "utf-32", "utf-8"])) ["utf-16", "utf-32", "utf-8"] ∧
    announce (negotiate (some (some ["utf-16", "utf-32", "utf-8"]))) = "utf-32" := ⟨.inl rfl, rfl⟩
example : toPosition (negotiate none) "a\né𝕏b".toList 8 = some (1, 3) := by decide +kernel

/-! ### C31 -/

/-- Which token modifier of the protocol expresses which property. -/
inductive Wanted (p : TokenProps) : String → Prop
  | definition (h : p.definition = true) : Wanted p "definition"
  | declaration (h : p.declaration = true) : Wanted p "declaration"
  | stdlib (h : p.inStdlib = true) : Wanted p "defaultLibrary"
  | readonly (h : p.readOnly = true) : Wanted p "readonly"
  | static (h : p.static = true) : Wanted p "static"
  | deprecated (h : p.deprecated = true) : Wanted p "deprecated"
  | abstract (h : p.abstract = true) : Wanted p "abstract"
  | async (h : p.async = true) : Wanted p "async"

/-- What a client reads out of one entry, given the previous position: the protocol's definition. -/
structure Decoded where
  line : Nat
  char : Nat
  len : Nat
  type : Option String
  modifiers : Nat

/-- Decoding the token array as prescribed by the protocol: the start character is relative to the
previous token only on the same line; types are looked up in the announced legend. -/
def decode (legend : List String) (line char : Nat) : List Encoded → List Decoded
  | [] => []
  | e :: es =>
    let l := line + e.deltaLine
    let c := if e.deltaLine = 0 then char + e.deltaStart else e.deltaStart
    { line := l, char := c, len := e.length, type := legend[e.tokenType]?, modifiers := e.modifiers } ::
      decode legend l c es

/-- The decoded token is the computed one. -/
def Same (t : Token) (d : Decoded) : Prop :=
  d.line = t.line ∧ d.char = t.char ∧ d.len = t.len ∧ d.type = some t.type ∧
    ∀ m, Wanted t.props m ↔ ∃ i, supportedModifiers[i]? = some m ∧ d.modifiers.testBit i = true

/-- The decoded tokens are the computed ones, in order. -/
inductive AllSame : List Token → List Decoded → Prop
  | nil : AllSame [] []
  | cons {t d ts ds} (h : Same t d) (hs : AllSame ts ds) : AllSame (t :: ts) (d :: ds)

/-- Tokens are sorted by position. -/
def Before (l c : Nat) (t : Token) : Prop := l < t.line ∨ (l = t.line ∧ c ≤ t.char)

def SortedFrom (l c : Nat) : List Token → Prop
  | [] => True
  | t :: ts => Before l c t ∧ SortedFrom t.line t.char ts

theorem modifierBits_eq (p : TokenProps) : modifierBits p =
    (((((((((if p.definition then 2 else 0) ||| (if p.declaration then 1 else 0)) |||
      (if p.inStdlib then 128 else 0)) ||| (if p.readOnly then 4 else 0)) |||
      (if p.static then 8 else 0)) ||| (if p.deprecated then 16 else 0)) |||
      (if p.async then 64 else 0)) ||| (if p.abstract then 32 else 0))) := by
  have e : ∀ b, addModifier b "definition" = b ||| 2 ∧ addModifier b "declaration" = b ||| 1 ∧
      addModifier b "defaultLibrary" = b ||| 128 ∧ addModifier b "readonly" = b ||| 4 ∧
      addModifier b "static" = b ||| 8 ∧ addModifier b "deprecated" = b ||| 16 ∧
      addModifier b "async" = b ||| 64 ∧ addModifier b "abstract" = b ||| 32 := by
    intro b
    refine ⟨rfl, rfl, rfl, rfl, rfl, rfl, rfl, rfl⟩
  simp only [modifierBits, e]
  rcases p with ⟨a1, a2, a3, a4, a5, a6, a7, a8⟩
  cases a1 <;> cases a2 <;> cases a3 <;> cases a4 <;> cases a5 <;> cases a6 <;> cases a7 <;>
    cases a8 <;> rfl

theorem wanted_iff (p : TokenProps) (m : String) :
    Wanted p m ↔ ∃ i, supportedModifiers[i]? = some m ∧ (modifierBits p).testBit i = true := by
  have bits : (modifierBits p).testBit 0 = p.declaration ∧ (modifierBits p).testBit 1 = p.definition ∧
      (modifierBits p).testBit 2 = p.readOnly ∧ (modifierBits p).testBit 3 = p.static ∧
      (modifierBits p).testBit 4 = p.deprecated ∧ (modifierBits p).testBit 5 = p.abstract ∧
      (modifierBits p).testBit 6 = p.async ∧ (modifierBits p).testBit 7 = p.inStdlib := by
    rw [modifierBits_eq]
    rcases p with ⟨a1, a2, a3, a4, a5, a6, a7, a8⟩
    cases a1 <;> cases a2 <;> cases a3 <;> cases a4 <;> cases a5 <;> cases a6 <;> cases a7 <;>
      cases a8 <;> decide
  obtain ⟨b0, b1, b2, b3, b4, b5, b6, b7⟩ := bits
  constructor
  · intro h
    cases h with
    | declaration h => exact ⟨0, rfl, b0.trans h⟩
    | definition h => exact ⟨1, rfl, b1.trans h⟩
    | readonly h => exact ⟨2, rfl, b2.trans h⟩
    | static h => exact ⟨3, rfl, b3.trans h⟩
    | deprecated h => exact ⟨4, rfl, b4.trans h⟩
    | abstract h => exact ⟨5, rfl, b5.trans h⟩
    | async h => exact ⟨6, rfl, b6.trans h⟩
    | stdlib h => exact ⟨7, rfl, b7.trans h⟩
  · rintro ⟨i, hi, hb⟩
    match i, hi, hb with
    | 0, hi, hb => cases hi; exact .declaration (b0.symm.trans hb)
    | 1, hi, hb => cases hi; exact .definition (b1.symm.trans hb)
    | 2, hi, hb => cases hi; exact .readonly (b2.symm.trans hb)
    | 3, hi, hb => cases hi; exact .static (b3.symm.trans hb)
    | 4, hi, hb => cases hi; exact .deprecated (b4.symm.trans hb)
    | 5, hi, hb => cases hi; exact .abstract (b5.symm.trans hb)
    | 6, hi, hb => cases hi; exact .async (b6.symm.trans hb)
    | 7, hi, hb => cases hi; exact .stdlib (b7.symm.trans hb)
    | n + 8, hi, hb => simp [supportedModifiers] at hi

theorem encode_loop (ts : List Token) (b : Builder)
    (hb : b.data = [] → b.prevLine = 0 ∧ b.prevChar = 0)
    (hs : SortedFrom b.prevLine b.prevChar ts) (ht : ∀ t ∈ ts, t.type ∈ supportedTypes) :
    ∃ b' es, ts.foldlM push b = some b' ∧ b'.data = b.data ++ es ∧
      AllSame ts (decode supportedTypes b.prevLine b.prevChar es) := by
  induction ts generalizing b with
  | nil => exact ⟨b, [], rfl, by simp, .nil⟩
  | cons t ts ih =>
    obtain ⟨hbef, hs'⟩ := hs
    have htype : t.type ∈ supportedTypes := ht t (List.mem_cons_self ..)
    let e : Encoded :=
      { deltaLine := t.line - b.prevLine,
        deltaStart := if t.line = b.prevLine then t.char - b.prevChar else t.char,
        length := t.len, tokenType := supportedTypes.idxOf t.type, modifiers := modifierBits t.props }
    have hpush : push b t = some { prevLine := t.line, prevChar := t.char, data := b.data ++ [e] } := by
      unfold push
      have hc : supportedTypes.contains t.type = true := by simpa using htype
      by_cases hd : b.data = []
      · obtain ⟨h1, h2⟩ := hb hd
        simp [hd, htype, h1, h2, e]
      · have hd' : b.data.isEmpty = false := by simpa using hd
        by_cases hl : t.line = b.prevLine
        · have hch : ¬ t.char < b.prevChar := by rcases hbef with h | h <;> omega
          simp [hd', hl, hch, htype, e]
        · have h1 : ¬ t.line < b.prevLine := by rcases hbef with h | h <;> omega
          have h2 : ¬ t.line - b.prevLine = 0 := by omega
          simp [hd', hl, h1, h2, htype, e]
    obtain ⟨b', es, h1, h2, h3⟩ := ih { prevLine := t.line, prevChar := t.char, data := b.data ++ [e] }
      (by simp) hs' (fun t' ht' => ht t' (List.mem_cons_of_mem _ ht'))
    refine ⟨b', e :: es, by simp [List.foldlM_cons, hpush, h1], by simp [h2], ?_⟩
    simp only [decode]
    have hline : b.prevLine + e.deltaLine = t.line := by
      have : e.deltaLine = t.line - b.prevLine := rfl
      rcases hbef with h | h <;> omega
    have hchar : (if e.deltaLine = 0 then b.prevChar + e.deltaStart else e.deltaStart) = t.char := by
      have hd1 : e.deltaLine = t.line - b.prevLine := rfl
      have hd2 : e.deltaStart = if t.line = b.prevLine then t.char - b.prevChar else t.char := rfl
      rw [hd1, hd2]
      by_cases hl : t.line = b.prevLine
      · rw [if_pos (by omega), if_pos hl]
        rcases hbef with h | h <;> omega
      · rw [if_neg (by rcases hbef with h | h <;> omega), if_neg hl]
    rw [hline, hchar]
    refine .cons ⟨rfl, rfl, rfl, ?_, wanted_iff t.props⟩ h3
    show supportedTypes[supportedTypes.idxOf t.type]? = some t.type
    rw [List.getElem?_eq_getElem (List.idxOf_lt_length_of_mem htype), List.getElem_idxOf]

/-- **C31.**  For every list of tokens sorted by position, with types of the legend, the array is
built without overflow and decoding it as the protocol prescribes gives back the tokens, one by one:
position, length, type and exactly the modifiers of its properties. -/
theorem tokens_decode (ts : List Token) (hs : SortedFrom 0 0 ts)
    (ht : ∀ t ∈ ts, t.type ∈ supportedTypes) :
    ∃ es, encodeTokens ts = some es ∧ AllSame ts (decode supportedTypes 0 0 es) := by
  obtain ⟨b', es, h1, h2, h3⟩ := encode_loop ts { prevLine := 0, prevChar := 0, data := [] }
    (fun _ => ⟨rfl, rfl⟩) hs ht
  exact ⟨es, by simp [encodeTokens, h1, h2], h3⟩

def noProps : TokenProps := ⟨false, false, false, false, false, false, false, false⟩

def demoTokens : List Token :=
  [⟨0, 4, 3, "class", { noProps with definition := true, declaration := true }⟩,
   ⟨0, 9, 2, "variable", { noProps with readOnly := true }⟩,
   ⟨3, 2, 5, "function", { noProps with async := true, static := true }⟩]

example : SortedFrom 0 0 demoTokens ∧ (∀ t ∈ demoTokens, t.type ∈ supportedTypes) ∧
    encodeTokens demoTokens = some [⟨0, 4, 3, 2, 3⟩, ⟨0, 5, 2, 8, 4⟩, ⟨3, 2, 5, 12, 72⟩] := by
  refine ⟨?_, by decide, by decide⟩
  simp [demoTokens, SortedFrom, Before]

/-! ### C66 -/

/-- **C66 (the code).**  For a client that negotiated UTF-8, and for names of ASCII characters with
every client, the length of a token is its length in the announced encoding.  Missing: names with
other characters, see `token_length_violation`. -/
theorem token_length_partial (enc : Enc) (name : List Char)
    (h : announce enc = "utf-8" ∨ ∀ c ∈ name, c.toNat < 128) :
    tokenLength enc name = units (announce enc) name := by
  have hsize : ∀ l : List Char, Verif.Lines.size l = (l.map Char.utf8Size).sum := by
    intro l
    induction l with
    | nil => rfl
    | cons c l ih => simp [Verif.Lines.size, ih]
  rw [tokenLength, hsize]
  rcases h with h | h
  · simp [units, h]
  · have h1 : ∀ l : List Char, (∀ c ∈ l, c.toNat < 128) → (l.map Char.utf8Size).sum = l.length ∧
        (l.map fun c => if c.toNat < 65536 then 1 else 2).sum = l.length := by
      intro l
      induction l with
      | nil => simp
      | cons c l ih =>
        intro hl
        have hc := hl c (List.mem_cons_self ..)
        obtain ⟨i1, i2⟩ := ih (fun c hc => hl c (List.mem_cons_of_mem _ hc))
        have hu : c.utf8Size = 1 := by
          rw [Char.utf8Size_eq_one_iff]
          have : c.toNat ≤ 127 := by omega
          exact UInt32.le_iff_toNat_le.2 this
        have hk : c.toNat < 65536 := by omega
        constructor
        · simp [hu, i1]; omega
        · simp only [List.map_cons, hk, if_true, List.sum_cons, List.length_cons, i2]; omega
    obtain ⟨i1, i2⟩ := h1 name h
    cases enc <;> simp [units, announce, i1, i2]

/-- **C66 is false of the code**: to the default client the name `é` is announced as two characters
long. -/
theorem token_length_violation :
    tokenLength (negotiate none) ['é'] = 2 ∧ units (announce (negotiate none)) ['é'] = 1 := by
  decide

example : ∀ c ∈ "name".toList, c.toNat < 128 := by decide

/-! ### C32 -/

theorem hexDigit_lt (a b : Nat) (ha : a < 16) (hb : b < 16) (h : a < b) : hexDigit a < hexDigit b := by
  have : ∀ a : Fin 16, ∀ b : Fin 16, a.val < b.val → hexDigit a.val < hexDigit b.val := by decide
  exact this ⟨a, ha⟩ ⟨b, hb⟩ h

theorem hex_small (n : Nat) (h : n < 16) : hex n = [hexDigit n] := by
  rw [hex, if_pos h]

theorem hex_large (n : Nat) (h : ¬ n < 16) : hex n = hex (n / 16) ++ [hexDigit (n % 16)] := by
  rw [hex, if_neg h]

theorem sortText_digits (i : Nat) (h : i < 1048576) :
    sortText i = [hexDigit (i / 65536), hexDigit (i / 4096 % 16), hexDigit (i / 256 % 16),
      hexDigit (i / 16 % 16), hexDigit (i % 16)] := by
  have z : hexDigit 0 = '0' := by decide
  by_cases h1 : i < 16
  · have e1 : i / 65536 = 0 := by omega
    have e2 : i / 4096 % 16 = 0 := by omega
    have e3 : i / 256 % 16 = 0 := by omega
    have e4 : i / 16 % 16 = 0 := by omega
    have e5 : i % 16 = i := by omega
    simp [sortText, hex_small i h1, e1, e2, e3, e4, e5, z, List.replicate]
  · by_cases h2 : i / 16 < 16
    · have e1 : i / 65536 = 0 := by omega
      have e2 : i / 4096 % 16 = 0 := by omega
      have e3 : i / 256 % 16 = 0 := by omega
      have e4 : i / 16 % 16 = i / 16 := by omega
      simp [sortText, hex_large i h1, hex_small _ h2, e1, e2, e3, e4, z, List.replicate]
    · by_cases h3 : i / 16 / 16 < 16
      · have e1 : i / 65536 = 0 := by omega
        have e2 : i / 4096 % 16 = 0 := by omega
        have e3 : i / 16 / 16 = i / 256 % 16 := by omega
        rw [e3] at h3
        simp only [sortText, hex_large i h1, hex_large _ h2, e3, hex_small _ h3, e1, e2]
        simp [z, List.replicate]
      · by_cases h4 : i / 16 / 16 / 16 < 16
        · have e1 : i / 65536 = 0 := by omega
          have e2 : i / 16 / 16 / 16 = i / 4096 % 16 := by omega
          have e3 : i / 16 / 16 % 16 = i / 256 % 16 := by omega
          rw [e2] at h4
          simp only [sortText, hex_large i h1, hex_large _ h2, hex_large _ h3, e2, e3, hex_small _ h4, e1]
          simp [z, List.replicate]
        · have h5 : i / 16 / 16 / 16 / 16 < 16 := by omega
          have e1 : i / 16 / 16 / 16 / 16 = i / 65536 := by omega
          have e2 : i / 16 / 16 / 16 % 16 = i / 4096 % 16 := by omega
          have e3 : i / 16 / 16 % 16 = i / 256 % 16 := by omega
          rw [e1] at h5
          simp only [sortText, hex_large i h1, hex_large _ h2, hex_large _ h3, hex_large _ h4, e1, e2, e3,
            hex_small _ h5]
          simp [List.replicate]

theorem sortText_lt (i j : Nat) (hj : j < 1048576) (h : i < j) : sortText i < sortText j := by
  rw [sortText_digits i (by omega), sortText_digits j hj]
  simp only [List.cons_lt_cons_iff]
  by_cases h1 : i / 65536 = j / 65536
  · refine .inr ⟨by rw [h1], ?_⟩
    by_cases h2 : i / 4096 % 16 = j / 4096 % 16
    · refine .inr ⟨by rw [h2], ?_⟩
      by_cases h3 : i / 256 % 16 = j / 256 % 16
      · refine .inr ⟨by rw [h3], ?_⟩
        by_cases h4 : i / 16 % 16 = j / 16 % 16
        · refine .inr ⟨by rw [h4], .inl (hexDigit_lt _ _ (by omega) (by omega) (by omega))⟩
        · exact .inl (hexDigit_lt _ _ (by omega) (by omega) (by omega))
      · exact .inl (hexDigit_lt _ _ (by omega) (by omega) (by omega))
    · exact .inl (hexDigit_lt _ _ (by omega) (by omega) (by omega))
  · exact .inl (hexDigit_lt _ _ (by omega) (by omega) (by omega))

/-- The items of the response are the completions in order. -/
theorem withSortText_items {α : Type} (cs : List α) : (withSortText cs).map (·.1) = cs := by
  simp [withSortText, List.map_map, Function.comp_def]

theorem withSortText_sorted {α : Type} (cs : List α) (h : cs.length ≤ 1048576) :
    (withSortText cs).Pairwise fun a b => a.2 < b.2 := by
  rw [List.pairwise_iff_getElem]
  intro i j hi hj hij
  simp only [withSortText, List.length_map, List.length_zipIdx] at hi hj
  simp only [withSortText, List.getElem_map, List.getElem_zipIdx, Nat.zero_add]
  exact sortText_lt i j (by omega) hij

theorem perm_sorted_eq {α : Type} (l l' : List (α × List Char))
    (h : l.Pairwise fun a b => a.2 < b.2) (hp : l'.Perm l)
    (h' : l'.Pairwise fun a b => ¬ b.2 < a.2) : l' = l := by
  induction l generalizing l' with
  | nil => exact List.perm_nil.1 hp
  | cons a l ih =>
    cases l' with
    | nil => exact absurd (List.nil_perm.1 hp) (by simp)
    | cons b l' =>
      have hba : b = a := by
        rcases List.mem_cons.1 (hp.mem_iff.1 (List.mem_cons_self ..)) with hb | hb
        · exact hb
        · have h1 := (List.pairwise_cons.1 h).1 b hb
          rcases List.mem_cons.1 (hp.mem_iff.2 (List.mem_cons_self ..)) with ha | ha
          · exact ha.symm
          · exact absurd h1 ((List.pairwise_cons.1 h').1 a ha)
      subst hba
      rw [ih l' (List.pairwise_cons.1 h).2 (List.perm_cons _ |>.1 hp) (List.pairwise_cons.1 h').2]

/-- **C32 (the code).**  However a client arranges the items, if it orders them by sort text it
shows them exactly in the order in which they were ranked, for up to 16^5 completions.  Missing:
longer lists, see `completion_order_violation`. -/
theorem completion_order_partial {α : Type} (cs : List α) (h : cs.length ≤ 1048576)
    (shown : List (α × List Char)) (hp : shown.Perm (withSortText cs))
    (hs : shown.Pairwise fun a b => ¬ b.2 < a.2) : shown.map (·.1) = cs := by
  rw [perm_sorted_eq _ _ (withSortText_sorted cs h) hp hs, withSortText_items]

/-- **C32 is false of the code** for longer lists: completion number 16^5 is sorted before
completion number 16^5 - 1. -/
theorem completion_order_violation : sortText 1048576 < sortText 1048575 := by
  decide +kernel

example : withSortText ["alpha", "beta"] = [("alpha", "00000".toList), ("beta", "00001".toList)] := by
  decide +kernel
example : sortText 43981 = "0abcd".toList := by decide +kernel

/-! ### C34 -/

/-- The response uses location links. -/
def UsesLinks : Option GotoResponse → Prop
  | some (.link _) => True
  | _ => False

/-- The places a response leads to: uri and range of the name. -/
def places : Option GotoResponse → List (String × (Nat × Nat))
  | none => []
  | some (.array ls) => ls
  | some (.link ls) => ls.map fun l => (l.1, l.2.2)

/-- **C34 (the code).**  Whatever the client supports, the response leads to exactly the names that
were found, in order.  Missing: that links are only sent to clients that support them, see
`links_violation`. -/
theorem goto_places_partial (support : Bool) (names : List Found) :
    places (runGotoLike support names) = names.map fun n => (n.uri, n.name) := by
  unfold runGotoLike
  cases names with
  | nil => cases support <;> rfl
  | cons n ns => cases support <;> simp [places, Function.comp_def]

/-- **C34 is false of the code**: links are sent exactly to the clients that did not announce
support for them. -/
theorem links_violation (support : Bool) (names : List Found) (h : names ≠ []) :
    UsesLinks (runGotoLike support names) ↔ support = false := by
  cases names with
  | nil => exact absurd rfl h
  | cons n ns => cases support <;> simp [runGotoLike, UsesLinks]

example : runGotoLike false [⟨"file:///a.py", (0, 9), (4, 5)⟩] =
    some (.link [("file:///a.py", (0, 9), (4, 5))]) := by decide

/-! ### C35 and C67 -/

/-- `q` occurs in `s`. -/
def Substring (q s : List Char) : Prop := ∃ a b, s = a ++ q ++ b

/-- `s` is a symbol of the forest, inside of the symbols `as` (outermost first). -/
inductive Under : List Sym → List Sym → Sym → Prop
  | here {ss s} (h : s ∈ ss) : Under ss [] s
  | inside {ss p as s} (h : p ∈ ss) (hu : Under p.body as s) : Under ss (p :: as) s

theorem containsStr_iff (s q : List Char) : containsStr s q = true ↔ Substring q s := by
  induction s with
  | nil =>
    simp only [containsStr, List.isEmpty_iff]
    constructor
    · rintro rfl; exact ⟨[], [], rfl⟩
    · rintro ⟨a, b, h⟩
      have := congrArg List.length h
      simp only [List.length_nil, List.length_append] at this
      exact List.length_eq_zero_iff.1 (by omega)
  | cons c cs ih =>
    simp only [containsStr, Bool.or_eq_true, ih, List.isPrefixOf_iff_prefix]
    constructor
    · rintro (⟨b, h⟩ | ⟨a, b, h⟩)
      · exact ⟨[], b, by simpa using h.symm⟩
      · exact ⟨c :: a, b, by simp [h]⟩
    · rintro ⟨a, b, h⟩
      cases a with
      | nil => exact .inl ⟨b, by simpa using h.symm⟩
      | cons x a =>
        simp only [List.cons_append, List.cons.injEq] at h
        exact .inr ⟨a, b, h.2⟩

theorem under_cons (s : Sym) (ss as : List Sym) (x : Sym) :
    Under (s :: ss) as x ↔
      (as = [] ∧ x = s) ∨ (∃ bs, as = s :: bs ∧ Under s.body bs x) ∨ Under ss as x := by
  constructor
  · intro h
    cases h with
    | here h =>
      rcases List.mem_cons.1 h with h | h
      · exact .inl ⟨rfl, h⟩
      · exact .inr (.inr (.here h))
    | inside h hu =>
      rcases List.mem_cons.1 h with h | h
      · subst h; exact .inr (.inl ⟨_, rfl, hu⟩)
      · exact .inr (.inr (.inside h hu))
  · rintro (⟨rfl, rfl⟩ | ⟨bs, rfl, hu⟩ | hu)
    · exact .here (List.mem_cons_self ..)
    · exact .inside (List.mem_cons_self ..) hu
    · cases hu with
      | here h => exact .here (List.mem_cons_of_mem _ h)
      | inside h hu => exact .inside (List.mem_cons_of_mem _ h) hu

theorem under_nil (as : List Sym) (x : Sym) : ¬ Under [] as x := by
  intro h
  cases h with
  | here h => simp at h
  | inside h _ => simp at h

mutual
theorem workspaceSymbol_iff (q : List Char) (s : Sym) (n : List Char) (l : Nat) :
    (n, l) ∈ workspaceSymbol q s ↔
      Substring q s.name ∧ ((n = s.name ∧ l = s.loc) ∨ (s.kind = .cls ∧ ∃ as x, Under s.body as x ∧
        x.name = n ∧ x.loc = l ∧ Substring q n ∧ ∀ a ∈ as, a.kind = .cls ∧ Substring q a.name)) := by
  cases s with
  | mk name kind loc body =>
    have ih := workspaceSymbols_iff q body n l
    simp only [workspaceSymbol, Sym.name, Sym.kind, Sym.loc, Sym.body]
    by_cases hc : containsStr name q = true
    · have hs := (containsStr_iff name q).1 hc
      rw [if_pos hc]
      by_cases hk : kind = .cls
      · rw [if_pos hk]
        simp only [List.mem_append, List.mem_singleton, Prod.mk.injEq, ih, hs, hk, true_and]
        constructor
        · rintro (h | h)
          · exact .inr h
          · exact .inl h
        · rintro (h | h)
          · exact .inr h
          · exact .inl h
      · rw [if_neg hk]
        simp [hs, hk]
    · rw [if_neg hc]
      have hs : ¬ Substring q name := fun h => hc ((containsStr_iff name q).2 h)
      simp [hs]
theorem workspaceSymbols_iff (q : List Char) (ss : List Sym) (n : List Char) (l : Nat) :
    (n, l) ∈ workspaceSymbols q ss ↔
      ∃ as x, Under ss as x ∧ x.name = n ∧ x.loc = l ∧ Substring q n ∧
        ∀ a ∈ as, a.kind = .cls ∧ Substring q a.name := by
  cases ss with
  | nil => simp [workspaceSymbols, under_nil]
  | cons s ss =>
    have h1 := workspaceSymbol_iff q s n l
    have h2 := workspaceSymbols_iff q ss n l
    simp only [workspaceSymbols, List.mem_append, h1, h2]
    constructor
    · rintro (⟨hs, h | ⟨hk, as, x, hu, hn, hl, hq, ha⟩⟩ | ⟨as, x, hu, h⟩)
      · exact ⟨[], s, (under_cons ..).2 (.inl ⟨rfl, rfl⟩), h.1.symm, h.2.symm, h.1 ▸ hs, by simp⟩
      · refine ⟨s :: as, x, (under_cons ..).2 (.inr (.inl ⟨as, rfl, hu⟩)), hn, hl, hq, ?_⟩
        intro a h
        rcases List.mem_cons.1 h with h | h
        · exact h ▸ ⟨hk, hs⟩
        · exact ha a h
      · exact ⟨as, x, (under_cons ..).2 (.inr (.inr hu)), h⟩
    · rintro ⟨as, x, hu, hn, hl, hq, ha⟩
      rcases (under_cons ..).1 hu with ⟨rfl, rfl⟩ | ⟨bs, rfl, hu'⟩ | hu
      · exact .inl ⟨hn ▸ hq, .inl ⟨hn.symm, hl.symm⟩⟩
      · obtain ⟨hk, hs⟩ := ha s (List.mem_cons_self ..)
        exact .inl ⟨hs, .inr ⟨hk, bs, x, hu', hn, hl, hq, fun a h => ha a (List.mem_cons_of_mem _ h)⟩⟩
      · exact .inr ⟨as, x, hu, hn, hl, hq, ha⟩
end

/-- **C35 (the code).**  A workspace symbol query returns exactly the symbols whose name contains the
query and that are inside of classes only, all of whose names contain the query as well; in
particular every matching symbol at the top level of a module.  Missing: members of classes whose
name does not contain the query and members of enums, see `workspace_symbols_violation`. -/
theorem workspace_symbols_partial (q : List Char) (ss : List Sym) (n : List Char) (l : Nat) :
    (n, l) ∈ workspaceSymbols q ss ↔
      ∃ as x, Under ss as x ∧ x.name = n ∧ x.loc = l ∧ Substring q n ∧
        ∀ a ∈ as, a.kind = .cls ∧ Substring q a.name :=
  workspaceSymbols_iff q ss n l

/-- `class Foo: def bar` and `class Color(Enum): RED`. -/
def demoSymbols : List Sym :=
  [.mk "Foo".toList .cls 1 [.mk "bar".toList .other 2 []],
   .mk "RED_OR_BLUE".toList .enum 3 [.mk "RED".toList .other 4 []]]

/-- **C35 is false of the code**: the query `bar` does not find the method `bar` of the class `Foo`,
and `RED` does not find the member of an enum whose name matches. -/
theorem workspace_symbols_violation :
    (∃ as x, Under demoSymbols as x ∧ Substring "bar".toList x.name ∧ (∀ a ∈ as, a.kind = .cls)) ∧
    workspaceSymbols "bar".toList demoSymbols = [] ∧
    (∃ as x, Under demoSymbols as x ∧ Substring "RED".toList x.name ∧ x.loc = 4 ∧
      ∀ a ∈ as, Substring "RED".toList a.name) ∧
    workspaceSymbols "RED".toList demoSymbols = [("RED_OR_BLUE".toList, 3)] := by
  refine ⟨⟨[_], _, .inside (List.mem_cons_self ..) (.here (List.mem_cons_self ..)), ⟨[], [], rfl⟩, ?_⟩,
    by decide, ⟨[_], _, .inside (List.mem_cons_of_mem _ (List.mem_cons_self ..)) (.here (List.mem_cons_self ..)),
      ⟨[], [], rfl⟩, rfl, ?_⟩, by decide⟩
  · intro a ha
    rw [List.mem_singleton.1 ha]
    rfl
  · intro a ha
    rw [List.mem_singleton.1 ha]
    exact ⟨[], "_OR_BLUE".toList, rfl⟩

mutual
/-- Reading a hierarchical outline: every entry with the name of the entry around it. -/
def outline (container : Option (List Char)) : DocSym → List FlatSym
  | .mk name kind loc children =>
    { name, kind, loc, container } :: (match children with
      | some cs => outlines (some name) cs
      | none => [])
def outlines (container : Option (List Char)) : List DocSym → List FlatSym
  | [] => []
  | d :: ds => outline container d ++ outlines container ds
end

mutual
theorem flatSymbol_eq (c : Option (List Char)) (s : Sym) : outline c (nestedSymbol s) = flatSymbol c s := by
  cases s with
  | mk name kind loc body =>
    by_cases h : kind = .cls ∨ kind = .enum
    · have e : nestedSymbol (.mk name kind loc body) = .mk name kind loc (some (nestedSymbols body)) := by
        simp only [nestedSymbol, if_pos h]
      rw [e]
      simp only [outline, flatSymbol, if_pos h, flatSymbols_eq (some name) body]
    · have e : nestedSymbol (.mk name kind loc body) = .mk name kind loc none := by
        simp only [nestedSymbol, if_neg h]
      rw [e]
      simp only [outline, flatSymbol, if_neg h]
theorem flatSymbols_eq (c : Option (List Char)) (ss : List Sym) : outlines c (nestedSymbols ss) = flatSymbols c ss := by
  cases ss with
  | nil => rfl
  | cons s ss => simp only [nestedSymbols, flatSymbols, outlines, flatSymbol_eq c s, flatSymbols_eq c ss]
end

/-- **C67 (the same outline).**  Clients with and without support for hierarchical symbols get the
same symbols with the same containers in the same order. -/
theorem outline_same (ss : List Sym) : outlines none (nestedSymbols ss) = flatSymbols none ss :=
  flatSymbols_eq none ss

/-- The name of the innermost enclosing symbol. -/
def containerOf (c : Option (List Char)) (as : List Sym) : Option (List Char) :=
  match as.getLast? with
  | some a => some a.name
  | none => c

theorem containerOf_cons (c : Option (List Char)) (s : Sym) (as : List Sym) :
    containerOf c (s :: as) = containerOf (some s.name) as := by
  cases as with
  | nil => rfl
  | cons a as => simp [containerOf, List.getLast?_cons]

mutual
theorem flatSymbol_iff (c : Option (List Char)) (s : Sym) (f : FlatSym) :
    f ∈ flatSymbol c s ↔ f = ⟨s.name, s.kind, s.loc, c⟩ ∨ ((s.kind = .cls ∨ s.kind = .enum) ∧
      ∃ as x, Under s.body as x ∧ f = ⟨x.name, x.kind, x.loc, containerOf (some s.name) as⟩ ∧
        ∀ a ∈ as, a.kind = .cls ∨ a.kind = .enum) := by
  cases s with
  | mk name kind loc body =>
    have ih := flatSymbols_iff (some name) body f
    show f ∈ flatSymbol c (.mk name kind loc body) ↔ f = ⟨name, kind, loc, c⟩ ∨
      ((kind = .cls ∨ kind = .enum) ∧ ∃ as x, Under body as x ∧
        f = ⟨x.name, x.kind, x.loc, containerOf (some name) as⟩ ∧
          ∀ a ∈ as, a.kind = .cls ∨ a.kind = .enum)
    simp only [flatSymbol, List.mem_cons]
    by_cases h : kind = .cls ∨ kind = .enum
    · rw [if_pos h, ih]
      simp only [h, true_and]
    · simp [h]
theorem flatSymbols_iff (c : Option (List Char)) (ss : List Sym) (f : FlatSym) :
    f ∈ flatSymbols c ss ↔ ∃ as x, Under ss as x ∧
      f = ⟨x.name, x.kind, x.loc, containerOf c as⟩ ∧ ∀ a ∈ as, a.kind = .cls ∨ a.kind = .enum := by
  cases ss with
  | nil => simp [flatSymbols, under_nil]
  | cons s ss =>
    have h1 := flatSymbol_iff c s f
    have h2 := flatSymbols_iff c ss f
    simp only [flatSymbols, List.mem_append, h1, h2]
    constructor
    · rintro ((h | ⟨hk, as, x, hu, hf, ha⟩) | ⟨as, x, hu, h⟩)
      · exact ⟨[], s, (under_cons ..).2 (.inl ⟨rfl, rfl⟩), h, by simp⟩
      · refine ⟨s :: as, x, (under_cons ..).2 (.inr (.inl ⟨as, rfl, hu⟩)),
          by rw [containerOf_cons]; exact hf, ?_⟩
        intro a h
        rcases List.mem_cons.1 h with h | h
        · exact h ▸ hk
        · exact ha a h
      · exact ⟨as, x, (under_cons ..).2 (.inr (.inr hu)), h⟩
    · rintro ⟨as, x, hu, hf, ha⟩
      rcases (under_cons ..).1 hu with ⟨rfl, rfl⟩ | ⟨bs, rfl, hu'⟩ | hu
      · exact .inl (.inl hf)
      · rw [containerOf_cons] at hf
        exact .inl (.inr ⟨ha s (List.mem_cons_self ..), bs, x, hu', hf,
          fun a h => ha a (List.mem_cons_of_mem _ h)⟩)
      · exact .inr ⟨as, x, hu, hf, ha⟩
end

/-- **C67 (complete outline).**  The outline of a document consists of exactly the symbols at the top
level and inside of classes and enums at any depth, each with the name of the class around it. -/
theorem outline_complete (ss : List Sym) (f : FlatSym) :
    f ∈ flatSymbols none ss ↔ ∃ as x, Under ss as x ∧
      f = ⟨x.name, x.kind, x.loc, containerOf none as⟩ ∧ ∀ a ∈ as, a.kind = .cls ∨ a.kind = .enum :=
  flatSymbols_iff none ss f

example : flatSymbols none demoSymbols =
    [⟨"Foo".toList, .cls, 1, none⟩, ⟨"bar".toList, .other, 2, some "Foo".toList⟩,
     ⟨"RED_OR_BLUE".toList, .enum, 3, none⟩, ⟨"RED".toList, .other, 4, some "RED_OR_BLUE".toList⟩] := by
  decide

/-! ### C36 -/

theorem splitLast_append (c : Char) (a b : List Char) (h : c ∉ b) :
    splitLast c (a ++ c :: b) = some (a, b) := by
  have h0 : ∀ b : List Char, c ∉ b → splitLast c b = none := by
    intro b
    induction b with
    | nil => intro _; rfl
    | cons x b ih =>
      intro h
      simp only [List.mem_cons, not_or] at h
      simp [splitLast, ih h.2, Ne.symm h.1]
  induction a with
  | nil => simp [splitLast, h0 b h]
  | cons x a ih => simp [splitLast, ih]

/-- A module file: `dir/stem.ext`. -/
def moduleUri (dir stem ext : List Char) : List Char := dir ++ ['/'] ++ stem ++ ['.'] ++ ext

theorem rename_file (dir stem ext : List Char) (hs : stem ≠ []) (hs1 : '/' ∉ stem)
    (he : '/' ∉ ext) (he' : '.' ∉ ext) :
    splitLast '/' (moduleUri dir stem ext) = some (dir, stem ++ ['.'] ++ ext) ∧
    stemExt (stem ++ ['.'] ++ ext) = (stem, some ext) := by
  constructor
  · have : moduleUri dir stem ext = dir ++ '/' :: (stem ++ ['.'] ++ ext) := by simp [moduleUri]
    rw [this]
    exact splitLast_append '/' dir _ (by simp [hs1, he])
  · have : stem ++ ['.'] ++ ext = stem ++ '.' :: ext := by simp
    rw [this, stemExt, splitLast_append '.' stem ext he']
    cases stem with
    | nil => exact absurd rfl hs
    | cons => rfl

/-- **C36 (the code).**  Renaming a module that is a file moves it to the file of that name in the
same directory with the same extension.  Missing: packages, see `rename_package_violation`. -/
theorem rename_module_partial (dir stem ext new : List Char) (hs : stem ≠ []) (hs1 : '/' ∉ stem)
    (he : '/' ∉ ext) (he' : '.' ∉ ext) (hinit : stem ≠ "__init__".toList) :
    renameToUri (moduleUri dir stem ext) new = some (moduleUri dir new ext) := by
  obtain ⟨h1, h2⟩ := rename_file dir stem ext hs hs1 he he'
  simp only [renameToUri, h1, h2, if_neg hinit]
  simp [moduleUri]

/-- **C36 is false of the code for every package**: renaming the package `dir/pkg` whose file is
`dir/pkg/__init__.ext` yields `dir/new__init__/.ext`, never `dir/new/__init__.ext`. -/
theorem rename_package_violation (dir pkg ext new : List Char) (hp : '/' ∉ pkg)
    (he : '/' ∉ ext) (he' : '.' ∉ ext) :
    renameToUri (moduleUri (dir ++ ['/'] ++ pkg) "__init__".toList ext) new =
        some (dir ++ ['/'] ++ new ++ "__init__/.".toList ++ ext) ∧
      dir ++ ['/'] ++ new ++ "__init__/.".toList ++ ext ≠
        moduleUri (dir ++ ['/'] ++ new) "__init__".toList ext := by
  obtain ⟨h1, h2⟩ := rename_file (dir ++ ['/'] ++ pkg) "__init__".toList ext (by decide) (by decide) he he'
  have h3 : splitLast '/' (dir ++ ['/'] ++ pkg) = some (dir, pkg) := by
    have : dir ++ ['/'] ++ pkg = dir ++ '/' :: pkg := by simp
    rw [this]
    exact splitLast_append '/' dir pkg hp
  constructor
  · simp only [renameToUri, h1, h2, if_true, h3]
    simp
  · intro h
    have e1 : dir ++ ['/'] ++ new ++ "__init__/.".toList ++ ext =
        (dir ++ ['/'] ++ new) ++ ("__init__/.".toList ++ ext) := by simp
    have e2 : moduleUri (dir ++ ['/'] ++ new) "__init__".toList ext =
        (dir ++ ['/'] ++ new) ++ ("/__init__.".toList ++ ext) := by simp [moduleUri]
    rw [e1, e2] at h
    have := List.append_cancel_left h
    simp at this

example : renameToUri "file:///a/foo.pyi".toList "bar".toList = some "file:///a/bar.pyi".toList := by decide
example : renameToUri "file:///a/foo/__init__.py".toList "bar".toList =
    some "file:///a/bar__init__/.py".toList := by decide

/-! ### C37 -/

/-- **C37 (the code).**  The exit code is 1 exactly if some diagnostic of some file is an error, 0 exactly
if none is, and 2 if the run itself failed; the
summary says success exactly if there is none; otherwise it gives the number of error diagnostics.  If
all diagnostics are errors the number of files is the number of files with an error and all nouns
agree with their numbers.  Missing: reports that also contain notes, see `summary_violation` and
`summary_files_violation`. -/
theorem summary_partial (files : List (List Severity)) :
    (exitCode (some (report files)) = 1 ↔ ∃ f ∈ files, Severity.error ∈ f) ∧
    (exitCode (some (report files)) = 0 ↔ ∀ f ∈ files, Severity.error ∉ f) ∧ exitCode none = 2 ∧
    ((∃ n s, summary (report files) = .success n s) ↔ ∀ f ∈ files, Severity.error ∉ f) ∧
    (∀ e es m ms n ns, summary (report files) = .found e es m ms n ns →
      e = (files.map fun f => f.count .error).sum ∧ n = files.length ∧ (ns = true ↔ n ≠ 1) ∧
      ((∀ f ∈ files, ∀ s ∈ f, s = .error) →
        m = (files.filter fun f => f.contains .error).length ∧
        (es = true ↔ e ≠ 1) ∧ (ms = true ↔ m ≠ 1))) := by
  have hcount : errorCount (report files) = (files.map fun f => f.count .error).sum := by
    simp only [errorCount, report]
    induction files with
    | nil => rfl
    | cons f fs ih =>
      simp only [List.flatten_cons, List.filter_append, List.length_append, ih, List.map_cons, List.sum_cons]
      congr 1
      rw [List.count_eq_length_filter]
      rfl
  have hzero : errorCount (report files) = 0 ↔ ∀ f ∈ files, Severity.error ∉ f := by
    rw [hcount, List.sum_eq_zero_iff_forall_eq_nat]
    simp [List.count_eq_zero]
  have hpos : errorCount (report files) > 0 ↔ ∃ f ∈ files, Severity.error ∈ f := by
    constructor
    · intro h
      exact Classical.byContradiction fun hn => absurd (hzero.2 fun f hf he => hn ⟨f, hf, he⟩) (by omega)
    · rintro ⟨f, hf, he⟩
      refine Nat.pos_of_ne_zero fun h0 => (hzero.1 h0) f hf he
  refine ⟨?_, ?_, rfl, ?_, ?_⟩
  · simp only [exitCode]
    rw [← hpos]
    split <;> simp_all
  · simp only [exitCode]
    rw [← hzero]
    split <;> simp_all
  · rw [← hzero]
    unfold summary
    split <;> simp_all
  · intro e es m ms n ns h
    unfold summary at h
    split at h
    · cases h
    · cases h
      refine ⟨hcount, rfl, by simp [sIfPlural, report], ?_⟩
      intro hall
      refine ⟨?_, ?_, by simp [sIfPlural]⟩
      · simp only [report]
        congr 1
        apply List.filter_congr
        intro f hf
        cases f with
        | nil => rfl
        | cons s f =>
          have := hall _ hf s (List.mem_cons_self ..)
          subst this
          simp
      · have : (report files).issues.length = errorCount (report files) := by
          unfold errorCount
          congr 1
          symm
          rw [List.filter_eq_self]
          intro s hs
          simp only [report, List.mem_flatten] at hs
          obtain ⟨f, hf, hs⟩ := hs
          simp [hall f hf s hs]
        rw [this]
        simp [sIfPlural]

/-- **C37 is false of the code**: one error with a note is summarised as `Found 1 errors`. -/
theorem summary_violation :
    summary (report [[.error, .other]]) = .found 1 true 1 false 1 false := by decide

/-- **C37 is false of the code**: a file with only a note counts as a file with errors. -/
theorem summary_files_violation :
    summary (report [[.error, .error], [.other]]) = .found 2 true 2 true 2 true ∧
      ([[Severity.error, .error], [.other]].filter fun f => f.contains .error).length = 1 := by decide

example : summary (report [[.error], [], [.error, .error]]) = .found 3 true 2 true 3 true ∧
    exitCode (some (report [[.error], [], [.error, .error]])) = 1 := by decide

end Verif.Server
