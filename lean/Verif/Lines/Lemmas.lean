import Verif.Lines.Spec

namespace Verif.Lines

open Spec

/-! ### Sizes and slices -/

theorem size_append (a b : List Char) : size (a ++ b) = size a + size b := by
  induction a with
  | nil => simp [size]
  | cons c a ih => simp [size, ih]; omega

theorem size_pos {a : List Char} (h : a ≠ []) : 0 < size a := by
  cases a with
  | nil => exact absurd rfl h
  | cons c a => have := c.utf8Size_pos; simp [size]; omega

theorem size_nl : size ['\n'] = 1 := by decide
theorem size_cr : size ['\r'] = 1 := by decide
theorem size_crlf : size ['\r', '\n'] = 2 := by decide

theorem splitAtByte_append (p q : List Char) : splitAtByte (p ++ q) (size p) = some (p, q) := by
  induction p with
  | nil => cases q <;> simp [splitAtByte, size]
  | cons c p ih =>
    have hc := c.utf8Size_pos
    have : size (c :: p) = (c.utf8Size + size p - 1) + 1 := by simp [size]; omega
    rw [this, List.cons_append, splitAtByte, if_pos (by omega)]
    rw [show c.utf8Size + size p - 1 + 1 - c.utf8Size = size p by omega, ih]
    rfl

theorem splitAtByte_some {s : List Char} {n : Nat} {p q : List Char} (h : splitAtByte s n = some (p, q)) :
    s = p ++ q ∧ n = size p := by
  induction s generalizing n p q with
  | nil =>
    cases n with
    | zero => simp [splitAtByte] at h; simp [h, size]
    | succ n => simp [splitAtByte] at h
  | cons c s ih =>
    cases n with
    | zero => simp [splitAtByte] at h; obtain ⟨rfl, rfl⟩ := h; simp [size]
    | succ n =>
      rw [splitAtByte] at h
      split at h
      · rename_i hc
        rw [Option.map_eq_some_iff] at h
        obtain ⟨⟨p', q'⟩, h1, h2⟩ := h
        simp only [Prod.mk.injEq] at h2
        obtain ⟨rfl, rfl⟩ := h2
        obtain ⟨rfl, e⟩ := ih h1
        simp [size]; omega
      · simp at h

theorem slice_append (p m q : List Char) : slice (p ++ m ++ q) (size p) (size p + size m) = some m := by
  unfold slice
  rw [← size_append, splitAtByte_append]
  simp [splitAtByte_append]

/-- A prefix by size is a prefix. -/
theorem prefix_of_size_le {p q p' q' : List Char} (h : p ++ q = p' ++ q') (hs : size p ≤ size p') :
    ∃ m, p' = p ++ m ∧ q = m ++ q' := by
  rw [List.append_eq_append_iff] at h
  rcases h with ⟨m, rfl, rfl⟩ | ⟨m, rfl, rfl⟩
  · exact ⟨m, rfl, rfl⟩
  · rw [size_append] at hs
    have : m = [] := by
      by_cases hm : m = []
      · exact hm
      · have := size_pos hm; omega
    subst this
    exact ⟨[], by simp, by simp⟩

theorem width_append (enc : Enc) (a b : List Char) : width enc (a ++ b) = width enc a + width enc b := by
  induction a with
  | nil => simp [width]
  | cons c a ih => simp [width, ih]; omega

theorem utf16Len_pos (c : Char) : 0 < utf16Len c := by unfold utf16Len; split <;> omega

theorem width_pos (enc : Enc) {a : List Char} (h : a ≠ []) : 0 < width enc a := by
  cases a with
  | nil => exact absurd rfl h
  | cons c a =>
    have h1 := c.utf8Size_pos
    have h2 := utf16Len_pos c
    cases enc <;> simp only [width] <;> omega

theorem width_utf8 (a : List Char) : width .utf8 a = size a := by
  induction a with
  | nil => rfl
  | cons c a ih => simp [width, size, ih]

theorem width_utf32 (a : List Char) : width .utf32 a = a.length := by
  induction a with
  | nil => rfl
  | cons c a ih => simp [width, ih]; omega

theorem width_utf16 (a : List Char) : width .utf16 a = (a.map utf16Len).sum := by
  induction a with
  | nil => rfl
  | cons c a ih => simp [width, ih]

theorem size_le_of_append {p q : List Char} : size p ≤ size (p ++ q) := by rw [size_append]; omega

/-! ### Columns -/

theorem utf16Loop_prefix (pos : Nat) (p q : List Char) (i n k : Nat) (h : n + width .utf16 p = pos)
    (hp : q ≠ []) : utf16Loop pos (p ++ q) i n k = .ok (i + size p, false) := by
  induction p generalizing i n k with
  | nil =>
    cases q with
    | nil => exact absurd rfl hp
    | cons c q => simp [width] at h; simp [utf16Loop, h, size]
  | cons c p ih =>
    simp only [width] at h
    have := utf16Len_pos c
    rw [List.cons_append, utf16Loop, if_neg (by omega), if_neg (by omega), ih _ _ _ (by omega)]
    simp [size]; omega

theorem utf16Loop_end (pos : Nat) (p : List Char) (i n k : Nat) (h : n + width .utf16 p ≤ pos) :
    utf16Loop pos p i n k = .ok (i + size p, decide (pos > k + p.length)) := by
  induction p generalizing i n k with
  | nil => simp [utf16Loop, size]
  | cons c p ih =>
    simp only [width] at h
    have := utf16Len_pos c
    rw [utf16Loop, if_neg (by omega), if_neg (by omega), ih _ _ _ (by omega)]
    simp only [size, List.length_cons]
    congr 2
    · omega
    · congr 1; simp only [eq_iff_iff]; omega

theorem utf16Loop_sound (pos : Nat) (s : List Char) (i n k : Nat) (b : Nat) (hn : n ≤ pos) (hk : k ≤ n)
    (h : utf16Loop pos s i n k = .ok (b, false)) :
    ∃ p q, s = p ++ q ∧ n + width .utf16 p = pos ∧ b = i + size p := by
  induction s generalizing i n k with
  | nil =>
    simp only [utf16Loop, Except.ok.injEq, Prod.mk.injEq, decide_eq_false_iff_not] at h
    refine ⟨[], [], rfl, ?_, ?_⟩
    · simp [width]; omega
    · simp [size]; omega
  | cons c s ih =>
    have h1 := utf16Len_pos c
    rw [utf16Loop] at h
    split at h
    · simp only [Except.ok.injEq, Prod.mk.injEq, and_true] at h
      exact ⟨[], c :: s, rfl, by simp [width]; omega, by simp [size]; omega⟩
    · split at h
      · simp at h
      · obtain ⟨p, q, rfl, h2, h3⟩ := ih _ _ _ (by omega) (by omega) h
        refine ⟨c :: p, q, rfl, ?_, ?_⟩
        · simp only [width]; omega
        · simp only [size]; omega

theorem utf16Loop_no_panic (pos : Nat) (s : List Char) (i n k : Nat) :
    utf16Loop pos s i n k ≠ .error .panic := by
  induction s generalizing i n k with
  | nil => simp [utf16Loop]
  | cons c s ih =>
    rw [utf16Loop]
    split
    · simp
    · split
      · simp
      · exact ih _ _ _

theorem convert_no_panic (enc : Enc) (l : List Char) (col : Nat) : convert enc l col ≠ .error .panic := by
  cases enc with
  | utf8 => simp only [convert]; split <;> simp
  | utf16 => exact utf16Loop_no_panic col l 0 0 0
  | utf32 => simp [convert]

/-- No character outside the basic multilingual plane (only needed for UTF-16). -/
def Bmp (enc : Enc) (s : List Char) : Prop := enc = .utf16 → ∀ c ∈ s, c.val < 0x10000

theorem width_bmp {s : List Char} (h : ∀ c ∈ s, c.val < 0x10000) : width .utf16 s = s.length := by
  induction s with
  | nil => rfl
  | cons c s ih =>
    have h1 : utf16Len c = 1 := by unfold utf16Len; rw [if_pos (h c (by simp))]
    simp only [width, List.length_cons, h1, ih (fun c hc => h c (by simp [hc]))]; omega

/-- Every column inside the line is converted to the right offset. -/
theorem convert_offset (enc : Enc) (p q : List Char) :
    ∃ oob, convert enc (p ++ q) (width enc p) = .ok (size p, oob) ∧
      (Bmp enc p ∨ q ≠ [] → oob = false) := by
  cases enc with
  | utf8 =>
    refine ⟨false, ?_, fun _ => rfl⟩
    simp only [convert, width_utf8]
    have : min (size p) (size (p ++ q)) = size p := by rw [size_append]; omega
    rw [this, splitAtByte_append]
    simp
  | utf16 =>
    by_cases hq : q = []
    · subst hq
      refine ⟨_, by simp only [convert, List.append_nil]; rw [utf16Loop_end _ _ _ _ _ (by omega)]; simp; rfl, ?_⟩
      rintro (h | h)
      · have := width_bmp (h rfl)
        simp; omega
      · exact absurd rfl h
    · refine ⟨false, ?_, fun _ => rfl⟩
      simp only [convert]
      rw [utf16Loop_prefix _ _ _ _ _ _ (by omega) hq]; simp
  | utf32 =>
    refine ⟨false, ?_, fun _ => rfl⟩
    simp [convert, width_utf32]

theorem convert_sound (enc : Enc) (l : List Char) (col b : Nat) (h : convert enc l col = .ok (b, false)) :
    ∃ p q, l = p ++ q ∧ width enc p = col ∧ b = size p := by
  cases enc with
  | utf8 =>
    simp only [convert] at h
    split at h
    · rename_i hb
      simp only [Except.ok.injEq, Prod.mk.injEq, decide_eq_false_iff_not] at h
      obtain ⟨h1, h2⟩ := h
      rw [Option.isSome_iff_exists] at hb
      obtain ⟨⟨p, q⟩, hb⟩ := hb
      obtain ⟨rfl, e⟩ := splitAtByte_some hb
      exact ⟨p, q, rfl, by rw [width_utf8]; omega, by omega⟩
    · simp at h
  | utf16 =>
    obtain ⟨p, q, h1, h2, h3⟩ := utf16Loop_sound _ _ _ _ _ _ (by omega) (by omega) h
    exact ⟨p, q, h1, by omega, by omega⟩
  | utf32 =>
    simp only [convert, Except.ok.injEq, Prod.mk.injEq, decide_eq_false_iff_not, List.length_take] at h
    refine ⟨l.take col, l.drop col, by simp, ?_, h.1.symm⟩
    rw [width_utf32, List.length_take]; omega

/-! ### Lines -/

/-- No newline character. -/
def Clean (l : List Char) : Prop := ∀ c ∈ l, c ≠ '\n' ∧ c ≠ '\r'

theorem splitLines_nil : splitLines [] = [([], [])] := by rw [splitLines]

theorem splitLines_lf (X : List Char) : splitLines ('\n' :: X) = ([], ['\n']) :: splitLines X := by
  rw [splitLines.eq_def]; simp

theorem splitLines_crlf (X : List Char) :
    splitLines ('\r' :: '\n' :: X) = ([], ['\r', '\n']) :: splitLines X := by
  rw [splitLines]; simp

theorem splitLines_cr (X : List Char) (h : ∀ Y, X ≠ '\n' :: Y) :
    splitLines ('\r' :: X) = ([], ['\r']) :: splitLines X := by
  rw [splitLines.eq_def]
  simp only [show ('\r' = '\n') = False by simp, if_false, if_true]

theorem splitLines_ne_nil (X : List Char) : splitLines X ≠ [] := by
  rw [splitLines.eq_def]
  split
  · simp
  · split
    · simp
    · split
      · split <;> simp
      · split <;> simp

theorem splitLines_char (c : Char) (X : List Char) (h1 : c ≠ '\n') (h2 : c ≠ '\r') (l t r)
    (h : splitLines X = (l, t) :: r) : splitLines (c :: X) = (c :: l, t) :: r := by
  rw [splitLines.eq_def]
  simp only [h1, h2, if_false, h]

theorem splitLines_clean (l X : List Char) (hl : Clean l) (l' t r)
    (h : splitLines X = (l', t) :: r) : splitLines (l ++ X) = (l ++ l', t) :: r := by
  induction l with
  | nil => simpa using h
  | cons c l ih =>
    have hc := hl c (by simp)
    exact splitLines_char c _ hc.1 hc.2 _ _ _ (ih (fun c h => hl c (by simp [h])))

/-- A proper terminator followed by `X`. -/
def Term (t X : List Char) : Prop :=
  t = ['\n'] ∨ t = ['\r', '\n'] ∨ (t = ['\r'] ∧ ∀ Y, X ≠ '\n' :: Y)

theorem splitLines_term (l t X : List Char) (hl : Clean l) (ht : Term t X) :
    splitLines (l ++ t ++ X) = (l, t) :: splitLines X := by
  have : splitLines (t ++ X) = ([], t) :: splitLines X := by
    rcases ht with rfl | rfl | ⟨rfl, h⟩
    · exact splitLines_lf X
    · exact splitLines_crlf X
    · exact splitLines_cr X h
  rw [List.append_assoc, splitLines_clean l _ hl _ _ _ this, List.append_nil]

/-- Decomposition of a text at its first line. -/
theorem splitLines_cases (s : List Char) :
    (Clean s ∧ splitLines s = [(s, [])]) ∨
    ∃ l t X, s = l ++ t ++ X ∧ Clean l ∧ Term t X ∧ splitLines s = (l, t) :: splitLines X := by
  induction s with
  | nil => left; exact ⟨by simp [Clean], splitLines_nil⟩
  | cons c s ih =>
    by_cases h1 : c = '\n'
    · subst h1
      right
      exact ⟨[], ['\n'], s, rfl, by simp [Clean], .inl rfl, splitLines_lf s⟩
    · by_cases h2 : c = '\r'
      · subst h2
        right
        by_cases h3 : ∃ Y, s = '\n' :: Y
        · obtain ⟨Y, rfl⟩ := h3
          exact ⟨[], ['\r', '\n'], Y, rfl, by simp [Clean], .inr (.inl rfl), splitLines_crlf Y⟩
        · have h3 : ∀ Y, s ≠ '\n' :: Y := fun Y h => h3 ⟨Y, h⟩
          exact ⟨[], ['\r'], s, rfl, by simp [Clean], .inr (.inr ⟨rfl, h3⟩), splitLines_cr s h3⟩
      · rcases ih with ⟨hc, h⟩ | ⟨l, t, X, rfl, hl, ht, h⟩
        · left
          refine ⟨?_, splitLines_char c s h1 h2 _ _ _ h⟩
          intro d hd
          simp only [List.mem_cons] at hd
          rcases hd with rfl | hd
          · exact ⟨h1, h2⟩
          · exact hc d hd
        · right
          refine ⟨c :: l, t, X, rfl, ?_, ht, splitLines_char c _ h1 h2 _ _ _ h⟩
          intro d hd
          simp only [List.mem_cons] at hd
          rcases hd with rfl | hd
          · exact ⟨h1, h2⟩
          · exact hl d hd

theorem textOf_cons (l t : List Char) (r) : textOf ((l, t) :: r) = l ++ t ++ textOf r := by
  simp [textOf]

theorem textOf_append (a b) : textOf (a ++ b) = textOf a ++ textOf b := by simp [textOf]

theorem Term.ne_nil {t X : List Char} (h : Term t X) : t ≠ [] := by
  rcases h with rfl | rfl | ⟨rfl, -⟩ <;> simp

theorem Term.length_pos {t X : List Char} (h : Term t X) : 0 < t.length := by
  rcases h with rfl | rfl | ⟨rfl, -⟩ <;> simp

/-- The lines make up the text. -/
theorem textOf_splitLines (s : List Char) : textOf (splitLines s) = s := by
  induction hn : s.length using Nat.strongRecOn generalizing s with
  | _ n ih =>
    rcases splitLines_cases s with ⟨_, h⟩ | ⟨l, t, X, rfl, hl, ht, h⟩
    · rw [h]; simp [textOf]
    · have := ht.length_pos
      rw [h, textOf_cons, ih X.length (by simp at hn; omega) X rfl]

theorem lineEnds_clean (off : Nat) (l X : List Char) (hl : Clean l) :
    lineEnds off (l ++ X) = lineEnds (off + size l) X := by
  induction l generalizing off with
  | nil => simp [size]
  | cons c l ih =>
    have hc := hl c (by simp)
    rw [List.cons_append, lineEnds.eq_def]
    simp only [hc.1, hc.2, if_false]
    rw [ih _ (fun c h => hl c (by simp [h]))]
    simp [size, Nat.add_assoc]

theorem lineEnds_term (off : Nat) (l t X : List Char) (hl : Clean l) (ht : Term t X) :
    lineEnds off (l ++ t ++ X) = (off + size l + size t) :: lineEnds (off + size l + size t) X := by
  rw [List.append_assoc, lineEnds_clean _ _ _ hl]
  generalize off + size l = o
  rcases ht with rfl | rfl | ⟨rfl, h⟩
  · rw [size_nl]; show lineEnds o ('\n' :: X) = _; rw [lineEnds.eq_def]; simp
  · rw [size_crlf]; simp [lineEnds]
  · rw [size_cr]
    show lineEnds o ('\r' :: X) = _
    rw [lineEnds.eq_def]
    simp only [show ('\r' = '\n') = False by simp, if_false, if_true]

/-- The line table in terms of the lines. -/
theorem lineEnds_getElem? (off : Nat) (s : List Char) (A) (l t : List Char) (B)
    (h : splitLines s = A ++ (l, t) :: B) :
    (A = [] ∨ (lineEnds off s)[A.length - 1]? = some (off + size (textOf A))) ∧
    (if B = [] then (lineEnds off s).length = A.length ∧ t = [] else
      (lineEnds off s)[A.length]? = some (off + size (textOf A) + size l + size t)) ∧
    (lineEnds off s).length + 1 = (splitLines s).length := by
  induction A generalizing off s with
  | nil =>
    refine ⟨.inl rfl, ?_⟩
    rcases splitLines_cases s with ⟨hc, h'⟩ | ⟨l', t', X, rfl, hl, ht, h'⟩
    · rw [h'] at h
      simp only [List.nil_append, List.cons.injEq, Prod.mk.injEq] at h
      obtain ⟨⟨rfl, rfl⟩, rfl⟩ := h
      have : lineEnds off s = [] := by
        have := lineEnds_clean off s [] hc
        rw [List.append_nil] at this
        rw [this]; simp [lineEnds]
      simp [this, h']
    · rw [h'] at h ⊢
      simp only [List.nil_append, List.cons.injEq, Prod.mk.injEq] at h
      obtain ⟨⟨rfl, rfl⟩, rfl⟩ := h
      rw [if_neg (splitLines_ne_nil X), lineEnds_term _ _ _ _ hl ht]
      constructor
      · simp [textOf, size]
      · cases hX : splitLines X with
        | nil => exact absurd hX (splitLines_ne_nil X)
        | cons y r =>
          have : ∀ (n : Nat) (off : Nat) (X : List Char), X.length = n →
              (lineEnds off X).length + 1 = (splitLines X).length := by
            intro n
            induction n using Nat.strongRecOn with
            | _ n ih =>
              intro off X hn
              rcases splitLines_cases X with ⟨hc, h'⟩ | ⟨l', t', X', rfl, hl, ht, h'⟩
              · have := lineEnds_clean off X [] hc
                rw [List.append_nil] at this
                rw [this, h']; simp [lineEnds]
              · have := ht.length_pos
                rw [lineEnds_term _ _ _ _ hl ht, h', List.length_cons, List.length_cons,
                  ih X'.length (by simp at hn; omega) _ _ rfl]
          have := this _ (off + size l' + size t') X rfl
          rw [hX] at this
          simp only [List.length_cons] at this ⊢
          omega
  | cons a A ih =>
    rcases splitLines_cases s with ⟨hc, h'⟩ | ⟨l', t', X, rfl, hl, ht, h'⟩
    · rw [h'] at h; simp at h
    · rw [h'] at h ⊢
      simp only [List.cons_append, List.cons.injEq] at h
      obtain ⟨rfl, h⟩ := h
      rw [lineEnds_term _ _ _ _ hl ht]
      obtain ⟨h1, h2, h3⟩ := ih (off + size l' + size t') X h
      refine ⟨.inr ?_, ?_, ?_⟩
      · rcases h1 with rfl | h1
        · simp [textOf, size_append]; omega
        · have hA : A.length ≠ 0 ∨ A = [] := by
            cases A <;> simp
          rcases hA with hA | rfl
          · simp only [List.length_cons, Nat.add_sub_cancel]
            rw [show A.length = (A.length - 1) + 1 by omega, List.getElem?_cons_succ, h1, textOf_cons]
            simp only [size_append]; congr 1; omega
          · simp [textOf, size_append]; omega
      · split
        · rename_i hB
          rw [if_pos hB] at h2
          exact ⟨by simp [h2.1], h2.2⟩
        · rename_i hB
          rw [if_neg hB] at h2
          rw [List.length_cons, List.getElem?_cons_succ, h2, textOf_cons]
          simp only [size_append]; congr 1; omega
      · simp only [List.length_cons]; omega

/-- Every line but the last has a terminator, the last has none. -/
theorem splitLines_wf (s : List Char) (A) (l t : List Char) (B) (h : splitLines s = A ++ (l, t) :: B) :
    Clean l ∧ (B = [] → t = []) ∧ (B ≠ [] → Term t (textOf B)) := by
  induction A generalizing s with
  | nil =>
    rcases splitLines_cases s with ⟨hc, h'⟩ | ⟨l', t', X, rfl, hl, ht, h'⟩
    · rw [h'] at h
      simp only [List.nil_append, List.cons.injEq, Prod.mk.injEq] at h
      obtain ⟨⟨rfl, rfl⟩, rfl⟩ := h
      exact ⟨hc, by simp, by simp⟩
    · rw [h'] at h
      simp only [List.nil_append, List.cons.injEq, Prod.mk.injEq] at h
      obtain ⟨⟨rfl, rfl⟩, rfl⟩ := h
      exact ⟨hl, fun h => absurd h (splitLines_ne_nil X), fun _ => by rwa [textOf_splitLines]⟩
  | cons a A ih =>
    rcases splitLines_cases s with ⟨hc, h'⟩ | ⟨l', t', X, rfl, hl, ht, h'⟩
    · rw [h'] at h; simp at h
    · rw [h'] at h
      simp only [List.cons_append, List.cons.injEq] at h
      exact ih X h.2

/-- Replacing what follows the first lines: the lines stay, except that a final `\r` can be
completed to `\r\n`. -/
theorem splitLines_prefix (s : List Char) (A R) (hR : R ≠ []) (h : splitLines s = A ++ R) (Y : List Char) :
    splitLines (textOf A ++ Y) = A ++ splitLines Y ∨
    ∃ A0 l Y', A = A0 ++ [(l, ['\r'])] ∧ Y = '\n' :: Y' ∧
      splitLines (textOf A ++ Y) = A0 ++ (l, ['\r', '\n']) :: splitLines Y' := by
  induction A generalizing s with
  | nil => left; simp [textOf]
  | cons a A ih =>
    obtain ⟨l, t⟩ := a
    rcases splitLines_cases s with ⟨hc, h'⟩ | ⟨l', t', X, rfl, hl, ht, h'⟩
    · rw [h'] at h
      simp only [List.cons_append, List.cons.injEq, Prod.mk.injEq] at h
      have := h.2
      simp [hR] at this
    · rw [h'] at h
      simp only [List.cons_append, List.cons.injEq, Prod.mk.injEq] at h
      obtain ⟨⟨rfl, rfl⟩, h⟩ := h
      by_cases hcr : t' = ['\r'] ∧ A = [] ∧ ∃ Y', Y = '\n' :: Y'
      · obtain ⟨rfl, rfl, Y', rfl⟩ := hcr
        right
        refine ⟨[], l', Y', rfl, rfl, ?_⟩
        have := splitLines_term l' ['\r', '\n'] Y' hl (.inr (.inl rfl))
        simpa [textOf] using this
      · have ht2 : Term t' (textOf A ++ Y) := by
          rcases ht with rfl | rfl | ⟨rfl, hX⟩
          · exact .inl rfl
          · exact .inr (.inl rfl)
          · refine .inr (.inr ⟨rfl, ?_⟩)
            intro Z hZ
            cases A with
            | nil =>
              simp only [textOf, List.map_nil, List.flatten_nil, List.nil_append] at hZ
              exact hcr ⟨rfl, rfl, Z, hZ⟩
            | cons b A =>
              obtain ⟨lb, tb⟩ := b
              have hwf := splitLines_wf X [] lb tb (A ++ R) (by simpa using h)
              have hne : A ++ R ≠ [] := by simp [hR]
              have htb := (hwf.2.2 hne).ne_nil
              have hXt := textOf_splitLines X
              rw [h] at hXt
              rw [List.cons_append, textOf_cons] at hXt
              rw [textOf_cons] at hZ
              cases hlb : lb ++ tb with
              | nil => simp at hlb; exact htb hlb.2
              | cons c w =>
                rw [hlb] at hXt hZ
                simp only [List.cons_append, List.cons.injEq] at hXt hZ
                exact hX _ (by rw [← hXt, hZ.1])
        rw [textOf_cons, List.append_assoc (l' ++ t'), splitLines_term l' t' _ hl ht2]
        rcases ih X h with h2 | ⟨A0, l2, Y', rfl, rfl, h2⟩
        · left; rw [h2]; rfl
        · right
          exact ⟨(l', t') :: A0, l2, Y', rfl, rfl, by rw [h2]; rfl⟩

end Verif.Lines
