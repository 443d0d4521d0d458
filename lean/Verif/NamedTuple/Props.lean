import Verif.NamedTuple.Spec

/-!
# Named tuples: the fields are those of Python

C226 to C230.
-/

set_option linter.unusedVariables false
set_option linter.unusedSimpArgs false

namespace Verif.NamedTuple

open Spec

/-- Unicode without letters outside of ASCII, for examples. -/
def plain : Unicode := ⟨fun _ => false, fun _ => false, fun _ => false, fun _ => false⟩

/-! ## C226: names in a text -/

theorem splitParts_ne (s : Str) : splitParts s ≠ [] := by
  cases s with
  | nil => simp [splitParts]
  | cons c cs =>
    unfold splitParts
    split
    · simp
    · split <;> simp

/-- Only commas and blanks separate. -/
def OnlyBlanks (s : Str) : Prop := ∀ c ∈ s, Space c → c = ' '

theorem sep_iff {c : Char} (h : Space c → c = ' ') : Sep c ↔ (c == ',' || c == ' ') = true := by
  simp only [Spec.Sep, Bool.or_eq_true, beq_iff_eq]
  constructor
  · rintro (h1 | h1)
    · exact Or.inl h1
    · exact Or.inr (h h1)
  · rintro (h1 | h1)
    · exact Or.inl h1
    · exact Or.inr (Or.inl h1)

/-- What `splitParts` returns: the first part has no separator, and what comes after it begins with one. -/
theorem splitParts_spec (s : Str) (h : OnlyBlanks s) :
    ∃ p rest, splitParts s = p :: rest ∧ (∀ c ∈ p, ¬ Sep c) ∧
      ((rest = [] ∧ s = p) ∨ ∃ c t, Sep c ∧ c.utf8Size = 1 ∧ s = p ++ c :: t ∧ rest = splitParts t ∧ OnlyBlanks t) := by
  induction s with
  | nil => exact ⟨[], [], rfl, by simp, Or.inl ⟨rfl, rfl⟩⟩
  | cons c s ih =>
    have hc := sep_iff (h c (by simp))
    have hs : OnlyBlanks s := fun d hd => h d (by simp [hd])
    by_cases hsep : (c == ',' || c == ' ') = true
    · refine ⟨[], splitParts s, by simp [splitParts, hsep], by simp, Or.inr ⟨c, s, hc.mpr hsep, ?_, rfl, rfl, hs⟩⟩
      simp only [Bool.or_eq_true, beq_iff_eq] at hsep
      rcases hsep with rfl | rfl <;> decide
    · obtain ⟨p, rest, h1, h2, h3⟩ := ih hs
      refine ⟨c :: p, rest, by simp [splitParts, hsep, h1], ?_, ?_⟩
      · intro d hd
        rcases List.mem_cons.mp hd with rfl | hd
        · exact fun hx => hsep (hc.mp hx)
        · exact h2 d hd
      · rcases h3 with ⟨h3, rfl⟩ | ⟨d, t, h3, h4, rfl, h5, h6⟩
        · exact Or.inl ⟨h3, rfl⟩
        · exact Or.inr ⟨d, t, h3, h4, rfl, h5, h6⟩

theorem bytes_append (a b : Str) : bytes (a ++ b) = bytes a + bytes b := by
  induction a with
  | nil => simp [bytes]
  | cons c a ih => simp only [List.cons_append, bytes, ih]; omega

theorem names_aux (text : Str) (h : OnlyBlanks text) (start : Nat) :
    Words text ((namesOf start text).map (·.1)) ∧
    ∀ x ∈ namesOf start text, ∃ pre post, text = pre ++ x.1 ++ post ∧ x.2.1 = start + bytes pre ∧
      x.2.2 = start + bytes (pre ++ x.1) := by
  obtain ⟨n, hn⟩ : ∃ n, n = text.length := ⟨_, rfl⟩
  induction n using Nat.strongRecOn generalizing text start with
  | _ n ih =>
    obtain ⟨p, rest, h1, h2, h3⟩ := splitParts_spec text h
    rcases h3 with ⟨rfl, rfl⟩ | ⟨c, t, hc, hsz, rfl, rfl, ht⟩
    · have e : namesOf start text = if text.isEmpty then [] else [(text, start, start + bytes text)] := by
        unfold namesOf
        rw [h1]
        simp only [slices]
      cases text with
      | nil => rw [e]; simpa using Words.nil
      | cons d ds =>
        rw [e]
        simp only [List.isEmpty_cons, Bool.false_eq_true, if_false, List.map_cons, List.map_nil]
        refine ⟨Words.last (by simp) h2, ?_⟩
        intro x hx
        simp only [List.mem_cons, List.not_mem_nil, or_false] at hx
        subst hx
        exact ⟨[], [], by simp, by simp [bytes], by simp [bytes]⟩
    · have e : namesOf start (p ++ c :: t) =
          if p.isEmpty then namesOf (start + bytes p + 1) t
          else (p, start, start + bytes p) :: namesOf (start + bytes p + 1) t := by
        unfold namesOf
        rw [h1]
        simp only [slices]
      obtain ⟨i1, i2⟩ := ih t.length (by rw [hn]; simp; omega) t ht (start + bytes p + 1) rfl
      have lift : ∀ x ∈ namesOf (start + bytes p + 1) t, ∃ pre post, p ++ c :: t = pre ++ x.1 ++ post ∧
          x.2.1 = start + bytes pre ∧ x.2.2 = start + bytes (pre ++ x.1) := by
        intro x hx
        obtain ⟨pre, post, g1, g2, g3⟩ := i2 x hx
        refine ⟨p ++ c :: pre, post, by rw [g1]; simp, ?_, ?_⟩
        · rw [g2, bytes_append, bytes, hsz]; omega
        · have : p ++ c :: pre ++ x.1 = p ++ c :: (pre ++ x.1) := by simp
          rw [this, g3, bytes_append p, bytes, hsz]; omega
      cases p with
      | nil =>
        rw [e]
        exact ⟨Words.skip hc i1, lift⟩
      | cons d ds =>
        rw [e]
        simp only [List.isEmpty_cons, Bool.false_eq_true, if_false, List.map_cons]
        refine ⟨Words.word (by simp) h2 hc i1, ?_⟩
        intro x hx
        rcases List.mem_cons.mp hx with rfl | hx
        · exact ⟨[], c :: t, by simp, by simp [bytes], by simp⟩
        · exact lift x hx

theorem bytes_eq (s : Str) : bytes s = size s := by
  induction s with
  | nil => rfl
  | cons c s ih => simp [bytes, size, ih]

/-- C226: the names in the second argument are the words of the text as Python splits it, and each name is found in the
source where its range says.  Missing: white space other than blanks. -/
theorem names_partial (text : Str) (h : OnlyBlanks text) (start : Nat) :
    Words text ((namesOf start text).map (·.1)) ∧
    ∀ x ∈ namesOf start text, ∃ pre post, text = pre ++ x.1 ++ post ∧ x.2.1 = start + size pre ∧
      x.2.2 = start + size (pre ++ x.1) := by
  simpa only [bytes_eq] using names_aux text h start

example : OnlyBlanks "x, y  zé".toList ∧
    namesOf 10 "x, y  zé".toList = [("x".toList, 10, 11), ("y".toList, 13, 14), ("zé".toList, 16, 19)] := by
  refine ⟨?_, by decide +kernel⟩
  intro c hc
  have : c = 'x' ∨ c = ',' ∨ c = ' ' ∨ c = 'y' ∨ c = 'z' ∨ c = 'é' := by
    simp at hc; grind
  rcases this with rfl | rfl | rfl | rfl | rfl | rfl <;> (unfold Space; decide)

theorem words_sep_free {s : Str} {ws : List Str} (h : Words s ws) : ∀ w ∈ ws, ∀ c ∈ w, ¬ Sep c := by
  induction h with
  | nil => simp
  | skip _ _ ih => exact ih
  | last h1 h2 => intro w hw; simp at hw; subst hw; exact h2
  | word h1 h2 h3 h4 ih =>
    intro w hw
    rcases List.mem_cons.mp hw with rfl | hw
    · exact h2
    · exact ih w hw

/-- `namedtuple("P", "x\ty")` has the fields `x` and `y`, but the whole text is taken for one name, and an error is
reported for it.  The same is true of a text with several lines. -/
theorem names_tab_violation :
    Words ['x', '\t', 'y'] [['x'], ['y']] ∧
    (namesOf 0 ['x', '\t', 'y']).map (·.1) = [['x', '\t', 'y']] ∧
    (addFields plain false ((namesOf 0 ['x', '\t', 'y']).map (·.1))).2 = [.invalid] := by
  refine ⟨?_, by decide +kernel, by decide +kernel⟩
  have h1 : ∀ c ∈ (['x'] : Str), ¬ Sep c := by simp [Spec.Sep, Space]
  have h2 : ∀ c ∈ (['y'] : Str), ¬ Sep c := by simp [Spec.Sep, Space]
  exact Words.word (w := ['x']) (by simp) h1 (Or.inr (Or.inr (Or.inl (by decide)))) (Words.last (by simp) h2)

/-! ## C227: names that are refused -/

theorem letter_iff (u : Unicode) {c : Char} (h : c.toNat < 128) :
    (isAlphabetic u c || c == '_') = true ↔ Letter c := by
  simp only [isAlphabetic, h, if_true, asciiLetter, Letter, Bool.or_eq_true, Bool.and_eq_true, decide_eq_true_eq,
    beq_iff_eq]
  constructor
  · rintro ((h1 | h1) | h1)
    · exact Or.inr (Or.inl h1)
    · exact Or.inr (Or.inr h1)
    · exact Or.inl h1
  · rintro (h1 | h1 | h1)
    · exact Or.inr h1
    · exact Or.inl (Or.inl h1)
    · exact Or.inl (Or.inr h1)

theorem letterDigit_iff (u : Unicode) {c : Char} (h : c.toNat < 128) :
    (isAlphanumeric u c || c == '_') = true ↔ Letter c ∨ Digit c := by
  simp only [isAlphanumeric, h, if_true, asciiLetter, asciiDigit, Letter, Digit, Bool.or_eq_true, Bool.and_eq_true,
    decide_eq_true_eq, beq_iff_eq]
  constructor
  · rintro (((h1 | h1) | h1) | h1)
    · exact Or.inl (Or.inr (Or.inl h1))
    · exact Or.inl (Or.inr (Or.inr h1))
    · exact Or.inr h1
    · exact Or.inl (Or.inl h1)
  · rintro ((h1 | h1 | h1) | h1)
    · exact Or.inr h1
    · exact Or.inl (Or.inl (Or.inl h1))
    · exact Or.inl (Or.inl (Or.inr h1))
    · exact Or.inl (Or.inr h1)

theorem isIdentifier_iff (u : Unicode) {s : Str} (h : Ascii s) : isIdentifier u s = true ↔ Ident s := by
  cases s with
  | nil =>
    simp only [isIdentifier, Bool.false_eq_true, false_iff]
    rintro ⟨c, cs, h, -⟩
    simp at h
  | cons c cs =>
    simp only [isIdentifier, Bool.and_eq_true, List.all_eq_true, letter_iff u (h c (by simp))]
    constructor
    · rintro ⟨h1, h2⟩
      exact ⟨c, cs, rfl, h1, fun d hd => (letterDigit_iff u (h d (by simp [hd]))).mp (h2 d hd)⟩
    · rintro ⟨c', cs', he, h1, h2⟩
      simp only [List.cons.injEq] at he
      obtain ⟨rfl, rfl⟩ := he
      exact ⟨h1, fun d hd => (letterDigit_iff u (h d (by simp [hd]))).mpr (h2 d hd)⟩

theorem words_of_grammar : ∀ w ∈ grammarWords, w ∈ kwlist ∨ w = "match".toList ∨ w = "case".toList ∨
    w = "type".toList ∨ w = ['_'] := by decide +kernel

theorem kwlist_in_grammar : ∀ w ∈ kwlist, w ∈ grammarWords := by decide +kernel

/-- A name that Python takes for a field. -/
def Good (s : Str) : Prop := Ident s ∧ s ∉ kwlist ∧ ¬ ∃ t, s = '_' :: t

theorem prefix_iff (s : Str) : ['_'].isPrefixOf s = true ↔ ∃ t, s = '_' :: t := by
  cases s with
  | nil => simp
  | cons c cs =>
    simp only [List.isPrefixOf_cons_cons, Bool.and_eq_true, beq_iff_eq]
    constructor
    · rintro ⟨rfl, -⟩; exact ⟨cs, rfl⟩
    · rintro ⟨t, h⟩
      simp only [List.cons.injEq] at h
      exact ⟨h.1.symm, by simp⟩

theorem issueOf_none (u : Unicode) (fields : List Field) {s : Str} (ha : Ascii s) (hs : ¬ Soft s) :
    issueOf u fields s = none ↔ s ∉ fields.map (·.name) ∧ Good s := by
  have hd : fields.any (fun f => f.name == s) = true ↔ s ∈ fields.map (·.name) := by
    simp only [List.any_eq_true, beq_iff_eq, List.mem_map]
  have hk : keywordsContain s = true → s ∈ kwlist ∨ ∃ t, s = '_' :: t := by
    intro h
    have := words_of_grammar s (by simpa [keywordsContain] using h)
    rcases this with h | h | h | h | h
    · exact Or.inl h
    · exact absurd (Or.inl h) hs
    · exact absurd (Or.inr (Or.inl h)) hs
    · exact absurd (Or.inr (Or.inr h)) hs
    · exact Or.inr ⟨[], h⟩
  have hk' : s ∈ kwlist → keywordsContain s = true := by
    intro h; simpa [keywordsContain] using kwlist_in_grammar s h
  have hi := isIdentifier_iff u ha
  have hp := prefix_iff s
  unfold issueOf Good
  constructor
  · intro h
    split at h
    · simp at h
    · rename_i h1
      split at h
      · simp at h
      · rename_i h2
        split at h
        · simp at h
        · rename_i h3
          split at h
          · simp at h
          · rename_i h4
            refine ⟨fun hx => h1 (hd.mpr hx), hi.mp (by simpa using h2), fun hx => h4 (hk' hx), fun hx => h3 (hp.mpr hx)⟩
  · rintro ⟨g1, g2, g3, g4⟩
    rw [if_neg (fun hx => g1 (hd.mp hx)), if_neg (by simpa using hi.mpr g2), if_neg (fun hx => g4 (hp.mp hx)), if_neg]
    intro hx
    rcases hk hx with h | h
    · exact g3 h
    · exact g4 h

theorem addFields_snoc (u : Unicode) (rename : Bool) (names : List Str) (s : Str) :
    addFields u rename (names ++ [s]) = addField u rename (addFields u rename names) s := by
  simp [addFields, List.foldl_append]

theorem snoc_induction {P : List Str → Prop} (h0 : P []) (h1 : ∀ l a, P l → P (l ++ [a])) : ∀ l, P l := by
  intro l
  have : ∀ l : List Str, P l.reverse := by
    intro l
    induction l with
    | nil => exact h0
    | cons a l ih => rw [List.reverse_cons]; exact h1 _ _ ih
  have := this l.reverse
  simpa using this

theorem bad_iff {names : List Str} {i : Nat} {s : Str} : Bad names i s ↔ ¬ (s ∉ names.take i ∧ Good s) := by
  unfold Bad Good
  constructor
  · rintro (h | h | h | h) ⟨g1, g2, g3, g4⟩
    · exact h g2
    · exact g3 h
    · exact g4 h
    · exact g1 h
  · intro h
    by_cases h1 : Ident s
    · by_cases h2 : s ∈ kwlist
      · exact Or.inr (Or.inl h2)
      · by_cases h3 : ∃ t, s = '_' :: t
        · exact Or.inr (Or.inr (Or.inl h3))
        · by_cases h4 : s ∈ names.take i
          · exact Or.inr (Or.inr (Or.inr h4))
          · exact absurd ⟨h4, h1, h2, h3⟩ h
    · exact Or.inl h1

theorem placeholder_bad (n : Nat) : ¬ Good (placeholder n) := fun h => h.2.2 ⟨_, rfl⟩

theorem fields_spec (u : Unicode) (rename : Bool) (names : List Str) (ha : ∀ s ∈ names, Ascii s)
    (hs : ∀ s ∈ names, ¬ Soft s) :
    (addFields u rename names).1.length = names.length ∧
    (∀ s, Good s → (s ∈ (addFields u rename names).1.map (·.name) ↔ s ∈ names)) ∧
    (∀ i s, names[i]? = some s →
      (Bad names i s → ((addFields u rename names).1.map (·.name))[i]? = some (placeholder i)) ∧
      (¬ Bad names i s → ((addFields u rename names).1.map (·.name))[i]? = some s)) ∧
    ((addFields u rename names).2 = [] ↔ rename = true ∨ ∀ i s, names[i]? = some s → ¬ Bad names i s) := by
  induction names using snoc_induction with
  | h0 => refine ⟨rfl, by simp [addFields], by simp, by simp [addFields]⟩
  | h1 names x ih =>
    obtain ⟨i1, i2, i3, i4⟩ := ih (fun s h => ha s (by simp [h])) (fun s h => hs s (by simp [h]))
    have hx := issueOf_none u (addFields u rename names).1 (ha x (by simp)) (hs x (by simp))
    rw [addFields_snoc]
    generalize addFields u rename names = st at i1 i2 i3 i4 hx
    obtain ⟨fs, is⟩ := st
    simp only at i1 i2 i3 i4 hx
    have take_eq : ∀ i, i ≤ names.length → (names ++ [x]).take i = names.take i := by
      intro i hi
      rw [List.take_append_of_le_length hi]
    have bad_old : ∀ i s, i < names.length → (Bad (names ++ [x]) i s ↔ Bad names i s) := by
      intro i s hi
      unfold Bad
      rw [take_eq i (by omega)]
    have bad_new : Bad (names ++ [x]) names.length x ↔ ¬ (x ∉ fs.map (·.name) ∧ Good x) := by
      rw [bad_iff, take_eq _ (Nat.le_refl _), List.take_length]
      constructor
      · rintro h ⟨h1, h2⟩
        exact h ⟨fun hm => h1 ((i2 x h2).mpr hm), h2⟩
      · rintro h ⟨h1, h2⟩
        exact h ⟨fun hm => h1 ((i2 x h2).mp hm), h2⟩
    have old : ∀ (i : Nat) (s : Str) (nm : Str), (names ++ [x])[i]? = some s → i < names.length →
        (Bad (names ++ [x]) i s → (fs.map (·.name) ++ [nm])[i]? = some (placeholder i)) ∧
        (¬ Bad (names ++ [x]) i s → (fs.map (·.name) ++ [nm])[i]? = some s) := by
      intro i s nm hi hlt
      rw [List.getElem?_append_left hlt] at hi
      rw [bad_old i s hlt, List.getElem?_append_left (by simp; omega)]
      exact i3 i s hi
    have last : ∀ (i : Nat) (s : Str), (names ++ [x])[i]? = some s → ¬ i < names.length → i = names.length ∧ s = x := by
      intro i s hi hlt
      rw [List.getElem?_append_right (by omega)] at hi
      have hz : i - names.length = 0 := by
        rcases Nat.eq_zero_or_pos (i - names.length) with h | h
        · exact h
        · rw [List.getElem?_eq_none (by simp; omega)] at hi; simp at hi
      rw [hz] at hi
      simp at hi
      exact ⟨by omega, hi.symm⟩
    cases hiss : issueOf u fs x with
    | none =>
      obtain ⟨g1, g2⟩ := hx.mp hiss
      have nb : ¬ Bad (names ++ [x]) names.length x := by rw [bad_new]; exact fun h => h ⟨g1, g2⟩
      simp only [addField, hiss, List.map_append, List.map_cons, List.map_nil]
      refine ⟨by simp [i1], ?_, ?_, ?_⟩
      · intro s hg
        simp only [List.mem_append, i2 s hg]
      · intro i s hi
        by_cases hlt : i < names.length
        · exact old i s x hi hlt
        · obtain ⟨rfl, rfl⟩ := last i s hi hlt
          refine ⟨fun h => absurd h nb, fun _ => ?_⟩
          rw [List.getElem?_append_right (by simp [i1])]
          simp [i1]
      · rw [i4]
        constructor
        · rintro (h | h)
          · exact Or.inl h
          · right
            intro i s hi
            by_cases hlt : i < names.length
            · rw [bad_old i s hlt]
              rw [List.getElem?_append_left hlt] at hi
              exact h i s hi
            · obtain ⟨rfl, rfl⟩ := last i s hi hlt
              exact nb
        · rintro (h | h)
          · exact Or.inl h
          · right
            intro i s hi
            have hlt : i < names.length := (List.getElem?_eq_some_iff.mp hi).1
            rw [← bad_old i s hlt]
            exact h i s (by rw [List.getElem?_append_left hlt]; exact hi)
    | some iss =>
      have hb : Bad (names ++ [x]) names.length x := by
        rw [bad_new]
        intro h
        rw [hx.mpr h] at hiss
        simp at hiss
      simp only [addField, hiss, List.map_append, List.map_cons, List.map_nil]
      refine ⟨by simp [i1], ?_, ?_, ?_⟩
      · intro s hg
        simp only [List.mem_append, i2 s hg, List.mem_cons, List.not_mem_nil, or_false]
        constructor
        · rintro (h | h)
          · exact Or.inl h
          · exact absurd hg (by rw [h]; exact placeholder_bad _)
        · rintro (h | h)
          · exact Or.inl h
          · subst h
            left
            rw [← i2 s hg]
            by_cases hm : s ∈ fs.map (·.name)
            · exact hm
            · exact absurd ⟨hm, hg⟩ (bad_new.mp hb)
      · intro i s hi
        by_cases hlt : i < names.length
        · exact old i s _ hi hlt
        · obtain ⟨rfl, rfl⟩ := last i s hi hlt
          refine ⟨fun _ => ?_, fun h => absurd hb h⟩
          rw [List.getElem?_append_right (by simp [i1])]
          simp [i1]
      · cases rename with
        | true =>
          have := i4.mpr (Or.inl rfl)
          simp [this]
        | false =>
          simp only [Bool.false_eq_true, if_false, false_or]
          constructor
          · intro h; simp at h
          · intro h
            exact absurd hb (h names.length x (by simp))

/-- C227: an error is reported for a name if and only if Python raises a `ValueError`, and if not, the fields have the
names of the program.  Missing: names with characters that are not ASCII, and the soft keywords. -/
theorem refused_partial (u : Unicode) (names : List Str) (ha : ∀ s ∈ names, Ascii s) (hs : ∀ s ∈ names, ¬ Soft s) :
    ((addFields u false names).2 = [] ↔ ∀ i s, names[i]? = some s → ¬ Bad names i s) ∧
    ((∀ i s, names[i]? = some s → ¬ Bad names i s) → (addFields u false names).1.map (·.name) = names) := by
  obtain ⟨h1, -, h3, h4⟩ := fields_spec u false names ha hs
  refine ⟨by rw [h4]; simp, ?_⟩
  intro h
  apply List.ext_getElem?
  intro i
  cases hi : names[i]? with
  | none =>
    rw [List.getElem?_eq_none_iff] at hi ⊢
    simp; omega
  | some s => exact (h3 i s hi).2 (h i s hi)

theorem good_x : Good ['x'] := by
  refine ⟨⟨'x', [], rfl, Or.inr (Or.inl (by decide)), by simp⟩, by decide +kernel, ?_⟩
  rintro ⟨t, h⟩
  simp at h

example : (∀ s ∈ (["x".toList, "y".toList] : List Str), Ascii s) ∧
    addFields plain false ["x".toList, "y".toList] = ([⟨['x'], false⟩, ⟨['y'], false⟩], []) ∧
    (addFields plain false ["x".toList, "if".toList, "x".toList, "_z".toList, "1".toList]).2 =
      [.keyword, .duplicate, .underscore, .invalid] := by
  refine ⟨?_, by decide +kernel, by decide +kernel⟩
  intro s hs c hc
  have : c = 'x' ∨ c = 'y' := by
    simp at hs; rcases hs with rfl | rfl <;> simp at hc <;> simp [hc]
  rcases this with rfl | rfl <;> decide

/-- `namedtuple("Token", "type value")` is correct in Python, because `type` is only a soft keyword.  An error is
reported for it, and the field gets the name `_0`, so that `token.type` does not exist.  The same is true of `match` and
`case`. -/
theorem soft_keyword_violation :
    ¬ Bad ["type".toList, "value".toList] 0 "type".toList ∧
    addFields plain false ["type".toList, "value".toList] =
      ([⟨"_0".toList, false⟩, ⟨"value".toList, false⟩], [.keyword]) := by
  refine ⟨?_, by decide +kernel⟩
  rw [bad_iff]
  intro h
  apply h
  refine ⟨by simp, ⟨'t', ['y', 'p', 'e'], by decide +kernel, Or.inr (Or.inl (by decide)), ?_⟩, by decide +kernel, ?_⟩
  · intro d hd
    have : d = 'y' ∨ d = 'p' ∨ d = 'e' := by simpa using hd
    rcases this with rfl | rfl | rfl <;> exact Or.inl (Or.inr (Or.inl (by decide)))
  · rintro ⟨t, h⟩
    have h' : ['t', 'y', 'p', 'e'] = '_' :: t := h
    simp at h'

/-! ## C228: rename -/

/-- C228: with `rename=True` there is never an error, and the fields have the names that Python gives them: the names of
the program, and `_i` for those at index `i` that cannot be used.  Missing: as in C227. -/
theorem rename_partial (u : Unicode) (names : List Str) (ha : ∀ s ∈ names, Ascii s) (hs : ∀ s ∈ names, ¬ Soft s) :
    (addFields u true names).2 = [] ∧ (addFields u true names).1.length = names.length ∧
    ∀ i s, names[i]? = some s →
      (Bad names i s → ((addFields u true names).1.map (·.name))[i]? = some ('_' :: (Nat.repr i).toList)) ∧
      (¬ Bad names i s → ((addFields u true names).1.map (·.name))[i]? = some s) := by
  obtain ⟨h1, -, h3, h4⟩ := fields_spec u true names ha hs
  exact ⟨h4.mpr (Or.inl rfl), h1, h3⟩

example : ((addFields plain true ["x".toList, "def".toList, "x".toList, "_1".toList]).1.map (·.name)) =
    ["x".toList, "_1".toList, "_2".toList, "_3".toList] := by decide +kernel

theorem placeholder_inj {m n : Nat} (h : placeholder m = placeholder n) : m = n := by
  simp only [placeholder, List.cons.injEq, true_and, Nat.toList_repr] at h
  have := congrArg (fun l => Nat.ofDigitChars 10 l 0) h
  simpa [Nat.ofDigitChars_ten_toDigits] using this

/-- C228: whatever the names are, with or without `rename`, the fields have different names. -/
theorem fields_distinct (u : Unicode) (rename : Bool) (names : List Str) :
    ((addFields u rename names).1.map (·.name)).Nodup := by
  have gen : ∀ names : List Str, ((addFields u rename names).1.map (·.name)).Nodup ∧
      ∀ s ∈ (addFields u rename names).1.map (·.name),
        (∃ i, i < (addFields u rename names).1.length ∧ s = placeholder i) ∨ ¬ ∃ t, s = '_' :: t := by
    intro names
    induction names using snoc_induction with
    | h0 => simp [addFields]
    | h1 names x ih =>
      rw [addFields_snoc]
      generalize addFields u rename names = st at ih
      obtain ⟨fs, is⟩ := st
      obtain ⟨h1, h2⟩ := ih
      simp only at h1 h2
      cases hiss : issueOf u fs x with
      | none =>
        simp only [addField, hiss, List.map_append, List.map_cons, List.map_nil]
        have hdup : x ∉ fs.map (·.name) ∧ ¬ ∃ t, x = '_' :: t := by
          unfold issueOf at hiss
          split at hiss
          · simp at hiss
          · rename_i g1
            split at hiss
            · simp at hiss
            · split at hiss
              · simp at hiss
              · rename_i g3
                refine ⟨fun hx => g1 ?_, fun hx => g3 ((prefix_iff x).mpr hx)⟩
                simpa only [List.any_eq_true, beq_iff_eq, List.mem_map] using hx
        refine ⟨?_, ?_⟩
        · rw [List.nodup_append]
          refine ⟨h1, by simp, ?_⟩
          intro a ha b hb
          simp only [List.mem_cons, List.not_mem_nil, or_false] at hb
          subst hb
          exact fun hab => hdup.1 (hab ▸ ha)
        · intro s hs
          rcases List.mem_append.mp hs with hs | hs
          · rcases h2 s hs with ⟨i, hi, he⟩ | h
            · exact Or.inl ⟨i, by simp; omega, he⟩
            · exact Or.inr h
          · simp only [List.mem_cons, List.not_mem_nil, or_false] at hs
            subst hs
            exact Or.inr hdup.2
      | some iss =>
        simp only [addField, hiss, List.map_append, List.map_cons, List.map_nil]
        refine ⟨?_, ?_⟩
        · rw [List.nodup_append]
          refine ⟨h1, by simp, ?_⟩
          intro a ha b hb
          simp only [List.mem_cons, List.not_mem_nil, or_false] at hb
          subst hb
          rintro rfl
          rcases h2 _ ha with ⟨i, hi, he⟩ | h
          · have := placeholder_inj he
            omega
          · exact h ⟨_, rfl⟩
        · intro s hs
          rcases List.mem_append.mp hs with hs | hs
          · rcases h2 s hs with ⟨i, hi, he⟩ | h
            · exact Or.inl ⟨i, by simp; omega, he⟩
            · exact Or.inr h
          · simp only [List.mem_cons, List.not_mem_nil, or_false] at hs
            subst hs
            exact Or.inl ⟨fs.length, by simp, rfl⟩
  exact (gen names).1

/-- With `rename=True`, Python keeps the field `type`, but here it becomes `_0`. -/
theorem rename_soft_violation :
    ¬ Bad ["type".toList, "value".toList] 0 "type".toList ∧
    (addFields plain true ["type".toList, "value".toList]).1.map (·.name) = ["_0".toList, "value".toList] :=
  ⟨soft_keyword_violation.1, by decide +kernel⟩

/-! ## C229: defaults and options -/

theorem markFrom_length (n : Nat) (fs : List Field) : (markFrom n fs).length = fs.length := by
  induction fs generalizing n with
  | nil => cases n <;> rfl
  | cons f fs ih => cases n <;> simp [markFrom, ih]

theorem markFrom_get (n : Nat) (fs : List Field) (i : Nat) (f : Field) (h : fs[i]? = some f) :
    (markFrom n fs)[i]? = some (if n ≤ i then { f with hasDefault := true } else f) := by
  induction fs generalizing n i with
  | nil => simp at h
  | cons g gs ih =>
    cases i with
    | zero =>
      simp only [List.getElem?_cons_zero, Option.some.injEq] at h
      subst h
      cases n <;> simp [markFrom]
    | succ i =>
      simp only [List.getElem?_cons_succ] at h
      cases n with
      | zero => simp [markFrom, ih 0 i h]
      | succ n => simp [markFrom, ih n i h]

theorem applyDefaults_some (fields : List Field) (count : Nat) : applyDefaults fields (some count) =
    if count > fields.length then (markFrom 0 fields, true) else (markFrom (fields.length - count) fields, false) := rfl

/-- C229, defaults: there is an error if and only if there are more defaults than fields, which is when Python raises a
`TypeError`.  If not, the last fields have defaults, as many as there are defaults, and no name changes. -/
theorem defaults_right (fields : List Field) (count : Nat) (h0 : ∀ f ∈ fields, f.hasDefault = false) :
    ((applyDefaults fields (some count)).2 = true ↔ count > fields.length) ∧
    (applyDefaults fields (some count)).1.map (·.name) = fields.map (·.name) ∧
    (count ≤ fields.length → ∀ i f, (applyDefaults fields (some count)).1[i]? = some f →
      (f.hasDefault = true ↔ fields.length ≤ i + count)) ∧
    applyDefaults fields none = (fields, false) := by
  refine ⟨?_, ?_, ?_, rfl⟩
  · rw [applyDefaults_some]
    split
    · rename_i h; simpa using h
    · rename_i h; simpa using h
  · apply List.ext_getElem?
    intro i
    have gen : ∀ n, (((markFrom n fields).map (·.name))[i]? = (fields.map (·.name))[i]?) := by
      intro n
      cases hi : fields[i]? with
      | none =>
        rw [List.getElem?_eq_none (by rw [List.getElem?_eq_none_iff] at hi; simp [markFrom_length]; omega),
          List.getElem?_eq_none (by rw [List.getElem?_eq_none_iff] at hi; simp; omega)]
      | some f =>
        simp only [List.getElem?_map, markFrom_get n fields i f hi, hi]
        split <;> rfl
    rw [applyDefaults_some]
    split <;> exact gen _
  · intro hle i f hf
    rw [applyDefaults_some, if_neg (by omega)] at hf
    have hi : i < fields.length := by
      have := (List.getElem?_eq_some_iff.mp hf).1
      rw [markFrom_length] at this
      exact this
    have hg : fields[i]? = some fields[i] := List.getElem?_eq_getElem hi
    rw [markFrom_get _ _ _ _ hg] at hf
    simp only [Option.some.injEq] at hf
    subst hf
    have hf0 := h0 fields[i] (List.getElem_mem hi)
    split
    · simp; omega
    · rename_i hn
      rw [hf0]
      simp; omega

example : applyDefaults [⟨['x'], false⟩, ⟨['y'], false⟩] (some 1) = ([⟨['x'], false⟩, ⟨['y'], true⟩], false) := by
  decide +kernel

/-- What the arguments mean: the last `rename` and the last `defaults`. -/
def lastRename : List Opt → Bool → Bool
  | [], b => b
  | .rename (some v) :: rest, _ => lastRename rest v
  | _ :: rest, b => lastRename rest b

def lastDefaults : List Opt → Option Nat → Option Nat
  | [], n => n
  | .defaults (some v) :: rest, _ => lastDefaults rest (some v)
  | _ :: rest, n => lastDefaults rest n

theorem readOpts_issues (opts : List Opt) (o : Opts) (h : (readOpts o opts).issues = []) :
    o.issues = [] ∧ (∀ x ∈ opts, (∃ n, x = .defaults (some n)) ∨ ∃ b, x = .rename (some b)) ∧
    (readOpts o opts).stop = o.stop ∧ (readOpts o opts).rename = lastRename opts o.rename ∧
    (readOpts o opts).defaults = lastDefaults opts o.defaults := by
  induction opts generalizing o with
  | nil => exact ⟨h, by simp, rfl, rfl, rfl⟩
  | cons x rest ih =>
    cases x with
    | defaults c =>
      cases c with
      | none => simp [readOpts] at h
      | some n =>
        simp only [readOpts] at h ⊢
        obtain ⟨h1, h2, h3, h4, h5⟩ := ih _ h
        refine ⟨h1, ?_, h3, h4, h5⟩
        intro y hy
        rcases List.mem_cons.mp hy with rfl | hy
        · exact Or.inl ⟨n, rfl⟩
        · exact h2 y hy
    | rename v =>
      cases v with
      | none =>
        simp only [readOpts] at h
        have := (ih _ h).1
        simp at this
      | some b =>
        simp only [readOpts] at h ⊢
        obtain ⟨h1, h2, h3, h4, h5⟩ := ih _ h
        refine ⟨h1, ?_, h3, h4, h5⟩
        intro y hy
        rcases List.mem_cons.mp hy with rfl | hy
        · exact Or.inr ⟨b, rfl⟩
        · exact h2 y hy
    | keyword n =>
      simp only [readOpts] at h
      have := (ih _ h).1
      simp at this
    | positional =>
      simp only [readOpts] at h
      have := (ih _ h).1
      simp at this

/-- C229, options: if there is no error for the arguments after the names, Python accepts them, and `rename` and
`defaults` have the values of the program.  Missing: that Python accepts an argument only if there is no error. -/
theorem options_partial (opts : List Opt) (h : (readOpts ⟨false, none, [], false⟩ opts).issues = []) :
    (∀ x ∈ opts, Accepts x) ∧ (readOpts ⟨false, none, [], false⟩ opts).stop = false ∧
    (∀ b, Opt.rename (some b) ∈ opts → opts.countP (fun x => match x with | .rename _ => true | _ => false) ≤ 1 →
      (readOpts ⟨false, none, [], false⟩ opts).rename = b) ∧
    (∀ n, Opt.defaults (some n) ∈ opts → opts.countP (fun x => match x with | .defaults _ => true | _ => false) ≤ 1 →
      (readOpts ⟨false, none, [], false⟩ opts).defaults = some n) := by
  obtain ⟨-, h2, h3, h4, h5⟩ := readOpts_issues opts _ h
  refine ⟨?_, h3, ?_, ?_⟩
  · intro x hx
    rcases h2 x hx with ⟨n, rfl⟩ | ⟨b, rfl⟩ <;> trivial
  · have gen : ∀ (opts : List Opt) (d b : Bool), Opt.rename (some b) ∈ opts →
        opts.countP (fun x => match x with | .rename _ => true | _ => false) ≤ 1 → lastRename opts d = b := by
      intro opts
      induction opts with
      | nil => simp
      | cons x rest ih =>
        intro d b hb hc
        have keep : ∀ (rest : List Opt) (d : Bool), rest.countP (fun x => match x with | .rename _ => true | _ => false) = 0 →
            lastRename rest d = d := by
          intro rest
          induction rest with
          | nil => intro d _; rfl
          | cons y ys ih2 =>
            intro d hc
            rw [List.countP_cons] at hc
            cases y with
            | rename v => simp at hc
            | defaults c => exact ih2 d (by simpa using hc)
            | keyword n => exact ih2 d (by simpa using hc)
            | positional => exact ih2 d (by simpa using hc)
        rw [List.countP_cons] at hc
        cases x with
        | rename v =>
          simp only [if_true] at hc
          have hz : rest.countP (fun x => match x with | .rename _ => true | _ => false) = 0 := by omega
          rcases List.mem_cons.mp hb with hb | hb
          · simp only [Opt.rename.injEq] at hb
            subst hb
            exact keep rest b hz
          · rw [List.countP_eq_zero] at hz
            exact absurd rfl (hz _ hb)
        | defaults c => exact ih d b (by simpa using hb) (by simpa using hc)
        | keyword n => exact ih d b (by simpa using hb) (by simpa using hc)
        | positional => exact ih d b (by simpa using hb) (by simpa using hc)
    intro b hb hc
    rw [h4]
    exact gen opts false b hb hc
  · have gen : ∀ (opts : List Opt) (d : Option Nat) (n : Nat), Opt.defaults (some n) ∈ opts →
        opts.countP (fun x => match x with | .defaults _ => true | _ => false) ≤ 1 → lastDefaults opts d = some n := by
      intro opts
      induction opts with
      | nil => simp
      | cons x rest ih =>
        intro d b hb hc
        have keep : ∀ (rest : List Opt) (d : Option Nat),
            rest.countP (fun x => match x with | .defaults _ => true | _ => false) = 0 → lastDefaults rest d = d := by
          intro rest
          induction rest with
          | nil => intro d _; rfl
          | cons y ys ih2 =>
            intro d hc
            rw [List.countP_cons] at hc
            cases y with
            | defaults v => simp at hc
            | rename c => exact ih2 d (by simpa using hc)
            | keyword n => exact ih2 d (by simpa using hc)
            | positional => exact ih2 d (by simpa using hc)
        rw [List.countP_cons] at hc
        cases x with
        | defaults v =>
          simp only [if_true] at hc
          have hz : rest.countP (fun x => match x with | .defaults _ => true | _ => false) = 0 := by omega
          rcases List.mem_cons.mp hb with hb | hb
          · simp only [Opt.defaults.injEq] at hb
            subst hb
            exact keep rest (some b) hz
          · rw [List.countP_eq_zero] at hz
            exact absurd rfl (hz _ hb)
        | rename c => exact ih d b (by simpa using hb) (by simpa using hc)
        | keyword n => exact ih d b (by simpa using hb) (by simpa using hc)
        | positional => exact ih d b (by simpa using hb) (by simpa using hc)
    intro n hn hc
    rw [h5]
    exact gen opts none n hn hc

example : readOpts ⟨false, none, [], false⟩ [.rename (some true), .defaults (some 2)] = ⟨true, some 2, [], false⟩ := by
  decide +kernel

/-- `namedtuple("P", "x", module="m")` is correct in Python, but `module` is reported as an unexpected keyword argument;
for `defaults=None`, which is the default in Python, an error is reported as well and there is no named tuple at all. -/
theorem module_violation :
    Accepts (.keyword "module".toList) ∧
    (readOpts ⟨false, none, [], false⟩ [.keyword "module".toList]).issues = [.unexpectedKeyword] ∧
    (readOpts ⟨false, none, [], false⟩ [.defaults none]).stop = true :=
  ⟨rfl, by decide +kernel, by decide +kernel⟩

/-! ## C230: classes -/

/-- The last field has a default. -/
def lastDef (fs : List Field) : Bool :=
  match fs.getLast? with
  | some l => l.hasDefault
  | none => false

theorem classFields_cons (fs : List Field) (is : List ClassIssue) (s : Field) (rest : List Field) :
    classFields (fs, is) (s :: rest) =
      if (!s.hasDefault && lastDef fs) = true then classFields (fs, is ++ [.nonDefaultFollowsDefault]) rest
      else if ['_'].isPrefixOf s.name = true then classFields (fs, is ++ [.underscore]) rest
      else classFields (fs ++ [s], is) rest := rfl

/-- C230: for a class with the base `NamedTuple` whose fields have different names, there is an error if and only if
Python cannot make the class, and if there is none, the fields are those of the class in the same order and with the
same defaults.  Missing: fields that are annotated twice. -/
theorem class_partial (stmts : List Field) (hd : (stmts.map (·.name)).Nodup) :
    ((classFields ([], []) stmts).2 = [] ↔ ClassOk stmts) ∧
    (ClassOk stmts → (classFields ([], []) stmts).1 = stmts ∧
      (classFields ([], []) stmts).1.map (·.name) = annotated stmts []) := by
  have mono : ∀ (stmts : List Field) (st : List Field × List ClassIssue),
      (classFields st stmts).2 = [] → st.2 = [] := by
    intro stmts
    induction stmts with
    | nil => intro st h; exact h
    | cons s rest ih =>
      intro st h
      obtain ⟨fs, is⟩ := st
      rw [classFields_cons] at h
      split at h
      · have := ih _ h; simp at this
      · split at h
        · have := ih _ h; simp at this
        · exact ih (fs ++ [s], is) h
  have gen : ∀ (stmts done : List Field), ClassOk done →
      ((classFields (done, []) stmts).2 = [] ↔ ClassOk (done ++ stmts)) ∧
      (ClassOk (done ++ stmts) → (classFields (done, []) stmts).1 = done ++ stmts) := by
    intro stmts
    induction stmts with
    | nil => intro done hok; simpa [classFields] using hok
    | cons s rest ih =>
      intro done hok
      have step : ClassOk (done ++ s :: rest) → ClassOk (done ++ [s]) := by
        rintro ⟨h1, h2⟩
        refine ⟨fun f hf => h1 f (by simp at hf ⊢; rcases hf with hf | hf <;> simp [hf]), ?_⟩
        rw [List.pairwise_append] at h2 ⊢
        exact ⟨h2.1, by simp, fun a ha b hb => h2.2.2 a ha b (by simp at hb; simp [hb])⟩
      by_cases c1 : (!s.hasDefault && lastDef done) = true
      · have bad : ¬ ClassOk (done ++ s :: rest) := by
          rintro ⟨-, h2⟩
          simp only [Bool.and_eq_true, Bool.not_eq_true'] at c1
          unfold lastDef at c1
          cases hl : done.getLast? with
          | none => simp [hl] at c1
          | some l =>
            simp only [hl] at c1
            have hm : l ∈ done := List.mem_of_getLast? hl
            have := (List.pairwise_append.mp h2).2.2 l hm s (by simp) c1.2
            rw [c1.1] at this
            simp at this
        have e : classFields (done, []) (s :: rest) = classFields (done, [.nonDefaultFollowsDefault]) rest := by
          rw [classFields_cons, if_pos c1]; rfl
        rw [e]
        refine ⟨⟨fun h => ?_, fun h => absurd h bad⟩, fun h => absurd h bad⟩
        have := mono _ _ h
        simp at this
      · by_cases c2 : ['_'].isPrefixOf s.name = true
        · have bad : ¬ ClassOk (done ++ s :: rest) := by
            rintro ⟨h1, -⟩
            exact h1 s (by simp) ((prefix_iff s.name).mp c2)
          have e : classFields (done, []) (s :: rest) = classFields (done, [.underscore]) rest := by
            rw [classFields_cons, if_neg c1, if_pos c2]; rfl
          rw [e]
          refine ⟨⟨fun h => ?_, fun h => absurd h bad⟩, fun h => absurd h bad⟩
          have := mono _ _ h
          simp at this
        · have e : classFields (done, []) (s :: rest) = classFields (done ++ [s], []) rest := by
            rw [classFields_cons, if_neg c1, if_neg c2]
          have hok' : ClassOk (done ++ [s]) := by
            refine ⟨?_, ?_⟩
            · intro f hf
              rcases List.mem_append.mp hf with hf | hf
              · exact hok.1 f hf
              · simp only [List.mem_cons, List.not_mem_nil, or_false] at hf
                subst hf
                exact fun hx => c2 ((prefix_iff f.name).mpr hx)
            · rw [List.pairwise_append]
              refine ⟨hok.2, by simp, ?_⟩
              intro a ha b hb hdef
              simp only [List.mem_cons, List.not_mem_nil, or_false] at hb
              subst hb
              cases hb : b.hasDefault with
              | true => rfl
              | false =>
                exfalso
                apply c1
                simp only [hb, Bool.not_false, Bool.true_and, lastDef]
                rcases List.eq_nil_or_concat done with rfl | ⟨init, l, rfl⟩
                · simp at ha
                · simp only [List.concat_eq_append, List.getLast?_append, List.getLast?_singleton, Option.some_or] at ha ⊢
                  rcases List.mem_append.mp ha with ha | ha
                  · have := hok.2
                    rw [List.concat_eq_append, List.pairwise_append] at this
                    exact this.2.2 a ha l (by simp) hdef
                  · simp only [List.mem_cons, List.not_mem_nil, or_false] at ha
                    subst ha
                    exact hdef
          have := ih (done ++ [s]) hok'
          rw [e]
          simpa using this
  have ann : ∀ (stmts : List Field) (seen : List Str), (seen ++ stmts.map (·.name)).Nodup →
      annotated stmts seen = seen ++ stmts.map (·.name) := by
    intro stmts
    induction stmts with
    | nil => intro seen _; simp [annotated]
    | cons s rest ih =>
      intro seen h
      have hn : s.name ∉ seen := by
        intro hx
        rw [List.nodup_append] at h
        exact h.2.2 s.name hx s.name (by simp) rfl
      rw [annotated, if_neg hn, ih _ (by simpa using h)]
      simp
  obtain ⟨g1, g2⟩ := gen stmts [] ⟨by simp, by simp⟩
  simp only [List.nil_append] at g1 g2
  refine ⟨g1, fun h => ⟨g2 h, ?_⟩⟩
  rw [g2 h, ann stmts [] (by simpa using hd)]
  simp

example : classFields ([], []) [⟨['x'], false⟩, ⟨['y'], true⟩] = ([⟨['x'], false⟩, ⟨['y'], true⟩], []) ∧
    (classFields ([], []) [⟨['x'], true⟩, ⟨['y'], false⟩, ⟨['_'], true⟩]).2 = [.nonDefaultFollowsDefault, .underscore] := by
  decide +kernel

/-- A class that annotates the field `x` twice has one field `x` in Python, but two here, so that calls with one argument
are refused. -/
theorem class_twice_violation :
    annotated [⟨['x'], false⟩, ⟨['x'], false⟩] [] = [['x']] ∧
    (classFields ([], []) [⟨['x'], false⟩, ⟨['x'], false⟩]) = ([⟨['x'], false⟩, ⟨['x'], false⟩], []) := by
  decide +kernel

end Verif.NamedTuple
