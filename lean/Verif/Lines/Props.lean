import Verif.Lines.Offsets

/-!
# Properties of positions and document synchronisation (C01 - C05, C51)
-/

namespace Verif.Lines

open Spec

deriving instance DecidableEq for Except

/-! ## C01: offsets and line/column pairs -/

/-- C01: for every text and every character boundary (`code = pre ++ post`), the line and the
column in any encoding are defined, designate that place according to the specification, and are
converted back to the same offset. -/
theorem offset_round_trip (enc : Enc) (code pre post : List Char) (h : code = pre ++ post) :
    ∃ col oob, column enc code (size pre) = some col ∧
      LaxPosAt enc code ⟨(positionInfos code (size pre)).1, col⟩ pre ∧
      lineColumnToByte enc (lineEnds 0 code) code (positionInfos code (size pre)).1 col = .ok (size pre, oob) ∧
      (enc ≠ .utf16 → oob = false) := by
  obtain ⟨A, p, l, t, B, r, hs, rfl, hr, hB⟩ := boundary_line code pre post h
  have hpi := positionInfos_eq code A p l t B r hs hr hB
  have hcode : code = textOf A ++ (l ++ t ++ textOf B) := by
    conv => lhs; rw [← textOf_splitLines code, hs, textOf_append, textOf_cons]
  have hpart : linePart code (size (textOf A ++ p)) = some p := by
    unfold linePart
    rw [hpi]
    simp only
    rw [hcode, hr, size_append]
    have := slice_append (textOf A) p (r ++ textOf B)
    rw [← this]; simp
  refine ⟨width enc p, ?_⟩
  have hcol : column enc code (size (textOf A ++ p)) = some (width enc p) := by
    cases enc with
    | utf8 => simp only [column, hpi, width_utf8]; rw [size_append]; congr 1; omega
    | utf16 => simp only [column, hpart, Option.map_some, width_utf16]
    | utf32 => simp only [column, hpart, Option.map_some, width_utf32]
  -- the text of the line starts with `p`
  obtain ⟨hcl, hBt, hterm⟩ := splitLines_wf code A l t B hs
  have hq : ∃ q, (if t = ['\r', '\n'] then l ++ ['\r'] else l) = p ++ q ∧
      (l = p ++ q ∨ (t = ['\r', '\n'] ∧ l ++ ['\r'] = p ++ q)) := by
    rcases hB with hrne | hB
    · rcases List.eq_nil_or_concat r with rfl | ⟨r0, c, rfl⟩
      · exact absurd rfl hrne
      · by_cases hBn : B = []
        · have := hBt hBn
          subst this
          exact ⟨r0.concat c, by rw [if_neg (by simp)]; simpa using hr, .inl (by simpa using hr)⟩
        · rcases hterm hBn with rfl | rfl | ⟨rfl, -⟩
          · have e : l = p ++ r0 := by
              have hr' : l ++ ['\n'] = (p ++ r0) ++ [c] := by simpa using hr
              exact (List.append_inj' hr' rfl).1
            exact ⟨r0, by rw [if_neg (by simp)]; exact e, .inl e⟩
          · have e : l ++ ['\r'] = p ++ r0 := by
              have hr' : l ++ ['\r'] ++ ['\n'] = (p ++ r0) ++ [c] := by simpa using hr
              exact (List.append_inj' hr' rfl).1
            exact ⟨r0, by rw [if_pos rfl]; exact e, .inr ⟨rfl, e⟩⟩
          · have e : l = p ++ r0 := by
              have hr' : l ++ ['\r'] = (p ++ r0) ++ [c] := by simpa using hr
              exact (List.append_inj' hr' rfl).1
            exact ⟨r0, by rw [if_neg (by simp)]; exact e, .inl e⟩
    · have := hBt hB
      subst this
      exact ⟨r, by rw [if_neg (by simp)]; simpa using hr, .inl (by simpa using hr)⟩
  obtain ⟨q, hq, hq2⟩ := hq
  have hinfo := lineInfos_fresh code A l t B hs
  rw [hq] at hinfo
  obtain ⟨oob, hconv, hoob⟩ := convert_offset enc p q
  refine ⟨oob, hcol, ?_, ?_, ?_⟩
  · rw [hpi]
    rcases hq2 with rfl | ⟨rfl, hq2⟩
    · exact .inl ⟨A, p, q, t, B, hs, rfl, rfl, rfl⟩
    · rcases List.eq_nil_or_concat q with rfl | ⟨q0, c, rfl⟩
      · rw [List.append_nil] at hq2
        refine .inr ⟨A, l, B, hs, rfl, ?_, by rw [← hq2]; simp⟩
        rw [← hq2, width_append]
        congr 1
        cases enc <;> decide
      · have e : l = p ++ q0 := by
          have hr' : l ++ ['\r'] = (p ++ q0) ++ [c] := by simpa using hq2
          exact (List.append_inj' hr' rfl).1
        subst e
        exact .inl ⟨A, p, q0, _, B, hs, rfl, rfl, rfl⟩
  · rw [hpi]
    unfold lineColumnToByte
    simp only [hinfo, hconv, size_append]
  · intro he
    exact hoob (.inl (fun h => absurd h he))

/-- A text with `\r\n`, a two-byte and a four-byte character; the offset 9 is behind the emoji. -/
example :
    size ['x', '\r', '\n', 'ä', 'b', '😀'] = 10 ∧
    positionInfos ['x', '\r', '\n', 'ä', 'b', '😀', 'c'] 10 = (1, 3) ∧
    column .utf16 ['x', '\r', '\n', 'ä', 'b', '😀', 'c'] 10 = some 4 ∧
    lineColumnToByte .utf16 (lineEnds 0 ['x', '\r', '\n', 'ä', 'b', '😀', 'c'])
      ['x', '\r', '\n', 'ä', 'b', '😀', 'c'] 1 4 = .ok (10, false) := by
  decide +kernel

/-- C56: a range from the place `p1` in a line to the place `p2` in a line is expanded to the text from
the beginning of the first line to the end of the second one, without the terminator (but with
the `\r` of a `\r\n`). -/
theorem expand_full_lines (code : List Char) (A1 p1 l1 t1 B1 r1 A2 p2 l2 t2 B2 r2)
    (h1 : splitLines code = A1 ++ (l1, t1) :: B1) (hp1 : l1 ++ t1 = p1 ++ r1) (hr1 : r1 ≠ [] ∨ B1 = [])
    (h2 : splitLines code = A2 ++ (l2, t2) :: B2) (hp2 : l2 ++ t2 = p2 ++ r2) (hr2 : r2 ≠ [] ∨ B2 = []) :
    expandRange code (size (textOf A1 ++ p1)) (size (textOf A2 ++ p2)) =
      (size (textOf A1), size (textOf A2 ++ (if t2 = ['\r', '\n'] then l2 ++ ['\r'] else l2))) := by
  unfold expandRange
  rw [positionInfos_eq code A1 p1 l1 t1 B1 r1 h1 hp1 hr1, positionInfos_eq code A2 p2 l2 t2 B2 r2 h2 hp2 hr2]
  obtain ⟨-, hl, -⟩ := lineEnds_getElem? 0 code A2 l2 t2 B2 h2
  obtain ⟨-, hBt, hterm⟩ := splitLines_wf code A2 l2 t2 B2 h2
  simp only [Prod.mk.injEq, true_and]
  by_cases hB : B2 = []
  · rw [if_pos hB] at hl
    have : (lineEnds 0 code)[A2.length]? = none := by
      rw [List.getElem?_eq_none_iff]; omega
    rw [this]
    simp only
    rw [hl.2, if_neg (by simp)]
    conv => lhs; rw [← textOf_splitLines code, h2, textOf_append, textOf_cons, hl.2, hB]
    simp [textOf]
  · rw [if_neg hB] at hl
    rw [hl]
    simp only
    rcases hterm hB with rfl | rfl | ⟨rfl, -⟩
    · rw [if_neg (by simp), size_append, size_nl]; omega
    · rw [if_pos rfl, size_append, size_append, size_crlf, size_cr]; omega
    · rw [if_neg (by simp), size_append, size_cr]; omega

/-- The second and third line of a text. -/
example :
    splitLines "ab\ncd\r\nef\n".toList = [("ab".toList, ['\n'])] ++ ("cd".toList, ['\r', '\n']) :: [("ef".toList, ['\n']), ([], [])] ∧
    expandRange "ab\ncd\r\nef\n".toList 4 8 = (3, 9) := by
  refine ⟨?_, by decide +kernel⟩
  decide +kernel

/-! ## C02: which positions are accepted -/

/-- C02, acceptance, partial: every legal position (`PosAt`) is accepted and resolved to its
place.  Full statement: without `hb`.  Missing: in UTF-16, the end of a line that contains a
character outside the BMP (see `position_accepted_violation`). -/
theorem position_accepted_partial (enc : Enc) (text : List Char) (A) (p q t : List Char) (B)
    (hs : splitLines text = A ++ (p ++ q, t) :: B)
    (hb : enc ≠ .utf16 ∨ q ≠ [] ∨ (∀ c ∈ p, c.val < 0x10000)) :
    safeByte enc (lineEnds 0 text) text A.length (width enc p) = .ok (size (textOf A ++ p)) := by
  have hinfo := lineInfos_fresh text A (p ++ q) t B hs
  have : ∃ q', (if t = ['\r', '\n'] then p ++ q ++ ['\r'] else p ++ q) = p ++ q' ∧ (q ≠ [] → q' ≠ []) := by
    split
    · exact ⟨q ++ ['\r'], by simp, by simp⟩
    · exact ⟨q, rfl, id⟩
  obtain ⟨q', hq', hne⟩ := this
  rw [hq'] at hinfo
  obtain ⟨oob, hc, ho⟩ := convert_offset enc p q'
  have hoob : oob = false := by
    apply ho
    rcases hb with h | h | h
    · exact .inl (fun e => absurd e h)
    · exact .inr (hne h)
    · exact .inl (fun _ => h)
  subst hoob
  unfold safeByte lineColumnToByte
  simp [hinfo, hc, size_append]

/-- C02, acceptance, violated: with UTF-16 columns the end of a line with an emoji is rejected. -/
theorem position_accepted_violation :
    ∃ (text : List Char) (A : List (List Char × List Char)) (p q t : List Char) (B : List (List Char × List Char)),
      splitLines text = A ++ (p ++ q, t) :: B ∧
      safeByte .utf16 (lineEnds 0 text) text A.length (width .utf16 p) = .error .bail := by
  exact ⟨['😀'], [], ['😀'], [], [], [], by decide +kernel, by decide +kernel⟩

/-- C02, rejection: everything that is accepted designates the returned place, up to the place
between `\r` and `\n`; lines that do not exist and columns inside a character or beyond the end
of the line are errors, not panics. -/
theorem position_rejected_partial (enc : Enc) (text : List Char) (pos : Pos) :
    (∀ b, safeByte enc (lineEnds 0 text) text pos.line pos.col = .ok b →
      ∃ pre post, text = pre ++ post ∧ b = size pre ∧ LaxPosAt enc text pos pre) ∧
    (∀ b A l t B, safeByte enc (lineEnds 0 text) text pos.line pos.col = .ok b →
      splitLines text = A ++ (l, t) :: B → A.length = pos.line → t ≠ ['\r', '\n'] →
      ∃ pre post, text = pre ++ post ∧ b = size pre ∧ PosAt enc text pos pre) ∧
    safeByte enc (lineEnds 0 text) text pos.line pos.col ≠ .error .panic := by
  refine ⟨fun b h => safe_sound enc _ text pos (tableOk_fresh _ _) b h, ?_,
    safe_no_panic enc _ text _ _ (tableOk_fresh _ _)⟩
  intro b A l t B h hs hA ht
  obtain ⟨pre, post, h1, h2, h3⟩ := safe_sound enc _ text pos (tableOk_fresh _ _) b h
  refine ⟨pre, post, h1, h2, ?_⟩
  rcases h3 with h3 | ⟨A', l', B', hs', hA', -, -⟩
  · exact h3
  · rw [hs] at hs'
    have := (List.append_inj hs' (by omega)).2
    simp only [List.cons.injEq, Prod.mk.injEq] at this
    exact absurd this.1.2 ht

/-- C02, rejection, violated: in a file with `\r\n` the column after the end of the line is accepted. -/
theorem position_rejected_violation :
    ∃ (text : List Char) (pos : Pos) (b : Nat), safeByte .utf8 (lineEnds 0 text) text pos.line pos.col = .ok b ∧
      ∀ pre, ¬ PosAt .utf8 text pos pre := by
  refine ⟨['a', '\r', '\n'], ⟨0, 2⟩, 2, by decide +kernel, ?_⟩
  rintro pre ⟨A, p, q, t, B, hs, hA, hw, rfl⟩
  have : splitLines ['a', '\r', '\n'] = [(['a'], ['\r', '\n']), ([], [])] := by decide +kernel
  rw [this] at hs
  have hA : A = [] := List.length_eq_zero_iff.mp hA
  subst hA
  simp only [List.nil_append, List.cons.injEq, Prod.mk.injEq] at hs
  have e := hs.1.1
  have : size (p ++ q) = 1 := by rw [← e]; decide
  rw [size_append] at this
  rw [width_utf8] at hw
  simp only at hw
  omega

example : splitLines ['ä', 'b', '\n', 'c'] = [] ++ (['ä'] ++ ['b'], ['\n']) :: [(['c'], [])] ∧
    safeByte .utf8 (lineEnds 0 ['ä', 'b', '\n', 'c']) ['ä', 'b', '\n', 'c'] 0 2 = .ok 2 ∧
    safeByte .utf8 (lineEnds 0 ['ä', 'b', '\n', 'c']) ['ä', 'b', '\n', 'c'] 0 1 = .error .bail ∧
    safeByte .utf16 (lineEnds 0 ['ä', 'b', '\n', 'c']) ['ä', 'b', '\n', 'c'] 0 3 = .error .bail := by
  decide +kernel

/-! ## C03: batches of changes -/

/-- No ranged change follows a full replacement in the batch. -/
def NoMix (cs : List Change) : Prop :=
  (∀ c ∈ cs, c.range.isSome) ∨ ∃ cs0 c, cs = cs0 ++ [c] ∧ c.range = none

/-- The situations in which the stored line table can be used: it is not yet computed, or it is the
table of the stored text and no ranged change refers to a replaced text. -/
def TableUsable (file : List Char) (stored : Option (List Nat)) (cs : List Change) : Prop :=
  stored = none ∨ (stored = some (lineEnds 0 file) ∧ NoMix cs)

theorem splitFull_ranged (file : List Char) (cs : List Change) : ∀ c ∈ (splitFull file cs).2, c.range.isSome := by
  induction cs generalizing file with
  | nil => simp [splitFull]
  | cons c cs ih =>
    obtain ⟨range, new⟩ := c
    cases range with
    | none => simpa [splitFull] using ih new
    | some r =>
      simp only [splitFull]
      split
      · exact ih file
      · rename_i h
        simp only [List.any_eq_true, not_exists, not_and, Bool.not_eq_true] at h
        intro c hc
        simp only [List.mem_cons] at hc
        rcases hc with rfl | hc
        · rfl
        · have := h c hc
          cases hr : c.range <;> simp [hr] at this ⊢

theorem splitFull_all_ranged (file : List Char) (cs : List Change) (h : ∀ c ∈ cs, c.range.isSome) :
    splitFull file cs = (file, cs) := by
  cases cs with
  | nil => rfl
  | cons c cs =>
    obtain ⟨range, new⟩ := c
    cases range with
    | none => simpa using h ⟨none, new⟩ (by simp)
    | some r =>
      simp only [splitFull]
      rw [if_neg]
      simp only [List.any_eq_true, not_exists, not_and, Bool.not_eq_true]
      intro c hc
      have := h c (by simp [hc])
      cases hr : c.range <;> simp [hr] at this ⊢

theorem splitFull_last_full (file : List Char) (cs : List Change) (c : Change) (h : c.range = none) :
    splitFull file (cs ++ [c]) = (c.text, []) := by
  induction cs generalizing file with
  | nil => obtain ⟨range, new⟩ := c; subst h; rfl
  | cons d cs ih =>
    obtain ⟨range, new⟩ := d
    cases range with
    | none => simpa [splitFull] using ih new
    | some r =>
      simp only [List.cons_append, splitFull]
      rw [if_pos (by simp [h]), ih]

theorem splitFull_applies (P) (file : List Char) (cs : List Change) (text' : List Char) (h : AppliesAll P file cs text') :
    AppliesAll P (splitFull file cs).1 (splitFull file cs).2 text' := by
  induction cs generalizing file with
  | nil => simpa [splitFull] using h
  | cons c cs ih =>
    obtain ⟨range, new⟩ := c
    rcases h with _ | ⟨h1, h2⟩
    cases range with
    | none =>
      have : Applies P file ⟨none, new⟩ new := rfl
      simp only [Applies] at h1
      subst h1
      simpa [splitFull] using ih _ h2
    | some r =>
      simp only [splitFull]
      split
      · rename_i hany
        -- a later full replacement makes the start irrelevant
        have irr : ∀ (cs : List Change) (f g : List Char), cs.any (·.range.isNone) = true → splitFull f cs = splitFull g cs := by
          intro cs
          induction cs with
          | nil => simp
          | cons d cs ihd =>
            intro f g hd
            obtain ⟨range, new⟩ := d
            cases range with
            | none => rfl
            | some r =>
              simp only [List.any_cons, Option.isNone_some, Bool.false_or] at hd
              simp only [splitFull, hd, if_true]
              exact ihd f g hd
        rw [irr cs file _ hany]
        exact ih _ h2
      · exact .cons h1 h2

theorem splitFull_bmp (enc : Enc) (file : List Char) (cs : List Change) (h1 : Bmp enc file) (h2 : ∀ c ∈ cs, Bmp enc c.text) :
    Bmp enc (splitFull file cs).1 ∧ ∀ c ∈ (splitFull file cs).2, Bmp enc c.text := by
  induction cs generalizing file with
  | nil => exact ⟨h1, by simp [splitFull]⟩
  | cons c cs ih =>
    obtain ⟨range, new⟩ := c
    have h2' : ∀ c ∈ cs, Bmp enc c.text := fun c hc => h2 c (by simp [hc])
    cases range with
    | none => simpa [splitFull] using ih new (h2 ⟨none, new⟩ (by simp)) h2'
    | some r =>
      simp only [splitFull]
      split
      · exact ih file h1 h2'
      · exact ⟨h1, h2⟩

theorem initial_inv (file : List Char) (stored : Option (List Nat)) (cs : List Change) (h : TableUsable file stored cs) :
    (splitFull file cs).2 = [] ∨
    SyncInv { text := (splitFull file cs).1, table := stored, owned := false, stored, indexValid := 2 ^ 32 - 1 } := by
  rcases h with rfl | ⟨rfl, hall | ⟨cs0, c, rfl, hc⟩⟩
  · right; intro T hT; simp at hT
  · right
    rw [splitFull_all_ranged file cs hall]
    intro T hT k _
    simp only [Option.some.injEq] at hT
    subst hT
    exact tableOk_fresh _ _
  · left
    rw [splitFull_last_full file cs0 c hc]

/-- C03, soundness: if a batch is accepted then the new text is the result of applying the
changes after the last full replacement (all of them if there is none) one after another, each
range being resolved in the text it applies to. -/
theorem batch_sound (enc : Enc) (file : List Char) (stored : Option (List Nat)) (cs : List Change)
    (h : TableUsable file stored cs) (text' : List Char) (r)
    (he : applyDocumentChanges enc file stored cs = (.ok text', r)) :
    (∀ cs0 c cs1, cs = cs0 ++ c :: cs1 → c.range = none → (∀ d ∈ cs1, d.range.isSome) →
      AppliesAll (LaxPosAt enc) c.text cs1 text') ∧
    ((∀ c ∈ cs, c.range.isSome) → AppliesAll (LaxPosAt enc) file cs text') := by
  have main : AppliesAll (LaxPosAt enc) (splitFull file cs).1 (splitFull file cs).2 text' := by
    unfold applyDocumentChanges at he
    rcases initial_inv file stored cs h with h0 | hi
    · simp only [h0, syncLoop, Prod.mk.injEq, Except.ok.injEq] at he
      rw [h0, ← he.1]; exact .nil _
    · exact syncLoop_sound enc _ _ (splitFull_ranged file cs) hi text' r he
  constructor
  · rintro cs0 c cs1 rfl hc hd
    have : splitFull file (cs0 ++ c :: cs1) = (c.text, cs1) := by
      clear he h main
      induction cs0 generalizing file with
      | nil =>
        obtain ⟨range, new⟩ := c
        simp only at hc
        subst hc
        simpa [splitFull] using splitFull_all_ranged new cs1 hd
      | cons d cs0 ih =>
        obtain ⟨range, new⟩ := d
        cases range with
        | none => simpa [splitFull] using ih new
        | some r =>
          simp only [List.cons_append, splitFull]
          rw [if_pos (by simp [hc]), ih]
    rwa [this] at main
  · intro hall
    rwa [splitFull_all_ranged file cs hall] at main

/-- C03, completeness: a batch of changes with legal positions is accepted and gives the text of
sequential application.  `Bmp` is needed only for UTF-16 (defect `position_accepted_violation`). -/
theorem batch_complete_partial (enc : Enc) (file : List Char) (stored : Option (List Nat)) (cs : List Change)
    (h : TableUsable file stored cs) (text' : List Char) (ha : AppliesAll (PosAt enc) file cs text')
    (hb : Bmp enc file) (hbc : ∀ c ∈ cs, Bmp enc c.text) :
    (applyDocumentChanges enc file stored cs).1 = .ok text' := by
  have ha' := splitFull_applies _ file cs text' ha
  obtain ⟨hb1, hb2⟩ := splitFull_bmp enc file cs hb hbc
  unfold applyDocumentChanges
  rcases initial_inv file stored cs h with h0 | hi
  · rw [h0] at ha'
    cases ha'
    simp [h0, syncLoop]
  · exact syncLoop_complete enc _ _ (splitFull_ranged file cs) hi text' ha' hb1 hb2

/-- C03: an invalid batch is an error, never a panic. -/
theorem batch_no_panic (enc : Enc) (file : List Char) (stored : Option (List Nat)) (cs : List Change)
    (h : TableUsable file stored cs) : (applyDocumentChanges enc file stored cs).1 ≠ .error .panic := by
  unfold applyDocumentChanges
  rcases initial_inv file stored cs h with h0 | hi
  · simp [h0, syncLoop]
  · exact syncLoop_no_panic enc _ _ (splitFull_ranged file cs) hi

/-- Two ranged changes in reverse order and a third that needs a fresh table. -/
example : TableUsable ['a', '\n', 'b', '\n'] (some [2, 4])
      [⟨some (⟨1, 0⟩, ⟨1, 1⟩), ['x', '\n', 'y']⟩, ⟨some (⟨0, 1⟩, ⟨0, 1⟩), ['z']⟩, ⟨some (⟨2, 0⟩, ⟨2, 1⟩), []⟩] ∧
    (applyDocumentChanges .utf16 ['a', '\n', 'b', '\n'] (some [2, 4])
      [⟨some (⟨1, 0⟩, ⟨1, 1⟩), ['x', '\n', 'y']⟩, ⟨some (⟨0, 1⟩, ⟨0, 1⟩), ['z']⟩, ⟨some (⟨2, 0⟩, ⟨2, 1⟩), []⟩]).1 =
      .ok ['a', 'z', '\n', 'x', '\n', '\n'] := by
  refine ⟨.inr ⟨by decide +kernel, .inl (by decide +kernel)⟩, by decide +kernel⟩

/-! ## C04: full replacement followed by ranged changes -/

/-- C04, partial (full statement: for every `stored` that is a table of `file`; false by
`full_then_ranged_violation`): holds as long as the line table of the stored document has not been
computed. -/
theorem full_then_ranged_partial (enc : Enc) (file : List Char) (c : Change) (hc : c.range = none) (cs : List Change)
    (text' : List Char) (ha : AppliesAll (PosAt enc) c.text cs text')
    (hb : Bmp enc c.text) (hbc : ∀ c ∈ cs, Bmp enc c.text) (hbf : Bmp enc file) :
    (applyDocumentChanges enc file none (c :: cs)).1 = .ok text' := by
  apply batch_complete_partial enc file none (c :: cs) (.inl rfl) text' _ hbf
  · intro d hd
    simp only [List.mem_cons] at hd
    rcases hd with rfl | hd
    · exact hb
    · exact hbc d hd
  · refine .cons ?_ ha
    unfold Applies
    rw [hc]

/-- C04 violated: the stored document is `"aaaa\nb\n"` and its line table is known.  Replacing it
by `"c\nd\n"` and then changing `d` to `e` (line 1) is applied against the old lines. -/
theorem full_then_ranged_violation :
    ∃ (file new : List Char) (cs : List Change) (text' : List Char),
      AppliesAll (PosAt .utf8) new cs text' ∧
      (applyDocumentChanges .utf8 file (some (lineEnds 0 file)) (⟨none, new⟩ :: cs)).1 ≠ .ok text' ∧
      (∃ wrong, (applyDocumentChanges .utf8 file (some (lineEnds 0 file)) (⟨none, new⟩ :: cs)).1 = .ok wrong) := by
  refine ⟨['a', '\n', 'b', '\n'], ['c', 'c', '\n', 'd', '\n'], [⟨some (⟨1, 0⟩, ⟨1, 1⟩), ['e']⟩], ['c', 'c', '\n', 'e', '\n'], ?_, by decide +kernel, ?_⟩
  · refine .cons (text' := ['c', 'c', '\n', 'e', '\n']) ?_ (.nil _)
    have hs : splitLines ['c', 'c', '\n', 'd', '\n'] = [(['c', 'c'], ['\n']), (['d'], ['\n']), ([], [])] := by decide +kernel
    refine ⟨['c', 'c', '\n'], ['d'], ['\n'], rfl, ⟨[(['c', 'c'], ['\n'])], [], ['d'], ['\n'], [([], [])], hs, rfl, rfl, rfl⟩,
      ⟨[(['c', 'c'], ['\n'])], ['d'], [], ['\n'], [([], [])], hs, rfl, by decide, rfl⟩, rfl⟩
  · exact ⟨['c', 'c', 'e', 'd', '\n'], by decide +kernel⟩

/-- C04 violated, worse: the same situation can panic. -/
theorem full_then_ranged_panic_violation :
    ∃ (file new : List Char) (cs : List Change) (text' : List Char),
      AppliesAll (PosAt .utf8) new cs text' ∧
      (applyDocumentChanges .utf8 file (some (lineEnds 0 file)) (⟨none, new⟩ :: cs)).1 = .error .panic := by
  refine ⟨['a', 'a', 'a', 'a', '\n'], ['c'], [⟨some (⟨0, 0⟩, ⟨0, 1⟩), ['e']⟩], ['e'], ?_, by decide +kernel⟩
  refine .cons (text' := ['e']) ?_ (.nil _)
  have hs : splitLines ['c'] = [(['c'], [])] := by decide +kernel
  exact ⟨[], ['c'], [], rfl, ⟨[], [], ['c'], [], [], hs, rfl, rfl, rfl⟩, ⟨[], ['c'], [], [], [], hs, rfl, by decide, rfl⟩, rfl⟩

example : AppliesAll (PosAt .utf8) ['c'] [⟨some (⟨0, 0⟩, ⟨0, 1⟩), ['e']⟩] ['e'] := by
  have hs : splitLines ['c'] = [(['c'], [])] := by decide +kernel
  exact .cons (text' := ['e']) ⟨[], ['c'], [], rfl, ⟨[], [], ['c'], [], [], hs, rfl, rfl, rfl⟩,
    ⟨[], ['c'], [], [], [], hs, rfl, by decide, rfl⟩, rfl⟩ (.nil _)

/-! ## C51: a rejected batch leaves the document usable -/

/-- C51, partial (full statement: for every batch; false by `rejected_batch_violation`): after any
call the line table of the stored document is still absent or the table of the stored document. -/
theorem rejected_batch_partial (enc : Enc) (file : List Char) (stored : Option (List Nat)) (cs : List Change)
    (hst : stored = none ∨ stored = some (lineEnds 0 file)) (hmix : NoMix cs) :
    (applyDocumentChanges enc file stored cs).2 = none ∨
    (applyDocumentChanges enc file stored cs).2 = some (lineEnds 0 file) := by
  -- invariant: a borrowed table is the stored one, and the text is still `file` while it is unset
  have loop : ∀ (cs : List Change) (s : SyncState), (∀ c ∈ cs, c.range.isSome) →
      (s.stored = none ∨ s.stored = some (lineEnds 0 file)) →
      (s.owned = false → s.table = s.stored ∧ (s.stored = none → s.text = file)) →
      (syncLoop enc s cs).2 = none ∨ (syncLoop enc s cs).2 = some (lineEnds 0 file) := by
    intro cs
    induction cs with
    | nil => intro s _ h1 _; simpa [syncLoop] using h1
    | cons c cs ih =>
      intro s hc h1 h2
      -- the stored table after one step
      have hstep : ((syncStep enc s c).2 = none ∨ (syncStep enc s c).2 = some (lineEnds 0 file)) ∧
          ∀ s' r, syncStep enc s c = (.ok s', r) →
            (s'.stored = none ∨ s'.stored = some (lineEnds 0 file)) ∧
            (s'.owned = false → s'.table = s'.stored ∧ (s'.stored = none → s'.text = file)) := by
        obtain ⟨range, new⟩ := c
        cases range with
        | none => simpa using hc ⟨none, new⟩ (by simp)
        | some rg =>
          obtain ⟨rs, re⟩ := rg
          unfold syncStep
          simp only
          split
          · exact ⟨h1, by simp⟩
          · by_cases ho : (decide (re.line ≥ s.indexValid) || s.owned) = true
            · simp only [ho, if_true]
              constructor
              · split
                · exact h1
                · split
                  · exact h1
                  · split <;> exact h1
              · intro s' r hs
                split at hs
                · simp at hs
                · split at hs
                  · simp at hs
                  · split at hs
                    · simp at hs
                    · simp only [Prod.mk.injEq, Except.ok.injEq] at hs
                      obtain ⟨rfl, -⟩ := hs
                      exact ⟨h1, by simp⟩
            · simp only [Bool.or_eq_true, decide_eq_true_eq, not_or, Bool.not_eq_true] at ho
              obtain ⟨ho1, ho2⟩ := ho
              obtain ⟨e1, e2⟩ := h2 ho2
              have hT : s.table.getD (lineEnds 0 s.text) = lineEnds 0 file := by
                rw [e1]
                rcases h1 with h1 | h1
                · rw [h1, e2 h1]; rfl
                · rw [h1]; rfl
              simp only [ho1, ho2, decide_false, Bool.or_false, Bool.false_eq_true, if_false, hT]
              constructor
              · split
                · simp
                · split
                  · simp
                  · split <;> simp
              · intro s' r hs
                split at hs
                · simp at hs
                · split at hs
                  · simp at hs
                  · split at hs
                    · simp at hs
                    · simp only [Prod.mk.injEq, Except.ok.injEq] at hs
                      obtain ⟨rfl, -⟩ := hs
                      simp
      rw [syncLoop]
      split
      · rename_i hs
        have := hstep.1
        rw [hs] at this
        exact this
      · rename_i s' r hs
        obtain ⟨g1, g2⟩ := hstep.2 s' r hs
        exact ih s' (fun c hc' => hc c (by simp [hc'])) g1 g2
  unfold applyDocumentChanges
  rcases hmix with hall | ⟨cs0, c, rfl, hc⟩
  · rw [splitFull_all_ranged file cs hall]
    exact loop cs _ hall hst (by simp)
  · rw [splitFull_last_full file cs0 c hc]
    simpa [syncLoop] using hst

/-- C51 violated: a batch with a full replacement followed by a change that is out of range is
rejected, but the line table of the (unchanged) document is from now on that of the replacement. -/
theorem rejected_batch_violation :
    ∃ (file : List Char) (cs : List Change) (T : List Nat),
      (applyDocumentChanges .utf8 file none cs).1 = .error .bail ∧
      (applyDocumentChanges .utf8 file none cs).2 = some T ∧ T ≠ lineEnds 0 file := by
  refine ⟨['a', '\n'], [⟨none, ['b', 'b', '\n']⟩, ⟨some (⟨9, 0⟩, ⟨9, 0⟩), []⟩], [3], by decide +kernel, by decide +kernel, by decide +kernel⟩

example : NoMix [⟨some (⟨9, 0⟩, ⟨9, 0⟩), []⟩] ∧
    (applyDocumentChanges .utf8 ['a', '\n'] none [⟨some (⟨9, 0⟩, ⟨9, 0⟩), []⟩]).1 = .error .bail ∧
    (applyDocumentChanges .utf8 ['a', '\n'] none [⟨some (⟨9, 0⟩, ⟨9, 0⟩), []⟩]).2 = some [2] := by
  refine ⟨.inl (by decide +kernel), by decide +kernel, by decide +kernel⟩

/-! ## C05: the server's copy -/

/-- The server's view of an open document: the padded text, and its line table if computed. -/
structure ServerDoc where
  text : List Char
  table : Option (List Nat)

/-- `store_in_memory_file` followed by parsing, lib.rs 129-131. -/
def ServerDoc.open (t : List Char) : ServerDoc := { text := pad t, table := none }

/-- `store_file_with_lsp_changes`, lib.rs 133-153: on an error nothing is stored. -/
def ServerDoc.change (enc : Enc) (d : ServerDoc) (cs : List Change) : ServerDoc :=
  match applyDocumentChanges enc d.text d.table cs with
  | (.ok t, _) => { text := pad t, table := none }
  | (.error _, stored) => { d with table := stored }

/-- Any request that needs positions computes the line table (`get_or_init`, lines.rs 26). -/
def ServerDoc.query (d : ServerDoc) : ServerDoc := { d with table := some (d.table.getD (lineEnds 0 d.text)) }

/-- Legal position in a client text that does not end with a bare `\r`. -/
def ClientPos (enc : Enc) (text : List Char) (pos : Pos) (pre : List Char) : Prop :=
  PosAt enc text pos pre ∧ ¬ ['\r'] <:+ text

/-- Histories of one open document: the client's text and the server's document. The side
conditions exclude the defects shown by the `_violation` theorems. -/
inductive History (enc : Enc) : List Char → ServerDoc → Prop
  | opened (t) (hb : Bmp enc t) : History enc t (.open t)
  | reopened {c d} (t) (hb : Bmp enc t) : History enc c d → History enc t (.open t)
  | query {c d} : History enc c d → History enc c d.query
  | change {c d} (cs c') : History enc c d → AppliesAll (ClientPos enc) c cs c' →
      (∀ ch ∈ cs, Bmp enc ch.text) → (d.table = none ∨ NoMix cs) → History enc c' (d.change enc cs)

theorem applies_padded (enc : Enc) (c : List Char) (ch : Change) (c' : List Char) (j : Nat)
    (h : Applies (ClientPos enc) c ch c') :
    ∃ j', Applies (PosAt enc) (c ++ List.replicate j '\n') ch (c' ++ List.replicate j' '\n') := by
  obtain ⟨range, new⟩ := ch
  cases range with
  | none =>
    refine ⟨0, ?_⟩
    simp only [Applies] at h ⊢
    simpa using h
  | some rg =>
    obtain ⟨rs, re⟩ := rg
    obtain ⟨pre, mid, post, rfl, ⟨h1, hcr⟩, ⟨h2, -⟩, rfl⟩ := h
    refine ⟨j, pre, mid, post ++ List.replicate j '\n', by simp, ?_, ?_, by simp⟩
    · exact posAt_append_newlines enc _ _ _ h1 hcr j
    · exact posAt_append_newlines enc _ _ _ h2 hcr j

theorem appliesAll_padded (enc : Enc) (c : List Char) (cs : List Change) (c' : List Char) (j : Nat)
    (h : AppliesAll (ClientPos enc) c cs c') :
    ∃ j', AppliesAll (PosAt enc) (c ++ List.replicate j '\n') cs (c' ++ List.replicate j' '\n') := by
  induction h generalizing j with
  | nil t => exact ⟨j, .nil _⟩
  | cons h1 _ ih =>
    obtain ⟨j1, h1⟩ := applies_padded enc _ _ _ j h1
    obtain ⟨j2, h2⟩ := ih j1
    exact ⟨j2, .cons h1 h2⟩

theorem applies_bmp (enc : Enc) (P) (c : List Char) (ch : Change) (c' : List Char)
    (h : Applies P c ch c') (h1 : Bmp enc c) (h2 : Bmp enc ch.text) : Bmp enc c' := by
  by_cases hr : ch.range.isSome
  · exact Spec.Applies.bmp hr h h1 h2
  · unfold Applies at h
    cases hrr : ch.range with
    | none => rw [hrr] at h; simp only at h; rw [h]; exact h2
    | some _ => simp [hrr] at hr

theorem appliesAll_bmp (enc : Enc) (P) (c : List Char) (cs : List Change) (c' : List Char)
    (h : AppliesAll P c cs c') (h1 : Bmp enc c) (h2 : ∀ ch ∈ cs, Bmp enc ch.text) : Bmp enc c' := by
  induction h with
  | nil t => exact h1
  | cons hc _ ih => exact ih (applies_bmp enc P _ _ _ hc h1 (h2 _ (by simp))) (fun ch hch => h2 ch (by simp [hch]))

/-- C05, partial (full statement: without the side conditions of `History`, which exclude bare `\r`
at the end of the document, UTF-16 with characters outside the BMP, and C04's defect): after every
history the server's text is the client's text followed by newlines. -/
theorem server_copy_partial (enc : Enc) (c : List Char) (d : ServerDoc) (h : History enc c d) :
    ∃ j, d.text = c ++ List.replicate j '\n' := by
  -- strengthened invariant
  suffices (∃ j, d.text = c ++ List.replicate j '\n') ∧ Bmp enc c ∧
      (d.table = none ∨ d.table = some (lineEnds 0 d.text)) from this.1
  induction h with
  | opened t hb => exact ⟨pad_eq t, hb, .inl rfl⟩
  | reopened t hb _ => exact ⟨pad_eq t, hb, .inl rfl⟩
  | @query c d _ ih =>
    refine ⟨ih.1, ih.2.1, .inr ?_⟩
    rcases ih.2.2 with h | h <;> simp [ServerDoc.query, h]
  | @change c d cs c' _ ha hb hm ih =>
    obtain ⟨⟨j, hj⟩, hbc, ht⟩ := ih
    obtain ⟨j', ha'⟩ := appliesAll_padded enc c cs c' j ha
    have hus : TableUsable d.text d.table cs := by
      rcases ht with ht | ht
      · exact .inl ht
      · rcases hm with hm | hm
        · exact .inl hm
        · exact .inr ⟨ht, hm⟩
    have hbd : Bmp enc d.text := by
      intro he x hx
      rw [hj] at hx
      simp only [List.mem_append, List.mem_replicate] at hx
      rcases hx with hx | ⟨-, rfl⟩
      · exact hbc he x hx
      · decide
    have hok := batch_complete_partial enc d.text d.table cs hus _ (hj ▸ ha') hbd hb
    have hres : d.change enc cs = { text := pad (c' ++ List.replicate j' '\n'), table := none } := by
      unfold ServerDoc.change
      split
      · rename_i t r heq
        rw [heq] at hok
        simp only [Except.ok.injEq] at hok
        rw [hok]
      · rename_i e r heq
        rw [heq] at hok
        simp at hok
    rw [hres]
    refine ⟨?_, appliesAll_bmp enc _ c cs c' ha hbc hb, .inl rfl⟩
    obtain ⟨k, hk⟩ := pad_eq (c' ++ List.replicate j' '\n')
    refine ⟨j' + k, ?_⟩
    rw [hk, List.append_assoc, List.replicate_append_replicate]

/-- C05 violated for a document that ends with a bare `\r`: after `open "a\r"` and inserting `x` at the
end, the client has `"a\rx"` but the server `"a\r\nx\n"`. -/
theorem server_copy_cr_violation :
    ∃ (c c' : List Char) (cs : List Change), AppliesAll (PosAt .utf16) c cs c' ∧
      ∀ j, ((ServerDoc.open c).change .utf16 cs).text ≠ c' ++ List.replicate j '\n' := by
  refine ⟨['a', '\r'], ['a', '\r', 'x'], [⟨some (⟨1, 0⟩, ⟨1, 0⟩), ['x']⟩], ?_, ?_⟩
  · have hs : splitLines ['a', '\r'] = [(['a'], ['\r']), ([], [])] := by decide +kernel
    exact .cons (text' := ['a', '\r', 'x']) ⟨['a', '\r'], [], [], rfl, ⟨[(['a'], ['\r'])], [], [], [], [], hs, rfl, rfl, rfl⟩,
      ⟨[(['a'], ['\r'])], [], [], [], [], hs, rfl, rfl, rfl⟩, rfl⟩ (.nil _)
  · intro j
    have : ((ServerDoc.open ['a', '\r']).change .utf16 [⟨some (⟨1, 0⟩, ⟨1, 0⟩), ['x']⟩]).text = ['a', '\r', '\n', 'x', '\n'] := by
      decide +kernel
    rw [this]
    simp

/-- C05 violated in UTF-16: appending after an emoji at the end of a line is dropped by the server. -/
theorem server_copy_astral_violation :
    ∃ (c c' : List Char) (cs : List Change), AppliesAll (PosAt .utf16) c cs c' ∧
      ∀ j, ((ServerDoc.open c).change .utf16 cs).text ≠ c' ++ List.replicate j '\n' := by
  refine ⟨['😀'], ['😀', 'x'], [⟨some (⟨0, 2⟩, ⟨0, 2⟩), ['x']⟩], ?_, ?_⟩
  · have hs : splitLines ['😀'] = [(['😀'], [])] := by decide +kernel
    exact .cons (text' := ['😀', 'x']) ⟨['😀'], [], [], rfl, ⟨[], ['😀'], [], [], [], hs, rfl, rfl, rfl⟩,
      ⟨[], ['😀'], [], [], [], hs, rfl, rfl, rfl⟩, rfl⟩ (.nil _)
  · intro j
    have : ((ServerDoc.open ['😀']).change .utf16 [⟨some (⟨0, 2⟩, ⟨0, 2⟩), ['x']⟩]).text = ['😀', '\n'] := by
      decide +kernel
    rw [this]
    simp

/-- The histories are inhabited: open, query, change. -/
example : ∃ c d, History .utf16 c d ∧ c = ['a', 'x'] ∧ d.text = ['a', 'x', '\n'] := by
  refine ⟨_, _, .change [⟨some (⟨0, 1⟩, ⟨0, 1⟩), ['x']⟩] ['a', 'x'] (.query (.opened ['a'] ?_)) ?_ ?_ (.inr (.inl ?_)), rfl, ?_⟩
  · intro _; decide
  · have hs : splitLines ['a'] = [(['a'], [])] := by decide +kernel
    exact .cons (text' := ['a', 'x']) ⟨['a'], [], [], rfl, ⟨⟨[], ['a'], [], [], [], hs, rfl, rfl, rfl⟩, by decide⟩,
      ⟨⟨[], ['a'], [], [], [], hs, rfl, rfl, rfl⟩, by decide⟩, rfl⟩ (.nil _)
  · intro ch hch _; simp at hch; subst hch; decide
  · decide
  · decide +kernel

end Verif.Lines
