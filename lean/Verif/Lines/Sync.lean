import Verif.Lines.Lemmas

namespace Verif.Lines

open Spec

/-- A line table is right for line `k` of a text (for a terminator `\r\n` the recorded end may be
that of the `\r`). -/
def TableOk (T : List Nat) (text : List Char) (k : Nat) : Prop :=
  (∀ A l t B, splitLines text = A ++ (l, t) :: B → A.length = k →
    (A = [] ∨ T[k - 1]? = some (size (textOf A))) ∧
    (if B = [] then T.length = k else
      ∃ d, T[k]? = some (size (textOf A) + size l + d) ∧ (d = size t ∨ (t = ['\r', '\n'] ∧ d = 1)))) ∧
  ((splitLines text).length ≤ k → T.length < k)

theorem tableOk_fresh (text : List Char) (k : Nat) : TableOk (lineEnds 0 text) text k := by
  constructor
  · intro A l t B h hk
    obtain ⟨h1, h2, h3⟩ := lineEnds_getElem? 0 text A l t B h
    subst hk
    refine ⟨by simpa using h1, ?_⟩
    split
    · rename_i hB; rw [if_pos hB] at h2; exact h2.1
    · rename_i hB; rw [if_neg hB] at h2; exact ⟨size t, by simpa using h2, .inl rfl⟩
  · intro hk
    cases h : splitLines text with
    | nil => exact absurd h (splitLines_ne_nil text)
    | cons a r =>
      obtain ⟨h1, h2, h3⟩ := lineEnds_getElem? 0 text [] a.1 a.2 r (by simpa using h)
      omega

theorem splitAt_line {α : Type} (L : List α) (k : Nat) (h : k < L.length) :
    ∃ A a B, L = A ++ a :: B ∧ A.length = k := by
  refine ⟨L.take k, L[k], L.drop (k + 1), ?_, by simp; omega⟩
  rw [← List.drop_eq_getElem_cons h, List.take_append_drop]

/-- What looking up a line in a right table gives. -/
theorem lineInfos_ok (T : List Nat) (text : List Char) (k : Nat) (hT : TableOk T text k) (A l t B)
    (h : splitLines text = A ++ (l, t) :: B) (hk : A.length = k) :
    ∃ l', lineInfos T text k = .ok (size (textOf A), l') ∧ (l' = l ∨ (t = ['\r', '\n'] ∧ l' = l ++ ['\r'])) := by
  obtain ⟨h1, h2⟩ := hT.1 A l t B h hk
  have htext : text = textOf A ++ (l ++ t ++ textOf B) := by
    rw [← textOf_splitLines text, h, textOf_append, textOf_cons]
  obtain ⟨hcl, hBt, hterm⟩ := splitLines_wf text A l t B h
  by_cases hB : B = []
  · rw [if_pos hB] at h2
    have ht := hBt hB
    subst hB ht
    refine ⟨l, ?_, .inl rfl⟩
    have hnone : T[k]? = none := by rw [List.getElem?_eq_none_iff]; omega
    unfold lineInfos
    rw [hnone]
    simp only [h2, if_true]
    by_cases hT0 : T = []
    · rw [if_pos hT0]
      subst hT0
      have hA : A = [] := by apply List.length_eq_zero_iff.mp; simp at h2; omega
      subst hA
      have h0 : textOf [] = [] := rfl
      simp only [h0, List.append_nil, List.nil_append] at htext
      rw [h0, htext]; rfl
    · rw [if_neg hT0]
      rcases h1 with rfl | h1
      · simp at hk
        subst hk
        exact absurd (List.length_eq_zero_iff.mp h2) hT0
      · have hs : splitAtByte text (size (textOf A)) = some (textOf A, l) := by
          rw [htext]
          have := splitAtByte_append (textOf A) (l ++ [] ++ textOf [])
          rw [this]; simp [textOf]
        rw [h1]
        simp only [hs]
  · rw [if_neg hB] at h2
    obtain ⟨d, hd, hd2⟩ := h2
    have hstart : (if k = 0 then some 0 else T[k - 1]?) = some (size (textOf A)) := by
      rcases h1 with rfl | h1
      · simp at hk; subst hk; simp [textOf, size]
      · split
        · rename_i h0
          rw [h0] at hk
          rw [List.length_eq_zero_iff.mp hk]; rfl
        · exact h1
    have hterm := hterm hB
    unfold lineInfos
    rw [hd]
    simp only [hstart]
    -- the slice up to one before the recorded end
    have fin : ∀ l' r, text = textOf A ++ l' ++ r → size (textOf A) + size l + d = size (textOf A) + size l' + 1 →
        (match slice text (size (textOf A)) (size (textOf A) + size l + d - 1) with
          | none => (Except.error Fail.panic : Except Fail (Nat × List Char))
          | some l => .ok (size (textOf A), l)) = .ok (size (textOf A), l') := by
      intro l' r e1 e2
      rw [e2, Nat.add_sub_cancel, e1, slice_append]
    have hd0 : d ≠ 0 := by
      rcases hd2 with rfl | ⟨_, rfl⟩
      · have := size_pos hterm.ne_nil; omega
      · omega
    rw [if_neg (by omega)]
    rcases hterm with rfl | rfl | ⟨rfl, -⟩
    · refine ⟨l, fin l (['\n'] ++ textOf B) (by rw [htext]; simp) ?_, .inl rfl⟩
      rcases hd2 with rfl | ⟨h, _⟩
      · rw [size_nl]
      · simp at h
    · rcases hd2 with rfl | ⟨_, rfl⟩
      · refine ⟨l ++ ['\r'], fin (l ++ ['\r']) (['\n'] ++ textOf B) (by rw [htext]; simp) ?_, .inr ⟨rfl, rfl⟩⟩
        rw [size_append, size_crlf, size_cr]; omega
      · exact ⟨l, fin l (['\r', '\n'] ++ textOf B) (by rw [htext]; simp) rfl, .inl rfl⟩
    · refine ⟨l, fin l (['\r'] ++ textOf B) (by rw [htext]; simp) ?_, .inl rfl⟩
      rcases hd2 with rfl | ⟨h, _⟩
      · rw [size_cr]
      · simp at h

/-- With a fresh table the line text is the content, plus the `\r` of a terminator `\r\n`. -/
theorem lineInfos_fresh (text : List Char) (A l t B) (h : splitLines text = A ++ (l, t) :: B) :
    lineInfos (lineEnds 0 text) text A.length =
      .ok (size (textOf A), if t = ['\r', '\n'] then l ++ ['\r'] else l) := by
  obtain ⟨l', h1, h2⟩ := lineInfos_ok _ text A.length (tableOk_fresh text _) A l t B h rfl
  split
  · rename_i ht
    rcases h2 with rfl | ⟨-, rfl⟩
    · -- the fresh table records the end of the `\n`
      exfalso
      obtain ⟨g1, g2, g3⟩ := lineEnds_getElem? 0 text A l' t B h
      obtain ⟨hcl, hBt, hterm⟩ := splitLines_wf text A l' t B h
      have hB : B ≠ [] := fun hB => by rw [hBt hB] at ht; simp at ht
      rw [if_neg hB] at g2
      have htext : text = textOf A ++ (l' ++ t ++ textOf B) := by
        rw [← textOf_splitLines text, h, textOf_append, textOf_cons]
      have hstart : (if A.length = 0 then some 0 else (lineEnds 0 text)[A.length - 1]?) = some (size (textOf A)) := by
        rcases g1 with rfl | g1
        · simp [textOf, size]
        · split
          · rename_i h0; rw [List.length_eq_zero_iff.mp h0]; rfl
          · simpa using g1
      unfold lineInfos at h1
      rw [g2] at h1
      simp only [hstart] at h1
      subst ht
      rw [size_crlf, if_neg (by omega)] at h1
      have : slice text (size (textOf A)) (0 + size (textOf A) + size l' + 2 - 1) = some (l' ++ ['\r']) := by
        have := slice_append (textOf A) (l' ++ ['\r']) ('\n' :: textOf B)
        rw [size_append, size_cr] at this
        rw [htext]
        rw [show 0 + size (textOf A) + size l' + 2 - 1 = size (textOf A) + (size l' + 1) by omega, ← this]
        simp
      rw [this] at h1
      simp at h1
    · exact h1
  · rename_i ht
    rcases h2 with rfl | ⟨h, -⟩
    · exact h1
    · exact absurd h ht

theorem lineInfos_bail (T : List Nat) (text : List Char) (k : Nat) (hT : TableOk T text k)
    (hk : (splitLines text).length ≤ k) : lineInfos T text k = .error .bail := by
  have := hT.2 hk
  unfold lineInfos
  rw [List.getElem?_eq_none (by omega)]
  simp only
  rw [if_neg (by omega)]

theorem safe_sound (enc : Enc) (T : List Nat) (text : List Char) (pos : Pos) (hT : TableOk T text pos.line)
    (b : Nat) (h : safeByte enc T text pos.line pos.col = .ok b) :
    ∃ pre post, text = pre ++ post ∧ b = size pre ∧ LaxPosAt enc text pos pre := by
  by_cases hk : (splitLines text).length ≤ pos.line
  · unfold safeByte lineColumnToByte at h
    rw [lineInfos_bail T text _ hT hk] at h
    simp at h
  · obtain ⟨A, ⟨l, t⟩, B, hs, hA⟩ := splitAt_line (splitLines text) pos.line (by omega)
    obtain ⟨l', h1, h2⟩ := lineInfos_ok T text pos.line hT A l t B hs hA
    have htext : text = textOf A ++ (l ++ t ++ textOf B) := by
      conv => lhs; rw [← textOf_splitLines text, hs, textOf_append, textOf_cons]
    unfold safeByte lineColumnToByte at h
    rw [h1] at h
    simp only at h
    cases hc : convert enc l' pos.col with
    | error e => simp [hc] at h
    | ok r =>
      obtain ⟨b', oob⟩ := r
      rw [hc] at h
      simp only at h
      split at h
      · simp at h
      · rename_i hoob
        simp only [Bool.not_eq_true] at hoob
        subst hoob
        simp only [Except.ok.injEq] at h
        obtain ⟨p, q, rfl, hw, rfl⟩ := convert_sound enc l' pos.col b' hc
        rcases h2 with rfl | ⟨rfl, h2⟩
        · refine ⟨textOf A ++ p, q ++ t ++ textOf B, by rw [htext]; simp, by rw [size_append]; omega, .inl ?_⟩
          exact ⟨A, p, q, t, B, hs, hA, hw, rfl⟩
        · rcases List.eq_nil_or_concat q with rfl | ⟨q0, c, rfl⟩
          · rw [List.append_nil] at h2
            subst h2
            refine ⟨textOf A ++ (l ++ ['\r']), ['\n'] ++ textOf B, by rw [htext]; simp, by rw [size_append]; omega, .inr ?_⟩
            refine ⟨A, l, B, hs, hA, ?_, by simp⟩
            rw [← hw, width_append]
            congr 1
            cases enc <;> decide
          · have : p ++ q0 = l ∧ c = '\r' := by
              have := congrArg List.reverse h2
              simp only [List.concat_eq_append, List.reverse_append, List.reverse_cons, List.reverse_nil, List.nil_append,
                List.cons_append, List.cons.injEq] at this
              refine ⟨?_, this.1⟩
              have := congrArg List.reverse this.2
              simpa using this
            obtain ⟨rfl, rfl⟩ := this
            refine ⟨textOf A ++ p, q0 ++ ['\r', '\n'] ++ textOf B, by rw [htext]; simp, by rw [size_append]; omega, .inl ?_⟩
            exact ⟨A, p, q0, _, B, hs, hA, hw, rfl⟩

theorem safe_complete (enc : Enc) (T : List Nat) (text : List Char) (pos : Pos) (hT : TableOk T text pos.line)
    (pre : List Char) (h : PosAt enc text pos pre) (hb : Bmp enc text) :
    safeByte enc T text pos.line pos.col = .ok (size pre) := by
  obtain ⟨A, p, q, t, B, hs, hA, hw, rfl⟩ := h
  obtain ⟨l', h1, h2⟩ := lineInfos_ok T text pos.line hT A (p ++ q) t B hs hA
  have htext : text = textOf A ++ (p ++ q ++ t ++ textOf B) := by
    rw [← textOf_splitLines text, hs, textOf_append, textOf_cons]
  have hbp : Bmp enc p := fun he c hc => hb he c (by rw [htext]; simp [hc])
  have : ∃ q', l' = p ++ q' := by
    rcases h2 with rfl | ⟨-, rfl⟩
    · exact ⟨q, rfl⟩
    · exact ⟨q ++ ['\r'], by simp⟩
  obtain ⟨q', rfl⟩ := this
  obtain ⟨oob, hc, ho⟩ := convert_offset enc p q'
  have := ho (.inl hbp)
  subst this
  unfold safeByte lineColumnToByte
  rw [h1]
  simp only [← hw, hc]
  simp [size_append]

theorem safe_no_panic (enc : Enc) (T : List Nat) (text : List Char) (line col : Nat) (hT : TableOk T text line) :
    safeByte enc T text line col ≠ .error .panic := by
  unfold safeByte lineColumnToByte
  by_cases hk : (splitLines text).length ≤ line
  · rw [lineInfos_bail T text _ hT hk]; simp
  · obtain ⟨A, ⟨l, t⟩, B, hs, hA⟩ := splitAt_line (splitLines text) line (by omega)
    obtain ⟨l', h1, h2⟩ := lineInfos_ok T text line hT A l t B hs hA
    rw [h1]
    simp only
    cases hc : convert enc l' col with
    | error e =>
      intro h
      simp only [Except.error.injEq] at h
      subst h
      exact convert_no_panic _ _ _ hc
    | ok r =>
      simp only
      split <;> simp

theorem Spec.PosAt.lax {enc text pos pre} (h : PosAt enc text pos pre) : LaxPosAt enc text pos pre := .inl h

/-- The addressed place splits the text after whole lines. -/
theorem Spec.LaxPosAt.split {enc text pos pre} (h : LaxPosAt enc text pos pre) :
    ∃ A p l t B, splitLines text = A ++ (l, t) :: B ∧ A.length = pos.line ∧ pre = textOf A ++ p ∧
      ∃ r, l ++ t = p ++ r := by
  rcases h with ⟨A, p, q, t, B, hs, hA, hw, rfl⟩ | ⟨A, l, B, hs, hA, hw, rfl⟩
  · exact ⟨A, p, p ++ q, t, B, hs, hA, rfl, q ++ t, by simp⟩
  · exact ⟨A, l ++ ['\r'], l, _, B, hs, hA, by simp, ['\n'], by simp⟩

theorem Spec.LaxPosAt.prefix {enc text pos pre} (h : LaxPosAt enc text pos pre) : ∃ post, text = pre ++ post := by
  obtain ⟨A, p, l, t, B, hs, hA, rfl, r, hr⟩ := h.split
  refine ⟨r ++ textOf B, ?_⟩
  have : text = textOf A ++ (l ++ t ++ textOf B) := by
    rw [← textOf_splitLines text, hs, textOf_append, textOf_cons]
  rw [this, hr]; simp

/-- Replacing everything after an addressed place keeps the table right for the lines before. -/
theorem tableOk_preserved (enc : Enc) (T : List Nat) (text : List Char) (pos : Pos) (pre Y : List Char)
    (h : LaxPosAt enc text pos pre) (k : Nat) (hk : k < pos.line) (hT : TableOk T text k) :
    TableOk T (pre ++ Y) k := by
  obtain ⟨A, p, l, t, B, hs, hA, rfl, r, hr⟩ := h.split
  obtain ⟨A1, ⟨l1, t1⟩, A2, rfl, hA1⟩ := splitAt_line A k (by omega)
  have hT1 := hT.1 A1 l1 t1 (A2 ++ (l, t) :: B) (by rw [hs]; simp) hA1
  rw [if_neg (by simp)] at hT1
  obtain ⟨hT1, d, hd, hd2⟩ := hT1
  have hpre := splitLines_prefix text (A1 ++ (l1, t1) :: A2) ((l, t) :: B) (by simp) hs (p ++ Y)
  rw [← List.append_assoc] at hpre
  constructor
  · intro A' l' t' B' h' hk'
    -- compare the two decompositions
    have key : ∀ R, splitLines (textOf (A1 ++ (l1, t1) :: A2) ++ p ++ Y) = A1 ++ R → A' = A1 ∧ R = (l', t') :: B' := by
      intro R hR
      rw [h'] at hR
      have := List.append_inj hR (by omega)
      exact ⟨this.1, this.2.symm⟩
    rcases hpre with hpre | ⟨A0, l0, Y', hA0, hY, hpre⟩
    · rw [List.append_assoc A1] at hpre
      obtain ⟨rfl, hR⟩ := key _ hpre
      simp only [List.cons_append, List.cons.injEq, Prod.mk.injEq] at hR
      obtain ⟨⟨rfl, rfl⟩, rfl⟩ := hR
      refine ⟨hT1, ?_⟩
      rw [if_neg (by simp [splitLines_ne_nil])]
      exact ⟨d, hd, hd2⟩
    · -- the final `\r` was completed
      rcases List.eq_nil_or_concat A2 with rfl | ⟨A3, a, rfl⟩
      · have : A1 = A0 ∧ (l1, t1) = (l0, ['\r']) := by
          have := List.append_inj' hA0 rfl
          exact ⟨this.1, by simpa using this.2⟩
        obtain ⟨rfl, e⟩ := this
        simp only [Prod.mk.injEq] at e
        obtain ⟨rfl, rfl⟩ := e
        obtain ⟨rfl, hR⟩ := key _ hpre
        simp only [List.cons.injEq, Prod.mk.injEq] at hR
        obtain ⟨⟨rfl, rfl⟩, rfl⟩ := hR
        refine ⟨hT1, ?_⟩
        rw [if_neg (by simp [splitLines_ne_nil])]
        refine ⟨d, hd, .inr ⟨rfl, ?_⟩⟩
        rcases hd2 with rfl | ⟨h, _⟩
        · rw [size_cr]
        · simp at h
      · have : A1 ++ (l1, t1) :: A3 = A0 := by
          have h2 : A1 ++ (l1, t1) :: A3 ++ [a] = A0 ++ [(l0, ['\r'])] := by
            rw [← hA0]; simp
          exact (List.append_inj' h2 rfl).1
        subst this
        rw [List.append_assoc A1] at hpre
        obtain ⟨rfl, hR⟩ := key _ hpre
        simp only [List.cons_append, List.cons.injEq, Prod.mk.injEq] at hR
        obtain ⟨⟨rfl, rfl⟩, rfl⟩ := hR
        refine ⟨hT1, ?_⟩
        rw [if_neg (by simp)]
        exact ⟨d, hd, hd2⟩
  · intro hlen
    exfalso
    rcases hpre with hpre | ⟨A0, l0, Y', hA0, hY, hpre⟩
    · rw [hpre] at hlen; simp at hlen; omega
    · rw [hpre] at hlen
      have := congrArg List.length hA0
      simp at hlen this
      omega

theorem replaceRange_ok (pre mid post new : List Char) :
    replaceRange (pre ++ mid ++ post) (size pre) (size (pre ++ mid)) new = .ok (pre ++ new ++ post) := by
  unfold replaceRange
  rw [splitAtByte_append]
  simp only [splitAtByte_append]

/-- Positions in order designate places in order. -/
theorem Spec.LaxPosAt.mono {enc text a b pa pb} (ha : LaxPosAt enc text a pa) (hb : LaxPosAt enc text b pb)
    (h : a.gt b = false) : ∃ mid, pb = pa ++ mid := by
  -- both are prefixes of the text; compare sizes through lines and columns
  obtain ⟨qa, hqa⟩ := ha.prefix
  obtain ⟨qb, hqb⟩ := hb.prefix
  by_cases hle : size pa ≤ size pb
  · obtain ⟨m, h1, _⟩ := prefix_of_size_le (hqa ▸ hqb) hle
    exact ⟨m, h1⟩
  exfalso
  have hle : size pb < size pa := by omega
  unfold Pos.gt at h
  simp only [decide_eq_false_iff_not, not_or, not_and] at h
  obtain ⟨A, p, l, t, B, hs, hA, rfl, r, hr⟩ := ha.split
  obtain ⟨A', p', l', t', B', hs', hA', rfl, r', hr'⟩ := hb.split
  by_cases hline : a.line = b.line
  · have hAA : A = A' := by
      rw [hs] at hs'
      exact (List.append_inj hs' (by omega)).1
    subst hAA
    have hcol := h.2 hline
    -- same line: widths decide
    have wp : ∀ {pos : Pos} {pre : List Char}, LaxPosAt enc text pos pre → pos.line = a.line →
        ∃ q, pre = textOf A ++ q ∧ width enc q = pos.col := by
      intro pos pre hp hl
      rcases hp with ⟨A2, p2, q2, t2, B2, hs2, hA2, hw2, rfl⟩ | ⟨A2, l2, B2, hs2, hA2, hw2, rfl⟩
      · have : A2 = A := by rw [hs] at hs2; exact (List.append_inj hs2 (by omega)).1.symm
        subst this
        exact ⟨p2, rfl, hw2⟩
      · have : A2 = A := by rw [hs] at hs2; exact (List.append_inj hs2 (by omega)).1.symm
        subst this
        refine ⟨l2 ++ ['\r'], by simp, ?_⟩
        rw [← hw2, width_append]
        congr 1
        cases enc <;> decide
    obtain ⟨q1, e1, w1⟩ := wp ha rfl
    obtain ⟨q2, e2, w2⟩ := wp hb hline.symm
    have e1 := List.append_cancel_left e1
    have e2 := List.append_cancel_left e2
    subst e1 e2
    -- `p'` is a strict prefix of `p`
    obtain ⟨m, hm, -⟩ := prefix_of_size_le (hqb ▸ hqa : (textOf A ++ p') ++ qb = (textOf A ++ p) ++ qa) (by omega)
    rw [List.append_assoc] at hm
    have hm := List.append_cancel_left hm
    subst hm
    have : m ≠ [] := by
      intro h; subst h; simp at hle
    have := width_pos enc this
    rw [width_append] at w1
    omega
  · -- an earlier line
    have hlt : a.line < b.line := by omega
    have : ∃ A2, A' = A ++ (l, t) :: A2 := by
      have hpre : A ++ (l, t) :: B = A' ++ (l', t') :: B' := by rw [← hs, hs']
      rw [List.append_eq_append_iff] at hpre
      rcases hpre with ⟨as, h1, h2⟩ | ⟨as, h1, h2⟩
      · cases as with
        | nil => simp at h1; subst h1; omega
        | cons x as =>
          simp only [List.cons_append, List.cons.injEq] at h2
          exact ⟨as, by rw [h1, ← h2.1]⟩
      · subst h1
        simp at hA; omega
    obtain ⟨A2, rfl⟩ := this
    rw [size_append, size_append, textOf_append, size_append, textOf_cons, hr] at hle
    simp only [size_append] at hle
    omega

/-! ### The loop -/

/-- Invariant of the loop: the table in use is right for all lines below `indexValid`. -/
def SyncInv (s : SyncState) : Prop :=
  ∀ T, s.table = some T → ∀ k, k < s.indexValid → TableOk T s.text k

theorem table_ok_of_inv {s : SyncState} (h : SyncInv s) (n : Nat) (k : Nat) (hk : k ≤ n) :
    TableOk ((if decide (n ≥ s.indexValid) then none else s.table).getD (lineEnds 0 s.text)) s.text k := by
  by_cases hn : n ≥ s.indexValid
  · simp only [hn, decide_true, if_true, Option.getD_none]
    exact tableOk_fresh _ _
  · simp only [hn, decide_false, Bool.false_eq_true, if_false]
    cases ht : s.table with
    | none => exact tableOk_fresh _ _
    | some T => exact h T ht k (by omega)

theorem syncStep_sound (enc : Enc) (s : SyncState) (c : Change) (hc : c.range.isSome) (h : SyncInv s)
    (s' : SyncState) (r) (he : syncStep enc s c = (.ok s', r)) :
    Applies (LaxPosAt enc) s.text c s'.text ∧ SyncInv s' := by
  obtain ⟨range, new⟩ := c
  cases range with
  | none => simp at hc
  | some rg =>
    obtain ⟨rs, re⟩ := rg
    unfold syncStep at he
    simp only at he
    split at he
    · simp at he
    rename_i hgt
    simp only [Bool.not_eq_true] at hgt
    have hrl : rs.line ≤ re.line := by
      unfold Pos.gt at hgt
      simp only [decide_eq_false_iff_not, not_or] at hgt
      omega
    have hTs := table_ok_of_inv h re.line rs.line hrl
    have hTe := table_ok_of_inv h re.line re.line (Nat.le_refl _)
    have hTk := fun k hk => table_ok_of_inv h re.line k hk
    generalize ((if decide (re.line ≥ s.indexValid) then none else s.table).getD (lineEnds 0 s.text)) = T at *
    cases h1 : safeByte enc T s.text rs.line rs.col with
    | error e => simp [h1] at he
    | ok b1 =>
      cases h2 : safeByte enc T s.text re.line re.col with
      | error e => simp [h1, h2] at he
      | ok b2 =>
        obtain ⟨p1, q1, e1, rfl, l1⟩ := safe_sound enc T s.text rs hTs b1 h1
        obtain ⟨p2, q2, e2, rfl, l2⟩ := safe_sound enc T s.text re hTe b2 h2
        obtain ⟨mid, rfl⟩ := l1.mono l2 hgt
        simp only [h1, h2] at he
        rw [e2, replaceRange_ok] at he
        simp only [Prod.mk.injEq, Except.ok.injEq] at he
        obtain ⟨rfl, -⟩ := he
        refine ⟨⟨p1, mid, q2, e2, l1, l2, rfl⟩, ?_⟩
        intro T' hT' k hk
        simp only [Option.some.injEq] at hT'
        subst hT'
        simp only at hk ⊢
        rw [List.append_assoc]
        exact tableOk_preserved enc T s.text rs p1 _ l1 k hk (hTk k (by omega))

theorem syncLoop_sound (enc : Enc) (s : SyncState) (cs : List Change) (hc : ∀ c ∈ cs, c.range.isSome)
    (h : SyncInv s) (text' : List Char) (r) (he : syncLoop enc s cs = (.ok text', r)) :
    AppliesAll (LaxPosAt enc) s.text cs text' := by
  induction cs generalizing s with
  | nil =>
    simp only [syncLoop, Prod.mk.injEq, Except.ok.injEq] at he
    rw [← he.1]; exact .nil _
  | cons c cs ih =>
    rw [syncLoop] at he
    split at he
    · simp at he
    · rename_i s' r' hs
      obtain ⟨h1, h2⟩ := syncStep_sound enc s c (hc c (by simp)) h s' r' hs
      exact .cons h1 (ih s' (fun c hc' => hc c (by simp [hc'])) h2 he)

theorem syncStep_complete (enc : Enc) (s : SyncState) (c : Change) (hc : c.range.isSome) (h : SyncInv s)
    (text' : List Char) (ha : Applies (PosAt enc) s.text c text') (hb : Bmp enc s.text) :
    ∃ s' r, syncStep enc s c = (.ok s', r) ∧ s'.text = text' ∧ SyncInv s' := by
  obtain ⟨range, new⟩ := c
  cases range with
  | none => simp at hc
  | some rg =>
    obtain ⟨rs, re⟩ := rg
    obtain ⟨pre, mid, post, htext, l1, l2, rfl⟩ := ha
    have hgt : rs.gt re = false := by
      -- otherwise the places would be in the opposite order
      cases hne : rs.gt re with
      | false => rfl
      | true =>
      exfalso
      have hge : re.gt rs = false := by
        unfold Pos.gt at hne ⊢
        simp only [decide_eq_true_eq, decide_eq_false_iff_not] at hne ⊢
        omega
      obtain ⟨m, hm⟩ := l2.lax.mono l1.lax hge
      have : mid = [] := by
        have := congrArg List.length hm
        simp only [List.length_append] at this
        apply List.length_eq_zero_iff.mp; omega
      subst this
      -- same place, but then the positions are equal
      rw [List.append_nil] at l2
      obtain ⟨A, p, q, t, B, hs, hA, hw, e1⟩ := l1
      obtain ⟨A', p', q', t', B', hs', hA', hw', e2⟩ := l2
      unfold Pos.gt at hne
      simp only [decide_eq_true_eq] at hne
      rcases hne with hne | ⟨hl, hne⟩
      · -- `A'` is a proper prefix of `A`
        have : ∃ A2, A = A' ++ (p' ++ q', t') :: A2 := by
          have hpre : A ++ (p ++ q, t) :: B = A' ++ (p' ++ q', t') :: B' := by rw [← hs, hs']
          rw [List.append_eq_append_iff] at hpre
          rcases hpre with ⟨as, h1, h2⟩ | ⟨as, h1, h2⟩
          · subst h1; simp at hA'; omega
          · cases as with
            | nil => simp at h1; subst h1; omega
            | cons x as =>
              simp only [List.cons_append, List.cons.injEq] at h2
              exact ⟨as, by rw [h1, ← h2.1]⟩
        obtain ⟨A2, rfl⟩ := this
        have hwf := splitLines_wf s.text A' (p' ++ q') t' (A2 ++ (p ++ q, t) :: B) (by rw [hs]; simp)
        have ht := (hwf.2.2 (by simp)).length_pos
        rw [e1, textOf_append, textOf_cons] at e2
        have := congrArg List.length e2
        simp only [List.length_append] at this
        omega
      · have : A = A' := by rw [hs] at hs'; exact (List.append_inj hs' (by omega)).1
        subst this
        rw [e1] at e2
        have := List.append_cancel_left e2
        subst this
        omega
    have hrl : rs.line ≤ re.line := by
      unfold Pos.gt at hgt
      simp only [decide_eq_false_iff_not, not_or] at hgt
      omega
    have hTs := table_ok_of_inv h re.line rs.line hrl
    have hTe := table_ok_of_inv h re.line re.line (Nat.le_refl _)
    have hTk := fun k hk => table_ok_of_inv h re.line k hk
    have e1 := safe_complete enc _ s.text rs hTs pre l1 hb
    have e2 := safe_complete enc _ s.text re hTe (pre ++ mid) l2 hb
    unfold syncStep
    simp only [hgt, Bool.false_eq_true, if_false]
    generalize ((if decide (re.line ≥ s.indexValid) then none else s.table).getD (lineEnds 0 s.text)) = T at *
    simp only [e1, e2]
    have hrep : replaceRange s.text (size pre) (size (pre ++ mid)) new = .ok (pre ++ new ++ post) := by
      rw [htext, replaceRange_ok]
    simp only [hrep]
    refine ⟨_, _, rfl, rfl, ?_⟩
    intro T' hT' k hk
    simp only [Option.some.injEq] at hT'
    subst hT'
    simp only at hk ⊢
    rw [List.append_assoc]
    exact tableOk_preserved enc T s.text rs pre _ l1.lax k hk (hTk k (by omega))

theorem Spec.Applies.bmp {enc P text c text'} (hc : c.range.isSome) (h : Applies P text c text') (h1 : Bmp enc text)
    (h2 : Bmp enc c.text) : Bmp enc text' := by
  obtain ⟨range, new⟩ := c
  cases range with
  | none => simp at hc
  | some rg =>
    obtain ⟨pre, mid, post, rfl, -, -, rfl⟩ := h
    intro he c hc
    have h1 := h1 he
    have h2 := h2 he
    simp only [List.mem_append] at hc h1
    rcases hc with (hc | hc) | hc
    · exact h1 c (.inl (.inl hc))
    · exact h2 c hc
    · exact h1 c (.inr hc)

theorem syncLoop_complete (enc : Enc) (s : SyncState) (cs : List Change) (hc : ∀ c ∈ cs, c.range.isSome)
    (h : SyncInv s) (text' : List Char) (ha : AppliesAll (PosAt enc) s.text cs text') (hb : Bmp enc s.text)
    (hbc : ∀ c ∈ cs, Bmp enc c.text) : (syncLoop enc s cs).1 = .ok text' := by
  induction cs generalizing s with
  | nil => cases ha; rfl
  | cons c cs ih =>
    rcases ha with _ | ⟨h1, h2⟩
    obtain ⟨s', r, hs, rfl, hi⟩ := syncStep_complete enc s c (hc c (by simp)) h _ h1 hb
    rw [syncLoop, hs]
    exact ih s' (fun c hc' => hc c (by simp [hc'])) hi h2
      (Applies.bmp (hc c (by simp)) h1 hb (hbc c (by simp))) (fun c hc' => hbc c (by simp [hc']))

theorem syncStep_no_panic (enc : Enc) (s : SyncState) (c : Change) (h : SyncInv s) :
    (syncStep enc s c).1 ≠ .error .panic := by
  obtain ⟨range, new⟩ := c
  cases range with
  | none => simp [syncStep]
  | some rg =>
    obtain ⟨rs, re⟩ := rg
    unfold syncStep
    simp only
    split
    · simp
    rename_i hgt
    simp only [Bool.not_eq_true] at hgt
    have hrl : rs.line ≤ re.line := by
      unfold Pos.gt at hgt
      simp only [decide_eq_false_iff_not, not_or] at hgt
      omega
    have hTs := table_ok_of_inv h re.line rs.line hrl
    have hTe := table_ok_of_inv h re.line re.line (Nat.le_refl _)
    generalize ((if decide (re.line ≥ s.indexValid) then none else s.table).getD (lineEnds 0 s.text)) = T at *
    cases h1 : safeByte enc T s.text rs.line rs.col with
    | error e =>
      have := safe_no_panic enc T s.text rs.line rs.col hTs
      rw [h1] at this
      simpa using this
    | ok b1 =>
      cases h2 : safeByte enc T s.text re.line re.col with
      | error e =>
        have := safe_no_panic enc T s.text re.line re.col hTe
        rw [h2] at this
        simpa using this
      | ok b2 =>
        obtain ⟨p1, q1, e1, rfl, l1⟩ := safe_sound enc T s.text rs hTs b1 h1
        obtain ⟨p2, q2, e2, rfl, l2⟩ := safe_sound enc T s.text re hTe b2 h2
        obtain ⟨mid, rfl⟩ := l1.mono l2 hgt
        have hrep : replaceRange s.text (size p1) (size (p1 ++ mid)) new = .ok (p1 ++ new ++ q2) := by
          rw [e2, replaceRange_ok]
        simp [hrep]

theorem syncLoop_no_panic (enc : Enc) (s : SyncState) (cs : List Change) (hc : ∀ c ∈ cs, c.range.isSome)
    (h : SyncInv s) : (syncLoop enc s cs).1 ≠ .error .panic := by
  induction cs generalizing s with
  | nil => simp [syncLoop]
  | cons c cs ih =>
    rw [syncLoop]
    have := syncStep_no_panic enc s c h
    split
    · rename_i hs
      rw [hs] at this
      simpa using this
    · rename_i s' r' hs
      exact ih s' (fun c hc' => hc c (by simp [hc'])) (syncStep_sound enc s c (hc c (by simp)) h s' r' hs).2

end Verif.Lines
