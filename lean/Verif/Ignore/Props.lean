import Verif.Ignore.Fix

/-!
C46: which errors `type: ignore` comments suppress.
C63: the quick fix that adds an ignore comment makes the error disappear.
C64: inline `# mypy:` directives and the comment that ignores a whole file.
-/

namespace Verif.Ignore
open Spec

/-! ### C46 -/

/-- The text searched for ignore comments is exactly the text from the start of the error to the
end of the line on which the error ends. -/
theorem region_exact (code : Text) (start stop : Nat) (h1 : start ≤ stop) (h2 : stop ≤ code.length)
    (region : Text) : LinesOf code start stop region ↔ relevantRegion code start stop = region := by
  constructor
  · intro h
    exact linesOf_unique _ _ _ _ _ (relevantRegion_lines code start stop h1 h2) h
  · rintro rfl
    exact relevantRegion_lines code start stop h1 h2

example : LinesOf "a(\nb) # c\nd".toList 2 4 "\nb) # c".toList := by
  rw [region_exact _ _ _ (by decide) (by decide)]
  decide

/-- An issue is suppressed if and only if its lines contain a comment that covers it: an ignore
without codes, or one that lists the code of the error or its parent code.  Issues without a code
(notes) are covered by every ignore comment.  What counts as a comment is any text after a `#`,
which includes `#` in string literals (see `string_literal_violation`); this is the part of the
claim that is missing. -/
theorem suppressed_iff_partial (code : Text) (start stop : Nat) (i : Issue) (h1 : start ≤ stop)
    (h2 : stop ≤ code.length) :
    suppressed code start stop i = true ↔
      ∃ region seg, LinesOf code start stop region ∧ HasComment region seg ∧
        Covers seg i.code i.parent := by
  unfold suppressed ignoreFor
  rw [region_covers]
  constructor
  · rintro ⟨seg, h, hc⟩
    exact ⟨_, seg, relevantRegion_lines code start stop h1 h2, h, hc⟩
  · rintro ⟨region, seg, hl, h, hc⟩
    rw [(region_exact code start stop h1 h2 region).1 hl]
    exact ⟨seg, h, hc⟩

example : suppressed "x = 1 + ''  # type: ignore[foo, operator]".toList 4 10
    ⟨some "operator".toList, none⟩ = true := by decide
example : suppressed "x = 1 + ''  # type: ignore[foo]".toList 4 10
    ⟨some "operator".toList, none⟩ = false := by decide
example : suppressed "x = 1 + ''  # foo # zuban:ignore".toList 4 10
    ⟨some "operator".toList, none⟩ = true := by decide
example : suppressed "f(  # type: ignore[a]\n  x)  # type: ignore [ b ]".toList 0 27
    ⟨some "b".toList, some "c".toList⟩ = true := by decide

/-- The note about an uncovered code is given exactly when there is a comment with codes, none
without, and no listed code covers the error; it names the code of the error. -/
theorem not_covered_note (s : Nat) (region : Text) (i : Issue) (c : Text) :
    (isIgnored i (ignoreForRegion s region)).2.1 = some c ↔
      i.code = some c ∧ (∃ seg word codes, HasComment region seg ∧ Coded seg word codes) ∧
        ¬ ∃ seg, HasComment region seg ∧ Covers seg i.code i.parent := by
  have hcov := region_covers i s region
  have hany := region_covers ⟨none, none⟩ s region
  constructor
  · intro h
    cases hr : ignoreForRegion s region with
    | none => rw [hr] at h; cases h
    | some r =>
      cases r with
      | withoutCode => rw [hr] at h; cases h
      | withCodes k codes n l =>
        rw [hr] at h hcov hany
        rw [isIgnored_codes] at hcov hany
        by_cases ha : ((codes :: l).flatMap (splitOn (· == ','))).any (codeMatches i) = true
        · simp only [isIgnored, if_pos ha] at h
          cases h
        · simp only [isIgnored, if_neg ha] at h
          have hno : ¬ ∃ seg, HasComment region seg ∧ Covers seg i.code i.parent :=
            fun hx => ha (hcov.2 hx)
          refine ⟨h, ?_, hno⟩
          have : ∃ seg, HasComment region seg ∧ Covers seg none none := by
            rw [← hany, List.any_eq_true]
            obtain ⟨x, hx⟩ := List.exists_mem_of_ne_nil _ (splitOn_ne_nil (· == ',') codes)
            exact ⟨x, by simp [hx], by simp [codeMatches]⟩
          obtain ⟨seg, h1, h2 | ⟨word, cs, h2, _⟩⟩ := this
          · exact absurd ⟨seg, h1, Or.inl h2⟩ hno
          · exact ⟨seg, word, cs, h1, h2⟩
  · rintro ⟨hc, ⟨seg, word, codes, h1, h2⟩, hno⟩
    have hsome : (isIgnored ⟨none, none⟩ (ignoreForRegion s region)).1 = true :=
      hany.2 ⟨seg, h1, Or.inr ⟨word, codes, h2, Or.inl rfl⟩⟩
    have hnot : ¬ (isIgnored i (ignoreForRegion s region)).1 = true := fun h => hno (hcov.1 h)
    cases hr : ignoreForRegion s region with
    | none => rw [hr] at hsome; cases hsome
    | some r =>
      rw [hr] at hnot
      cases r with
      | withoutCode => exact absurd rfl hnot
      | withCodes k cs n l =>
        rw [isIgnored_codes] at hnot
        simp only [isIgnored, if_neg hnot, hc]

example : (isIgnored ⟨some "b".toList, none⟩ (ignoreForRegion 0 "x # type: ignore[a]".toList)).2.1 =
    some "b".toList := by decide

/-- Text in a string literal is taken for a comment: the whole statement below is a string, it has
no comment, and yet the error is suppressed. -/
theorem string_literal_violation :
    suppressed "x: int = 'a # type: ignore comment'".toList 0 35 ⟨some "assignment".toList, none⟩ = true := by
  decide

/-! ### C63 -/

/-- Adding a code to an ignore comment that has codes: the code of the error goes into the brackets
of the first ignore comment, and after the edit the error is suppressed; everything listed before is
still listed.  The missing case: the brackets end in a tab (`fix_existing_violation`). -/
theorem fix_existing_partial (code : Text) (position : Nat) (leaf : Leaf) (rest : List Leaf)
    (ins : Insertion) (kind : Kind) (err text : Text) (i : Issue)
    (hpos : position ≤ code.length)
    (hins : insertionPoint code position leaf rest = some ins)
    (hpre : ins.preexisting ≠ none)
    (htext : formatForKind ins kind err = some text)
    (hcode : i.code = some err)
    (herr : ∀ c ∈ err, c ≠ ',' ∧ c ≠ ' ' ∧ c ≠ '#' ∧ ¬ LineBreak c)
    (htab : ∀ c ∈ code, isAsciiSpace c = true → c = ' ' ∨ LineBreak c) :
    (∀ stop, position ≤ stop → stop ≤ (applyInsert code ins.index text).length →
      suppressed (applyInsert code ins.index text) position stop i = true) ∧
    ∃ pre old new post,
      code = pre ++ ['['] ++ old ++ [']'] ++ post ∧
      applyInsert code ins.index text = pre ++ ['['] ++ new ++ [']'] ++ post ∧
      Lists new err ∧ ∀ c, Lists old c → Lists new c := by
  unfold insertionPoint at hins
  cases hi : ignoreFor code position position with
  | none =>
    rw [hi] at hins
    simp only at hins
    exfalso
    split at hins
    · cases hins
    · split at hins
      · cases hins
      · cases hins; exact hpre rfl
  | some cm =>
    rw [hi] at hins
    cases cm with
    | withoutCode => cases hins
    | withCodes k codes n l =>
      cases hins
      simp only [formatForKind] at htext
      split at htext
      · cases htext
      · rename_i hk
        cases htext
        have hlines := relevantRegion_lines code position position (Nat.le_refl _) hpos
        unfold ignoreFor at hi
        generalize relevantRegion code position position = region at hi hlines
        obtain ⟨before, line, after, hc, hb, ⟨hd, hh, hdl⟩, hl, ha⟩ := hlines
        have : region = line := (List.append_inj hh (by omega)).2
        subst this
        obtain ⟨pre, seg, post, hr, hs1, hs2, hp⟩ := region_first _ _ hl _ _ _ _ hi
        obtain ⟨a, b, c, d, hseg, hne, hn⟩ := parse_index _ _ _ _ _ hp
        generalize hX : spaces a ++ kindText k ++ [':'] ++ spaces b ++ ignoreWord ++ spaces c ++ ['[']
          = X at hseg hn
        have hsub : ∀ x ∈ codes, x ∈ region := by
          intro x hx
          rw [hr, hseg]
          simp [hx]
        obtain ⟨w, hw⟩ := trimAsciiEnd_spaces codes (by
          intro x hx hsp
          rcases htab x (by rw [hc]; simp [hsub x hx]) hsp with h | h
          · exact h
          · exact absurd h (hl x (hsub x hx)))
        generalize trimAsciiEnd codes = T at hw ⊢
        have hnew : applyInsert code (n + T.length) ([',', ' '] ++ err) =
            before ++ (pre ++ '#' :: ((X ++ (T ++ [',', ' '] ++ err ++ spaces w) ++
              ([']'] ++ spaces d)) ++ post)) ++ after := by
          have e1 : code = (before ++ pre ++ ['#'] ++ X ++ T) ++
              (spaces w ++ [']'] ++ spaces d ++ post ++ after) := by
            rw [hc, hr, hseg, hw]; simp
          have e2 : (before ++ pre ++ ['#'] ++ X ++ T).length = n + T.length := by
            rw [hn, ← hb]; simp; omega
          unfold applyInsert
          conv => lhs; rw [e1, ← e2]
          rw [List.take_left, List.drop_left]
          simp
        have hlists : Lists (T ++ [',', ' '] ++ err ++ spaces w) err := by
          refine ⟨T ++ [','], 1, w, [], by simp [spaces], ?_, ?_, ?_, ?_, ?_⟩
          · intro x r hx
            have := List.append_inj_right' hx rfl
            simpa using this.symm
          · intro x r hx; cases hx
          · intro x hx; exact (herr x hx).1
          · intro x r hx; exact (herr x (by rw [hx]; simp)).2.1
          · intro x r hx; exact (herr x (by rw [hx]; simp)).2.1
        have hmem : ∀ x ∈ T ++ [',', ' '] ++ err ++ spaces w, x ≠ '#' ∧ ¬ LineBreak x := by
          intro x hx
          simp only [List.mem_append] at hx
          rcases hx with ((hx | hx) | hx) | hx
          · have h1 : x ∈ codes := by rw [hw]; simp [hx]
            exact ⟨hs1 x (by rw [hseg]; simp [h1]), hl x (hsub x h1)⟩
          · simp at hx; rcases hx with rfl | rfl <;> simp [LineBreak]
          · exact (herr x hx).2.2
          · have := List.eq_of_mem_replicate hx
            subst this; simp [LineBreak]
        have hold : ∀ x ∈ X ++ ([']'] ++ spaces d) ++ pre ++ post, ¬ LineBreak x := by
          intro x hx
          apply hl x
          rw [hr, hseg]
          simp at hx ⊢
          rcases hx with h | h | h | h | h <;> simp [h]
        have hold2 : ∀ x ∈ X ++ ([']'] ++ spaces d), x ≠ '#' := by
          intro x hx
          apply hs1 x
          rw [hseg]
          simp at hx ⊢
          rcases hx with h | h | h <;> simp [h]
        refine ⟨?_, ?_⟩
        · intro stop hs hle
          rw [hnew] at hle ⊢
          unfold suppressed ignoreFor
          rw [region_covers]
          refine ⟨X ++ (T ++ [',', ' '] ++ err ++ spaces w) ++ ([']'] ++ spaces d), ?_, ?_⟩
          · rw [← hb]
            refine hasComment_first_line before _ after stop _ ?_ ha (by omega) hle ?_
            · intro x hx
              rw [List.mem_append, List.mem_cons, List.mem_append, List.mem_append,
                List.mem_append] at hx
              rcases hx with hx | rfl | ((hx | hx) | hx) | hx
              · exact hold x (by simp [hx])
              · simp [LineBreak]
              · exact hold x (by simp [hx])
              · exact (hmem x hx).2
              · exact hold x (by rw [List.mem_append, List.mem_append, List.mem_append]; simp only [hx, or_true, true_or])
              · exact hold x (by simp [hx])
            · refine ⟨pre, post, rfl, ?_, ?_⟩
              · intro x hx
                rw [List.mem_append, List.mem_append] at hx
                rcases hx with (hx | hx) | hx
                · exact ⟨hold2 x (by simp [hx]), hold x (by simp [hx])⟩
                · exact hmem x hx
                · exact ⟨hold2 x (by rw [List.mem_append]; simp only [hx, or_true]), hold x (by rw [List.mem_append, List.mem_append, List.mem_append]; simp only [hx, or_true, true_or])⟩
              · intro x r hx; exact Or.inl (hs2 x r hx)
          · refine Or.inr ⟨kindText k, T ++ [',', ' '] ++ err ++ spaces w, ?_, Or.inr ⟨err, hlists, Or.inl hcode⟩⟩
            refine ⟨c, d, (marked_iff _ _ _).2 ⟨k, rfl, a, b, ?_⟩, by simp⟩
            rw [← hX]
            simp
        · refine ⟨before ++ (pre ++ '#' :: (spaces a ++ kindText k ++ [':'] ++ spaces b ++ ignoreWord ++
            spaces c)), codes, T ++ [',', ' '] ++ err ++ spaces w, spaces d ++ post ++ after, ?_, ?_,
            hlists, ?_⟩
          · rw [hc, hr, hseg, ← hX]; simp
          · rw [hnew, ← hX]; simp
          · intro x hx
            rw [hw] at hx
            have := lists_append T w (' ' :: (err ++ spaces w)) x hx
            simpa using this

example : insertionPoint "x = y  # type: ignore[a ]".toList 4 ⟨4, 5⟩ [] = some ⟨23, some .type⟩ := by
  decide
example : formatForKind ⟨23, some .type⟩ .type "b".toList = some ", b".toList := by decide
example : applyInsert "x = y  # type: ignore[a ]".toList 23 ", b".toList =
    "x = y  # type: ignore[a, b ]".toList := by decide

/-- With a tab at the end of the brackets the code is added in front of the tab, and the error is
still reported. -/
theorem fix_existing_violation :
    ∃ code ins text, insertionPoint code 0 ⟨0, 1⟩ [] = some ins ∧
      formatForKind ins .type "b".toList = some text ∧
      suppressed (applyInsert code ins.index text) 0 1 ⟨some "b".toList, none⟩ = false := by
  refine ⟨"x # type: ignore[a\t]".toList, ⟨18, some .type⟩, ", b".toList, ?_, ?_, ?_⟩ <;> decide

theorem lastLeaf_stop (P : Leaf → Prop) (lastValid : Nat) (leaf : Leaf) (rest : List Leaf)
    (h : ∀ l ∈ leaf :: rest, P l) : P (lastLeaf lastValid leaf rest) := by
  induction rest generalizing leaf with
  | nil => exact h leaf (by simp)
  | cons x xs ih =>
    rw [lastLeaf]
    split
    · exact ih x (fun l hl => h l (by simp at hl ⊢; exact Or.inr hl))
    · exact h leaf (by simp)

/-- Adding a new ignore comment: it is inserted on the line of the error, and when only spaces
follow the last token of the line (before a comment or the line break), the error is suppressed
after the edit.  The missing case: another kind of white space follows (`fix_new_violation`). -/
theorem fix_new_partial (code : Text) (position : Nat) (leaf : Leaf) (rest : List Leaf)
    (ins : Insertion) (kind : Kind) (err text : Text) (i : Issue)
    (hpos : position ≤ code.length)
    (hleaf : ∀ l ∈ leaf :: rest, position ≤ l.stop)
    (hins : insertionPoint code position leaf rest = some ins)
    (hpre : ins.preexisting = none)
    (htext : formatForKind ins kind err = some text)
    (hcode : i.code = some err)
    (herr : err ≠ [] ∧ ∀ c ∈ err, c ≠ ',' ∧ c ≠ ' ' ∧ c ≠ '#' ∧ ¬ LineBreak c)
    (hgap : ∃ g more, code.drop ins.index = spaces g ++ more ∧
      StopsAt (fun c => c = '#' ∨ LineBreak c) more) :
    ∀ stop, position ≤ stop → stop ≤ (applyInsert code ins.index text).length →
      suppressed (applyInsert code ins.index text) position stop i = true := by
  intro stop hs hle
  unfold insertionPoint at hins
  cases hi : ignoreFor code position position with
  | some cm =>
    rw [hi] at hins
    cases cm with
    | withoutCode => cases hins
    | withCodes k codes n l => cases hins; cases hpre
  | none =>
    rw [hi] at hins
    simp only at hins
    split at hins
    · cases hins
    · split at hins
      · cases hins
      · rename_i hlast
        cases hins
        simp only [formatForKind] at htext
        cases htext
        generalize hl0 : lastLeaf (position + ((code.drop position).takeWhile
          (fun c => !isNewline c)).length) leaf rest = lf at *
        have hge : position ≤ lf.stop := by
          rw [← hl0]; exact lastLeaf_stop (fun l => position ≤ l.stop) _ _ _ hleaf
        obtain ⟨after, hca, hcb, hcc⟩ := (takeWhile_eq_iff isNewline (code.drop position) _).1 rfl
        generalize (code.drop position).takeWhile (fun c => !isNewline c) = line at *
        -- split the line at the insertion point
        have hsplit : code = code.take position ++ (line ++ after) := by
          rw [← hca, List.take_append_drop]
        have hb : (code.take position).length = position := by simp; omega
        have hcut : line = line.take (lf.stop - position) ++ line.drop (lf.stop - position) := by
          rw [List.take_append_drop]
        generalize hP : line.take (lf.stop - position) = p1 at *
        generalize hQ : line.drop (lf.stop - position) = p2 at *
        have hp1 : p1.length = lf.stop - position := by rw [← hP]; simp; omega
        have hdrop : code.drop lf.stop = p2 ++ after := by
          have e2 : (code.take position ++ p1).length = lf.stop := by simp; omega
          have e3 : code = (code.take position ++ p1) ++ (p2 ++ after) := by
            rw [hcut] at hsplit
            simpa using hsplit
          have := congrArg (List.drop lf.stop) e3
          rw [this]
          exact List.drop_left' e2
        have htake : code.take lf.stop = code.take position ++ p1 := by
          have e2 : (code.take position ++ p1).length = lf.stop := by simp; omega
          have e3 : code = (code.take position ++ p1) ++ (p2 ++ after) := by
            rw [hcut] at hsplit
            simpa using hsplit
          have := congrArg (List.take lf.stop) e3
          rw [this]
          exact List.take_left' e2
        generalize htx : [' ', ' ', '#', ' '] ++ kindText kind ++ [':', ' '] ++ ignoreWord ++ ['['] ++ err ++
            [']'] = text at *
        have hnew : applyInsert code lf.stop text =
            code.take position ++ (p1 ++ text ++ p2) ++ after := by
          unfold applyInsert
          rw [hdrop, htake]; simp
        rw [hnew] at hle ⊢
        have hafter : StopsAt LineBreak after := fun c r h => (newline_iff c).1 (hcc c r h)
        have hline : ∀ c ∈ line, ¬ LineBreak c := fun c hc => (newline_false_iff c).1 (hcb c hc)
        obtain ⟨g, more, hg, hmore⟩ := hgap
        simp only at hg
        rw [hdrop] at hg
        -- the spaces belong to the line
        have hp2 : ∃ m2, p2 = spaces g ++ m2 ∧ StopsAt (fun c => c = '#' ∨ LineBreak c) m2 := by
          rcases List.append_eq_append_iff.1 hg with ⟨ex, h1, h2⟩ | ⟨ex, h1, h2⟩
          · cases ex with
            | nil => exact ⟨[], by simpa using h1.symm, by intro c r h; cases h⟩
            | cons x xs =>
              exfalso
              have hx : x = ' ' := by
                have : x ∈ spaces g := by rw [h1]; simp
                exact List.eq_of_mem_replicate this
              have := hafter x (xs ++ more) (by rw [h2]; rfl)
              rw [hx] at this
              simp [LineBreak] at this
          · refine ⟨ex, h1, ?_⟩
            intro c r h
            exact hmore c (r ++ after) (by rw [h2, h]; rfl)
        obtain ⟨m2, hp2, hm2⟩ := hp2
        unfold suppressed ignoreFor
        rw [region_covers]
        have hkt : ∀ x ∈ kindText kind, x ≠ '#' ∧ ¬ LineBreak x := by
          intro x hx
          cases kind <;> simp [kindText] at hx <;>
            rcases hx with rfl | rfl | rfl | rfl | rfl <;> simp [LineBreak]
        have hig : ∀ x ∈ ignoreWord, x ≠ '#' ∧ ¬ LineBreak x := by
          intro x hx
          simp [ignoreWord] at hx
          rcases hx with rfl | rfl | rfl | rfl | rfl | rfl <;> simp [LineBreak]
        have hseg : ∀ x ∈ [' '] ++ kindText kind ++ [':', ' '] ++ ignoreWord ++ ['['] ++ err ++ [']'] ++
            spaces g, x ≠ '#' ∧ ¬ LineBreak x := by
          intro x hx
          simp only [List.mem_append] at hx
          rcases hx with ((((((hx | hx) | hx) | hx) | hx) | hx) | hx) | hx
          · simp at hx; subst hx; simp [LineBreak]
          · exact hkt x hx
          · simp at hx; rcases hx with rfl | rfl <;> simp [LineBreak]
          · exact hig x hx
          · simp at hx; subst hx; simp [LineBreak]
          · exact (herr.2 x hx).2.2
          · simp at hx; subst hx; simp [LineBreak]
          · have := List.eq_of_mem_replicate hx
            subst this; simp [LineBreak]
        refine ⟨[' '] ++ kindText kind ++ [':', ' '] ++ ignoreWord ++ ['['] ++ err ++ [']'] ++ spaces g,
          ?_, ?_⟩
        · conv => arg 1; arg 2; rw [← hb]
          refine hasComment_first_line _ _ after stop _ ?_ hafter (by omega) hle ?_
          · intro x hx
            rw [List.mem_append, List.mem_append] at hx
            rcases hx with (hx | hx) | hx
            · exact hline x (by rw [hcut]; simp [hx])
            · rw [← htx] at hx
              have : x = ' ' ∨ x = '#' ∨ x ∈ [' '] ++ kindText kind ++ [':', ' '] ++ ignoreWord ++
                  ['['] ++ err ++ [']'] ++ spaces g := by
                simp at hx ⊢
                rcases hx with h | h | h | h | h | h | h | h | h | h <;> simp [h]
              rcases this with rfl | rfl | h
              · simp [LineBreak]
              · simp [LineBreak]
              · exact (hseg x h).2
            · exact hline x (by rw [hcut]; simp [hx])
          · refine ⟨p1 ++ [' ', ' '], m2, ?_, hseg, hm2⟩
            rw [← htx, hp2]; simp
        · refine Or.inr ⟨kindText kind, err, ⟨0, g, (marked_iff _ _ _).2 ⟨kind, rfl, 1, 1, ?_⟩, herr.1⟩,
            Or.inr ⟨err, ⟨[], 0, 0, [], by simp [spaces], by simp [StopsBefore], by simp [StopsAt],
              fun x hx => (herr.2 x hx).1, ?_, ?_⟩, Or.inl hcode⟩⟩
          · simp [spaces]
          · intro x r hx; exact (herr.2 x (by rw [hx]; simp)).2.1
          · intro x r hx; exact (herr.2 x (by rw [hx]; simp)).2.1

example : insertionPoint "x = y # c\nz".toList 4 ⟨4, 5⟩ [⟨9, 10⟩, ⟨10, 11⟩] = some ⟨5, none⟩ := by decide
example : applyInsert "x = y # c\nz".toList 5 "  # type: ignore[b]".toList =
    "x = y  # type: ignore[b] # c\nz".toList := by decide

/-- A tab between the code and an existing comment: the fix inserts `# type: ignore[b]` in front of
the tab, and the error is still reported. -/
theorem fix_new_violation :
    ∃ code ins text, insertionPoint code 0 ⟨0, 1⟩ [] = some ins ∧
      formatForKind ins .type "b".toList = some text ∧
      suppressed (applyInsert code ins.index text) 0 1 ⟨some "b".toList, none⟩ = false := by
  refine ⟨"x\t# c".toList, ⟨1, none⟩, "  # type: ignore[b]".toList, ?_, ?_, ?_⟩ <;> decide

/-! ### C64 -/

/-- The whole file is ignored if and only if the text before the first statement has an ignore
comment without codes; if all its ignore comments have codes an error about them is given, and if
there is none the file is checked. -/
theorem ignore_file (before : Text) :
    (ignoreAtStart before = .ok true ↔ ∃ seg, HasComment before seg ∧ Bare seg) ∧
    (ignoreAtStart before = .ok false ↔
      ¬ ∃ seg, HasComment before seg ∧ (Bare seg ∨ ∃ word codes, Coded seg word codes)) := by
  have hany := region_covers ⟨none, none⟩ 0 before
  have hbare := region_covers ⟨some [','], none⟩ 0 before
  have hnc : ∀ codes, ¬ Lists codes [','] := by
    rintro codes ⟨_, _, _, _, _, _, _, h, _⟩
    exact h ',' (by simp) rfl
  have e1 : (∃ seg, HasComment before seg ∧ Covers seg (some [',']) none) ↔
      ∃ seg, HasComment before seg ∧ Bare seg := by
    constructor
    · rintro ⟨seg, h, hb | ⟨_, codes, _, hx | ⟨c, hl, hx | hx⟩⟩⟩
      · exact ⟨seg, h, hb⟩
      · cases hx
      · cases hx; exact absurd hl (hnc codes)
      · cases hx
    · rintro ⟨seg, h, hb⟩
      exact ⟨seg, h, Or.inl hb⟩
  have e2 : (∃ seg, HasComment before seg ∧ Covers seg none none) ↔
      ∃ seg, HasComment before seg ∧ (Bare seg ∨ ∃ word codes, Coded seg word codes) := by
    constructor
    · rintro ⟨seg, h, hb | ⟨w, codes, hc, _⟩⟩
      · exact ⟨seg, h, Or.inl hb⟩
      · exact ⟨seg, h, Or.inr ⟨w, codes, hc⟩⟩
    · rintro ⟨seg, h, hb | ⟨w, codes, hc⟩⟩
      · exact ⟨seg, h, Or.inl hb⟩
      · exact ⟨seg, h, Or.inr ⟨w, codes, hc, Or.inl rfl⟩⟩
  rw [← e1, ← e2, ← hany, ← hbare]
  unfold ignoreAtStart
  cases hr : ignoreForRegion 0 before with
  | none => simp [isIgnored]
  | some r =>
    cases r with
    | withoutCode => simp [isIgnored]
    | withCodes k codes n l =>
      rw [isIgnored_codes, isIgnored_codes]
      constructor
      · constructor
        · intro h; cases h
        · intro h
          exfalso
          rw [List.any_eq_true] at h
          obtain ⟨piece, hm, h⟩ := h
          simp [codeMatches] at h
          rw [List.mem_flatMap] at hm
          obtain ⟨cs, _, hm⟩ := hm
          exact hnc cs ((lists_iff _ _).2 ⟨piece, hm, h.symm⟩)
      · constructor
        · intro h; cases h
        · intro h
          exfalso
          apply h
          rw [List.any_eq_true]
          obtain ⟨x, hx⟩ := List.exists_mem_of_ne_nil _ (splitOn_ne_nil (· == ',') codes)
          exact ⟨x, by simp [hx], by simp [codeMatches]⟩

example : ignoreAtStart "# a\n# type: ignore\n".toList = .ok true := by rfl
example : ignoreAtStart "# a\n# type: ignore[b]\n".toList = .error "b".toList := by rfl

theorem directiveLoop_mem (n : Nat) (rest : Text) (t : Text) (start : Nat) :
    (n, rest) ∈ directiveLoop start (splitOn (· == '\n') t) ↔
      ∃ pre post, t = pre ++ directivePrefix ++ rest ++ post ∧ n = start + pre.length + 8 ∧
        StopsBefore (· = '\n') pre ∧ (∀ c ∈ rest, c ≠ '\n') ∧ StopsAt (· = '\n') post := by
  -- the first line, then the text after its newline
  have key : ∀ (m : Nat) (t : Text) (start : Nat), t.length ≤ m →
      ((n, rest) ∈ directiveLoop start (splitOn (· == '\n') t) ↔
      ∃ pre post, t = pre ++ directivePrefix ++ rest ++ post ∧ n = start + pre.length + 8 ∧
        StopsBefore (· = '\n') pre ∧ (∀ c ∈ rest, c ≠ '\n') ∧ StopsAt (· = '\n') post) := by
    intro m
    induction m with
    | zero =>
      intro t start h
      have : t = [] := List.length_eq_zero_iff.1 (by omega)
      subst this
      simp [splitOn, directiveLoop, stripPrefix, directivePrefix]
    | succ m ih =>
      intro t start hm
      obtain ⟨after, hta, hl, haf⟩ := (takeWhile_eq_iff (· == '\n') t _).1 rfl
      generalize t.takeWhile (fun c => !(c == '\n')) = line at *
      have hl' : ∀ c ∈ line, c ≠ '\n' := by intro c hc; simpa using hl c hc
      -- the directive of the first line
      have hfirst : (∃ r, stripPrefix directivePrefix line = some r ∧ n = start + 8 ∧ rest = r) ↔
          (∃ post, t = [] ++ directivePrefix ++ rest ++ post ∧ n = start + ([] : Text).length + 8 ∧
            (∀ c ∈ rest, c ≠ '\n') ∧ StopsAt (· = '\n') post) := by
        constructor
        · rintro ⟨r, hr, hn, rfl⟩
          rw [stripPrefix_eq_some] at hr
          refine ⟨after, by rw [hta, hr]; simp, by simpa using hn, ?_, ?_⟩
          · intro c hc; exact hl' c (by rw [hr]; simp [hc])
          · intro c r h; simpa using haf c r h
        · rintro ⟨post, ht, hn, hr, hp⟩
          refine ⟨rest, ?_, by simpa using hn, rfl⟩
          rw [stripPrefix_eq_some]
          have h1 : t.takeWhile (fun c => !(c == '\n')) = line :=
            (takeWhile_eq_iff (· == '\n') t _).2 ⟨after, hta, hl, haf⟩
          have h2 : t.takeWhile (fun c => !(c == '\n')) = directivePrefix ++ rest :=
            (takeWhile_eq_iff (· == '\n') t _).2 ⟨post, by rw [ht]; simp, by
              intro c hc
              rw [List.mem_append] at hc
              rcases hc with hc | hc
              · simp [directivePrefix] at hc
                rcases hc with h | h | h | h | h | h | h | h <;> subst h <;> rfl
              · simpa using hr c hc, by
              intro c r h; simpa using hp c r h⟩
          rw [← h1, h2]
      cases after with
      | nil =>
        rw [List.append_nil] at hta
        subst hta
        rw [splitOn_none _ _ hl]
        have : (n, rest) ∈ directiveLoop start [t] ↔
            ∃ r, stripPrefix directivePrefix t = some r ∧ n = start + 8 ∧ rest = r := by
          rw [directiveLoop]
          cases hs : stripPrefix directivePrefix t with
          | none => simp [directiveLoop]
          | some r => simp [directiveLoop, directivePrefix]
        rw [this, hfirst]
        constructor
        · rintro ⟨post, h1, h2, h3, h4⟩
          exact ⟨[], post, h1, h2, by intro c r h; simp at h, h3, h4⟩
        · rintro ⟨pre, post, h1, h2, h3, h4, h5⟩
          rcases List.eq_nil_or_concat pre with rfl | ⟨p', d, rfl⟩
          · exact ⟨post, h1, h2, h4, h5⟩
          · exfalso
            have := h3 d p' (by simp)
            exact hl' d (by rw [h1]; simp) this
      | cons x xs =>
        have hx : x = '\n' := by simpa using haf x xs rfl
        subst hx
        have hsp : splitOn (· == '\n') t = line :: splitOn (· == '\n') xs := by
          rw [hta, splitOn_append _ _ _ _ (by rfl), splitOn_none _ _ hl]; rfl
        rw [hsp]
        have hmem : (n, rest) ∈ directiveLoop start (line :: splitOn (· == '\n') xs) ↔
            (∃ r, stripPrefix directivePrefix line = some r ∧ n = start + 8 ∧ rest = r) ∨
            (n, rest) ∈ directiveLoop (start + line.length + 1) (splitOn (· == '\n') xs) := by
          rw [directiveLoop]
          cases hs : stripPrefix directivePrefix line with
          | none => simp
          | some r => simp [directivePrefix]
        have hlen : xs.length ≤ m := by
          have := congrArg List.length hta
          simp at this; omega
        rw [hmem, hfirst, ih xs _ hlen]
        constructor
        · rintro (⟨post, h1, h2, h3, h4⟩ | ⟨pre, post, h1, h2, h3, h4, h5⟩)
          · exact ⟨[], post, h1, h2, by intro c r h; simp at h, h3, h4⟩
          · refine ⟨line ++ '\n' :: pre, post, by rw [hta, h1]; simp, by rw [h2]; simp; omega, ?_, h4, h5⟩
            intro c r h
            rcases List.eq_nil_or_concat pre with rfl | ⟨p', d, rfl⟩
            · have := List.append_inj_right' h rfl
              simpa using this.symm
            · apply h3 c p'
              have h' : (line ++ '\n' :: p') ++ [d] = r ++ [c] := by simpa using h
              have := List.append_inj_right' h' rfl
              simp at this
              simp [this]
        · rintro ⟨pre, post, h1, h2, h3, h4, h5⟩
          rcases List.eq_nil_or_concat pre with rfl | ⟨p', d, rfl⟩
          · exact Or.inl ⟨post, h1, h2, h4, h5⟩
          · right
            have hd := h3 d p' (by simp)
            subst hd
            have e : line ++ '\n' :: xs = p' ++ '\n' :: (directivePrefix ++ rest ++ post) := by
              rw [← hta, h1]; simp
            rcases List.append_eq_append_iff.1 e with ⟨ex, e1, e2⟩ | ⟨ex, e1, e2⟩
            · cases ex with
              | nil =>
                simp only [List.nil_append, List.cons.injEq, true_and] at e2
                simp only [List.append_nil] at e1
                refine ⟨[], post, by simpa using e2, ?_, by intro c r h; simp at h, h4, h5⟩
                rw [h2, e1]; simp; omega
              | cons y ys =>
                simp only [List.cons_append, List.cons.injEq] at e2
                obtain ⟨rfl, e2⟩ := e2
                refine ⟨ys ++ ['\n'], post, by rw [e2]; simp, ?_, ?_, h4, h5⟩
                · rw [h2, e1]; simp; omega
                · intro c r h
                  have := List.append_inj_right' h rfl
                  simpa using this.symm
            · cases ex with
              | nil =>
                simp only [List.nil_append, List.cons.injEq, true_and] at e2
                simp only [List.append_nil] at e1
                refine ⟨[], post, by simpa using e2.symm, ?_, by intro c r h; simp at h, h4, h5⟩
                rw [h2, e1]; simp; omega
              | cons y ys =>
                exfalso
                simp only [List.cons_append, List.cons.injEq] at e2
                exact hl' y (by rw [e1]; simp) e2.1.symm
  exact key t.length t start (Nat.le_refl _)

/-- The inline configuration of a file is exactly the text after `# mypy: ` on the lines that begin
with it, with the index at which that text begins. -/
theorem inline_directives (code : Text) (n : Nat) (rest : Text) :
    (n, rest) ∈ inlineDirectives code ↔
      ∃ pre post, code = pre ++ "# mypy: ".toList ++ rest ++ post ∧ n = pre.length + 8 ∧
        StopsBefore (· = '\n') pre ∧ (∀ c ∈ rest, c ≠ '\n') ∧ StopsAt (· = '\n') post := by
  unfold inlineDirectives
  rw [directiveLoop_mem]
  simp only [Nat.zero_add]
  exact Iff.rfl

example : inlineDirectives "x\n# mypy: strict\n".toList = [(10, "strict".toList)] := by decide

end Verif.Ignore
