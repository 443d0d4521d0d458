import Verif.Tokenizer.Outcomes

/-! # The tokenizer: one call of `next` -/

namespace Verif.Tokenizer

/-- What holds between calls of `next`. -/
structure Good (s : State) : Prop where
  stacked : Stacked s.indents
  line : s.newline = true → ¬ Inside s

/-- A token was given. -/
structure Move (s : State) (t : Token) (s' : State) : Prop where
  whole : s'.seen.reverse ++ s'.rest = s.seen.reverse ++ s.rest
  good : Good s'
  kind : KindOk t.kind s.indents s'.indents
  ended : s'.ended = true ↔ t.kind = .endmarker
  last : t.kind = .endmarker → s'.indents = [0] ∧ s'.rest = [] ∧ t.text = [] ∧ t.start = size s'.seen
  less : s'.ended = false → Less s' s

/-- `next` called itself. -/
structure Retry (s s' : State) : Prop where
  whole : s'.seen.reverse ++ s'.rest = s.seen.reverse ++ s.rest
  good : Good s'
  indents : s'.indents = s.indents
  ended : s'.ended = s.ended
  less : Less s' s

def MoveOk (s : State) : Except Fault Step → Prop
  | .error e => e = .boundary
  | .ok .stop => False
  | .ok (.emit t s') => Move s t s'
  | .ok (.again s') => Retry s s'

theorem Less.after {s s1 s' : State} (h : Less s' s1) (hr : s1.rest.length ≤ s.rest.length) (hi : s1.indents = s.indents) (hf : s1.fstack = s.fstack) : Less s' s := by
  rw [Less, hi, hf] at h
  rcases h with h | ⟨h, h'⟩
  · exact .inl (Nat.lt_of_lt_of_le h hr)
  · exact .inr ⟨Nat.le_trans h hr, h'⟩

/-- A token after some whitespace. -/
theorem Fine.move {s s1 : State} {r : Except Fault Step} (h : Fine s1 r) (hw : s1.seen.reverse ++ s1.rest = s.seen.reverse ++ s.rest)
    (hr : s1.rest.length ≤ s.rest.length) (hi : s1.indents = s.indents) (hf : s1.fstack = s.fstack) (he : s1.ended = false) (he' : s.ended = false)
    (hst : Stacked s.indents) (hnl : s1.newline = false) : MoveOk s r := by
  cases r with
  | error e => exact h.elim
  | ok x =>
    cases x with
    | stop => exact absurd (show s1.ended = true from h) (by rw [he]; simp)
    | emit t s' =>
      have h : Outcome s1 t s' := h
      refine ⟨?_, ⟨h.stacked, fun hn => (h.line (h.newline hn).1).1⟩, by rw [← hi]; exact h.kind, h.ended, ?_, fun hen => (h.less hen).after hr hi hf⟩
      · rw [← hw, h.seen, ← h.text]; simp
      · intro hk
        obtain ⟨h1, h2⟩ := h.last hk
        have := h.text
        rw [h1] at this
        have ht := (List.append_eq_nil_iff.mp this).1
        exact ⟨h2, (List.append_eq_nil_iff.mp this).2, ht, by rw [h.seen, ht, h.start]; rfl⟩
    | again s' =>
      have h : Onward s1 s' := h
      refine ⟨h.whole.trans hw, ⟨by rw [h.indents, hi]; exact hst, ?_⟩, h.indents.trans hi, by rw [h.ended, he, he'], h.less.after hr hi hf⟩
      intro hn
      rw [h.newline, hnl] at hn
      cases hn

theorem back_length {u a w b : List Char} (h : u ++ a = w ++ b) (hs : size u ≤ size w) : u.length ≤ w.length := by
  rcases Nat.lt_or_ge w.length u.length with hlt | hge
  · exfalso
    rcases List.append_eq_append_iff.mp h with ⟨x, h1, _⟩ | ⟨x, h1, _⟩
    · rw [h1, List.length_append] at hlt; omega
    · have := length_le_size x
      rw [h1, size_append] at hs
      rw [h1, List.length_append] at hlt
      omega
  · exact hge

theorem lineStart_move {s s1 : State} {k : Nat} {w : List Char} (hg : Good s) (he : s.ended = false) (hnl : s.newline = true)
    (hw : s.rest = w ++ s1.rest) (hs1 : s1.seen = w.reverse ++ s.seen) (hi : s1.indents = s.indents) (hp : s1.parens = s.parens) (hf : s1.fstack = s.fstack)
    (hen : s1.ended = s.ended) (hn1 : s1.newline = s.newline) (hk : k ≤ size w) :
    match lineStart s1 k with
    | .error e => e = .boundary
    | .ok none => True
    | .ok (some x) => MoveOk s (.ok x) := by
  have hin : ¬ Inside s := hg.line hnl
  have hin1 : ¬ Inside s1 := by rw [Inside, hp, hf]; exact hin
  have hwhole : s1.seen.reverse ++ s1.rest = s.seen.reverse ++ s.rest := by rw [hs1, hw]; simp
  unfold lineStart
  split
  · rename_i e heq
    revert heq
    split
    · intro h; cases h
    · split
      · split
        · rename_i hi0; exact absurd (hi ▸ hi0) hg.stacked.ne
        · rename_i last below hi0
          split
          · intro h; cases h
          · obtain ⟨⟨r, hr⟩, _⟩ := dedent_spec (count := k) (hi ▸ hg.stacked)
            rw [hr]
            cases r with
            | none => intro h; cases h
            | some y =>
              obtain ⟨kind, l'⟩ := y
              dsimp only
              have := back_spec k s1.seen s1.rest (by rw [hs1, size_append, size_reverse]; omega)
              split
              · rename_i e' hb
                rw [hb] at this
                intro h
                cases h
                exact this
              · intro h; cases h
      · intro h; cases h
  · trivial
  · rename_i x heq
    revert heq
    split
    · intro h; cases h
    · split
      · split
        · rename_i hi0; exact absurd (hi ▸ hi0) hg.stacked.ne
        · rename_i last below hi0
          split
          · rename_i hlt
            intro h
            cases h
            have hstk := hg.stacked
            rw [← hi, hi0] at hstk
            have hwne : 0 < w.length := by
              cases w with
              | nil => simp [size] at hk; omega
              | cons => simp
            refine ⟨hwhole, ⟨?_, by intro h; cases h⟩, ?_, ?_, (by intro h; cases h), fun _ => .inl ?_⟩
            · show Stacked (k :: s1.indents)
              rw [hi0]
              refine ⟨List.pairwise_cons.mpr ⟨?_, hstk.1⟩, by rw [List.getLast?_cons_cons]; exact hstk.2⟩
              intro y hy
              rcases List.mem_cons.mp hy with rfl | hy
              · exact hlt
              · exact Nat.lt_trans ((List.pairwise_cons.mp hstk.1).1 y hy) hlt
            · show ∃ n, k :: s1.indents = n :: s.indents
              exact ⟨k, by rw [hi]⟩
            · refine ⟨?_, by intro h; cases h⟩
              intro h
              exact absurd (show s1.ended = true from h) (by rw [hen, he]; simp)
            · show s1.rest.length < s.rest.length
              rw [hw, List.length_append]; omega
          · obtain ⟨⟨r, hr⟩, hd⟩ := dedent_spec (count := k) (hi ▸ hg.stacked)
            rw [hr]
            cases r with
            | none => intro h; cases h
            | some y =>
              obtain ⟨kind, l'⟩ := y
              dsimp only
              have hback := back_spec k s1.seen s1.rest (by rw [hs1, size_append, size_reverse]; omega)
              split
              · intro h; cases h
              · rename_i seen rest hb
                rw [hb] at hback
                obtain ⟨u, b1, b2, b3⟩ := hback
                intro h
                cases h
                obtain ⟨k1, k2, k3, k4, _⟩ := hd kind l' hr
                have hend : kind ≠ .endmarker := by rcases k4 with k4 | k4 <;> rw [k4] <;> simp
                refine ⟨?_, ⟨k1, ?_⟩, by rw [← hi]; exact k2, ?_, fun h => absurd h hend, fun _ => .inr ⟨?_, .inl (by rw [← hi]; exact k3)⟩⟩
                · rw [← hwhole, b1, b2]; simp
                · intro _
                  exact hin1
                · refine ⟨?_, fun h => absurd h hend⟩
                  intro h
                  exact absurd (show s1.ended = true from h) (by rw [hen, he]; simp)
                · show rest.length ≤ s.rest.length
                  rw [b2, hw, List.length_append, List.length_append, List.length_reverse]
                  have := back_length (u := u) (a := seen) (w := w.reverse) (b := s.seen) (by rw [← b1, hs1]) (by rw [size_reverse]; omega)
                  rw [List.length_reverse] at this
                  omega
      · intro h; cases h

theorem plain_move {L : Lexers} {s : State} (hL : L.Sound) (hg : Good s) (he : s.ended = false) : MoveOk s (plain L s) := by
  rw [plain]
  dsimp only
  obtain ⟨w, h1, h2, h3, h4, h5⟩ := skip_spec s.newline false 0 s.seen s.rest
  generalize skipWhitespace s.newline false 0 s.seen s.rest = x at h1 h2 h3 h4 h5
  obtain ⟨k, seen, rest⟩ := x
  dsimp only at h1 h2 h3 h4 h5 ⊢
  have hlen : rest.length ≤ s.rest.length := by rw [h1, List.length_append]; omega
  have hwhole : seen.reverse ++ rest = s.seen.reverse ++ s.rest := by rw [h1, h2]; simp
  by_cases hn : s.newline = true
  · rw [if_pos hn]
    have := lineStart_move (s := s) (s1 := { s with seen := seen, rest := rest }) (k := k) (w := w) hg he hn h1 h2 rfl rfl rfl rfl rfl (by omega)
    cases hl : lineStart { s with seen := seen, rest := rest } k with
    | error e => rw [hl] at this; exact this
    | ok o =>
      rw [hl] at this
      cases o with
      | some x => exact this
      | none =>
        exact (lex_fine (s := { s with seen := seen, rest := rest, newline := false }) hL hg.stacked rfl he).move hwhole hlen rfl rfl he he hg.stacked rfl
  · rw [if_neg hn]
    exact (lex_fine (s := { s with seen := seen, rest := rest }) hL hg.stacked (by simpa using hn) he).move hwhole hlen rfl rfl he he hg.stacked (by simpa using hn)

theorem step_move {L : Lexers} {s : State} (hL : L.Sound) (hg : Good s) (he : s.ended = false) : MoveOk s (step L s) := by
  rw [step, if_neg (by rw [he]; simp)]
  by_cases hf : s.fstack.isEmpty = true
  · rw [if_pos hf]
    exact plain_move hL hg he
  · rw [if_neg hf]
    have hnl : s.newline = false := by
      cases hn : s.newline with
      | false => rfl
      | true => exact absurd (.inr (by intro h; rw [h] at hf; exact hf rfl)) (hg.line hn)
    cases hx : fstring L s with
    | none => exact plain_move hL hg he
    | some x => exact (fstring_fine hg.stacked hnl he hx).move rfl (Nat.le_refl _) rfl rfl he he hg.stacked hnl

end Verif.Tokenizer
