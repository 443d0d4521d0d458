import Verif.Tokenizer.Layout

/-! # The tokenizer: the columns of blocks -/

namespace Verif.Tokenizer

theorem column_blank {seen : List Char} {k : Nat} (h : BlankLine seen k) : column seen.reverse = k := by
  obtain ⟨u, a, h1, h2, h3, h4⟩ := h
  rw [column, List.reverse_reverse, h1, List.takeWhile_append_of_pos, List.length_append, h2]
  · rcases h4 with rfl | ⟨c, a', rfl, hc⟩
    · rfl
    · have : (!(c == '\n' || c == '\r')) = false := by rw [isBreak] at hc; rw [hc]; rfl
      rw [List.takeWhile_cons, this]; rfl
  · intro c hc
    have := h3 c hc
    rcases (isBlank_iff c).mp this with rfl | rfl | rfl <;> rfl

theorem lineIndentation_blank : ∀ (seen : List Char) (m n : Nat), lineIndentation m seen = some n → m ≤ n ∧ BlankLine seen (n - m) := by
  intro seen
  induction seen with
  | nil => intro m n h; rw [lineIndentation] at h; cases h
  | cons c cs ih =>
    intro m n h
    rw [lineIndentation] at h
    split at h
    · rename_i hc
      obtain ⟨h1, h2⟩ := ih _ _ h
      refine ⟨by omega, ?_⟩
      have hb : isBlank c = true := (isBlank_iff c).mpr (by rcases hc with h | h; exact .inl h; exact .inr (.inl h))
      have := h2.push hb
      rwa [show n - (m + 1) + 1 = n - m by omega] at this
    · split at h
      · rename_i hb
        cases h
        refine ⟨Nat.le_refl _, ?_⟩
        rw [Nat.sub_self]
        exact .fresh cs hb
      · cases h

theorem skip_nothing {cs : List Char} (hs : Stuck cs) (seen : List Char) : skipWhitespace false false 0 seen cs = (0, seen, cs) := by
  cases cs with
  | nil => rw [skipWhitespace]
  | cons c b =>
    obtain ⟨h1, h2, h3, h4⟩ := hs c b rfl
    rw [skipWhitespace, if_neg (by simp [h1]), if_neg (by simp), if_neg (by simp [h2]), if_neg h3]
    split
    · rename_i hc
      split
      · rfl
      · rename_i x cs' hcont
        rw [h4 hc] at hcont; cases hcont
    · rfl

/-- Where the tokenizer is, for the columns. -/
structure Cols (code : List Char) (s : State) (start : Bool) : Prop where
  whole : s.seen.reverse ++ s.rest = code
  good : Good s
  line : s.newline = true → start = true ∧ BlankLine s.seen 0
  first : start = true → s.newline = true ∨ (¬ Inside s ∧ Stuck s.rest ∧ ∃ a l, s.indents = a :: l ∧ BlankLine s.seen a)

/-- One token, and the rest. -/
def ColsOk (code : List Char) (s : State) (start : Bool) : Except Fault Step → Prop
  | .error _ => False
  | .ok .stop => False
  | .ok (.emit t s') => ∃ start', Cols code s' start' ∧ ∀ ts, Blocks code s'.indents start' ts → Blocks code s.indents start (t :: ts)
  | .ok (.again s') => Cols code s' start ∧ s'.indents = s.indents

theorem col_of {code : List Char} {s : State} {t : Token} {rest : List Char} {k : Nat} (hw : s.seen.reverse ++ s.rest = code) (ht : t.text ++ rest = s.rest)
    (hs : t.start = size s.seen) (hb : BlankLine s.seen k) : Col code t k :=
  ⟨s.seen.reverse, rest, by rw [← hw, ← ht]; simp, by rw [size_reverse, hs], column_blank hb⟩

theorem dedent_cases {n : Nat} {l l' : List Nat} {kind : Kind} (h : dedentIfNecessary n l = .ok (some (kind, l'))) :
    ∃ a b cols, l = a :: b :: cols ∧ n < a ∧ ((kind = .dedent ∧ l' = b :: cols ∧ n ≤ b) ∨ (kind = .errorDedent ∧ l' = n :: b :: cols ∧ b < n)) := by
  rw [dedentIfNecessary.eq_def] at h
  cases l with
  | nil => cases h
  | cons a below =>
    dsimp only at h
    split at h
    · rename_i hlt
      cases below with
      | nil => cases h
      | cons b cols =>
        dsimp only at h
        split at h
        · rename_i hb
          cases h
          exact ⟨a, b, cols, rfl, hlt, .inr ⟨rfl, rfl, hb⟩⟩
        · rename_i hb
          cases h
          exact ⟨a, b, cols, rfl, hlt, .inl ⟨rfl, rfl, by omega⟩⟩
    · cases h

/-- A token that is not at the beginning of a line, or in the block of its column. -/
theorem Fine.cols {code : List Char} {s s1 : State} {start : Bool} {r : Except Fault Step} (h : Fine s1 r) (hw : s1.seen.reverse ++ s1.rest = code)
    (hg : Good s) (hi : s1.indents = s.indents) (hnl : s1.newline = false) (he : s1.ended = false)
    (hfirst : start = true → ¬ Inside s1 ∧ (s1.rest = [] ∨ ∃ a l, s1.indents = a :: l ∧ BlankLine s1.seen a)) : ColsOk code s start r := by
  cases r with
  | error e => exact h.elim
  | ok x =>
    cases x with
    | stop => exact absurd (show s1.ended = true from h) (by rw [he]; simp)
    | emit t s' =>
      have h : Outcome s1 t s' := h
      have hsz : size s1.seen + size s1.rest = size code := by rw [← hw, size_append, size_reverse]
      have hw' : s'.seen.reverse ++ s'.rest = code := by rw [← hw, h.seen, ← h.text]; simp
      have hgood : Good s' := ⟨h.stacked, fun hn => (h.line (h.newline hn).1).1⟩
      have hbetween : ∀ a b cols, s1.indents = a :: b :: cols → b < a := by
        intro a b cols h0
        have := hg.stacked.1
        rw [← hi, h0] at this
        exact (List.pairwise_cons.mp this).1 b (by simp)
      by_cases hd : t.kind = .dedent ∨ t.kind = .errorDedent
      · obtain ⟨htext, hcase⟩ := h.drop hd
        have hno : s'.newline = true → False := by
          intro hn
          rw [(h.newline hn).1] at hd
          rcases hd with hd | hd <;> cases hd
        rcases hcase with ⟨hk, hr⟩ | ⟨n, hin, hli, hded⟩
        · refine ⟨false, ⟨hw', hgood, fun hn => (hno hn).elim, by intro h; cases h⟩, ?_⟩
          intro ts hts
          have hkind := h.kind
          rw [hk] at hkind
          obtain ⟨a, h1, h2⟩ := hkind
          cases hs' : s'.indents with
          | nil => exact absurd hs' h2
          | cons b cols =>
            rw [hs'] at h1 hts
            rw [← hi, h1]
            refine .finish hk ?_ (hbetween _ _ _ h1) hts
            rw [h.start]
            rw [hr] at hsz
            exact hsz
        · have hstart : start = false := by
            cases hst : start with
            | false => rfl
            | true => exact absurd hin (hfirst hst).1
          refine ⟨start, ⟨hw', hgood, fun hn => (hno hn).elim, by rw [hstart]; intro h; cases h⟩, ?_⟩
          intro ts hts
          have hb := (lineIndentation_blank _ _ _ hli).2
          rw [Nat.sub_zero] at hb
          have hcol : Col code t n := col_of hw h.text h.start hb
          obtain ⟨a, b, cols, h1, h2, h3⟩ := dedent_cases hded
          rw [← hi, h1]
          rcases h3 with ⟨hk, h4, h5⟩ | ⟨hk, h4, h5⟩
          · rw [h4] at hts
            exact .dedent hk hcol h5 (hbetween _ _ _ h1) hts
          · rw [h4] at hts
            exact .between hk hcol h5 h2 hts
      · have hk : t.kind ≠ .indent ∧ t.kind ≠ .dedent ∧ t.kind ≠ .errorDedent := ⟨h.noIndent, fun h => hd (.inl h), fun h => hd (.inr h)⟩
        have hind : s'.indents = s1.indents := by
          have := h.kind
          revert this hk
          cases t.kind <;> first | exact fun _ h => h | exact fun h => absurd rfl h.1 | exact fun h => absurd rfl h.2.1 | exact fun h => absurd rfl h.2.2
        refine ⟨t.kind == .newline, ⟨hw', hgood, ?_, fun hn => .inl (h.line (by simpa using hn)).2⟩, ?_⟩
        · intro hn
          obtain ⟨h1, c, b, h2, h3⟩ := h.newline hn
          exact ⟨by rw [h1]; rfl, [], s'.seen, rfl, rfl, by simp, .inr ⟨c, b, h2, h3⟩⟩
        · intro ts hts
          rw [hind] at hts
          rw [← hi]
          cases hs1 : s1.indents with
          | nil => exact absurd (hi ▸ hs1) hg.stacked.ne
          | cons a cols =>
            rw [hs1] at hts
            refine .other hk ?_ hts
            intro hst hend
            obtain ⟨hin, hr | ⟨a', l, h1, h2⟩⟩ := hfirst hst
            · have := h.text
              rw [hr] at this
              exact absurd (List.append_eq_nil_iff.mp this).1 (h.long hk.2.1 hk.2.2 hend)
            · rw [hs1] at h1
              cases h1
              exact col_of hw h.text h.start h2
    | again s' =>
      have h : Onward s1 s' := h
      have hstart : start = false := by
        cases hst : start with
        | false => rfl
        | true => exact absurd h.wasInside (hfirst hst).1
      have hno : s'.newline = true → False := by rw [h.newline, hnl]; simp
      refine ⟨⟨h.whole.trans hw, ⟨by rw [h.indents, hi]; exact hg.stacked, fun hn => (hno hn).elim⟩, fun hn => (hno hn).elim, by rw [hstart]; intro h; cases h⟩, h.indents.trans hi⟩

theorem plain_cols {L : Lexers} {code : List Char} {s : State} {start : Bool} (hL : L.Sound) (hno : NoBlankContinuation code) (h : Cols code s start) (he : s.ended = false) :
    ColsOk code s start (plain L s) := by
  rw [plain]
  dsimp only
  by_cases hn : s.newline = true
  · obtain ⟨w, h1, h2, h3, h4, h5⟩ := skip_spec s.newline false 0 s.seen s.rest
    have hsk := skip_stuck s.newline false 0 s.seen s.rest hn
    obtain ⟨hstart, hblank⟩ := h.line hn
    subst hstart
    have hsl := skip_line hno s.newline false 0 s.seen s.rest hn h.whole.symm (fun _ => hblank)
    generalize skipWhitespace s.newline false 0 s.seen s.rest = x at h1 h2 h3 h4 h5 hsk hsl
    obtain ⟨k, seen, rest⟩ := x
    dsimp only at h1 h2 h3 h4 h5 hsk hsl ⊢
    have hwhole : seen.reverse ++ rest = code := by rw [← h.whole, h1, h2]; simp
    rw [if_pos hn]
    have hin : ¬ Inside s := h.good.line hn
    have hlex : (rest = [] ∨ ∃ a l, s.indents = a :: l ∧ BlankLine seen a) → ColsOk code s true (lex L { s with seen := seen, rest := rest, newline := false }) := fun hf =>
      (lex_fine (s := { s with seen := seen, rest := rest, newline := false }) hL h.good.stacked rfl he).cols hwhole h.good rfl rfl he (fun _ => ⟨hin, hf⟩)
    cases hr : rest with
    | nil =>
      have : lineStart { s with seen := seen, rest := [] } k = .ok none := rfl
      rw [this]
      rw [hr] at hlex
      exact hlex (.inl rfl)
    | cons c b =>
      have hb : BlankLine seen k := by
        rcases hsl with hsl | hsl
        · rw [hr] at hsl; cases hsl
        · exact hsl
      have hcond : (!isBreak c && s.parens == 0 && s.fstack.isEmpty) = true := by
        obtain ⟨hbr, _⟩ := hsk c b hr
        rw [hbr]
        have hp : s.parens = 0 := Decidable.byContradiction fun h0 => hin (.inl h0)
        have hf : s.fstack = [] := Decidable.byContradiction fun h0 => hin (.inr h0)
        rw [hp, hf]; rfl
      cases hi : s.indents with
      | nil => exact absurd hi h.good.stacked.ne
      | cons last below =>
        have hst := h.good.stacked
        by_cases hlt : last < k
        · have : lineStart { s with seen := seen, rest := c :: b, indents := last :: below } k = .ok (some (.emit ({ s with seen := seen, rest := c :: b }.token .indent 0)
              { s with seen := seen, rest := c :: b, indents := k :: last :: below, newline := false })) := by
            unfold lineStart
            dsimp only
            rw [hcond, if_pos rfl, if_pos hlt]
            rfl
          rw [this]
          refine ⟨true, ⟨by rw [← hwhole, hr], ⟨?_, by intro h; cases h⟩, (by intro h; cases h), fun _ => .inr ⟨hin, by rw [← hr]; exact hsk, k, _, rfl, hb⟩⟩, ?_⟩
          · rw [hi] at hst
            refine ⟨List.pairwise_cons.mpr ⟨?_, hst.1⟩, by rw [List.getLast?_cons_cons]; exact hst.2⟩
            intro y hy
            rcases List.mem_cons.mp hy with rfl | hy
            · exact hlt
            · exact Nat.lt_trans ((List.pairwise_cons.mp hst.1).1 y hy) hlt
          · intro ts hts
            rw [hi]
            refine .indent rfl ?_ hlt hts
            exact col_of (s := { s with seen := seen, rest := rest }) (rest := rest) hwhole rfl rfl hb
        · obtain ⟨⟨r, hr'⟩, hd⟩ := dedent_spec (count := k) hst
          cases r with
          | none =>
            have : lineStart { s with seen := seen, rest := c :: b, indents := last :: below } k = .ok none := by
              unfold lineStart
              dsimp only
              rw [hcond, if_pos rfl, if_neg hlt, ← hi, hr']
            rw [this]
            have hk : k = last := by
              rw [hi, dedentIfNecessary.eq_def] at hr'
              dsimp only at hr'
              by_cases hkl : k < last
              · rw [if_pos hkl] at hr'
                cases below with
                | nil => cases hr'
                | cons x y =>
                  dsimp only at hr'
                  split at hr' <;> cases hr'
              · omega
            subst hk
            have := hlex (.inr ⟨k, below, hi, hb⟩)
            rw [hr, hi] at this
            exact this
          | some y =>
            obtain ⟨kind, l'⟩ := y
            obtain ⟨u, a, e1, e2, e3, e4⟩ := hb
            have hback : back k seen (c :: b) = .ok (a, u.reverse ++ (c :: b)) := by
              rw [e1, ← e2]
              exact back_small u a _ (fun c hc => blank_size (e3 c hc))
            have : lineStart { s with seen := seen, rest := c :: b, indents := last :: below } k = .ok (some (.emit ({ s with seen := seen, rest := c :: b }.token kind 0)
                { s with seen := a, rest := u.reverse ++ (c :: b), indents := l' })) := by
              unfold lineStart
              dsimp only
              rw [hcond, if_pos rfl, if_neg hlt, ← hi, hr']
              dsimp only
              rw [hback]
            rw [this]
            obtain ⟨k1, k2, k3, k4, k5⟩ := hd kind l' hr'
            refine ⟨true, ⟨?_, ⟨k1, fun _ => hin⟩, fun _ => ⟨rfl, [], a, rfl, rfl, by simp, e4⟩, fun _ => .inl hn⟩, ?_⟩
            · show a.reverse ++ (u.reverse ++ (c :: b)) = code
              rw [← hwhole, e1, hr]; simp
            · intro ts hts
              have hcol : Col code ({ s with seen := seen, rest := c :: b }.token kind 0) k :=
                col_of (s := { s with seen := seen, rest := rest }) (rest := rest) hwhole rfl rfl ⟨u, a, e1, e2, e3, e4⟩
              obtain ⟨x, y, cols, h1, h2, h3⟩ := dedent_cases hr'
              have hlt' : y < x := by
                have := hst.1
                rw [h1] at this
                exact (List.pairwise_cons.mp this).1 y (by simp)
              rw [h1]
              rcases h3 with ⟨hk, h4, h5⟩ | ⟨hk, h4, h5⟩
              · subst hk
                have hts : Blocks code l' true ts := hts
                rw [h4] at hts
                exact .dedent rfl hcol h5 hlt' hts
              · subst hk
                have hts : Blocks code l' true ts := hts
                rw [h4] at hts
                exact .between rfl hcol h5 h2 hts
  · have hnf : s.newline = false := by simpa using hn
    rw [if_neg hn]
    obtain ⟨w, h1, h2, h3, h4, h5⟩ := skip_spec s.newline false 0 s.seen s.rest
    have hskip : start = true → ¬ Inside s ∧ skipWhitespace s.newline false 0 s.seen s.rest = (0, s.seen, s.rest) ∧ ∃ a l, s.indents = a :: l ∧ BlankLine s.seen a := by
      intro hst
      rcases h.first hst with h0 | ⟨f1, f2, f3⟩
      · exact absurd h0 hn
      · refine ⟨f1, ?_, f3⟩
        rw [hnf]
        exact skip_nothing f2 s.seen
    generalize skipWhitespace s.newline false 0 s.seen s.rest = x at h1 h2 h3 h4 h5 hskip
    obtain ⟨k, seen, rest⟩ := x
    dsimp only at h1 h2 h3 h4 h5 ⊢
    have hwhole : seen.reverse ++ rest = code := by rw [← h.whole, h1, h2]; simp
    refine (lex_fine (s := { s with seen := seen, rest := rest }) hL h.good.stacked hnf he).cols hwhole h.good rfl hnf he ?_
    intro hst
    obtain ⟨f1, f2, f3⟩ := hskip hst
    cases f2
    exact ⟨f1, .inr f3⟩

theorem step_cols {L : Lexers} {code : List Char} {s : State} {start : Bool} (hL : L.Sound) (hno : NoBlankContinuation code) (h : Cols code s start) (he : s.ended = false) :
    ColsOk code s start (step L s) := by
  rw [step, if_neg (by rw [he]; simp)]
  by_cases hf : s.fstack.isEmpty = true
  · rw [if_pos hf]
    exact plain_cols hL hno h he
  · rw [if_neg hf]
    have hin : Inside s := .inr (by intro h; rw [h] at hf; exact hf rfl)
    have hnl : s.newline = false := by
      cases hn : s.newline with
      | false => rfl
      | true => exact absurd hin (h.good.line hn)
    cases hx : fstring L s with
    | none => exact plain_cols hL hno h he
    | some x =>
      refine (fstring_fine h.good.stacked hnl he hx).cols h.whole h.good rfl hnl he ?_
      intro hst
      rcases h.first hst with h0 | ⟨f1, _⟩
      · rw [hnl] at h0; cases h0
      · exact absurd hin f1

theorem run_cols {L : Lexers} {code : List Char} (hL : L.Sound) (hno : NoBlankContinuation code) {s s' : State} {ts : List Token} (h : Steps L s ts s') :
    ∀ start, Cols code s start → Blocks code s.indents start ts := by
  have hgo : ∀ {s : State} {x : Step}, step L s = .ok x → x ≠ .stop → s.ended = false := by
    intro s x h hx
    cases he : s.ended with
    | false => rfl
    | true => rw [step_ended he] at h; cases h; exact absurd rfl hx
  induction h with
  | refl s => intro _ _; exact .nil
  | emit h hs ih =>
    intro start hc
    have := step_cols hL hno hc (hgo h (by simp))
    rw [h] at this
    obtain ⟨start', h1, h2⟩ := this
    exact h2 _ (ih start' h1)
  | again h hs ih =>
    intro start hc
    have := step_cols hL hno hc (hgo h (by simp))
    rw [h] at this
    rw [← this.2]
    exact ih start this.1

theorem cols_start (code : List Char) : Cols code (State.start code) true :=
  ⟨rfl, good_start code, fun _ => ⟨rfl, [], [], rfl, rfl, by simp, .inl rfl⟩, fun _ => .inl rfl⟩

end Verif.Tokenizer
