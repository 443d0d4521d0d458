import Verif.Tokenizer.Spec

/-! # The tokenizer: lemmas about whitespace -/

namespace Verif.Tokenizer

theorem isBreak_iff (c : Char) : isBreak c = true ↔ c = '\n' ∨ c = '\r' := by simp [isBreak]
theorem isBlank_iff (c : Char) : isBlank c = true ↔ c = ' ' ∨ c = '\t' ∨ c = '\x0C' := by simp [isBlank, or_assoc]

theorem size_append (a b : List Char) : size (a ++ b) = size a + size b := by simp [size]
theorem size_reverse (a : List Char) : size a.reverse = size a := by simp [size, List.sum_reverse]
theorem size_cons (c : Char) (a : List Char) : size (c :: a) = c.utf8Size + size a := by simp [size]
theorem size_nil : size [] = 0 := rfl

theorem blank_size {c : Char} (h : isBlank c = true) : c.utf8Size = 1 := by
  rcases (isBlank_iff c).mp h with rfl | rfl | rfl <;> rfl

/-- A continued line. -/
theorem continuation_spec {cs x cs' : List Char} (h : continuation cs = some (x, cs')) :
    cs = x.reverse ++ cs' ∧ (x.reverse = ['\n'] ∨ x.reverse = ['\r'] ∨ x.reverse = ['\r', '\n']) ∧
    ∃ c b, cs = c :: b ∧ (c = '\n' ∨ c = '\r') := by
  unfold continuation at h
  split at h <;> cases h <;> simp

/-- The gap, also from inside of a comment. -/
def GapFrom (newline comment : Bool) (rest rest' : List Char) : Prop :=
  if comment then ∃ body cs, rest = body ++ cs ∧ (∀ c ∈ body, c ≠ '\n' ∧ c ≠ '\r') ∧ (cs = [] ∨ ∃ c cs', cs = c :: cs' ∧ (c = '\n' ∨ c = '\r')) ∧ Gap newline cs rest'
  else Gap newline rest rest'

theorem skip_spec (newline comment : Bool) (ind : Nat) (seen rest : List Char) :
    ∃ w, rest = w ++ (skipWhitespace newline comment ind seen rest).2.2 ∧ (skipWhitespace newline comment ind seen rest).2.1 = w.reverse ++ seen ∧
      (skipWhitespace newline comment ind seen rest).1 ≤ ind + size w ∧ (newline = false → ind = 0 → (skipWhitespace newline comment ind seen rest).1 = 0) ∧
      GapFrom newline comment rest (skipWhitespace newline comment ind seen rest).2.2 := by
  fun_induction skipWhitespace newline comment ind seen rest with
  | case1 comment ind seen =>
    refine ⟨[], rfl, rfl, by simp [size], fun _ h => h, ?_⟩
    rw [GapFrom]
    split
    · exact ⟨[], [], rfl, by simp, .inl rfl, .refl _⟩
    · exact .refl _
  | case2 comment ind seen c cs hb hn =>
    refine ⟨[], rfl, rfl, by simp [size], fun _ h => h, ?_⟩
    rw [GapFrom]
    split
    · exact ⟨[], c :: cs, rfl, by simp, .inr ⟨c, cs, rfl, (isBreak_iff c).mp hb⟩, .refl _⟩
    · exact .refl _
  | case3 comment ind seen c cs hb hn ih =>
    obtain ⟨w, h1, h2, h3, h4, h5⟩ := ih
    have hnew : newline = true := by simpa using hn
    refine ⟨c :: w, by rw [List.cons_append, ← h1], by rw [h2]; simp, by rw [size_cons]; omega, (by rw [hnew]; intro h; cases h), ?_⟩
    have hg : Gap newline (c :: cs) (skipWhitespace newline false 0 (c :: seen) cs).2.2 := .line hnew ((isBreak_iff c).mp hb) h5
    rw [GapFrom]
    split
    · exact ⟨[], c :: cs, rfl, by simp, .inr ⟨c, cs, rfl, (isBreak_iff c).mp hb⟩, hg⟩
    · exact hg
  | case4 ind seen c cs hb ih =>
    obtain ⟨w, h1, h2, h3, h4, h5⟩ := ih
    refine ⟨c :: w, by rw [List.cons_append, ← h1], by rw [h2]; simp, by rw [size_cons]; omega, h4, ?_⟩
    rw [GapFrom, if_pos rfl] at h5 ⊢
    obtain ⟨body, cs', k1, k2, k3, k4⟩ := h5
    refine ⟨c :: body, cs', by rw [k1]; rfl, ?_, k3, k4⟩
    intro x hx
    rcases List.mem_cons.mp hx with rfl | hx
    · have : ¬ (x = '\n' ∨ x = '\r') := fun h => hb ((isBreak_iff x).mpr h)
      exact ⟨fun h => this (.inl h), fun h => this (.inr h)⟩
    · exact k2 x hx
  | case5 comment ind seen c cs hb hc hbl ih =>
    have hcf : comment = false := by simpa using hc
    subst hcf
    obtain ⟨w, h1, h2, h3, h4, h5⟩ := ih
    refine ⟨c :: w, by rw [List.cons_append, ← h1], by rw [h2]; simp, ?_, ?_, ?_⟩
    · rw [size_cons, blank_size hbl]
      have : newline.toNat ≤ 1 := by cases newline <;> decide
      omega
    · intro h0 h0'
      exact h4 h0 (by rw [h0, h0']; rfl)
    · exact .blank ((isBlank_iff c).mp hbl) h5
  | case6 comment ind seen cs hc hb hbl ih =>
    have hcf : comment = false := by simpa using hc
    subst hcf
    obtain ⟨w, h1, h2, h3, h4, h5⟩ := ih
    refine ⟨'#' :: w, by rw [List.cons_append, ← h1], by rw [h2]; simp, by rw [size_cons]; omega, fun h _ => h4 h rfl, ?_⟩
    rw [GapFrom, if_pos rfl] at h5
    obtain ⟨body, cs', k1, k2, k3, k4⟩ := h5
    rw [GapFrom, if_neg (by simp)]
    have := Gap.comment k2 k3 k4
    rw [← k1] at this
    exact this
  | case7 comment ind seen cs hc hcont hb hbl _ =>
    have hcf : comment = false := by simpa using hc
    subst hcf
    exact ⟨[], rfl, rfl, by simp [size], fun _ h => h, .refl _⟩
  | case8 comment ind seen cs hc x cs' hcont hb hbl _ ih =>
    have hcf : comment = false := by simpa using hc
    subst hcf
    obtain ⟨w, h1, h2, h3, h4, h5⟩ := ih
    obtain ⟨k1, k2, _⟩ := continuation_spec hcont
    refine ⟨'\\' :: (x.reverse ++ w), ?_, ?_, by omega, fun _ h => h, ?_⟩
    · rw [k1, List.cons_append, List.append_assoc, ← h1]
    · rw [h2]; simp
    · rw [GapFrom, if_neg (by simp)] at h5 ⊢
      have := Gap.continued k2 h5
      rw [← k1] at this
      exact this
  | case9 comment ind seen c cs hb hc hbl _ _ =>
    have hcf : comment = false := by simpa using hc
    subst hcf
    exact ⟨[], rfl, rfl, by simp [size], fun _ h => h, .refl _⟩

/-- Whitespace is skipped as far as possible. -/
def Stuck (cs : List Char) : Prop :=
  ∀ c b, cs = c :: b → isBreak c = false ∧ isBlank c = false ∧ c ≠ '#' ∧ (c = '\\' → continuation b = none)

theorem skip_stuck (newline comment : Bool) (ind : Nat) (seen rest : List Char) (hn : newline = true) :
    Stuck (skipWhitespace newline comment ind seen rest).2.2 := by
  fun_induction skipWhitespace newline comment ind seen rest with
  | case1 => intro c b h; cases h
  | case2 comment ind seen c cs hb hnn => rw [hn] at hnn; cases hnn
  | case3 comment ind seen c cs hb hnn ih => exact ih
  | case4 ind seen c cs hb ih => exact ih
  | case5 comment ind seen c cs hb hc hbl ih => exact ih
  | case6 comment ind seen cs hc hb hbl ih => exact ih
  | case7 comment ind seen cs hc hcont hb hbl _ =>
    intro c b h
    cases h
    exact ⟨by simpa using hb, by simpa using hbl, by decide, fun _ => hcont⟩
  | case8 comment ind seen cs hc x cs' hcont hb hbl _ ih => exact ih
  | case9 comment ind seen c cs hb hc hbl h1 h2 =>
    intro c' b h
    cases h
    exact ⟨by simpa using hb, by simpa using hbl, h1, fun h => absurd h h2⟩

/-- Blanks before something else. -/
theorem skip_blanks {cs : List Char} (hs : Stuck cs) : ∀ (u : List Char) (ind : Nat) (seen : List Char), (∀ c ∈ u, isBlank c = true) →
    skipWhitespace true false ind seen (u ++ cs) = (ind + u.length, u.reverse ++ seen, cs) := by
  intro u
  induction u with
  | nil =>
    intro ind seen _
    cases cs with
    | nil => rw [List.nil_append, skipWhitespace]; rfl
    | cons c b =>
      obtain ⟨h1, h2, h3, h4⟩ := hs c b rfl
      rw [List.nil_append, skipWhitespace, if_neg (by simp [h1]), if_neg (by simp), if_neg (by simp [h2]), if_neg h3]
      split
      · rename_i hc
        split
        · rfl
        · rename_i x cs' hcont
          rw [h4 hc] at hcont; cases hcont
      · rfl
  | cons c u ih =>
    intro ind seen hu
    have hc := hu c (by simp)
    have hnb : isBreak c = false := by
      rcases (isBlank_iff c).mp hc with rfl | rfl | rfl <;> rfl
    rw [List.cons_append, skipWhitespace, if_neg (by simp [hnb]), if_neg (by simp), if_pos hc, ih _ _ (fun x hx => hu x (List.mem_cons_of_mem _ hx))]
    simp
    omega

/-- The line that was read so far has only blanks; the text is reversed. -/
def BlankLine (seen : List Char) (k : Nat) : Prop :=
  ∃ u a, seen = u ++ a ∧ u.length = k ∧ (∀ c ∈ u, isBlank c = true) ∧ (a = [] ∨ ∃ c a', a = c :: a' ∧ isBreak c = true)

theorem BlankLine.push {seen : List Char} {k : Nat} {c : Char} (h : BlankLine seen k) (hc : isBlank c = true) : BlankLine (c :: seen) (k + 1) := by
  obtain ⟨u, a, h1, h2, h3, h4⟩ := h
  refine ⟨c :: u, a, by rw [h1]; rfl, by rw [List.length_cons, h2], ?_, h4⟩
  intro x hx
  rcases List.mem_cons.mp hx with rfl | hx
  · exact hc
  · exact h3 x hx

theorem BlankLine.fresh (seen : List Char) {c : Char} (hc : isBreak c = true) : BlankLine (c :: seen) 0 :=
  ⟨[], c :: seen, rfl, rfl, by simp, .inr ⟨c, seen, rfl, hc⟩⟩

theorem blank_continuation {code seen cs : List Char} {k : Nat} {x cs' : List Char} (hn : NoBlankContinuation code) (hcode : code = seen.reverse ++ '\\' :: cs)
    (hb : BlankLine seen k) (hc : continuation cs = some (x, cs')) : False := by
  obtain ⟨_, _, c, b, rfl, hcb⟩ := continuation_spec hc
  obtain ⟨u, a, h1, h2, h3, h4⟩ := hb
  refine hn a.reverse u.reverse b c (by rw [hcode, h1, List.reverse_append]) hcb (fun x hx => (isBlank_iff x).mp (h3 x (List.mem_reverse.mp hx))) ?_
  rcases h4 with rfl | ⟨d, a', rfl, hd⟩
  · exact .inl rfl
  · refine .inr ?_
    rw [List.reverse_cons, List.getLast?_append]
    simpa using (isBreak_iff d).mp hd

/-- Without blank continued lines, the indentation is the number of blanks before the index. -/
theorem skip_line {code : List Char} (hno : NoBlankContinuation code) (newline comment : Bool) (ind : Nat) (seen rest : List Char) (hn : newline = true)
    (hcode : code = seen.reverse ++ rest) (hl : comment = false → BlankLine seen ind) :
    (skipWhitespace newline comment ind seen rest).2.2 = [] ∨
    BlankLine (skipWhitespace newline comment ind seen rest).2.1 (skipWhitespace newline comment ind seen rest).1 := by
  fun_induction skipWhitespace newline comment ind seen rest with
  | case1 => exact .inl rfl
  | case2 comment ind seen c cs hb hnn => rw [hn] at hnn; cases hnn
  | case3 comment ind seen c cs hb hnn ih => exact ih (by rw [hcode]; simp) (fun _ => .fresh _ hb)
  | case4 ind seen c cs hb ih => exact ih (by rw [hcode]; simp) (by simp)
  | case5 comment ind seen c cs hb hc hbl ih =>
    refine ih (by rw [hcode]; simp) (fun _ => ?_)
    rw [hn]
    exact (hl (by simpa using hc)).push hbl
  | case6 comment ind seen cs hc hb hbl ih => exact ih (by rw [hcode]; simp) (by simp)
  | case7 comment ind seen cs hc hcont hb hbl _ => exact .inr (hl (by simpa using hc))
  | case8 comment ind seen cs hc x cs' hcont hb hbl _ ih => exact (blank_continuation hno hcode (hl (by simpa using hc)) hcont).elim
  | case9 comment ind seen c cs hb hc hbl h1 h2 => exact .inr (hl (by simpa using hc))

/-! ## Going back -/

theorem back_spec : ∀ (k : Nat) (seen rest : List Char), k ≤ size seen →
    match back k seen rest with
    | .ok (seen', rest') => ∃ u, seen = u ++ seen' ∧ rest' = u.reverse ++ rest ∧ size u = k
    | .error e => e = .boundary := by
  intro k
  induction k using Nat.strongRecOn with
  | ind k ih =>
    intro seen rest hk
    cases k with
    | zero => rw [back]; exact ⟨[], rfl, rfl, rfl⟩
    | succ k =>
      cases seen with
      | nil => simp [size] at hk
      | cons c seen =>
        rw [back]
        split
        · rename_i x y heq
          split at heq
          · rename_i hc
            have hpos := Char.utf8Size_pos c
            have := ih (k + 1 - c.utf8Size) (by omega) seen (c :: rest) (by rw [size_cons] at hk; omega)
            rw [heq] at this
            obtain ⟨u, h1, h2, h3⟩ := this
            exact ⟨c :: u, by rw [h1]; rfl, by rw [h2]; simp, by rw [size_cons, h3]; omega⟩
          · cases heq
        · rename_i e heq
          split at heq
          · rename_i hc
            have hpos := Char.utf8Size_pos c
            have := ih (k + 1 - c.utf8Size) (by omega) seen (c :: rest) (by rw [size_cons] at hk; omega)
            rw [heq] at this
            exact this
          · cases heq; rfl

theorem size_small {u : List Char} (h : ∀ c ∈ u, c.utf8Size = 1) : size u = u.length := by
  induction u with
  | nil => rfl
  | cons c u ih => rw [size_cons, ih (fun x hx => h x (List.mem_cons_of_mem _ hx)), h c (by simp), List.length_cons]; omega

/-- Going back over characters of one byte works. -/
theorem back_small : ∀ (u seen rest : List Char), (∀ c ∈ u, c.utf8Size = 1) → back u.length (u ++ seen) rest = .ok (seen, u.reverse ++ rest) := by
  intro u
  induction u with
  | nil => intro seen rest _; rw [List.length_nil, back]; rfl
  | cons c u ih =>
    intro seen rest h
    have hc := h c (by simp)
    rw [List.length_cons, List.cons_append, back, hc, if_pos (by omega), Nat.add_sub_cancel, ih _ _ (fun x hx => h x (List.mem_cons_of_mem _ hx))]
    simp

theorem length_le_size (u : List Char) : u.length ≤ size u := by
  induction u with
  | nil => exact Nat.le_refl _
  | cons c u ih => rw [size_cons, List.length_cons]; have := Char.utf8Size_pos c; omega

end Verif.Tokenizer
