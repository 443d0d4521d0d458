import Verif.Ignore.Model
import Verif.Ignore.Spec

/-! Helper lemmas for `Verif.Ignore.Props`. -/

namespace Verif.Ignore
open Spec

/-! ### Splitting -/

theorem splitOn_eq (p : Char → Bool) (t : Text) :
    splitOn p t = t.takeWhile (fun c => !p c) :: (splitOn p t).tail := by
  induction t with
  | nil => rfl
  | cons c cs ih =>
    by_cases hc : p c = true
    · simp [splitOn, hc]
    · rw [splitOn, if_neg hc, ih]
      simp [hc]

theorem splitOn_cons_pos {p : Char → Bool} {c : Char} (cs : Text) (hc : p c = true) :
    splitOn p (c :: cs) = [] :: splitOn p cs := by
  simp [splitOn, hc]

theorem splitOn_cons_neg {p : Char → Bool} {c : Char} (cs : Text) (hc : ¬ p c = true) :
    splitOn p (c :: cs) = (c :: cs.takeWhile (fun c => !p c)) :: (splitOn p cs).tail := by
  rw [splitOn, if_neg hc, splitOn_eq p cs]
  simp

theorem takeWhile_all (p : Char → Bool) (t : Text) (c : Char) (h : c ∈ t.takeWhile p) :
    p c = true := by
  induction t with
  | nil => simp at h
  | cons d t ih =>
    by_cases hd : p d = true
    · rw [List.takeWhile_cons_of_pos hd, List.mem_cons] at h
      rcases h with rfl | h
      · exact hd
      · exact ih h
    · rw [List.takeWhile_cons_of_neg hd] at h
      cases h

/-- The text of a comment runs to the first stop character. -/
theorem takeWhile_eq_iff (p : Char → Bool) (t seg : Text) :
    t.takeWhile (fun c => !p c) = seg ↔
      ∃ post, t = seg ++ post ∧ (∀ c ∈ seg, p c = false) ∧ (∀ c r, post = c :: r → p c = true) := by
  constructor
  · intro h
    subst h
    refine ⟨t.dropWhile (fun c => !p c), (List.takeWhile_append_dropWhile).symm, ?_, ?_⟩
    · intro c hc
      simpa using takeWhile_all _ _ _ hc
    · intro c r hr
      have := List.head?_dropWhile_not (fun c => !p c) t
      rw [hr] at this
      simpa using this
  · rintro ⟨post, rfl, h1, h2⟩
    rw [List.takeWhile_append_of_pos (by intro c hc; simp [h1 c hc])]
    cases post with
    | nil => simp
    | cons c r => simp [h2 c r rfl]

theorem tail_mem (p : Char → Bool) (t seg : Text) :
    seg ∈ (splitOn p t).tail ↔
      ∃ pre d post, t = pre ++ d :: (seg ++ post) ∧ p d = true ∧ (∀ c ∈ seg, p c = false) ∧
        (∀ c r, post = c :: r → p c = true) := by
  induction t with
  | nil => simp [splitOn]
  | cons c cs ih =>
    by_cases hc : p c = true
    · rw [splitOn_cons_pos cs hc, List.tail_cons, splitOn_eq, List.mem_cons, ih,
        eq_comm, takeWhile_eq_iff]
      constructor
      · rintro (⟨post, h, h1, h2⟩ | ⟨pre, d, post, h, hd, h1, h2⟩)
        · exact ⟨[], c, post, by simp [h], hc, h1, h2⟩
        · exact ⟨c :: pre, d, post, by simp [h], hd, h1, h2⟩
      · rintro ⟨pre, d, post, h, hd, h1, h2⟩
        cases pre with
        | nil =>
          simp only [List.nil_append, List.cons.injEq] at h
          exact Or.inl ⟨post, h.2, h1, h2⟩
        | cons c' pre =>
          simp only [List.cons_append, List.cons.injEq] at h
          exact Or.inr ⟨pre, d, post, h.2, hd, h1, h2⟩
    · rw [splitOn_cons_neg cs hc, List.tail_cons, ih]
      constructor
      · rintro ⟨pre, d, post, h, hd, h1, h2⟩
        exact ⟨c :: pre, d, post, by simp [h], hd, h1, h2⟩
      · rintro ⟨pre, d, post, h, hd, h1, h2⟩
        cases pre with
        | nil =>
          simp only [List.nil_append, List.cons.injEq] at h
          exact absurd (h.1 ▸ hd) hc
        | cons c' pre =>
          simp only [List.cons_append, List.cons.injEq] at h
          exact ⟨pre, d, post, h.2, hd, h1, h2⟩

theorem splitOn_mem (p : Char → Bool) (t seg : Text) :
    seg ∈ splitOn p t ↔
      ∃ pre post, t = pre ++ seg ++ post ∧ (∀ c r, pre = r ++ [c] → p c = true) ∧
        (∀ c ∈ seg, p c = false) ∧ (∀ c r, post = c :: r → p c = true) := by
  rw [splitOn_eq, List.mem_cons, tail_mem, eq_comm, takeWhile_eq_iff]
  constructor
  · rintro (⟨post, h, h1, h2⟩ | ⟨pre, d, post, h, hd, h1, h2⟩)
    · exact ⟨[], post, by simp [h], by simp, h1, h2⟩
    · refine ⟨pre ++ [d], post, by simp [h], ?_, h1, h2⟩
      intro c r hr
      have := (List.append_inj_right' hr rfl)
      simp at this
      rw [← this]; exact hd
  · rintro ⟨pre, post, h, hp, h1, h2⟩
    rcases List.eq_nil_or_concat pre with rfl | ⟨pre', d, rfl⟩
    · exact Or.inl ⟨post, by simpa using h, h1, h2⟩
    · exact Or.inr ⟨pre', d, post, by simpa using h, hp d pre' (by simp), h1, h2⟩

/-- The comment texts of a region in order, as the two nested loops see them. -/
def segs (region : Text) : List Text :=
  (splitOn isNewline region).flatMap fun line => (splitOn isHash line).tail

def isStop (c : Char) : Bool := isHash c || isNewline c

theorem takeWhile_takeWhile_stop (t : Text) :
    (t.takeWhile (fun c => !isNewline c)).takeWhile (fun c => !isHash c) =
      t.takeWhile (fun c => !isStop c) := by
  induction t with
  | nil => rfl
  | cons c t ih =>
    by_cases hn : isNewline c = true
    · simp [hn, isStop]
    · by_cases hh : isHash c = true
      · simp [hn, hh, isStop]
      · rw [List.takeWhile_cons_of_pos (by simpa using hn),
          List.takeWhile_cons_of_pos (by simpa using hh),
          List.takeWhile_cons_of_pos (by simp [isStop, hn, hh]), ih]

theorem segs_cons (c : Char) (cs : Text) :
    segs (c :: cs) =
      if isHash c then cs.takeWhile (fun c => !isStop c) :: segs cs else segs cs := by
  unfold segs
  by_cases hn : isNewline c = true
  · have hh : ¬ isHash c = true := by
      intro hh
      simp [isHash] at hh
      subst hh
      simp [isNewline] at hn
    rw [splitOn_cons_pos cs hn, if_neg hh]
    simp [splitOn]
  · rw [splitOn_cons_neg cs hn, splitOn_eq isNewline cs]
    by_cases hh : isHash c = true
    · rw [if_pos hh]
      simp only [List.flatMap_cons, List.tail_cons]
      rw [splitOn_cons_pos _ hh, List.tail_cons]
      have := splitOn_eq isHash (cs.takeWhile (fun c => !isNewline c))
      rw [takeWhile_takeWhile_stop] at this
      conv => lhs; rw [this]
      simp
    · rw [if_neg hh]
      simp only [List.flatMap_cons, List.tail_cons]
      rw [splitOn_cons_neg _ hh, List.tail_cons]

theorem stop_iff (c : Char) : isStop c = true ↔ (c = '#' ∨ LineBreak c) := by
  simp [isStop, isHash, isNewline, LineBreak]

theorem stop_false_iff (c : Char) : isStop c = false ↔ (c ≠ '#' ∧ ¬ LineBreak c) := by
  rw [← Bool.not_eq_true, stop_iff]
  simp [not_or]

theorem mem_segs (region seg : Text) : seg ∈ segs region ↔ HasComment region seg := by
  induction region with
  | nil => simp [segs, splitOn, HasComment]
  | cons c cs ih =>
    rw [segs_cons]
    by_cases hh : isHash c = true
    · rw [if_pos hh, List.mem_cons, ih, eq_comm, takeWhile_eq_iff]
      have hc : c = '#' := by simpa [isHash] using hh
      constructor
      · rintro (⟨post, h, h1, h2⟩ | ⟨pre, post, h, h1, h2⟩)
        · exact ⟨[], post, by simp [h, hc], fun x hx => (stop_false_iff x).1 (h1 x hx),
            fun x r hr => (stop_iff x).1 (h2 x r hr)⟩
        · exact ⟨c :: pre, post, by simp [h], h1, h2⟩
      · rintro ⟨pre, post, h, h1, h2⟩
        cases pre with
        | nil =>
          simp only [List.nil_append, List.cons.injEq] at h
          exact Or.inl ⟨post, h.2, fun x hx => (stop_false_iff x).2 (h1 x hx),
            fun x r hr => (stop_iff x).2 (h2 x r hr)⟩
        | cons c' pre =>
          simp only [List.cons_append, List.cons.injEq] at h
          exact Or.inr ⟨pre, post, h.2, h1, h2⟩
    · rw [if_neg hh, ih]
      constructor
      · rintro ⟨pre, post, h, h1, h2⟩
        exact ⟨c :: pre, post, by simp [h], h1, h2⟩
      · rintro ⟨pre, post, h, h1, h2⟩
        cases pre with
        | nil =>
          simp only [List.nil_append, List.cons.injEq] at h
          exact absurd (by simp [isHash, h.1]) hh
        | cons c' pre =>
          simp only [List.cons_append, List.cons.injEq] at h
          exact ⟨pre, post, h.2, h1, h2⟩

/-! ### Trimming and stripping -/

theorem trimStart_spaces (n : Nat) (t : Text) : trimStart (spaces n ++ t) = trimStart t := by
  induction n with
  | zero => simp [spaces]
  | succ n ih =>
    simp only [spaces, List.replicate_succ, List.cons_append]
    rw [trimStart, List.dropWhile_cons]
    simpa [spaces, trimStart] using ih

theorem trimStart_of_ne {c : Char} (t : Text) (h : c ≠ ' ') : trimStart (c :: t) = c :: t := by
  simp [trimStart, List.dropWhile_cons, h]

theorem eq_spaces_trimStart (t : Text) : ∃ n, t = spaces n ++ trimStart t := by
  induction t with
  | nil => exact ⟨0, rfl⟩
  | cons c cs ih =>
    by_cases h : c = ' '
    · obtain ⟨n, hn⟩ := ih
      refine ⟨n + 1, ?_⟩
      subst h
      have : trimStart (' ' :: cs) = trimStart cs := by simp [trimStart]
      rw [this]
      simp only [spaces, List.replicate_succ, List.cons_append]
      rw [← spaces, ← hn]
    · exact ⟨0, by rw [trimStart_of_ne cs h]; rfl⟩

theorem trimStart_head (t : Text) (c : Char) (r : Text) (h : trimStart t = c :: r) : c ≠ ' ' := by
  have := List.head?_dropWhile_not (· == ' ') t
  unfold trimStart at h
  rw [h] at this
  simpa using this

theorem trimStart_eq_of_stops (n : Nat) (t : Text) (h : ∀ c r, t = c :: r → c ≠ ' ') :
    trimStart (spaces n ++ t) = t := by
  rw [trimStart_spaces]
  cases t with
  | nil => rfl
  | cons c r => exact trimStart_of_ne r (h c r rfl)

theorem spaces_reverse (n : Nat) : (spaces n).reverse = spaces n := by simp [spaces]

theorem eq_trimEnd_spaces (t : Text) : ∃ n, t = trimEnd t ++ spaces n := by
  obtain ⟨n, hn⟩ := eq_spaces_trimStart t.reverse
  refine ⟨n, ?_⟩
  have := congrArg List.reverse hn
  simpa [trimEnd, spaces_reverse] using this

theorem trimEnd_last (t : Text) (c : Char) (r : Text) (h : trimEnd t = r ++ [c]) : c ≠ ' ' := by
  unfold trimEnd at h
  have := congrArg List.reverse h
  simp at this
  exact trimStart_head _ _ _ this

theorem trimEnd_eq_of_stops (n : Nat) (t : Text) (h : ∀ c r, t = r ++ [c] → c ≠ ' ') :
    trimEnd (t ++ spaces n) = t := by
  unfold trimEnd
  rw [List.reverse_append, spaces_reverse, trimStart_eq_of_stops, List.reverse_reverse]
  intro c r hr
  refine h c r.reverse ?_
  have := congrArg List.reverse hr
  simpa using this

theorem stripPrefix_eq_some (pre t r : Text) : stripPrefix pre t = some r ↔ t = pre ++ r := by
  unfold stripPrefix
  by_cases h : pre.isPrefixOf t = true
  · rw [if_pos h]
    obtain ⟨s, rfl⟩ := List.isPrefixOf_iff_prefix.1 h
    simp
  · rw [if_neg h]
    simp only [reduceCtorEq, false_iff]
    rintro rfl
    exact h (List.isPrefixOf_iff_prefix.2 ⟨r, rfl⟩)

theorem stripSuffix_eq_some (c : Char) (t r : Text) : stripSuffix c t = some r ↔ t = r ++ [c] := by
  unfold stripSuffix
  rcases List.eq_nil_or_concat t with rfl | ⟨t', d, rfl⟩
  · simp
  · by_cases h : d = c
    · subst h
      simp
    · simp [h]

theorem bracketed_eq_some (t codes : Text) :
    bracketed t = some codes ↔ t = ['['] ++ codes ++ [']'] ∧ codes ≠ [] := by
  unfold bracketed
  constructor
  · intro h
    split at h
    · rename_i inner h1
      split at h
      · rename_i cs h2
        rw [stripPrefix_eq_some] at h1
        rw [stripSuffix_eq_some] at h2
        split at h
        · cases h
        · rename_i h3
          cases h
          exact ⟨by rw [h1, h2]; simp, by simpa using h3⟩
      · cases h
    · cases h
  · rintro ⟨rfl, hne⟩
    have h1 : stripPrefix ['['] (['['] ++ codes ++ [']']) = some (codes ++ [']']) := by
      rw [stripPrefix_eq_some]; simp
    have h2 : stripSuffix ']' (codes ++ [']']) = some codes := by
      rw [stripSuffix_eq_some]
    rw [h1]; simp only [h2]
    rw [if_neg (by simpa using hne)]

/-! ### One comment -/

theorem kindText_type : "type".toList = kindText .type := by rfl
theorem kindText_zuban : "zuban".toList = kindText .zuban := by rfl
theorem ignoreWord_eq : "ignore".toList = ignoreWord := by rfl

theorem kindColon (k : Kind) : kindText k ++ [':'] = (match k with
    | .type => typeColon | .zuban => zubanColon) := by
  cases k <;> rfl

theorem kindOf_eq_some (seg : Text) (k : Kind) (r : Text) :
    kindOf seg = some (k, r) ↔ ∃ a, seg = spaces a ++ kindText k ++ [':'] ++ r := by
  unfold kindOf
  constructor
  · intro h
    obtain ⟨a, ha⟩ := eq_spaces_trimStart seg
    simp only at h
    split at h
    · rename_i r' h1
      rw [stripPrefix_eq_some] at h1
      cases h
      exact ⟨a, by rw [ha, h1]; simp [kindText, typeColon]⟩
    · split at h
      · rename_i r' h1
        rw [stripPrefix_eq_some] at h1
        cases h
        exact ⟨a, by rw [ha, h1]; simp [kindText, zubanColon]⟩
      · cases h
  · rintro ⟨a, rfl⟩
    rw [List.append_assoc, List.append_assoc, trimStart_eq_of_stops]
    · cases k with
      | type =>
        have h1 : stripPrefix typeColon (kindText .type ++ ([':'] ++ r)) = some r := by
          rw [stripPrefix_eq_some]; rfl
        simp only [h1]
      | zuban =>
        have h0 : stripPrefix typeColon (kindText .zuban ++ ([':'] ++ r)) = none := by
          rfl
        have h1 : stripPrefix zubanColon (kindText .zuban ++ ([':'] ++ r)) = some r := by
          rw [stripPrefix_eq_some]; rfl
        simp only [h0, h1]
    · intro c r' h
      cases k <;> simp [kindText] at h <;> rw [← h.1] <;> decide

/-- The shape of a segment that carries an ignore, with the two amounts of spaces. -/
def Shape (seg : Text) (k : Kind) (after : Text) : Prop :=
  ∃ a b, seg = spaces a ++ kindText k ++ [':'] ++ spaces b ++ ignoreWord ++ after

theorem marked_iff (seg word rest : Text) :
    Marked seg word rest ↔ ∃ k, word = kindText k ∧ Shape seg k rest := by
  unfold Marked Shape
  constructor
  · rintro ⟨rfl | rfl, a, b, h⟩
    · exact ⟨.type, rfl, a, b, h⟩
    · exact ⟨.zuban, rfl, a, b, h⟩
  · rintro ⟨k, rfl, a, b, h⟩
    refine ⟨?_, a, b, h⟩
    cases k
    · exact Or.inl rfl
    · exact Or.inr rfl

/-- The text after `ignore`, as computed. -/
def afterIgnore (seg : Text) : Option (Kind × Text) :=
  match kindOf seg with
  | none => none
  | some (k, r) =>
    match stripPrefix ignoreWord (trimStart r) with
    | none => none
    | some after => some (k, after)

theorem afterIgnore_eq_some (seg : Text) (k : Kind) (after : Text) :
    afterIgnore seg = some (k, after) ↔ Shape seg k after := by
  unfold afterIgnore Shape
  constructor
  · intro h
    split at h
    · cases h
    · rename_i k' r hk
      split at h
      · cases h
      · rename_i after' h1
        cases h
        rw [kindOf_eq_some] at hk
        rw [stripPrefix_eq_some] at h1
        obtain ⟨a, ha⟩ := hk
        obtain ⟨b, hb⟩ := eq_spaces_trimStart r
        exact ⟨a, b, by rw [ha, hb, h1]; simp⟩
  · rintro ⟨a, b, h⟩
    have hk : kindOf seg = some (k, spaces b ++ (ignoreWord ++ after)) := by
      rw [kindOf_eq_some]; exact ⟨a, by rw [h]; simp⟩
    rw [hk]
    have : trimStart (spaces b ++ (ignoreWord ++ after)) = ignoreWord ++ after :=
      trimStart_eq_of_stops _ _ (by intro c r h; simp [ignoreWord] at h; rw [← h.1]; decide)
    simp only [this]
    have : stripPrefix ignoreWord (ignoreWord ++ after) = some after := by
      rw [stripPrefix_eq_some]
    rw [this]

/-- The bracketed codes of the text after `ignore`. -/
def codesOf (after : Text) : Option Text := bracketed (trimEnd (trimStart after))

theorem codesOf_eq_some (after codes : Text) :
    codesOf after = some codes ↔
      (∃ c d, after = spaces c ++ ['['] ++ codes ++ [']'] ++ spaces d) ∧ codes ≠ [] := by
  unfold codesOf
  rw [bracketed_eq_some]
  constructor
  · rintro ⟨h, hne⟩
    obtain ⟨c, hc⟩ := eq_spaces_trimStart after
    obtain ⟨d, hd⟩ := eq_trimEnd_spaces (trimStart after)
    refine ⟨⟨c, d, ?_⟩, hne⟩
    rw [hd, h] at hc
    rw [hc]
    simp
  · rintro ⟨⟨c, d, h⟩, hne⟩
    refine ⟨?_, hne⟩
    rw [h]
    rw [show spaces c ++ ['['] ++ codes ++ [']'] ++ spaces d =
      spaces c ++ ((['['] ++ codes ++ [']']) ++ spaces d) by simp]
    rw [trimStart_eq_of_stops, trimEnd_eq_of_stops]
    · intro x r hx
      have := List.append_inj_right' hx rfl
      simp at this
      rw [← this]; decide
    · intro x r hx
      simp at hx
      rw [← hx.1]; decide

theorem endsWord_iff (after : Text) :
    endsWord after = true ↔ StopsAt (fun c => c = ' ' ∨ c = '\t') after := by
  cases after with
  | nil => simp [endsWord, StopsAt]
  | cons c r => simp [endsWord, StopsAt]

theorem parseComment_eq (s : Nat) (seg : Text) :
    parseComment s seg =
      match afterIgnore seg with
      | none => none
      | some (k, after) =>
        match codesOf after with
        | some codes => some (.withCodes k codes (s + (seg.length - (trimStart after).length) + 1) [])
        | none => if endsWord after then some .withoutCode else none := by
  unfold parseComment afterIgnore
  cases hk : kindOf seg with
  | none => rfl
  | some kr =>
    obtain ⟨k, r⟩ := kr
    simp only
    unfold maybeTypeIgnore
    cases hp : stripPrefix ignoreWord (trimStart r) with
    | none => rfl
    | some after =>
      simp only
      unfold codesOf
      have hle : (trimStart r).length ≤ seg.length := by
        obtain ⟨a, ha⟩ := (kindOf_eq_some _ _ _).1 hk
        obtain ⟨n, hn⟩ := eq_spaces_trimStart r
        have : (trimStart r).length ≤ r.length := by
          have := congrArg List.length hn
          simp at this; omega
        rw [ha]; simp; omega
      have hle2 : (trimStart after).length ≤ (trimStart r).length := by
        have h1 := congrArg List.length ((stripPrefix_eq_some _ _ _).1 hp)
        obtain ⟨n, hn⟩ := eq_spaces_trimStart after
        have := congrArg List.length hn
        simp at this h1; omega
      have : s + (seg.length - (trimStart r).length) + ((trimStart r).length - (trimStart after).length)
          = s + (seg.length - (trimStart after).length) := by omega
      rw [this]
      rfl

theorem coded_iff (seg word codes : Text) :
    Coded seg word codes ↔
      ∃ k after, word = kindText k ∧ afterIgnore seg = some (k, after) ∧ codesOf after = some codes := by
  unfold Coded
  constructor
  · rintro ⟨c, d, hm, hne⟩
    obtain ⟨k, hw, hs⟩ := (marked_iff _ _ _).1 hm
    exact ⟨k, _, hw, (afterIgnore_eq_some _ _ _).2 hs, (codesOf_eq_some _ _).2 ⟨⟨c, d, rfl⟩, hne⟩⟩
  · rintro ⟨k, after, hw, ha, hc⟩
    obtain ⟨⟨c, d, h⟩, hne⟩ := (codesOf_eq_some _ _).1 hc
    subst h
    exact ⟨c, d, (marked_iff _ _ _).2 ⟨k, hw, (afterIgnore_eq_some _ _ _).1 ha⟩, hne⟩

theorem bare_iff (seg : Text) :
    Bare seg ↔ ∃ k after, afterIgnore seg = some (k, after) ∧ codesOf after = none ∧
      endsWord after = true := by
  unfold Bare
  constructor
  · rintro ⟨⟨word, rest, hm, hs⟩, hn⟩
    obtain ⟨k, hw, hsh⟩ := (marked_iff _ _ _).1 hm
    have ha := (afterIgnore_eq_some _ _ _).2 hsh
    refine ⟨k, rest, ha, ?_, (endsWord_iff _).2 hs⟩
    cases hc : codesOf rest with
    | none => rfl
    | some codes => exact absurd ⟨word, codes, (coded_iff _ _ _).2 ⟨k, rest, hw, ha, hc⟩⟩ hn
  · rintro ⟨k, after, ha, hc, he⟩
    refine ⟨⟨kindText k, after, (marked_iff _ _ _).2 ⟨k, rfl, (afterIgnore_eq_some _ _ _).1 ha⟩,
      (endsWord_iff _).1 he⟩, ?_⟩
    rintro ⟨word, codes, h⟩
    obtain ⟨k', after', _, ha', hc'⟩ := (coded_iff _ _ _).1 h
    rw [ha] at ha'
    cases ha'
    rw [hc] at hc'
    cases hc'

theorem parse_bare (s : Nat) (seg : Text) : parseComment s seg = some .withoutCode ↔ Bare seg := by
  rw [parseComment_eq, bare_iff]
  cases ha : afterIgnore seg with
  | none => simp
  | some ka =>
    obtain ⟨k, after⟩ := ka
    simp only
    cases hc : codesOf after with
    | some codes => simp [hc]
    | none =>
      by_cases he : endsWord after = true
      · simp only [he, if_true, true_iff]
        exact ⟨k, after, rfl, hc, he⟩
      · simp [he]

theorem parse_coded (s : Nat) (seg : Text) (k : Kind) (codes : Text) :
    (∃ n l, parseComment s seg = some (.withCodes k codes n l)) ↔ Coded seg (kindText k) codes := by
  have hk : ∀ k k' : Kind, kindText k = kindText k' → k = k' := by
    intro k k' h
    cases k <;> cases k' <;> first | rfl | (simp [kindText] at h)
  rw [parseComment_eq, coded_iff]
  cases ha : afterIgnore seg with
  | none => simp
  | some ka =>
    obtain ⟨k', after⟩ := ka
    simp only
    cases hc : codesOf after with
    | some codes' =>
      constructor
      · rintro ⟨n, l, h⟩
        cases h
        exact ⟨_, after, rfl, rfl, hc⟩
      · rintro ⟨k2, after', hw, h1, h2⟩
        cases h1
        rw [hc] at h2
        cases h2
        rw [hk _ _ hw]
        exact ⟨_, _, rfl⟩
    | none =>
      constructor
      · rintro ⟨n, l, h⟩
        by_cases he : endsWord after = true
        · simp [he] at h
        · simp [he] at h
      · rintro ⟨k2, after', hw, h1, h2⟩
        cases h1
        rw [hc] at h2
        cases h2

theorem parse_later (s : Nat) (seg : Text) (k : Kind) (codes : Text) (n : Nat) (l : List Text)
    (h : parseComment s seg = some (.withCodes k codes n l)) : l = [] := by
  rw [parseComment_eq] at h
  split at h
  · cases h
  · split at h
    · cases h; rfl
    · split at h <;> cases h

/-! ### The listed codes -/

theorem trimBoth_spaces (a b : Nat) (c : Text) (h1 : ∀ x r, c = x :: r → x ≠ ' ')
    (h2 : ∀ x r, c = r ++ [x] → x ≠ ' ') : trimBoth (spaces a ++ c ++ spaces b) = c := by
  unfold trimBoth
  cases c with
  | nil =>
    have : spaces a ++ [] ++ spaces b = spaces (a + b) ++ [] := by
      simp [spaces]
    rw [this, trimStart_eq_of_stops _ _ (by simp)]
    rfl
  | cons x r =>
    rw [List.append_assoc, trimStart_eq_of_stops, trimEnd_eq_of_stops _ _ h2]
    intro y r' h
    simp only [List.cons_append, List.cons.injEq] at h
    rw [← h.1]
    exact h1 x r rfl

theorem trimBoth_shape (t : Text) :
    ∃ a b, t = spaces a ++ trimBoth t ++ spaces b ∧ (∀ x r, trimBoth t = x :: r → x ≠ ' ') ∧
      (∀ x r, trimBoth t = r ++ [x] → x ≠ ' ') := by
  obtain ⟨a, ha⟩ := eq_spaces_trimStart t
  obtain ⟨b, hb⟩ := eq_trimEnd_spaces (trimStart t)
  refine ⟨a, b, ?_, ?_, ?_⟩
  · unfold trimBoth
    rw [List.append_assoc, ← hb, ← ha]
  · intro x r h
    unfold trimBoth at h
    rw [h] at hb
    exact trimStart_head t x (r ++ spaces b) (by simpa using hb)
  · intro x r h
    exact trimEnd_last _ _ _ h

theorem lists_iff (codes c : Text) :
    Lists codes c ↔ ∃ piece ∈ splitOn (· == ',') codes, trimBoth piece = c := by
  unfold Lists
  constructor
  · rintro ⟨pre, a, b, post, h, hpre, hpost, hc, h1, h2⟩
    refine ⟨spaces a ++ c ++ spaces b, ?_, trimBoth_spaces a b c h1 h2⟩
    rw [splitOn_mem]
    refine ⟨pre, post, by simpa using h, ?_, ?_, ?_⟩
    · intro x r hx; simpa using hpre x r hx
    · intro x hx
      simp only [spaces, List.mem_append, List.mem_replicate] at hx
      rcases hx with (⟨_, rfl⟩ | hx) | ⟨_, rfl⟩
      · rfl
      · simpa using hc x hx
      · rfl
    · intro x r hx; simpa using hpost x r hx
  · rintro ⟨piece, hm, rfl⟩
    obtain ⟨pre, post, h, hpre, hc, hpost⟩ := (splitOn_mem _ _ _).1 hm
    obtain ⟨a, b, hp, h1, h2⟩ := trimBoth_shape piece
    refine ⟨pre, a, b, post, ?_, ?_, ?_, ?_, h1, h2⟩
    · rw [h]
      conv => lhs; rw [hp]
      simp
    · intro x r hx; simpa using hpre x r hx
    · intro x r hx; simpa using hpost x r hx
    · intro x hx
      have : x ∈ piece := by rw [hp]; simp [hx]
      simpa using hc x this

theorem splitOn_ne_nil (p : Char → Bool) (t : Text) : splitOn p t ≠ [] := by
  rw [splitOn_eq]; simp

theorem any_matches (i : Issue) (codes : Text) :
    (splitOn (· == ',') codes).any (codeMatches i) = true ↔
      (i.code = none ∨ ∃ c, Lists codes c ∧ (i.code = some c ∨ i.parent = some c)) := by
  rw [List.any_eq_true]
  constructor
  · rintro ⟨piece, hm, h⟩
    simp only [codeMatches, Bool.or_eq_true, beq_iff_eq, Option.isNone_iff_eq_none] at h
    rcases h with (h | h) | h
    · exact Or.inr ⟨_, (lists_iff _ _).2 ⟨piece, hm, rfl⟩, Or.inl h⟩
    · exact Or.inr ⟨_, (lists_iff _ _).2 ⟨piece, hm, rfl⟩, Or.inr h⟩
    · exact Or.inl h
  · rintro (h | ⟨c, hl, h⟩)
    · obtain ⟨x, hx⟩ := List.exists_mem_of_ne_nil _ (splitOn_ne_nil (· == ',') codes)
      exact ⟨x, hx, by simp [codeMatches, h]⟩
    · obtain ⟨piece, hm, rfl⟩ := (lists_iff _ _).1 hl
      refine ⟨piece, hm, ?_⟩
      rcases h with h | h <;> simp [codeMatches, h]

theorem isIgnored_codes (i : Issue) (k : Kind) (c : Text) (n : Nat) (l : List Text) :
    (isIgnored i (some (.withCodes k c n l))).1 =
      ((c :: l).flatMap (splitOn (· == ','))).any (codeMatches i) := by
  simp only [isIgnored]
  by_cases ha : ((c :: l).flatMap (splitOn (· == ','))).any (codeMatches i) = true
  · rw [if_pos ha, ha]
  · rw [if_neg ha]; simpa using ha

theorem covers_parse (s : Nat) (seg : Text) (i : Issue) :
    (isIgnored i (parseComment s seg)).1 = true ↔ Covers seg i.code i.parent := by
  unfold Covers
  constructor
  · intro h
    cases hp : parseComment s seg with
    | none => rw [hp] at h; simp [isIgnored] at h
    | some c =>
      cases c with
      | withoutCode => exact Or.inl ((parse_bare s seg).1 hp)
      | withCodes k codes n l =>
        have hl := parse_later _ _ _ _ _ _ hp
        subst hl
        rw [hp] at h
        refine Or.inr ⟨kindText k, codes, (parse_coded s seg k codes).1 ⟨n, [], hp⟩, ?_⟩
        rw [← any_matches]
        rw [isIgnored_codes] at h
        simpa using h
  · rintro (h | ⟨word, codes, h, hc⟩)
    · rw [(parse_bare s seg).2 h]
      rfl
    · obtain ⟨k, _, hw, _⟩ := (coded_iff _ _ _).1 h
      subst hw
      obtain ⟨n, l, hp⟩ := (parse_coded s seg k codes).2 h
      have hl := parse_later _ _ _ _ _ _ hp
      subst hl
      rw [hp, isIgnored_codes]
      simpa using (any_matches i codes).2 hc

/-! ### All comments of a region -/

theorem merge_ignored (i : Issue) (r : Option Comment) (s : Nat) (seg : Text) :
    (isIgnored i (merge r (parseComment s seg))).1 = true ↔
      (isIgnored i r).1 = true ∨ (isIgnored i (parseComment s seg)).1 = true := by
  cases hp : parseComment s seg with
  | none => cases r <;> simp [merge, isIgnored]
  | some c =>
    cases r with
    | none => simp [merge, isIgnored]
    | some d =>
      cases c with
      | withoutCode => cases d <;> simp [merge, isIgnored]
      | withCodes k codes n l =>
        have hl := parse_later _ _ _ _ _ _ hp
        subst hl
        cases d with
        | withoutCode => simp [merge, isIgnored]
        | withCodes k' codes' n' l' =>
          simp only [merge, isIgnored_codes]
          simp only [List.flatMap_cons, List.flatMap_append, List.any_append, List.flatMap_nil,
            List.append_nil, Bool.or_eq_true]
          rw [or_assoc]

theorem commentLoop_covers (i : Issue) (cs : List Text) (s : Nat) (r : Option Comment) :
    (isIgnored i (commentLoop s r cs).2).1 = true ↔
      (isIgnored i r).1 = true ∨ ∃ c ∈ cs, Covers c i.code i.parent := by
  induction cs generalizing s r with
  | nil => simp [commentLoop]
  | cons c cs ih =>
    rw [commentLoop, ih, merge_ignored, covers_parse]
    simp [or_assoc]

theorem lineStep_covers (i : Issue) (s : Nat) (r : Option Comment) (line : Text) :
    (isIgnored i (lineStep s r (splitOn isHash line)).2).1 = true ↔
      (isIgnored i r).1 = true ∨ ∃ c ∈ (splitOn isHash line).tail, Covers c i.code i.parent := by
  rw [splitOn_eq]
  exact commentLoop_covers i _ _ r

theorem lineLoop_covers (i : Issue) (lines : List Text) (s : Nat) (r : Option Comment) :
    (isIgnored i (lineLoop s r lines)).1 = true ↔
      (isIgnored i r).1 = true ∨
        ∃ c ∈ lines.flatMap (fun line => (splitOn isHash line).tail), Covers c i.code i.parent := by
  induction lines generalizing s r with
  | nil => simp [lineLoop]
  | cons l ls ih =>
    rw [lineLoop]
    simp only
    rw [ih, lineStep_covers, List.flatMap_cons]
    simp only [List.mem_append]
    constructor
    · rintro ((h | ⟨c, hc, h⟩) | ⟨c, hc, h⟩)
      · exact Or.inl h
      · exact Or.inr ⟨c, Or.inl hc, h⟩
      · exact Or.inr ⟨c, Or.inr hc, h⟩
    · rintro (h | ⟨c, hc | hc, h⟩)
      · exact Or.inl (Or.inl h)
      · exact Or.inl (Or.inr ⟨c, hc, h⟩)
      · exact Or.inr ⟨c, hc, h⟩

theorem region_covers (i : Issue) (s : Nat) (region : Text) :
    (isIgnored i (ignoreForRegion s region)).1 = true ↔
      ∃ seg, HasComment region seg ∧ Covers seg i.code i.parent := by
  unfold ignoreForRegion
  rw [lineLoop_covers]
  simp only [isIgnored, Bool.false_eq_true, false_or]
  constructor
  · rintro ⟨c, hc, h⟩
    exact ⟨c, (mem_segs _ _).1 hc, h⟩
  · rintro ⟨c, hc, h⟩
    exact ⟨c, (mem_segs _ _).2 hc, h⟩

/-! ### The region -/

theorem findIdx_none (p : Char → Bool) (t : Text) (h : t.findIdx? p = none) :
    ∀ c ∈ t, p c = false := by
  intro c hc
  have := List.findIdx?_eq_none_iff.1 h c hc
  simpa using this

theorem findIdx_some (p : Char → Bool) (t : Text) (n : Nat) (h : t.findIdx? p = some n) :
    (∀ c ∈ t.take n, p c = false) ∧ ∃ c r, t.drop n = c :: r ∧ p c = true := by
  induction t generalizing n with
  | nil => simp at h
  | cons d t ih =>
    rw [List.findIdx?_cons] at h
    by_cases hd : p d = true
    · rw [if_pos hd] at h
      cases h
      exact ⟨by simp, d, t, by simp, hd⟩
    · rw [if_neg hd] at h
      cases hn : t.findIdx? p with
      | none => rw [hn] at h; cases h
      | some m =>
        rw [hn] at h
        cases h
        obtain ⟨h1, h2⟩ := ih m hn
        refine ⟨?_, by simpa using h2⟩
        intro c hc
        simp only [List.take_succ_cons, List.mem_cons] at hc
        rcases hc with rfl | hc
        · simpa using hd
        · exact h1 c hc

theorem newline_iff (c : Char) : isNewline c = true ↔ LineBreak c := by
  simp [isNewline, LineBreak]

theorem newline_false_iff (c : Char) : isNewline c = false ↔ ¬ LineBreak c := by
  rw [← Bool.not_eq_true, newline_iff]

theorem relevantRegion_lines (code : Text) (start stop : Nat) (h1 : start ≤ stop)
    (h2 : stop ≤ code.length) : LinesOf code start stop (relevantRegion code start stop) := by
  unfold relevantRegion LinesOf
  cases hf : (code.drop stop).findIdx? isNewline with
  | none =>
    refine ⟨code.take start, code.drop stop, [], by simp, by simp; omega,
      ⟨code.take stop, by simp, by simp; omega⟩, ?_, ?_⟩
    · intro c hc
      exact (newline_false_iff c).1 (findIdx_none _ _ hf c hc)
    · intro c r h; cases h
  | some n =>
    obtain ⟨ha, c, r, hd, hc⟩ := findIdx_some _ _ _ hf
    have hn : n < (code.drop stop).length := by
      have := congrArg List.length hd
      simp at this ⊢
      omega
    simp at hn
    have e1 : code.take start ++ (code.take (stop + n)).drop start = code.take (stop + n) := by
      have : code.take start = (code.take (stop + n)).take start := by
        rw [List.take_take]; congr 1; omega
      rw [this, List.take_append_drop]
    refine ⟨code.take start, (code.drop stop).take n, code.drop (stop + n), ?_, ?_,
      ⟨code.take stop, ?_, ?_⟩, ?_, ?_⟩
    · simp only
      rw [e1, List.take_append_drop]
    · simp; omega
    · simp only
      rw [e1, List.take_add]
    · simp; omega
    · intro c hc
      exact (newline_false_iff c).1 (ha c hc)
    · intro x r' hx
      rw [← List.drop_drop, hd] at hx
      cases hx
      exact (newline_iff _).1 hc

theorem linesOf_unique (code : Text) (start stop : Nat) (r r' : Text)
    (h : LinesOf code start stop r) (h' : LinesOf code start stop r') : r = r' := by
  obtain ⟨b, l, a, hc, hb, ⟨hd, hh, hdl⟩, hl, ha⟩ := h
  obtain ⟨b', l', a', hc', hb', ⟨hd', hh', hdl'⟩, hl', ha'⟩ := h'
  have e1 : hd ++ (l ++ a) = hd' ++ (l' ++ a') := by
    rw [← List.append_assoc, ← List.append_assoc, ← hh, ← hh', ← hc, ← hc']
  obtain ⟨e2, e3⟩ := List.append_inj e1 (by omega)
  have t1 : (l ++ a).takeWhile (fun c => !isNewline c) = l :=
    (takeWhile_eq_iff _ _ _).2 ⟨a, rfl, fun c hc => (newline_false_iff c).2 (hl c hc),
      fun c r hr => (newline_iff c).2 (ha c r hr)⟩
  have t2 : (l' ++ a').takeWhile (fun c => !isNewline c) = l' :=
    (takeWhile_eq_iff _ _ _).2 ⟨a', rfl, fun c hc => (newline_false_iff c).2 (hl' c hc),
      fun c r hr => (newline_iff c).2 (ha' c r hr)⟩
  have e4 : l = l' := by rw [← t1, ← t2, e3]
  have e5 : b ++ r = b' ++ r' := by rw [hh, hh', e2, e4]
  exact (List.append_inj e5 (by omega)).2

end Verif.Ignore
