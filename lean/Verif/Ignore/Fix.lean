import Verif.Ignore.Lemmas

/-! Helper lemmas about the index of the codes and the quick fix. -/

namespace Verif.Ignore
open Spec

def joinHash (cs : List Text) : Text := cs.flatMap fun c => '#' :: c

theorem splitOn_join (t : Text) :
    t = t.takeWhile (fun c => !isHash c) ++ joinHash (splitOn isHash t).tail := by
  induction t with
  | nil => rfl
  | cons c cs ih =>
    by_cases hc : isHash c = true
    · have h1 : (c :: cs).takeWhile (fun c => !isHash c) = [] := by simp [hc]
      have hh : c = '#' := by simpa [isHash] using hc
      rw [splitOn_cons_pos cs hc, List.tail_cons, splitOn_eq, h1]
      simp only [joinHash, List.flatMap_cons, List.nil_append, List.cons_append]
      rw [hh]
      exact congrArg _ ih
    · rw [splitOn_cons_neg cs hc, List.tail_cons,
        List.takeWhile_cons_of_pos (by simpa using hc), List.cons_append, ← ih]

theorem commentLoop_keeps (cs : List Text) (s : Nat) (k : Kind) (c : Text) (n : Nat)
    (l : List Text) (k' : Kind) (c' : Text) (n' : Nat) (l' : List Text)
    (h : (commentLoop s (some (.withCodes k c n l)) cs).2 = some (.withCodes k' c' n' l')) :
    k' = k ∧ c' = c ∧ n' = n := by
  have bare : ∀ (cs : List Text) (s : Nat),
      (commentLoop s (some .withoutCode) cs).2 = some .withoutCode := by
    intro cs
    induction cs with
    | nil => intro s; rfl
    | cons x cs ih =>
      intro s
      rw [commentLoop]
      cases parseComment s x with
      | none => exact ih _
      | some y => cases y <;> exact ih _
  induction cs generalizing s l with
  | nil => simp [commentLoop] at h; simp [h]
  | cons x cs ih =>
    rw [commentLoop] at h
    cases hp : parseComment s x with
    | none => rw [hp] at h; exact ih _ _ h
    | some y =>
      rw [hp] at h
      cases y with
      | withoutCode =>
        simp only [merge] at h
        rw [bare] at h
        cases h
      | withCodes => exact ih _ _ h

theorem commentLoop_first (cs : List Text) (s : Nat) (k : Kind) (c : Text) (n : Nat)
    (l : List Text) (h : (commentLoop s none cs).2 = some (.withCodes k c n l)) :
    ∃ pre x post, cs = pre ++ x :: post ∧
      parseComment (s + (joinHash pre).length) x = some (.withCodes k c n []) := by
  induction cs generalizing s with
  | nil => simp [commentLoop] at h
  | cons x cs ih =>
    rw [commentLoop] at h
    cases hp : parseComment s x with
    | none =>
      rw [hp] at h
      obtain ⟨pre, y, post, h1, h2⟩ := ih _ h
      refine ⟨x :: pre, y, post, by simp [h1], ?_⟩
      rw [← h2]
      congr 1
      simp [joinHash]
      omega
    | some y =>
      rw [hp] at h
      cases y with
      | withoutCode =>
        simp only [merge] at h
        exfalso
        have bare : ∀ (cs : List Text) (s : Nat),
            (commentLoop s (some .withoutCode) cs).2 = some .withoutCode := by
          intro cs
          induction cs with
          | nil => intro s; rfl
          | cons x cs ih =>
            intro s
            rw [commentLoop]
            cases parseComment s x with
            | none => exact ih _
            | some y => cases y <;> exact ih _
        rw [bare] at h
        cases h
      | withCodes k' c' n' l' =>
        simp only [merge] at h
        obtain ⟨rfl, rfl, rfl⟩ := commentLoop_keeps _ _ _ _ _ _ _ _ _ _ h
        have := parse_later _ _ _ _ _ _ hp
        subst this
        exact ⟨[], x, cs, rfl, by simpa [joinHash] using hp⟩

theorem parse_index (s : Nat) (seg : Text) (k : Kind) (codes : Text) (n : Nat)
    (h : parseComment s seg = some (.withCodes k codes n [])) :
    ∃ a b c d, seg = (spaces a ++ kindText k ++ [':'] ++ spaces b ++ ignoreWord ++ spaces c ++ ['[']) ++
        codes ++ ([']'] ++ spaces d) ∧ codes ≠ [] ∧
      n = s + (spaces a ++ kindText k ++ [':'] ++ spaces b ++ ignoreWord ++ spaces c ++ ['[']).length := by
  rw [parseComment_eq] at h
  split at h
  · cases h
  · rename_i k' after ha
    split at h
    · rename_i codes' hc
      cases h
      obtain ⟨a, b, hs⟩ := (afterIgnore_eq_some _ _ _).1 ha
      obtain ⟨⟨c, d, hd⟩, hne⟩ := (codesOf_eq_some _ _).1 hc
      refine ⟨a, b, c, d, by rw [hs, hd]; simp, hne, ?_⟩
      have ht : trimStart after = ['['] ++ codes ++ [']'] ++ spaces d := by
        rw [hd]
        rw [show spaces c ++ ['['] ++ codes ++ [']'] ++ spaces d =
          spaces c ++ (['['] ++ codes ++ [']'] ++ spaces d) by simp]
        exact trimStart_eq_of_stops _ _ (by
          intro x r hx; simp at hx; rw [← hx.1]; decide)
      rw [ht, hs, hd]
      simp
      omega
    · split at h <;> cases h

theorem splitOn_none (p : Char → Bool) (t : Text) (h : ∀ c ∈ t, p c = false) :
    splitOn p t = [t] := by
  induction t with
  | nil => rfl
  | cons c cs ih =>
    have hc := h c (by simp)
    rw [splitOn, if_neg (by simp [hc]), ih (fun x hx => h x (by simp [hx]))]

/-- Where the first coded comment of one line is. -/
theorem region_first (s : Nat) (region : Text) (hn : ∀ c ∈ region, ¬ LineBreak c) (k : Kind)
    (codes : Text) (n : Nat) (l : List Text)
    (h : ignoreForRegion s region = some (.withCodes k codes n l)) :
    ∃ pre seg post, region = pre ++ '#' :: (seg ++ post) ∧ (∀ c ∈ seg, c ≠ '#') ∧
      StopsAt (· = '#') post ∧
      parseComment (s + pre.length + 1) seg = some (.withCodes k codes n []) := by
  unfold ignoreForRegion at h
  rw [splitOn_none isNewline region (fun c hc => (newline_false_iff c).2 (hn c hc))] at h
  simp only [lineLoop] at h
  rw [splitOn_eq] at h
  simp only [lineStep] at h
  obtain ⟨pre, x, post, hcs, hp⟩ := commentLoop_first _ _ _ _ _ _ h
  have hr := splitOn_join region
  have hx : x ∈ (splitOn isHash region).tail := by rw [hcs]; simp
  obtain ⟨_, _, _, _, _, hx1, _⟩ := (tail_mem _ _ _).1 hx
  rw [hcs] at hr
  refine ⟨region.takeWhile (fun c => !isHash c) ++ joinHash pre, x, joinHash post, ?_, ?_, ?_, ?_⟩
  · conv => lhs; rw [hr]
    simp [joinHash]
  · intro c hc he
    have := hx1 c hc
    simp [isHash, he] at this
  · intro c r hc
    cases post with
    | nil => simp [joinHash] at hc
    | cons y ys => simp [joinHash] at hc; exact hc.1.symm
  · rw [← hp]
    congr 1
    simp
    omega

/-- A comment on the first line of an issue is found whatever the end of the issue. -/
theorem hasComment_first_line (before line after : Text) (stop : Nat) (seg : Text)
    (hn : ∀ c ∈ line, ¬ LineBreak c) (ha : StopsAt LineBreak after)
    (hs : before.length ≤ stop) (hl : stop ≤ (before ++ line ++ after).length)
    (h : HasComment line seg) :
    HasComment (relevantRegion (before ++ line ++ after) before.length stop) seg := by
  obtain ⟨b', l', a', hc, hb, ⟨hd, hh, hdl⟩, hl', ha'⟩ :=
    relevantRegion_lines (before ++ line ++ after) before.length stop hs hl
  generalize relevantRegion (before ++ line ++ after) before.length stop = region at *
  rw [List.append_assoc, List.append_assoc] at hc
  obtain ⟨e1, e2⟩ := List.append_inj hc hb.symm
  rcases List.append_eq_append_iff.1 e2 with ⟨extra, he1, he2⟩ | ⟨extra, he1, he2⟩
  · obtain ⟨pre, post, h1, h2, h3⟩ := h
    refine ⟨pre, post ++ extra, by rw [he1, h1]; simp, h2, ?_⟩
    intro c r hr
    cases post with
    | nil =>
      simp only [List.nil_append] at hr
      exact Or.inr (ha c (r ++ a') (by rw [he2, hr]; rfl))
    | cons x xs =>
      simp only [List.cons_append, List.cons.injEq] at hr
      exact h3 c xs (by rw [hr.1])
  · cases extra with
    | nil =>
      simp only [List.append_nil] at he1
      rw [← he1]; exact h
    | cons x xs =>
      exfalso
      exact hn x (by rw [he1]; simp) (ha' x (xs ++ after) (by rw [he2]; rfl))

theorem trimEnd_cons (c : Char) (t : Text) :
    trimEnd (c :: t) = if trimEnd t = [] then (if c = ' ' then [] else [c]) else c :: trimEnd t := by
  obtain ⟨n, hn⟩ := eq_trimEnd_spaces t
  by_cases h : trimEnd t = []
  · rw [if_pos h]
    rw [h, List.nil_append] at hn
    rw [hn]
    by_cases hc : c = ' '
    · rw [if_pos hc, hc]
      have : ' ' :: spaces n = [] ++ spaces (n + 1) := by simp [spaces, List.replicate_succ]
      rw [this, trimEnd_eq_of_stops _ _ (by simp)]
    · rw [if_neg hc]
      have : c :: spaces n = [c] ++ spaces n := rfl
      rw [this, trimEnd_eq_of_stops]
      intro x r hx
      cases r with
      | nil => simp at hx; rw [← hx]; exact hc
      | cons y ys => simp at hx
  · rw [if_neg h]
    conv => lhs; rw [hn]
    rw [← List.cons_append, trimEnd_eq_of_stops]
    intro x r hx
    cases r with
    | nil => simp at hx; exact absurd hx.2 h
    | cons y ys =>
      simp at hx
      exact trimEnd_last t x ys hx.2

theorem trimEnd_spaces (t : Text) (n : Nat) : trimEnd (t ++ spaces n) = trimEnd t := by
  obtain ⟨m, hm⟩ := eq_trimEnd_spaces t
  conv => lhs; rw [hm, List.append_assoc]
  have : spaces m ++ spaces n = spaces (m + n) := by simp [spaces]
  rw [this]
  exact trimEnd_eq_of_stops _ _ (fun c r h => trimEnd_last t c r h)

theorem splitOn_trimEnd (t : Text) (n : Nat) :
    (splitOn (· == ',') (t ++ spaces n)).map trimEnd = (splitOn (· == ',') t).map trimEnd := by
  induction t with
  | nil =>
    rw [List.nil_append, splitOn_none]
    · have : trimEnd (spaces n) = [] := by
        have := trimEnd_spaces [] n
        simpa [trimEnd, trimStart] using this
      simp only [splitOn, List.map_cons, List.map_nil, this]
      rfl
    · intro c hc
      have := List.eq_of_mem_replicate hc
      rw [this]; rfl
  | cons c t ih =>
    by_cases hc : (c == ',') = true
    · rw [List.cons_append, splitOn_cons_pos (p := (· == ',')) _ hc,
        splitOn_cons_pos (p := (· == ',')) _ hc]
      simp [ih]
    · rw [List.cons_append, splitOn_cons_neg (p := (· == ',')) _ hc,
        splitOn_cons_neg (p := (· == ',')) _ hc]
      rw [splitOn_eq, splitOn_eq _ t] at ih
      simp only [List.map_cons, List.cons.injEq] at ih ⊢
      refine ⟨?_, ih.2⟩
      rw [trimEnd_cons, trimEnd_cons, ih.1]

theorem trimBoth_of_trimEnd (t u : Text) (h : trimEnd t = trimEnd u) : trimBoth t = trimBoth u := by
  have key : ∀ t, trimBoth t = trimBoth (trimEnd t) := by
    intro t
    obtain ⟨n, hn⟩ := eq_trimEnd_spaces t
    obtain ⟨a, b, h1, h2, h3⟩ := trimBoth_shape (trimEnd t)
    conv => lhs; rw [hn, h1]
    have : spaces a ++ trimBoth (trimEnd t) ++ spaces b ++ spaces n =
        spaces a ++ trimBoth (trimEnd t) ++ spaces (b + n) := by simp [spaces]
    rw [this]
    exact trimBoth_spaces _ _ _ h2 h3
  rw [key, key u, h]

theorem splitOn_append (p : Char → Bool) (t : Text) (d : Char) (r : Text) (hd : p d = true) :
    splitOn p (t ++ d :: r) = splitOn p t ++ splitOn p r := by
  induction t with
  | nil => rw [List.nil_append, splitOn_cons_pos _ hd]; rfl
  | cons c t ih =>
    by_cases hc : p c = true
    · rw [List.cons_append, splitOn_cons_pos _ hc, splitOn_cons_pos _ hc, ih]; rfl
    · rw [List.cons_append, splitOn, if_neg hc, ih, splitOn, if_neg hc]
      rw [splitOn_eq p t]
      simp

theorem lists_append (t : Text) (n : Nat) (r : Text) (c : Text) (h : Lists (t ++ spaces n) c) :
    Lists (t ++ ',' :: r) c := by
  rw [lists_iff] at h ⊢
  obtain ⟨piece, hm, rfl⟩ := h
  have : trimEnd piece ∈ (splitOn (· == ',') t).map trimEnd := by
    rw [← splitOn_trimEnd t n]
    exact List.mem_map_of_mem hm
  obtain ⟨q, hq, he⟩ := List.mem_map.1 this
  refine ⟨q, ?_, trimBoth_of_trimEnd _ _ he⟩
  rw [splitOn_append _ _ _ _ (by rfl)]
  simp [hq]

theorem trimAsciiEnd_spaces (t : Text) (h : ∀ c ∈ t, isAsciiSpace c = true → c = ' ') :
    ∃ n, t = trimAsciiEnd t ++ spaces n := by
  have : trimAsciiEnd t = trimEnd t := by
    unfold trimAsciiEnd trimEnd trimStart
    congr 1
    have : ∀ u : Text, (∀ c ∈ u, isAsciiSpace c = true → c = ' ') →
        u.dropWhile isAsciiSpace = u.dropWhile (· == ' ') := by
      intro u
      induction u with
      | nil => intro _; rfl
      | cons x u ih =>
        intro hu
        by_cases hx : x = ' '
        · subst hx
          rw [List.dropWhile_cons, if_pos (by decide), List.dropWhile_cons, if_pos (by decide)]
          exact ih (fun c hc => hu c (by simp [hc]))
        · have h1 : ¬ isAsciiSpace x = true := fun h => hx (hu x (by simp) h)
          rw [List.dropWhile_cons, if_neg h1, List.dropWhile_cons, if_neg (by simpa using hx)]
    exact this _ (fun c hc => h c (by simpa using hc))
  rw [this]
  exact eq_trimEnd_spaces t

end Verif.Ignore
