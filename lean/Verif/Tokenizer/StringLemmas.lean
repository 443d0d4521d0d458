import Verif.Tokenizer.RegexLemmas
import Verif.Tokenizer.StringSpec

/-! # The regular expressions of strings -/

namespace Verif.Tokenizer

theorem ways_set_cons (p : Char → Bool) (c : Char) (cs : List Char) : (Rx.set p).ways (c :: cs) = if p c then [cs] else [] := rfl
theorem ways_set_nil (p : Char → Bool) : (Rx.set p).ways [] = [] := rfl
theorem ways_seq (a b : Rx) (cs : List Char) : (Rx.seq a b).ways cs = (a.ways cs).flatMap b.ways := rfl
theorem ways_alt (a b : Rx) (cs : List Char) : (Rx.alt a b).ways cs = a.ways cs ++ b.ways cs := rfl

def shortItem (q : Char) : Rx := .alt withBackslash (.noneOf ['\r', '\n', q, '\\'])

def IsQuote (q : Char) : Prop := q = '\'' ∨ q = '"'

theorem IsQuote.ne {q : Char} (h : IsQuote q) : q ≠ '\\' ∧ q ≠ '\n' ∧ q ≠ '\r' := by
  rcases h with rfl | rfl <;> decide

theorem shortItem_char {q c : Char} {cs : List Char} (hc : c ≠ '\\') : (shortItem q).ways (c :: cs) = if c ≠ '\r' ∧ c ≠ '\n' ∧ c ≠ q then [cs] else [] := by
  simp [shortItem, withBackslash, ways_alt, ways_seq, Rx.chr, ways_set_cons, Rx.noneOf, hc]

theorem shortItem_nil {q : Char} : (shortItem q).ways [] = [] := rfl

theorem shortItem_escape {q : Char} {cs : List Char} : (shortItem q).ways ('\\' :: cs) =
    match cs with
    | [] => []
    | '\r' :: '\n' :: cs => [cs, '\n' :: cs, '\n' :: cs]
    | '\r' :: cs => [cs, cs]
    | _ :: cs => [cs] := by
  have h1 : (shortItem q).ways ('\\' :: cs) = (Rx.any [.seq (.chr '\r') (.opt (.chr '\n')), .chr '\n', .dot]).ways cs := by
    simp [shortItem, withBackslash, ways_alt, ways_seq, Rx.chr, ways_set_cons, Rx.noneOf]
  rw [h1]
  split
  · rfl
  · rfl
  · rename_i cs h
    cases cs with
    | nil => rfl
    | cons d cs =>
      have hd : d ≠ '\n' := by rintro rfl; exact h _ rfl
      simp [Rx.any, Rx.opt, Rx.dot, Rx.noneOf, Rx.chr, ways_alt, ways_seq, ways_set_cons, Rx.ways, hd]
  · rename_i c cs h1 h2
    have hc : c ≠ '\r' := by rintro rfl; exact h2 rfl
    by_cases hn : c = '\n'
    · subst hn; rfl
    · simp [Rx.any, Rx.opt, Rx.dot, Rx.noneOf, Rx.chr, ways_alt, ways_seq, ways_set_cons, hc, hn]

theorem head?_flatMap_append {α β : Type} {a b : List α} {g : α → List β} {x : β} (h : (a.flatMap g).head? = some x) : ((a ++ b).flatMap g).head? = some x := by
  rw [List.flatMap_append, List.head?_append, h]; rfl

/-- The match of the repeated part and the closing quote. -/
theorem short_found {q : Char} (hq : IsQuote q) {cs rest : List Char} (h : Short q cs rest) :
    ∀ n, cs.length ≤ n → ((starWays (shortItem q).ways n cs).flatMap (Rx.chr q).ways).head? = some rest := by
  have hne := hq.ne
  have next : ∀ {rest cs cs' : List Char} {ys : List (List Char)} {n : Nat}, (shortItem q).ways cs = cs' :: ys → cs'.length < cs.length → cs.length ≤ n →
      (∀ n, cs'.length ≤ n → ((starWays (shortItem q).ways n cs').flatMap (Rx.chr q).ways).head? = some rest) →
      ((starWays (shortItem q).ways n cs).flatMap (Rx.chr q).ways).head? = some rest := by
    intro rest cs cs' ys n hw hl hn ih
    obtain ⟨m, rfl⟩ : ∃ m, n = m + 1 := ⟨n - 1, by omega⟩
    rw [starWays, hw, List.flatMap_cons]
    exact head?_flatMap_append (head?_flatMap_append (ih m (by omega)))
  induction h with
  | close rest =>
    intro n hn
    obtain ⟨m, rfl⟩ : ∃ m, n = m + 1 := ⟨n - 1, by simp at hn; omega⟩
    rw [starWays, shortItem_char hne.1, if_neg (by simp)]
    simp [Rx.chr, ways_set_cons]
  | char hc h ih =>
    intro n hn
    exact next (ys := []) (by rw [shortItem_char hc.2.1, if_pos ⟨hc.2.2.2, hc.2.2.1, hc.1⟩]) (by simp) hn ih
  | @escape c cs rest hc h ih =>
    intro n hn
    refine next (ys := []) ?_ (by simp; omega) hn ih
    rw [shortItem_escape]
    split
    · rename_i h0; cases h0
    · rename_i h0; cases h0; exact absurd rfl hc
    · rename_i h0; cases h0; exact absurd rfl hc
    · rename_i h0; cases h0; rfl
  | @crlf cs rest h ih =>
    intro n hn
    exact next (ys := ['\n' :: cs, '\n' :: cs]) (by rw [shortItem_escape]; rfl) (by simp; omega) hn ih
  | @cr cs rest hnl h ih =>
    intro n hn
    refine next (ys := [cs]) ?_ (by simp; omega) hn ih
    rw [shortItem_escape]
    split
    · rename_i h0; cases h0
    · rename_i h0; cases h0; exact absurd rfl hnl
    · rename_i h0; cases h0; rfl
    · rename_i h1 h0; cases h0; exact absurd rfl h1

/-- Every match is a literal. -/
theorem short_only {q : Char} (hq : IsQuote q) : ∀ (n : Nat) (cs x : List Char), x ∈ (starWays (shortItem q).ways n cs).flatMap (Rx.chr q).ways → Short q cs x := by
  have hne := hq.ne
  have hclose : ∀ {cs x : List Char}, x ∈ (Rx.chr q).ways cs → Short q cs x := by
    intro cs x hx
    cases cs with
    | nil => cases hx
    | cons c cs =>
      rw [Rx.chr, ways_set_cons] at hx
      split at hx
      · rename_i hc
        rw [List.mem_singleton] at hx
        rw [hx]
        have : c = q := by simpa using hc
        subst this
        exact .close _
      · cases hx
  have hnl : ∀ {cs x : List Char}, ¬ Short q ('\n' :: cs) x := by
    intro cs x h
    cases h with
    | close => exact hne.2.1 rfl
    | char hc _ => exact hc.2.2.1 rfl
  intro n
  induction n with
  | zero =>
    intro cs x hx
    rw [starWays, List.flatMap_singleton] at hx
    exact hclose hx
  | succ n ih =>
    intro cs x hx
    rw [starWays, List.flatMap_append, List.mem_append] at hx
    rcases hx with hx | hx
    · obtain ⟨z, hz, hx⟩ := List.mem_flatMap.mp hx
      obtain ⟨y, hy, hz⟩ := List.mem_flatMap.mp hz
      have hs : Short q y x := ih y x (List.mem_flatMap.mpr ⟨z, hz, hx⟩)
      cases cs with
      | nil => cases hy
      | cons c cs =>
        by_cases hc : c = '\\'
        · subst hc
          rw [shortItem_escape] at hy
          split at hy
          · cases hy
          · simp only [List.mem_cons, List.not_mem_nil, or_false, or_self] at hy
            rcases hy with rfl | rfl
            · exact .crlf hs
            · exact absurd hs hnl
          · rename_i cs' h0
            simp only [List.mem_cons, List.not_mem_nil, or_false, or_self] at hy
            subst hy
            refine .cr ?_ hs
            intro h
            cases y with
            | nil => cases h
            | cons d y => cases h; exact h0 _ rfl
          · rename_i c cs' h1 h2
            rw [List.mem_singleton] at hy
            subst hy
            exact .escape (by rintro rfl; exact h2 rfl) hs
        · rw [shortItem_char hc] at hy
          split at hy
          · rename_i h
            rw [List.mem_singleton] at hy
            subst hy
            exact .char ⟨h.2.2, hc, h.2.1, h.1⟩ hs
          · cases hy
    · rw [List.flatMap_singleton] at hx
      exact hclose hx

/-! ## Three quotes -/

/-- What the repeated part of a long literal matches. -/
theorem longItem_ways {q : Char} (hq : IsQuote q) (cs : List Char) : (longItem q).ways cs =
    match cs with
    | [] => []
    | c :: cs =>
      if c = '\\' then (match cs with | [] => [] | _ :: cs => [cs])
      else if c = q then
        match cs with
        | [] => []
        | d :: cs =>
          if d = '\\' then (match cs with | [] => [] | _ :: cs => [cs])
          else if d = q then
            match cs with
            | [] => []
            | e :: cs =>
              if e = '\\' then (match cs with | [] => [] | _ :: cs => [cs])
              else if e = q then [] else [cs]
          else [cs]
      else [cs] := by
  have hne := hq.ne
  have hq' : ¬ '\\' = q := fun h => hne.1 h.symm
  cases cs with
  | nil => rfl
  | cons c cs =>
    dsimp only
    by_cases h1 : c = '\\'
    · subst h1
      rw [if_pos rfl]
      cases cs <;> simp [longItem, Rx.any, Rx.all, Rx.chr, Rx.noneOf, Rx.dotAll, ways_alt, ways_seq, ways_set_cons, ways_set_nil, hq']
    · rw [if_neg h1]
      by_cases h2 : c = q
      · subst h2
        rw [if_pos rfl]
        cases cs with
        | nil => simp [longItem, Rx.any, Rx.all, Rx.chr, Rx.noneOf, Rx.dotAll, ways_alt, ways_seq, ways_set_cons, ways_set_nil, h1]
        | cons d cs =>
          dsimp only
          by_cases h3 : d = '\\'
          · subst h3
            rw [if_pos rfl]
            cases cs <;> simp [longItem, Rx.any, Rx.all, Rx.chr, Rx.noneOf, Rx.dotAll, ways_alt, ways_seq, ways_set_cons, ways_set_nil, h1, hq']
          · rw [if_neg h3]
            by_cases h4 : d = c
            · subst h4
              rw [if_pos rfl]
              cases cs with
              | nil => simp [longItem, Rx.any, Rx.all, Rx.chr, Rx.noneOf, Rx.dotAll, ways_alt, ways_seq, ways_set_cons, ways_set_nil, h1]
              | cons e cs =>
                dsimp only
                by_cases h5 : e = '\\'
                · subst h5
                  rw [if_pos rfl]
                  cases cs <;> simp [longItem, Rx.any, Rx.all, Rx.chr, Rx.noneOf, Rx.dotAll, ways_alt, ways_seq, ways_set_cons, ways_set_nil, h1, hq']
                · rw [if_neg h5]
                  by_cases h6 : e = d
                  · subst h6
                    simp [longItem, Rx.any, Rx.all, Rx.chr, Rx.noneOf, Rx.dotAll, ways_alt, ways_seq, ways_set_cons, h1]
                  · simp [longItem, Rx.any, Rx.all, Rx.chr, Rx.noneOf, Rx.dotAll, ways_alt, ways_seq, ways_set_cons, h1, h5, h6]
            · simp [longItem, Rx.any, Rx.all, Rx.chr, Rx.noneOf, Rx.dotAll, ways_alt, ways_seq, ways_set_cons, h1, h3, h4]
      · simp [longItem, Rx.any, Rx.all, Rx.chr, Rx.noneOf, Rx.dotAll, ways_alt, ways_seq, ways_set_cons, h1, h2]

theorem word3_ways (q : Char) (cs : List Char) : (Rx.word [q, q, q]).ways cs = if [q, q, q] <+: cs then [cs.drop 3] else [] := by
  have : Means (.word [q, q, q]) [[q, q, q]] := means_seq (means_chr _) (means_seq (means_chr _) (means_chr _))
  rw [this cs, wordWays_cons]
  simp [wordWays]

theorem nonempty_of_long {q : Char} {cs rest : List Char} (h : Long q cs rest) : cs ≠ [] := by
  cases h <;> simp

theorem Long.tail {q c : Char} {cs rest : List Char} (hc : c ≠ '\\') (hq : ¬ [q, q, q] <+: c :: cs) (h : Long q (c :: cs) rest) : Long q cs rest := by
  cases h with
  | close => exact absurd ⟨rest, rfl⟩ hq
  | char _ _ h => exact h
  | escape h => exact absurd rfl hc

theorem Long.afterEscape {q c : Char} {cs rest : List Char} (hq : q ≠ '\\') (h : Long q ('\\' :: c :: cs) rest) : Long q cs rest := by
  cases h with
  | close => exact absurd rfl hq
  | char hc _ h => exact absurd rfl hc
  | escape h => exact h

theorem not_triple {q a b : Char} {cs : List Char} (h : b ≠ q) : ¬ [q, q, q] <+: a :: b :: cs := by
  rintro ⟨t, ht⟩
  simp only [List.cons_append, List.nil_append, List.cons.injEq] at ht
  exact h ht.2.1.symm

theorem not_triple' {q a b c : Char} {cs : List Char} (h : c ≠ q) : ¬ [q, q, q] <+: a :: b :: c :: cs := by
  rintro ⟨t, ht⟩
  simp only [List.cons_append, List.nil_append, List.cons.injEq] at ht
  exact h ht.2.2.1.symm

theorem not_triple_one {q a : Char} : ¬ [q, q, q] <+: [a] := by
  rintro ⟨t, ht⟩; simp at ht
theorem not_triple_two {q a b : Char} : ¬ [q, q, q] <+: [a, b] := by
  rintro ⟨t, ht⟩; simp at ht
theorem not_triple_head {q a : Char} {cs : List Char} (h : a ≠ q) : ¬ [q, q, q] <+: a :: cs := by
  rintro ⟨t, ht⟩
  simp only [List.cons_append, List.nil_append, List.cons.injEq] at ht
  exact h ht.1.symm

/-- The next item of a long literal. -/
theorem long_next {q : Char} (hq : IsQuote q) {cs rest : List Char} (h : Long q cs rest) :
    (cs = q :: q :: q :: rest ∧ (longItem q).ways cs = []) ∨ ∃ cs', (longItem q).ways cs = [cs'] ∧ cs'.length < cs.length ∧ Long q cs' rest := by
  have hne := hq.ne
  rw [longItem_ways hq]
  cases h with
  | close =>
    refine .inl ⟨rfl, ?_⟩
    simp [hne.1]
  | @escape c cs _ h => exact .inr ⟨cs, rfl, by simp; omega, h⟩
  | @char c cs _ hc htr h =>
    refine .inr ?_
    dsimp only
    rw [if_neg hc]
    by_cases hcq : c = q
    · subst hcq
      rw [if_pos rfl]
      cases cs with
      | nil => exact absurd rfl (nonempty_of_long h)
      | cons d cs =>
        dsimp only
        by_cases hd : d = '\\'
        · subst hd
          rw [if_pos rfl]
          cases cs with
          | nil =>
            exfalso
            cases h with
            | char hc _ _ => exact hc rfl
          | cons e cs => exact ⟨cs, rfl, by simp; omega, h.afterEscape hne.1⟩
        · rw [if_neg hd]
          by_cases hdq : d = c
          · subst hdq
            rw [if_pos rfl]
            cases cs with
            | nil => exact absurd rfl (nonempty_of_long (h.tail hd not_triple_one))
            | cons e cs =>
              have he : e ≠ d := by
                rintro rfl
                exact htr ⟨cs, rfl⟩
              have h' := h.tail hd (not_triple he)
              dsimp only
              by_cases hes : e = '\\'
              · subst hes
                rw [if_pos rfl]
                cases cs with
                | nil =>
                  exfalso
                  cases h' with
                  | char hc _ _ => exact hc rfl
                | cons f cs => exact ⟨cs, rfl, by simp; omega, h'.afterEscape hne.1⟩
              · rw [if_neg hes, if_neg he]
                exact ⟨cs, rfl, by simp; omega, h'.tail hes (not_triple_head he)⟩
          · rw [if_neg hdq]
            exact ⟨cs, rfl, by simp; omega, h.tail hd (not_triple_head hdq)⟩
    · rw [if_neg hcq]
      exact ⟨cs, rfl, by simp, h⟩

theorem long_found {q : Char} (hq : IsQuote q) : ∀ (n : Nat) (cs rest : List Char), Long q cs rest → cs.length ≤ n →
    ((starWays (longItem q).ways n cs).flatMap (Rx.word [q, q, q]).ways).head? = some rest := by
  intro n
  induction n with
  | zero =>
    intro cs rest h hn
    exact absurd (List.length_eq_zero_iff.mp (Nat.le_zero.mp hn)) (nonempty_of_long h)
  | succ n ih =>
    intro cs rest h hn
    rw [starWays]
    rcases long_next hq h with ⟨rfl, hw⟩ | ⟨cs', hw, hl, h'⟩
    · rw [hw]
      rw [List.flatMap_nil, List.nil_append, List.flatMap_singleton, word3_ways, if_pos ⟨rest, rfl⟩]
      rfl
    · rw [hw, List.flatMap_singleton]
      exact head?_flatMap_append (ih cs' rest h' (by omega))

/-- An item before a long literal. -/
theorem long_back {q : Char} (hq : IsQuote q) {cs y x : List Char} (hy : y ∈ (longItem q).ways cs) (h : Long q y x) : Long q cs x := by
  have hne := hq.ne
  rw [longItem_ways hq] at hy
  cases cs with
  | nil => cases hy
  | cons c cs =>
    dsimp only at hy
    split at hy
    · rename_i hc
      subst hc
      cases cs with
      | nil => cases hy
      | cons d cs => rw [List.mem_singleton] at hy; subst hy; exact .escape h
    · rename_i hc
      split at hy
      · rename_i hcq
        subst hcq
        cases cs with
        | nil => cases hy
        | cons d cs =>
          dsimp only at hy
          split at hy
          · rename_i hd
            subst hd
            cases cs with
            | nil => cases hy
            | cons e cs =>
              rw [List.mem_singleton] at hy
              subst hy
              exact .char hc (not_triple (fun h => hc h.symm)) (.escape h)
          · rename_i hd
            split at hy
            · rename_i hdq
              subst hdq
              cases cs with
              | nil => cases hy
              | cons e cs =>
                dsimp only at hy
                split at hy
                · rename_i he
                  subst he
                  cases cs with
                  | nil => cases hy
                  | cons f cs =>
                    rw [List.mem_singleton] at hy
                    subst hy
                    exact .char hc (not_triple' (fun h => hc h.symm)) (.char hc (not_triple (fun h => hc h.symm)) (.escape h))
                · rename_i he
                  split at hy
                  · cases hy
                  · rename_i heq
                    rw [List.mem_singleton] at hy
                    subst hy
                    exact .char hc (not_triple' heq) (.char hc (not_triple heq) (.char he (not_triple_head heq) h))
            · rename_i hdq
              rw [List.mem_singleton] at hy
              subst hy
              exact .char hc (not_triple hdq) (.char hd (not_triple_head hdq) h)
      · rename_i hcq
        rw [List.mem_singleton] at hy
        subst hy
        exact .char hc (not_triple_head hcq) h

theorem long_only {q : Char} (hq : IsQuote q) : ∀ (n : Nat) (cs x : List Char), x ∈ (starWays (longItem q).ways n cs).flatMap (Rx.word [q, q, q]).ways → Long q cs x := by
  have hclose : ∀ {cs x : List Char}, x ∈ (Rx.word [q, q, q]).ways cs → Long q cs x := by
    intro cs x hx
    rw [word3_ways] at hx
    split at hx
    · rename_i hp
      obtain ⟨t, rfl⟩ := hp
      rw [List.mem_singleton] at hx
      subst hx
      exact .close _
    · cases hx
  intro n
  induction n with
  | zero =>
    intro cs x hx
    rw [starWays, List.flatMap_singleton] at hx
    exact hclose hx
  | succ n ih =>
    intro cs x hx
    rw [starWays, List.flatMap_append, List.mem_append] at hx
    rcases hx with hx | hx
    · obtain ⟨z, hz, hx⟩ := List.mem_flatMap.mp hx
      obtain ⟨y, hy, hz⟩ := List.mem_flatMap.mp hz
      exact long_back hq hy (ih y x (List.mem_flatMap.mpr ⟨z, hz, hx⟩))
    · rw [List.flatMap_singleton] at hx
      exact hclose hx

/-! ## All together -/

theorem longRx_ways (q : Char) (cs : List Char) : (longRx q).ways cs =
    if [q, q, q] <+: cs then (starWays (longItem q).ways (cs.drop 3).length (cs.drop 3)).flatMap (Rx.word [q, q, q]).ways ++ [cs.drop 3] else [] := by
  rw [longRx, ways_seq, word3_ways]
  split
  · rw [List.flatMap_singleton, Rx.opt, ways_alt, ways_seq]; rfl
  · rfl

theorem shortRx_ways (q c : Char) (cs : List Char) : (shortRx q).ways (c :: cs) =
    if c = q then (starWays (shortItem q).ways cs.length cs).flatMap (Rx.chr q).ways else [] := by
  have : (shortRx q).ways (c :: cs) = ((Rx.chr q).ways (c :: cs)).flatMap (fun cs => (starWays (shortItem q).ways cs.length cs).flatMap (Rx.chr q).ways) := rfl
  rw [this, Rx.chr, ways_set_cons]
  by_cases h : c = q
  · simp [h]
  · simp [h]

theorem bodyRx_quote {q : Char} (hq : IsQuote q) (cs : List Char) : bodyRx.ways (q :: cs) = (longRx q).ways (q :: cs) ++ (shortRx q).ways (q :: cs) := by
  have h0 : bodyRx.ways (q :: cs) = (longRx '\'').ways (q :: cs) ++ ((longRx '"').ways (q :: cs) ++ ((shortRx '\'').ways (q :: cs) ++ (shortRx '"').ways (q :: cs))) := rfl
  rw [h0]
  rcases hq with rfl | rfl
  · rw [longRx_ways '"', if_neg (not_triple_head (by decide)), shortRx_ways '"', if_neg (by decide)]
    simp
  · rw [longRx_ways '\'', if_neg (not_triple_head (by decide)), shortRx_ways '\'', if_neg (by decide)]
    simp

theorem bodyRx_other {cs : List Char} (h : ∀ q b, cs = q :: b → ¬ IsQuote q) : bodyRx.ways cs = [] := by
  cases cs with
  | nil => rfl
  | cons c b =>
    have hc := h c b rfl
    have h1 : c ≠ '\'' := fun h => hc (.inl h)
    have h2 : c ≠ '"' := fun h => hc (.inr h)
    have h0 : bodyRx.ways (c :: b) = (longRx '\'').ways (c :: b) ++ ((longRx '"').ways (c :: b) ++ ((shortRx '\'').ways (c :: b) ++ (shortRx '"').ways (c :: b))) := rfl
    rw [h0, longRx_ways '\'', if_neg (not_triple_head h1), longRx_ways '"', if_neg (not_triple_head h2), shortRx_ways '\'', if_neg h1, shortRx_ways '"', if_neg h2]
    rfl

theorem body_found {cs rest : List Char} (h : Quoted cs rest) : (bodyRx.ways cs).head? = some rest := by
  cases h with
  | @short q cs _ hq hn h =>
    rw [bodyRx_quote hq, longRx_ways, if_neg, List.nil_append, shortRx_ways, if_pos rfl]
    · exact short_found hq h _ (Nat.le_refl _)
    · rintro ⟨t, ht⟩
      simp only [List.cons_append, List.nil_append, List.cons.injEq, true_and] at ht
      exact hn ⟨t, by rw [← ht]; rfl⟩
  | @long q cs _ hq h =>
    rw [bodyRx_quote hq, longRx_ways, if_pos ⟨cs, rfl⟩, List.head?_append, List.head?_append]
    have := long_found hq cs.length cs rest h (Nat.le_refl _)
    show (Option.or (Option.or ((starWays (longItem q).ways cs.length cs).flatMap (Rx.word [q, q, q]).ways).head? _) _) = _
    rw [this]
    rfl

/-- Without a literal, only three quotes are taken. -/
theorem body_only {cs rest : List Char} (h : (bodyRx.ways cs).head? = some rest) : Quoted cs rest ∨ ∃ q, IsQuote q ∧ cs = q :: q :: q :: rest := by
  by_cases hq : ∃ q b, cs = q :: b ∧ IsQuote q
  · obtain ⟨q, b, rfl, hq⟩ := hq
    by_cases hp : [q, q, q] <+: q :: b
    · obtain ⟨t, ht⟩ := hp
      have hb : b = q :: q :: t := by
        simp only [List.cons_append, List.nil_append, List.cons.injEq, true_and] at ht
        exact ht.symm
      subst hb
      rw [bodyRx_quote hq, longRx_ways, if_pos ⟨t, rfl⟩, List.head?_append, List.head?_append] at h
      have h : (Option.or (Option.or ((starWays (longItem q).ways t.length t).flatMap (Rx.word [q, q, q]).ways).head? (some t)) _) = some rest := h
      cases hl : ((starWays (longItem q).ways t.length t).flatMap (Rx.word [q, q, q]).ways).head? with
      | some x =>
        rw [hl] at h
        cases h
        exact .inl (.long hq (long_only hq _ _ _ (List.mem_of_head? hl)))
      | none =>
        rw [hl] at h
        cases h
        exact .inr ⟨q, hq, rfl⟩
    · rw [bodyRx_quote hq, longRx_ways, if_neg hp, List.nil_append, shortRx_ways, if_pos rfl] at h
      refine .inl (.short hq ?_ (short_only hq _ _ _ (List.mem_of_head? h)))
      rintro ⟨t, rfl⟩
      exact hp ⟨t, rfl⟩
  · rw [bodyRx_other] at h
    · cases h
    · intro q b he hqq
      exact hq ⟨q, b, he, hqq⟩

/-! ### Prefixes -/

theorem head?_flatMap_of {α β : Type} {g : α → List β} {r : β} : ∀ {l : List α}, (∀ x ∈ l, g x = [] ∨ (g x).head? = some r) → (∃ x ∈ l, (g x).head? = some r) →
    (l.flatMap g).head? = some r := by
  intro l
  induction l with
  | nil => rintro _ ⟨x, hx, _⟩; cases hx
  | cons a l ih =>
    rintro h ⟨x, hx, hr⟩
    rw [List.flatMap_cons, List.head?_append]
    rcases h a (by simp) with h0 | h0
    · rw [h0]
      rcases List.mem_cons.mp hx with rfl | hx
      · rw [h0] at hr; cases hr
      · rw [ih (fun y hy => h y (List.mem_cons_of_mem _ hy)) ⟨x, hx, hr⟩]; rfl
    · rw [h0]; rfl

theorem of_head?_flatMap {α β : Type} {g : α → List β} {r : β} : ∀ {l : List α}, (l.flatMap g).head? = some r → ∃ x ∈ l, (g x).head? = some r := by
  intro l
  induction l with
  | nil => intro h; cases h
  | cons a l ih =>
    intro h
    rw [List.flatMap_cons, List.head?_append] at h
    cases hg : (g a).head? with
    | some x => rw [hg] at h; cases h; exact ⟨a, by simp, hg⟩
    | none =>
      rw [hg] at h
      obtain ⟨x, hx, hr⟩ := ih h
      exact ⟨x, List.mem_cons_of_mem _ hx, hr⟩

theorem Quoted.split {cs rest : List Char} (h : Quoted cs rest) : ∃ q w, IsQuote q ∧ cs = q :: w ++ rest := by
  have hs : ∀ {q cs rest}, Short q cs rest → ∃ w, cs = w ++ rest := by
    intro q cs rest h
    induction h with
    | close rest => exact ⟨[q], rfl⟩
    | @char c _ _ _ _ ih => obtain ⟨w, rfl⟩ := ih; exact ⟨c :: w, rfl⟩
    | @escape c _ _ _ _ ih => obtain ⟨w, rfl⟩ := ih; exact ⟨'\\' :: c :: w, rfl⟩
    | crlf _ ih => obtain ⟨w, rfl⟩ := ih; exact ⟨'\\' :: '\r' :: '\n' :: w, rfl⟩
    | cr _ _ ih => obtain ⟨w, rfl⟩ := ih; exact ⟨'\\' :: '\r' :: w, rfl⟩
  have hl : ∀ {q cs rest}, Long q cs rest → ∃ w, cs = w ++ rest := by
    intro q cs rest h
    induction h with
    | close rest => exact ⟨[q, q, q], rfl⟩
    | @char c _ _ _ _ _ ih => obtain ⟨w, rfl⟩ := ih; exact ⟨c :: w, rfl⟩
    | @escape c _ _ _ ih => obtain ⟨w, rfl⟩ := ih; exact ⟨'\\' :: c :: w, rfl⟩
  cases h with
  | @short q _ _ hq _ h => obtain ⟨w, rfl⟩ := hs h; exact ⟨q, w, hq, rfl⟩
  | @long q _ _ hq h => obtain ⟨w, rfl⟩ := hl h; exact ⟨q, q :: q :: w, hq, rfl⟩

/-- The prefixes of literals have no quotes. -/
def Plain (ps : List (List Char)) : Prop := ∀ p ∈ ps, ∀ c ∈ p, c ≠ '\'' ∧ c ≠ '"'

theorem prefixed_found {ps : List (List Char)} (hps : Plain ps) {r : Rx} (hr : Means r ps) {p body rest : List Char} (hp : p ∈ ps) (h : Quoted body rest) :
    ((Rx.seq r bodyRx).ways (p ++ body)).head? = some rest := by
  rw [ways_seq, hr]
  obtain ⟨q, w, hq, hb⟩ := h.split
  refine head?_flatMap_of ?_ ⟨body, ?_, body_found h⟩
  · intro x hx
    rw [wordWays, List.mem_filterMap] at hx
    obtain ⟨p', hp', hx⟩ := hx
    split at hx
    · rename_i hpre
      cases hx
      obtain ⟨t, ht⟩ := List.isPrefixOf_iff_prefix.mp hpre
      rw [← ht, List.drop_left]
      rcases List.append_eq_append_iff.mp ht with ⟨z, hz1, hz2⟩ | ⟨z, hz1, hz2⟩
      · cases z with
        | nil => rw [hz2]; exact .inr (body_found h)
        | cons c z =>
          refine .inl (bodyRx_other ?_)
          intro q' b he hq'
          rw [hz2] at he
          cases he
          have := hps p hp c (by rw [hz1]; simp)
          rcases hq' with h | h
          · exact this.1 h
          · exact this.2 h
      · cases z with
        | nil =>
          rw [List.nil_append] at hz2
          rw [← hz2]
          exact .inr (body_found h)
        | cons c z =>
          exfalso
          rw [hb] at hz2
          simp only [List.cons_append, List.cons.injEq] at hz2
          have := hps p' hp' c (by rw [hz1]; simp)
          rw [← hz2.1] at this
          rcases hq with h | h
          · exact this.1 h
          · exact this.2 h
    · cases hx
  · rw [wordWays, List.mem_filterMap]
    refine ⟨p, hp, ?_⟩
    rw [if_pos (List.isPrefixOf_iff_prefix.mpr ⟨body, rfl⟩), List.drop_left]

theorem prefixed_only {ps : List (List Char)} {r : Rx} (hr : Means r ps) {cs rest : List Char} (h : ((Rx.seq r bodyRx).ways cs).head? = some rest) :
    ∃ p ∈ ps, ∃ body, cs = p ++ body ∧ (Quoted body rest ∨ ∃ q, IsQuote q ∧ body = q :: q :: q :: rest) := by
  rw [ways_seq, hr] at h
  obtain ⟨x, hx, h⟩ := of_head?_flatMap h
  rw [wordWays, List.mem_filterMap] at hx
  obtain ⟨p, hp, hx⟩ := hx
  split at hx
  · rename_i hpre
    cases hx
    obtain ⟨t, rfl⟩ := List.isPrefixOf_iff_prefix.mp hpre
    rw [List.drop_left] at h
    exact ⟨p, hp, t, rfl, body_only h⟩
  · cases hx

/-! ### Unfinished literals -/

theorem hasInfix_cons_ne {q c : Char} {cs : List Char} (h : c ≠ q) : hasInfix [q, q, q] (c :: cs) = hasInfix [q, q, q] cs := by
  rw [hasInfix]
  have : [q, q, q].isPrefixOf (c :: cs) = false := by
    cases hp : [q, q, q].isPrefixOf (c :: cs) with
    | false => rfl
    | true => exact absurd (List.isPrefixOf_iff_prefix.mp hp) (not_triple_head h)
  rw [this]; rfl

theorem hasInfix_prefix {q : Char} {p cs : List Char} (h : ∀ c ∈ p, c ≠ q) : hasInfix [q, q, q] (p ++ cs) = hasInfix [q, q, q] cs := by
  induction p with
  | nil => rfl
  | cons c p ih => rw [List.cons_append, hasInfix_cons_ne (h c (by simp)), ih (fun d hd => h d (List.mem_cons_of_mem _ hd))]

/-- A short literal has no three quotes in a row and ends with its quote. -/
theorem short_text {q : Char} (hq : IsQuote q) {cs rest : List Char} (h : Short q cs rest) : ∀ w, cs = w ++ rest →
    hasInfix [q, q, q] w = false ∧ w.getLast? = some q ∧ (w.head? = some q → w = [q]) := by
  have hne := hq.ne
  have hlen : ∀ {cs rest : List Char}, Short q cs rest → rest.length < cs.length := by
    intro cs rest h
    induction h with
    | close => simp
    | char _ _ ih => simp only [List.length_cons]; omega
    | escape _ _ ih => simp only [List.length_cons]; omega
    | crlf _ ih => simp only [List.length_cons]; omega
    | cr _ _ ih => simp only [List.length_cons]; omega
  induction h with
  | close rest =>
    intro w hw
    have : w = [q] := List.append_cancel_right (bs := rest) (by rw [← hw]; rfl)
    subst this
    refine ⟨?_, rfl, fun _ => rfl⟩
    simp [hasInfix, List.isPrefixOf]
  | @char c cs rest hc h ih =>
    intro w hw
    cases w with
    | nil => have := hlen h; rw [List.nil_append] at hw; rw [← hw] at this; simp at this; omega
    | cons d w =>
      rw [List.cons_append, List.cons.injEq] at hw
      obtain ⟨rfl, hw⟩ := hw
      obtain ⟨h1, h2, h3⟩ := ih w hw
      refine ⟨by rw [hasInfix_cons_ne hc.1, h1], ?_, ?_⟩
      · rw [List.getLast?_cons, h2]; rfl
      · intro h; cases h; exact absurd rfl hc.1
  | @escape c cs rest hc h ih =>
    intro w hw
    have hl := hlen h
    match w, hw with
    | [], hw => rw [List.nil_append] at hw; rw [← hw] at hl; simp at hl; omega
    | [d], hw =>
      simp only [List.cons_append, List.nil_append, List.cons.injEq] at hw
      rw [← hw.2] at hl; simp at hl; omega
    | d :: e :: w, hw =>
      simp only [List.cons_append, List.cons.injEq] at hw
      obtain ⟨rfl, rfl, hw⟩ := hw
      obtain ⟨h1, h2, h3⟩ := ih w hw
      refine ⟨?_, ?_, ?_⟩
      · rw [hasInfix_cons_ne (fun h => hne.1 h.symm)]
        by_cases hcq : c = q
        · subst hcq
          rw [hasInfix, h1, Bool.or_false]
          cases hp : [c, c, c].isPrefixOf (c :: w) with
          | false => rfl
          | true =>
            obtain ⟨t, ht⟩ := List.isPrefixOf_iff_prefix.mp hp
            simp only [List.cons_append, List.nil_append, List.cons.injEq, true_and] at ht
            have := h3 (by rw [← ht]; rfl)
            rw [this] at ht
            cases ht
        · rw [hasInfix_cons_ne hcq, h1]
      · rw [List.getLast?_cons, List.getLast?_cons, h2]; rfl
      · intro h; cases h; exact absurd rfl hne.1
  | @crlf cs rest h ih =>
    intro w hw
    have hl := hlen h
    match w, hw with
    | [], hw => rw [List.nil_append] at hw; rw [← hw] at hl; simp at hl; omega
    | [d], hw =>
      simp only [List.cons_append, List.nil_append, List.cons.injEq] at hw
      rw [← hw.2] at hl; simp at hl; omega
    | [d, e], hw =>
      simp only [List.cons_append, List.nil_append, List.cons.injEq] at hw
      rw [← hw.2.2] at hl; simp at hl; omega
    | d :: e :: f :: w, hw =>
      simp only [List.cons_append, List.cons.injEq] at hw
      obtain ⟨rfl, rfl, rfl, hw⟩ := hw
      obtain ⟨h1, h2, h3⟩ := ih w hw
      refine ⟨?_, ?_, ?_⟩
      · rw [hasInfix_cons_ne (fun h => hne.1 h.symm), hasInfix_cons_ne (fun h => hne.2.2 h.symm), hasInfix_cons_ne (fun h => hne.2.1 h.symm), h1]
      · rw [List.getLast?_cons, List.getLast?_cons, List.getLast?_cons, h2]; rfl
      · intro h; cases h; exact absurd rfl hne.1
  | @cr cs rest hc h ih =>
    intro w hw
    have hl := hlen h
    match w, hw with
    | [], hw => rw [List.nil_append] at hw; rw [← hw] at hl; simp at hl; omega
    | [d], hw =>
      simp only [List.cons_append, List.nil_append, List.cons.injEq] at hw
      rw [← hw.2] at hl; simp at hl; omega
    | d :: e :: w, hw =>
      simp only [List.cons_append, List.cons.injEq] at hw
      obtain ⟨rfl, rfl, hw⟩ := hw
      obtain ⟨h1, h2, h3⟩ := ih w hw
      refine ⟨?_, ?_, ?_⟩
      · rw [hasInfix_cons_ne (fun h => hne.1 h.symm), hasInfix_cons_ne (fun h => hne.2.2 h.symm), h1]
      · rw [List.getLast?_cons, List.getLast?_cons, h2]; rfl
      · intro h; cases h; exact absurd rfl hne.1

end Verif.Tokenizer
