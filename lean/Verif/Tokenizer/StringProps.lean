import Verif.Tokenizer.Props
import Verif.Tokenizer.StringLemmas

/-! # String literals and the beginnings of f-strings -/

namespace Verif.Tokenizer

theorem quoted_finished {p body w rest : List Char} (hp : ∀ c ∈ p, c ≠ '\'' ∧ c ≠ '"') (hb : body = w ++ rest) (h : Quoted body rest) : unfinished (p ++ w) = false := by
  cases h with
  | @short q cs _ hq hn h =>
    cases w with
    | nil =>
      exfalso
      have : ∀ {cs rest : List Char}, Short q cs rest → rest.length < cs.length := by
        intro cs rest h
        induction h with
        | close => simp
        | char _ _ ih => simp only [List.length_cons]; omega
        | escape _ _ ih => simp only [List.length_cons]; omega
        | crlf _ ih => simp only [List.length_cons]; omega
        | cr _ _ ih => simp only [List.length_cons]; omega
      have := this h
      rw [List.nil_append] at hb
      rw [← hb] at this
      simp at this
      omega
    | cons d w =>
      rw [List.cons_append, List.cons.injEq] at hb
      obtain ⟨rfl, hw⟩ := hb
      obtain ⟨h1, h2, h3⟩ := short_text hq h w hw
      have hlast : (p ++ q :: w).getLast? = some q := by
        rw [List.getLast?_append, List.getLast?_cons, h2]; rfl
      have hinf : hasInfix [q, q, q] (p ++ q :: w) = false := by
        rw [hasInfix_prefix (fun c hc => by rcases hq with rfl | rfl; exact (hp c hc).1; exact (hp c hc).2), hasInfix, h1, Bool.or_false]
        cases hpre : [q, q, q].isPrefixOf (q :: w) with
        | false => rfl
        | true =>
          obtain ⟨t, ht⟩ := List.isPrefixOf_iff_prefix.mp hpre
          simp only [List.cons_append, List.nil_append, List.cons.injEq, true_and] at ht
          exact absurd ⟨t ++ rest, by rw [hw, ← ht]; rfl⟩ hn
      rw [unfinished, hlast]
      rcases hq with rfl | rfl
      · rw [hinf]; simp
      · rw [hinf]; simp
  | @long q cs _ hq h =>
    have hlen : ∀ {cs rest : List Char}, Long q cs rest → rest.length + 3 ≤ cs.length := by
      intro cs rest h
      induction h with
      | close => simp
      | char _ _ _ ih => simp only [List.length_cons]; omega
      | escape _ ih => simp only [List.length_cons]; omega
    have h1 := hlen h
    have h2 := congrArg List.length hb
    simp only [List.length_cons, List.length_append] at h2
    have h3 := length_le_size (p ++ w)
    rw [List.length_append] at h3
    rw [unfinished]
    have : ¬ size (p ++ w) ≤ 5 := by omega
    simp [this]

theorem quotes_unfinished {p : List Char} {q : Char} (hq : IsQuote q) (hp : size p ≤ 2) : unfinished (p ++ [q, q, q]) = true := by
  have hsize : size (p ++ [q, q, q]) ≤ 5 := by
    have : size [q, q, q] = 3 := by rcases hq with rfl | rfl <;> rfl
    rw [size_append, this]; omega
  have hlast : (p ++ [q, q, q]).getLast? = some q := by rw [List.getLast?_append]; rfl
  have hinf : ∀ p : List Char, hasInfix [q, q, q] (p ++ [q, q, q]) = true := by
    intro p
    induction p with
    | nil => simp [hasInfix, List.isPrefixOf]
    | cons c p ih => rw [List.cons_append, hasInfix, ih, Bool.or_true]
  rw [unfinished, hlast]
  rcases hq with rfl | rfl
  · simp [hinf, hsize]
  · simp [hinf, hsize]

/-- Regular expressions with prefixes give exactly the literals with these prefixes. -/
theorem literals_exact {ps : List (List Char)} {names : List String} (hn : names = ps.map String.ofList) (hps : Plain ps) (hsz : ∀ p ∈ ps, size p ≤ 2) {r : Rx} (hr : Means r ps) (cs rest : List Char) :
    (∃ n, (Rx.seq r bodyRx).find cs = some n ∧ unfinished (cs.take n) = false ∧ cs.drop n = rest) ↔ Literal names cs rest := by
  subst hn
  constructor
  · rintro ⟨n, h1, h2, h3⟩
    rw [Rx.find, Option.map_eq_some_iff] at h1
    obtain ⟨x, hx, rfl⟩ := h1
    obtain ⟨p, hp, body, rfl, hb⟩ := prefixed_only hr hx
    rcases hb with hb | ⟨q, hq, rfl⟩
    · obtain ⟨q, w, _, hw⟩ := hb.split
      have : (p ++ body).drop ((p ++ body).length - x.length) = x := by
        rw [hw]
        have : (p ++ (q :: w ++ x)).length - x.length = (p ++ q :: w).length := by simp only [List.length_append, List.length_cons]; omega
        rw [this, ← List.append_assoc, List.drop_left]
      rw [this] at h3
      subst h3
      exact ⟨p, body, rfl, List.mem_map.mpr ⟨p, hp, rfl⟩, hb⟩
    · exfalso
      have : (p ++ q :: q :: q :: x).take ((p ++ q :: q :: q :: x).length - x.length) = p ++ [q, q, q] := by
        have : (p ++ q :: q :: q :: x).length - x.length = (p ++ [q, q, q]).length := by simp only [List.length_append, List.length_cons, List.length_nil]; omega
        rw [this, show p ++ q :: q :: q :: x = (p ++ [q, q, q]) ++ x by simp, List.take_left]
      rw [this, quotes_unfinished hq (hsz p hp)] at h2
      cases h2
  · rintro ⟨p, body, rfl, hp, hb⟩
    obtain ⟨p', hp', he⟩ := List.mem_map.mp hp
    have : p' = p := String.ofList_injective he
    subst this
    have hf := prefixed_found hps hr hp' hb
    obtain ⟨q, w, _, hw⟩ := hb.split
    have hlen : (p' ++ body).length - rest.length = (p' ++ q :: w).length := by rw [hw]; simp only [List.length_append, List.length_cons]; omega
    have happ : p' ++ body = (p' ++ q :: w) ++ rest := by rw [hw]; simp
    refine ⟨(p' ++ q :: w).length, by rw [Rx.find, hf, Option.map_some, hlen], ?_, ?_⟩
    · rw [happ, List.take_left]
      exact quoted_finished (hps p' hp') hw hb
    · rw [happ, List.drop_left]

/-- **C73.** A string token is given exactly for a string literal, with one of the prefixes of
strings, and it has the text of the literal. -/
theorem string_literals (alphabetic numeric : Char → Bool) (cs rest : List Char) :
    (∃ n, (python alphabetic numeric).string cs = some n ∧ unfinished (cs.take n) = false ∧ cs.drop n = rest) ↔ Literal stringPrefixes cs rest := by
  have hr : Means (.any [.empty, .oneOf ['r', 'R'], .oneOf ['u', 'U'], .oneOf ['t', 'T']]) [[], ['r'], ['R'], ['u'], ['U'], ['t'], ['T']] :=
    means_alt means_empty (means_alt (means_oneOf _ (by decide)) (means_alt (means_oneOf _ (by decide)) (means_oneOf _ (by decide))))
  exact literals_exact (by rfl) (by unfold Plain; decide) (by decide) hr cs rest

/-- **C73.** A bytes token is given exactly for a bytes literal. -/
theorem bytes_literals (alphabetic numeric : Char → Bool) (cs rest : List Char) :
    (∃ n, (python alphabetic numeric).bytes cs = some n ∧ unfinished (cs.take n) = false ∧ cs.drop n = rest) ↔ Literal bytesPrefixes cs rest := by
  have hr : Means (.any [.seq (.oneOf ['b', 'B']) (.opt (.oneOf ['r', 'R'])), .seq (.oneOf ['r', 'R']) (.oneOf ['b', 'B'])])
      [['b', 'r'], ['b', 'R'], ['b'], ['B', 'r'], ['B', 'R'], ['B'], ['r', 'b'], ['r', 'B'], ['R', 'b'], ['R', 'B']] :=
    means_alt (means_seq (means_oneOf _ (by decide)) (means_opt (means_oneOf _ (by decide)))) (means_seq (means_oneOf _ (by decide)) (means_oneOf _ (by decide)))
  refine (literals_exact (names := ["br", "bR", "b", "Br", "BR", "B", "rb", "rB", "Rb", "RB"]) (by rfl) (by unfold Plain; decide) (by decide) hr cs rest).trans ?_
  have : ∀ p : String, p ∈ ["br", "bR", "b", "Br", "BR", "B", "rb", "rB", "Rb", "RB"] ↔ p ∈ bytesPrefixes := by
    intro p
    simp only [bytesPrefixes, List.mem_cons, List.not_mem_nil, or_false]
    constructor
    · rintro (h | h | h | h | h | h | h | h | h | h) <;> simp [h]
    · rintro (h | h | h | h | h | h | h | h | h | h) <;> simp [h]
  unfold Literal
  simp only [this]

end Verif.Tokenizer
