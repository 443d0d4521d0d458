import Verif.Tokenizer.Regex
import Verif.Tokenizer.Spec

/-! # Regular expressions for finitely many words -/

namespace Verif.Tokenizer

/-- The ways to match one of some words. -/
def wordWays (ws : List (List Char)) (cs : List Char) : List (List Char) :=
  ws.filterMap (fun w => if w.isPrefixOf cs then some (cs.drop w.length) else none)

theorem wordWays_append (a b : List (List Char)) (cs : List Char) : wordWays (a ++ b) cs = wordWays a cs ++ wordWays b cs := by
  simp [wordWays]

theorem wordWays_cons (w : List Char) (ws : List (List Char)) (cs : List Char) :
    wordWays (w :: ws) cs = if w.isPrefixOf cs then cs.drop w.length :: wordWays ws cs else wordWays ws cs := by
  rw [wordWays, List.filterMap_cons]
  cases w.isPrefixOf cs <;> rfl

theorem isPrefixOf_append (a b cs : List Char) : (a ++ b).isPrefixOf cs = (a.isPrefixOf cs && b.isPrefixOf (cs.drop a.length)) := by
  induction a generalizing cs with
  | nil => simp
  | cons x a ih =>
    cases cs with
    | nil => simp
    | cons c cs => simp [List.isPrefixOf, ih, Bool.and_assoc]

theorem wordWays_map (w : List Char) (b : List (List Char)) (cs : List Char) :
    wordWays (b.map (w ++ ·)) cs = if w.isPrefixOf cs then wordWays b (cs.drop w.length) else [] := by
  induction b with
  | nil => simp [wordWays]
  | cons x b ih =>
    rw [List.map_cons, wordWays_cons, ih, isPrefixOf_append]
    cases hw : w.isPrefixOf cs with
    | false => simp
    | true =>
      rw [wordWays_cons]
      cases hx : x.isPrefixOf (cs.drop w.length) with
      | false => simp
      | true => simp [List.length_append]

theorem wordWays_seq (a b : List (List Char)) (cs : List Char) :
    wordWays (a.flatMap (fun w => b.map (w ++ ·))) cs = (wordWays a cs).flatMap (wordWays b) := by
  induction a with
  | nil => rfl
  | cons w a ih =>
    rw [List.flatMap_cons, wordWays_append, ih, wordWays_map]
    rw [wordWays_cons]
    cases hw : w.isPrefixOf cs <;> simp

/-- A regular expression for words, in order of preference. -/
def Means (r : Rx) (ws : List (List Char)) : Prop := ∀ cs, r.ways cs = wordWays ws cs

theorem means_empty : Means .empty [[]] := by intro cs; simp [Rx.ways, wordWays]

theorem means_chr (c : Char) : Means (.chr c) [[c]] := by
  intro cs
  cases cs with
  | nil => rfl
  | cons d cs =>
    by_cases h : d = c
    · subst h; simp [Rx.chr, Rx.ways, wordWays]
    · simp [Rx.chr, Rx.ways, wordWays, h, Ne.symm h]

theorem means_seq {a b : Rx} {x y : List (List Char)} (ha : Means a x) (hb : Means b y) : Means (.seq a b) (x.flatMap (fun w => y.map (w ++ ·))) := by
  intro cs
  rw [Rx.ways, wordWays_seq, ha cs]
  congr 1
  funext z
  exact hb z

theorem means_alt {a b : Rx} {x y : List (List Char)} (ha : Means a x) (hb : Means b y) : Means (.alt a b) (x ++ y) := by
  intro cs
  rw [Rx.ways, wordWays_append, ha cs, hb cs]

theorem means_oneOf (l : List Char) (hl : l.Nodup) : Means (.oneOf l) (l.map (fun c => [c])) := by
  intro cs
  cases cs with
  | nil =>
    simp only [Rx.oneOf, Rx.ways, wordWays]
    induction l with
    | nil => rfl
    | cons x l ih => rw [List.map_cons, List.filterMap_cons]; simpa using ih (List.nodup_cons.mp hl).2
  | cons d cs =>
    simp only [Rx.oneOf, Rx.ways]
    induction l with
    | nil => simp [wordWays]
    | cons x l ih =>
      obtain ⟨h1, h2⟩ := List.nodup_cons.mp hl
      have := ih h2
      show _ = wordWays ([[x]] ++ l.map (fun c => [c])) (d :: cs)
      rw [wordWays_append, ← this]
      by_cases h : d = x
      · subst h
        have hn : l.contains d = false := by simpa using h1
        rw [hn]
        simp [wordWays]
      · have h' : (x == d) = false := by simpa using Ne.symm h
        have h'' : (d == x) = false := by simpa using h
        rw [List.contains_cons, h'']
        simp [wordWays, Ne.symm h]

theorem means_opt {a : Rx} {x : List (List Char)} (ha : Means a x) : Means (.opt a) (x ++ [[]]) := means_alt ha means_empty

/-- No word comes before a word that begins with it. -/
def LongestFirst (ws : List (List Char)) : Prop := ws.Pairwise (fun a b => ¬ (a <+: b ∧ a ≠ b))

theorem words_find {r : Rx} {ws : List (List Char)} (h : Means r ws) (hl : LongestFirst ws) (cs : List Char) (n : Nat) :
    r.find cs = some n ↔ (n ≤ cs.length ∧ cs.take n ∈ ws ∧ ∀ m, m ≤ cs.length → cs.take m ∈ ws → m ≤ n) := by
  have key : ∀ ws : List (List Char), LongestFirst ws → ((wordWays ws cs).head?.map (fun rest => cs.length - rest.length) = some n ↔
      (n ≤ cs.length ∧ cs.take n ∈ ws ∧ ∀ m, m ≤ cs.length → cs.take m ∈ ws → m ≤ n)) := by
    intro ws hl
    induction ws with
    | nil => simp [wordWays]
    | cons w ws ih =>
      obtain ⟨h1, h2⟩ := List.pairwise_cons.mp hl
      have ih := ih h2
      cases hw : w.isPrefixOf cs with
      | false =>
        have hno : ∀ m, m ≤ cs.length → cs.take m ≠ w := by
          intro m _ he
          have : w.isPrefixOf cs = true := by rw [List.isPrefixOf_iff_prefix, ← he]; exact List.take_prefix m cs
          rw [hw] at this; cases this
        have : wordWays (w :: ws) cs = wordWays ws cs := by rw [wordWays_cons, hw]; rfl
        rw [this, ih]
        constructor
        · rintro ⟨k1, k2, k3⟩
          refine ⟨k1, List.mem_cons_of_mem _ k2, ?_⟩
          intro m hm hmem
          rcases List.mem_cons.mp hmem with he | hmem
          · exact absurd he (hno m hm)
          · exact k3 m hm hmem
        · rintro ⟨k1, k2, k3⟩
          refine ⟨k1, ?_, fun m hm hmem => k3 m hm (List.mem_cons_of_mem _ hmem)⟩
          rcases List.mem_cons.mp k2 with he | k2
          · exact absurd he (hno n k1)
          · exact k2
      | true =>
        have hp : w <+: cs := List.isPrefixOf_iff_prefix.mp hw
        have hwt : cs.take w.length = w := (List.prefix_iff_eq_take.mp hp).symm
        have hwl := hp.length_le
        have : (wordWays (w :: ws) cs).head?.map (fun rest => cs.length - rest.length) = some w.length := by
          rw [wordWays_cons, hw, if_pos rfl, List.head?_cons, Option.map_some, List.length_drop]
          congr 1
          omega
        rw [this]
        have hmax : ∀ m, m ≤ cs.length → cs.take m ∈ w :: ws → m ≤ w.length := by
          intro m hm hmem
          rcases List.mem_cons.mp hmem with he | hmem
          · rw [← he, List.length_take]; omega
          · have := h1 _ hmem
            rcases Nat.lt_or_ge w.length m with hlt | hge
            · exfalso
              apply this
              refine ⟨?_, ?_⟩
              · rw [← hwt]
                rw [List.prefix_take_iff]
                exact ⟨List.take_prefix _ _, by rw [List.length_take]; omega⟩
              · intro he
                have := congrArg List.length he
                rw [List.length_take] at this
                omega
            · exact hge
        constructor
        · intro he
          cases he
          exact ⟨hwl, by rw [hwt]; simp, hmax⟩
        · rintro ⟨k1, k2, k3⟩
          have a := hmax n k1 k2
          have b := k3 w.length hwl (by rw [hwt]; simp)
          rw [Nat.le_antisymm a b]
  rw [Rx.find, h cs]
  exact key ws hl

/-! ## Operators and the beginnings of f-strings -/

def operatorWords : List (List Char) :=
  ["**=", "**", ">>=", ">>", "<<=", "<<", "//=", "//", "->", "...", ":=", ":", "+=", "+", "-=", "-", "*=", "*", "/=", "/", "%=", "%", "&=", "&", "@=", "@", "`=", "`",
    "|=", "|", "^=", "^", "!=", "!", "==", "=", "<=", "<", ">=", ">", "[", "]", "(", ")", "{", "}", "~", ";", ".", ",", "@"].map String.toList

theorem operator_words : Means operatorRx operatorWords := by
  have hw2 : ∀ a b : Char, Means (.word [a, b]) [[a, b]] := fun a b => means_seq (means_chr a) (means_chr b)
  have hw3 : Means (.word ['.', '.', '.']) [['.', '.', '.']] := means_seq (means_chr _) (means_seq (means_chr _) (means_chr _))
  have heq : Means (.opt (.chr '=')) [['='], []] := means_opt (means_chr _)
  exact means_alt (means_seq (hw2 _ _) heq) (means_alt (means_seq (hw2 _ _) heq) (means_alt (means_seq (hw2 _ _) heq) (means_alt (means_seq (hw2 _ _) heq)
    (means_alt (hw2 _ _) (means_alt hw3 (means_alt (means_seq (means_chr _) heq) (means_alt (means_seq (means_oneOf _ (by decide)) heq)
      (means_alt (means_oneOf _ (by decide)) (means_oneOf _ (by decide))))))))))

def fstartWords : List (List Char) :=
  ["FR", "Fr", "F", "fR", "fr", "f", "RF", "Rf", "rF", "rf"].flatMap (fun p => ["\"\"\"", "'''", "'", "\""].map (fun q => p.toList ++ q.toList))

theorem fstart_words : Means fstartRx fstartWords := by
  have hw3 : ∀ c : Char, Means (.word [c, c, c]) [[c, c, c]] := fun c => means_seq (means_chr _) (means_seq (means_chr _) (means_chr _))
  exact means_seq (means_alt (means_seq (means_oneOf _ (by decide)) (means_opt (means_oneOf _ (by decide)))) (means_seq (means_oneOf _ (by decide)) (means_oneOf _ (by decide))))
    (means_alt (hw3 _) (means_alt (hw3 _) (means_alt (means_chr _) (means_chr _))))

end Verif.Tokenizer
