import Verif.Paths.Model
/-
C19 (path normalisation), C20 (innermost workspace) and C68 (relative paths).
-/
namespace Verif.Paths

/-! ### Specification -/

/-- The names joined by separators. -/
def joined : List (List Char) → List Char
  | [] => []
  | [a] => a
  | a :: b :: l => a ++ '/' :: joined (b :: l)

/-- Going through a path one piece at a time, starting from a directory given by the names that lead
to it from the root. -/
def walk (dir : List (List Char)) : List (List Char) → List (List Char)
  | [] => dir
  | p :: ps =>
    if p = [] ∨ p = ['.'] then walk dir ps
    else if p = ['.', '.'] then walk dir.dropLast ps
    else walk (dir ++ [p]) ps

/-- The path leads to the place with these names, from the directory `dir`. -/
def LeadsFrom (dir : List (List Char)) (path : List Char) (names : List (List Char)) : Prop :=
  ∃ ps, ps ≠ [] ∧ joined ps = path ∧ (∀ p ∈ ps, '/' ∉ p) ∧ walk dir ps = names

/-- The absolute path leads to the place with these names. -/
def LeadsTo (path : List Char) (names : List (List Char)) : Prop := LeadsFrom [] path names

/-- A proper name of a directory entry. -/
def IsName (s : List Char) : Prop :=
  s ≠ [] ∧ s ≠ ['.'] ∧ s ≠ ['.', '.'] ∧ '/' ∉ s

/-! ### Lemmas -/

theorem pieces_ne (s : List Char) : pieces s ≠ [] := by
  cases s with
  | nil => simp [pieces]
  | cons c cs =>
    simp only [pieces]
    split
    · simp
    · split <;> simp

theorem joined_cons (a : List Char) (l : List (List Char)) (h : l ≠ []) :
    joined (a :: l) = a ++ '/' :: joined l := by
  cases l with
  | nil => exact absurd rfl h
  | cons b l => rfl

theorem joined_pieces (s : List Char) : joined (pieces s) = s := by
  induction s with
  | nil => rfl
  | cons c cs ih =>
    simp only [pieces]
    cases h : pieces cs with
    | nil => exact absurd h (pieces_ne cs)
    | cons p ps =>
      rw [h] at ih
      simp only
      split
      · rename_i hc
        rw [joined_cons _ _ (by simp), ih]; simp [hc]
      · cases ps with
        | nil => simpa [joined] using ih
        | cons q qs =>
          rw [joined_cons _ _ (by simp)] at ih ⊢
          simp [← ih]

theorem pieces_clean (s : List Char) : ∀ p ∈ pieces s, '/' ∉ p := by
  induction s with
  | nil => simp [pieces]
  | cons c cs ih =>
    simp only [pieces]
    cases h : pieces cs with
    | nil => simp
    | cons p ps =>
      rw [h] at ih
      simp only
      split
      · intro q hq
        simp only [List.mem_cons] at hq
        rcases hq with rfl | rfl | hq
        · simp
        · exact ih q (by simp)
        · exact ih q (by simp [hq])
      · rename_i hc
        intro q hq
        simp only [List.mem_cons] at hq
        rcases hq with rfl | hq
        · simp only [List.mem_cons, not_or]
          exact ⟨fun e => hc e.symm, ih p (by simp)⟩
        · exact ih q (by simp [hq])

theorem pieces_name (a : List Char) (h : '/' ∉ a) : pieces a = [a] := by
  induction a with
  | nil => rfl
  | cons c cs ih =>
    simp only [List.mem_cons, not_or] at h
    simp [pieces, ih h.2, Ne.symm h.1]

theorem pieces_append (a s : List Char) (h : '/' ∉ a) : pieces (a ++ '/' :: s) = a :: pieces s := by
  induction a with
  | nil =>
    simp only [List.nil_append, pieces]
    cases h : pieces s with
    | nil => exact absurd h (pieces_ne s)
    | cons p ps => rfl
  | cons c cs ih =>
    simp only [List.mem_cons, not_or] at h
    simp [pieces, ih h.2, Ne.symm h.1]

theorem pieces_unique (ps : List (List Char)) (hne : ps ≠ []) (hc : ∀ p ∈ ps, '/' ∉ p) :
    pieces (joined ps) = ps := by
  induction ps with
  | nil => exact absurd rfl hne
  | cons p ps ih =>
    cases ps with
    | nil => exact pieces_name p (hc p (by simp))
    | cons q qs =>
      rw [joined_cons _ _ (by simp), pieces_append _ _ (hc p (by simp)),
        ih (by simp) (fun x hx => hc x (by simp [hx]))]

/-- Every path leads to exactly one place. -/
theorem leadsFrom_iff (dir : List (List Char)) (path : List Char) (names : List (List Char)) :
    LeadsFrom dir path names ↔ walk dir (pieces path) = names := by
  constructor
  · rintro ⟨ps, hne, rfl, hc, hw⟩
    rw [pieces_unique ps hne hc]; exact hw
  · intro h
    exact ⟨pieces path, pieces_ne path, joined_pieces path, pieces_clean path, h⟩

/-- The clean absolute path of a place. -/
def render (names : List (List Char)) : List Char := '/' :: joined names

theorem joined_append (l : List (List Char)) (a : List Char) (h : l ≠ []) :
    joined (l ++ [a]) = joined l ++ '/' :: a := by
  induction l with
  | nil => exact absurd rfl h
  | cons b l ih =>
    cases l with
    | nil => rfl
    | cons c l =>
      rw [List.cons_append, joined_cons _ _ (by simp), ih (by simp), joined_cons b (c :: l) (by simp)]
      simp

theorem joined_getLast (names : List (List Char)) (hn : names ≠ []) (h : ∀ n ∈ names, IsName n) :
    (joined names).getLast? ≠ some '/' := by
  rcases List.eq_nil_or_concat names with rfl | ⟨l, a, rfl⟩
  · exact absurd rfl hn
  · have ha : IsName a := h a (by simp)
    obtain ⟨hne, -, -, hs⟩ := ha
    have key : ∀ x : List Char, (x ++ a).getLast? ≠ some '/' := by
      intro x e
      rw [List.getLast?_append] at e
      cases hl : a.getLast? with
      | none => exact hne (List.getLast?_eq_none_iff.1 hl)
      | some y =>
        rw [hl] at e
        simp only [Option.some_or, Option.some.injEq] at e
        subst e
        exact hs (List.mem_of_getLast? hl)
    cases l with
    | nil => exact key []
    | cons b l =>
      rw [List.concat_eq_append, joined_append _ _ (by simp)]
      have : joined (b :: l) ++ '/' :: a = (joined (b :: l) ++ ['/']) ++ a := by simp
      rw [this]; exact key _

theorem push_render (names : List (List Char)) (a : List Char) (h : ∀ n ∈ names, IsName n) (ha : IsName a) :
    push (render names) a = render (names ++ [a]) := by
  obtain ⟨hne, -, -, hs⟩ := ha
  have hhead : a.head? ≠ some '/' := by
    intro e
    exact hs (List.mem_of_mem_head? (by simp [e]))
  unfold push
  rw [if_neg hhead]
  cases names with
  | nil => simp [render, joined]
  | cons b l =>
    have hl := joined_getLast (b :: l) (by simp) h
    have hj : joined (b :: l) ≠ [] := by
      intro e
      have hb := (h b (by simp)).1
      cases l with
      | nil => exact hb e
      | cons c l => rw [joined_cons _ _ (by simp)] at e; simp at e
    have : (render (b :: l)).getLast? = (joined (b :: l)).getLast? := by
      unfold render
      rw [List.getLast?_cons]
      cases hh : (joined (b :: l)).getLast? with
      | none => exact absurd (List.getLast?_eq_none_iff.1 hh) hj
      | some y => simp
    rw [if_neg (by
      rintro (e | e)
      · simp [render] at e
      · rw [this] at e; exact hl e)]
    unfold render
    rw [joined_append _ _ (by simp)]
    rfl

theorem splitLast_none (a : List Char) (h : '/' ∉ a) : splitLast a = none := by
  induction a with
  | nil => rfl
  | cons c cs ih =>
    simp only [List.mem_cons, not_or] at h
    simp [splitLast, ih h.2, Ne.symm h.1]

theorem splitLast_append (x a : List Char) (h : '/' ∉ a) : splitLast (x ++ '/' :: a) = some (x, a) := by
  induction x with
  | nil => simp [splitLast, splitLast_none a h]
  | cons c cs ih => simp [splitLast, ih]

theorem pop_render (names : List (List Char)) (h : ∀ n ∈ names, IsName n) :
    pop (render names) = render names.dropLast := by
  rcases List.eq_nil_or_concat names with rfl | ⟨l, a, rfl⟩
  · rfl
  · have ha : '/' ∉ a := (h a (by simp)).2.2.2
    rw [List.concat_eq_append, List.dropLast_concat]
    cases l with
    | nil =>
      show pop ('/' :: joined [a]) = _
      have : '/' :: joined [a] = [] ++ '/' :: a := rfl
      rw [this, pop, splitLast_append _ _ ha]; rfl
    | cons b l =>
      unfold render
      rw [joined_append _ _ (by simp)]
      have : '/' :: (joined (b :: l) ++ '/' :: a) = ('/' :: joined (b :: l)) ++ '/' :: a := rfl
      rw [this, pop, splitLast_append _ _ ha]

theorem isName_of (p : List Char) (h1 : ¬ (p = [] ∨ p = ['.'])) (h2 : p ≠ ['.', '.']) (h3 : '/' ∉ p) :
    IsName p := by
  simp only [not_or] at h1
  exact ⟨h1.1, h1.2, h2, h3⟩

theorem walk_names (ps : List (List Char)) (dir : List (List Char)) (hd : ∀ n ∈ dir, IsName n)
    (hc : ∀ p ∈ ps, '/' ∉ p) : ∀ n ∈ walk dir ps, IsName n := by
  induction ps generalizing dir with
  | nil => exact hd
  | cons p ps ih =>
    have hc' : ∀ q ∈ ps, '/' ∉ q := fun q hq => hc q (by simp [hq])
    simp only [walk]
    split
    · exact ih dir hd hc'
    · rename_i h1
      split
      · exact ih _ (fun n hn => hd n (List.dropLast_subset dir hn)) hc'
      · rename_i h2
        refine ih _ ?_ hc'
        intro n hn
        simp only [List.mem_append, List.mem_singleton] at hn
        rcases hn with hn | rfl
        · exact hd n hn
        · exact isName_of n h1 h2 (hc n (by simp))

theorem fold_walk (ps : List (List Char)) (dir : List (List Char)) (hd : ∀ n ∈ dir, IsName n)
    (hc : ∀ p ∈ ps, '/' ∉ p) :
    (ps.filterMap ofPiece).foldl normalizeStep (render dir) = render (walk dir ps) := by
  induction ps generalizing dir with
  | nil => rfl
  | cons p ps ih =>
    have hc' : ∀ q ∈ ps, '/' ∉ q := fun q hq => hc q (by simp [hq])
    simp only [walk]
    by_cases h1 : p = [] ∨ p = ['.']
    · have e : ofPiece p = none := by simp [ofPiece, h1]
      rw [List.filterMap_cons_none e, if_pos h1]
      exact ih dir hd hc'
    · by_cases h2 : p = ['.', '.']
      · have e : ofPiece p = some .parentDir := by simp [ofPiece, h2]
        rw [List.filterMap_cons_some e, if_neg h1, if_pos h2, List.foldl_cons]
        show (ps.filterMap ofPiece).foldl normalizeStep (pop (render dir)) = _
        rw [pop_render dir hd]
        exact ih _ (fun n hn => hd n (List.dropLast_subset dir hn)) hc'
      · have e : ofPiece p = some (.normal p) := by simp [ofPiece, h1, h2]
        have hp := isName_of p h1 h2 (hc p (by simp))
        rw [List.filterMap_cons_some e, if_neg h1, if_neg h2, List.foldl_cons]
        show (ps.filterMap ofPiece).foldl normalizeStep (push (render dir) p) = _
        rw [push_render dir p hd hp]
        refine ih _ ?_ hc'
        intro n hn
        simp only [List.mem_append, List.mem_singleton] at hn
        rcases hn with hn | rfl
        · exact hd n hn
        · exact hp

theorem normalize_abs (path : List Char) (h : path.head? = some '/') :
    normalize path = render (walk [] (pieces path)) := by
  unfold normalize components
  rw [if_pos h, List.cons_append, List.nil_append, List.foldl_cons]
  exact fold_walk (pieces path) [] (by simp) (pieces_clean path)

theorem walk_clean (dir names : List (List Char)) (h : ∀ n ∈ names, IsName n) :
    walk dir names = dir ++ names := by
  induction names generalizing dir with
  | nil => simp [walk]
  | cons n ns ih =>
    obtain ⟨h1, h2, h3, -⟩ := h n (by simp)
    simp only [walk]
    rw [if_neg (by simp only [not_or]; exact ⟨h1, h2⟩), if_neg h3, ih _ (fun x hx => h x (by simp [hx]))]
    simp

theorem pieces_render (names : List (List Char)) (h : ∀ n ∈ names, IsName n) :
    walk [] (pieces (render names)) = names := by
  cases names with
  | nil => decide
  | cons n ns =>
    have : render (n :: ns) = [] ++ '/' :: joined (n :: ns) := rfl
    rw [this, pieces_append _ _ (by simp), pieces_unique _ (by simp) (fun p hp => (h p hp).2.2.2)]
    show walk [] ([] :: n :: ns) = _
    rw [walk, if_pos (.inl rfl), walk_clean _ _ h]; rfl

/-! ### C19 -/

/-- C19: the normal form of an absolute path consists of proper names only (no `.`, no `..`, no empty
name) and leads to the same place as the path. -/
theorem normalize_place (path : List Char) (habs : path.head? = some '/') (names : List (List Char))
    (hp : LeadsTo path names) :
    (∀ n ∈ names, IsName n) ∧ normalize path = '/' :: joined names ∧ LeadsTo (normalize path) names := by
  have hw := (leadsFrom_iff [] path names).1 hp
  have hn : ∀ n ∈ names, IsName n := by
    rw [← hw]; exact walk_names _ [] (by simp) (pieces_clean path)
  have he : normalize path = render names := by rw [normalize_abs path habs, hw]
  refine ⟨hn, he, ?_⟩
  rw [LeadsTo, leadsFrom_iff, he]
  exact pieces_render names hn

/-- C19: normalising twice is normalising once. -/
theorem normalize_idem (path : List Char) (habs : path.head? = some '/') :
    normalize (normalize path) = normalize path := by
  obtain ⟨-, he, hl⟩ := normalize_place path habs _ ((leadsFrom_iff [] path _).2 rfl)
  obtain ⟨-, he', -⟩ := normalize_place (normalize path) (by rw [he]; rfl) _ hl
  rw [he', ← he]

/-- C19: two absolute paths have the same normal form exactly if they lead to the same place. -/
theorem normalize_eq_iff (p q : List Char) (hp : p.head? = some '/') (hq : q.head? = some '/') :
    normalize p = normalize q ↔ ∃ names, LeadsTo p names ∧ LeadsTo q names := by
  have lp := (leadsFrom_iff [] p _).2 rfl
  have lq := (leadsFrom_iff [] q _).2 rfl
  obtain ⟨-, ep, l1⟩ := normalize_place p hp _ lp
  obtain ⟨-, eq, l2⟩ := normalize_place q hq _ lq
  constructor
  · intro h
    rw [h] at l1
    have e1 := (leadsFrom_iff [] _ _).1 l1
    have e2 := (leadsFrom_iff [] _ _).1 l2
    rw [e1] at e2
    exact ⟨_, lp, by rw [e2]; exact lq⟩
  · rintro ⟨names, h1, h2⟩
    rw [(normalize_place p hp _ h1).2.1, (normalize_place q hq _ h2).2.1]

example : normalize "/foo/./bar/../../..//baz/".toList = "/baz".toList ∧
    LeadsTo "/foo/./bar/../../..//baz/".toList ["baz".toList] :=
  ⟨by decide, (leadsFrom_iff _ _ _).2 (by decide)⟩

/-! ### C20 -/

/-- Equality of characters, up to the case of ASCII letters if the file system is not case
sensitive. -/
def SameChar (cs : Bool) (a b : Char) : Prop :=
  a = b ∨ (cs = false ∧ ∃ n, n < 26 ∧ ((a.toNat = 65 + n ∧ b.toNat = 97 + n) ∨ (a.toNat = 97 + n ∧ b.toNat = 65 + n)))

/-- Equality of texts character by character. -/
def Same (cs : Bool) : List Char → List Char → Prop
  | [], [] => True
  | a :: as, b :: bs => SameChar cs a b ∧ Same cs as bs
  | _, _ => False

/-- The file is below the directory `root`, and `rest` leads to it from there. -/
def Below (cs : Bool) (path root rest : List Char) : Prop :=
  ∃ pre, path = pre ++ '/' :: rest ∧ Same cs pre root

theorem toNat_ofNat (n : Nat) (h : n < 55296) : (Char.ofNat n).toNat = n := by
  unfold Char.ofNat
  rw [dif_pos (Or.inl h)]
  rfl

theorem lower_val (c : Char) : lower c = c ∨ ∃ n, n < 26 ∧ c.toNat = 65 + n ∧ (lower c).toNat = 97 + n := by
  unfold lower
  split
  · rename_i h
    right
    have h1 : 65 ≤ c.toNat := by have := h.1; exact this
    have h2 : c.toNat ≤ 90 := by have := h.2; exact this
    refine ⟨c.toNat - 65, by omega, by omega, ?_⟩
    rw [toNat_ofNat _ (by omega)]
    omega
  · exact .inl rfl

theorem char_ext_nat (a b : Char) (h : a.toNat = b.toNat) : a = b := by
  apply Char.ext
  apply UInt32.toNat_inj.1
  exact h

theorem lower_of_upper (c : Char) (n : Nat) (hn : n < 26) (h : c.toNat = 65 + n) : (lower c).toNat = 97 + n := by
  unfold lower
  rw [if_pos]
  · rw [toNat_ofNat _ (by omega)]
    omega
  · constructor
    · show 65 ≤ c.toNat; omega
    · show c.toNat ≤ 90; omega

theorem lower_of_lower (c : Char) (n : Nat) (hn : n < 26) (h : c.toNat = 97 + n) : lower c = c := by
  unfold lower
  rw [if_neg]
  rintro ⟨-, h2⟩
  have : c.toNat ≤ 90 := h2
  omega

theorem lower_eq_iff (a b : Char) : lower a = lower b ↔ SameChar false a b := by
  constructor
  · intro h
    rcases lower_val a with ha | ⟨n, hn, ha, hla⟩ <;> rcases lower_val b with hb | ⟨m, hm, hb, hlb⟩
    · exact .inl (by rw [← ha, ← hb, h])
    · exact .inr ⟨rfl, m, hm, .inr ⟨by rw [← ha, h, hlb], hb⟩⟩
    · exact .inr ⟨rfl, n, hn, .inl ⟨ha, by rw [← hb, ← h, hla]⟩⟩
    · left
      apply char_ext_nat
      have : (lower a).toNat = (lower b).toNat := by rw [h]
      omega
  · rintro (rfl | ⟨-, n, hn, ⟨ha, hb⟩ | ⟨ha, hb⟩⟩)
    · rfl
    · apply char_ext_nat
      rw [lower_of_upper a n hn ha, lower_of_lower b n hn hb, hb]
    · apply char_ext_nat
      rw [lower_of_upper b n hn hb, lower_of_lower a n hn ha, ha]

theorem matchCase_iff (cs : Bool) (x y : List Char) : matchCase cs x y = true ↔ Same cs x y := by
  cases cs with
  | true =>
    simp only [matchCase, if_true, beq_iff_eq]
    induction x generalizing y with
    | nil => cases y <;> simp [Same]
    | cons a x ih =>
      cases y with
      | nil => simp [Same]
      | cons b y => simp [Same, ← ih y, SameChar]
  | false =>
    simp only [matchCase, Bool.false_eq_true, if_false, beq_iff_eq]
    induction x generalizing y with
    | nil => cases y <;> simp [Same]
    | cons a x ih =>
      cases y with
      | nil => simp [Same]
      | cons b y => simp [Same, ← ih y, lower_eq_iff]

theorem same_slash (cs : Bool) (a : Char) : (SameChar cs a '/' ↔ a = '/') ∧ (SameChar cs '/' a ↔ a = '/') := by
  have h47 : '/'.toNat = 47 := rfl
  constructor
  · constructor
    · rintro (rfl | ⟨-, n, hn, ⟨ha, hb⟩ | ⟨ha, hb⟩⟩)
      · rfl
      · omega
      · omega
    · rintro rfl; exact .inl rfl
  · constructor
    · rintro (rfl | ⟨-, n, hn, ⟨ha, hb⟩ | ⟨ha, hb⟩⟩)
      · rfl
      · omega
      · omega
    · rintro rfl; exact .inl rfl

theorem same_append (cs : Bool) (a b c d : List Char) (h1 : Same cs a b) (h2 : Same cs c d) :
    Same cs (a ++ c) (b ++ d) := by
  induction a generalizing b with
  | nil => cases b with
    | nil => exact h2
    | cons => exact absurd h1 (by simp [Same])
  | cons x a ih => cases b with
    | nil => exact absurd h1 (by simp [Same])
    | cons y b => exact ⟨h1.1, ih b h1.2⟩

/-- Texts that are the same have the same first separator. -/
theorem same_split (cs : Bool) (b d x : List Char) (hb : '/' ∉ b) (h : Same cs x (b ++ '/' :: d)) :
    ∃ a c, x = a ++ '/' :: c ∧ '/' ∉ a ∧ Same cs a b ∧ Same cs c d := by
  induction b generalizing x with
  | nil =>
    cases x with
    | nil => exact absurd h (by simp [Same])
    | cons y x =>
      obtain ⟨h1, h2⟩ := h
      exact ⟨[], x, by rw [((same_slash cs y).1).1 h1]; rfl, by simp, trivial, h2⟩
  | cons e b ih =>
    cases x with
    | nil => exact absurd h (by simp [Same])
    | cons y x =>
      obtain ⟨h1, h2⟩ := h
      simp only [List.mem_cons, not_or] at hb
      obtain ⟨a, c, rfl, ha, h3, h4⟩ := ih x hb.2 h2
      refine ⟨y :: a, c, rfl, ?_, ⟨h1, h3⟩, h4⟩
      simp only [List.mem_cons, not_or]
      refine ⟨?_, ha⟩
      rintro rfl
      exact hb.1 ((same_slash cs e).2.1 h1).symm

theorem same_no_slash (cs : Bool) (a b : List Char) (hb : '/' ∉ b) (h : Same cs a b) : '/' ∉ a := by
  induction a generalizing b with
  | nil => simp
  | cons x a ih => cases b with
    | nil => exact absurd h (by simp [Same])
    | cons y b =>
      simp only [List.mem_cons, not_or] at hb ⊢
      refine ⟨?_, ih b hb.2 h.2⟩
      rintro rfl
      exact hb.1 ((same_slash cs y).2.1 h.1).symm

theorem splitOffFirst_cases (p : List Char) :
    ('/' ∉ p ∧ splitOffFirst p = (p, none)) ∨
      ∃ a r, p = a ++ '/' :: r ∧ '/' ∉ a ∧ splitOffFirst p = (a, some r) := by
  induction p with
  | nil => exact .inl ⟨by simp, rfl⟩
  | cons c p ih =>
    by_cases hc : c = '/'
    · subst hc
      exact .inr ⟨[], p, rfl, by simp, by simp [splitOffFirst]⟩
    · rcases ih with ⟨h1, h2⟩ | ⟨a, r, rfl, h1, h2⟩
      · refine .inl ⟨by simp [h1, Ne.symm hc], by simp [splitOffFirst, hc, h2]⟩
      · exact .inr ⟨c :: a, r, rfl, by simp [h1, Ne.symm hc], by simp [splitOffFirst, hc, h2]⟩

theorem split_inj (a b c d : List Char) (ha : '/' ∉ a) (hb : '/' ∉ b) (h : a ++ '/' :: c = b ++ '/' :: d) :
    a = b ∧ c = d := by
  induction a generalizing b with
  | nil =>
    cases b with
    | nil => simpa using h
    | cons y b =>
      simp only [List.nil_append, List.cons_append, List.cons.injEq] at h
      exact absurd (by simp [← h.1]) hb
  | cons x a ih =>
    cases b with
    | nil =>
      simp only [List.nil_append, List.cons_append, List.cons.injEq] at h
      exact absurd (by simp [h.1]) ha
    | cons y b =>
      simp only [List.cons_append, List.cons.injEq] at h
      simp only [List.mem_cons, not_or] at ha hb
      obtain ⟨h1, h2⟩ := ih b ha.2 hb.2 h.2
      exact ⟨by rw [h.1, h1], h2⟩

/-- C20: a path is in a directory exactly if the text of the directory followed by a separator starts
it; a directory that merely shares a prefix of a name never contains it. -/
theorem strip_iff (cs : Bool) (path root rest : List Char) :
    stripPathPrefix cs path root = some rest ↔ Below cs path root rest := by
  induction hn : path.length using Nat.strongRecOn generalizing path root with
  | _ n ih =>
    rw [stripPathPrefix]
    rcases splitOffFirst_cases path with ⟨hp, ep⟩ | ⟨a, r, rfl, ha, ep⟩
    · have hno : ¬ Below cs path root rest := by
        rintro ⟨pre, rfl, -⟩
        simp at hp
      constructor
      · intro h
        exfalso
        split at h
        · split at h
          · cases h
          · rename_i e
            rw [ep] at e
            cases e
        · cases h
      · intro h; exact absurd h hno
    · have hsel : ∀ x, (splitOffFirst (a ++ '/' :: r)).2 = some x ↔ x = r := by
        intro x; rw [ep]; simp [eq_comm]
      rcases splitOffFirst_cases root with ⟨hr, er⟩ | ⟨b, s, rfl, hb, er⟩
      · -- the last piece of the root
        have hB : Below cs (a ++ '/' :: r) root rest ↔ Same cs a root ∧ r = rest := by
          constructor
          · rintro ⟨pre, e, hs⟩
            obtain ⟨e1, e2⟩ := split_inj a pre r rest ha (same_no_slash cs pre root hr hs) e
            exact ⟨e1 ▸ hs, e2⟩
          · rintro ⟨h1, rfl⟩
            exact ⟨a, rfl, h1⟩
        rw [hB]
        split
        · rename_i hm
          rw [ep, er, matchCase_iff] at hm
          split
          · rename_i e; rw [ep] at e; cases e
          · rename_i x e
            rw [hsel] at e
            subst e
            simp [er, hm]
        · rename_i hm
          rw [ep, er, matchCase_iff] at hm
          simp [hm]
      · have hB : Below cs (a ++ '/' :: r) (b ++ '/' :: s) rest ↔ Same cs a b ∧ Below cs r s rest := by
          constructor
          · rintro ⟨pre, e, hs⟩
            obtain ⟨a', c, rfl, ha', h1, h2⟩ := same_split cs b s pre hb hs
            rw [List.append_assoc, List.cons_append] at e
            obtain ⟨e1, e2⟩ := split_inj a a' r _ ha ha' e
            exact ⟨e1 ▸ h1, c, e2, h2⟩
          · rintro ⟨h1, pre, rfl, h2⟩
            refine ⟨a ++ '/' :: pre, by simp, same_append cs a b _ _ h1 ⟨.inl rfl, h2⟩⟩
        rw [hB]
        split
        · rename_i hm
          rw [ep, er, matchCase_iff] at hm
          split
          · rename_i e; rw [ep] at e; cases e
          · rename_i x e
            rw [hsel] at e
            subst e
            simp only [er]
            rw [ih x.length (by rw [← hn]; simp; omega) x s rfl]
            simp [hm]
        · rename_i hm
          rw [ep, er, matchCase_iff] at hm
          simp [hm]

/-- The workspaces that contain a file, with the way from their root to it. -/
def Contains (cs : Bool) (p : FilePath) (w : Workspace) (rest : List Char) : Prop :=
  p.scheme = w.scheme ∧ Below cs p.path w.root rest

theorem contains_iff (cs : Bool) (p : FilePath) (w : Workspace) (rest : List Char) :
    w.strip cs p = some rest ↔ Contains cs p w rest := by
  unfold Workspace.strip Contains
  split
  · rename_i h; simp [h]
  · rename_i h
    simp only [ne_eq, Decidable.not_not] at h
    rw [strip_iff]; simp [h]

theorem same_length (cs : Bool) (a b : List Char) (h : Same cs a b) : a.length = b.length := by
  induction a generalizing b with
  | nil => cases b with
    | nil => rfl
    | cons => exact absurd h (by simp [Same])
  | cons x a ih => cases b with
    | nil => exact absurd h (by simp [Same])
    | cons y b => simp [ih b h.2]

theorem below_length (cs : Bool) (path root rest : List Char) (h : Below cs path root rest) :
    path.length = root.length + 1 + rest.length := by
  obtain ⟨pre, rfl, hs⟩ := h
  have := same_length cs _ _ hs
  simp; omega

/-- The best of the workspaces seen so far. -/
def Best (cs : Bool) (p : FilePath) (seen : List Workspace) : Option (Workspace × List Char) → Prop
  | none => ∀ w ∈ seen, ∀ r, ¬ Contains cs p w r
  | some (w, r) => Contains cs p w r ∧ ∃ a b, seen = a ++ w :: b ∧
      (∀ v ∈ a, ∀ s, Contains cs p v s → v.root.length < w.root.length) ∧
      (∀ v ∈ b, ∀ s, Contains cs p v s → v.root.length ≤ w.root.length)

theorem best_loop (cs : Bool) (p : FilePath) (ws seen : List Workspace)
    (best : Option (Workspace × List Char)) (h : Best cs p seen best) :
    Best cs p (seen ++ ws) (shortLoop cs p best ws) := by
  induction ws generalizing seen best with
  | nil => simpa [shortLoop] using h
  | cons w ws ih =>
    have e : seen ++ w :: ws = (seen ++ [w]) ++ ws := by simp
    rw [e, shortLoop]
    cases hw : w.strip cs p with
    | none =>
      refine ih _ _ ?_
      have hno : ∀ r, ¬ Contains cs p w r := by
        intro r hr
        rw [(contains_iff cs p w r).2 hr] at hw
        cases hw
      cases best with
      | none =>
        intro v hv r
        simp only [List.mem_append, List.mem_singleton] at hv
        rcases hv with hv | rfl
        · exact h v hv r
        · exact hno r
      | some br =>
        obtain ⟨hc, a, b, e, h1, h2⟩ := h
        refine ⟨hc, a, b ++ [w], by simp [e], h1, ?_⟩
        intro v hv s hs
        simp only [List.mem_append, List.mem_singleton] at hv
        rcases hv with hv | rfl
        · exact h2 v hv s hs
        · exact absurd hs (hno s)
    | some r =>
      have hc := (contains_iff cs p w r).1 hw
      refine ih _ _ ?_
      cases best with
      | none => exact ⟨hc, seen, [], rfl, fun v hv s hs => absurd hs (h v hv s), by simp⟩
      | some br =>
        obtain ⟨v, s⟩ := br
        obtain ⟨hv, a, b, e, h1, h2⟩ := h
        have l1 := below_length _ _ _ _ hc.2
        have l2 := below_length _ _ _ _ hv.2
        by_cases hlt : s.length > r.length
        · simp only [hlt, decide_true, if_true]
          refine ⟨hc, seen, [], rfl, ?_, by simp⟩
          intro u hu t ht
          rw [e] at hu
          simp only [List.mem_append, List.mem_cons] at hu
          rcases hu with hu | rfl | hu
          · have := h1 u hu t ht; omega
          · omega
          · have := h2 u hu t ht; omega
        · simp only [hlt, decide_false]
          refine ⟨hv, a, b ++ [w], by simp [e], h1, ?_⟩
          intro u hu t ht
          simp only [List.mem_append, List.mem_singleton] at hu
          rcases hu with hu | rfl
          · exact h2 u hu t ht
          · omega

/-- C20, for roots as they are stored: a file belongs to a workspace exactly if some workspace contains
it, and it belongs to one with the longest root, the first one if there are several (which happens only
if case is ignored).  Missing: roots that end in a separator, see `root_violation`. -/
theorem innermost_partial (cs : Bool) (ws : List Workspace) (p : FilePath) :
    (stripShort cs ws p = none ↔ ∀ w ∈ ws, ∀ r, ¬ Contains cs p w r) ∧
    ∀ w r, stripShort cs ws p = some (w, r) →
      w ∈ ws ∧ Contains cs p w r ∧
      (∀ v ∈ ws, ∀ s, Contains cs p v s → v.root.length ≤ w.root.length) ∧
      (cs = true → ∀ v ∈ ws, ∀ s, Contains cs p v s → v.root.length = w.root.length → v.root = w.root) ∧
      ∃ a b, ws = a ++ w :: b ∧ ∀ v ∈ a, ∀ s, Contains cs p v s → v.root.length < w.root.length := by
  have h := best_loop cs p ws [] none (by intro w hw; simp at hw)
  rw [List.nil_append] at h
  have e : stripShort cs ws p = shortLoop cs p none ws := rfl
  rw [e]
  constructor
  · constructor
    · intro hn; rw [hn] at h; exact h
    · intro hno
      cases hs : shortLoop cs p none ws with
      | none => rfl
      | some x =>
        obtain ⟨w, r⟩ := x
        rw [hs] at h
        obtain ⟨hc, a, b, e, -⟩ := h
        exact absurd hc (hno w (by simp [e]) r)
  · intro w r hs
    rw [hs] at h
    obtain ⟨hc, a, b, e, h1, h2⟩ := h
    refine ⟨by simp [e], hc, ?_, ?_, a, b, e, h1⟩
    · intro v hv s hvs
      rw [e] at hv
      simp only [List.mem_append, List.mem_cons] at hv
      rcases hv with hv | rfl | hv
      · exact Nat.le_of_lt (h1 v hv s hvs)
      · exact Nat.le_refl _
      · exact h2 v hv s hvs
    · rintro rfl v hv s ⟨-, pre, e1, hs1⟩ hl
      obtain ⟨-, pre', e2, hs2⟩ := hc
      have t : ∀ a b, Same true a b → a = b := by
        intro a b hab
        have := (matchCase_iff true a b).2 hab
        simpa [matchCase] using this
      have e1' := t _ _ hs1
      have e2' := t _ _ hs2
      subst e1'; subst e2'
      rw [e1] at e2
      exact (List.append_inj e2 hl).1

/-- C20 fails for a root that ends in a separator, which is what normalising `/foo/..` gives: no file
is found in it, although files like `/a.py` are in that directory. -/
theorem root_violation :
    normalize "/foo/..".toList = "/".toList ∧
    LeadsTo "/".toList [] ∧ LeadsTo "/a.py".toList ["a.py".toList] ∧
    ∀ path, path.take 2 ≠ "//".toList →
      stripShort true [⟨normalize "/foo/..".toList, "file"⟩] ⟨"file", path⟩ = none := by
  refine ⟨by decide, (leadsFrom_iff _ _ _).2 (by decide), (leadsFrom_iff _ _ _).2 (by decide), ?_⟩
  intro path hp
  rw [(innermost_partial _ _ _).1]
  rintro w hw rest ⟨-, pre, e, hs⟩
  simp only [List.mem_singleton] at hw
  subst hw
  have hr : normalize "/foo/..".toList = ['/'] := by decide
  simp only [hr] at hs e
  have : pre = ['/'] := by
    have := (matchCase_iff true pre _).2 hs
    simpa [matchCase] using this
  subst this
  exact hp (by rw [e]; rfl)

/-- Roots get distinct: the same root is not added twice. -/
theorem roots_nodup (ws : List Workspace) (w : Workspace) (h : (ws.map (·.root)).Nodup) :
    ((addWorkspace ws w).map (·.root)).Nodup := by
  unfold addWorkspace
  split
  · exact h
  · rename_i hn
    simp only [List.map_append, List.map_cons, List.map_nil, List.nodup_append]
    refine ⟨h, by simp, ?_⟩
    intro a ha b hb
    simp only [List.mem_singleton] at hb
    subst hb
    simp only [List.mem_map] at ha
    obtain ⟨x, hx, rfl⟩ := ha
    intro e
    exact hn (List.any_eq_true.2 ⟨x, hx, by simp [e]⟩)

example : stripShort true [⟨"/p".toList, "file"⟩, ⟨"/p/src".toList, "file"⟩, ⟨"/p/sr".toList, "file"⟩]
    ⟨"file", "/p/src/a/b.py".toList⟩ = some (⟨"/p/src".toList, "file"⟩, "a/b.py".toList) := by
  decide +kernel

/-! ### C68 -/

theorem walk_append (dir : List (List Char)) (a b : List (List Char)) :
    walk dir (a ++ b) = walk (walk dir a) b := by
  induction a generalizing dir with
  | nil => rfl
  | cons p ps ih =>
    simp only [List.cons_append, walk]
    split
    · exact ih dir
    · split
      · exact ih _
      · exact ih _

/-- No piece of the path is `..`. -/
def NoParent (path : List Char) : Prop :=
  ∃ ps, ps ≠ [] ∧ joined ps = path ∧ (∀ p ∈ ps, '/' ∉ p) ∧ ['.', '.'] ∉ ps

theorem noParent_iff (path : List Char) : NoParent path ↔ ['.', '.'] ∉ pieces path := by
  constructor
  · rintro ⟨ps, hne, rfl, hc, h⟩
    rwa [pieces_unique ps hne hc]
  · intro h
    exact ⟨pieces path, pieces_ne path, joined_pieces path, pieces_clean path, h⟩

theorem ofPiece_walk (ps : List (List Char)) (dir : List (List Char)) (h : ['.', '.'] ∉ ps) :
    (walk dir ps).map Comp.normal = dir.map Comp.normal ++ ps.filterMap ofPiece := by
  induction ps generalizing dir with
  | nil => simp [walk]
  | cons p ps ih =>
    simp only [List.mem_cons, not_or] at h
    simp only [walk]
    by_cases h1 : p = [] ∨ p = ['.']
    · have e : ofPiece p = none := by simp [ofPiece, h1]
      rw [List.filterMap_cons_none e, if_pos h1]
      exact ih dir h.2
    · have e : ofPiece p = some (.normal p) := by simp [ofPiece, h1, Ne.symm h.1]
      rw [List.filterMap_cons_some e, if_neg h1, if_neg (Ne.symm h.1), ih _ h.2]
      simp

theorem components_abs (path : List Char) (habs : path.head? = some '/') (h : NoParent path)
    (names : List (List Char)) (hl : LeadsTo path names) :
    components path = .rootDir :: names.map .normal := by
  rw [LeadsTo, leadsFrom_iff] at hl
  unfold components
  rw [if_pos habs, ← hl, ofPiece_walk _ _ ((noParent_iff path).1 h)]
  rfl

theorem dropCommon_spec (f t : List (List Char)) :
    ∃ c f' t', f = c ++ f' ∧ t = c ++ t' ∧
      dropCommon (f.map .normal) (t.map .normal) = (f'.map .normal, t'.map .normal) := by
  induction f generalizing t with
  | nil => exact ⟨[], [], t, rfl, rfl, by simp [dropCommon]⟩
  | cons a f ih =>
    cases t with
    | nil => exact ⟨[], a :: f, [], rfl, rfl, by simp [dropCommon]⟩
    | cons b t =>
      by_cases e : a = b
      · subst e
        obtain ⟨c, f', t', h1, h2, h3⟩ := ih t
        exact ⟨a :: c, f', t', by simp [h1], by simp [h2], by simp [dropCommon, h3]⟩
      · exact ⟨[], a :: f, b :: t, rfl, rfl, by simp [dropCommon, e]⟩

theorem pushNames_true (names : List (List Char)) (out : List Char) :
    pushNames out true (names.map .normal) = out ++ (names.flatMap fun n => '/' :: n) := by
  induction names generalizing out with
  | nil => simp [pushNames]
  | cons n ns ih => simp [pushNames, ih]

theorem joined_flatMap (n : List Char) (ns : List (List Char)) :
    joined (n :: ns) = n ++ ns.flatMap fun n => '/' :: n := by
  induction ns generalizing n with
  | nil => simp [joined]
  | cons m ns ih => rw [joined_cons _ _ (by simp), ih]; simp

theorem pushNames_false (names : List (List Char)) (out : List Char) :
    pushNames out false (names.map .normal) = out ++ joined names := by
  cases names with
  | nil => simp [pushNames, joined]
  | cons n ns => simp [pushNames, pushNames_true, joined_flatMap]

theorem pieces_ups {α : Type} (l : List α) (s : List Char) :
    pieces ((l.flatMap fun _ => ['.', '.', '/']) ++ s) = l.map (fun _ => ['.', '.']) ++ pieces s := by
  induction l with
  | nil => rfl
  | cons x l ih =>
    have : ((x :: l).flatMap fun _ => ['.', '.', '/']) ++ s =
        ['.', '.'] ++ '/' :: ((l.flatMap fun _ => ['.', '.', '/']) ++ s) := by simp
    rw [this, pieces_append _ _ (by decide), ih]
    rfl

theorem walk_ups (l c : List (List Char)) : walk (c ++ l) (l.map fun _ => ['.', '.']) = c := by
  induction hn : l.length generalizing l with
  | zero =>
    have : l = [] := List.length_eq_zero_iff.1 hn
    subst this; simp [walk]
  | succ n ih =>
    rcases List.eq_nil_or_concat l with rfl | ⟨l', a, rfl⟩
    · simp at hn
    · have e : (l'.concat a).map (fun _ => ['.', '.']) = ['.', '.'] :: l'.map (fun _ => ['.', '.']) := by
        have : ∀ (m : List (List Char)), m.map (fun _ => ['.', '.']) = List.replicate m.length ['.', '.'] := by
          intro m; induction m <;> simp_all [List.replicate_succ]
        rw [this, this]; simp [List.replicate_succ]
      rw [e, walk, if_neg (by decide), if_pos rfl, List.concat_eq_append, ← List.append_assoc,
        List.dropLast_concat]
      exact ih l' (by simpa using hn)

/-- C68: for absolute paths without `..`, the relative path always exists, and following it from the
directory `to` leads to the file. -/
theorem relative_leads (from_ to : List Char) (hf : from_.head? = some '/') (ht : to.head? = some '/')
    (nf : NoParent from_) (nt : NoParent to) (fnames tnames : List (List Char))
    (lf : LeadsTo from_ fnames) (lt : LeadsTo to tnames) :
    ∃ rel, relativeTo from_ to = some rel ∧ LeadsFrom tnames rel fnames := by
  have hclean : ∀ n ∈ fnames, IsName n := by
    rw [LeadsTo, leadsFrom_iff] at lf
    rw [← lf]; exact walk_names _ [] (by simp) (pieces_clean from_)
  obtain ⟨c, f', t', e1, e2, e3⟩ := dropCommon_spec fnames tnames
  refine ⟨pushNames ((t'.map Comp.normal).flatMap fun _ => ['.', '.', '/']) false (f'.map .normal), ?_, ?_⟩
  · unfold relativeTo
    rw [components_abs from_ hf nf fnames lf, components_abs to ht nt tnames lt]
    simp only [if_true, e3]
  · rw [leadsFrom_iff, pushNames_false, pieces_ups, walk_append, e1, List.map_map]
    have : t'.map ((fun _ => ['.', '.']) ∘ Comp.normal) = t'.map (fun _ => ['.', '.']) := rfl
    rw [this, e2, walk_ups]
    cases f' with
    | nil => simp [joined, pieces, walk]
    | cons n ns =>
      have hc : ∀ m ∈ n :: ns, IsName m := fun m hm => hclean m (by rw [e1]; exact List.mem_append_right _ hm)
      rw [pieces_unique _ (by simp) (fun p hp => (hc p hp).2.2.2), walk_clean _ _ hc]

/-- C68: the relative path of a file in the directory itself has no `..` and no leading separator: it
is the rest of the path. -/
theorem relative_inside (dir rest : List (List Char)) (hd : ∀ n ∈ dir, IsName n) (hr : ∀ n ∈ rest, IsName n) :
    relativeTo ('/' :: joined (dir ++ rest)) ('/' :: joined dir) = some (joined rest) := by
  have key : ∀ l : List (List Char), (∀ n ∈ l, IsName n) →
      components ('/' :: joined l) = .rootDir :: l.map .normal := by
    intro l hl
    refine components_abs _ rfl ?_ l ((leadsFrom_iff [] _ _).2 (pieces_render l hl))
    rw [noParent_iff]
    cases l with
    | nil => decide
    | cons n ns =>
      have : '/' :: joined (n :: ns) = [] ++ '/' :: joined (n :: ns) := rfl
      rw [this, pieces_append _ _ (by simp), pieces_unique _ (by simp) (fun p hp => (hl p hp).2.2.2)]
      simp only [List.mem_cons, not_or]
      refine ⟨by simp, Ne.symm (hl n (by simp)).2.2.1, fun h => (hl _ (by simp [h])).2.2.1 rfl⟩
  have hdrop : ∀ d : List (List Char), dropCommon ((d ++ rest).map .normal) (d.map .normal) =
      (rest.map .normal, []) := by
    intro d
    induction d with
    | nil => cases rest <;> simp [dropCommon]
    | cons a d ih => simpa [dropCommon] using ih
  unfold relativeTo
  rw [key _ (by intro n hn; exact (List.mem_append.1 hn).elim (hd n) (hr n)), key _ hd]
  simp only [if_true, hdrop dir, pushNames_false]
  simp

example : relativeTo "/foo/bar/baz".toList "/foo/other/other2".toList = some "../../bar/baz".toList ∧
    NoParent "/foo/bar/baz".toList ∧ LeadsTo "/foo/bar/baz".toList ["foo".toList, "bar".toList, "baz".toList] :=
  ⟨by decide, (noParent_iff _).2 (by decide), (leadsFrom_iff _ _ _).2 (by decide)⟩

end Verif.Paths
