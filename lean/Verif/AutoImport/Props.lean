import Verif.AutoImport.Spec

/-!
# Properties of auto imports
-/

namespace Verif.AutoImport

open Spec

/-! ## Lemmas -/

theorem code_append (a b : List Leaf) : code (a ++ b) = code a ++ code b := by simp [code]

theorem insertAt_append (a b add : List Char) : insertAt a.length add (a ++ b) = a ++ add ++ b := by
  simp [insertAt]

theorem secondLast_snoc (cs : List Child) (a b : Child) : secondLast (cs ++ [a, b]) = some a := by
  simp [secondLast, List.foldl_append]

theorem _root_.Verif.AutoImport.Spec.Kids.ne_nil {cs : List Child} {l : List Target} (h : Kids cs l) : cs ≠ [] := by
  cases h <;> simp

/-- The last child is a name. -/
theorem _root_.Verif.AutoImport.Spec.Kids.last {cs : List Child} {l : List Target} (h : Kids cs l) :
    ∃ ds c t, cs = ds ++ [c] ∧ Item (c.map Leaf.text) t := by
  cases h with
  | one h => exact ⟨[], _, _, rfl, h⟩
  | snoc h1 h2 => exact ⟨_ ++ [_], _, _, by rw [List.append_assoc]; rfl, h2⟩

theorem _root_.Verif.AutoImport.Spec.Kids.items {cs : List Child} {l : List Target} (h : Kids cs l) : Items (cs.flatten.map Leaf.text) l := by
  induction h with
  | one h => simpa using Items.one h
  | snoc h1 h2 ih =>
    have := Items.snoc ih h2
    simpa using this

theorem _root_.Verif.AutoImport.Spec.Item.head {c : Child} {t : Target} (h : Item (c.map Leaf.text) t) (x : Char) (hx : x = '(' ∨ x = ',') :
    childCode c ≠ [x] := by
  cases c with
  | nil => cases h
  | cons l ls =>
    intro hc
    simp only [childCode] at hc
    have hn : IsName l.text := by
      generalize hts : (l :: ls).map Leaf.text = ts at h
      cases h with
      | plain _ h => simp at hts; rw [hts.1]; exact h
      | as _ _ h _ => simp at hts; rw [hts.1]; exact h
    cases ht : l.text with
    | nil => exact hn.1 ht
    | cons y ys =>
      rw [ht] at hc
      simp only [List.cons_append, List.cons.injEq] at hc
      have := hn.2 y (by rw [ht]; simp)
      rw [hc.1] at this
      rcases hx with rfl | rfl
      · exact this.1 rfl
      · exact this.2.2.1 rfl

theorem _root_.Verif.AutoImport.Spec.Kids.first {cs : List Child} {l : List Target} (h : Kids cs l) : ∃ c ds t, cs = c :: ds ∧ Item (c.map Leaf.text) t := by
  induction h with
  | one h => exact ⟨_, [], _, rfl, h⟩
  | snoc _ _ ih =>
    obtain ⟨c, ds, t, rfl, h⟩ := ih
    exact ⟨c, _, t, rfl, h⟩

/-! ## C206: adding a name to an import -/

/-- The name is added as the last target, and there is whitespace before it. -/
theorem merged (i : ImportFrom) (l : List Target) (hi : Tree i.targets l) (name : List Char) (hn : IsName name) :
    ∃ idx add leaves, insertionPoint i name = some (idx, add) ∧
      insertAt idx add (code (i.head ++ i.targets.flatten)) = code (i.head ++ leaves) ∧
      Targets (leaves.map Leaf.text) (l ++ [(name, none)]) ∧ ⟨[' '], name⟩ ∈ leaves ∧
      (i.targets.flatten.map Leaf.text).Sublist (leaves.map Leaf.text) := by
  have happ : ∀ {cs : List Child} {l : List Target}, Kids cs l →
      Items (cs.flatten.map Leaf.text ++ [','] :: [name]) (l ++ [(name, none)]) :=
    fun h => Items.snoc (Kids.items h) (Item.plain _ hn)
  obtain ⟨head, targets⟩ := i
  simp only at hi
  cases hi with
  | plain hk =>
    obtain ⟨c, ds, t, rfl, ht⟩ := hk.first
    refine ⟨(code (head ++ (c :: ds).flatten)).length, [',', ' '] ++ name, (c :: ds).flatten ++ [⟨[], [',']⟩, ⟨[' '], name⟩], ?_, ?_, ?_, ?_, ?_⟩
    · simp only [insertionPoint]
      rw [if_neg (Item.head ht '(' (.inl rfl))]
    · have := insertAt_append (code (head ++ (c :: ds).flatten)) [] ([',', ' '] ++ name)
      rw [List.append_nil] at this
      rw [this, ← List.append_assoc, code_append]
      simp [code]
    · simpa using Targets.plain (happ hk)
    · simp
    · rw [List.map_append]
      exact List.sublist_append_left ..
  | @paren p q cs _ hk =>
    obtain ⟨ds, c, t, rfl, ht⟩ := hk.last
    refine ⟨(code (head ++ ([⟨p, ['(']⟩] :: (ds ++ [c])).flatten)).length, [',', ' '] ++ name,
      ⟨p, ['(']⟩ :: ((ds ++ [c]).flatten ++ [⟨[], [',']⟩, ⟨[' '], name⟩] ++ [⟨q, [')']⟩]), ?_, ?_, ?_, by simp, ?_⟩
    · simp only [insertionPoint, List.cons_append]
      rw [if_pos (by simp [childCode, code])]
      have h2 : secondLast ([⟨p, ['(']⟩] :: (ds ++ [c] ++ [[⟨q, [')']⟩]])) = some c := by
        have := secondLast_snoc ([⟨p, ['(']⟩] :: ds) c [⟨q, [')']⟩]
        simpa using this
      have h3 : ([⟨p, ['(']⟩] :: (ds ++ [c] ++ [[⟨q, [')']⟩]]) : List Child).dropLast = [⟨p, ['(']⟩] :: (ds ++ [c]) := by
        rw [← List.cons_append, List.dropLast_concat]
      rw [h2]
      simp only
      rw [if_neg (Item.head ht ',' (.inr rfl)), h3]
    · have h4 : code (head ++ ([⟨p, ['(']⟩] :: (ds ++ [c]) ++ [[⟨q, [')']⟩]] : List Child).flatten) =
          code (head ++ ([⟨p, ['(']⟩] :: (ds ++ [c])).flatten) ++ (q ++ [')']) := by
        simp [code]
      simp only
      rw [h4, insertAt_append]
      simp [code]
    · have := Targets.paren (happ hk)
      simpa using this
    · have : ([⟨p, ['(']⟩] :: (ds ++ [c]) ++ [[⟨q, [')']⟩]] : List Child).flatten.map Leaf.text =
          ['('] :: ((ds ++ [c]).flatten.map Leaf.text ++ [[')']]) := by simp
      rw [this]
      simp only [List.map_cons, List.map_append, List.append_assoc]
      refine .cons_cons _ (List.Sublist.append (List.Sublist.refl _) ?_)
      simp
  | @comma p q r cs _ hk =>
    have h2 : secondLast ([⟨p, ['(']⟩] :: (cs ++ [[⟨r, [',']⟩], [⟨q, [')']⟩]])) = some [⟨r, [',']⟩] := by
      have := secondLast_snoc ([⟨p, ['(']⟩] :: cs) [⟨r, [',']⟩] [⟨q, [')']⟩]
      simpa using this
    have h3 : ([⟨p, ['(']⟩] :: (cs ++ [[⟨r, [',']⟩], [⟨q, [')']⟩]]) : List Child).dropLast =
        [⟨p, ['(']⟩] :: (cs ++ [[⟨r, [',']⟩]]) := by
      have : ([⟨p, ['(']⟩] :: (cs ++ [[⟨r, [',']⟩], [⟨q, [')']⟩]]) : List Child) =
          ([⟨p, ['(']⟩] :: (cs ++ [[⟨r, [',']⟩]])) ++ [[⟨q, [')']⟩]] := by simp
      rw [this, List.dropLast_concat]
    have h4 : suffix ([⟨p, ['(']⟩] :: (cs ++ [[⟨r, [',']⟩], [⟨q, [')']⟩]])) = q := by
      have : ([⟨p, ['(']⟩] :: (cs ++ [[⟨r, [',']⟩], [⟨q, [')']⟩]]) : List Child) =
          ([⟨p, ['(']⟩] :: (cs ++ [[⟨r, [',']⟩]])) ++ [[⟨q, [')']⟩]] := by simp
      rw [this]
      unfold suffix
      rw [List.getLast?_append]
      rfl
    have h5 : code (head ++ ([⟨p, ['(']⟩] :: (cs ++ [[⟨r, [',']⟩], [⟨q, [')']⟩]]) : List Child).flatten) =
        code (head ++ ([⟨p, ['(']⟩] :: (cs ++ [[⟨r, [',']⟩]])).flatten) ++ (q ++ [')']) := by
      simp [code]
    have hT : ∀ q' : List Char, Targets ((⟨p, ['(']⟩ :: (cs.flatten ++ [⟨r, [',']⟩, ⟨[' '], name⟩, ⟨q', [')']⟩])).map Leaf.text)
        (l ++ [(name, none)]) := by
      intro q'
      have := Targets.paren (happ hk)
      simpa using this
    have hS : ∀ q' : List Char, (([⟨p, ['(']⟩] :: cs ++ [[⟨r, [',']⟩], [⟨q, [')']⟩]] : List Child).flatten.map Leaf.text).Sublist
        ((⟨p, ['(']⟩ :: (cs.flatten ++ [⟨r, [',']⟩, ⟨[' '], name⟩, ⟨q', [')']⟩])).map Leaf.text) := by
      intro q'
      have : ([⟨p, ['(']⟩] :: cs ++ [[⟨r, [',']⟩], [⟨q, [')']⟩]] : List Child).flatten.map Leaf.text =
          ['('] :: (cs.flatten.map Leaf.text ++ [[','], [')']]) := by simp
      rw [this]
      simp only [List.map_cons, List.map_append]
      refine .cons_cons _ (List.Sublist.append (List.Sublist.refl _) ?_)
      simp
    by_cases hs : q.head? = some ' '
    · obtain ⟨q', rfl⟩ : ∃ q', q = ' ' :: q' := by
        cases q with
        | nil => simp at hs
        | cons x xs => simp at hs; exact ⟨xs, by rw [hs]⟩
      refine ⟨(code (head ++ ([⟨p, ['(']⟩] :: (cs ++ [[⟨r, [',']⟩]])).flatten)).length + 1, name,
        ⟨p, ['(']⟩ :: (cs.flatten ++ [⟨r, [',']⟩, ⟨[' '], name⟩, ⟨q', [')']⟩]), ?_, ?_, hT q', by simp, hS q'⟩
      · simp only [insertionPoint, List.cons_append]
        rw [if_pos (by simp [childCode, code]), h2]
        simp only
        rw [if_pos (by simp [childCode, code]), h3, h4, if_pos hs]
      · have h6 : code (head ++ ([⟨p, ['(']⟩] :: (cs ++ [[⟨r, [',']⟩], [⟨' ' :: q', [')']⟩]]) : List Child).flatten) =
            (code (head ++ ([⟨p, ['(']⟩] :: (cs ++ [[⟨r, [',']⟩]])).flatten) ++ [' ']) ++ (q' ++ [')']) := by
          rw [h5]; simp
        have h7 := insertAt_append (code (head ++ ([⟨p, ['(']⟩] :: (cs ++ [[⟨r, [',']⟩]])).flatten) ++ [' ']) (q' ++ [')']) name
        rw [List.length_append] at h7
        rw [List.cons_append, h6]
        refine h7.trans ?_
        simp [code]
    · refine ⟨(code (head ++ ([⟨p, ['(']⟩] :: (cs ++ [[⟨r, [',']⟩]])).flatten)).length, ' ' :: name,
        ⟨p, ['(']⟩ :: (cs.flatten ++ [⟨r, [',']⟩, ⟨[' '], name⟩, ⟨q, [')']⟩]), ?_, ?_, hT q, by simp, hS q⟩
      · simp only [insertionPoint, List.cons_append]
        rw [if_pos (by simp [childCode, code]), h2]
        simp only
        rw [if_pos (by simp [childCode, code]), h3, h4, if_neg hs]
      · rw [List.cons_append, h5, insertAt_append]
        simp [code]

/-- `from x import (a, b)` -/
example : insertionPoint ⟨[⟨[], "from".toList⟩, ⟨[' '], ['x']⟩, ⟨[' '], "import".toList⟩],
    [[⟨[' '], ['(']⟩], [⟨[], ['a']⟩], [⟨[], [',']⟩], [⟨[' '], ['b']⟩], [⟨[], [')']⟩]]⟩ ['c'] = some (19, ", c".toList) := by
  decide +kernel

/-- The full statement: for every import, also those with a star. -/
def Merged : Prop :=
  ∀ (i : ImportFrom) (name : List Char), IsName name →
    (i.targets.flatten.map Leaf.text = [['*']] ∨ ∃ l, Tree i.targets l) →
    ∃ idx add leaves, insertionPoint i name = some (idx, add) ∧
      insertAt idx add (code (i.head ++ i.targets.flatten)) = code (i.head ++ leaves) ∧
      (∃ l, Targets (leaves.map Leaf.text) l) ∧ (i.targets.flatten.map Leaf.text).Sublist (leaves.map Leaf.text)

/-- If the file has `from x import *` and `_b` is private in `x`, then the code action results in `from x import *, _b`,
which is a syntax error. -/
theorem merged_violation : ¬ Merged := by
  intro h
  obtain ⟨idx, add, leaves, -, -, ⟨l, ht⟩, hs⟩ := h ⟨[], [[⟨[], ['*']⟩]]⟩ ['b'] ⟨by simp, by decide⟩ (.inl rfl)
  have hmem : ['*'] ∈ leaves.map Leaf.text := hs.subset (by simp)
  have hname : ∀ n, IsName n → ['*'] ≠ n := by
    rintro n hn rfl
    exact (hn.2 '*' (by simp)).2.2.2.1 rfl
  have hitem : ∀ {ts : List (List Char)} {t : Target}, Item ts t → ['*'] ∉ ts := by
    intro ts t h
    cases h with
    | plain n h => simpa using hname n h
    | as n m h1 h2 => simpa using ⟨hname n h1, hname m h2⟩
  have hitems : ∀ {ts : List (List Char)} {l : List Target}, Items ts l → ['*'] ∉ ts := by
    intro ts l h
    induction h with
    | one h => exact hitem h
    | snoc _ h ih => simpa using ⟨ih, hitem h⟩
  generalize leaves.map Leaf.text = ts at ht hmem
  cases ht with
  | plain h => exact hitems h hmem
  | paren h => exact hitems h (by simpa using hmem)
  | comma h => exact hitems h (by simpa using hmem)

/-! ## C207: the import that gets the name -/

/-- The import that gets the name imports from the right file. -/
theorem choose_file (imps : List Imp) (u : Use) (file : Nat) (i : Imp) (h : choose imps u.index u.inFunction file = some i) :
    i ∈ imps ∧ i.file = some file ∧ i.inGlobalScope = true := by
  have h1 := List.mem_of_find?_eq_some h
  have h2 := List.find?_some h
  simp only [Bool.and_eq_true, beq_iff_eq] at h2
  exact ⟨h1, h2.2, h2.1.1⟩

/-- If no import gets the name, then there is none before it. -/
theorem choose_none (imps : List Imp) (u : Use) (file : Nat) (h : choose imps u.index u.inFunction file = none) :
    ∀ i ∈ imps, i.inGlobalScope = true → i.file = some file → u.index ≤ i.index := by
  intro i hi hg hf
  have := List.find?_eq_none.1 h i hi
  simp [hg, hf] at this
  exact this.1

/-- If the name is not in a function and the import is executed whenever the name is used, then the name is bound. -/
theorem choose_bound_partial (p : Prog) (imps : List Imp) (u : Use) (hu : u.Ok) (file : Nat) (i : Imp)
    (h : choose imps u.index u.inFunction file = some i) (hf : u.inFunction = false)
    (hg : ∀ g ∈ p.guards i.index, g ∈ p.guards u.index) : Bound p u i := by
  have h2 := List.find?_some h
  simp only [Bool.and_eq_true, Bool.or_eq_true, decide_eq_true_eq, hf] at h2
  intro env hr
  refine ⟨fun g hg' => hr g (hg g hg'), ?_⟩
  rw [hu hf]
  rcases h2.1.2 with h2 | h2
  · exact h2
  · simp at h2

/-- The full statement: for every program. -/
def ChooseBound : Prop :=
  ∀ (p : Prog) (imps : List Imp) (u : Use), u.Ok → ∀ (file : Nat) (i : Imp),
    choose imps u.index u.inFunction file = some i → Bound p u i

/-- `if TYPE_CHECKING: from x import a` also gets a name that is used at run time. -/
theorem choose_bound_violation : ¬ ChooseBound := by
  intro h
  have := h ⟨fun n => if n = 1 then [(0, true)] else []⟩ [⟨1, true, some 7⟩] ⟨5, false, 5⟩ (fun _ => rfl) 7 ⟨1, true, some 7⟩
    (by decide) (fun _ => false) (by intro g hg; simp at hg)
  have := this.1 (0, true) (by simp)
  simp at this

/-- A name in a function is added to an import after the function, even if the function is called before the import. -/
theorem choose_function_violation : ¬ ChooseBound := by
  intro h
  have := (h ⟨fun _ => []⟩ [⟨9, true, some 7⟩] ⟨3, true, 6⟩ (by intro h; simp at h) 7 ⟨9, true, some 7⟩ (by decide) (fun _ => false)
    (by intro g hg; simp at hg)).2
  simp at this

example : choose [⟨1, true, some 7⟩] 5 false 7 = some ⟨1, true, some 7⟩ := by decide

/-! ## Lemmas about positions -/

theorem scan_some (cs : List Char) (i last r : Nat) (h : scan cs i last = some r) :
    r = last ∨ ∃ j, r = i + j ∧ cs[j]? = some '\n' := by
  induction cs generalizing i last with
  | nil => simp [scan] at h
  | cons c cs ih =>
    simp only [scan] at h
    split at h
    · rename_i hc
      rcases ih _ _ h with h | ⟨j, h, hj⟩
      · exact .inr ⟨0, by omega, by simp [hc]⟩
      · exact .inr ⟨j + 1, by omega, by simpa using hj⟩
    · split at h
      · cases h; exact .inl rfl
      · rcases ih _ _ h with h | ⟨j, h, hj⟩
        · exact .inl h
        · exact .inr ⟨j + 1, by omega, by simpa using hj⟩

/-- The end of the imports before the first statement is the beginning of a line. -/
theorem endBefore_zero (pre : List Char) (hp : AtLineStart pre) :
    ∃ p q, pre = p ++ q ∧ endBefore 0 0 pre = p.length ∧ AtLineStart p := by
  unfold endBefore
  rw [if_pos rfl]
  cases h : scan pre.reverse 0 0 with
  | none => exact ⟨[], pre, rfl, rfl, .inl rfl⟩
  | some r =>
    simp only
    rcases scan_some _ _ _ _ h with rfl | ⟨j, rfl, hj⟩
    · exact ⟨pre, [], by simp, by simp, hp⟩
    · have hlt : j < pre.length := by
        have := (List.getElem?_eq_some_iff.1 hj).1
        simpa using this
      refine ⟨pre.take (pre.length - j), pre.drop (pre.length - j), (List.take_append_drop _ _).symm, ?_, .inr ?_⟩
      · simp
      · rw [List.getElem?_reverse (by omega)] at hj
        rw [List.getLast?_eq_getElem?, List.length_take, List.getElem?_take]
        have : min (pre.length - j) pre.length - 1 = pre.length - 1 - j := by omega
        rw [this, if_pos (by omega), hj]

theorem endBefore_le (i off : Nat) (pre : List Char) : endBefore i off pre ≤ off + pre.length := by
  unfold endBefore
  split
  · split <;> omega
  · omega

theorem simplePos_ge (off : Nat) (s : Simple) : ∀ p ∈ simplePos off s, off ≤ p.start := by
  intro p hp
  unfold simplePos at hp
  split at hp
  · simp at hp; subst hp; exact Nat.le_refl _
  · simp at hp

theorem morePos_ge (off : Nat) (more : List (List Char × Simple)) : ∀ p ∈ morePos off more, off ≤ p.start := by
  induction more generalizing off with
  | nil => simp [morePos]
  | cons m rest ih =>
    intro p hp
    simp only [morePos, List.mem_append] at hp
    rcases hp with hp | hp
    · have := simplePos_ge _ _ p hp; omega
    · have := ih _ p hp; omega

theorem stmtPos_ge (off : Nat) (s : Stmt) : ∀ p ∈ stmtPos off s, off + s.pre.length ≤ p.start := by
  intro p hp
  unfold stmtPos at hp
  split at hp
  · rcases List.mem_append.1 hp with hp | hp
    · exact simplePos_ge _ _ p hp
    · have := morePos_ge _ _ p hp; omega
  · simp at hp

theorem allPos_ge (off : Nat) (stmts : List Stmt) : ∀ p ∈ allPos off stmts, off ≤ p.start := by
  induction stmts generalizing off with
  | nil => simp [allPos]
  | cons s rest ih =>
    intro p hp
    simp only [allPos, List.mem_append] at hp
    rcases hp with hp | hp
    · have := stmtPos_ge _ _ p hp; omega
    · have := ih _ p hp; omega

theorem positionLoop_stop (text : List Char) (eoi : Nat) (auto : Kind) (prev : Option (Kind × Nat)) (ps : List Pos)
    (h : ∀ p ∈ ps, eoi ≤ p.start) : positionLoop text eoi auto prev ps = finish eoi auto prev := by
  cases ps with
  | nil => rfl
  | cons p ps =>
    unfold positionLoop
    rw [if_pos (h p (List.mem_cons_self ..))]

theorem text_length (s : Stmt) : s.text.length = s.pre.length + s.body.text.length + s.nl.length := by
  simp [Stmt.text]; omega

/-- The line of a plain statement ends where the next statement begins. -/
theorem newlineEnd_plain (X Y : List Char) (s : Stmt) (first : Simple) (tail : List Char) (hb : s.body = .simple first [] tail)
    (ht : '\n' ∉ tail) (hn : s.nl = ['\n'] ∨ s.nl = ['\r', '\n']) :
    newlineEnd (X ++ (s.text ++ Y)) (X.length + s.pre.length + first.text.length) = X.length + s.text.length := by
  have hd : (X ++ (s.text ++ Y)).drop (X.length + s.pre.length + first.text.length) = tail ++ (s.nl ++ Y) := by
    have : X ++ (s.text ++ Y) = (X ++ s.pre ++ first.text) ++ (tail ++ (s.nl ++ Y)) := by
      simp [Stmt.text, hb, Body.text, moreText]
    rw [this]
    have hl : X.length + s.pre.length + first.text.length = (X ++ s.pre ++ first.text).length := by simp; omega
    rw [hl, List.drop_left]
  have htail : tail.findIdx? (· == '\n') = none := by
    rw [List.findIdx?_eq_none_iff]
    intro x hx
    simp only [beq_eq_false_iff_ne, ne_eq]
    rintro rfl
    exact ht hx
  unfold newlineEnd
  rw [hd, List.findIdx?_append, htail]
  rw [text_length, hb]
  rcases hn with hn | hn <;> rw [hn] <;> simp [List.findIdx?_cons, Body.text, moreText] <;> omega

theorem flatMap_length_pos {s : Stmt} (h : Plain s) : 0 < s.text.length := by
  rw [text_length]
  rcases h.nl with h | h <;> rw [h] <;> simp

theorem plain_end {s : Stmt} (h : Plain s) : s.text.getLast? = some '\n' := by
  unfold Stmt.text
  rcases h.nl with h | h <;> rw [h] <;> simp [List.getLast?_append]

theorem atLineStart_of_plain (A : List Stmt) (h : ∀ a ∈ A, Plain a) : AtLineStart (A.flatMap Stmt.text) := by
  cases hA : A.reverse with
  | nil => rw [List.reverse_eq_nil_iff] at hA; subst hA; exact .inl rfl
  | cons a A' =>
    have : A = A'.reverse ++ [a] := by rw [← List.reverse_reverse A, hA]; simp
    subst this
    right
    simp only [List.flatMap_append, List.flatMap_cons, List.flatMap_nil, List.append_nil]
    rw [List.getLast?_append, plain_end (h a (by simp))]
    rfl

/-- The imports at the beginning are found. -/
theorem endOfImports_file (endPre : List Char) (init : List Stmt) (s : Stmt) (rest : List Stmt) (h : File init s) :
    endOfImports endPre 0 0 (init ++ s :: rest) = endBefore init.length (init.flatMap Stmt.text).length s.pre := by
  have hstop : isImport init.length s = false := by
    have := h.stops
    unfold Stops at this
    unfold isImport
    cases hb : s.body with
    | simple first more tail =>
      simp only [hb] at this
      rcases this with h | ⟨h, hi⟩
      · simp [allImports, h]
      · have : init ≠ [] := fun h0 => hi (by rw [h0]; rfl)
        simp [allImports, h, this]
    | compound t => rfl
  have gen : ∀ (ss : List Stmt) (i off : Nat), (∀ x ∈ ss, Plain x) →
      (∀ k x, ss[k]? = some x → i + k ≠ 0 → ∀ first more tail, x.body = .simple first more tail → first.kind ≠ .str) →
      i + ss.length = init.length →
      endOfImports endPre i off (ss ++ s :: rest) = endBefore init.length (off + (ss.flatMap Stmt.text).length) s.pre := by
    intro ss
    induction ss with
    | nil =>
      intro i off _ _ hl
      simp at hl
      subst hl
      simp [endOfImports, hstop]
    | cons x ss ih =>
      intro i off hp hs hl
      have hx : isImport i x = true := by
        obtain ⟨first, tail, hb, hk, _⟩ := (hp x (by simp)).body
        have := hs 0 x rfl
        unfold isImport
        rw [hb]
        cases hf : first.kind with
        | imp k => simp [allImports, hf]
        | other => exact absurd hf hk
        | str =>
          simp only [allImports, hf, beq_iff_eq]
          by_cases hi : i = 0
          · exact hi
          · exact absurd hf (this (by omega) _ _ _ hb)
      rw [List.cons_append, endOfImports, if_pos hx,
        ih (i + 1) _ (fun y hy => hp y (by simp [hy])) (fun k y hk hne => hs (k + 1) y (by simpa using hk) (by omega))
          (by simp at hl; omega)]
      simp [Nat.add_assoc]
  have := gen init 0 0 h.plain ?_ (by simp)
  · simpa using this
  · intro k x hk hne first more tail hb
    refine h.str x ?_ first more tail hb
    cases init with
    | nil => simp at hk
    | cons y ys =>
      cases k with
      | zero => simp at hne
      | succ k => exact List.mem_of_getElem? (by simpa using hk)

/-! ## C208: the position of a new import -/

/-- The position is between imports, at the beginning of a line. `A` are the imports before it, `C` those after it. -/
structure Boundary (init : List Stmt) (s : Stmt) (rest : List Stmt) (auto : Kind) (pos : Nat) (A C : List Stmt) (p : List Char) :
    Prop where
  split : init = A ++ C
  pos : pos = (A.flatMap Stmt.text ++ p).length
  start : AtLineStart (A.flatMap Stmt.text ++ p)
  next : ∃ x B q, C ++ s :: rest = x :: B ∧ x.pre = p ++ q
  before : ∀ a ∈ A, ∀ k ∈ kinds a, k.rank ≤ auto.rank
  after : ∀ k, (C.flatMap kinds).head? = some k → auto.rank < k.rank

theorem kinds_plain {x : Stmt} {first : Simple} {tail : List Char} (hb : x.body = .simple first [] tail) :
    kinds x = match first.kind with | .imp (some k) => [k] | _ => [] := by
  unfold kinds
  rw [hb]
  cases hf : first.kind with
  | imp k => cases k <;> simp [hf]
  | str => simp [hf]
  | other => simp [hf]

theorem boundary (endPre : List Char) (init : List Stmt) (s : Stmt) (rest : List Stmt) (auto : Kind) (h : File init s) :
    ∃ A C p, Boundary init s rest auto (position (init ++ s :: rest) endPre auto).1 A C p := by
  unfold position
  rw [endOfImports_file endPre init s rest h]
  generalize heoi : endBefore init.length (init.flatMap Stmt.text).length s.pre = eoi
  -- nothing after the imports is looked at
  have hafter : ∀ p ∈ allPos (init.flatMap Stmt.text).length (s :: rest), eoi ≤ p.start := by
    intro p hp
    simp only [allPos, List.mem_append] at hp
    have := endBefore_le init.length (init.flatMap Stmt.text).length s.pre
    rcases hp with hp | hp
    · have := stmtPos_ge _ _ p hp; omega
    · have h1 := allPos_ge _ _ p hp
      rw [text_length] at h1
      omega
  have heoi2 : init ≠ [] → eoi = (init.flatMap Stmt.text).length := by
    intro hne
    rw [← heoi, endBefore, if_neg]
    intro h0
    exact hne (List.length_eq_zero_iff.1 h0)
  -- the state of the loop
  have gen : ∀ (ss done : List Stmt) (prev : Option (Kind × Nat)), init = done ++ ss →
      (match prev with
        | none => ∀ a ∈ done, kinds a = []
        | some (k, q) => ∃ A C, done = A ++ C ∧ q = (A.flatMap Stmt.text).length ∧ (∀ c ∈ C, kinds c = []) ∧
            A ≠ [] ∧ ∀ a ∈ A, ∀ k ∈ kinds a, k.rank ≤ auto.rank) →
      ∃ A C p, Boundary init s rest auto (positionLoop (render (init ++ s :: rest) endPre) eoi auto prev
        (allPos (done.flatMap Stmt.text).length (ss ++ s :: rest))).1 A C p := by
    intro ss
    induction ss with
    | nil =>
      intro done prev hd hprev
      simp only [List.append_nil] at hd
      subst hd
      rw [List.nil_append, positionLoop_stop _ _ _ _ _ hafter]
      cases prev with
      | none =>
        have hk : (init.flatMap kinds) = [] := by simpa using hprev
        cases hi : init with
        | nil =>
          subst hi
          obtain ⟨p, q, hp, he, hs⟩ := endBefore_zero s.pre h.pre
          refine ⟨[], [], p, ⟨rfl, ?_, by simpa using hs, ⟨s, rest, q, rfl, hp⟩, by simp, by simp⟩⟩
          simp only [finish]
          rw [← heoi]
          simpa using he
        | cons y ys =>
          rw [← hi]
          refine ⟨init, [], [], ⟨by simp, ?_, ?_, ⟨s, rest, s.pre, rfl, rfl⟩, ?_, by simp⟩⟩
          · simp only [finish, List.append_nil]
            exact heoi2 (by rw [hi]; simp)
          · rw [List.append_nil]; exact atLineStart_of_plain _ h.plain
          · intro a ha k hk'
            rw [hprev a ha] at hk'
            simp at hk'
      | some kq =>
        obtain ⟨k, q⟩ := kq
        obtain ⟨A, C, hdone, hq, hC, hA, hle⟩ := hprev
        have hCk : C.flatMap kinds = [] := by simpa using hC
        have hpl : ∀ a ∈ A, Plain a := fun a ha => h.plain a (by rw [hdone]; simp [ha])
        refine ⟨A, C, [], ⟨hdone, by simp [finish, hq], ?_, ?_, hle, ?_⟩⟩
        · rw [List.append_nil]; exact atLineStart_of_plain _ hpl
        · cases C with
          | nil => exact ⟨s, rest, s.pre, rfl, rfl⟩
          | cons c cs => exact ⟨c, cs ++ s :: rest, c.pre, rfl, rfl⟩
        · intro k hk; rw [hCk] at hk; simp at hk
    | cons x ss ih =>
      intro done prev hd hprev
      have hx : Plain x := h.plain x (by rw [hd]; simp)
      obtain ⟨first, tail, hb, hfk, htail, hft⟩ := hx.body
      have hkx := kinds_plain hb
      have hpos : stmtPos (done.flatMap Stmt.text).length x =
          simplePos ((done.flatMap Stmt.text).length + x.pre.length) first := by
        simp [stmtPos, hb, morePos]
      have hd' : init = (done ++ [x]) ++ ss := by rw [hd]; simp
      have hlen : ((done ++ [x]).flatMap Stmt.text).length = (done.flatMap Stmt.text).length + x.text.length := by simp
      rw [List.cons_append, allPos, hpos]
      have hskip : ∀ (prev : Option (Kind × Nat)), kinds x = [] →
          (match prev with
            | none => ∀ a ∈ done, kinds a = []
            | some (k, q) => ∃ A C, done = A ++ C ∧ q = (A.flatMap Stmt.text).length ∧ (∀ c ∈ C, kinds c = []) ∧
                A ≠ [] ∧ ∀ a ∈ A, ∀ k ∈ kinds a, k.rank ≤ auto.rank) →
          ∃ A C p, Boundary init s rest auto (positionLoop (render (init ++ s :: rest) endPre) eoi auto prev
            (allPos ((done.flatMap Stmt.text).length + x.text.length) (ss ++ s :: rest))).1 A C p := by
        intro prev hk hprev
        rw [← hlen]
        refine ih (done ++ [x]) prev hd' ?_
        cases prev with
        | none =>
          intro a ha
          rcases List.mem_append.1 ha with ha | ha
          · exact hprev a ha
          · simp at ha; subst ha; exact hk
        | some kq =>
          obtain ⟨A, C, hdone, hq, hC, hA, hle⟩ := hprev
          refine ⟨A, C ++ [x], by rw [hdone]; simp, hq, ?_, hA, hle⟩
          intro c hc
          rcases List.mem_append.1 hc with hc | hc
          · exact hC c hc
          · simp at hc; subst hc; exact hk
      cases hf : first.kind with
      | other => exact absurd hf hfk
      | str =>
        rw [hf] at hkx
        simp only [simplePos, hf, List.nil_append]
        exact hskip prev hkx hprev
      | imp k =>
        rw [hf] at hkx
        simp only [simplePos, hf, List.cons_append, List.nil_append]
        have hlt : ¬ eoi ≤ (done.flatMap Stmt.text).length + x.pre.length := by
          rw [heoi2 (by rw [hd]; simp), hd]
          simp only [List.flatMap_append, List.flatMap_cons, List.length_append, text_length, hb, Body.text, moreText]
          have : 0 < first.text.length := List.length_pos_iff.2 hft
          omega
        unfold positionLoop
        simp only
        rw [if_neg hlt]
        cases k with
        | none => exact hskip prev hkx hprev
        | some k =>
          simp only at hkx ⊢
          split
          · rename_i hgt
            cases prev with
            | none =>
              have hpl : ∀ a ∈ done, Plain a := fun a ha => h.plain a (by rw [hd]; simp [ha])
              refine ⟨done, x :: ss, x.pre, ⟨hd, by simp, ?_, ⟨x, ss ++ s :: rest, [], rfl, by simp⟩, ?_, ?_⟩⟩
              · rcases hx.pre with hp | hp
                · rw [hp, List.append_nil]; exact atLineStart_of_plain _ hpl
                · right; rw [List.getLast?_append, hp]; rfl
              · intro a ha k hk
                rw [hprev a ha] at hk
                simp at hk
              · intro k' hk'
                simp [hkx] at hk'
                subst hk'; exact hgt
            | some kq =>
              obtain ⟨pk, q⟩ := kq
              obtain ⟨A, C, hdone, hq, hC, hA, hle⟩ := hprev
              have hpl : ∀ a ∈ A, Plain a := fun a ha => h.plain a (by rw [hd, hdone]; simp [ha])
              have hCk : C.flatMap kinds = [] := by simpa using hC
              refine ⟨A, C ++ x :: ss, [], ⟨by rw [hd, hdone]; simp, by simp [hq], ?_, ?_, hle, ?_⟩⟩
              · rw [List.append_nil]; exact atLineStart_of_plain _ hpl
              · cases C with
                | nil => exact ⟨x, ss ++ s :: rest, x.pre, rfl, rfl⟩
                | cons c cs => exact ⟨c, cs ++ x :: ss ++ s :: rest, c.pre, by simp, rfl⟩
              · intro k' hk'
                rw [List.flatMap_append, hCk] at hk'
                simp [hkx] at hk'
                subst hk'; exact hgt
          · rename_i hle'
            have hnl : newlineEnd (render (init ++ s :: rest) endPre)
                ((done.flatMap Stmt.text).length + x.pre.length + first.text.length) =
                ((done ++ [x]).flatMap Stmt.text).length := by
              have hr : render (init ++ s :: rest) endPre = done.flatMap Stmt.text ++ (x.text ++
                  (ss.flatMap Stmt.text ++ (s :: rest).flatMap Stmt.text ++ endPre)) := by
                rw [hd]; simp [render]
              rw [hr, newlineEnd_plain _ _ x first tail hb htail hx.nl, hlen]
            rw [hnl, ← hlen]
            refine ih (done ++ [x]) _ hd' ⟨done ++ [x], [], by simp, rfl, by simp, by simp, ?_⟩
            intro a ha k' hk'
            rcases List.mem_append.1 ha with ha | ha
            · cases prev with
              | none => rw [hprev a ha] at hk'; simp at hk'
              | some kq =>
                obtain ⟨A, C, hdone, hq, hC, hA, hle⟩ := hprev
                rw [hdone] at ha
                rcases List.mem_append.1 ha with ha | ha
                · exact hle a ha k' hk'
                · rw [hC a ha] at hk'; simp at hk'
            · simp at ha; subst ha
              rw [hkx] at hk'
              simp at hk'
              subst hk'
              omega
  have := gen init [] none (by simp) (by simp)
  simpa using this

/-- The new import is a statement of its own, before everything but imports and the first string. -/
theorem added_partial (endPre line : List Char) (init : List Stmt) (s : Stmt) (rest : List Stmt) (auto : Kind)
    (h : File init s) : Added (init ++ s :: rest) endPre line (edited (init ++ s :: rest) endPre auto line) := by
  obtain ⟨A, C, p, hB⟩ := boundary endPre init s rest auto h
  obtain ⟨x, B, q, hx, hq⟩ := hB.next
  unfold edited
  simp only
  generalize position (init ++ s :: rest) endPre auto = r at hB
  generalize hmore : moreNewline (render (init ++ s :: rest) endPre) r.1 = more
  have hsplit : init ++ s :: rest = A ++ x :: B := by rw [hB.split, List.append_assoc, hx]
  refine ⟨A, x, B, p, q, if r.2 then ['\n'] else [], more, hsplit, hq, ?_, hB.start, ?_, ?_⟩
  · have hr : render (init ++ s :: rest) endPre =
        (A.flatMap Stmt.text ++ p) ++ (q ++ (x.body.text ++ x.nl) ++ (B.flatMap Stmt.text ++ endPre)) := by
      rw [hsplit]; simp [render, Stmt.text, hq]
    rw [hr, hB.pos, insertAt_append]
    simp [render, Stmt.text, newStmt, Body.text, moreText]
  · intro c hc
    rcases List.mem_append.1 hc with hc | hc
    · cases hr : r.2 <;> simp [hr] at hc; exact hc
    · rw [← hmore, moreNewline] at hc
      split at hc
      · split at hc <;> simp at hc; exact hc
      · simpa using hc
  · intro a ha
    obtain ⟨first, tail, hb, hk, _⟩ := (h.plain a (by rw [hB.split]; simp [ha])).body
    exact ⟨first, [], tail, hb, by simpa using hk⟩

/-- The full statement: for every file with a statement that is no import. -/
def AddedAlways : Prop :=
  ∀ (endPre line : List Char) (stmts : List Stmt) (auto : Kind), (∃ s ∈ stmts, ¬ Quiet s) →
    Added stmts endPre line (edited stmts endPre auto line)

namespace Example

def imp (t : String) (k : Kind) : Simple := ⟨t.toList, .imp (some k)⟩
def use : Stmt := ⟨[], .simple ⟨"foo".toList, .other⟩ [] [], ['\n']⟩

/-- `"doc"; foo` -/
def docUse : Stmt := ⟨[], .simple ⟨"'d'".toList, .str⟩ [("; ".toList, ⟨"foo".toList, .other⟩)] [], ['\n']⟩

/-- `import os; from x import (⏎a)` -/
def twoImports : Stmt :=
  ⟨[], .simple (imp "import os" .stdLib) [("; ".toList, imp "from x import (\na)" .project)] [], ['\n']⟩

theorem use_loud : ¬ Quiet use := by
  rintro ⟨first, more, tail, hb, h⟩
  simp only [use, Body.simple.injEq] at hb
  obtain ⟨rfl, -, -⟩ := hb
  exact h _ (List.mem_cons_self ..) rfl

theorem docUse_loud : ¬ Quiet docUse := by
  rintro ⟨first, more, tail, hb, h⟩
  simp only [docUse, Body.simple.injEq] at hb
  obtain ⟨-, rfl, -⟩ := hb
  exact h ⟨"foo".toList, .other⟩ (by simp) rfl

end Example

/-- In `"doc"; foo` the statement counts as a docstring, the import of `foo` is added after it. -/
theorem added_violation : ¬ AddedAlways := by
  intro h
  obtain ⟨A, s, B, p, q, nls, more, hs, hq, ht, -, hnl, hA⟩ :=
    h [] "import foo".toList [Example.docUse, Example.use] .project ⟨_, by simp, Example.use_loud⟩
  -- nothing can be before the import
  have hA0 : A = [] := by
    cases A with
    | nil => rfl
    | cons a A' =>
      simp only [List.cons_append, List.cons.injEq] at hs
      exact absurd (hs.1 ▸ hA a (List.mem_cons_self ..)) Example.docUse_loud
  subst hA0
  simp only [List.nil_append, List.cons.injEq] at hs
  obtain ⟨rfl, -⟩ := hs
  have hp : p = [] := by
    cases p with
    | nil => rfl
    | cons c p => simp [Example.docUse] at hq
  subst hp
  have hlhs : (edited [Example.docUse, Example.use] [] .project "import foo".toList).head? = some '\'' := by decide +kernel
  rw [ht] at hlhs
  cases nls with
  | nil => simp [render, Stmt.text, newStmt, Body.text] at hlhs
  | cons c cs =>
    simp [render, Stmt.text, newStmt] at hlhs
    have := hnl c (by simp)
    rw [hlhs] at this
    simp at this

/-- In `import os; from x import (⏎a)` the new import is added within the parentheses. -/
theorem added_inside_violation : ¬ AddedAlways := by
  intro h
  obtain ⟨A, s, B, p, q, nls, more, hs, hq, ht, -, hnl, hA⟩ :=
    h [] "import re".toList [Example.twoImports, Example.use] .stdLib ⟨_, by simp, Example.use_loud⟩
  have hlhs : edited [Example.twoImports, Example.use] [] .stdLib "import re".toList =
      "import os; from x import (\nimport re\n\na)\nfoo\n".toList := by decide +kernel
  rw [hlhs] at ht
  cases A with
  | nil =>
    simp only [List.nil_append, List.cons.injEq] at hs
    obtain ⟨rfl, -⟩ := hs
    have hp : p = [] := by
      cases p with
      | nil => rfl
      | cons c p => simp [Example.twoImports] at hq
    subst hp
    cases nls with
    | nil =>
      have := congrArg (·[7]?) ht
      simp [render, Stmt.text, newStmt, Body.text] at this
    | cons c cs =>
      have hc := hnl c (by simp)
      subst hc
      have := congrArg (·[0]?) ht
      simp [render, Stmt.text, newStmt] at this
  | cons a A =>
    simp only [List.cons_append, List.cons.injEq] at hs
    obtain ⟨rfl, hs⟩ := hs
    cases A with
    | nil =>
      have := congrArg (·[27]?) ht
      simp [render, Stmt.text, Body.text, moreText, Example.twoImports, Example.imp] at this
    | cons b A =>
      simp only [List.cons_append, List.cons.injEq] at hs
      obtain ⟨rfl, -⟩ := hs
      exact Example.use_loud (hA _ (by simp))

/-- `import os` with an old newline `\r`: the new import is added to the line. -/
example :
    edited [⟨[], .simple (Example.imp "import os" .stdLib) [] [], ['\r']⟩,
      { Example.use with nl := ['\r'] }] [] .stdLib "import re".toList = "import osimport re\n\rfoo\r".toList := by decide +kernel

/-- A file with a docstring, two imports and a comment. -/
def exampleInit : List Stmt :=
  [⟨"# x\n".toList, .simple ⟨"'d'".toList, .str⟩ [] [], ['\n']⟩,
   ⟨['\n'], .simple (Example.imp "import os" .stdLib) [] "  # c".toList, ['\r', '\n']⟩,
   ⟨['\n'], .simple (Example.imp "import x" .project) [] [], ['\n']⟩]

example : File exampleInit Example.use where
  plain := by
    intro x hx
    simp only [exampleInit, List.mem_cons, List.not_mem_nil, or_false] at hx
    rcases hx with rfl | rfl | rfl
    · exact ⟨⟨_, _, rfl, by simp, by simp, by decide⟩, .inl rfl, .inr (by decide)⟩
    · exact ⟨⟨_, _, rfl, by simp [Example.imp], by decide, by decide⟩, .inr rfl, .inr (by decide)⟩
    · exact ⟨⟨_, _, rfl, by simp [Example.imp], by simp, by decide⟩, .inl rfl, .inr (by decide)⟩
  str := by
    intro x hx first more tail hb
    simp only [exampleInit, List.tail_cons, List.mem_cons, List.not_mem_nil, or_false] at hx
    rcases hx with rfl | rfl <;> simp only [Body.simple.injEq] at hb <;> obtain ⟨rfl, -, -⟩ := hb <;> simp [Example.imp]
  stops := .inl rfl
  pre := .inl rfl

example : edited (exampleInit ++ [Example.use]) [] .thirdParty "import t".toList =
    "# x\n'd'\n\nimport os  # c\r\n\nimport t\n\nimport x\nfoo\n".toList := by decide +kernel

/-! ## C209: the order of the imports -/

theorem notAfter_iff (a b : Kind) : NotAfter a b ↔ a.rank ≤ b.rank := by
  cases a <;> cases b <;> decide

/-- If the imports are ordered, then they are ordered with the new one. -/
theorem ordered (endPre : List Char) (init : List Stmt) (s : Stmt) (rest : List Stmt) (auto : Kind) (h : File init s)
    (ho : (init.flatMap kinds).Pairwise NotAfter) :
    ∃ A C p, init = A ++ C ∧ (position (init ++ s :: rest) endPre auto).1 = (A.flatMap Stmt.text ++ p).length ∧
      (∃ x B q, C ++ s :: rest = x :: B ∧ x.pre = p ++ q) ∧
      (A.flatMap kinds ++ auto :: C.flatMap kinds).Pairwise NotAfter := by
  have hna : NotAfter = fun a b => a.rank ≤ b.rank := by funext a b; exact propext (notAfter_iff a b)
  rw [hna] at ho ⊢
  obtain ⟨A, C, p, hB⟩ := boundary endPre init s rest auto h
  refine ⟨A, C, p, hB.split, hB.pos, hB.next, ?_⟩
  rw [hB.split, List.flatMap_append, List.pairwise_append] at ho
  obtain ⟨h1, h2, h3⟩ := ho
  have hbefore : ∀ a ∈ A.flatMap kinds, a.rank ≤ auto.rank := by
    intro k hk
    obtain ⟨a, ha, hk⟩ := List.mem_flatMap.1 hk
    exact hB.before a ha k hk
  have hafter : ∀ b ∈ C.flatMap kinds, auto.rank ≤ b.rank := by
    intro b hb
    cases hC : C.flatMap kinds with
    | nil => rw [hC] at hb; simp at hb
    | cons c cs =>
      have hc := hB.after c (by rw [hC]; rfl)
      rw [hC] at hb h2
      rcases List.mem_cons.1 hb with rfl | hb
      · omega
      · have := (List.pairwise_cons.1 h2).1 b hb; omega
  rw [List.pairwise_append]
  refine ⟨h1, List.pairwise_cons.2 ⟨hafter, h2⟩, ?_⟩
  intro a ha b hb
  rcases List.mem_cons.1 hb with rfl | hb
  · exact hbefore a ha
  · exact h3 a ha b hb

/-- `from __future__` stays before other imports: imports of the standard library that are the first known ones are before
the new import. -/
theorem future (endPre : List Char) (init : List Stmt) (s : Stmt) (rest : List Stmt) (auto : Kind) (h : File init s)
    (fut more : List Stmt) (hi : init = fut ++ more) (hf : ∀ x ∈ fut, ∀ k ∈ kinds x, k = .stdLib)
    (hlast : ∃ y ys, fut = ys ++ [y] ∧ kinds y ≠ []) :
    (fut.flatMap Stmt.text).length ≤ (position (init ++ s :: rest) endPre auto).1 := by
  obtain ⟨A, C, p, hB⟩ := boundary endPre init s rest auto h
  rw [hB.pos]
  obtain ⟨y, ys, hfut, hy⟩ := hlast
  by_cases hlen : fut.length ≤ A.length
  · have hA : A = fut ++ A.drop fut.length := by
      have := congrArg (List.take fut.length) (hi.symm.trans hB.split)
      rw [List.take_left, List.take_append_of_le_length hlen] at this
      conv => lhs; rw [← List.take_append_drop fut.length A]
      rw [← this]
    rw [hA]
    simp
  · exfalso
    -- the last one is after the position
    have hC : C = fut.drop A.length ++ more := by
      have := congrArg (List.drop A.length) (hi.symm.trans hB.split)
      rw [List.drop_left, List.drop_append_of_le_length (by omega)] at this
      exact this.symm
    have hmem : y ∈ fut.drop A.length := by
      have : fut.drop A.length = ys.drop A.length ++ [y] := by
        rw [hfut] at hlen ⊢
        simp at hlen
        rw [List.drop_append_of_le_length (by omega)]
      rw [this]; simp
    cases hk : (fut.drop A.length).flatMap kinds with
    | nil =>
      simp only [List.flatMap_eq_nil_iff] at hk
      exact hy (hk y hmem)
    | cons k ks =>
      have h1 := hB.after k (by rw [hC, List.flatMap_append, hk]; rfl)
      have h2 : k ∈ (fut.drop A.length).flatMap kinds := by rw [hk]; simp
      obtain ⟨x, hx, hxk⟩ := List.mem_flatMap.1 h2
      rw [hf x (List.mem_of_mem_drop hx) k hxk] at h1
      simp [Kind.rank] at h1

example : ((exampleInit).flatMap kinds).Pairwise NotAfter := by decide +kernel

end Verif.AutoImport
