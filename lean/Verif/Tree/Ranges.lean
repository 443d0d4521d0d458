import Verif.Tree.Search
import Mathlib.Data.List.Chain

/-!
# Selection ranges (C48)

Model of `crates/parsa_python_cst/src/ranges.rs`.  The source is the list of its bytes.
-/

namespace Verif.Tree

/-! ## Model -/

/-- The kinds of nodes the function asks for. -/
structure Kinds where
  /-- `Nonterminal(stmt)` -/
  stmt : Nat → Bool
  /-- `PyNodeType::Keyword` -/
  keyword : Nat → Bool
  /-- the other kinds for which no range is returned, ranges.rs 135-142: some terminals, `kwargs`, `block`, `simple_stmts` -/
  hidden : Nat → Bool

/-- `Range`, ranges.rs 11-15. -/
structure Range where
  start : Nat
  stop : Nat
deriving DecidableEq, Repr

/-- `is_pos_in_node`, ranges.rs 27-29. -/
def isPosInNode (n : Node) (position : Nat) : Bool := n.start ≤ position ∧ n.stop ≥ position

/-- `node.as_code().ends_with("\n")`, ranges.rs 21. -/
def endsWithNewline (code : List Nat) (n : Node) : Bool := ((code.take n.stop).drop n.start).getLast? = some 10

/-- `node_includes_in_position`, ranges.rs 31-38; `none` is the `unwrap` of the parent of the root.  `fuel` bounds the
depth. -/
def includesPosition (nodes : List Node) (position : Nat) : Nat → Nat → Option Nat
  | 0, _ => none
  | fuel + 1, i =>
    match parent nodes i with
    | none => none
    | some p =>
      match nodes[p]? with
      | none => none
      | some n => if isPosInNode n position then some p else includesPosition nodes position fuel p

/-- `initial_node_for_selection_ranges`, ranges.rs 18-43. -/
def initialNode (K : Kinds) (nodes : List Node) (code : List Nat) (position : Nat) : Option Nat :=
  match leafByPosition nodes position with
  | none => none
  | some i =>
    match nodes[i]? with
    | none => none
    | some n =>
      let i :=
        if n.start = position ∧ (K.keyword n.kind ∨ endsWithNewline code n) then
          match previousLeaf nodes i with
          | some p =>
            match nodes[p]? with
            | some m => if m.stop = position then p else i
            | none => i
          | none => i
        else i
      match nodes[i]? with
      | none => none
      | some n => if isPosInNode n position then some i else includesPosition nodes position nodes.length i

/-- The position of the last line feed, `rfind('\n')`. -/
def rfindNewline (l : List Nat) : Option Nat := (l.reverse.findIdx? (· == 10)).map (l.length - 1 - ·)

/-- The start of the range of a statement, ranges.rs 126-133. -/
def stmtStart (code : List Nat) (start : Nat) : Nat :=
  match rfindNewline (code.take start) with
  | some n => start - (start - n - 1)
  | none => start

/-- `SelectionRanges::next`, ranges.rs 112-150, collected.  `fuel` bounds the depth. -/
def rangesFrom (K : Kinds) (nodes : List Node) (code : List Nat) : Nat → Option Nat → Option Range → List Range
  | 0, _, _ => []
  | _ + 1, none, _ => []
  | fuel + 1, some i, previous =>
    match nodes[i]? with
    | none => []
    | some n =>
      let next := parent nodes i
      let range : Range := ⟨n.start, n.stop⟩
      if previous = some range then rangesFrom K nodes code fuel next previous
      else
        let range := if K.stmt n.kind then { range with start := stmtStart code n.start } else range
        if K.hidden n.kind || K.keyword n.kind then rangesFrom K nodes code fuel next previous
        else range :: rangesFrom K nodes code fuel next (some range)

/-- `selection_ranges`, ranges.rs 45-52. -/
def selectionRanges (K : Kinds) (nodes : List Node) (code : List Nat) (position : Nat) : Option (List Range) :=
  (initialNode K nodes code position).map fun i => rangesFrom K nodes code (nodes.length + 1) (some i) none

/-! ## Specification -/

/-- `b` contains `a` and is larger. -/
def Range.Inside (a b : Range) : Prop := b.start ≤ a.start ∧ a.stop ≤ b.stop ∧ a ≠ b

/-- The position where the line of `start` begins, if lines end with line feeds. -/
def LineStart (code : List Nat) (start line : Nat) : Prop :=
  line ≤ start ∧ (line = 0 ∨ code[line - 1]? = some 10) ∧ ∀ q, line ≤ q → q < start → code[q]? ≠ some 10

/-- Every statement begins on a line of its own: the line of a statement does not begin before the node around it. -/
def OwnLines (K : Kinds) (code : List Nat) (root : Tree) : Prop :=
  ∀ i k g j c line, Loc root i (.node k g) → (j, c) ∈ g.placed (i + 1) → K.stmt c.kind = true → i ≠ 0 → LineStart code c.start line → g.start ≤ line

/-! ## Proofs -/

theorem rfind_spec (l : List Nat) : (∃ n, rfindNewline l = some n ∧ l[n]? = some 10 ∧ ∀ q, n < q → l[q]? ≠ some 10) ∨
    (rfindNewline l = none ∧ ∀ q : Nat, l[q]? ≠ some 10) := by
  unfold rfindNewline
  cases h : l.reverse.findIdx? (· == 10) with
  | none =>
    right
    refine ⟨rfl, ?_⟩
    intro q hq
    rw [List.findIdx?_eq_none_iff] at h
    have := h 10 (by rw [List.mem_reverse]; exact List.mem_of_getElem? hq)
    simp at this
  | some n =>
    left
    rw [List.findIdx?_eq_some_iff_getElem] at h
    obtain ⟨hlt, hn, hb⟩ := h
    rw [List.length_reverse] at hlt
    refine ⟨l.length - 1 - n, rfl, ?_, ?_⟩
    · rw [List.getElem_reverse] at hn
      rw [List.getElem?_eq_getElem (by omega)]
      simpa using hn
    · intro q hq1 hq
      have hql := (List.getElem?_eq_some_iff.mp hq).1
      have := hb (l.length - 1 - q) (by omega)
      rw [List.getElem_reverse] at this
      apply this
      have he : l[l.length - 1 - (l.length - 1 - q)]? = some 10 := by rw [show l.length - 1 - (l.length - 1 - q) = q by omega]; exact hq
      rw [(List.getElem?_eq_some_iff.mp he).2]
      rfl

theorem stmtStart_spec (code : List Nat) (start : Nat) :
    stmtStart code start ≤ start ∧ (LineStart code start (stmtStart code start) ∨ stmtStart code start = start) := by
  unfold stmtStart
  rcases rfind_spec (code.take start) with ⟨n, h1, h2, h3⟩ | ⟨h1, h2⟩
  · rw [h1]
    have hn : n < start := by
      have := (List.getElem?_eq_some_iff.mp h2).1
      rw [List.length_take] at this; omega
    simp only
    refine ⟨by omega, .inl ⟨by omega, .inr ?_, ?_⟩⟩
    · rw [show start - (start - n - 1) - 1 = n by omega]
      rw [List.getElem?_take, if_pos hn] at h2
      exact h2
    · intro q hq1 hq2 hq
      apply h3 q (by omega)
      rw [List.getElem?_take, if_pos hq2]
      exact hq
  · rw [h1]
    exact ⟨Nat.le_refl _, .inr rfl⟩

theorem Forest.placed_start : ∀ (f : Forest) (base j : Nat) (c : Tree), f.Ordered → (j, c) ∈ f.placed base → f.start ≤ c.start
  | .one t, base, j, c, ho, h => by
    rw [Forest.placed, List.mem_singleton] at h
    cases h
    exact Nat.le_refl _
  | .cons t f, base, j, c, ⟨h1, h2, h3⟩, h => by
    rw [Forest.placed, List.mem_cons] at h
    rcases h with e | h
    · cases e; exact Nat.le_refl _
    · have := Forest.placed_start f _ j c h2 h
      have := t.start_le_stop h1
      rw [Forest.start]; omega

/-- The entry of a subtree. -/
theorem loc_entry {k : Nat} {f : Forest} {i : Nat} {t : Tree} (ho : f.Ordered) (h : Loc (.node k f) i t) :
    ∃ n, (stored k f)[i]? = some n ∧ n.kind = t.kind ∧ n.leaf = t.isLeaf ∧ n.stop = t.stop ∧ n.start = (if i = 0 then 0 else t.start) := by
  obtain ⟨A, n, B, h1, h2, h3, h4, h5, h6, h7⟩ := loc_stored h
  refine ⟨n, by rw [h1, ← h2]; simp, h4, h3, ?_, ?_⟩
  · by_cases hi : i = 0
    · have := h7 hi
      rw [Node.stop, this.1, this.2.1, Nat.zero_add]
    · rw [h6 hi]
      have := t.start_le_stop (loc_order ho h).1
      simp only [Tree.head, Node.stop]
      omega
  · by_cases hi : i = 0
    · rw [if_pos hi]; exact (h7 hi).1
    · rw [if_neg hi, h6 hi]; rfl

theorem parent_root (k : Nat) (f : Forest) : parent (stored k f) 0 = none := by
  simp [parent, parentLoop]

theorem loc_pos {k : Nat} {f : Forest} {i : Nat} {t : Tree} (h : Loc (.node k f) i t) :
    i = 0 ∧ t = .node k f ∨ ∃ i' k' g, i' < i ∧ Loc (.node k f) i' (.node k' g) ∧ (i, t) ∈ g.placed (i' + 1) := by
  cases h with
  | root => exact .inl ⟨rfl, rfl⟩
  | @child i' k' g _ _ h hm =>
    obtain ⟨pre, post, o, h6, h7, h8⟩ := Forest.placed_flat g _ i t hm
    exact .inr ⟨i', k', g, by omega, h, hm⟩

theorem includes_some {k : Nat} {f : Forest} (ho : f.Ordered) (pos : Nat) (hp : pos ≤ f.stop) :
    ∀ (fuel i : Nat) (t : Tree), i < fuel → i ≠ 0 → Loc (.node k f) i t →
      ∃ j s n, includesPosition (stored k f) pos fuel i = some j ∧ Loc (.node k f) j s ∧ (stored k f)[j]? = some n ∧ n.start ≤ pos ∧ pos ≤ n.stop
  | 0, i, t, h, _, _ => by omega
  | fuel + 1, i, t, h, hi, hloc => by
    rcases loc_pos hloc with ⟨rfl, -⟩ | ⟨p, k', g, hlt, hl, hm⟩
    · exact absurd rfl hi
    · rw [includesPosition, (parent_eq hl hm).1]
      obtain ⟨n, hn, -, -, hst, hsa⟩ := loc_entry ho hl
      simp only [hn]
      by_cases hin : isPosInNode n pos = true
      · rw [if_pos hin]
        simp only [isPosInNode, decide_eq_true_eq] at hin
        exact ⟨p, _, n, rfl, hl, hn, hin.1, hin.2⟩
      · rw [if_neg hin]
        by_cases hp0 : p = 0
        · exfalso
          subst hp0
          rcases loc_pos hl with ⟨-, he⟩ | ⟨p, _, _, hlt, _⟩
          · rw [he] at hst
            simp only [Tree.stop] at hst
            rw [if_pos rfl] at hsa
            simp only [isPosInNode, decide_eq_true_eq] at hin
            omega
          · omega
        · exact includes_some ho pos hp fuel p _ (by omega) hp0 hl

theorem initial_some (K : Kinds) {k : Nat} {f : Forest} (ho : f.Ordered) (code : List Nat) (pos : Nat) (hp : pos ≤ f.stop) :
    ∃ j s n, initialNode K (stored k f) code pos = some j ∧ Loc (.node k f) j s ∧ (stored k f)[j]? = some n ∧ n.start ≤ pos ∧ pos ≤ n.stop := by
  obtain ⟨X, j, t, Y, hL, hj, -⟩ := leaf_by_position k f ho pos
  have entry : ∀ (a : Nat) (n : Node), (stored k f)[a]? = some n → n.leaf = true →
      (∃ j s m, (if isPosInNode n pos = true then some a else includesPosition (stored k f) pos (stored k f).length a) = some j ∧
        Loc (.node k f) j s ∧ (stored k f)[j]? = some m ∧ m.start ≤ pos ∧ pos ≤ m.stop) := by
    intro a n hn hnl
    have hlt := (List.getElem?_eq_some_iff.mp hn).1
    obtain ⟨c, hc⟩ := every_entry k f a hlt
    by_cases hin : isPosInNode n pos = true
    · rw [if_pos hin]
      simp only [isPosInNode, decide_eq_true_eq] at hin
      exact ⟨a, c, n, rfl, hc, hn, hin.1, hin.2⟩
    · rw [if_neg hin]
      have ha : a ≠ 0 := by
        rintro rfl
        simp [stored] at hn
        subst hn
        simp at hnl
      exact includes_some ho pos hp _ a c hlt ha hc
  obtain ⟨n, hn, hnl, -, -⟩ := stored_leaf (k := k) (f := f) (a := j) (s := t) (by rw [hL]; simp)
  unfold initialNode
  simp only [hj, hn]
  generalize hi : (if n.start = pos ∧ (K.keyword n.kind = true ∨ endsWithNewline code n = true) then
      match previousLeaf (stored k f) j with
      | some p =>
        match (stored k f)[p]? with
        | some m => if m.stop = pos then p else j
        | none => j
      | none => j
    else j) = i
  have hi' : ∃ m, (stored k f)[i]? = some m ∧ m.leaf = true := by
    rw [← hi]
    split
    · cases hpl : previousLeaf (stored k f) j with
      | none => exact ⟨n, hn, hnl⟩
      | some p =>
        simp only
        cases hp' : (stored k f)[p]? with
        | none => exact ⟨n, hn, hnl⟩
        | some m =>
          simp only
          split
          · refine ⟨m, hp', ?_⟩
            rcases List.eq_nil_or_concat X with rfl | ⟨X', ⟨a, s⟩, rfl⟩
            · rw [List.nil_append] at hL
              rw [(no_leaf (X := Y)).2 hL] at hpl
              simp at hpl
            · rw [List.concat_eq_append, List.append_assoc, List.singleton_append] at hL
              rw [(leaves_eq hL).2, Option.some.injEq] at hpl
              subst hpl
              obtain ⟨m', hm', hml, -, -⟩ := stored_leaf (k := k) (f := f) (a := a) (s := s) (by rw [hL]; simp)
              rw [hp'] at hm'
              cases hm'
              exact hml
          · exact ⟨n, hn, hnl⟩
    · exact ⟨n, hn, hnl⟩
  obtain ⟨m, hm, hml⟩ := hi'
  simp only [hm]
  exact entry i m hm hml

/-- What is promised of the ranges after `previous`. -/
structure Nest (pos : Nat) (whole : Range) (previous : Option Range) (rs : List Range) : Prop where
  chain : (previous.toList ++ rs).IsChain Range.Inside
  position : ∀ r ∈ rs, r.start ≤ pos ∧ pos ≤ r.stop
  last : (previous.toList ++ rs).getLast? = some whole

theorem ranges_nest (K : Kinds) {k : Nat} {f : Forest} (ho : f.Ordered) (code : List Nat) (pos : Nat)
    (hown : OwnLines K code (.node k f)) (hroot : K.stmt k = false ∧ K.hidden k = false ∧ K.keyword k = false) :
    ∀ (fuel i : Nat) (t : Tree) (n : Node) (previous : Option Range), i < fuel → Loc (.node k f) i t → (stored k f)[i]? = some n →
      n.start ≤ pos → pos ≤ n.stop → (∀ r, previous = some r → n.start ≤ r.start ∧ r.stop ≤ n.stop) →
      Nest pos ⟨0, f.stop⟩ previous (rangesFrom K (stored k f) code fuel (some i) previous)
  | 0, i, t, n, previous, h, _, _, _, _, _ => by omega
  | fuel + 1, i, t, n, previous, h, hloc, hn, hp1, hp2, hprev => by
    obtain ⟨n', hn', hk, -, hst, hsa⟩ := loc_entry ho hloc
    rw [hn] at hn'
    cases hn'
    have hss := stmtStart_spec code n.start
    rw [rangesFrom]
    simp only [hn]
    rcases loc_pos hloc with ⟨rfl, rfl⟩ | ⟨p, k', g, hlt, hl, hm⟩
    · -- the root
      rw [if_pos rfl] at hsa
      simp only [Tree.stop] at hst
      have hkk : n.kind = k := hk
      have hend : ∀ prev, rangesFrom K (stored k f) code fuel (parent (stored k f) 0) prev = [] := by
        intro prev
        rw [parent_root]
        cases fuel <;> rfl
      rw [hsa, hst]
      by_cases he : previous = some ⟨0, f.stop⟩
      · rw [if_pos he, hend, he]
        exact ⟨by simp, by simp, by simp⟩
      · rw [if_neg he, hkk, hroot.1, hroot.2.1, hroot.2.2]
        simp only [Bool.or_self, Bool.false_eq_true, if_false]
        rw [hend]
        refine ⟨?_, ?_, ?_⟩
        · cases previous with
          | none => simp
          | some r =>
            have := hprev r rfl
            simp only [Option.toList, List.singleton_append, List.isChain_cons_cons, List.isChain_singleton, and_true]
            refine ⟨by simp only; omega, by simp only; omega, ?_⟩
            rintro rfl
            exact he rfl
        · intro r hr
          rw [List.mem_singleton] at hr
          subst hr
          exact ⟨Nat.zero_le _, by simp only; omega⟩
        · simp
    · -- another node
      obtain ⟨m, hm', -, -, hmst, hmsa⟩ := loc_entry ho hl
      have hpo := loc_order ho hl
      have hpl := Forest.placed_order g _ i t hpo.1 hm
      have hps := Forest.placed_start g _ i t hpo.1 hm
      rw [if_neg (by omega)] at hsa
      have hmstop : m.stop = g.stop := hmst
      have hmn : m.start ≤ n.start ∧ n.stop ≤ m.stop := by
        refine ⟨?_, by omega⟩
        rw [hmsa]
        split
        · omega
        · simp only [Tree.start]; omega
      rw [(parent_eq hl hm).1]
      have key : ∀ prev, (∀ r, prev = some r → m.start ≤ r.start ∧ r.stop ≤ m.stop) →
          Nest pos ⟨0, f.stop⟩ prev (rangesFrom K (stored k f) code fuel (some p) prev) := by
        intro prev hpr
        exact ranges_nest K ho code pos hown hroot fuel p _ m prev (by omega) hl hm' (by omega) (by omega) hpr
      have keyPrev := key previous (by intro r hr; have := hprev r hr; omega)
      split
      · exact keyPrev
      · rename_i hne
        split
        · exact keyPrev
        · generalize hrange : (if K.stmt n.kind = true then ({ (⟨n.start, n.stop⟩ : Range) with start := stmtStart code n.start } : Range) else ⟨n.start, n.stop⟩) = range
          have hr : m.start ≤ range.start ∧ range.start ≤ n.start ∧ range.stop = n.stop := by
            rw [← hrange]
            split
            · rename_i hs
              refine ⟨?_, hss.1, rfl⟩
              rw [hmsa]
              split
              · exact Nat.zero_le _
              · rename_i hp0
                simp only [Tree.start]
                rcases hss.2 with hss | hss
                · rw [hsa] at hss ⊢
                  exact hown p k' g i t _ hl hm (by rw [← hk]; exact hs) hp0 hss
                · rw [hss]; omega
            · exact ⟨by simp only; omega, Nat.le_refl _, rfl⟩
          have keyRange := key (some range) (by rintro r hr'; cases hr'; omega)
          obtain ⟨c1, c2, c3⟩ := keyRange
          refine ⟨?_, ?_, ?_⟩
          · cases previous with
            | none => simpa using c1
            | some r =>
              have := hprev r rfl
              simp only [Option.toList, List.singleton_append] at c1 ⊢
              rw [List.isChain_cons_cons]
              refine ⟨⟨by omega, by omega, ?_⟩, c1⟩
              rintro rfl
              apply hne
              congr 1
              cases r
              simp only at *
              congr 1 <;> omega
          · intro r hr'
            rcases List.mem_cons.mp hr' with rfl | hr'
            · omega
            · exact c2 r hr'
          · simp only [Option.toList, List.singleton_append] at c3
            rw [List.getLast?_append, c3]
            rfl

/-- C48: for a position in the file the selection ranges exist, are not empty, all contain the position, each is inside the
next and different from it, and the last is the whole file.  Partial: lines must end with line feeds, so that every nested
statement is on a line of its own. -/
theorem selection_nested_partial (K : Kinds) (k : Nat) (f : Forest) (code : List Nat) (pos : Nat) (ho : f.Ordered) (hp : pos ≤ f.stop)
    (hroot : K.stmt k = false ∧ K.hidden k = false ∧ K.keyword k = false) (hown : OwnLines K code (.node k f)) :
    ∃ rs, selectionRanges K (stored k f) code pos = some rs ∧ rs.IsChain Range.Inside ∧ (∀ r ∈ rs, r.start ≤ pos ∧ pos ≤ r.stop) ∧
      rs.getLast? = some ⟨0, f.stop⟩ := by
  obtain ⟨j, s, n, h1, h2, h3, h4, h5⟩ := initial_some K ho code pos hp
  have hlt := (List.getElem?_eq_some_iff.mp h3).1
  obtain ⟨c1, c2, c3⟩ := ranges_nest K ho code pos hown hroot ((stored k f).length + 1) j s n none (by omega) h2 h3 h4 h5 (by simp)
  refine ⟨_, by rw [selectionRanges, h1]; rfl, ?_, c2, ?_⟩
  · simpa using c1
  · simpa using c3

/-- `file_input`, `stmt`, `simple_stmts`, `if_stmt`, `block`, a name, a newline, a keyword, an operator, indentation and the
end marker are 0 to 10. -/
def sampleKinds : Kinds :=
  { stmt := (· == 1), keyword := (· == 7), hidden := fun k => k == 2 || k == 4 || k == 8 || k == 9 || k == 10 }

/-- `if b:`, newline, ` c`, newline at `at`. -/
def ifStmt (p : Nat) : Tree :=
  .node 1 (.one (.node 3 (.cons (.leaf 7 p 2) (.cons (.leaf 5 (p + 3) 1) (.cons (.leaf 8 (p + 4) 1) (.one (.node 4 (.cons (.leaf 6 (p + 5) 1)
    (.cons (.leaf 9 (p + 7) 0) (.cons (.node 1 (.one (.node 2 (.cons (.leaf 5 (p + 7) 1) (.one (.leaf 6 (p + 8) 1))))))
      (.one (.leaf 9 (p + 9) 0))))))))))))

/-- `a`, line feed, `x`, a line end, and the statement above. -/
def sampleFile : Forest :=
  .cons (.node 1 (.one (.node 2 (.cons (.leaf 5 0 1) (.one (.leaf 6 1 1)))))) (.cons (.node 1 (.one (.node 2 (.cons (.leaf 5 2 1) (.one (.leaf 6 3 1))))))
    (.cons (ifStmt 4) (.one (.leaf 10 13 0))))

def sampleCode (lineEnd : Nat) : List Nat := [97, 10, 120, lineEnd, 105, 102, 32, 98, 58, lineEnd, 32, 99, lineEnd]

example : sampleFile.Ordered := by
  simp [sampleFile, ifStmt, Forest.Ordered, Tree.Ordered, Tree.stop, Tree.start, Forest.start, Forest.stop]

theorem Tree.self_mem (t : Tree) (i : Nat) : (i, t) ∈ t.preorder i := by cases t <;> simp [Tree.preorder]

theorem Forest.placed_mem : ∀ (f : Forest) (i j : Nat) (c : Tree), (j, c) ∈ f.placed i → ∀ p ∈ c.preorder j, p ∈ f.preorder i
  | .one t, i, j, c, h, p, hp => by
    rw [Forest.placed, List.mem_singleton] at h
    cases h
    exact hp
  | .cons t f, i, j, c, h, p, hp => by
    rw [Forest.placed, List.mem_cons] at h
    rw [Forest.preorder, List.mem_append]
    rcases h with e | h
    · cases e; exact .inl hp
    · exact .inr (Forest.placed_mem f _ j c h p hp)

theorem loc_mem {root : Tree} {i : Nat} {t : Tree} (h : Loc root i t) : ∀ p ∈ t.preorder i, p ∈ root.preorder 0 := by
  induction h with
  | root => exact fun _ h => h
  | @child i k f j c h hm ih =>
    intro p hp
    apply ih
    rw [Tree.preorder]
    exact List.mem_cons_of_mem _ (Forest.placed_mem f _ j c hm p hp)

/-- With line feeds the statements of the file are on lines of their own. -/
example : OwnLines sampleKinds (sampleCode 10) (.node 0 sampleFile) := by
  intro i k g j c line h hm hs hi hl
  have h1 := loc_mem h _ (Tree.self_mem _ _)
  simp [sampleFile, ifStmt, Tree.preorder, Forest.preorder, Tree.size, Forest.size] at h1
  rcases h1 with ⟨rfl, -⟩ | ⟨rfl, -, rfl⟩ | ⟨rfl, -, rfl⟩ | ⟨rfl, -, rfl⟩ | ⟨rfl, -, rfl⟩ | ⟨rfl, -, rfl⟩ | ⟨rfl, -, rfl⟩ | ⟨rfl, -, rfl⟩ |
    ⟨rfl, -, rfl⟩ | ⟨rfl, -, rfl⟩ <;>
    simp [Forest.placed] at hm hi
  all_goals
    first
    | (obtain ⟨-, rfl⟩ := hm; simp [sampleKinds, Tree.kind] at hs; done)
    | (rcases hm with ⟨-, rfl⟩ | ⟨-, rfl⟩ <;> simp [sampleKinds, Tree.kind] at hs; done)
    | (rcases hm with ⟨-, rfl⟩ | ⟨-, rfl⟩ | ⟨-, rfl⟩ | ⟨-, rfl⟩ <;> simp [sampleKinds, Tree.kind] at hs; done)
    | skip
  rcases hm with ⟨-, rfl⟩ | ⟨-, rfl⟩ | ⟨-, rfl⟩ | ⟨-, rfl⟩ <;> simp [sampleKinds, Tree.kind] at hs
  obtain ⟨h1, -, h3⟩ := hl
  simp only [Tree.start, Forest.start] at h1 h3 ⊢
  refine Nat.le_of_not_lt fun hlt => ?_
  exact h3 9 (by omega) (by omega) rfl

example : selectionRanges sampleKinds (stored 0 sampleFile) (sampleCode 10) 11 =
    some [⟨11, 12⟩, ⟨10, 13⟩, ⟨4, 13⟩, ⟨0, 13⟩] := by decide +kernel

/-- C48 fails for a file that mixes line feeds and lone carriage returns: the range of the nested statement begins before
the range around it. -/
theorem selection_nested_violation : sampleFile.Ordered ∧
    selectionRanges sampleKinds (stored 0 sampleFile) (sampleCode 13) 11 = some [⟨11, 12⟩, ⟨2, 13⟩, ⟨4, 13⟩, ⟨0, 13⟩] := by
  refine ⟨?_, by decide +kernel⟩
  simp [sampleFile, ifStmt, Forest.Ordered, Tree.Ordered, Tree.stop, Tree.start, Forest.start, Forest.stop]

end Verif.Tree
