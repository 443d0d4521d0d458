import Verif.Tree.Lemmas

/-!
# Properties of the stored syntax tree (C06)
-/

namespace Verif.Tree

/-- Every entry of the array is a node of the tree: exactly the numbers below the length are located. -/
theorem loc_lt {k : Nat} {f : Forest} {i : Nat} {t : Tree} (h : Loc (.node k f) i t) : i + t.size ≤ (stored k f).length := by
  obtain ⟨A, n, B, h1, h2, -⟩ := loc_stored h
  have := t.below_length
  rw [h1, List.length_append, List.length_cons, List.length_append]
  omega

/-- C06, children: `iter_children` yields the children in order. -/
theorem children_eq {k : Nat} {f : Forest} {i : Nat} {t : Tree} (h : Loc (.node k f) i t) :
    children (stored k f) i = some (match t with
      | .leaf .. => []
      | .node _ g => (g.placed (i + 1)).map Prod.fst) := by
  obtain ⟨A, n, B, h1, h2, h3, -⟩ := loc_stored h
  have hn : (stored k f)[i]? = some n := by rw [h1, ← h2]; simp
  unfold children
  rw [hn]
  simp only [h3]
  cases t with
  | leaf k s l => rfl
  | node k' g =>
    simp only [Tree.isLeaf]
    have := siblings_forest g (A ++ [n]) B (stored k f) (by rw [h1]; simp [Tree.nodesBelow])
    rw [List.length_append, List.length_singleton, h2] at this
    exact this

/-- C06, parent: the parent of a child is the node it is a child of, and the root has none. -/
theorem parent_eq {k : Nat} {f : Forest} {i k' : Nat} {g : Forest} {j : Nat} {c : Tree} (h : Loc (.node k f) i (.node k' g))
    (hm : (j, c) ∈ g.placed (i + 1)) : parent (stored k f) j = some i ∧ parent (stored k f) 0 = none := by
  refine ⟨?_, rfl⟩
  obtain ⟨A, n, B, h1, h2, h3, -, h5, -⟩ := loc_stored h
  obtain ⟨pre, post, o, h6, h7, h8⟩ := Forest.placed_flat g _ j c hm
  have htake : (stored k f).take j = A ++ n :: pre := by
    rw [h1, Tree.nodesBelow, h6]
    have : A ++ n :: (pre ++ Tree.flat o c ++ post ++ B) = (A ++ n :: pre) ++ (Tree.flat o c ++ post ++ B) := by simp
    rw [this, List.take_append_of_le_length (by simp; omega), List.take_of_length_le (by simp; omega)]
  have hsz : g.size = pre.length + c.size + post.length := by
    rw [← Forest.flat_length, h6, List.length_append, List.length_append, Tree.flat_length]
  have hc := c.size_pos
  have hs : (Tree.node k' g).size = 1 + g.size := rfl
  unfold parent
  rw [htake, List.reverse_append, List.reverse_cons, List.append_assoc]
  rw [parentLoop_before g _ j c _ 0 hm pre (Tree.flat o c ++ post) (by rw [h6]; simp) h7]
  rw [List.singleton_append, parentLoop, if_pos]
  · simp only [Option.map_some, Option.some.injEq]; omega
  · refine ⟨?_, h3⟩
    rcases h5 with h5 | h5
    · exact .inr ⟨h5, rfl⟩
    · left; omega

theorem placed_consecutive : ∀ (g : Forest) (base a b : Nat) (s t : Tree) (X Y : List (Nat × Tree)),
    g.placed base = X ++ (a, s) :: (b, t) :: Y →
    ∃ pre post, g.flat = pre ++ s.flat s.size ++ post ∧ base + pre.length = a ∧ a + s.size = b
  | .one t', base, a, b, s, t, X, Y, h => by
    have := congrArg List.length h
    simp [Forest.placed] at this
    omega
  | .cons t' g, base, a, b, s, t, X, Y, h => by
    rw [Forest.placed] at h
    cases X with
    | nil =>
      simp only [List.nil_append, List.cons.injEq, Prod.mk.injEq] at h
      obtain ⟨⟨rfl, rfl⟩, h⟩ := h
      refine ⟨[], g.flat, by simp [Forest.flat], rfl, ?_⟩
      cases g with
      | one u => simp [Forest.placed] at h; omega
      | cons u g => simp [Forest.placed] at h; omega
    | cons x X =>
      simp only [List.cons_append, List.cons.injEq] at h
      obtain ⟨pre, post, h1, h2, h3⟩ := placed_consecutive g _ a b s t X Y h.2
      refine ⟨t'.flat t'.size ++ pre, post, by rw [Forest.flat, h1]; simp, ?_, h3⟩
      rw [List.length_append, Tree.flat_length]; omega

theorem placed_last : ∀ (g : Forest) (base a : Nat) (s : Tree) (X : List (Nat × Tree)), g.placed base = X ++ [(a, s)] →
    ∃ pre, g.flat = pre ++ s.flat 0 ∧ base + pre.length = a
  | .one t', base, a, s, X, h => by
    have hl := congrArg List.length h
    simp [Forest.placed] at hl
    subst hl
    simp only [Forest.placed, List.nil_append, List.cons.injEq, Prod.mk.injEq, and_true] at h
    obtain ⟨rfl, rfl⟩ := h
    exact ⟨[], by simp [Forest.flat], rfl⟩
  | .cons t' g, base, a, s, X, h => by
    rw [Forest.placed] at h
    cases X with
    | nil =>
      have hl := congrArg List.length h
      cases g <;> simp [Forest.placed] at hl
    | cons x X =>
      simp only [List.cons_append, List.cons.injEq] at h
      obtain ⟨pre, h1, h2⟩ := placed_last g _ a s X h.2
      refine ⟨t'.flat t'.size ++ pre, by rw [Forest.flat, h1]; simp, ?_⟩
      rw [List.length_append, Tree.flat_length]; omega

/-- C06, siblings: neighbours among the children of a node are each other's siblings. -/
theorem siblings_eq {k : Nat} {f : Forest} {i k' : Nat} {g : Forest} {a b : Nat} {s t : Tree} {X Y : List (Nat × Tree)}
    (h : Loc (.node k f) i (.node k' g)) (hp : g.placed (i + 1) = X ++ (a, s) :: (b, t) :: Y) :
    nextSibling (stored k f) a = some (some b) ∧ previousSibling (stored k f) b = some a := by
  obtain ⟨A, n, B, h1, h2, h3, -, h5, -⟩ := loc_stored h
  obtain ⟨pre, post, h6, h7, h8⟩ := placed_consecutive g _ a b s t X Y hp
  have hb : Loc (.node k f) b t := .child h (by rw [hp]; simp)
  have hs := s.size_pos
  have ht := t.size_pos
  have hlt := loc_lt hb
  constructor
  · have hn : (stored k f)[a]? = some (s.head s.size) := by
      rw [h1, Tree.nodesBelow, h6, Tree.flat_eq]
      rw [List.getElem?_append_right (by omega), show a - A.length = pre.length + 1 by omega, List.getElem?_cons_succ]
      simp
    unfold nextSibling
    rw [hn]
    have e : (s.head s.size).offset = s.size := rfl
    simp only [e]
    rw [if_pos (by omega), if_pos (by omega), h8]
  · have htake : (stored k f).take b = A ++ n :: (pre ++ s.flat s.size) := by
      rw [h1, Tree.nodesBelow, h6]
      have : A ++ n :: (pre ++ s.flat s.size ++ post ++ B) = (A ++ n :: (pre ++ s.flat s.size)) ++ (post ++ B) := by simp
      have hl : (A ++ n :: (pre ++ s.flat s.size)).length = b := by
        simp only [List.length_append, List.length_cons, Tree.flat_length]; omega
      rw [this, List.take_append_of_le_length (by omega), List.take_of_length_le (by omega)]
    unfold previousSibling
    have hbl := s.below_length
    rw [htake, Tree.flat_eq]
    have : (A ++ n :: (pre ++ s.head s.size :: s.nodesBelow)).reverse = s.nodesBelow.reverse ++ (s.head s.size :: (A ++ n :: pre).reverse) := by
      simp
    rw [this, previousSiblingLoop_within _ _ _ s.below_within, previousSiblingLoop]
    have e : (s.head s.size).offset = s.size := rfl
    rw [e, if_pos (by omega)]
    simp only [Option.map_some, Option.some.injEq]
    omega

/-- C06, siblings: the last child has no next sibling, nor has the root; the first child has no previous sibling,
nor has the root. -/
theorem no_sibling {k : Nat} {f : Forest} {i k' : Nat} {g : Forest} (h : Loc (.node k f) i (.node k' g)) :
    (∀ X a s, g.placed (i + 1) = X ++ [(a, s)] → nextSibling (stored k f) a = some none) ∧
    (∀ X a s, g.placed (i + 1) = (a, s) :: X → previousSibling (stored k f) a = none) ∧
    nextSibling (stored k f) 0 = some none ∧ previousSibling (stored k f) 0 = none := by
  obtain ⟨A, n, B, h1, h2, h3, -, h5, -⟩ := loc_stored h
  refine ⟨?_, ?_, rfl, rfl⟩
  · intro X a s hp
    obtain ⟨pre, h6, h7⟩ := placed_last g _ a s X hp
    have hn : (stored k f)[a]? = some (s.head 0) := by
      rw [h1, Tree.nodesBelow, h6, Tree.flat_eq]
      rw [List.getElem?_append_right (by omega), show a - A.length = pre.length + 1 by omega, List.getElem?_cons_succ]
      simp
    unfold nextSibling
    rw [hn]
    rfl
  · intro X a s hp
    have ha : a = i + 1 := by
      cases g <;> simp [Forest.placed] at hp <;> omega
    subst ha
    have hlt := loc_lt h
    have hs : (Tree.node k' g).size = 1 + g.size := rfl
    have hg := g.size_pos
    unfold previousSibling
    rw [previousSiblingLoop_none]
    · rfl
    · intro q m hm
      rw [List.reverse_reverse, List.getElem?_take] at hm
      rw [List.length_reverse, List.length_take, Nat.min_eq_left (by omega)]
      split at hm
      · rename_i hq
        by_cases hqi : q < i
        · rcases loc_laminar h q m hqi hm with h | h <;> omega
        · have hqe : q = i := by omega
          subst hqe
          have hn : (stored k f)[q]? = some n := by rw [h1, ← h2]; simp
          rw [hn] at hm
          simp only [Option.some.injEq] at hm
          subst hm
          omega
      · simp at hm

theorem leaves_stored (k : Nat) (f : Forest) :
    ((Tree.node k f).leaves 0).map Prod.fst = leafPositions (stored k f) 0 := by
  rw [Tree.leaves_positions 0 (.node k f) 0]
  rfl

theorem leaf_at {k : Nat} {f : Forest} {a : Nat} {s : Tree} (h : (a, s) ∈ (Tree.node k f).leaves 0) :
    ∃ n, (stored k f)[a]? = some n ∧ n.leaf = true := by
  have : a ∈ leafPositions (stored k f) 0 := by
    rw [← leaves_stored]; exact List.mem_map.mpr ⟨_, h, rfl⟩
  exact ((mem_leafPositions _ _ _).mp this).2

/-- C06, leaves: neighbours in the sequence of leaves are each other's next and previous leaf. -/
theorem leaves_eq {k : Nat} {f : Forest} {a b : Nat} {s t : Tree} {X Y : List (Nat × Tree)}
    (hp : (Tree.node k f).leaves 0 = X ++ (a, s) :: (b, t) :: Y) :
    nextLeaf (stored k f) a = some b ∧ previousLeaf (stored k f) b = some a := by
  have hsort := leafPositions_sorted (stored k f) 0
  have hl := leaves_stored k f
  rw [hp] at hl
  simp only [List.map_append, List.map_cons] at hl
  rw [← hl] at hsort
  have ha := leaf_at (k := k) (f := f) (a := a) (s := s) (by rw [hp]; simp)
  have hb := leaf_at (k := k) (f := f) (a := b) (s := t) (by rw [hp]; simp)
  have hs2 := (List.pairwise_append.mp hsort).2.1
  have hab : a < b := (List.pairwise_cons.mp hs2).1 b (by simp)
  have between : ∀ q, a < q → q < b → ∀ n, (stored k f)[q]? = some n → n.leaf = false := by
    intro q hq1 hq2 n hn
    cases hnl : n.leaf with
    | false => rfl
    | true =>
      exfalso
      have hm : q ∈ leafPositions (stored k f) 0 := (mem_leafPositions _ _ _).mpr ⟨by omega, n, hn, hnl⟩
      rw [← hl] at hm
      rcases List.mem_append.mp hm with hm | hm
      · have := (List.pairwise_append.mp hsort).2.2 q hm a (by simp); omega
      · simp only [List.mem_cons] at hm
        rcases hm with rfl | rfl | hm
        · omega
        · omega
        · have := (List.pairwise_cons.mp (List.pairwise_cons.mp hs2).2).1 q hm; omega
  obtain ⟨m, hm, hml⟩ := hb
  have hblt := (List.getElem?_eq_some_iff.mp hm).1
  exact ⟨nextLeaf_some hab ⟨m, hm, hml⟩ between, previousLeaf_some hab (by omega) ha between⟩

/-- C06, leaves: the last leaf has no next leaf, the first no previous leaf. -/
theorem no_leaf {k : Nat} {f : Forest} {a : Nat} {s : Tree} {X : List (Nat × Tree)} :
    ((Tree.node k f).leaves 0 = X ++ [(a, s)] → nextLeaf (stored k f) a = none) ∧
    ((Tree.node k f).leaves 0 = (a, s) :: X → previousLeaf (stored k f) a = none) := by
  have hsort := leafPositions_sorted (stored k f) 0
  have hl := leaves_stored k f
  have leafMem : ∀ q n, (stored k f)[q]? = some n → n.leaf = true → q ∈ ((Tree.node k f).leaves 0).map Prod.fst := by
    intro q n hn hnl
    rw [hl]
    exact (mem_leafPositions _ _ _).mpr ⟨by omega, n, hn, hnl⟩
  rw [← hl] at hsort
  constructor
  · intro hp
    apply nextLeaf_none
    intro q hq n hn
    cases hnl : n.leaf with
    | false => rfl
    | true =>
      exfalso
      have hm := leafMem q n hn hnl
      rw [hp] at hm hsort
      simp only [List.map_append, List.map_cons, List.map_nil] at hm hsort
      rcases List.mem_append.mp hm with hm | hm
      · have := (List.pairwise_append.mp hsort).2.2 q hm a (by simp); omega
      · simp at hm; omega
  · intro hp
    apply previousLeaf_none
    intro q hq n hn
    cases hnl : n.leaf with
    | false => rfl
    | true =>
      exfalso
      have hm := leafMem q n hn hnl
      rw [hp] at hm hsort
      simp only [List.map_cons, List.mem_cons] at hm hsort
      rcases hm with rfl | hm
      · omega
      · have := (List.pairwise_cons.mp hsort).1 q hm; omega

theorem Tree.leaves_ne_nil (t : Tree) (i : Nat) : t.leaves i ≠ [] := by
  intro he
  have := t.leaves_positions 0 i
  rw [he] at this
  obtain ⟨n, hn, hl, -⟩ := t.flat_last 0
  have hm : i + ((t.flat 0).length - 1) ∈ leafPositions (t.flat 0) i := by
    rw [mem_leafPositions]
    refine ⟨by omega, n, ?_, hl⟩
    rw [Nat.add_sub_cancel_left, ← List.getLast?_eq_getElem?]
    exact hn
  rw [← this] at hm
  simp at hm

/-- C06, last leaf of a subtree. -/
theorem lastLeaf_eq {k : Nat} {f : Forest} {i : Nat} {t : Tree} (h : Loc (.node k f) i t) :
    lastLeaf (stored k f) (stored k f).length i = some ((t.leaves i).getLast (t.leaves_ne_nil i)).1 := by
  obtain ⟨A, n, B, h1, h2, h3, -⟩ := loc_stored h
  have hlt := loc_lt h
  have := t.lastLeaf_eq A B (stored k f) n (stored k f).length h1 h3 (by omega)
  rw [h2, List.getLast?_eq_some_getLast (t.leaves_ne_nil i)] at this
  exact this

/-- C06, an inner node is followed by its first leaf. -/
theorem first_leaf {k : Nat} {f : Forest} {i k' : Nat} {g : Forest} (h : Loc (.node k f) i (.node k' g)) :
    nextLeaf (stored k f) i = some (((Tree.node k' g).leaves i).head ((Tree.node k' g).leaves_ne_nil i)).1 := by
  obtain ⟨A, n, B, h1, h2, h3, -⟩ := loc_stored h
  have hl := (Tree.node k' g).leaves_positions 0 i
  have hne := (Tree.node k' g).leaves_ne_nil i
  obtain ⟨x, L, hL⟩ := List.exists_cons_of_ne_nil hne
  have hsort := leafPositions_sorted (Tree.flat 0 (.node k' g)) i
  rw [← hl, hL] at hsort
  simp only [hL, List.head_cons]
  have at_ : ∀ q, i < q → q < i + (Tree.node k' g).size → (stored k f)[q]? = (Tree.flat 0 (.node k' g))[q - i]? := by
    intro q hq1 hq2
    have hb := (Tree.node k' g).below_length
    rw [h1, List.getElem?_append_right (by omega), Tree.flat_eq, show q - A.length = (q - i - 1) + 1 by omega,
      show q - i = (q - i - 1) + 1 by omega, List.getElem?_cons_succ, List.getElem?_cons_succ,
      List.getElem?_append_left (by omega)]
    rfl
  have hx : x.1 ∈ leafPositions (Tree.flat 0 (.node k' g)) i := by rw [← hl, hL]; simp
  obtain ⟨hx1, m, hm, hml⟩ := (mem_leafPositions _ _ _).mp hx
  have hxlt := (List.getElem?_eq_some_iff.mp hm).1
  rw [Tree.flat_length] at hxlt
  have hxi : i < x.1 := by
    by_cases he : x.1 = i
    · rw [he, Nat.sub_self, Tree.flat_eq] at hm
      simp at hm
      subst hm
      simp [Tree.head, Tree.isLeaf] at hml
    · omega
  refine nextLeaf_some hxi ⟨m, by rw [at_ _ hxi (by omega)]; exact hm, hml⟩ ?_
  intro q hq1 hq2 n hn
  cases hnl : n.leaf with
  | false => rfl
  | true =>
    exfalso
    rw [at_ q hq1 (by omega)] at hn
    have hm : q ∈ leafPositions (Tree.flat 0 (.node k' g)) i := (mem_leafPositions _ _ _).mpr ⟨by omega, n, hn, hnl⟩
    rw [← hl, hL] at hm
    simp only [List.map_cons, List.mem_cons] at hm hsort
    rcases hm with rfl | hm
    · omega
    · have := (List.pairwise_cons.mp hsort).1 q hm; omega

mutual
theorem Tree.loc_all (root : Tree) : ∀ (t : Tree) (i : Nat), Loc root i t → ∀ j, i ≤ j → j < i + t.size → ∃ c, Loc root j c
  | .leaf k s l, i, h, j, h1, h2 => ⟨_, by
      have : j = i := by simp [Tree.size] at h2; omega
      subst this; exact h⟩
  | .node k f, i, h, j, h1, h2 => by
    by_cases hj : j = i
    · subst hj; exact ⟨_, h⟩
    · have hs : (Tree.node k f).size = 1 + f.size := rfl
      exact Forest.loc_all root f (i + 1) (fun j c hm => .child h hm) j (by omega) (by omega)
theorem Forest.loc_all (root : Tree) : ∀ (f : Forest) (i : Nat), (∀ j c, (j, c) ∈ f.placed i → Loc root j c) →
    ∀ j, i ≤ j → j < i + f.size → ∃ c, Loc root j c
  | .one t, i, h, j, h1, h2 => Tree.loc_all root t i (h i t (by simp [Forest.placed])) j h1 h2
  | .cons t f, i, h, j, h1, h2 => by
    by_cases hj : j < i + t.size
    · exact Tree.loc_all root t i (h i t (by simp [Forest.placed])) j h1 hj
    · have hs : (Forest.cons t f).size = t.size + f.size := rfl
      exact Forest.loc_all root f (i + t.size) (fun j c hm => h j c (by simp [Forest.placed, hm])) j (by omega) (by omega)
end

/-- C06: every entry of the array is a node of the tree, so the theorems above speak about every entry. -/
theorem every_entry (k : Nat) (f : Forest) (j : Nat) (h : j < (stored k f).length) : ∃ c, Loc (.node k f) j c := by
  refine Tree.loc_all _ (.node k f) 0 .root j (by omega) ?_
  have : (stored k f).length = 1 + f.size := by simp [stored, Forest.flat_length]; omega
  have hs : (Tree.node k f).size = 1 + f.size := rfl
  omega

/-- `x = (1)` and an end marker: two levels, siblings and leaves. -/
def sample : Forest :=
  .cons (.node 1 (.cons (.leaf 10 0 1) (.cons (.leaf 11 2 1) (.one (.node 2 (.cons (.leaf 12 4 1) (.cons (.leaf 13 5 1) (.one (.leaf 14 6 1)))))))))
    (.one (.leaf 15 7 0))

example : Loc (.node 0 sample) 4 (.node 2 (.cons (.leaf 12 4 1) (.cons (.leaf 13 5 1) (.one (.leaf 14 6 1))))) ∧
    (stored 0 sample).map (·.offset) = [0, 7, 1, 1, 0, 1, 1, 0, 0] := by
  constructor
  · refine .child (i := 1) (k := 1) (.child .root (j := 1) (by simp [sample, Forest.placed]; rfl)) ?_
    simp [Forest.placed, Tree.size]
  · decide

example : children (stored 0 sample) 1 = some [2, 3, 4] ∧ parent (stored 0 sample) 6 = some 4 ∧ parent (stored 0 sample) 8 = some 0 ∧
    previousSibling (stored 0 sample) 8 = some 1 ∧ previousSibling (stored 0 sample) 5 = none ∧
    lastLeaf (stored 0 sample) 9 1 = some 7 := by
  decide +kernel

end Verif.Tree
