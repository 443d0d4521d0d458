import Verif.Tree.Props

/-!
# The leaf at a position (C07)
-/

namespace Verif.Tree

mutual
theorem Tree.leaves_entry (o : Nat) : ∀ (t : Tree) (i a : Nat) (s : Tree), (a, s) ∈ t.leaves i →
    i ≤ a ∧ ∃ off, (t.flat o)[a - i]? = some (s.head off) ∧ s.isLeaf = true
  | .leaf k st l, i, a, s, h => by
    rw [Tree.leaves, List.mem_singleton] at h
    cases h
    exact ⟨Nat.le_refl _, o, by simp [Tree.flat], rfl⟩
  | .node k f, i, a, s, h => by
    rw [Tree.leaves] at h
    obtain ⟨h1, off, h2, h3⟩ := Forest.leaves_entry f (i + 1) a s h
    refine ⟨by omega, off, ?_, h3⟩
    rw [Tree.flat, show a - i = (a - (i + 1)) + 1 by omega]
    exact h2
theorem Forest.leaves_entry : ∀ (f : Forest) (i a : Nat) (s : Tree), (a, s) ∈ f.leaves i →
    i ≤ a ∧ ∃ off, f.flat[a - i]? = some (s.head off) ∧ s.isLeaf = true
  | .one t, i, a, s, h => Tree.leaves_entry 0 t i a s h
  | .cons t f, i, a, s, h => by
    rw [Forest.leaves, List.mem_append] at h
    rw [Forest.flat]
    rcases h with h | h
    · obtain ⟨h1, off, h2, h3⟩ := Tree.leaves_entry t.size t i a s h
      refine ⟨h1, off, ?_, h3⟩
      rw [List.getElem?_append_left (List.getElem?_eq_some_iff.mp h2).1]
      exact h2
    · obtain ⟨h1, off, h2, h3⟩ := Forest.leaves_entry f (i + t.size) a s h
      refine ⟨by omega, off, ?_, h3⟩
      rw [List.getElem?_append_right (by rw [Tree.flat_length]; omega), Tree.flat_length, show a - i - t.size = a - (i + t.size) by omega]
      exact h2
end

mutual
theorem Tree.leaves_order : ∀ (t : Tree) (i : Nat), t.Ordered →
    (t.leaves i).Pairwise (fun a b => a.2.stop ≤ b.2.start) ∧ (∀ p ∈ t.leaves i, t.start ≤ p.2.start ∧ p.2.start ≤ p.2.stop ∧ p.2.stop ≤ t.stop)
  | .leaf k s l, i, _ => by
    rw [Tree.leaves]
    refine ⟨List.pairwise_singleton _ _, ?_⟩
    intro p hp
    rw [List.mem_singleton] at hp
    subst hp
    simp [Tree.start, Tree.stop]
  | .node k f, i, h => by
    rw [Tree.leaves, Tree.start, Tree.stop]
    exact Forest.leaves_order f (i + 1) h
theorem Forest.leaves_order : ∀ (f : Forest) (i : Nat), f.Ordered →
    (f.leaves i).Pairwise (fun a b => a.2.stop ≤ b.2.start) ∧ (∀ p ∈ f.leaves i, f.start ≤ p.2.start ∧ p.2.start ≤ p.2.stop ∧ p.2.stop ≤ f.stop)
  | .one t, i, h => Tree.leaves_order t i h
  | .cons t f, i, h => by
    obtain ⟨h1, h2, h3⟩ := h
    obtain ⟨ht1, ht2⟩ := Tree.leaves_order t i h1
    obtain ⟨hf1, hf2⟩ := Forest.leaves_order f (i + t.size) h2
    have hle : t.start ≤ t.stop := by
      obtain ⟨p, hp⟩ := List.exists_mem_of_ne_nil _ (t.leaves_ne_nil i)
      have := ht2 p hp; omega
    have hle' : f.start ≤ f.stop := by
      have : f.leaves (i + t.size) ≠ [] := by
        have h := Tree.leaves_ne_nil (.node 0 f) (i + t.size - 1)
        rw [Tree.leaves] at h
        have := t.size_pos
        rwa [show i + t.size - 1 + 1 = i + t.size by omega] at h
      obtain ⟨p, hp⟩ := List.exists_mem_of_ne_nil _ this
      have := hf2 p hp; omega
    rw [Forest.leaves, Forest.start, Forest.stop]
    refine ⟨List.pairwise_append.mpr ⟨ht1, hf1, ?_⟩, ?_⟩
    · intro a ha b hb
      have := ht2 a ha; have := hf2 b hb; omega
    · intro p hp
      rcases List.mem_append.mp hp with hp | hp
      · have := ht2 p hp; omega
      · have := hf2 p hp; omega
end

mutual
theorem Tree.flat_order (o : Nat) : ∀ (t : Tree), t.Ordered →
    (t.flat o).Pairwise (fun a b => a.start ≤ b.start) ∧ (∀ n ∈ t.flat o, t.start ≤ n.start ∧ n.start ≤ t.stop)
  | .leaf k s l, _ => by
    rw [Tree.flat]
    refine ⟨List.pairwise_singleton _ _, ?_⟩
    intro p hp
    rw [List.mem_singleton] at hp
    subst hp
    simp [Tree.start, Tree.stop, Tree.head]
  | .node k f, h => by
    obtain ⟨h1, h2⟩ := Forest.flat_order f h
    rw [Tree.flat, Tree.start, Tree.stop]
    refine ⟨List.Pairwise.cons (fun n hn => (h2 n hn).1) h1, ?_⟩
    intro n hn
    rcases List.mem_cons.mp hn with rfl | hn
    · obtain ⟨p, hp⟩ := List.exists_mem_of_ne_nil _ (Tree.leaves_ne_nil (.node k f) 0)
      have := (Tree.leaves_order (.node k f) 0 h).2 p hp
      simp only [Tree.start, Tree.stop] at this
      simp only [Tree.head, Tree.start]
      omega
    · exact h2 n hn
theorem Forest.flat_order : ∀ (f : Forest), f.Ordered →
    f.flat.Pairwise (fun a b => a.start ≤ b.start) ∧ (∀ n ∈ f.flat, f.start ≤ n.start ∧ n.start ≤ f.stop)
  | .one t, h => Tree.flat_order 0 t h
  | .cons t f, h => by
    obtain ⟨h1, h2, h3⟩ := h
    obtain ⟨ht1, ht2⟩ := Tree.flat_order t.size t h1
    obtain ⟨hf1, hf2⟩ := Forest.flat_order f h2
    have hle : t.start ≤ t.stop := by
      obtain ⟨p, hp⟩ := List.exists_mem_of_ne_nil _ (t.leaves_ne_nil 0)
      have := (Tree.leaves_order t 0 h1).2 p hp; omega
    have hle' : f.start ≤ f.stop := by
      obtain ⟨p, hp⟩ := List.exists_mem_of_ne_nil _ (Tree.leaves_ne_nil (.node 0 f) 0)
      have := (Tree.leaves_order (.node 0 f) 0 h2).2 p hp
      simp only [Tree.start, Tree.stop] at this
      omega
    rw [Forest.flat, Forest.start, Forest.stop]
    refine ⟨List.pairwise_append.mpr ⟨ht1, hf1, ?_⟩, ?_⟩
    · intro a ha b hb
      have := ht2 a ha; have := hf2 b hb; omega
    · intro p hp
      rcases List.mem_append.mp hp with hp | hp
      · have := ht2 p hp; omega
      · have := hf2 p hp; omega
end

/-- The starts of the stored nodes are sorted, as binary search requires. -/
theorem starts_sorted (k : Nat) (f : Forest) (h : f.Ordered) : (stored k f).Pairwise (fun a b => a.start ≤ b.start) :=
  List.Pairwise.cons (fun _ _ => Nat.zero_le _) (Forest.flat_order f h).1

theorem stored_leaf {k : Nat} {f : Forest} {a : Nat} {s : Tree} (h : (a, s) ∈ (Tree.node k f).leaves 0) :
    ∃ n, (stored k f)[a]? = some n ∧ n.leaf = true ∧ n.start = s.start ∧ n.stop = s.stop := by
  rw [Tree.leaves] at h
  obtain ⟨h1, off, h2, h3⟩ := Forest.leaves_entry f (0 + 1) a s h
  refine ⟨s.head off, ?_, h3, rfl, ?_⟩
  · rw [stored, show a = (a - (0 + 1)) + 1 by omega]; exact h2
  · cases s with
    | leaf k st l => simp [Tree.head, Node.stop, Tree.start, Tree.stop]
    | node k f => simp [Tree.isLeaf] at h3

theorem mem_take_of_sorted {ns : List Node} (h : ns.Pairwise (fun a b => a.start ≤ b.start)) (pos q : Nat) (n : Node) (hn : ns[q]? = some n) :
    q < (ns.takeWhile (fun n => decide (n.start ≤ pos))).length ↔ n.start ≤ pos := by
  induction ns generalizing q with
  | nil => simp at hn
  | cons m ns ih =>
    obtain ⟨h1, h2⟩ := List.pairwise_cons.mp h
    by_cases hm : m.start ≤ pos
    · rw [List.takeWhile_cons_of_pos (by simpa using hm), List.length_cons]
      cases q with
      | zero => simp at hn; subst hn; simp [hm]
      | succ q =>
        rw [Nat.add_lt_add_iff_right]
        exact ih h2 q hn
    · rw [List.takeWhile_cons_of_neg (by simpa using hm)]
      cases q with
      | zero => simp at hn; subst hn; simp only [List.length_nil]; omega
      | succ q =>
        have := h1 n (List.mem_iff_getElem?.mpr ⟨q, hn⟩)
        simp only [List.length_nil]; omega

/-- Splitting the leaves at a position. -/
theorem split_leaves (L : List (Nat × Tree)) (pos : Nat) (h : L.Pairwise (fun a b => a.2.start ≤ b.2.start)) :
    ∃ A B, L = A ++ B ∧ (∀ p ∈ A, p.2.start ≤ pos) ∧ (∀ p ∈ B, pos < p.2.start) := by
  induction L with
  | nil => exact ⟨[], [], rfl, by simp, by simp⟩
  | cons p L ih =>
    obtain ⟨h1, h2⟩ := List.pairwise_cons.mp h
    by_cases hp : p.2.start ≤ pos
    · obtain ⟨A, B, e, hA, hB⟩ := ih h2
      refine ⟨p :: A, B, by rw [e]; rfl, ?_, hB⟩
      intro q hq
      rcases List.mem_cons.mp hq with rfl | hq
      · exact hp
      · exact hA q hq
    · refine ⟨[], p :: L, rfl, by simp, ?_⟩
      intro q hq
      rcases List.mem_cons.mp hq with rfl | hq
      · omega
      · have := h1 q hq; omega

/-- C07: the leaf found for a position is the last leaf that begins at or before the position if the position is not
after its end (so where two leaves touch it is the second); otherwise it is the next leaf, to whose prefix the position
belongs; and after the last leaf it is the last leaf. -/
theorem leaf_by_position (k : Nat) (f : Forest) (h : f.Ordered) (pos : Nat) :
    ∃ X j t Y, (Tree.node k f).leaves 0 = X ++ (j, t) :: Y ∧ leafByPosition (stored k f) pos = some j ∧
      ((t.start ≤ pos ∧ pos ≤ t.stop ∧ ∀ p ∈ Y, pos < p.2.start) ∨
       (pos < t.start ∧ ∀ p ∈ X, p.2.stop < pos) ∨
       (t.stop < pos ∧ Y = [])) := by
  have hord := Tree.leaves_order (.node k f) 0 h
  have hpos := leaves_stored k f
  have hps := leafPositions_sorted (stored k f) 0
  rw [← hpos] at hps
  have hstart : ((Tree.node k f).leaves 0).Pairwise (fun a b => a.2.start ≤ b.2.start) := by
    refine List.Pairwise.imp_of_mem ?_ hord.1
    intro a b ha hb hab
    have := hord.2 a ha; omega
  have hsorted := starts_sorted k f h
  obtain ⟨A, B, hL, hA, hB⟩ := split_leaves _ pos hstart
  -- every leaf of the array is one of the leaves
  have hleaf : ∀ q n, (stored k f)[q]? = some n → n.leaf = true → ∃ s, (q, s) ∈ (Tree.node k f).leaves 0 ∧ n.start = s.start := by
    intro q n hn hnl
    have : q ∈ leafPositions (stored k f) 0 := (mem_leafPositions _ _ _).mpr ⟨by omega, n, hn, hnl⟩
    rw [← hpos, List.mem_map] at this
    obtain ⟨⟨q', s⟩, hm, rfl⟩ := this
    obtain ⟨n', hn', -, hs, -⟩ := stored_leaf hm
    rw [hn] at hn'; cases hn'
    exact ⟨s, hm, hs⟩
  have hindex : (List.takeWhile (fun n => decide (n.start ≤ pos)) (stored k f)).length ≤ (stored k f).length :=
    (List.takeWhile_prefix _).length_le
  rcases List.eq_nil_or_concat A with rfl | ⟨A', ⟨j, t⟩, rfl⟩
  · -- no leaf begins at or before the position
    rw [List.nil_append] at hL
    have hne := Tree.leaves_ne_nil (.node k f) 0
    obtain ⟨⟨j, t⟩, Y, rfl⟩ := List.exists_cons_of_ne_nil (hL ▸ hne)
    refine ⟨[], j, t, Y, hL, ?_, .inr (.inl ⟨hB (j, t) (by simp), by simp⟩)⟩
    simp only [leafByPosition]
    rw [previousLeaf_none]
    · simp only
      obtain ⟨n, hn, hnl, -, -⟩ := stored_leaf (k := k) (f := f) (a := j) (s := t) (by rw [hL]; simp)
      rw [List.findIdx?_eq_some_iff_getElem]
      obtain ⟨hlt, he⟩ := List.getElem?_eq_some_iff.mp hn
      refine ⟨hlt, by rw [he]; exact hnl, ?_⟩
      intro q hq hql
      obtain ⟨s, hs, -⟩ := hleaf q _ (List.getElem?_eq_getElem (by omega)) hql
      rw [hL] at hs hps
      rcases List.mem_cons.mp hs with e | hs
      · cases e; omega
      · have := (List.pairwise_cons.mp hps).1 q (List.mem_map.mpr ⟨_, hs, rfl⟩); simp only at this; omega
    · intro q hq n hn
      cases hnl : n.leaf with
      | false => rfl
      | true =>
        obtain ⟨s, hs, hss⟩ := hleaf q n hn hnl
        have := (mem_take_of_sorted hsorted pos q n hn).mp hq
        rw [hL] at hs
        have := hB _ hs
        simp only at this; omega
  · rw [List.concat_eq_append, List.append_assoc, List.singleton_append] at hL
    obtain ⟨n, hn, hnl, hns, hne⟩ := stored_leaf (k := k) (f := f) (a := j) (s := t) (by rw [hL]; simp)
    have htp : t.start ≤ pos := hA (j, t) (by simp)
    have hprev : previousLeaf (stored k f) (List.takeWhile (fun n => decide (n.start ≤ pos)) (stored k f)).length = some j := by
      apply previousLeaf_some _ hindex ⟨n, hn, hnl⟩
      · intro q hq1 hq2 m hm
        cases hml : m.leaf with
        | false => rfl
        | true =>
          exfalso
          obtain ⟨s, hs, hss⟩ := hleaf q m hm hml
          have := (mem_take_of_sorted hsorted pos q m hm).mp hq2
          rw [hL] at hs hps
          rw [List.map_append, List.map_cons, List.pairwise_append] at hps
          rcases List.mem_append.mp hs with hs | hs
          · have := hps.2.2 q (List.mem_map.mpr ⟨_, hs, rfl⟩) j (by simp); omega
          · rcases List.mem_cons.mp hs with e | hs
            · cases e; omega
            · have := hB _ hs; simp only at this; omega
      · rw [mem_take_of_sorted hsorted pos j n hn]; omega
    simp only [leafByPosition]
    rw [hprev]
    simp only [hn]
    by_cases hlt : n.stop < pos
    · rw [if_pos hlt]
      cases B with
      | nil =>
        refine ⟨A', j, t, [], hL, ?_, .inr (.inr ⟨by omega, rfl⟩)⟩
        rw [(no_leaf (X := A')).1 hL]
      | cons b B =>
        obtain ⟨j', t'⟩ := b
        refine ⟨A' ++ [(j, t)], j', t', B, by rw [hL]; simp, ?_, .inr (.inl ⟨hB (j', t') (by simp), ?_⟩)⟩
        · rw [(leaves_eq hL).1]
        · intro p hp
          rcases List.mem_append.mp hp with hp | hp
          · have h1 := hord.1
            rw [hL, List.pairwise_append] at h1
            have := h1.2.2 p hp (j, t) (by simp)
            have := (hord.2 (j, t) (by rw [hL]; simp)).2.1
            simp only at *
            omega
          · rw [List.mem_singleton] at hp; subst hp; simp only; omega
    · rw [if_neg hlt]
      exact ⟨A', j, t, B, hL, rfl, .inl ⟨htp, by omega, hB⟩⟩

/-- The tree of `a + b` with a prefix before every leaf and an empty end marker is ordered. -/
example : (Forest.cons (.node 1 (.cons (.leaf 9 1 1) (.cons (.leaf 8 3 1) (.one (.leaf 9 5 1))))) (.one (.leaf 7 6 0))).Ordered := by
  simp [Forest.Ordered, Tree.Ordered, Tree.stop, Tree.start, Forest.start, Forest.stop]

example : (List.range 9).map (leafByPosition (stored 0
    (Forest.cons (.node 1 (.cons (.leaf 9 1 1) (.cons (.leaf 8 3 1) (.one (.leaf 9 5 1))))) (.one (.leaf 7 6 0))))) =
    [some 2, some 2, some 2, some 3, some 3, some 4, some 5, some 5, some 5] := by decide +kernel

end Verif.Tree
