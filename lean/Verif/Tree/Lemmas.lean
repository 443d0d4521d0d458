import Verif.Tree.Spec

/-! # Helper lemmas about the stored array -/

namespace Verif.Tree

mutual
theorem Tree.flat_length (o : Nat) : ∀ t : Tree, (t.flat o).length = t.size
  | .leaf .. => by simp [Tree.flat, Tree.size]
  | .node _ f => by
    have := Forest.flat_length f
    simp only [Tree.flat, Tree.size, List.length_cons]; omega
theorem Forest.flat_length : ∀ f : Forest, f.flat.length = f.size
  | .one t => by rw [Forest.flat, Forest.size]; exact Tree.flat_length 0 t
  | .cons t f => by
    have h1 := Tree.flat_length t.size t
    have h2 := Forest.flat_length f
    rw [Forest.flat, Forest.size, List.length_append]; omega
end

theorem Tree.size_pos (t : Tree) : 0 < t.size := by
  cases t <;> simp [Tree.size]
  omega

theorem Forest.size_pos (f : Forest) : 0 < f.size := by
  cases f with
  | one t => exact t.size_pos
  | cons t f => have := t.size_pos; simp [Forest.size]; omega

/-- The nodes below the node that stores the tree. -/
def Tree.nodesBelow : Tree → List Node
  | .leaf .. => []
  | .node _ f => f.flat

theorem Tree.flat_eq (o : Nat) (t : Tree) : t.flat o = t.head o :: t.nodesBelow := by
  cases t <;> simp [Tree.flat, Tree.nodesBelow]

theorem Tree.below_length (t : Tree) : t.nodesBelow.length + 1 = t.size := by
  have := t.flat_length 0
  rw [Tree.flat_eq] at this
  simpa using this

mutual
/-- Siblings of the nodes of a tree are in the tree. -/
theorem Tree.within (o : Nat) : ∀ (t : Tree) (q : Nat) (n : Node), (t.flat o)[q]? = some n →
    q + n.offset < t.size ∨ q = 0 ∧ n.offset = o
  | .leaf k s l, q, n, h => by
    cases q with
    | zero =>
      simp [Tree.flat] at h
      exact .inr ⟨rfl, by rw [← h]; rfl⟩
    | succ q => simp [Tree.flat] at h
  | .node k f, q, n, h => by
    cases q with
    | zero =>
      simp [Tree.flat] at h
      exact .inr ⟨rfl, by rw [← h]; rfl⟩
    | succ q =>
      simp only [Tree.flat, List.getElem?_cons_succ] at h
      have := Forest.within f q n h
      left
      rw [Tree.size]; omega
theorem Forest.within : ∀ (f : Forest) (q : Nat) (n : Node), f.flat[q]? = some n → q + n.offset < f.size
  | .one t, q, n, h => by
    rw [Forest.flat] at h
    rw [Forest.size]
    rcases Tree.within 0 t q n h with h | ⟨rfl, h⟩
    · exact h
    · have := t.size_pos; omega
  | .cons t f, q, n, h => by
    rw [Forest.flat] at h
    rw [Forest.size]
    have hf := f.size_pos
    by_cases hq : q < t.size
    · rw [List.getElem?_append_left (by rw [Tree.flat_length]; exact hq)] at h
      rcases Tree.within t.size t q n h with h | ⟨rfl, h⟩ <;> omega
    · rw [List.getElem?_append_right (by rw [Tree.flat_length]; omega), Tree.flat_length] at h
      have := Forest.within f _ n h
      omega
end

mutual
/-- The last node is a leaf; it ends where the tree ends. -/
theorem Tree.flat_last (o : Nat) : ∀ t : Tree, ∃ n, (t.flat o).getLast? = some n ∧ n.leaf = true ∧ n.stop = t.stop
  | .leaf k s l => ⟨_, rfl, rfl, by simp [Tree.head, Node.stop, Tree.start, Tree.stop]⟩
  | .node k f => by
    obtain ⟨n, h1, h2, h3⟩ := Forest.flat_last f
    refine ⟨n, ?_, h2, h3⟩
    rw [Tree.flat, List.getLast?_cons, h1]; rfl
theorem Forest.flat_last : ∀ f : Forest, ∃ n, f.flat.getLast? = some n ∧ n.leaf = true ∧ n.stop = f.stop
  | .one t => by
    obtain ⟨n, h1, h2, h3⟩ := Tree.flat_last 0 t
    exact ⟨n, h1, h2, h3⟩
  | .cons t f => by
    obtain ⟨n, h1, h2, h3⟩ := Forest.flat_last f
    exact ⟨n, by rw [Forest.flat, List.getLast?_append, h1]; rfl, h2, h3⟩
end

/-! ## The position of a child -/

/-- Where a tree of a forest is stored. -/
theorem Forest.placed_flat : ∀ (f : Forest) (base j : Nat) (c : Tree), (j, c) ∈ f.placed base →
    ∃ pre post o, f.flat = pre ++ c.flat o ++ post ∧ base + pre.length = j ∧ (o = 0 ∨ o = c.size)
  | .one t, base, j, c, h => by
    simp only [Forest.placed, List.mem_cons, Prod.mk.injEq, List.not_mem_nil, or_false] at h
    obtain ⟨rfl, rfl⟩ := h
    exact ⟨[], [], 0, by simp [Forest.flat], rfl, .inl rfl⟩
  | .cons t f, base, j, c, h => by
    simp only [Forest.placed, List.mem_cons, Prod.mk.injEq] at h
    rcases h with ⟨rfl, rfl⟩ | h
    · exact ⟨[], f.flat, c.size, by simp [Forest.flat], rfl, .inr rfl⟩
    · obtain ⟨pre, post, o, h1, h2, h3⟩ := Forest.placed_flat f _ j c h
      refine ⟨t.flat t.size ++ pre, post, o, by rw [Forest.flat, h1]; simp only [List.append_assoc], ?_, h3⟩
      rw [List.length_append, Tree.flat_length]; omega

/-- The nodes before a tree of a forest: their next siblings are before the tree or the tree itself. -/
theorem Forest.before : ∀ (f : Forest) (base j : Nat) (c : Tree), (j, c) ∈ f.placed base →
    ∀ (q : Nat) (n : Node), q < j - base → f.flat[q]? = some n → base + q + n.offset ≤ j
  | .one t, base, j, c, h, q, n, hq, hn => by
    simp only [Forest.placed, List.mem_cons, Prod.mk.injEq, List.not_mem_nil, or_false] at h
    omega
  | .cons t f, base, j, c, h, q, n, hq, hn => by
    simp only [Forest.placed, List.mem_cons, Prod.mk.injEq] at h
    rcases h with ⟨rfl, rfl⟩ | h
    · omega
    · rw [Forest.flat] at hn
      obtain ⟨pre, post, o, -, hj, -⟩ := Forest.placed_flat f _ j c h
      by_cases hqt : q < t.size
      · rw [List.getElem?_append_left (by rw [Tree.flat_length]; exact hqt)] at hn
        rcases Tree.within t.size t q n hn with h | ⟨rfl, h⟩ <;> omega
      · rw [List.getElem?_append_right (by rw [Tree.flat_length]; omega), Tree.flat_length] at hn
        have := Forest.before f _ j c h _ n (by omega) hn
        omega

/-- Where a subtree is stored. -/
theorem loc_stored {k : Nat} {f : Forest} {i : Nat} {t : Tree} (h : Loc (.node k f) i t) :
    ∃ A n B, stored k f = A ++ n :: (t.nodesBelow ++ B) ∧ A.length = i ∧ n.leaf = t.isLeaf ∧ n.kind = t.kind ∧
      (n.offset = 0 ∨ n.offset = t.size) ∧ (i ≠ 0 → n = t.head n.offset) ∧ (i = 0 → n.start = 0 ∧ n.length = t.stop ∧ t = .node k f) := by
  induction h with
  | root => exact ⟨[], ⟨0, false, k, 0, f.stop⟩, [], by simp [stored, Tree.nodesBelow], rfl, rfl, rfl, .inl rfl, by simp, fun _ => ⟨rfl, rfl, rfl⟩⟩
  | @child i k' f' j c h hm ih =>
    obtain ⟨A, n, B, h1, h2, h3, h4, h5, -⟩ := ih
    obtain ⟨pre, post, o, h6, h7, h8⟩ := Forest.placed_flat f' _ j c hm
    refine ⟨A ++ n :: pre, c.head o, post ++ B, ?_, ?_, rfl, rfl, h8, fun _ => rfl, ?_⟩
    · rw [h1, Tree.nodesBelow, h6, Tree.flat_eq]
      simp only [List.append_assoc, List.cons_append]
    · rw [List.length_append, List.length_cons]; omega
    · intro hj; omega

/-- Subtrees are intervals: no node before the subtree has its next sibling inside. -/
theorem loc_laminar {k : Nat} {f : Forest} {i : Nat} {t : Tree} (h : Loc (.node k f) i t) :
    ∀ (q : Nat) (n : Node), q < i → (stored k f)[q]? = some n → q + n.offset ≤ i ∨ i + t.size ≤ q + n.offset := by
  induction h with
  | root => intro q n hq; omega
  | @child i k' f' j c h hm ih =>
    intro q n hq hn
    obtain ⟨A, m, B, h1, h2, -, -, h5, -⟩ := loc_stored h
    obtain ⟨pre, post, o, h6, h7, h8⟩ := Forest.placed_flat f' _ j c hm
    have hsz : f'.size = pre.length + c.size + post.length := by
      rw [← Forest.flat_length, h6, List.length_append, List.length_append, Tree.flat_length]
    have hs : (Tree.node k' f').size = 1 + f'.size := rfl
    by_cases hqi : q < i
    · rcases ih q n hqi hn with h | h <;> omega
    · rw [h1, Tree.nodesBelow] at hn
      rw [List.getElem?_append_right (by omega)] at hn
      by_cases hq' : q = i
      · subst hq'
        rw [h2, Nat.sub_self, List.getElem?_cons_zero, Option.some.injEq] at hn
        subst hn
        omega
      · rw [show q - A.length = (q - i - 1) + 1 by omega, List.getElem?_cons_succ,
          List.getElem?_append_left (by rw [Forest.flat_length]; omega)] at hn
        have := Forest.before f' _ j c hm _ n (by omega) hn
        omega

/-! ## The loops -/

theorem parentLoop_within (ns R : List Node) (sib : Nat) (hw : ∀ q n, ns[q]? = some n → q + n.offset < ns.length)
    (hl : ∀ n, ns.getLast? = some n → n.leaf = true) :
    parentLoop (ns.reverse ++ R) sib sib = parentLoop R (sib + ns.length) sib := by
  have key : ∀ (m : Nat) (pre suf : List Node), pre.length = m → ns = pre ++ suf →
      parentLoop (pre.reverse ++ R) (sib + suf.length) sib = parentLoop R (sib + ns.length) sib := by
    intro m
    induction m with
    | zero =>
      intro pre suf hp he
      have : pre = [] := List.length_eq_zero_iff.mp hp
      subst this
      simp only [List.nil_append] at he
      subst he; rfl
    | succ m ih =>
      intro pre suf hp he
      rcases List.eq_nil_or_concat pre with rfl | ⟨p, n, rfl⟩
      · simp at hp
      · simp only [List.concat_eq_append] at he hp ⊢
        rw [List.length_append, List.length_singleton] at hp
        have hn := hw p.length n (by rw [he]; simp)
        have hlen : ns.length = p.length + 1 + suf.length := by rw [he]; simp; omega
        rw [List.reverse_append, List.reverse_singleton, List.singleton_append, List.cons_append, parentLoop]
        rw [if_neg, if_neg (by omega)]
        · have := ih p (n :: suf) (by omega) (by rw [he]; simp)
          rw [List.length_cons] at this
          rw [Nat.add_assoc]
          exact this
        · rintro ⟨h | ⟨h1, h2⟩, h3⟩
          · omega
          · have : suf = [] := List.length_eq_zero_iff.mp (by omega)
            subst this
            rw [hl n (by rw [he]; simp)] at h3
            exact absurd h3 (by decide)
  have := key ns.length ns [] rfl (by simp)
  simpa using this

theorem Tree.below_within (t : Tree) : ∀ q n, t.nodesBelow[q]? = some n → q + n.offset < t.nodesBelow.length := by
  cases t with
  | leaf k s l => intro q n h; simp [Tree.nodesBelow] at h
  | node k f => intro q n h; rw [Tree.nodesBelow] at h ⊢; rw [Forest.flat_length]; exact Forest.within f q n h

theorem Tree.below_last (t : Tree) : ∀ n, t.nodesBelow.getLast? = some n → n.leaf = true := by
  cases t with
  | leaf k s l => intro n h; simp [Tree.nodesBelow] at h
  | node k f =>
    intro n h
    obtain ⟨m, h1, h2, -⟩ := f.flat_last
    rw [Tree.nodesBelow, h1] at h
    simp only [Option.some.injEq] at h
    subst h; exact h2

theorem parentLoop_tree (t : Tree) (R : List Node) (sib : Nat) :
    parentLoop ((t.flat t.size).reverse ++ R) sib sib = parentLoop R (sib + t.size) (sib + t.size) := by
  have hs := t.below_length
  rw [Tree.flat_eq, List.reverse_cons, List.append_assoc, parentLoop_within _ _ _ t.below_within t.below_last]
  rw [List.singleton_append, parentLoop]
  have : (t.head t.size).offset = t.size := rfl
  rw [this, if_neg (by omega), if_pos (by omega)]
  congr 1 <;> omega

theorem parentLoop_before : ∀ (f : Forest) (base j : Nat) (c : Tree) (R : List Node) (sib : Nat), (j, c) ∈ f.placed base →
    ∀ pre post, f.flat = pre ++ post → base + pre.length = j →
    parentLoop (pre.reverse ++ R) sib sib = parentLoop R (sib + pre.length) (sib + pre.length)
  | .one t, base, j, c, R, sib, h, pre, post, _, hp => by
    simp only [Forest.placed, List.mem_cons, Prod.mk.injEq, List.not_mem_nil, or_false] at h
    have : pre = [] := List.length_eq_zero_iff.mp (by omega)
    subst this; rfl
  | .cons t f, base, j, c, R, sib, h, pre, post, he, hp => by
    simp only [Forest.placed, List.mem_cons, Prod.mk.injEq] at h
    rcases h with ⟨rfl, rfl⟩ | h
    · have : pre = [] := List.length_eq_zero_iff.mp (by omega)
      subst this; rfl
    · obtain ⟨pre0, -, -, -, hj, -⟩ := Forest.placed_flat f _ j c h
      rw [Forest.flat] at he
      have hlen : t.size ≤ pre.length := by omega
      obtain ⟨pre', rfl⟩ : ∃ pre', pre = t.flat t.size ++ pre' := by
        refine ⟨pre.drop t.size, ?_⟩
        have := congrArg (List.take t.size) he
        rw [List.take_append_of_le_length (by rw [Tree.flat_length]; exact Nat.le_refl _),
          List.take_of_length_le (by rw [Tree.flat_length]; exact Nat.le_refl _), List.take_append_of_le_length hlen] at this
        rw [this, List.take_append_drop]
      rw [List.append_assoc] at he
      have he' := List.append_cancel_left he
      rw [List.length_append, Tree.flat_length] at hp ⊢
      rw [List.reverse_append, List.append_assoc]
      rw [parentLoop_before f _ j c _ sib h pre' post he' (by omega)]
      rw [parentLoop_tree]
      congr 1 <;> omega

theorem previousSiblingLoop_within (ns R : List Node) (d : Nat) (hw : ∀ q n, ns[q]? = some n → q + n.offset < ns.length) :
    previousSiblingLoop (ns.reverse ++ R) d = previousSiblingLoop R (d + ns.length) := by
  have key : ∀ (m : Nat) (pre suf : List Node), pre.length = m → ns = pre ++ suf →
      previousSiblingLoop (pre.reverse ++ R) (d + suf.length) = previousSiblingLoop R (d + ns.length) := by
    intro m
    induction m with
    | zero =>
      intro pre suf hp he
      have : pre = [] := List.length_eq_zero_iff.mp hp
      subst this
      simp only [List.nil_append] at he
      subst he; rfl
    | succ m ih =>
      intro pre suf hp he
      rcases List.eq_nil_or_concat pre with rfl | ⟨p, n, rfl⟩
      · simp at hp
      · simp only [List.concat_eq_append] at he hp ⊢
        rw [List.length_append, List.length_singleton] at hp
        have hn := hw p.length n (by rw [he]; simp)
        have hlen : ns.length = p.length + 1 + suf.length := by rw [he]; simp; omega
        rw [List.reverse_append, List.reverse_singleton, List.singleton_append, List.cons_append, previousSiblingLoop]
        rw [if_neg (by omega), if_neg (by omega)]
        have := ih p (n :: suf) (by omega) (by rw [he]; simp)
        rw [List.length_cons] at this
        rw [Nat.add_assoc]
        exact this
  have := key ns.length ns [] rfl (by simp)
  simpa using this

theorem previousSiblingLoop_none : ∀ (ns : List Node) (d : Nat),
    (∀ q n, ns.reverse[q]? = some n → q + n.offset ≠ ns.length + d) → previousSiblingLoop ns d = none
  | [], _, _ => rfl
  | n :: ns, d, h => by
    have hn := h ns.length n (by simp)
    rw [List.length_cons] at hn
    rw [previousSiblingLoop, if_neg (by omega)]
    split
    · rfl
    · apply previousSiblingLoop_none
      intro q m hm
      have hlt : q < ns.length := by
        have := (List.getElem?_eq_some_iff.mp hm).1
        simpa using this
      have := h q m (by rw [List.reverse_cons, List.getElem?_append_left (by simpa using hlt)]; exact hm)
      rw [List.length_cons] at this
      omega

/-! ## Leaves -/

def leafPositions : List Node → Nat → List Nat
  | [], _ => []
  | n :: ns, i => if n.leaf then i :: leafPositions ns (i + 1) else leafPositions ns (i + 1)

theorem leafPositions_append (a b : List Node) (i : Nat) :
    leafPositions (a ++ b) i = leafPositions a i ++ leafPositions b (i + a.length) := by
  induction a generalizing i with
  | nil => rfl
  | cons n a ih =>
    simp only [List.cons_append, leafPositions, ih, List.length_cons]
    rw [show i + 1 + a.length = i + (a.length + 1) by omega]
    split <;> rfl

theorem mem_leafPositions (ns : List Node) (i j : Nat) :
    j ∈ leafPositions ns i ↔ i ≤ j ∧ ∃ n, ns[j - i]? = some n ∧ n.leaf = true := by
  induction ns generalizing i with
  | nil => simp [leafPositions]
  | cons m ns ih =>
    have step : (j ∈ leafPositions ns (i + 1)) ↔ i + 1 ≤ j ∧ ∃ n, (m :: ns)[j - i]? = some n ∧ n.leaf = true := by
      rw [ih]
      constructor
      · rintro ⟨h, n, hn⟩
        refine ⟨h, n, ?_⟩
        rw [show j - i = (j - (i + 1)) + 1 by omega]
        exact hn
      · rintro ⟨h, n, hn⟩
        refine ⟨h, n, ?_⟩
        rw [show j - i = (j - (i + 1)) + 1 by omega] at hn
        exact hn
    rw [leafPositions]
    split
    · rename_i hl
      rw [List.mem_cons, step]
      constructor
      · rintro (rfl | ⟨h, hn⟩)
        · exact ⟨Nat.le_refl _, m, by simp, hl⟩
        · exact ⟨by omega, hn⟩
      · rintro ⟨h, hn⟩
        by_cases hj : j = i
        · exact .inl hj
        · exact .inr ⟨by omega, hn⟩
    · rename_i hl
      rw [step]
      constructor
      · rintro ⟨h, hn⟩; exact ⟨by omega, hn⟩
      · rintro ⟨h, n, hn, hnl⟩
        refine ⟨?_, n, hn, hnl⟩
        by_cases hj : j = i
        · subst hj
          simp at hn
          subst hn
          exact absurd hnl hl
        · omega

theorem leafPositions_sorted (ns : List Node) (i : Nat) : (leafPositions ns i).Pairwise (· < ·) := by
  induction ns generalizing i with
  | nil => exact .nil
  | cons n ns ih =>
    rw [leafPositions]
    split
    · refine List.Pairwise.cons ?_ (ih _)
      intro j hj
      have := ((mem_leafPositions ns (i + 1) j).mp hj).1
      omega
    · exact ih _

mutual
theorem Tree.leaves_positions (o : Nat) : ∀ (t : Tree) (i : Nat), (t.leaves i).map Prod.fst = leafPositions (t.flat o) i
  | .leaf .., i => by simp [Tree.leaves, Tree.flat, leafPositions, Tree.head, Tree.isLeaf]
  | .node k f, i => by
    rw [Tree.leaves, Tree.flat, leafPositions, Forest.leaves_positions f (i + 1)]
    simp [Tree.head, Tree.isLeaf]
theorem Forest.leaves_positions : ∀ (f : Forest) (i : Nat), (f.leaves i).map Prod.fst = leafPositions f.flat i
  | .one t, i => by rw [Forest.leaves, Forest.flat]; exact Tree.leaves_positions 0 t i
  | .cons t f, i => by
    rw [Forest.leaves, Forest.flat, List.map_append, leafPositions_append, Tree.flat_length, Tree.leaves_positions t.size t i,
      Forest.leaves_positions f]
end

theorem nextLeaf_some {nodes : List Node} {i j : Nat} (hij : i < j) (hj : ∃ n, nodes[j]? = some n ∧ n.leaf = true)
    (hb : ∀ q, i < q → q < j → ∀ n, nodes[q]? = some n → n.leaf = false) : nextLeaf nodes i = some j := by
  unfold nextLeaf
  obtain ⟨n, hn, hl⟩ := hj
  have : (nodes.drop (i + 1)).findIdx? (·.leaf) = some (j - (i + 1)) := by
    rw [List.findIdx?_eq_some_iff_getElem]
    have hlt := (List.getElem?_eq_some_iff.mp hn).1
    refine ⟨by rw [List.length_drop]; omega, ?_, ?_⟩
    · rw [List.getElem_drop]
      have : nodes[i + 1 + (j - (i + 1))]? = some n := by rw [show i + 1 + (j - (i + 1)) = j by omega]; exact hn
      rw [(List.getElem?_eq_some_iff.mp this).2]
      exact hl
    · intro q hq
      rw [List.getElem_drop]
      simp only [Bool.not_eq_true]
      exact hb (i + 1 + q) (by omega) (by omega) _ (List.getElem?_eq_getElem _)
  rw [this]
  simp only [Option.map_some, Option.some.injEq]
  omega

theorem nextLeaf_none {nodes : List Node} {i : Nat} (hb : ∀ q, i < q → ∀ n, nodes[q]? = some n → n.leaf = false) :
    nextLeaf nodes i = none := by
  unfold nextLeaf
  have : (nodes.drop (i + 1)).findIdx? (·.leaf) = none := by
    rw [List.findIdx?_eq_none_iff]
    intro n hn
    obtain ⟨q, hq⟩ := List.mem_iff_getElem?.mp hn
    rw [List.getElem?_drop] at hq
    exact hb (i + 1 + q) (by omega) n hq
  rw [this]; rfl

theorem previousLeaf_some {nodes : List Node} {i j : Nat} (hji : j < i) (hi : i ≤ nodes.length)
    (hj : ∃ n, nodes[j]? = some n ∧ n.leaf = true)
    (hb : ∀ q, j < q → q < i → ∀ n, nodes[q]? = some n → n.leaf = false) : previousLeaf nodes i = some j := by
  unfold previousLeaf
  obtain ⟨n, hn, hl⟩ := hj
  have hlen : (nodes.take i).length = i := by rw [List.length_take]; omega
  have : (nodes.take i).reverse.findIdx? (·.leaf) = some (i - 1 - j) := by
    rw [List.findIdx?_eq_some_iff_getElem]
    refine ⟨by rw [List.length_reverse, hlen]; omega, ?_, ?_⟩
    · rw [List.getElem_reverse, List.getElem_take]
      have : nodes[(nodes.take i).length - 1 - (i - 1 - j)]? = some n := by rw [hlen, show i - 1 - (i - 1 - j) = j by omega]; exact hn
      rw [(List.getElem?_eq_some_iff.mp this).2]
      exact hl
    · intro q hq
      rw [List.getElem_reverse, List.getElem_take]
      simp only [Bool.not_eq_true]
      exact hb ((nodes.take i).length - 1 - q) (by omega) (by omega) _ (List.getElem?_eq_getElem _)
  rw [this]
  simp only [Option.map_some, Option.some.injEq]
  omega

theorem previousLeaf_none {nodes : List Node} {i : Nat} (hb : ∀ q, q < i → ∀ n, nodes[q]? = some n → n.leaf = false) :
    previousLeaf nodes i = none := by
  unfold previousLeaf
  have : (nodes.take i).reverse.findIdx? (·.leaf) = none := by
    rw [List.findIdx?_eq_none_iff]
    intro n hn
    rw [List.mem_reverse] at hn
    obtain ⟨q, hq⟩ := List.mem_iff_getElem?.mp hn
    rw [List.getElem?_take] at hq
    split at hq
    · exact hb q ‹_› n hq
    · simp at hq
  rw [this]; rfl

/-! ## Siblings -/

theorem siblings_forest : ∀ (f : Forest) (A B nodes : List Node), nodes = A ++ (f.flat ++ B) →
    siblings nodes A.length = some ((f.placed A.length).map Prod.fst)
  | .one t, A, B, nodes, h => by
    rw [siblings.eq_def]
    have : nodes[A.length]? = some (t.head 0) := by rw [h, Forest.flat, Tree.flat_eq]; simp
    split
    · rename_i h'; rw [this] at h'; simp at h'
    · rename_i n h'
      rw [this] at h'
      simp only [Option.some.injEq] at h'
      subst h'
      rw [if_pos (show (t.head 0).offset = 0 from rfl)]; rfl
  | .cons t f, A, B, nodes, h => by
    rw [siblings.eq_def]
    have : nodes[A.length]? = some (t.head t.size) := by rw [h, Forest.flat, Tree.flat_eq]; simp
    split
    · rename_i h'; rw [this] at h'; simp at h'
    · rename_i n h'
      rw [this] at h'
      simp only [Option.some.injEq] at h'
      subst h'
      have hs := t.size_pos
      rw [if_neg (by show ¬ t.size = 0; omega)]
      have ih := siblings_forest f (A ++ t.flat t.size) B nodes (by rw [h, Forest.flat]; simp)
      rw [List.length_append, Tree.flat_length] at ih
      have e : (t.head t.size).offset = t.size := rfl
      rw [e, ih]
      rfl

mutual
theorem Tree.lastLeaf_eq : ∀ (t : Tree) (A B nodes : List Node) (n : Node) (fuel : Nat), nodes = A ++ n :: (t.nodesBelow ++ B) →
    n.leaf = t.isLeaf → t.size ≤ fuel → lastLeaf nodes fuel A.length = (t.leaves A.length).getLast?.map Prod.fst
  | .leaf k s l, A, B, nodes, n, fuel, h, hl, hf => by
    obtain ⟨fuel, rfl⟩ : ∃ m, fuel = m + 1 := ⟨fuel - 1, by simp [Tree.size] at hf; omega⟩
    have : nodes[A.length]? = some n := by rw [h]; simp
    rw [lastLeaf, this]
    simp only [hl, Tree.isLeaf, if_true]
    rfl
  | .node k f, A, B, nodes, n, fuel, h, hl, hf => by
    have hs : (Tree.node k f).size = 1 + f.size := rfl
    obtain ⟨fuel, rfl⟩ : ∃ m, fuel = m + 1 := ⟨fuel - 1, by omega⟩
    have : nodes[A.length]? = some n := by rw [h]; simp
    rw [lastLeaf, this]
    simp only [hl, Tree.isLeaf]
    have h' : nodes = (A ++ [n]) ++ (f.flat ++ B) := by rw [h, Tree.nodesBelow]; simp
    have hsib := siblings_forest f (A ++ [n]) B nodes h'
    have hll := Forest.lastLeaf_eq f (A ++ [n]) B nodes fuel h' (by omega)
    rw [List.length_append, List.length_singleton] at hsib hll
    rw [hsib]
    obtain ⟨c, t, h1, h2⟩ := hll
    simp only [List.getLast?_map, h1, Option.map_some]
    rw [h2, Tree.leaves]
    simp
theorem Forest.lastLeaf_eq : ∀ (f : Forest) (A B nodes : List Node) (fuel : Nat), nodes = A ++ (f.flat ++ B) → f.size ≤ fuel →
    ∃ c t, (f.placed A.length).getLast? = some (c, t) ∧ lastLeaf nodes fuel c = (f.leaves A.length).getLast?.map Prod.fst
  | .one t, A, B, nodes, fuel, h, hf => by
    refine ⟨_, _, rfl, ?_⟩
    rw [Forest.leaves]
    exact Tree.lastLeaf_eq t A B nodes (t.head 0) fuel (by rw [h, Forest.flat, Tree.flat_eq]; simp) rfl hf
  | .cons t f, A, B, nodes, fuel, h, hf => by
    obtain ⟨c, t', h1, h2⟩ := Forest.lastLeaf_eq f (A ++ t.flat t.size) B nodes fuel (by rw [h, Forest.flat]; simp)
      (by rw [Forest.size] at hf; omega)
    rw [List.length_append, Tree.flat_length] at h1 h2
    refine ⟨c, t', ?_, ?_⟩
    · rw [Forest.placed, List.getLast?_cons, h1]; rfl
    · rw [h2, Forest.leaves, List.getLast?_append]
      have hne : f.leaves (A.length + t.size) ≠ [] := by
        intro he
        have := Forest.leaves_positions f (A.length + t.size)
        rw [he] at this
        obtain ⟨n, hn, hl, -⟩ := f.flat_last
        have hm : A.length + t.size + (f.flat.length - 1) ∈ leafPositions f.flat (A.length + t.size) := by
          rw [mem_leafPositions]
          refine ⟨by omega, n, ?_, hl⟩
          rw [Nat.add_sub_cancel_left, ← List.getLast?_eq_getElem?]
          exact hn
        rw [← this] at hm
        simp at hm
      rw [List.getLast?_eq_some_getLast hne]
      rfl
end

end Verif.Tree
