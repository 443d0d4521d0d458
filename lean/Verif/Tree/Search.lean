import Verif.Tree.Position

/-!
# Searching a subtree (C59)
-/

namespace Verif.Tree

/-! ## Specification -/

mutual
/-- The numbers of the outermost nodes with one of the kinds that begin before `stop`. -/
def Tree.outermost (kinds : List Nat) (stop : Nat) : Tree → Nat → List Nat
  | .leaf k s _, i => if k ∈ kinds ∧ s < stop then [i] else []
  | .node k f, i => if k ∈ kinds ∧ f.start < stop then [i] else f.outermost kinds stop (i + 1)
def Forest.outermost (kinds : List Nat) (stop : Nat) : Forest → Nat → List Nat
  | .one t, i => t.outermost kinds stop i
  | .cons t f, i => t.outermost kinds stop i ++ f.outermost kinds stop (i + t.size)
end

/-- The file ends with an empty leaf, the end marker. -/
def Forest.EndsEmpty : Forest → Prop
  | .one (.leaf _ _ 0) => True
  | .one _ => False
  | .cons _ f => f.EndsEmpty

/-! ## Proofs -/

/-- The result from number `p` on, for all bounds that suffice. -/
def Res (nodes : List Node) (types : List Nat) (avoid : Bool) (stop p : Nat) (r : List Nat) : Prop :=
  ∀ fuel, nodes.length + 1 ≤ fuel + p → searchFrom nodes types avoid stop fuel p = some r

mutual
/-- What a search finds in a tree. -/
def Tree.found (types : List Nat) (avoid : Bool) (stop : Nat) : Tree → Nat → List Nat
  | .leaf k s _, i => if k ∈ types ∧ s < stop then [i] else []
  | .node k f, i =>
    if k ∈ types ∧ f.start < stop then i :: (if avoid then [] else f.found types avoid stop (i + 1))
    else f.found types avoid stop (i + 1)
def Forest.found (types : List Nat) (avoid : Bool) (stop : Nat) : Forest → Nat → List Nat
  | .one t, i => t.found types avoid stop i
  | .cons t f, i => t.found types avoid stop i ++ f.found types avoid stop (i + t.size)
end

section
variable {nodes : List Node} {types : List Nat} {avoid : Bool} {stop p : Nat} {r : List Nat}

theorem res_stop {n : Node} (hn : nodes[p]? = some n) (h : stop ≤ n.start) : Res nodes types avoid stop p [] := by
  intro fuel hf
  have hlt := (List.getElem?_eq_some_iff.mp hn).1
  obtain ⟨fuel, rfl⟩ : ∃ m, fuel = m + 1 := ⟨fuel - 1, by omega⟩
  rw [searchFrom, List.drop_eq_getElem_cons hlt, searchLoop, if_pos]
  rw [(List.getElem?_eq_some_iff.mp hn).2]; exact h

theorem res_skip {n : Node} (hn : nodes[p]? = some n) (h : n.start < stop) (hk : n.kind ∉ types)
    (hr : Res nodes types avoid stop (p + 1) r) : Res nodes types avoid stop p r := by
  intro fuel hf
  obtain ⟨hlt, he⟩ := List.getElem?_eq_some_iff.mp hn
  have := hr fuel (by omega)
  obtain ⟨fuel, rfl⟩ : ∃ m, fuel = m + 1 := ⟨fuel - 1, by omega⟩
  rw [searchFrom] at this ⊢
  rw [List.drop_eq_getElem_cons hlt, searchLoop, he, if_neg (by omega), if_neg hk]
  exact this

theorem res_all {n : Node} (hn : nodes[p]? = some n) (h : n.start < stop) (hk : n.kind ∈ types)
    (hr : Res nodes types false stop (p + 1) r) : Res nodes types false stop p (p :: r) := by
  intro fuel hf
  obtain ⟨hlt, he⟩ := List.getElem?_eq_some_iff.mp hn
  obtain ⟨fuel, rfl⟩ : ∃ m, fuel = m + 1 := ⟨fuel - 1, by omega⟩
  have := hr fuel (by omega)
  rw [searchFrom, List.drop_eq_getElem_cons hlt, searchLoop, he, if_neg (by omega), if_pos hk]
  simp [this]

theorem res_avoid {n : Node} (hn : nodes[p]? = some n) (h : n.start < stop) (hk : n.kind ∈ types) {s : Nat} (hs : 0 < s)
    (ho : n.offset = s ∨ n.offset = 0 ∧ lastLeaf nodes nodes.length p = some (p + s - 1))
    (hr : Res nodes types true stop (p + s) r) : Res nodes types true stop p (p :: r) := by
  intro fuel hf
  obtain ⟨hlt, he⟩ := List.getElem?_eq_some_iff.mp hn
  obtain ⟨fuel, rfl⟩ : ∃ m, fuel = m + 1 := ⟨fuel - 1, by omega⟩
  have := hr fuel (by omega)
  rw [searchFrom, List.drop_eq_getElem_cons hlt, searchLoop, he, if_neg (by omega), if_pos hk]
  simp only [if_true]
  rcases ho with ho | ⟨ho, hl⟩
  · rw [if_neg (by omega), ho]
    simp [this]
  · rw [if_pos ho, hl]
    simp only [Option.map_some]
    rw [show p + s - 1 + 1 = p + s by omega, this]
    rfl
end

/-- The last leaf is the last entry of the subtree. -/
theorem Tree.last_position (t : Tree) (i : Nat) : (t.leaves i).getLast?.map Prod.fst = some (i + t.size - 1) := by
  have h := t.leaves_positions 0 i
  obtain ⟨n, hn, hl, -⟩ := t.flat_last 0
  have hsz := t.size_pos
  have hm : i + (t.size - 1) ∈ leafPositions (t.flat 0) i := by
    rw [mem_leafPositions]
    refine ⟨by omega, n, ?_, hl⟩
    rw [Nat.add_sub_cancel_left, ← t.flat_length 0, ← List.getLast?_eq_getElem?]
    exact hn
  have hsort := leafPositions_sorted (t.flat 0) i
  rw [← List.getLast?_map, h]
  have hne : leafPositions (t.flat 0) i ≠ [] := List.ne_nil_of_mem hm
  rw [List.getLast?_eq_some_getLast hne]
  have hl2 := (mem_leafPositions _ _ _).mp (List.getLast_mem hne)
  have hb := (List.getElem?_eq_some_iff.mp hl2.2.choose_spec.1).1
  rw [Tree.flat_length] at hb
  have hle : i + (t.size - 1) ≤ (leafPositions (t.flat 0) i).getLast hne := by
    rw [← List.dropLast_concat_getLast hne] at hm hsort
    rcases List.mem_append.mp hm with hm | hm
    · have := (List.pairwise_append.mp hsort).2.2 _ hm _ (List.mem_singleton.mpr rfl)
      simp at this ⊢; omega
    · rw [List.mem_singleton] at hm; omega
  simp only [Option.some.injEq]
  omega

mutual
theorem Tree.found_after (types : List Nat) (avoid : Bool) (stop : Nat) : ∀ (t : Tree) (i : Nat), t.Ordered → stop ≤ t.start →
    t.found types avoid stop i = []
  | .leaf k s l, i, _, h => by rw [Tree.found, if_neg]; rintro ⟨-, h'⟩; simp only [Tree.start] at h; omega
  | .node k f, i, ho, h => by
    simp only [Tree.start] at h
    rw [Tree.found, if_neg (by rintro ⟨-, h'⟩; omega)]
    exact Forest.found_after types avoid stop f (i + 1) ho h
theorem Forest.found_after (types : List Nat) (avoid : Bool) (stop : Nat) : ∀ (f : Forest) (i : Nat), f.Ordered → stop ≤ f.start →
    f.found types avoid stop i = []
  | .one t, i, ho, h => Tree.found_after types avoid stop t i ho h
  | .cons t f, i, ⟨h1, h2, h3⟩, h => by
    have hle : t.start ≤ t.stop := by
      obtain ⟨p, hp⟩ := List.exists_mem_of_ne_nil _ (t.leaves_ne_nil 0)
      have := (Tree.leaves_order t 0 h1).2 p hp; omega
    simp only [Forest.start] at h
    rw [Forest.found, Tree.found_after types avoid stop t i h1 h, Forest.found_after types avoid stop f _ h2 (by omega)]
    rfl
end

mutual
theorem Tree.search_res (types : List Nat) (avoid : Bool) (stop : Nat) : ∀ (t : Tree) (A B nodes : List Node) (n : Node) (r : List Nat),
    nodes = A ++ n :: (t.nodesBelow ++ B) → t.Ordered → n.start = t.start → n.kind = t.kind → n.leaf = t.isLeaf →
    (n.offset = t.size ∨ n.offset = 0) → Res nodes types avoid stop (A.length + t.size) r → ((∃ m ∈ t.flat 0, stop ≤ m.start) → r = []) →
    Res nodes types avoid stop A.length (t.found types avoid stop A.length ++ r)
  | t, A, B, nodes, n, r, h, hord, hs, hk, hl, hof, hr, hcut => by
    have hn : nodes[A.length]? = some n := by rw [h]; simp
    have hsz := t.size_pos
    have hnl : t.size ≤ nodes.length := by
      have := t.below_length
      rw [h]; simp; omega
    by_cases hstop : stop ≤ t.start
    · rw [Tree.found_after types avoid stop t _ hord hstop, hcut ⟨t.head 0, by rw [Tree.flat_eq]; simp, hstop⟩]
      exact res_stop hn (by omega)
    · match t, avoid with
      | .leaf k s l, avoid =>
        rw [Tree.found]
        simp only [Tree.start] at hs hstop
        have hkk : n.kind = k := hk
        by_cases hin : k ∈ types
        · rw [if_pos ⟨hin, by omega⟩]
          cases avoid with
          | false => exact res_all hn (by omega) (by rw [hkk]; exact hin) hr
          | true =>
            refine res_avoid hn (by omega) (by rw [hkk]; exact hin) (s := 1) (by omega) ?_ hr
            rcases hof with ho | ho
            · exact .inl ho
            · refine .inr ⟨ho, ?_⟩
              rw [Tree.lastLeaf_eq _ A B nodes n nodes.length h hl hnl, Tree.last_position]
              rfl
        · rw [if_neg (by rintro ⟨h1, -⟩; exact hin h1)]
          exact res_skip hn (by omega) (by rw [hkk]; exact hin) hr
      | .node k f, avoid =>
        have hkk : n.kind = k := hk
        have h' : nodes = (A ++ [n]) ++ (f.flat ++ B) := by rw [h, Tree.nodesBelow]; simp
        have hsf : (Tree.node k f).size = 1 + f.size := rfl
        have hf := Forest.search_res types avoid stop f (A ++ [n]) B nodes r h' hord
          (by rw [List.length_append, List.length_singleton, Nat.add_assoc, ← hsf]; exact hr)
          (by rintro ⟨m, hm, hms⟩; exact hcut ⟨m, by rw [Tree.flat]; simp [hm], hms⟩)
        rw [List.length_append, List.length_singleton] at hf
        simp only [Tree.start] at hs hstop
        rw [Tree.found]
        by_cases hin : k ∈ types
        · rw [if_pos ⟨hin, by omega⟩]
          match avoid with
          | false => exact res_all hn (by omega) (by rw [hkk]; exact hin) hf
          | true =>
            refine res_avoid hn (by omega) (by rw [hkk]; exact hin) hsz ?_ hr
            rcases hof with ho | ho
            · exact .inl ho
            · refine .inr ⟨ho, ?_⟩
              rw [Tree.lastLeaf_eq _ A B nodes n nodes.length h hl hnl, Tree.last_position]
        · rw [if_neg (by rintro ⟨h1, -⟩; exact hin h1)]
          exact res_skip hn (by omega) (by rw [hkk]; exact hin) hf
theorem Forest.search_res (types : List Nat) (avoid : Bool) (stop : Nat) : ∀ (f : Forest) (A B nodes : List Node) (r : List Nat),
    nodes = A ++ (f.flat ++ B) → f.Ordered → Res nodes types avoid stop (A.length + f.size) r → ((∃ m ∈ f.flat, stop ≤ m.start) → r = []) →
    Res nodes types avoid stop A.length (f.found types avoid stop A.length ++ r)
  | .one t, A, B, nodes, r, h, hord, hr, hcut =>
    Tree.search_res types avoid stop t A B nodes (t.head 0) r (by rw [h, Forest.flat, Tree.flat_eq]; simp) hord rfl rfl rfl (.inr rfl) hr hcut
  | .cons t f, A, B, nodes, r, h, hord, hr, hcut => by
    have h' : nodes = (A ++ t.flat t.size) ++ (f.flat ++ B) := by rw [h, Forest.flat]; simp
    have hf := Forest.search_res types avoid stop f _ B nodes r h' hord.2.1
      (by rw [List.length_append, Tree.flat_length, Nat.add_assoc]; exact hr)
      (by rintro ⟨m, hm, hms⟩; exact hcut ⟨m, by rw [Forest.flat]; simp [hm], hms⟩)
    rw [List.length_append, Tree.flat_length] at hf
    rw [Forest.found, List.append_assoc]
    refine Tree.search_res types avoid stop t A (f.flat ++ B) nodes (t.head t.size) _ ?_ hord.1 rfl rfl rfl (.inl rfl) hf ?_
    · rw [h', Tree.flat_eq]; simp
    · rintro ⟨m, hm, hms⟩
      have h1 := (Tree.flat_order 0 t hord.1).2 m hm
      have h2 := hord.2.2
      rw [Forest.found_after types avoid stop f _ hord.2.1 (by omega)]
      obtain ⟨e, -⟩ := f.flat_last
      rw [List.nil_append]
      apply hcut
      obtain ⟨e, he, -⟩ := f.flat_last
      have hem := List.mem_of_getLast? he
      have := ((Forest.flat_order f hord.2.1).2 e hem).1
      exact ⟨e, by rw [Forest.flat]; simp [hem], by omega⟩
end

theorem Forest.search_end (types : List Nat) (avoid : Bool) : ∀ (f : Forest) (A nodes : List Node),
    nodes = A ++ f.flat → f.Ordered → f.EndsEmpty → Res nodes types avoid f.stop A.length (f.found types avoid f.stop A.length)
  | .one (.leaf k s 0), A, nodes, h, hord, _ => by
    rw [Forest.found, Tree.found_after _ _ _ _ _ hord (by simp [Forest.stop, Tree.stop, Tree.start])]
    exact res_stop (n := (Tree.leaf k s 0).head 0) (by rw [h]; simp [Forest.flat, Tree.flat]) (by simp [Forest.stop, Tree.stop, Tree.start, Tree.head])
  | .one (.leaf k s (l + 1)), A, nodes, h, hord, he => he.elim
  | .one (.node k g), A, nodes, h, hord, he => he.elim
  | .cons t f, A, nodes, h, hord, he => by
    have h' : nodes = (A ++ t.flat t.size) ++ f.flat := by rw [h, Forest.flat]; simp
    have ih := Forest.search_end types avoid f _ nodes h' hord.2.1 he
    rw [List.length_append, Tree.flat_length] at ih
    rw [Forest.found, Forest.stop]
    refine Tree.search_res types avoid f.stop t A f.flat nodes (t.head t.size) _ ?_ hord.1 rfl rfl rfl (.inl rfl) ih ?_
    · rw [h', Tree.flat_eq]; simp
    · rintro ⟨m, hm, hms⟩
      have h1 := (Tree.flat_order 0 t hord.1).2 m hm
      have h2 := hord.2.2
      exact Forest.found_after types avoid f.stop f _ hord.2.1 (by omega)

mutual
theorem Tree.found_all (types : List Nat) (stop : Nat) : ∀ (t : Tree) (i : Nat),
    t.found types false stop i = ((t.preorder i).filter (fun p => p.2.kind ∈ types ∧ p.2.start < stop)).map Prod.fst
  | .leaf k s l, i => by
    rw [Tree.found, Tree.preorder, List.filter_cons]
    by_cases h : k ∈ types ∧ s < stop
    · rw [if_pos h, if_pos (show decide ((i, Tree.leaf k s l).2.kind ∈ types ∧ (i, Tree.leaf k s l).2.start < stop) = true from decide_eq_true h)]; rfl
    · rw [if_neg h, if_neg (show ¬ decide ((i, Tree.leaf k s l).2.kind ∈ types ∧ (i, Tree.leaf k s l).2.start < stop) = true from fun h' => h (of_decide_eq_true h'))]; rfl
  | .node k f, i => by
    rw [Tree.found, Tree.preorder, List.filter_cons]
    rw [Forest.found_all types stop f (i + 1)]
    by_cases h : k ∈ types ∧ f.start < stop
    · rw [if_pos h, if_neg (by decide), if_pos (show decide ((i, Tree.node k f).2.kind ∈ types ∧ (i, Tree.node k f).2.start < stop) = true from decide_eq_true h)]; rfl
    · rw [if_neg h, if_neg (show ¬ decide ((i, Tree.node k f).2.kind ∈ types ∧ (i, Tree.node k f).2.start < stop) = true from fun h' => h (of_decide_eq_true h'))]
theorem Forest.found_all (types : List Nat) (stop : Nat) : ∀ (f : Forest) (i : Nat),
    f.found types false stop i = ((f.preorder i).filter (fun p => p.2.kind ∈ types ∧ p.2.start < stop)).map Prod.fst
  | .one t, i => Tree.found_all types stop t i
  | .cons t f, i => by
    rw [Forest.found, Forest.preorder, List.filter_append, List.map_append, Tree.found_all types stop t i, Forest.found_all types stop f]
end

mutual
theorem Tree.found_outermost (types : List Nat) (stop : Nat) : ∀ (t : Tree) (i : Nat), t.found types true stop i = t.outermost types stop i
  | .leaf k s l, i => rfl
  | .node k f, i => by rw [Tree.found, Tree.outermost, Forest.found_outermost types stop f]; simp
theorem Forest.found_outermost (types : List Nat) (stop : Nat) : ∀ (f : Forest) (i : Nat),
    f.found types true stop i = f.outermost types stop i
  | .one t, i => Tree.found_outermost types stop t i
  | .cons t f, i => by rw [Forest.found, Forest.outermost, Tree.found_outermost types stop t, Forest.found_outermost types stop f]
end

theorem Tree.start_le_stop (t : Tree) (h : t.Ordered) : t.start ≤ t.stop := by
  obtain ⟨p, hp⟩ := List.exists_mem_of_ne_nil _ (t.leaves_ne_nil 0)
  have := (Tree.leaves_order t 0 h).2 p hp; omega

theorem Forest.start_le_stop (f : Forest) (h : f.Ordered) : f.start ≤ f.stop := Tree.start_le_stop (.node 0 f) h

theorem Forest.placed_order : ∀ (f : Forest) (base j : Nat) (c : Tree), f.Ordered → (j, c) ∈ f.placed base →
    c.Ordered ∧ c.stop ≤ f.stop ∧ ∀ q n, j + c.size ≤ base + q → f.flat[q]? = some n → c.stop ≤ n.start
  | .one t, base, j, c, ho, h => by
    rw [Forest.placed, List.mem_singleton] at h
    cases h
    refine ⟨ho, Nat.le_refl _, ?_⟩
    intro q n hq hn
    have := (List.getElem?_eq_some_iff.mp hn).1
    rw [Forest.flat_length, Forest.size] at this
    omega
  | .cons t f, base, j, c, ⟨h1, h2, h3⟩, h => by
    rw [Forest.placed, List.mem_cons] at h
    have hf := f.start_le_stop h2
    rw [Forest.flat, Forest.stop]
    rcases h with e | h
    · cases e
      refine ⟨h1, by omega, ?_⟩
      intro q n hq hn
      rw [List.getElem?_append_right (by rw [Tree.flat_length]; omega)] at hn
      have := (Forest.flat_order f h2).2 n (List.mem_of_getElem? hn)
      omega
    · obtain ⟨i1, i2, i3⟩ := Forest.placed_order f _ j c h2 h
      have hj := Forest.placed_flat f _ j c h
      obtain ⟨pre, post, o, h6, h7, h8⟩ := hj
      refine ⟨i1, i2, ?_⟩
      intro q n hq hn
      rw [List.getElem?_append_right (by rw [Tree.flat_length]; omega), Tree.flat_length] at hn
      exact i3 _ n (by omega) hn

theorem loc_order {k : Nat} {f : Forest} {i : Nat} {t : Tree} (ho : f.Ordered) (h : Loc (.node k f) i t) :
    t.Ordered ∧ ∀ q n, i + t.size ≤ q → (stored k f)[q]? = some n → t.stop ≤ n.start := by
  induction h with
  | root =>
    refine ⟨ho, ?_⟩
    intro q n hq hn
    have := (List.getElem?_eq_some_iff.mp hn).1
    simp only [stored, List.length_cons, Forest.flat_length, Tree.size] at this hq
    omega
  | @child i k' f' j c h hm ih =>
    obtain ⟨h1, h2⟩ := ih
    obtain ⟨p1, p2, p3⟩ := Forest.placed_order f' _ j c h1 hm
    refine ⟨p1, ?_⟩
    intro q n hq hn
    by_cases hq' : i + (Tree.node k' f').size ≤ q
    · have := h2 q n hq' hn
      simp only [Tree.stop] at this; omega
    · obtain ⟨A, m, B, e1, e2, -⟩ := loc_stored h
      obtain ⟨pre, post, o, h6, h7, h8⟩ := Forest.placed_flat f' _ j c hm
      have hs : (Tree.node k' f').size = 1 + f'.size := rfl
      have hc := c.size_pos
      rw [e1, Tree.nodesBelow, List.getElem?_append_right (by omega), show q - A.length = (q - i - 1) + 1 by omega,
        List.getElem?_cons_succ, List.getElem?_append_left (by rw [Forest.flat_length]; omega)] at hn
      exact p3 _ n (by omega) hn

theorem search_found {k : Nat} {f : Forest} {i k' : Nat} {g : Forest} (ho : f.Ordered) (h : Loc (.node k f) i (.node k' g))
    (hend : i + (Tree.node k' g).size < (stored k f).length) (types : List Nat) (avoid : Bool) :
    search (stored k f) types avoid i = some ((Tree.node k' g).found types avoid g.stop i) := by
  obtain ⟨A, n, B, h1, h2, h3, h4, h5, h6, h7⟩ := loc_stored h
  obtain ⟨o1, o2⟩ := loc_order ho h
  have hn : (stored k f)[i]? = some n := by rw [h1, ← h2]; simp
  have hi : i ≠ 0 := by
    intro hi
    have := (h7 hi).2.2
    rw [this] at hend
    simp only [stored, List.length_cons, Forest.flat_length, Tree.size] at hend
    omega
  have hstop : n.stop = g.stop := by
    rw [h6 hi]
    have := Forest.start_le_stop g o1
    simp only [Tree.head, Node.stop, Tree.start, Tree.stop]
    omega
  rw [search, hn]
  simp only [h3, Tree.isLeaf, hstop]
  have hr : Res (stored k f) types avoid g.stop (A.length + (Tree.node k' g).size) [] := by
    obtain ⟨m, hm⟩ : ∃ m, (stored k f)[A.length + (Tree.node k' g).size]? = some m := ⟨_, List.getElem?_eq_getElem (by omega)⟩
    exact res_stop hm (o2 _ m (by omega) hm)
  have hs : n.start = (Tree.node k' g).start := by rw [h6 hi]; rfl
  have := Tree.search_res types avoid g.stop (.node k' g) A B (stored k f) n [] h1 o1 hs h4 h3 (h5.elim .inr .inl) hr (fun _ => rfl)
    ((stored k f).length + 1) (by omega)
  rw [List.append_nil, h2] at this
  exact this

/-- C59, all matches: the nodes found below a node that is not at the very end of the file are, in the order of the text,
the nodes of its subtree that have one of the kinds and begin before the end of the subtree. -/
theorem search_all {k : Nat} {f : Forest} {i k' : Nat} {g : Forest} (ho : f.Ordered) (h : Loc (.node k f) i (.node k' g))
    (hend : i + (Tree.node k' g).size < (stored k f).length) (types : List Nat) :
    search (stored k f) types false i =
      some ((((Tree.node k' g).preorder i).filter (fun p => p.2.kind ∈ types ∧ p.2.start < g.stop)).map Prod.fst) := by
  rw [search_found ho h hend, Tree.found_all]

/-- C59, outermost matches. -/
theorem search_outermost {k : Nat} {f : Forest} {i k' : Nat} {g : Forest} (ho : f.Ordered) (h : Loc (.node k f) i (.node k' g))
    (hend : i + (Tree.node k' g).size < (stored k f).length) (types : List Nat) :
    search (stored k f) types true i = some ((Tree.node k' g).outermost types g.stop i) := by
  rw [search_found ho h hend, Tree.found_outermost]

/-- C59, the whole file: if it ends with an empty end marker, searching it for kinds other than that of the root never
panics and finds the same. -/
theorem search_file {k : Nat} {f : Forest} (ho : f.Ordered) (he : f.EndsEmpty) (types : List Nat) (hk : k ∉ types) :
    search (stored k f) types false 0 =
      some (((f.preorder 1).filter (fun p => p.2.kind ∈ types ∧ p.2.start < f.stop)).map Prod.fst) ∧
    search (stored k f) types true 0 = some (f.outermost types f.stop 1) := by
  have key : ∀ avoid, search (stored k f) types avoid 0 = some (f.found types avoid f.stop 1) := by
    intro avoid
    have hr := Forest.search_end types avoid f [⟨0, false, k, 0, f.stop⟩] (stored k f) rfl ho he
    rw [List.length_singleton] at hr
    have h0 : (stored k f)[0]? = some ⟨0, false, k, 0, f.stop⟩ := rfl
    rw [search, h0]
    simp only [Node.stop, Nat.zero_add]
    by_cases hz : f.stop = 0
    · have hr0 : Res (stored k f) types avoid f.stop 0 [] := res_stop h0 (by simp [hz])
      have := hr0 ((stored k f).length + 1) (by omega)
      rw [Forest.found_after types avoid f.stop f 1 ho (by omega)]
      exact this
    · exact res_skip (p := 0) h0 (show 0 < f.stop by omega) hk hr ((stored k f).length + 1) (by omega)
  rw [key, key, Forest.found_all, Forest.found_outermost]
  exact ⟨rfl, rfl⟩

/-- `f(x)`, a newline and the end marker. -/
def call : Forest :=
  .cons (.node 1 (.cons (.leaf 9 0 1) (.cons (.node 2 (.cons (.leaf 8 1 1) (.cons (.leaf 9 2 1) (.one (.leaf 8 3 1)))))
    (.one (.leaf 6 4 1))))) (.one (.leaf 7 5 0))

example : call.Ordered ∧ call.EndsEmpty ∧ Loc (.node 0 call) 1 (.node 1 (.cons (.leaf 9 0 1) (.cons (.node 2 (.cons (.leaf 8 1 1)
    (.cons (.leaf 9 2 1) (.one (.leaf 8 3 1))))) (.one (.leaf 6 4 1))))) := by
  refine ⟨by simp [call, Forest.Ordered, Tree.Ordered, Tree.stop, Tree.start, Forest.start, Forest.stop], trivial, ?_⟩
  exact .child .root (by simp [call, Forest.placed])

example : search (stored 0 call) [9] false 1 = some [2, 5] ∧ search (stored 0 call) [2, 9] true 0 = some [2, 3] := by decide +kernel

/-- Without the empty end marker, or for the outermost match of the root itself, the search runs off the array: the
`unreachable!` of the code. -/
theorem search_panic : search (stored 0 (.one (.leaf 9 0 1))) [9] false 0 = none ∧ search (stored 0 call) [0] true 0 = none := by
  decide +kernel

end Verif.Tree
