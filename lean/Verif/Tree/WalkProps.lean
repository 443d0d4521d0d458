import Verif.Tree.Walk
import Verif.Tree.Ranges

/-!
# Inlay hints and folding (C231, C232)
-/

set_option linter.unusedVariables false
set_option linter.unusedSimpArgs false

namespace Verif.Tree

/-! ## Leaves of a subtree -/

mutual
theorem Tree.leaves_first : ∀ (t : Tree) (i : Nat), ∃ p L, t.leaves i = p :: L ∧ p.2.start = t.start
  | .leaf k s l, i => ⟨_, [], rfl, rfl⟩
  | .node k f, i => by
    rw [Tree.leaves, Tree.start]
    exact Forest.leaves_first f (i + 1)
theorem Forest.leaves_first : ∀ (f : Forest) (i : Nat), ∃ p L, f.leaves i = p :: L ∧ p.2.start = f.start
  | .one t, i => Tree.leaves_first t i
  | .cons t f, i => by
    obtain ⟨p, L, h1, h2⟩ := Tree.leaves_first t i
    exact ⟨p, L ++ f.leaves (i + t.size), by rw [Forest.leaves, h1]; rfl, h2⟩
end

mutual
theorem Tree.leaves_final : ∀ (t : Tree) (i : Nat), ∃ L p, t.leaves i = L ++ [p] ∧ p.2.stop = t.stop
  | .leaf k s l, i => ⟨[], _, rfl, rfl⟩
  | .node k f, i => by
    rw [Tree.leaves, Tree.stop]
    exact Forest.leaves_final f (i + 1)
theorem Forest.leaves_final : ∀ (f : Forest) (i : Nat), ∃ L p, f.leaves i = L ++ [p] ∧ p.2.stop = f.stop
  | .one t, i => Tree.leaves_final t i
  | .cons t f, i => by
    obtain ⟨L, p, h1, h2⟩ := Forest.leaves_final f (i + t.size)
    exact ⟨t.leaves i ++ L, p, by rw [Forest.leaves, h1, List.append_assoc], h2⟩
end

theorem Forest.placed_leaves : ∀ (f : Forest) (i j : Nat) (c : Tree), (j, c) ∈ f.placed i →
    ∃ P S, f.leaves i = P ++ c.leaves j ++ S
  | .one t, i, j, c, h => by
    rw [Forest.placed, List.mem_singleton] at h
    cases h
    exact ⟨[], [], by simp [Forest.leaves]⟩
  | .cons t f, i, j, c, h => by
    rw [Forest.placed, List.mem_cons] at h
    rcases h with e | h
    · cases e
      exact ⟨[], f.leaves (i + t.size), by simp [Forest.leaves]⟩
    · obtain ⟨P, S, e⟩ := Forest.placed_leaves f _ j c h
      exact ⟨t.leaves i ++ P, S, by rw [Forest.leaves, e]; simp⟩

/-- The leaves of a subtree are consecutive leaves of the tree. -/
theorem loc_leaves {root : Tree} {i : Nat} {t : Tree} (h : Loc root i t) : ∃ P S, root.leaves 0 = P ++ t.leaves i ++ S := by
  induction h with
  | root => exact ⟨[], [], by simp⟩
  | @child i k f j c h hm ih =>
    obtain ⟨P, S, e⟩ := ih
    obtain ⟨P', S', e'⟩ := Forest.placed_leaves f _ j c hm
    exact ⟨P ++ P', S' ++ S, by rw [e, Tree.leaves, e']; simp⟩

theorem leaf_index_sorted (k : Nat) (f : Forest) : (((Tree.node k f).leaves 0).map Prod.fst).Pairwise (· < ·) := by
  rw [leaves_stored]; exact leafPositions_sorted _ _

theorem stored_leaf_kind {k : Nat} {f : Forest} {a : Nat} {s : Tree} (h : (a, s) ∈ (Tree.node k f).leaves 0) :
    ∃ n, (stored k f)[a]? = some n ∧ n.leaf = true ∧ n.start = s.start ∧ n.kind = s.kind := by
  rw [Tree.leaves] at h
  obtain ⟨h1, off, h2, h3⟩ := Forest.leaves_entry f (0 + 1) a s h
  refine ⟨s.head off, ?_, h3, rfl, rfl⟩
  rw [stored, show a = (a - (0 + 1)) + 1 by omega]; exact h2

/-! ## C231: hints -/

theorem walk_mem (stop : Nat) (ns : List Node) (base : Nat) (h : ns.Pairwise (fun a b => a.start ≤ b.start)) (i : Nat) (n : Node) :
    (i, n) ∈ walk stop ns base ↔ base ≤ i ∧ ns[i - base]? = some n ∧ n.start ≤ stop := by
  induction ns generalizing base with
  | nil => simp [walk]
  | cons m ns ih =>
    obtain ⟨h1, h2⟩ := List.pairwise_cons.mp h
    rw [walk]
    by_cases hm : m.start ≤ stop
    · rw [if_pos hm, List.mem_cons, ih (base + 1) h2]
      constructor
      · rintro (e | ⟨g1, g2, g3⟩)
        · cases e
          exact ⟨Nat.le_refl _, by simp, hm⟩
        · exact ⟨by omega, by rw [show i - base = (i - (base + 1)) + 1 by omega]; exact g2, g3⟩
      · rintro ⟨g1, g2, g3⟩
        by_cases he : i = base
        · subst he
          rw [Nat.sub_self, List.getElem?_cons_zero, Option.some.injEq] at g2
          subst g2
          exact Or.inl rfl
        · rw [show i - base = (i - (base + 1)) + 1 by omega, List.getElem?_cons_succ] at g2
          exact Or.inr ⟨by omega, g2, g3⟩
    · rw [if_neg hm]
      constructor
      · intro hx; simp at hx
      · rintro ⟨g1, g2, g3⟩
        exfalso
        have hmem := List.mem_iff_getElem?.mpr ⟨_, g2⟩
        rcases List.mem_cons.mp hmem with rfl | hx
        · exact hm g3
        · have := h1 n hx
          omega

theorem walk_sorted (stop : Nat) (ns : List Node) (base : Nat) :
    (walk stop ns base).Pairwise (fun a b => a.1 < b.1) ∧ ∀ p ∈ walk stop ns base, base ≤ p.1 := by
  induction ns generalizing base with
  | nil => simp [walk]
  | cons m ns ih =>
    obtain ⟨h1, h2⟩ := ih (base + 1)
    rw [walk]
    split
    · refine ⟨List.Pairwise.cons (fun p hp => ?_) h1, ?_⟩
      · have := h2 p hp; simp only; omega
      · intro p hp
        rcases List.mem_cons.mp hp with rfl | hp
        · exact Nat.le_refl _
        · have := h2 p hp; omega
    · simp

/-- What is found for a range. -/
theorem hintNodes_eq (hint : Nat → Bool) (k : Nat) (f : Forest) (ho : f.Ordered) (start stop : Nat) :
    ∃ l X j lt Y skip, hintNodes hint (stored k f) start stop = some l ∧
      (Tree.node k f).leaves 0 = X ++ (j, lt) :: Y ∧
      ((lt.start ≤ start ∧ start ≤ lt.stop ∧ ∀ p ∈ Y, start < p.2.start) ∨ (start < lt.start ∧ ∀ p ∈ X, p.2.stop < start) ∨
        (lt.stop < start ∧ Y = [])) ∧
      (X = [] ∧ skip = 0 ∨ ∃ X' pt, X = X' ++ [(skip, pt)]) ∧
      l.Pairwise (· < ·) ∧
      ∀ i, i ∈ l ↔ ∃ n, (stored k f)[i]? = some n ∧ skip ≤ i ∧ n.start ≤ stop ∧ hint n.kind = true := by
  obtain ⟨X, j, lt, Y, hL, hj, hc⟩ := leaf_by_position k f ho start
  have fin : ∀ skip, hintNodes hint (stored k f) start stop =
        some (((walk stop ((stored k f).drop skip) skip).filter (fun p => hint p.2.kind)).map (·.1)) →
      (X = [] ∧ skip = 0 ∨ ∃ X' pt, X = X' ++ [(skip, pt)]) →
      ∃ l X j lt Y skip, hintNodes hint (stored k f) start stop = some l ∧
      (Tree.node k f).leaves 0 = X ++ (j, lt) :: Y ∧
      ((lt.start ≤ start ∧ start ≤ lt.stop ∧ ∀ p ∈ Y, start < p.2.start) ∨ (start < lt.start ∧ ∀ p ∈ X, p.2.stop < start) ∨
        (lt.stop < start ∧ Y = [])) ∧
      (X = [] ∧ skip = 0 ∨ ∃ X' pt, X = X' ++ [(skip, pt)]) ∧
      l.Pairwise (· < ·) ∧
      ∀ i, i ∈ l ↔ ∃ n, (stored k f)[i]? = some n ∧ skip ≤ i ∧ n.start ≤ stop ∧ hint n.kind = true := by
    intro skip he hx
    refine ⟨_, X, j, lt, Y, skip, he, hL, hc, hx, ?_, ?_⟩
    · rw [List.pairwise_map]
      exact (walk_sorted stop _ skip).1.filter _
    · intro i
      have hs : ((stored k f).drop skip).Pairwise (fun a b => a.start ≤ b.start) :=
        (starts_sorted k f ho).sublist (List.drop_sublist _ _)
      simp only [List.mem_map, List.mem_filter, Prod.exists]
      constructor
      · rintro ⟨i', n, ⟨h1, h2⟩, rfl⟩
        obtain ⟨g1, g2, g3⟩ := (walk_mem stop _ skip hs i' n).mp h1
        rw [List.getElem?_drop, show skip + (i' - skip) = i' by omega] at g2
        exact ⟨n, g2, g1, g3, h2⟩
      · rintro ⟨n, g1, g2, g3, g4⟩
        refine ⟨i, n, ⟨(walk_mem stop _ skip hs i n).mpr ⟨g2, ?_, g3⟩, g4⟩, rfl⟩
        rw [List.getElem?_drop, show skip + (i - skip) = i by omega]
        exact g1
  rcases List.eq_nil_or_concat X with rfl | ⟨X', ⟨p, pt⟩, rfl⟩
  · refine fin 0 ?_ (Or.inl ⟨rfl, rfl⟩)
    rw [hintNodes, hj]
    simp only [(no_leaf (X := Y)).2 hL]
  · refine fin p ?_ (Or.inr ⟨X', pt, by simp⟩)
    rw [hintNodes, hj]
    have hL' : (Tree.node k f).leaves 0 = X' ++ (p, pt) :: (j, lt) :: Y := by rw [hL]; simp
    simp only [(leaves_eq hL').2]

/-- C231: every function and every assignment that begins in the range is found.  Missing: those that begin before the
range, and whose hint is in the range. -/
theorem hints_complete_partial (hint : Nat → Bool) (k : Nat) (f : Forest) (ho : f.Ordered) (start stop : Nat)
    {i k' : Nat} {g : Forest} (hl : Loc (.node k f) i (.node k' g)) (hi : i ≠ 0) (hh : hint k' = true)
    (h1 : start ≤ g.start) (h2 : g.start ≤ stop)
    (hfirst : ∀ p L, g.leaves (i + 1) = p :: L → p.2.start < p.2.stop) :
    ∃ l, hintNodes hint (stored k f) start stop = some l ∧ i ∈ l := by
  obtain ⟨l, X, j, lt, Y, skip, e, hL, hc, hx, -, hm⟩ := hintNodes_eq hint k f ho start stop
  refine ⟨l, e, (hm i).mpr ?_⟩
  obtain ⟨n, hn, hk, -, -, hs⟩ := loc_entry ho hl
  rw [if_neg hi] at hs
  refine ⟨n, hn, ?_, by rw [hs]; exact h2, by rw [hk]; exact hh⟩
  rcases hx with ⟨rfl, rfl⟩ | ⟨X', pt, rfl⟩
  · omega
  · refine Nat.le_of_not_lt fun hlt => ?_
    obtain ⟨⟨a, s⟩, L, ha, has⟩ := Forest.leaves_first g (i + 1)
    have hne := hfirst _ _ ha
    obtain ⟨P, S, hP⟩ := loc_leaves hl
    have hT : (Tree.node k' g).leaves i = (a, s) :: L := by rw [Tree.leaves]; exact ha
    have hmem : (a, s) ∈ (Tree.node k f).leaves 0 := by rw [hP, hT]; simp
    have hpm : (skip, pt) ∈ (Tree.node k f).leaves 0 := by rw [hL]; simp
    have hjm : (j, lt) ∈ (Tree.node k f).leaves 0 := by rw [hL]; simp
    have ho' : (Tree.node k f).Ordered := ho
    obtain ⟨o1, o2⟩ := Tree.leaves_order (.node k f) 0 ho'
    have hsort := leaf_index_sorted k f
    -- the first leaf of the node is not after the leaf that is skipped
    have hfl := first_leaf hl
    simp only [hT, List.head_cons] at hfl
    have hap : a ≤ skip := by
      refine Nat.le_of_not_lt fun hgt => ?_
      rw [nextLeaf, Option.map_eq_some_iff] at hfl
      obtain ⟨d, hd, hda⟩ := hfl
      rw [List.findIdx?_eq_some_iff_getElem] at hd
      obtain ⟨hd1, hd2, hmin⟩ := hd
      obtain ⟨m, hm1, hm2⟩ := leaf_at hpm
      have hlt' := (List.getElem?_eq_some_iff.mp hm1).1
      have := hmin (skip - (i + 1)) (by omega)
      rw [List.getElem_drop] at this
      simp only [show i + 1 + (skip - (i + 1)) = skip by omega] at this
      rw [List.getElem?_eq_getElem hlt', Option.some.injEq] at hm1
      rw [hm1] at this
      exact this hm2
    -- so it ends at or before that leaf's end
    have hstop : s.stop ≤ pt.stop ∧ pt.stop ≤ lt.start := by
      rw [hL, List.append_assoc] at hmem o1 hsort
      simp only [List.singleton_append] at hmem o1 hsort
      rw [List.map_append, List.map_cons] at hsort
      obtain ⟨-, q2, q3⟩ := List.pairwise_append.mp o1
      obtain ⟨q4, -⟩ := List.pairwise_cons.mp q2
      refine ⟨?_, q4 (j, lt) (by simp)⟩
      rcases List.mem_append.mp hmem with hx | hx
      · have := q3 _ hx (skip, pt) (by simp)
        have := (o2 _ hpm).2.1
        simp only at *
        omega
      · rcases List.mem_cons.mp hx with hx | hx
        · cases hx; exact Nat.le_refl _
        · have := (List.pairwise_cons.mp (List.pairwise_append.mp hsort).2.1).1 a (List.mem_map.mpr ⟨_, hx, rfl⟩)
          omega
    have hlt2 := (o2 _ hjm).2.1
    simp only at hne has hlt2
    rcases hc with ⟨c1, -, -⟩ | ⟨c1, c2⟩ | ⟨c1, -⟩
    · omega
    · have := c2 (skip, pt) (by simp)
      simp only at this
      omega
    · omega

/-- C231: everything that is found is a function or an assignment that overlaps the range, and it is found once and in
the order of the file. -/
theorem hints_sound (hint : Nat → Bool) (k : Nat) (f : Forest) (ho : f.Ordered) (start stop : Nat) (hp : start ≤ f.stop)
    (hroot : hint k = false) :
    ∃ l, hintNodes hint (stored k f) start stop = some l ∧ l.Pairwise (· < ·) ∧
      ∀ i ∈ l, ∀ k' g, Loc (.node k f) i (.node k' g) → hint k' = true ∧ g.start ≤ stop ∧ start ≤ g.stop := by
  obtain ⟨l, X, j, lt, Y, skip, e, hL, hc, hx, hsl, hm⟩ := hintNodes_eq hint k f ho start stop
  refine ⟨l, e, hsl, ?_⟩
  intro i hil k' g hl
  obtain ⟨n, hn, hsk, hns, hnk⟩ := (hm i).mp hil
  obtain ⟨n', hn', hk, -, -, hs⟩ := loc_entry ho hl
  rw [hn] at hn'
  cases hn'
  have hi : i ≠ 0 := by
    rintro rfl
    rw [stored, List.getElem?_cons_zero, Option.some.injEq] at hn
    subst hn
    simp only at hnk
    rw [hroot] at hnk
    simp at hnk
  rw [if_neg hi] at hs
  have hs' : n.start = g.start := hs
  refine ⟨by rw [hk] at hnk; exact hnk, by omega, ?_⟩
  obtain ⟨⟨a, s⟩, L, ha, has⟩ := Forest.leaves_first g (i + 1)
  have hT : (Tree.node k' g).leaves i = (a, s) :: L := by rw [Tree.leaves]; exact ha
  obtain ⟨P, S, hP⟩ := loc_leaves hl
  have hmem : (a, s) ∈ (Tree.node k f).leaves 0 := by rw [hP, hT]; simp
  have hgo : g.Ordered := (loc_order ho hl).1
  have hai : i < a := by
    have := (Forest.leaves_entry g (i + 1) a s (by rw [ha]; simp)).1
    omega
  obtain ⟨-, -, hsg⟩ := (Forest.leaves_order g (i + 1) hgo).2 (a, s) (by rw [ha]; simp)
  have ho' : (Tree.node k f).Ordered := ho
  obtain ⟨o1, o2⟩ := Tree.leaves_order (.node k f) 0 ho'
  have hsort := leaf_index_sorted k f
  -- the first leaf of the node is the leaf at the position or comes after it
  have hY : (a, s) = (j, lt) ∨ (a, s) ∈ Y := by
    rw [hL] at hmem hsort
    rcases List.mem_append.mp hmem with hx' | hx'
    · exfalso
      rcases hx with ⟨rfl, -⟩ | ⟨X', pt, rfl⟩
      · simp at hx'
      · rw [List.append_assoc, List.map_append] at hsort
        simp only [List.singleton_append, List.map_cons] at hsort
        rcases List.mem_append.mp hx' with hx' | hx'
        · have := (List.pairwise_append.mp hsort).2.2 a (List.mem_map.mpr ⟨_, hx', rfl⟩) skip (by simp)
          omega
        · rw [List.mem_singleton] at hx'
          cases hx'
          omega
    · exact List.mem_cons.mp hx'
  have hst : lt.stop ≤ s.stop := by
    rcases hY with hY | hY
    · cases hY; exact Nat.le_refl _
    · rw [hL] at o1
      have := (List.pairwise_cons.mp (List.pairwise_append.mp o1).2.1).1 _ hY
      have := (o2 _ hmem).2.1
      simp only at *
      omega
  have hlt2 := (o2 (j, lt) (by rw [hL]; simp)).2.1
  simp only at hsg hlt2
  rcases hc with ⟨-, c2, -⟩ | ⟨c1, -⟩ | ⟨c1, rfl⟩
  · omega
  · omega
  · exfalso
    obtain ⟨L', q, hq, hqs⟩ := Tree.leaves_final (.node k f) 0
    rw [hL] at hq
    have := List.append_inj_right' hq rfl
    simp only [List.cons.injEq, and_true] at this
    rw [← this] at hqs
    simp only [Tree.stop] at hqs
    omega

/-- `def f(a, ⏎ b): pass` as a function (1) with a keyword (5), a name (6), parameters (2), and what follows. -/
def defFile : Forest :=
  .cons (.node 1 (.cons (.leaf 5 0 3) (.cons (.leaf 6 4 1) (.cons (.node 2 (.cons (.leaf 7 5 1) (.cons (.leaf 6 6 1)
    (.cons (.leaf 7 7 1) (.cons (.leaf 6 10 1) (.one (.leaf 7 11 1))))))) (.cons (.leaf 7 12 1) (.one (.leaf 5 14 4)))))))
    (.cons (.leaf 9 18 1) (.one (.leaf 10 19 0)))

theorem defFile_ordered : defFile.Ordered := by
  simp [defFile, Forest.Ordered, Tree.Ordered, Tree.stop, Tree.start, Forest.start, Forest.stop]

example : hintNodes (· == 1) (stored 0 defFile) 0 19 = some [1] := by decide +kernel

/-- The function meets the hypotheses of `hints_complete_partial`. -/
example : ∃ l, hintNodes (· == 1) (stored 0 defFile) 0 19 = some l ∧ 1 ∈ l := by
  refine hints_complete_partial (· == 1) 0 defFile defFile_ordered 0 19 (i := 1) (k' := 1)
    (Loc.child Loc.root (by rw [defFile, Forest.placed]; exact List.mem_cons_self)) (by decide) rfl (Nat.zero_le _)
    (by simp [Forest.start, Tree.start]) ?_
  intro p L h
  simp [Forest.leaves, Tree.leaves] at h
  rw [← h.1]
  simp [Tree.start, Tree.stop]

/-- A range that begins in the second line of the parameters: the hint for the type that is returned belongs to the end
of the parameters, which is in the range, but the function is not found. -/
theorem hints_violation :
    defFile.Ordered ∧ ((stored 0 defFile)[(4 : Nat)]?).map (fun n => (n.kind, n.stop)) = some (2, 12) ∧
    hintNodes (· == 1) (stored 0 defFile) 9 19 = some [] := by
  exact ⟨defFile_ordered, by decide +kernel, by decide +kernel⟩

/-! ## C232: folding -/

theorem foldEnd_back (K : FoldKinds) (k : Nat) (f : Forest) (Q : List (Nat × Tree)) (a : Nat) (s : Tree)
    (hs : K.dedent s.kind = false) : ∀ (m : Nat) (D R : List (Nat × Tree)), D.length = m →
    (∀ p ∈ D, K.dedent p.2.kind = true) → (Tree.node k f).leaves 0 = Q ++ (a, s) :: (D ++ R) →
    ∀ fuel, m < fuel → ∀ z, ((a, s) :: D).getLast? = some z → foldEnd K (stored k f) fuel z.1 = some s.start := by
  intro m
  induction m with
  | zero =>
    intro D R hD _ hL fuel hf z hz
    have : D = [] := List.length_eq_zero_iff.mp hD
    subst this
    simp at hz
    subst hz
    obtain ⟨n, h1, -, h3, h4⟩ := stored_leaf_kind (k := k) (f := f) (a := a) (s := s) (by rw [hL]; simp)
    cases fuel with
    | zero => omega
    | succ fuel => rw [foldEnd, h1]; simp only; rw [h4, hs, if_neg (by simp), h3]
  | succ m ih =>
    intro D R hD hd hL fuel hf z hz
    rcases List.eq_nil_or_concat D with rfl | ⟨D', ⟨b, u⟩, rfl⟩
    · simp at hD
    · rw [List.concat_eq_append] at *
      have hz' : z = (b, u) := by
        rw [← List.cons_append, List.getLast?_append] at hz
        simpa using hz.symm
      subst hz'
      obtain ⟨n, h1, -, h3, h4⟩ := stored_leaf_kind (k := k) (f := f) (a := b) (s := u) (by rw [hL]; simp)
      cases fuel with
      | zero => omega
      | succ fuel =>
        obtain ⟨y, hy⟩ : ∃ y, ((a, s) :: D').getLast? = some y := by
          cases hg : ((a, s) :: D').getLast? with
          | none => simp at hg
          | some y => exact ⟨y, rfl⟩
        have hprev : previousLeaf (stored k f) b = some y.1 := by
          obtain ⟨I, hI⟩ : ∃ I, (a, s) :: D' = I ++ [y] := by
            rcases List.eq_nil_or_concat ((a, s) :: D') with h | ⟨I, y', h⟩
            · simp at h
            · rw [List.concat_eq_append] at h
              rw [h, List.getLast?_append] at hy
              simp at hy
              subst hy
              exact ⟨I, h⟩
          have : (Tree.node k f).leaves 0 = (Q ++ I) ++ (y.1, y.2) :: (b, u) :: R := by
            rw [hL]
            have : (a, s) :: (D' ++ [(b, u)] ++ R) = ((a, s) :: D') ++ (b, u) :: R := by simp
            rw [this, hI]
            simp
          exact (leaves_eq this).2
        rw [foldEnd, h1]
        simp only
        rw [h4, hd (b, u) (by simp), if_pos rfl, hprev]
        simp only
        refine ih D' ((b, u) :: R) (by simp at hD; exact hD) (fun p hp => hd p (by simp [hp])) (by rw [hL]; simp) fuel (by omega) y hy

/-- The last leaf of a list that is no dedent. -/
theorem last_code (K : FoldKinds) (L : List (Nat × Tree)) (h : ∃ p ∈ L, K.dedent p.2.kind = false) :
    ∃ A a s D, L = A ++ (a, s) :: D ∧ K.dedent s.kind = false ∧ ∀ p ∈ D, K.dedent p.2.kind = true := by
  induction L with
  | nil => obtain ⟨p, hp, -⟩ := h; simp at hp
  | cons q L ih =>
    by_cases hL : ∃ p ∈ L, K.dedent p.2.kind = false
    · obtain ⟨A, a, s, D, e, h1, h2⟩ := ih hL
      exact ⟨q :: A, a, s, D, by rw [e]; rfl, h1, h2⟩
    · obtain ⟨p, hp, hk⟩ := h
      rcases List.mem_cons.mp hp with rfl | hp
      · refine ⟨[], p.1, p.2, L, rfl, hk, ?_⟩
        intro x hx
        cases hxk : K.dedent x.2.kind with
        | true => rfl
        | false => exact absurd ⟨x, hx, hxk⟩ hL
      · exact absurd ⟨p, hp, hk⟩ hL

/-- The end of a fold: the last leaf that is no dedent begins there. -/
theorem foldEndOf_eq (K : FoldKinds) {k : Nat} {f : Forest} {i : Nat} {t : Tree} (h : Loc (.node k f) i t)
    {A : List (Nat × Tree)} {a : Nat} {s : Tree} {D : List (Nat × Tree)} (he : t.leaves i = A ++ (a, s) :: D)
    (hs : K.dedent s.kind = false) (hd : ∀ p ∈ D, K.dedent p.2.kind = true) :
    foldEndOf K (stored k f) i = some s.start := by
  obtain ⟨P, S, hP⟩ := loc_leaves h
  obtain ⟨z, hz⟩ : ∃ z, ((a, s) :: D).getLast? = some z := by
    cases hg : ((a, s) :: D).getLast? with
    | none => simp at hg
    | some y => exact ⟨y, rfl⟩
  have hlast : ((t.leaves i).getLast (t.leaves_ne_nil i)) = z := by
    have : (t.leaves i).getLast? = some z := by rw [he, List.getLast?_append, hz]; rfl
    rw [List.getLast?_eq_some_getLast (t.leaves_ne_nil i), Option.some.injEq] at this
    exact this
  rw [foldEndOf, lastLeaf_eq h]
  simp only [hlast]
  have hlen : D.length < (stored k f).length + 1 := by
    have h1 : ((Tree.node k f).leaves 0).length ≤ (stored k f).length := by
      have hlp : ∀ (ns : List Node) (i : Nat), (leafPositions ns i).length ≤ ns.length := by
        intro ns
        induction ns with
        | nil => intro i; simp [leafPositions]
        | cons n ns ih =>
          intro i
          rw [leafPositions]
          have := ih (i + 1)
          split <;> simp <;> omega
      rw [← List.length_map (f := Prod.fst), leaves_stored]
      exact hlp _ _
    rw [hP, he] at h1
    simp at h1
    omega
  refine foldEnd_back K k f (P ++ A) a s hs D.length D S rfl hd ?_ _ hlen z hz
  rw [hP, he]
  simp

/-- C232: a block that is not on one line is folded from its beginning to the last leaf that is no dedent: the range is
inside of the block, and only dedents come after its end. -/
theorem fold_block (K : FoldKinds) {k : Nat} {f : Forest} (ho : f.Ordered) {i k' : Nat} {c : Tree} {g : Forest}
    (h : Loc (.node k f) i (.node k' (.cons c g))) (hi : i ≠ 0) (hb : K.block k' = true) (hm : K.matchStmt k' = false)
    (hc : K.simpleStmts c.kind = false) (hn : ∃ p ∈ (Tree.node k' (.cons c g)).leaves i, K.dedent p.2.kind = false) :
    ∃ A a s D, (Tree.node k' (.cons c g)).leaves i = A ++ (a, s) :: D ∧ K.dedent s.kind = false ∧
      (∀ p ∈ D, K.dedent p.2.kind = true) ∧ foldOf K (stored k f) i = some (some (c.start, s.start)) ∧
      c.start ≤ s.start ∧ s.start ≤ g.stop := by
  obtain ⟨A, a, s, D, e, h1, h2⟩ := last_code K _ hn
  refine ⟨A, a, s, D, e, h1, h2, ?_, ?_⟩
  · obtain ⟨n, hn1, hk, hlf, -, hs⟩ := loc_entry ho h
    rw [if_neg hi] at hs
    have hk' : n.kind = k' := hk
    have hs' : n.start = c.start := hs
    have hch := children_eq h
    have hcl : Loc (.node k f) (i + 1) c := Loc.child h (by simp [Forest.placed])
    obtain ⟨nc, hnc, hck, -⟩ := loc_entry ho hcl
    have hfk : firstKind (stored k f) i = some c.kind := by
      rw [firstKind, hch]
      simp [Forest.placed, hnc, hck]
    rw [foldOf, hn1]
    simp only [hk', hm, hb, hfk, hc, if_true, Bool.false_eq_true, if_false, foldEndOf_eq K h e h1 h2, hs']
  · have hord := (loc_order ho h).1
    have := (Tree.leaves_order (.node k' (.cons c g)) i hord).2 (a, s) (by rw [e]; simp)
    simp only [Tree.start, Tree.stop, Forest.start, Forest.stop] at this
    omega

/-- C232: a `match` statement is folded from its fourth child, the end of the line, to the last leaf that is no dedent. -/
theorem fold_match (K : FoldKinds) {k : Nat} {f : Forest} (ho : f.Ordered) {i k' : Nat} {c0 c1 c2 c3 : Tree} {g : Forest}
    (h : Loc (.node k f) i (.node k' (.cons c0 (.cons c1 (.cons c2 (.cons c3 g)))))) (hi : i ≠ 0) (hm : K.matchStmt k' = true)
    (hn : ∃ p ∈ (Tree.node k' (.cons c0 (.cons c1 (.cons c2 (.cons c3 g))))).leaves i, K.dedent p.2.kind = false) :
    ∃ A a s D, (Tree.node k' (.cons c0 (.cons c1 (.cons c2 (.cons c3 g))))).leaves i = A ++ (a, s) :: D ∧
      K.dedent s.kind = false ∧ (∀ p ∈ D, K.dedent p.2.kind = true) ∧
      foldOf K (stored k f) i = some (some (c3.start, s.start)) ∧ s.start ≤ g.stop := by
  obtain ⟨A, a, s, D, e, h1, h2⟩ := last_code K _ hn
  refine ⟨A, a, s, D, e, h1, h2, ?_, ?_⟩
  · obtain ⟨n, hn1, hk, -, -, -⟩ := loc_entry ho h
    have hk' : n.kind = k' := hk
    have hch := children_eq h
    have hcl : Loc (.node k f) (i + 1 + c0.size + c1.size + c2.size) c3 := Loc.child h (by simp [Forest.placed])
    obtain ⟨nc, hnc, -, -, -, hcs⟩ := loc_entry ho hcl
    rw [if_neg (by omega)] at hcs
    have hst : childStart (stored k f) i 3 = some c3.start := by
      rw [childStart, hch]
      simp [Forest.placed, hnc, hcs]
    rw [foldOf, hn1]
    simp only [hk', hm, if_true, hst, foldEndOf_eq K h e h1 h2]
  · have hord := (loc_order ho h).1
    have := (Tree.leaves_order _ i hord).2 (a, s) (by rw [e]; simp)
    simp only [Tree.start, Tree.stop, Forest.start, Forest.stop] at this
    omega

/-- C232: nothing else is folded, in particular no block on one line. -/
theorem fold_only (K : FoldKinds) {k : Nat} {f : Forest} (ho : f.Ordered) {i : Nat} {t : Tree} (h : Loc (.node k f) i t)
    (hm : K.matchStmt t.kind = false)
    (hb : K.block t.kind = false ∨ ∃ k' c, t = .node k' (.one c) ∧ K.simpleStmts c.kind = true) :
    foldOf K (stored k f) i = some none := by
  obtain ⟨n, hn1, hk, -, -, -⟩ := loc_entry ho h
  rw [foldOf, hn1]
  simp only [hk, hm, Bool.false_eq_true, if_false]
  rcases hb with hb | ⟨k', c, rfl, hc⟩
  · simp [hb]
  · have hch := children_eq h
    have hcl : Loc (.node k f) (i + 1) c := Loc.child h (by simp [Forest.placed])
    obtain ⟨nc, hnc, hck, -⟩ := loc_entry ho hcl
    have hfk : firstKind (stored k f) i = some c.kind := by
      rw [firstKind, hch]
      simp [Forest.placed, hnc, hck]
    simp only [hfk, hc, if_true, ite_self]

/-- The subtree `u` with number `j` is inside of the tree `t` with number `i`. -/
inductive Inside (i : Nat) (t : Tree) : Nat → Tree → Prop
  | self : Inside i t i t
  | child {j k g j' c} : Inside i t j (.node k g) → (j', c) ∈ g.placed (j + 1) → Inside i t j' c

theorem inside_leaves {i : Nat} {t : Tree} {j : Nat} {u : Tree} (h : Inside i t j u) : ∃ P S, t.leaves i = P ++ u.leaves j ++ S := by
  induction h with
  | self => exact ⟨[], [], by simp⟩
  | @child j k g j' c h hm ih =>
    obtain ⟨P, S, e⟩ := ih
    obtain ⟨P', S', e'⟩ := Forest.placed_leaves g _ j' c hm
    exact ⟨P ++ P', S' ++ S, by rw [e, Tree.leaves, e']; simp⟩

theorem inside_loc {root : Tree} {i : Nat} {t : Tree} {j : Nat} {u : Tree} (hl : Loc root i t) (h : Inside i t j u) : Loc root j u := by
  induction h with
  | self => exact hl
  | child h hm ih => exact Loc.child ih hm

/-- C232: the fold of a statement inside of another one is inside of its fold. -/
theorem fold_nested (K : FoldKinds) {k : Nat} {f : Forest} (ho : f.Ordered) {i j k' : Nat} {g : Forest} {u : Tree}
    (h : Loc (.node k f) i (.node k' g)) (hsub : Inside i (.node k' g) j u)
    (hn : ∃ p ∈ u.leaves j, K.dedent p.2.kind = false) :
    ∃ e e', foldEndOf K (stored k f) i = some e ∧ foldEndOf K (stored k f) j = some e' ∧ e' ≤ e ∧ g.start ≤ u.start := by
  have hu := inside_loc h hsub
  obtain ⟨P, S, hP⟩ := inside_leaves hsub
  obtain ⟨A, a, s, D, e, h1, h2⟩ := last_code K _ hn
  have hord := (loc_order ho h).1
  obtain ⟨o1, o2⟩ := Tree.leaves_order (.node k' g) i hord
  obtain ⟨A', a', s', D', e', h1', h2'⟩ := last_code K ((Tree.node k' g).leaves i) (by
    obtain ⟨p, hp, hk⟩ := hn
    exact ⟨p, by rw [hP]; simp [hp], hk⟩)
  refine ⟨s'.start, s.start, foldEndOf_eq K h e' h1' h2', foldEndOf_eq K hu e h1 h2, ?_, ?_⟩
  · have hmem : (a, s) ∈ (Tree.node k' g).leaves i := by rw [hP, e]; simp
    have hm' := hmem
    rw [e'] at hmem o1
    rcases List.mem_append.mp hmem with hx | hx
    · have := (List.pairwise_append.mp o1).2.2 _ hx (a', s') (by simp)
      have := (o2 _ hm').2.1
      simp only at *
      omega
    · rcases List.mem_cons.mp hx with hx | hx
      · cases hx; exact Nat.le_refl _
      · have := h2' _ hx
        simp only at this
        rw [h1] at this
        simp at this
  · obtain ⟨p, L, hp, hps⟩ := Tree.leaves_first u j
    have := (o2 p (by rw [hP, hp]; simp)).1
    rw [← hps]
    exact this

/-- `if_stmt` is 3 and a block 4 in the file of `Verif.Tree.Ranges`. -/
def sampleFold : FoldKinds := ⟨(· == 20), (· == 4), (· == 2), fun k => k == 9⟩

example : (List.range (stored 0 sampleFile).length).filterMap (fun i => (foldOf sampleFold (stored 0 sampleFile) i).join) =
    [(9, 12)] := by decide +kernel

/-- The block meets the hypotheses of `fold_block`. -/
example : ∃ e, foldOf sampleFold (stored 0 sampleFile) 14 = some (some (9, e)) := by
  have h1 : Loc (.node 0 sampleFile) 9 (ifStmt 4) :=
    Loc.child Loc.root (by simp [sampleFile, Forest.placed, Tree.size, Forest.size])
  have h2 := Loc.child (Loc.child h1 (j := 10) (by simp only [Forest.placed]; exact List.mem_cons_self)) (j := 14)
    (by simp only [Forest.placed, Tree.size]; exact List.mem_cons_of_mem _ (List.mem_cons_of_mem _ (List.mem_cons_of_mem _ List.mem_cons_self)))
  have ho : sampleFile.Ordered := by
    simp [sampleFile, ifStmt, Forest.Ordered, Tree.Ordered, Tree.stop, Tree.start, Forest.start, Forest.stop]
  obtain ⟨A, a, s, D, -, -, -, h, -⟩ := fold_block sampleFold ho h2 (by decide) rfl rfl rfl
    ⟨(15, .leaf 6 9 1), by simp [Tree.leaves, Forest.leaves], rfl⟩
  exact ⟨_, h⟩

end Verif.Tree
