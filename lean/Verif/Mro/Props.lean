import Verif.Mro.Object

/-!
# Properties of the method resolution order (C42, C43)
-/

namespace Verif.Mro

open Spec

variable {C : Type} [DecidableEq C]

/-! ## Helpers -/

omit [DecidableEq C] in
/-- Two classes cannot be in both orders. -/
theorem no_both_orders {a b : C} {l : List C} (hn : l.Nodup) (h1 : [a, b].Sublist l) (h2 : [b, a].Sublist l) : False := by
  induction l with
  | nil => simp at h1
  | cons x l ih =>
    have hx := List.nodup_cons.mp hn
    cases h1 with
    | cons _ h1 =>
      cases h2 with
      | cons _ h2 => exact ih hx.2 h1 h2
      | cons_cons _ h2 => exact hx.1 (h1.subset (by simp))
    | cons_cons _ h1 =>
      cases h2 with
      | cons _ h2 => exact hx.1 (h2.subset (by simp))
      | cons_cons _ h2 => exact hx.1 (h1.subset (by simp))

theorem orderOf_eq {object : C} {bases : List (C × List C)} (hw : Wf object bases) :
    bases.map (orderOf object) = (lists bases).map (ext object) := by
  unfold lists
  rw [List.map_map]
  apply List.map_congr_left
  intro b hb
  unfold orderOf
  simp only [Function.comp]
  split
  · rename_i h
    rw [hw.objectAlone b hb h, h, ext_object]
  · rename_i h
    rw [ext_of]
    intro hm
    rcases List.mem_cons.mp hm with hm | hm
    · exact h hm.symm
    · exact hw.noObject b hb hm

theorem lists_wf {object : C} {bases : List (C × List C)} (hw : Wf object bases) :
    ∀ z ∈ lists bases, z = [object] ∨ object ∉ z := by
  intro z hz
  obtain ⟨b, hb, rfl⟩ := List.mem_map.mp hz
  by_cases h : b.1 = object
  · left; rw [hw.objectAlone b hb h, h]
  · right
    intro hm
    rcases List.mem_cons.mp hm with hm | hm
    · exact h hm.symm
    · exact hw.noObject b hb hm

omit [DecidableEq C] in
theorem lists_order {object : C} {bases : List (C × List C)} (hw : Wf object bases) (b : C × List C) (hb : b ∈ bases)
    (h : b.1 = object) : b.1 :: b.2 = [object] := by rw [hw.objectAlone b hb h, h]

theorem idxOf?_split {a : C} {l : List C} {i : Nat} (h : l.idxOf? a = some i) :
    ∃ l1 l2, l = l1 ++ a :: l2 ∧ l1.length = i := by
  induction l generalizing i with
  | nil => simp at h
  | cons x l ih =>
    rw [List.idxOf?_cons] at h
    split at h
    · rename_i hx
      simp only [beq_iff_eq] at hx
      simp only [Option.some.injEq] at h
      subst h hx
      exact ⟨[], l, rfl, rfl⟩
    · simp only [Option.map_eq_some_iff] at h
      obtain ⟨j, hj, rfl⟩ := h
      obtain ⟨l1, l2, rfl, rfl⟩ := ih hj
      exact ⟨x :: l1, l2, rfl, by simp⟩

theorem objectLast_iff (object : C) (l : List C) (hn : l.Nodup) :
    objectLast object l = true ↔ object ∉ l ∨ ∃ l1, l = l1 ++ [object] := by
  unfold objectLast
  cases h : l.idxOf? object with
  | none =>
    have : object ∉ l := by rwa [List.idxOf?_eq_none_iff] at h
    simp [this]
  | some i =>
    obtain ⟨l1, l2, rfl, rfl⟩ := idxOf?_split h
    simp only [beq_iff_eq, List.length_append, List.length_cons]
    constructor
    · intro he
      right
      have : l2 = [] := by
        cases l2 with
        | nil => rfl
        | cons a l2 => simp only [List.length_cons] at he; omega
      exact ⟨l1, by rw [this]⟩
    · rintro (h | ⟨l1', he⟩)
      · simp at h
      · have hl2 : l2 = [] := by
          rcases List.eq_nil_or_concat l2 with rfl | ⟨l3, x, rfl⟩
          · rfl
          · exfalso
            rw [List.concat_eq_append] at he
            have hx : x = object := by
              have := congrArg List.getLast? he
              rw [show l1 ++ object :: (l3 ++ [x]) = (l1 ++ object :: l3) ++ [x] by simp, List.getLast?_concat, List.getLast?_concat] at this
              simpa using this
            subst hx
            rw [List.concat_eq_append, List.nodup_append] at hn
            exact (List.nodup_cons.mp hn.2.1).1 (by simp)
        rw [hl2]; simp

/-- The bases without `object`, if it is last. -/
theorem bases_sublist {object : C} {l out : List C} (hn : l.Nodup) (hl : objectLast object l = true)
    (hs : (l.filter (· ≠ object)).Sublist out) : l.Sublist (out ++ [object]) := by
  rcases (objectLast_iff object l hn).mp hl with h | ⟨l1, rfl⟩
  · rw [filter_id h] at hs
    exact hs.trans (List.sublist_append_left _ _)
  · have : object ∉ l1 := by
      intro hm
      have := List.nodup_append.mp hn
      exact this.2.2 object hm object (by simp) rfl
    rw [List.filter_append, filter_id this] at hs
    have e : List.filter (fun x => decide (x ≠ object)) [object] = [] := by simp
    rw [e, List.append_nil] at hs
    exact List.Sublist.append hs (List.Sublist.refl _)

/-- The first class in Python's order is the first base. -/
theorem order_head {object : C} {b : C × List C} {bases : List (C × List C)} {out : List C} (hw : Wf object (b :: bases))
    (h : Order object (b :: bases) out) : ∃ out', out = b.1 :: out' ∧ Good (lists (b :: bases)) b.1 := by
  unfold Order at h
  generalize hs : (b :: bases).map (orderOf object) ++ [(b :: bases).map (·.1)] = seqs at h
  have hbs : (b :: bases).map (·.1) ∈ seqs := by rw [← hs]; simp
  cases h with
  | done hd => have := hd _ hbs; simp at this
  | @step pre c t post out' hg hpre hm =>
    have hc : c ∈ (b :: bases).map (·.1) := by
      have hm : (c :: t) ∈ (b :: bases).map (orderOf object) ++ [(b :: bases).map (·.1)] := by rw [hs]; simp
      rcases List.mem_append.mp hm with hm | hm
      · obtain ⟨x, hx, he⟩ := List.mem_map.mp hm
        have : x.1 = c := by
          unfold orderOf at he
          split at he
          · rename_i h; simp only [List.cons.injEq] at he; rw [h, he.1]
          · simp only [List.cons_append, List.cons.injEq] at he; exact he.1
        rw [← this]; exact List.mem_map_of_mem hx
      · simp only [List.mem_cons, List.not_mem_nil, or_false] at hm
        rw [← hm]; simp
    have hct := hg _ hbs
    simp only [List.map_cons, List.tail_cons] at hct
    have hcb : c = b.1 := by
      rw [List.map_cons, List.mem_cons] at hc
      rcases hc with hc | hc
      · exact hc
      · exact absurd hc hct
    subst hcb
    refine ⟨out', rfl, ?_⟩
    intro z hz hmem
    have hmap := orderOf_eq hw
    apply hg (ext object z) (by rw [← hs, hmap]; exact List.mem_append_left _ (List.mem_map_of_mem hz))
    exact tail_mem_ext (lists_wf hw z hz) hmem

theorem empty_bases (object : C) : linearize object ([] : List (C × List C)) = ([], true) := by
  unfold linearize
  rw [loop.eq_def]
  simp only [iterators, List.map_nil, List.take_nil, findCandidate, hadEntry, List.any_nil, Bool.false_eq_true, if_false]
  rfl

/-! ## C42 -/

/-- C42, first half: every class that Python accepts is accepted. -/
theorem python_accepts (object : C) (bases : List (C × List C)) (out : List C) (hw : Wf object bases)
    (h : Order object bases out) : (linearize object bases).2 = true := by
  cases bases with
  | nil => exact absurd rfl hw.nonempty
  | cons b bases =>
    obtain ⟨out', rfl, hgood⟩ := order_head hw h
    obtain ⟨p1, p2, p3⟩ := merge_props h
    have hbs := p1 ((b :: bases).map (·.1)) (by simp)
    have hlast : objectLast object ((b :: bases).map (·.1)) = true := by
      rw [objectLast_iff _ _ hw.nodup]
      by_cases hm : object ∈ (b :: bases).map (·.1)
      · right
        obtain ⟨l1, l2, he⟩ := List.append_of_mem hm
        cases l2 with
        | nil => exact ⟨l1, he⟩
        | cons x l2 =>
          exfalso
          have hx : x ∈ (b :: bases).map (·.1) := by rw [he]; simp
          obtain ⟨y, hy, rfl⟩ := List.mem_map.mp hx
          have hyo : y.1 ≠ object := by
            intro hyo
            have hn := hw.nodup
            rw [he, List.nodup_append] at hn
            exact (List.nodup_cons.mp hn.2.1).1 (by rw [← hyo]; simp)
          have h1 : [object, y.1].Sublist (b.1 :: out') := by
            apply List.Sublist.trans _ hbs
            rw [he]
            exact List.Sublist.trans (List.Sublist.cons_cons _ (List.Sublist.cons_cons _ (List.nil_sublist _))) (List.sublist_append_right _ _)
          have h2 : [y.1, object].Sublist (b.1 :: out') := by
            apply List.Sublist.trans _ (p1 (orderOf object y) (List.mem_append_left _ (List.mem_map_of_mem hy)))
            unfold orderOf
            rw [if_neg hyo]
            exact List.Sublist.cons_cons _ (List.sublist_append_right _ _)
          exact no_both_orders p3 h1 h2
      · exact .inl hm
    have hz : ∀ z ∈ lists (b :: bases), z.Sublist (b.1 :: out') := by
      intro z hz
      obtain ⟨x, hx, rfl⟩ := List.mem_map.mp hz
      have := p1 (orderOf object x) (List.mem_append_left _ (List.mem_map_of_mem hx))
      apply List.Sublist.trans _ this
      unfold orderOf
      split
      · rename_i hxo; rw [hw.objectAlone x hx hxo, hxo]; exact List.Sublist.refl _
      · exact List.sublist_append_left _ _
    obtain ⟨o, ho⟩ := merge_exists _ ((lists (b :: bases)).map (dropHead b.1)) (b.1 :: out') rfl p3 (by
      intro s hs
      obtain ⟨s', hs', rfl⟩ := List.mem_map.mp hs
      exact (dropHead_sublist _ s').trans (hz s' hs'))
    have hm : Merge (lists (b :: bases)) (b.1 :: o) := by
      have e : lists (b :: bases) = [] ++ (b.1 :: b.2) :: lists bases := rfl
      rw [e] at ho hgood ⊢
      exact .step hgood (by simp) ho
    obtain ⟨m, hm1, -⟩ := (linearize_spec object b bases).1 o hm
    rw [hm1, hlast]

/-- C42, partial (full statement: without `hord`, false by `order_violation`): if the computed order
keeps the bases in the order in which they are written, then it is Python's order. -/
theorem order_partial (object : C) (bases : List (C × List C)) (mro : List (C × Bool)) (hw : Wf object bases)
    (h : linearize object bases = (mro, true))
    (hord : ((bases.map (·.1)).filter (· ≠ object)).Sublist (mro.map (·.1))) :
    Order object bases (mro.map (·.1) ++ [object]) := by
  cases bases with
  | nil => exact absurd rfl hw.nonempty
  | cons b bases =>
    obtain ⟨hlast, out, hm⟩ := (linearize_spec object b bases).2 (by rw [h])
    obtain ⟨m, hm1, hm2⟩ := (linearize_spec object b bases).1 out hm
    rw [h] at hm1
    simp only [Prod.mk.injEq] at hm1
    obtain ⟨rfl, -⟩ := hm1
    have hl := object_lift object hm (lists_wf hw) (by simp [lists])
    rw [← hm2, ← orderOf_eq hw] at hl
    exact merge_add hl (bases_sublist hw.nodup hlast hord)

/-- C42, partial (full statement: for any number of bases, false by `order_violation`): with one or two
bases the class is accepted iff Python accepts it, with Python's order. -/
theorem two_bases_partial (object : C) (bases : List (C × List C)) (hw : Wf object bases) (h2 : bases.length ≤ 2) (out : List C) :
    Order object bases out ↔ ∃ mro, linearize object bases = (mro, true) ∧ out = mro.map (·.1) ++ [object] := by
  have key : ∀ mro, linearize object bases = (mro, true) → Order object bases (mro.map (·.1) ++ [object]) := by
    intro mro h
    apply order_partial object bases mro hw h
    cases bases with
    | nil => exact absurd rfl hw.nonempty
    | cons b bases =>
      obtain ⟨hlast, out, hm⟩ := (linearize_spec object b bases).2 (by rw [h])
      obtain ⟨m, hm1, hm2⟩ := (linearize_spec object b bases).1 out hm
      rw [h] at hm1
      simp only [Prod.mk.injEq] at hm1
      obtain ⟨rfl, -⟩ := hm1
      rw [hm2]
      apply List.Sublist.filter
      rw [List.map_cons]
      apply List.Sublist.cons_cons
      cases bases with
      | nil => simp
      | cons b' bases =>
        have : bases = [] := by
          cases bases with
          | nil => rfl
          | cons _ _ => simp at h2
        subst this
        have hb' : b'.1 ∈ b.1 :: out := (merge_props hm).1 (b'.1 :: b'.2) (by simp [lists]) |>.subset (by simp)
        have hne : b'.1 ≠ b.1 := by
          have := hw.nodup
          simp at this
          exact fun h => this h.symm
        rcases List.mem_cons.mp hb' with h | h
        · exact absurd h hne
        · simpa using h
  constructor
  · intro ho
    have hacc := python_accepts object bases out hw ho
    refine ⟨(linearize object bases).1, by rw [← hacc], ?_⟩
    exact merge_det ho (key _ (by rw [← hacc]))
  · rintro ⟨mro, h, rfl⟩
    exact key mro h

section Witness

/-- `class A; class B; class C(A); class X(C, B, A)` with `object = 0, A = 1, B = 2, C = 3`. -/
def witness : List (Nat × List Nat) := [(3, [1]), (2, []), (1, [])]

theorem witness_wf : Wf 0 witness := ⟨by decide, by decide, by decide, by decide, by decide⟩

/-- C42 violated: Python's order of `X(C, B, A)` is `C, B, A`, the computed one is `C, A, B`: an attribute
that both `A` and `B` define is taken from the wrong class. -/
theorem order_violation :
    ∃ (bases : List (Nat × List Nat)) (out : List Nat) (mro : List (Nat × Bool)), Wf 0 bases ∧ bases.length = 3 ∧
      Order 0 bases out ∧ linearize 0 bases = (mro, true) ∧ out ≠ mro.map (·.1) ++ [0] := by
  refine ⟨witness, [3, 2, 1, 0], [(3, true), (1, false), (2, true)], witness_wf, rfl, ?_, ?_, by decide⟩
  · have e : witness.map (orderOf 0) ++ [witness.map (·.1)] = [[3, 1, 0], [2, 0], [1, 0], [3, 2, 1]] := by decide
    unfold Order
    rw [e]
    refine Merge.step (pre := []) (c := 3) (t := [1, 0]) (post := [[2, 0], [1, 0], [3, 2, 1]]) ?_ (by simp) ?_
    · unfold Good; decide
    · have e : ([] ++ [3, 1, 0] :: [[2, 0], [1, 0], [3, 2, 1]]).map (dropHead 3) = [[1, 0], [2, 0], [1, 0], [2, 1]] := by decide
      rw [e]
      refine Merge.step (pre := [[1, 0]]) (c := 2) (t := [0]) (post := [[1, 0], [2, 1]]) ?_ ?_ ?_
      · unfold Good; decide
      · intro d u hd
        simp only [List.mem_cons, List.cons.injEq, List.not_mem_nil, or_false] at hd
        rw [hd.1]
        unfold Good; decide
      · have e : ([[1, 0]] ++ [2, 0] :: [[1, 0], [2, 1]]).map (dropHead 2) = [[1, 0], [0], [1, 0], [1]] := by decide
        rw [e]
        refine Merge.step (pre := []) (c := 1) (t := [0]) (post := [[0], [1, 0], [1]]) ?_ (by simp) ?_
        · unfold Good; decide
        · have e : ([] ++ [1, 0] :: [[0], [1, 0], [1]]).map (dropHead 1) = [[0], [0], [0], []] := by decide
          rw [e]
          refine Merge.step (pre := []) (c := 0) (t := []) (post := [[0], [0], []]) ?_ (by simp) ?_
          · unfold Good; decide
          · apply Merge.done; decide
  · decide +kernel

/-- C42 violated: `class A; class B(A); class P; class X(P, A, B)` is rejected by Python and accepted here. -/
theorem accepted_violation :
    ∃ (bases : List (Nat × List Nat)), Wf 0 bases ∧ (¬ ∃ out, Order 0 bases out) ∧ (linearize 0 bases).2 = true := by
  refine ⟨[(4, []), (1, []), (2, [1])], ⟨by decide, by decide, by decide, by decide, by decide⟩, ?_, ?_⟩
  · rintro ⟨out, h⟩
    obtain ⟨p1, -, p3⟩ := merge_props h
    refine no_both_orders (a := 1) (b := 2) p3 ?_ ?_
    · exact List.Sublist.trans (by decide) (p1 [4, 1, 2] (by decide))
    · exact List.Sublist.trans (by decide) (p1 [2, 1, 0] (by decide))
  · decide +kernel

example : Wf 0 [(3, [1]), (2, [])] ∧ (linearize 0 [(3, [1]), (2, [])]) = ([(3, true), (1, false), (2, true)], true) := by
  refine ⟨⟨by decide, by decide, by decide, by decide, by decide⟩, ?_⟩
  decide +kernel

end Witness

/-! ## C43 -/

/-- C43, partial (full statement: for all bases, false by `missing_violation`): an accepted order has
every ancestor except `object` exactly once, and keeps the order of every base. -/
theorem complete_order_partial (object : C) (bases : List (C × List C)) (mro : List (C × Bool))
    (h : linearize object bases = (mro, true)) :
    (mro.map (·.1)).Nodup ∧
    (∀ c, c ∈ mro.map (·.1) ↔ c ≠ object ∧ ∃ b ∈ bases, c ∈ b.1 :: b.2) ∧
    (∀ b ∈ bases, ((b.1 :: b.2).filter (· ≠ object)).Sublist (mro.map (·.1))) := by
  cases bases with
  | nil =>
    rw [empty_bases] at h
    simp only [Prod.mk.injEq, and_true] at h
    subst h
    simp
  | cons b bases =>
    obtain ⟨hlast, out, hm⟩ := (linearize_spec object b bases).2 (by rw [h])
    obtain ⟨m, hm1, hm2⟩ := (linearize_spec object b bases).1 out hm
    rw [h] at hm1
    simp only [Prod.mk.injEq] at hm1
    obtain ⟨rfl, -⟩ := hm1
    obtain ⟨p1, p2, p3⟩ := merge_props hm
    rw [hm2]
    refine ⟨p3.filter _, ?_, ?_⟩
    · intro c
      rw [List.mem_filter]
      simp only [ne_eq, decide_eq_true_eq]
      constructor
      · rintro ⟨hc, hco⟩
        obtain ⟨s, hs, hcs⟩ := p2 c hc
        obtain ⟨x, hx, rfl⟩ := List.mem_map.mp hs
        exact ⟨hco, x, hx, hcs⟩
      · rintro ⟨hco, x, hx, hcx⟩
        exact ⟨(p1 (x.1 :: x.2) (List.mem_map_of_mem hx)).subset hcx, hco⟩
    · intro x hx
      exact (p1 (x.1 :: x.2) (List.mem_map_of_mem hx)).filter _

/-- C43 violated: after `class X(A, B)` with `class B(A)`, which is reported, the order of `X` is empty:
neither `A` nor `B` is an ancestor of `X`. -/
theorem missing_violation :
    ∃ (bases : List (Nat × List Nat)), Wf 0 bases ∧ bases.length = 2 ∧ linearize 0 bases = ([], false) := by
  refine ⟨[(1, []), (2, [1])], ⟨by decide, by decide, by decide, by decide, by decide⟩, rfl, ?_⟩
  decide +kernel

/-- C43: whether or not the bases can be linearized, no class is repeated and only ancestors other
than `object` are in the order. -/
theorem no_repetition (object : C) (bases : List (C × List C)) :
    ((linearize object bases).1.map (·.1)).Nodup ∧
    ∀ c ∈ (linearize object bases).1.map (·.1), c ≠ object ∧ ∃ b ∈ bases, c ∈ b.1 :: b.2 := by
  have h := loop_nodup object _ (iterators bases) 1 [] (objectLast object (bases.map (·.1))) rfl (by simp) (by simp)
  refine ⟨h.1, fun c hc => ?_⟩
  rcases h.2 c hc with h | ⟨hco, s, hs, hcs⟩
  · simp at h
  · refine ⟨hco, ?_⟩
    rw [erase_iterators] at hs
    obtain ⟨x, hx, rfl⟩ := List.mem_map.mp hs
    exact ⟨x, hx, hcs⟩

/-! ## Whole programs -/

/-- What holds for every table of a program. -/
structure Table (object : C) (defs : List (ClassDef C)) (table : List (C × List C)) : Prop where
  names : table.map (·.1) = defs.map (·.name)
  nodup : (table.map (·.1)).Nodup
  order : ∀ e ∈ table, (e.1 :: e.2).Nodup
  noObject : ∀ e ∈ table, e.1 ≠ object ∧ object ∉ e.2
  known : ∀ e ∈ table, ∀ c ∈ e.2, c ∈ table.map (·.1)

theorem lookup_mem {table : List (C × List C)} (hn : (table.map (·.1)).Nodup) {b : C} {l : List C} :
    table.lookup b = some l ↔ (b, l) ∈ table := by
  induction table with
  | nil => simp
  | cons e table ih =>
    obtain ⟨c, m⟩ := e
    simp only [List.map_cons, List.nodup_cons] at hn
    rw [List.lookup_cons]
    by_cases h : b = c
    · subst h
      simp only [beq_self_eq_true, List.mem_cons, Prod.mk.injEq, true_and]
      constructor
      · intro h; left; simpa using h.symm
      · rintro (rfl | h)
        · rfl
        · exact absurd (List.mem_map_of_mem (f := (·.1)) h) hn.1
    · have hb : (b == c) = false := by simpa using h
      simp only [hb]
      rw [ih hn.2, List.mem_cons]
      constructor
      · exact .inr
      · rintro (h' | h')
        · simp only [Prod.mk.injEq] at h'; exact absurd h'.1 h
        · exact h'

/-- A class statement as the specification sees it. -/
def ClassDef.pair (d : ClassDef C) : C × List C := (d.name, d.bases)

/-- The stored bases of a class, as arguments of `linearize`. -/
theorem stored_wf {object : C} {defs : List (ClassDef C)} {table : List (C × List C)} (ht : Table object defs table)
    {bases : List C} (hne : bases ≠ []) (hn : bases.Nodup) (hk : ∀ b ∈ bases, b = object ∨ b ∈ table.map (·.1)) :
    Wf object (bases.map fun b => (b, (table.lookup b).getD [])) := by
  have hobj : table.lookup object = none := by
    cases h : table.lookup object with
    | none => rfl
    | some l => exact absurd rfl (ht.noObject _ ((lookup_mem ht.nodup).mp h)).1
  refine ⟨by simpa using hne, ?_, ?_, ?_, ?_⟩
  · rw [List.map_map]
    have : ((·.1) ∘ fun b => (b, (table.lookup b).getD [])) = (id : C → C) := rfl
    rw [this, List.map_id]; exact hn
  · intro x hx
    obtain ⟨b, hb, rfl⟩ := List.mem_map.mp hx
    cases h : table.lookup b with
    | none => simp
    | some l => exact ht.order _ ((lookup_mem ht.nodup).mp h)
  · intro x hx
    obtain ⟨b, hb, rfl⟩ := List.mem_map.mp hx
    cases h : table.lookup b with
    | none => simp
    | some l => exact (ht.noObject _ ((lookup_mem ht.nodup).mp h)).2
  · intro x hx hxo
    obtain ⟨b, hb, rfl⟩ := List.mem_map.mp hx
    simp only at hxo
    subst hxo
    simp only [hobj]
    rfl

theorem build_table (object : C) (defs : List (ClassDef C)) (hs : Scoped object (defs.map ClassDef.pair)) :
    Table object defs (build object defs).1 := by
  induction defs with
  | nil => exact ⟨rfl, by simp [build], by simp [build], by simp [build], by simp [build]⟩
  | cons d defs ih =>
    simp only [List.map_cons, ClassDef.pair, Scoped] at hs
    obtain ⟨h1, h2, h3, h4, h5⟩ := hs
    have ht := ih h5
    have hfresh : d.name ∉ (build object defs).1.map (·.1) := by
      rw [ht.names]
      intro hm
      obtain ⟨d', hd', he⟩ := List.mem_map.mp hm
      exact h2 _ (List.mem_map_of_mem (f := ClassDef.pair) hd') he
    simp only [build]
    generalize (build object defs).1 = table at ht hfresh ⊢
    have hr := no_repetition object (d.bases.map fun b => (b, (table.lookup b).getD []))
    generalize linearize object (d.bases.map fun b => (b, (table.lookup b).getD [])) = r at hr ⊢
    have hknown : ∀ c ∈ r.1.map (·.1), c ∈ table.map (·.1) := by
      intro c hc
      obtain ⟨hco, x, hx, hcx⟩ := hr.2 c hc
      obtain ⟨b, hb, rfl⟩ := List.mem_map.mp hx
      simp only at hcx
      have hbt : b = object ∨ b ∈ table.map (·.1) := by
        rcases h4 b hb with h | ⟨d', hd', he⟩
        · exact .inl h
        · right
          rw [ht.names]
          obtain ⟨d'', hd'', rfl⟩ := List.mem_map.mp hd'
          rw [← he]
          exact List.mem_map_of_mem hd''
      rcases List.mem_cons.mp hcx with rfl | hcx
      · exact hbt.resolve_left hco
      · cases h : table.lookup b with
        | none => rw [h] at hcx; simp at hcx
        | some l =>
          rw [h] at hcx
          exact ht.known _ ((lookup_mem ht.nodup).mp h) c hcx
    refine ⟨by simp [ht.names], ?_, ?_, ?_, ?_⟩
    · rw [List.map_cons, List.nodup_cons]; exact ⟨hfresh, ht.nodup⟩
    · intro e he
      rcases List.mem_cons.mp he with rfl | he
      · exact List.nodup_cons.mpr ⟨fun hm => hfresh (hknown _ hm), hr.1⟩
      · exact ht.order e he
    · intro e he
      rcases List.mem_cons.mp he with rfl | he
      · exact ⟨h1, fun hm => (hr.2 _ hm).1 rfl⟩
      · exact ht.noObject e he
    · intro e he c hc
      rw [List.map_cons]
      rcases List.mem_cons.mp he with rfl | he
      · exact List.mem_cons_of_mem _ (hknown c hc)
      · exact List.mem_cons_of_mem _ (ht.known e he c hc)

theorem known_of_scoped {object : C} {defs : List (ClassDef C)} {table : List (C × List C)} (ht : Table object defs table)
    {bases : List C} (h4 : ∀ b ∈ bases, b = object ∨ ∃ d ∈ defs.map ClassDef.pair, d.1 = b) :
    ∀ b ∈ bases, b = object ∨ b ∈ table.map (·.1) := by
  intro b hb
  rcases h4 b hb with h | ⟨d', hd', he⟩
  · exact .inl h
  · right
    rw [ht.names]
    obtain ⟨d'', hd'', rfl⟩ := List.mem_map.mp hd'
    rw [← he]
    exact List.mem_map_of_mem hd''

/-- The orders of the bases that Python uses, from the stored table. -/
theorem orders_eq {object : C} {defs : List (ClassDef C)} {table : List (C × List C)} (ht : Table object defs table)
    {bases : List C} (hk : ∀ b ∈ bases, b = object ∨ b ∈ table.map (·.1)) (orders : List (List C)) :
    List.Forall₂ (HasOrder object (table.map fun e => (e.1, e.2 ++ [object]))) bases orders ↔
      orders = (bases.map fun b => (b, (table.lookup b).getD [])).map (orderOf object) := by
  induction bases generalizing orders with
  | nil =>
    constructor
    · intro h; cases h; rfl
    · rintro rfl; exact .nil
  | cons b bases ih =>
    have hrest := ih (fun b hb => hk b (List.mem_cons_of_mem _ hb))
    have hone : ∀ o, HasOrder object (table.map fun e => (e.1, e.2 ++ [object])) b o ↔
        o = orderOf object (b, (table.lookup b).getD []) := by
      intro o
      unfold HasOrder orderOf
      by_cases hb : b = object
      · simp [hb]
      · simp only [hb, false_and, ne_eq, not_false_eq_true, true_and, false_or, if_false]
        obtain ⟨⟨b', l⟩, hm, rfl⟩ := List.mem_map.mp ((hk b (by simp)).resolve_left hb)
        simp only at hb ⊢
        rw [(lookup_mem ht.nodup).mpr hm]
        simp only [Option.getD_some, List.cons_append]
        constructor
        · rintro ⟨rest, hrest, rfl⟩
          obtain ⟨⟨b2, l2⟩, hm2, he⟩ := List.mem_map.mp hrest
          simp only [Prod.mk.injEq] at he
          obtain ⟨rfl, rfl⟩ := he
          have e1 := (lookup_mem ht.nodup).mpr hm
          have e2 := (lookup_mem ht.nodup).mpr hm2
          rw [e1] at e2
          simp only [Option.some.injEq] at e2
          rw [e2]
        · rintro rfl
          exact ⟨l ++ [object], List.mem_map.mpr ⟨(b', l), hm, rfl⟩, rfl⟩
    constructor
    · intro h
      cases h with
      | cons h1 h2 =>
        rw [(hone _).mp h1, hrest _ |>.mp h2]
        rfl
    · rintro rfl
      exact .cons ((hone _).mpr rfl) ((hrest _).mpr rfl)

theorem merge_object {object : C} {out : List C} : Merge [[object], [object]] out ↔ out = [object] := by
  have hm : Merge [[object], [object]] [object] := by
    refine Merge.step (pre := []) (c := object) (t := []) (post := [[object]]) ?_ (by simp) ?_
    · intro s hs; simp at hs; subst hs; simp
    · apply Merge.done; simp [dropHead]
  exact ⟨fun h => merge_det h hm, fun h => h ▸ hm⟩

/-- C42 for whole programs, partial (full statement: without `h2`, false by `order_violation`): if no class has
more than two bases, Python executes all class statements iff all are linearizable, and then the stored orders are
Python's (which also end with `object`). -/
theorem program_partial (object : C) (defs : List (ClassDef C)) (hs : Scoped object (defs.map ClassDef.pair))
    (h2 : ∀ d ∈ defs, d.bases.length ≤ 2) (table : List (C × List C)) :
    Python object (defs.map ClassDef.pair) table ↔
      (build object defs).2 = true ∧ table = (build object defs).1.map fun e => (e.1, e.2 ++ [object]) := by
  induction defs generalizing table with
  | nil =>
    constructor
    · intro h
      generalize hd : ([] : List (ClassDef C)).map ClassDef.pair = l at h
      cases h with
      | nil => simp [build]
      | cons _ _ _ => simp at hd
    · rintro ⟨-, rfl⟩; exact .nil
  | cons d defs ih =>
    have hs' := hs
    simp only [List.map_cons, ClassDef.pair, Scoped] at hs'
    obtain ⟨h1, hf, h3, h4, h5⟩ := hs'
    have ht := build_table object defs h5
    have ih := ih h5 (fun d hd => h2 d (List.mem_cons_of_mem _ hd))
    have hk := known_of_scoped ht h4
    have hlen := h2 d (by simp)
    simp only [build]
    generalize hb : build object defs = r at ht ih hk ⊢
    obtain ⟨tbl, ok⟩ := r
    simp only at ht ih hk ⊢
    -- one class
    have hone : ∀ out, (∃ orders, List.Forall₂ (HasOrder object (tbl.map fun e => (e.1, e.2 ++ [object])))
          (if d.bases = [] then [object] else d.bases) orders ∧
          Merge (orders ++ [if d.bases = [] then [object] else d.bases]) out) ↔
        (linearize object (d.bases.map fun b => (b, (tbl.lookup b).getD []))).2 = true ∧
          out = (linearize object (d.bases.map fun b => (b, (tbl.lookup b).getD []))).1.map (·.1) ++ [object] := by
      intro out
      by_cases hne : d.bases = []
      · simp only [hne, if_true, List.map_nil, empty_bases]
        simp only [List.nil_append, true_and]
        constructor
        · rintro ⟨orders, ho, hm⟩
          cases ho with
          | cons ho1 ho2 =>
            cases ho2
            rcases ho1 with ⟨-, rfl⟩ | ⟨h, -⟩
            · exact merge_object.mp hm
            · exact absurd rfl h
        · rintro rfl
          exact ⟨[[object]], .cons (.inl ⟨rfl, rfl⟩) .nil, merge_object.mpr rfl⟩
      · simp only [if_neg hne]
        have hw := stored_wf ht hne h3 hk
        have h2b := two_bases_partial object _ hw (by simpa using hlen) out
        have hmap : (d.bases.map fun b => (b, (tbl.lookup b).getD [])).map (·.1) = d.bases := by
          rw [List.map_map]
          exact List.map_id _
        constructor
        · rintro ⟨orders, ho, hm⟩
          rw [(orders_eq ht hk orders).mp ho] at hm
          obtain ⟨mro, he, rfl⟩ := h2b.mp (by unfold Order; rw [hmap]; exact hm)
          rw [he]
          exact ⟨rfl, rfl⟩
        · rintro ⟨he, rfl⟩
          have hm := h2b.mpr ⟨_, by rw [← he], rfl⟩
          unfold Order at hm
          rw [hmap] at hm
          exact ⟨_, (orders_eq ht hk _).mpr rfl, hm⟩
    constructor
    · intro h
      generalize hd : (d :: defs).map ClassDef.pair = l at h
      cases h with
      | nil => simp at hd
      | cons hp ho hm =>
        simp only [List.map_cons, ClassDef.pair, List.cons.injEq, Prod.mk.injEq] at hd
        obtain ⟨⟨rfl, rfl⟩, rfl⟩ := hd
        obtain ⟨rfl, rfl⟩ := (ih _).mp hp
        obtain ⟨e1, rfl⟩ := (hone _).mp ⟨_, ho, hm⟩
        rw [e1]
        exact ⟨rfl, rfl⟩
    · rintro ⟨he, rfl⟩
      simp only [Bool.and_eq_true] at he
      obtain ⟨he1, he2⟩ := he
      obtain ⟨orders, ho, hm⟩ := (hone _).mpr ⟨he2, rfl⟩
      exact .cons ((ih _).mpr ⟨he1, rfl⟩) ho hm

/-- C43 for whole programs: in a program in which all classes are linearizable, the order of a class
contains the orders of its ancestors, so every class is before its own ancestors. -/
theorem ancestors_ordered (object : C) (defs : List (ClassDef C)) (hs : Scoped object (defs.map ClassDef.pair))
    (hok : (build object defs).2 = true) :
    ∀ x ∈ (build object defs).1, ∀ a ∈ (build object defs).1, a.1 ∈ x.2 → (a.1 :: a.2).Sublist x.2 := by
  induction defs with
  | nil => simp [build]
  | cons d defs ih =>
    have hs' := hs
    simp only [List.map_cons, ClassDef.pair, Scoped] at hs'
    obtain ⟨h1, hf, h3, h4, h5⟩ := hs'
    have ht := build_table object defs h5
    have htc := build_table object (d :: defs) hs
    have hk := known_of_scoped ht h4
    have ih := ih h5
    simp only [build] at hok htc ⊢
    generalize hb : build object defs = r at ht ih hk hok htc ⊢
    obtain ⟨tbl, ok⟩ := r
    simp only [Bool.and_eq_true] at ht ih hk hok htc ⊢
    have hlin : linearize object (d.bases.map fun b => (b, (tbl.lookup b).getD [])) =
      ((linearize object (d.bases.map fun b => (b, (tbl.lookup b).getD []))).1, true) := by rw [← hok.2]
    obtain ⟨q1, q2, q3⟩ := complete_order_partial object _ _ hlin
    intro x hx a ha hax
    -- the ancestor is not the new class
    have ha' : a ∈ tbl := by
      rcases List.mem_cons.mp ha with rfl | ha
      · exfalso
        rcases List.mem_cons.mp hx with rfl | hx
        · exact (List.nodup_cons.mp (htc.order _ (by simp))).1 hax
        · have := ht.known x hx _ hax
          have hn := htc.nodup
          rw [List.map_cons, List.nodup_cons] at hn
          exact hn.1 this
      · exact ha
    rcases List.mem_cons.mp hx with rfl | hx
    · simp only at hax ⊢
      obtain ⟨hao, y, hy, hay⟩ := (q2 a.1).mp hax
      obtain ⟨b, hb', rfl⟩ := List.mem_map.mp hy
      have hsub := q3 _ hy
      simp only at hay hsub
      have hbo : b ≠ object := by
        intro hbo
        have hl : tbl.lookup b = none := by
          cases h : tbl.lookup b with
          | none => rfl
          | some l => exact absurd hbo (ht.noObject _ ((lookup_mem ht.nodup).mp h)).1
        rw [hl] at hay
        simp only [Option.getD_none, List.mem_cons, List.not_mem_nil, or_false] at hay
        exact hao (hay.trans hbo)
      obtain ⟨⟨b', l⟩, hbl, rfl⟩ := List.mem_map.mp ((hk b hb').resolve_left hbo)
      simp only at hay hsub hbo
      rw [(lookup_mem ht.nodup).mpr hbl] at hay hsub
      simp only [Option.getD_some] at hay hsub
      have hno : object ∉ b' :: l := by
        intro hm
        rcases List.mem_cons.mp hm with hm | hm
        · exact hbo hm.symm
        · exact (ht.noObject _ hbl).2 hm
      rw [filter_id hno] at hsub
      rcases List.mem_cons.mp hay with hay | hay
      · have : a.2 = l := by
          have e1 := (lookup_mem ht.nodup).mpr hbl
          have e2 := (lookup_mem (b := a.1) (l := a.2) ht.nodup).mpr ha'
          rw [hay, e1] at e2
          simpa using e2.symm
        rw [hay, this]; exact hsub
      · exact (ih hok.1 _ hbl a ha' hay).trans ((List.sublist_cons_self _ _).trans hsub)
    · exact ih hok.1 x hx a ha' hax

example : Scoped 0 ([⟨4, [3, 2]⟩, ⟨3, [1]⟩, ⟨2, [1]⟩, ⟨1, []⟩].map ClassDef.pair) ∧
    (∀ d ∈ ([⟨4, [3, 2]⟩, ⟨3, [1]⟩, ⟨2, [1]⟩, ⟨1, []⟩] : List (ClassDef Nat)), d.bases.length ≤ 2) ∧
    build 0 [⟨4, [3, 2]⟩, ⟨3, [1]⟩, ⟨2, [1]⟩, ⟨1, []⟩] = ([(4, [3, 2, 1]), (3, [1]), (2, [1]), (1, [])], true) := by
  refine ⟨?_, ?_, ?_⟩
  · simp [Scoped, ClassDef.pair]
  · decide
  · decide +kernel

end Verif.Mro
