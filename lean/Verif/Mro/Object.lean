import Verif.Mro.Lemmas

/-!
# `object` and the first step
-/

namespace Verif.Mro

open Spec

variable {C : Type} [DecidableEq C]

/-- A list of the code with `object` at the end, as Python has it. -/
def ext (object : C) (z : List C) : List C := z.filter (· ≠ object) ++ [object]

theorem filter_id {object : C} {z : List C} (h : object ∉ z) : z.filter (· ≠ object) = z := by
  rw [List.filter_eq_self]
  intro a ha
  simp only [ne_eq, decide_eq_true_eq]
  rintro rfl
  exact h ha

theorem ext_of {object : C} {z : List C} (h : object ∉ z) : ext object z = z ++ [object] := by
  unfold ext; rw [filter_id h]

theorem ext_object (object : C) : ext object [object] = [object] := by simp [ext]

theorem ext_nil (object : C) : ext object [] = [object] := by simp [ext]

theorem mem_tail_ext {object c : C} {z : List C} (hz : z = [object] ∨ object ∉ z) (hc : c ≠ object)
    (h : c ∈ (ext object z).tail) : c ∈ z.tail := by
  rcases hz with rfl | hz
  · rw [ext_object] at h; simp at h
  · rw [ext_of hz] at h
    cases z with
    | nil => simp at h
    | cons a z =>
      simp only [List.cons_append, List.tail_cons, List.mem_append, List.mem_cons, List.not_mem_nil, or_false] at h
      rcases h with h | h
      · exact h
      · exact absurd h hc

theorem tail_mem_ext {object c : C} {z : List C} (hz : z = [object] ∨ object ∉ z) (h : c ∈ z.tail) :
    c ∈ (ext object z).tail := by
  rcases hz with rfl | hz
  · simp at h
  · rw [ext_of hz]
    cases z with
    | nil => simp at h
    | cons a z => simp only [List.cons_append, List.tail_cons, List.mem_append]; exact .inl h

/-- Adding `object` at the end of all lists adds it at the end of the result. -/
theorem object_lift (object : C) {seqs : List (List C)} {out : List C} (h : Merge seqs out)
    (hw : ∀ z ∈ seqs, z = [object] ∨ object ∉ z) (hne : seqs ≠ []) :
    Merge (seqs.map (ext object)) (out.filter (· ≠ object) ++ [object]) := by
  induction h with
  | @done seqs h =>
    have hmap : ∀ l : List (List C), (∀ s ∈ l, s = []) → ∀ s ∈ l.map (ext object), s = [object] := by
      intro l hl s hs
      obtain ⟨z, hz, rfl⟩ := List.mem_map.mp hs
      rw [hl z hz, ext_nil]
    cases seqs with
    | nil => exact absurd rfl hne
    | cons z seqs =>
      have hz := h z (by simp)
      subst hz
      have hall := hmap ([] :: seqs) h
      simp only [List.map_cons, ext_nil] at hall ⊢
      refine Merge.step (pre := []) (c := object) (t := []) (post := seqs.map (ext object)) (out := []) ?_ (by simp) ?_
      · intro s hs
        rw [hall s hs]; simp
      · apply Merge.done
        intro s hs
        obtain ⟨s', hs', rfl⟩ := List.mem_map.mp hs
        rw [hall s' hs']
        simp [dropHead]
  | @step pre c t post out hg hpre hm ih =>
    have hw' : ∀ z ∈ (pre ++ (c :: t) :: post).map (dropHead c), z = [object] ∨ object ∉ z := by
      intro z hz
      obtain ⟨z', hz', rfl⟩ := List.mem_map.mp hz
      rcases hw z' hz' with rfl | h
      · by_cases hc : object = c
        · right; subst hc; simp [dropHead]
        · left; simp [dropHead, hc]
      · right; exact fun hm => h (mem_dropHead hm)
    have ih := ih hw' (by simp)
    by_cases hc : c = object
    · subst hc
      rw [List.filter_cons_of_neg (by simp)]
      have e : ((pre ++ (c :: t) :: post).map (dropHead c)).map (ext c) = (pre ++ (c :: t) :: post).map (ext c) := by
        rw [List.map_map]
        apply List.map_congr_left
        intro z hz
        rcases hw z hz with rfl | h
        · simp [dropHead, ext]
        · simp only [Function.comp]
          unfold dropHead
          rw [if_neg]
          intro hh
          cases z with
          | nil => simp at hh
          | cons a z => simp at hh; exact h (by simp [hh])
      rw [e] at ih
      exact ih
    · rw [List.filter_cons_of_pos (by simp [hc]), List.cons_append]
      have hct : object ∉ c :: t := by
        rcases hw (c :: t) (by simp) with h | h
        · simp at h; exact absurd h.1 hc
        · exact h
      have ect : ext object (c :: t) = c :: (t ++ [object]) := by rw [ext_of hct]; rfl
      have emap : (pre ++ (c :: t) :: post).map (ext object) = pre.map (ext object) ++ (c :: (t ++ [object])) :: post.map (ext object) := by
        rw [List.map_append, List.map_cons, ect]
      rw [emap]
      refine Merge.step ?_ ?_ ?_
      · rw [← emap]
        intro s hs hcs
        obtain ⟨z, hz, rfl⟩ := List.mem_map.mp hs
        exact hg z hz (mem_tail_ext (hw z hz) hc hcs)
      · rw [← emap]
        intro d u hd hgd
        obtain ⟨z, hz, he⟩ := List.mem_map.mp hd
        have hobj : ¬ Good ((pre ++ (c :: t) :: post).map (ext object)) object := by
          intro h
          apply h (ext object (c :: t)) (List.mem_map_of_mem (by simp))
          rw [ect]; simp
        cases z with
        | nil =>
          rw [ext_nil] at he
          simp only [List.cons.injEq] at he
          rw [← he.1] at hgd
          exact hobj hgd
        | cons a z =>
          rcases hw (a :: z) (by simp [hz]) with h | h
          · rw [h, ext_object] at he
            simp only [List.cons.injEq] at he
            rw [← he.1] at hgd
            exact hobj hgd
          · rw [ext_of h] at he
            simp only [List.cons_append, List.cons.injEq] at he
            rw [← he.1] at hgd
            apply hpre a z hz
            intro s hs has
            exact hgd _ (List.mem_map_of_mem hs) (tail_mem_ext (hw s hs) has)
      · rw [← emap]
        have e : ((pre ++ (c :: t) :: post).map (dropHead c)).map (ext object) =
            ((pre ++ (c :: t) :: post).map (ext object)).map (dropHead c) := by
          rw [List.map_map, List.map_map]
          apply List.map_congr_left
          intro z hz
          simp only [Function.comp]
          rcases hw z hz with rfl | h
          · have h1 : dropHead c [object] = [object] := by simp [dropHead, Ne.symm hc]
            rw [h1, ext_object, h1]
          · cases z with
            | nil =>
              have h1 : dropHead c [object] = [object] := by simp [dropHead, Ne.symm hc]
              rw [show dropHead c ([] : List C) = [] by simp [dropHead], ext_nil, h1]
            | cons a z =>
              have hzo : object ∉ z := fun hm => h (by simp [hm])
              rw [ext_of h]
              by_cases hac : a = c
              · subst hac
                rw [dropHead_cons_self, ext_of hzo, List.cons_append, dropHead_cons_self]
              · have h1 : dropHead c (a :: z) = a :: z := by simp [dropHead, hac]
                rw [h1, ext_of h, List.cons_append]
                simp [dropHead, hac]
        rw [e] at ih
        exact ih

/-- The lists of the code, without indices. -/
def lists (bases : List (C × List C)) : List (List C) := bases.map fun b => b.1 :: b.2

omit [DecidableEq C] in
theorem zipIdx_map_fst {α : Type} (l : List α) (n : Nat) : (l.zipIdx n).map (·.1) = l := by
  induction l generalizing n with
  | nil => rfl
  | cons a l ih => simp [ih]

omit [DecidableEq C] in
theorem erase_iterators (bases : List (C × List C)) : erase (iterators bases) = lists bases := by
  unfold erase iterators lists
  rw [List.map_map]
  apply List.map_congr_left
  rintro ⟨b, m⟩ _
  simp only [Function.comp]
  exact zipIdx_map_fst _ _

omit [DecidableEq C] in
theorem bumps_iterators (bases : List (C × List C)) : bumps (iterators bases) = bases.length := by
  unfold bumps iterators
  rw [List.filter_eq_self.mpr]
  · simp
  · intro it hit
    obtain ⟨⟨b, m⟩, _, rfl⟩ := List.mem_map.mp hit
    simp

/-- The whole function: after the first step, which only looks at the first base, it is the merge. -/
theorem linearize_spec (object : C) (b : C × List C) (bases : List (C × List C)) :
    (∀ out, Merge (lists (b :: bases)) (b.1 :: out) →
      ∃ m, linearize object (b :: bases) = (m, objectLast object ((b :: bases).map (·.1))) ∧
        m.map (·.1) = (b.1 :: out).filter (· ≠ object)) ∧
    ((linearize object (b :: bases)).2 = true →
      objectLast object ((b :: bases).map (·.1)) = true ∧ ∃ out, Merge (lists (b :: bases)) (b.1 :: out)) := by
  obtain ⟨b, mb⟩ := b
  simp only
  have hlen : (iterators ((b, mb) :: bases)).length = bases.length + 1 := by simp [iterators]
  have htake : (iterators ((b, mb) :: bases)).take (min 1 (iterators ((b, mb) :: bases)).length) = [(b :: mb).zipIdx] := by
    rw [hlen, Nat.min_eq_left (by omega)]
    simp [iterators]
  have hz : (b :: mb).zipIdx = (b, 0) :: mb.zipIdx 1 := by simp
  have hlists : lists ((b, mb) :: bases) = [] ++ (b :: mb) :: lists bases := rfl
  have hfirst : findCandidate (iterators ((b, mb) :: bases))
      ((iterators ((b, mb) :: bases)).take (min 1 (iterators ((b, mb) :: bases)).length)) =
      if conflicts (iterators ((b, mb) :: bases)) b then none else some (b, 0) := by
    rw [htake, hz]
    simp only [findCandidate]
  unfold linearize
  rw [loop]
  cases hc : conflicts (iterators ((b, mb) :: bases)) b with
  | true =>
    rw [hc] at hfirst
    simp only [if_true] at hfirst
    have hng : ¬ Good (lists ((b, mb) :: bases)) b := by
      rw [← erase_iterators, ← conflicts_iff, hc]; simp
    have hno : ¬ ∃ out, Merge (lists ((b, mb) :: bases)) (b :: out) := by
      rintro ⟨out, hm⟩
      generalize hs : lists ((b, mb) :: bases) = seqs at hm hng
      cases hm with
      | step hg _ _ => exact hng hg
    constructor
    · intro out hm; exact absurd ⟨out, hm⟩ hno
    · intro h2
      exfalso
      split at h2
      · rename_i x heq
        rw [hfirst] at heq
        simp at heq
      · have he : hadEntry ((iterators ((b, mb) :: bases)).take (min 1 (iterators ((b, mb) :: bases)).length)) = true := by
          rw [htake, hz]; rfl
        rw [he] at h2
        simp only [if_true] at h2
        split at h2
        · split at h2
          · rw [loop_false object _ _ _ _ rfl] at h2; simp at h2
          · rw [loop_false object _ _ _ _ rfl] at h2; simp at h2
        · rename_i h'
          have := popFirst_none h' ((b :: mb).zipIdx) (by simp [iterators])
          simp at this
  | false =>
    rw [hc] at hfirst
    simp only [Bool.false_eq_true, if_false] at hfirst
    have hgood : Good (lists ((b, mb) :: bases)) b := by rw [← erase_iterators, ← conflicts_iff, hc]
    have hl := loop_merge object _ (advance (iterators ((b, mb) :: bases)) b)
      (1 + bumps (iterators ((b, mb) :: bases)) + (if b ≠ object ∧ True then 1 else 0))
      (if b ≠ object then [] ++ [(b, 0 == 0)] else []) (objectLast object (((b, mb) :: bases).map (·.1))) rfl
      (by rw [advance_length, hlen, bumps_iterators]; simp only [List.length_cons]; omega)
    rw [erase_advance, erase_iterators] at hl
    have hstep : ∀ out, Merge ((lists ((b, mb) :: bases)).map (dropHead b)) out → Merge (lists ((b, mb) :: bases)) (b :: out) := by
      intro out hm
      rw [hlists] at hm hgood ⊢
      exact .step hgood (by simp) hm
    split
    · rename_i x heq
      rw [hfirst] at heq
      simp only [Option.some.injEq] at heq
      subst heq
      simp only
      constructor
      · intro out hm
        obtain ⟨p1, p2, p3⟩ := merge_props hm
        obtain ⟨out', hm'⟩ := merge_exists _ ((lists ((b, mb) :: bases)).map (dropHead b)) (b :: out) rfl p3 (by
          intro s hs
          obtain ⟨s', hs', rfl⟩ := List.mem_map.mp hs
          exact (dropHead_sublist b s').trans (p1 s' hs'))
        have := merge_det hm (hstep out' hm')
        simp only [List.cons.injEq, true_and] at this
        subst this
        obtain ⟨m, h1, h2⟩ := hl.1 out hm'
        rw [h1]
        refine ⟨_, rfl, ?_⟩
        by_cases hob : b = object
        · rw [if_neg (not_not_intro hob), List.filter_cons_of_neg (by simp [hob])]
          simpa using h2
        · rw [if_pos hob, List.filter_cons_of_pos (by simp [hob]), List.map_append, h2]
          simp
      · intro h
        obtain ⟨h1, out, h2⟩ := hl.2 h
        exact ⟨h1, out, hstep out h2⟩
    · rename_i heq
      rw [hfirst] at heq
      simp at heq

omit [DecidableEq C] in
theorem popFirst_mem {its : List (List (C × Nat))} {x its'} (h : popFirst its = some (x, its')) :
    ∀ s ∈ erase its', ∀ c ∈ s, ∃ t ∈ erase its, c ∈ t := by
  induction its generalizing its' with
  | nil => simp [popFirst] at h
  | cons it its ih =>
    cases it with
    | nil =>
      simp only [popFirst, Option.map_eq_some_iff] at h
      obtain ⟨⟨y, l⟩, hl, he⟩ := h
      simp only [Prod.mk.injEq] at he
      obtain ⟨rfl, rfl⟩ := he
      intro s hs c hc
      simp only [erase, List.map_cons, List.mem_cons] at hs
      rcases hs with rfl | hs
      · simp at hc
      · obtain ⟨t, ht, hct⟩ := ih hl s hs c hc
        exact ⟨t, by simp only [erase, List.map_cons, List.mem_cons]; exact .inr ht, hct⟩
    | cons a t =>
      simp only [popFirst, Option.some.injEq, Prod.mk.injEq] at h
      obtain ⟨rfl, rfl⟩ := h
      intro s hs c hc
      simp only [erase, List.map_cons, List.mem_cons] at hs
      rcases hs with rfl | hs
      · exact ⟨(a :: t).map (·.1), by simp [erase], by simp only [List.map_cons, List.mem_cons]; exact .inr hc⟩
      · exact ⟨s, by simp only [erase, List.map_cons, List.mem_cons]; exact .inr hs, hc⟩

omit [DecidableEq C] in
theorem popFirst_head {its : List (List (C × Nat))} {x its'} (h : popFirst its = some (x, its')) :
    ∃ s ∈ erase its, x.1 ∈ s := by
  induction its generalizing its' with
  | nil => simp [popFirst] at h
  | cons it its ih =>
    cases it with
    | nil =>
      simp only [popFirst, Option.map_eq_some_iff] at h
      obtain ⟨⟨y, l⟩, hl, he⟩ := h
      simp only [Prod.mk.injEq] at he
      obtain ⟨rfl, rfl⟩ := he
      obtain ⟨t, ht, hct⟩ := ih hl
      exact ⟨t, by simp only [erase, List.map_cons, List.mem_cons]; exact .inr ht, hct⟩
    | cons a t =>
      simp only [popFirst, Option.some.injEq, Prod.mk.injEq] at h
      obtain ⟨rfl, rfl⟩ := h
      exact ⟨(a :: t).map (·.1), by simp [erase], by simp⟩

theorem loop_nodup (object : C) (n : Nat) : ∀ (its : List (List (C × Nat))) (allowed : Nat) (mro : List (C × Bool)) (lin : Bool),
    total its = n → (mro.map (·.1)).Nodup → (∀ c ∈ mro.map (·.1), ∀ s ∈ erase its, c ∉ s) →
    ((loop object its allowed mro lin).1.map (·.1)).Nodup ∧
    ∀ c ∈ (loop object its allowed mro lin).1.map (·.1),
      c ∈ mro.map (·.1) ∨ (c ≠ object ∧ ∃ s ∈ erase its, c ∈ s) := by
  induction n using Nat.strongRecOn with
  | ind n ih =>
  intro its allowed mro lin hn hd hdis
  rw [loop.eq_def]
  split
  · rename_i x h
    have hlt := candidate_total h
    obtain ⟨t, ht⟩ := findCandidate_mem h
    have ht := List.mem_of_mem_take ht
    have hmem : ∃ s ∈ erase its, x.1 ∈ s := ⟨(x :: t).map (·.1), List.mem_map_of_mem ht, by simp⟩
    have hgood : Good (erase its) x.1 := by
      have : conflicts its x.1 = false := by
        clear hlt ht hmem
        generalize its.take (min allowed its.length) = its' at h
        induction its' with
        | nil => simp [findCandidate] at h
        | cons it its' ih' =>
          cases it with
          | nil => exact ih' h
          | cons a u =>
            simp only [findCandidate] at h
            split at h
            · exact ih' h
            · rename_i hc
              simp only [Option.some.injEq] at h
              subst h
              simpa using hc
      exact (conflicts_iff its x.1).mp this
    have hgone : ∀ s ∈ erase (advance its x.1), x.1 ∉ s := by
      rw [erase_advance]
      intro s hs hx
      obtain ⟨s', hs', rfl⟩ := List.mem_map.mp hs
      have hg := hgood s' hs'
      cases s' with
      | nil => simp [dropHead] at hx
      | cons a s' =>
        simp only [List.tail_cons] at hg
        by_cases ha : a = x.1
        · simp only [dropHead, List.head?_cons, ha, if_true, List.tail_cons] at hx; exact hg hx
        · have : dropHead x.1 (a :: s') = a :: s' := by simp [dropHead, ha]
          rw [this] at hx
          rcases List.mem_cons.mp hx with hx | hx
          · exact ha hx.symm
          · exact hg hx
    have hsub : ∀ s ∈ erase (advance its x.1), ∀ c ∈ s, ∃ t ∈ erase its, c ∈ t := by
      rw [erase_advance]
      intro s hs c hc
      obtain ⟨s', hs', rfl⟩ := List.mem_map.mp hs
      exact ⟨s', hs', mem_dropHead hc⟩
    dsimp only
    by_cases hx : x.1 ≠ object
    · simp only [if_pos hx]
      have hnew : ((mro ++ [(x.1, x.2 == 0)]).map (·.1)).Nodup := by
        rw [List.map_append, List.nodup_append]
        refine ⟨hd, by simp, ?_⟩
        intro a ha b hb
        simp only [List.map_cons, List.map_nil, List.mem_cons, List.not_mem_nil, or_false] at hb
        subst hb
        obtain ⟨s, hs, hxs⟩ := hmem
        intro he; subst he
        exact hdis _ ha s hs hxs
      have hdis' : ∀ c ∈ (mro ++ [(x.1, x.2 == 0)]).map (·.1), ∀ s ∈ erase (advance its x.1), c ∉ s := by
        intro c hc s hs hcs
        rw [List.map_append, List.mem_append] at hc
        rcases hc with hc | hc
        · obtain ⟨t, ht, hct⟩ := hsub s hs c hcs
          exact hdis c hc t ht hct
        · simp only [List.map_cons, List.map_nil, List.mem_cons, List.not_mem_nil, or_false] at hc
          subst hc
          exact hgone s hs hcs
      obtain ⟨r1, r2⟩ := ih _ (hn ▸ hlt) _ _ _ lin rfl hnew hdis'
      refine ⟨r1, fun c hc => ?_⟩
      rcases r2 c hc with h | ⟨hco, s, hs, hcs⟩
      · rw [List.map_append, List.mem_append] at h
        rcases h with h | h
        · exact .inl h
        · simp only [List.map_cons, List.map_nil, List.mem_cons, List.not_mem_nil, or_false] at h
          subst h
          exact .inr ⟨hx, hmem⟩
      · exact .inr ⟨hco, hsub s hs c hcs⟩
    · simp only [if_neg hx]
      have hdis' : ∀ c ∈ mro.map (·.1), ∀ s ∈ erase (advance its x.1), c ∉ s := by
        intro c hc s hs hcs
        obtain ⟨t, ht, hct⟩ := hsub s hs c hcs
        exact hdis c hc t ht hct
      obtain ⟨r1, r2⟩ := ih _ (hn ▸ hlt) _ _ _ lin rfl hd hdis'
      refine ⟨r1, fun c hc => ?_⟩
      rcases r2 c hc with h | ⟨hco, s, hs, hcs⟩
      · exact .inl h
      · exact .inr ⟨hco, hsub s hs c hcs⟩
  · split
    · split
      · rename_i x its' h'
        have hlt := popFirst_total h'
        have hno : ¬ (mro.any (fun b => b.1 == x.1) = true ∧ x.1 ≠ object) := by
          rintro ⟨ha, -⟩
          obtain ⟨s, hs, hxs⟩ := popFirst_head h'
          rw [List.any_eq_true] at ha
          obtain ⟨b, hb, hbx⟩ := ha
          simp only [beq_iff_eq] at hbx
          exact hdis x.1 (by rw [← hbx]; exact List.mem_map_of_mem hb) s hs hxs
        rw [if_neg hno]
        have hsub := popFirst_mem h'
        obtain ⟨r1, r2⟩ := ih _ (hn ▸ hlt) its' allowed mro false rfl hd (by
          intro c hc s hs hcs
          obtain ⟨t, ht, hct⟩ := hsub s hs c hcs
          exact hdis c hc t ht hct)
        refine ⟨r1, fun c hc => ?_⟩
        rcases r2 c hc with h | ⟨hco, s, hs, hcs⟩
        · exact .inl h
        · exact .inr ⟨hco, hsub s hs c hcs⟩
      · exact ⟨hd, fun c hc => .inl hc⟩
    · exact ⟨hd, fun c hc => .inl hc⟩

end Verif.Mro
