import Verif.Mro.Model
import Verif.Mro.Spec

namespace Verif.Mro

open Spec

variable {C : Type} [DecidableEq C]

theorem dropHead_cons_self (c : C) (t : List C) : dropHead c (c :: t) = t := by simp [dropHead]

theorem mem_dropHead {c d : C} {s : List C} (h : d ∈ dropHead c s) : d ∈ s := by
  unfold dropHead at h
  split at h
  · exact List.mem_of_mem_tail h
  · exact h

theorem dropHead_sublist (c : C) (s : List C) : (dropHead c s).Sublist s := by
  unfold dropHead
  split
  · exact List.tail_sublist s
  · exact List.Sublist.refl s

theorem dropHead_tail_mem {c d : C} {s : List C} (h : d ∈ (dropHead c s).tail) : d ∈ s.tail := by
  unfold dropHead at h
  split at h
  · exact List.mem_of_mem_tail h
  · exact h

/-- What the merge produces. -/
theorem merge_props {seqs : List (List C)} {out : List C} (h : Merge seqs out) :
    (∀ s ∈ seqs, s.Sublist out) ∧ (∀ c ∈ out, ∃ s ∈ seqs, c ∈ s) ∧ out.Nodup := by
  induction h with
  | done h =>
    refine ⟨?_, by simp, by simp⟩
    intro s hs
    rw [h s hs]
    exact List.Sublist.refl _
  | @step pre c t post out hg hpre hm ih =>
    obtain ⟨h1, h2, h3⟩ := ih
    refine ⟨?_, ?_, ?_⟩
    · intro s hs
      have hd := h1 (dropHead c s) (List.mem_map_of_mem hs)
      unfold dropHead at hd
      split at hd
      · rename_i hh
        cases s with
        | nil => simp at hh
        | cons a u =>
          simp only [List.head?_cons, Option.some.injEq] at hh
          subst hh
          exact List.Sublist.cons_cons _ hd
      · exact List.Sublist.cons _ hd
    · intro d hd
      rcases List.mem_cons.mp hd with rfl | hd
      · exact ⟨d :: t, by simp, by simp⟩
      · obtain ⟨s, hs, hds⟩ := h2 d hd
        obtain ⟨s', hs', rfl⟩ := List.mem_map.mp hs
        exact ⟨s', hs', mem_dropHead hds⟩
    · refine List.nodup_cons.mpr ⟨?_, h3⟩
      intro hc
      obtain ⟨s, hs, hcs⟩ := h2 c hc
      obtain ⟨s', hs', rfl⟩ := List.mem_map.mp hs
      unfold dropHead at hcs
      split at hcs
      · exact hg s' hs' hcs
      · rename_i hh
        cases s' with
        | nil => simp at hcs
        | cons a u =>
          rcases List.mem_cons.mp hcs with rfl | hcs
          · simp at hh
          · exact hg _ hs' (by simpa using hcs)

/-- The merge has at most one result. -/
theorem merge_det {seqs : List (List C)} {out out' : List C} (h : Merge seqs out) (h' : Merge seqs out') : out = out' := by
  induction h generalizing out' with
  | done h =>
    cases h' with
    | done _ => rfl
    | @step pre c t post out hg hpre hm => have := h (c :: t) (by simp); simp at this
  | @step pre c t post out hg hpre hm ih =>
    generalize hs : pre ++ (c :: t) :: post = seqs at *
    cases h' with
    | done hd => have := hd (c :: t) (by rw [← hs]; simp); simp at this
    | @step pre' c' t' post' out2 hg' hpre' hm' =>
      have hcc : c = c' := by
        rcases List.append_eq_append_iff.mp hs with ⟨m, h1, h2⟩ | ⟨m, h1, h2⟩
        · cases m with
          | nil => simp at h2; exact h2.1.1
          | cons a m =>
            simp only [List.cons_append, List.cons.injEq] at h2
            exact absurd hg (hpre' c t (by rw [h1, ← h2.1]; simp))
        · cases m with
          | nil => simp at h2; exact h2.1.1.symm
          | cons a m =>
            simp only [List.cons_append, List.cons.injEq] at h2
            exact absurd hg' (hpre c' t' (by rw [h1, ← h2.1]; simp))
      subst hcc
      rw [ih hm']

/-- The first good head, if there is one. -/
theorem first_good (seqs : List (List C)) (c : C) (t : List C) (hm : (c :: t) ∈ seqs) (hg : Good seqs c) :
    ∃ pre d u post, seqs = pre ++ (d :: u) :: post ∧ Good seqs d ∧ ∀ e w, (e :: w) ∈ pre → ¬ Good seqs e := by
  suffices ∀ (l done : List (List C)), seqs = done ++ l → (c :: t) ∈ l → (∀ e w, (e :: w) ∈ done → ¬ Good seqs e) →
      ∃ pre d u post, seqs = pre ++ (d :: u) :: post ∧ Good seqs d ∧ ∀ e w, (e :: w) ∈ pre → ¬ Good seqs e from
    this seqs [] rfl hm (by simp)
  intro l
  induction l with
  | nil => intro _ _ h; simp at h
  | cons s l ih =>
    intro done hs hml hdone
    by_cases hex : ∃ e w, s = e :: w ∧ Good seqs e
    · obtain ⟨e, w, rfl, hge⟩ := hex
      exact ⟨done, e, w, l, hs, hge, hdone⟩
    · apply ih (done ++ [s])
      · rw [hs]; simp
      · rcases List.mem_cons.mp hml with rfl | h
        · exact absurd ⟨c, t, rfl, hg⟩ hex
        · exact h
      · intro e w hew hge
        rcases List.mem_append.mp hew with h | h
        · exact hdone e w h hge
        · simp at h
          exact hex ⟨e, w, h.symm, hge⟩

/-- If the lists agree with a common order, the merge succeeds. -/
theorem merge_exists (n : Nat) : ∀ (seqs : List (List C)) (out : List C), (seqs.map List.length).sum = n → out.Nodup →
    (∀ s ∈ seqs, s.Sublist out) → ∃ out', Merge seqs out' := by
  induction n using Nat.strongRecOn with
  | ind n ih =>
    intro seqs out hn hnd hsub
    by_cases hall : ∀ s ∈ seqs, s = []
    · exact ⟨[], .done hall⟩
    · -- the first class of `out` that is in some list is a good head
      have good : ∃ c t, (c :: t) ∈ seqs ∧ Good seqs c := by
        clear hn ih
        induction out with
        | nil =>
          exfalso
          apply hall
          intro s hs
          exact List.sublist_nil.mp (hsub s hs)
        | cons x out ihout =>
          by_cases hx : ∃ s ∈ seqs, x ∈ s
          · obtain ⟨s, hs, hxs⟩ := hx
            have hhead : ∀ s ∈ seqs, x ∈ s → ∃ t, s = x :: t := by
              intro s hs hxs
              have h := hsub s hs
              cases h with
              | cons _ h => exact absurd (h.subset hxs) (List.nodup_cons.mp hnd).1
              | cons_cons _ h => exact ⟨_, rfl⟩
            obtain ⟨t, rfl⟩ := hhead s hs hxs
            refine ⟨x, t, hs, ?_⟩
            intro s' hs' hx'
            obtain ⟨t', rfl⟩ := hhead s' hs' (List.mem_of_mem_tail hx')
            have h := hsub _ hs'
            cases h with
            | cons _ h => exact (List.nodup_cons.mp hnd).1 (h.subset (by simp))
            | cons_cons _ h => exact (List.nodup_cons.mp hnd).1 (h.subset hx')
          · apply ihout (List.nodup_cons.mp hnd).2
            intro s hs
            have h := hsub s hs
            cases h with
            | cons _ h => exact h
            | cons_cons _ h => exact absurd ⟨_, hs, by simp⟩ hx
      obtain ⟨c, t, hm, hg⟩ := good
      obtain ⟨pre, d, u, post, rfl, hgd, hpre⟩ := first_good seqs c t hm hg
      have hlt : (((pre ++ (d :: u) :: post).map (dropHead d)).map List.length).sum < n := by
        rw [← hn]
        have le : ∀ l : List (List C), ((l.map (dropHead d)).map List.length).sum ≤ (l.map List.length).sum := by
          intro l
          induction l with
          | nil => simp
          | cons a l ih =>
            have := (dropHead_sublist d a).length_le
            simp only [List.map_cons, List.sum_cons]
            omega
        simp only [List.map_append, List.map_cons, List.sum_append, List.sum_cons, dropHead_cons_self, List.length_cons]
        have h1 := le pre
        have h2 := le post
        omega
      obtain ⟨out', hm'⟩ := ih _ hlt _ out rfl hnd (by
        intro s hs
        obtain ⟨s', hs', rfl⟩ := List.mem_map.mp hs
        exact (dropHead_sublist d s').trans (hsub s' hs'))
      exact ⟨d :: out', .step hgd hpre hm'⟩

/-- Adding a list that agrees with the result does not change the result. -/
theorem merge_add {seqs : List (List C)} {out bs : List C} (h : Merge seqs out) (hb : bs.Sublist out) :
    Merge (seqs ++ [bs]) out := by
  induction h generalizing bs with
  | done h =>
    apply Merge.done
    intro s hs
    rcases List.mem_append.mp hs with hs | hs
    · exact h s hs
    · simp at hs; rw [hs]; exact List.sublist_nil.mp hb
  | @step pre c t post out hg hpre hm ih =>
    have hnd := (merge_props (Merge.step hg hpre hm)).2.2
    have hbs : c ∉ bs.tail := by
      intro hc
      cases hb with
      | cons _ hb => exact (List.nodup_cons.mp hnd).1 (hb.subset (List.mem_of_mem_tail hc))
      | cons_cons _ hb => exact (List.nodup_cons.mp hnd).1 (hb.subset hc)
    have hg' : Good (pre ++ (c :: t) :: (post ++ [bs])) c := by
      intro s hs
      simp only [List.mem_append, List.mem_cons, List.not_mem_nil, or_false] at hs
      rcases hs with hs | hs | hs | hs
      · exact hg s (by simp [hs])
      · exact hg s (by simp [hs])
      · exact hg s (by simp [hs])
      · rw [hs]; exact hbs
    have e : pre ++ (c :: t) :: post ++ [bs] = pre ++ (c :: t) :: (post ++ [bs]) := by simp
    rw [e]
    refine .step hg' ?_ ?_
    · intro d u hd hgd
      apply hpre d u hd
      intro s hs
      exact hgd s (by
        simp only [List.mem_append, List.mem_cons, List.not_mem_nil, or_false] at hs ⊢
        rcases hs with hs | hs | hs <;> simp [hs])
    · rw [← e, List.map_append]
      apply ih
      unfold dropHead
      split
      · rename_i hh
        cases bs with
        | nil => simp at hh
        | cons b bs =>
          simp only [List.head?_cons, Option.some.injEq] at hh
          subst hh
          cases hb with
          | cons _ hb => exact absurd (hb.subset (by simp)) (List.nodup_cons.mp hnd).1
          | cons_cons _ hb => exact hb
      · rename_i hh
        cases hb with
        | cons _ hb => exact hb
        | cons_cons _ hb => simp at hh

/-! ## The loop -/

/-- The iterators without the indices. -/
def erase (its : List (List (C × Nat))) : List (List C) := its.map fun it => it.map (·.1)

omit [DecidableEq C] in
theorem erase_cons_mem {its : List (List (C × Nat))} {d : C} {u : List C} (h : (d :: u) ∈ erase its) :
    ∃ x t, (x :: t) ∈ its ∧ x.1 = d := by
  obtain ⟨it, hit, he⟩ := List.mem_map.mp h
  cases it with
  | nil => simp at he
  | cons x t =>
    simp only [List.map_cons, List.cons.injEq] at he
    exact ⟨x, t, hit, he.1⟩

theorem conflicts_iff (its : List (List (C × Nat))) (c : C) : conflicts its c = false ↔ Good (erase its) c := by
  unfold conflicts Good erase
  rw [List.any_eq_false]
  constructor
  · intro h s hs hc
    obtain ⟨it, hit, rfl⟩ := List.mem_map.mp hs
    apply h it hit
    rw [List.any_eq_true]
    rw [← List.map_tail] at hc
    obtain ⟨x, hx, rfl⟩ := List.mem_map.mp hc
    exact ⟨x, hx, by simp⟩
  · intro h it hit hany
    rw [List.any_eq_true] at hany
    obtain ⟨x, hx, he⟩ := hany
    simp only [beq_iff_eq] at he
    subst he
    apply h _ (List.mem_map_of_mem hit)
    rw [← List.map_tail]
    exact List.mem_map_of_mem hx

theorem erase_advance (its : List (List (C × Nat))) (c : C) : erase (advance its c) = (erase its).map (dropHead c) := by
  unfold erase advance
  rw [List.map_map, List.map_map]
  apply List.map_congr_left
  intro it _
  cases it with
  | nil => simp [dropHead]
  | cons x t =>
    simp only [Function.comp, List.map_cons, dropHead, List.head?_cons, Option.some.injEq]
    split <;> simp

theorem findCandidate_some {its its' : List (List (C × Nat))} {x} (h : findCandidate its its' = some x) :
    ∃ pre t post, its' = pre ++ (x :: t) :: post ∧ conflicts its x.1 = false ∧
      ∀ y u, (y :: u) ∈ pre → conflicts its y.1 = true := by
  induction its' with
  | nil => simp [findCandidate] at h
  | cons it its' ih =>
    cases it with
    | nil =>
      obtain ⟨pre, t, post, rfl, h1, h2⟩ := ih h
      exact ⟨[] :: pre, t, post, rfl, h1, by intro y u hy; simp at hy; exact h2 y u hy⟩
    | cons a t =>
      simp only [findCandidate] at h
      split at h
      · rename_i hc
        obtain ⟨pre, t', post, rfl, h1, h2⟩ := ih h
        refine ⟨(a :: t) :: pre, t', post, rfl, h1, ?_⟩
        intro y u hy
        rcases List.mem_cons.mp hy with hy | hy
        · simp only [List.cons.injEq] at hy; rw [hy.1]; exact hc
        · exact h2 y u hy
      · rename_i hc
        simp only [Option.some.injEq] at h
        subst h
        exact ⟨[], t, its', rfl, by simpa using hc, by simp⟩

theorem findCandidate_none {its its' : List (List (C × Nat))} (h : findCandidate its its' = none) :
    ∀ y u, (y :: u) ∈ its' → conflicts its y.1 = true := by
  induction its' with
  | nil => simp
  | cons it its' ih =>
    intro y u hy
    cases it with
    | nil => simp at hy; exact ih h y u hy
    | cons a t =>
      simp only [findCandidate] at h
      split at h
      · rename_i hc
        rcases List.mem_cons.mp hy with hy | hy
        · simp only [List.cons.injEq] at hy; rw [hy.1]; exact hc
        · exact ih h y u hy
      · simp at h

theorem hadEntry_false {its : List (List (C × Nat))} : hadEntry its = false ↔ ∀ it ∈ its, it = [] := by
  unfold hadEntry
  rw [List.any_eq_false]
  simp [List.isEmpty_iff]

/-- Once an order is not linearizable, it stays so. -/
theorem loop_false (object : C) (n : Nat) : ∀ (its : List (List (C × Nat))) (allowed : Nat) (mro : List (C × Bool)),
    total its = n → (loop object its allowed mro false).2 = false := by
  induction n using Nat.strongRecOn with
  | ind n ih =>
    intro its allowed mro hn
    rw [loop]
    split
    · rename_i x h
      exact ih _ (by rw [← hn]; exact candidate_total h) _ _ _ rfl
    · split
      · split
        · rename_i x its' h'
          split
          · exact ih _ (by rw [← hn]; exact popFirst_total h') _ _ _ rfl
          · exact ih _ (by rw [← hn]; exact popFirst_total h') _ _ _ rfl
        · rfl
      · rfl

theorem advance_length (its : List (List (C × Nat))) (c : C) : (advance its c).length = its.length := by
  simp [advance]

omit [DecidableEq C] in
theorem popFirst_none {its : List (List (C × Nat))} (h : popFirst its = none) : ∀ it ∈ its, it = [] := by
  induction its with
  | nil => simp
  | cons it its ih =>
    cases it with
    | nil =>
      simp only [popFirst, Option.map_eq_none_iff] at h
      intro it hit
      rcases List.mem_cons.mp hit with rfl | hit
      · rfl
      · exact ih h it hit
    | cons a t => simp [popFirst] at h

/-- With all iterators allowed the loop is the merge. -/
theorem loop_merge (object : C) (n : Nat) : ∀ (its : List (List (C × Nat))) (allowed : Nat) (mro : List (C × Bool)) (lin : Bool),
    total its = n → its.length ≤ allowed →
    (∀ out, Merge (erase its) out → ∃ m, loop object its allowed mro lin = (mro ++ m, lin) ∧ m.map (·.1) = out.filter (· ≠ object)) ∧
    ((loop object its allowed mro lin).2 = true → lin = true ∧ ∃ out, Merge (erase its) out) := by
  induction n using Nat.strongRecOn with
  | ind n ih =>
    intro its allowed mro lin hn hal
    have htake : its.take (min allowed its.length) = its := by
      rw [Nat.min_eq_right hal, List.take_length]
    rw [loop]
    split
    · rename_i x h
      obtain ⟨pre, t, post, hits, hc, hpre⟩ := findCandidate_some h
      rw [htake] at hits
      have hgood := (conflicts_iff its x.1).mp hc
      have herase : erase its = erase pre ++ (x.1 :: t.map (·.1)) :: erase post := by
        rw [hits]; simp [erase]
      have hbad : ∀ d u, (d :: u) ∈ erase pre → ¬ Good (erase its) d := by
        intro d u hd hg
        obtain ⟨y, w, hy, rfl⟩ := erase_cons_mem hd
        have := hpre y w hy
        rw [(conflicts_iff its y.1).mpr hg] at this
        simp at this
      have ih := ih _ (by rw [← hn]; exact candidate_total h) (advance its x.1)
        (allowed + bumps its + (if x.1 ≠ object ∧ x.2 = 0 then 1 else 0))
        (if x.1 ≠ object then mro ++ [(x.1, x.2 == 0)] else mro) lin rfl (by rw [advance_length]; omega)
      rw [erase_advance] at ih
      simp only
      constructor
      · intro out hm
        obtain ⟨p1, p2, p3⟩ := merge_props hm
        obtain ⟨out', hm'⟩ := merge_exists _ ((erase its).map (dropHead x.1)) out rfl p3 (by
          intro s hs
          obtain ⟨s', hs', rfl⟩ := List.mem_map.mp hs
          exact (dropHead_sublist x.1 s').trans (p1 s' hs'))
        have hstep : Merge (erase its) (x.1 :: out') := by
          rw [herase] at hm' hgood hbad ⊢
          exact .step hgood hbad hm'
        have := merge_det hm hstep
        subst this
        obtain ⟨m, hm1, hm2⟩ := ih.1 out' hm'
        rw [hm1]
        by_cases hobj : x.1 = object
        · refine ⟨m, by rw [if_neg (not_not_intro hobj)], ?_⟩
          rw [hm2, List.filter_cons_of_neg (by simp [hobj])]
        · refine ⟨(x.1, x.2 == 0) :: m, by rw [if_pos hobj]; simp, ?_⟩
          rw [List.map_cons, hm2, List.filter_cons_of_pos (by simp [hobj])]
      · intro h2
        obtain ⟨h3, out, h4⟩ := ih.2 h2
        refine ⟨h3, x.1 :: out, ?_⟩
        rw [herase] at h4 ⊢
        rw [herase] at hgood hbad
        exact .step hgood hbad h4
    · rename_i h
      have hbad := findCandidate_none h
      rw [htake] at hbad
      rw [htake]
      cases he : hadEntry its with
      | false =>
        rw [hadEntry_false] at he
        have hd : ∀ s ∈ erase its, s = [] := by
          intro s hs
          obtain ⟨it, hit, rfl⟩ := List.mem_map.mp hs
          rw [he it hit]; rfl
        simp only [Bool.false_eq_true, if_false]
        constructor
        · intro out hm
          have := merge_det hm (.done hd)
          subst this
          exact ⟨[], by simp, by simp⟩
        · intro h; exact ⟨h, [], .done hd⟩
      | true =>
        simp only [if_true]
        have hno : ¬ ∃ out, Merge (erase its) out := by
          rintro ⟨out, hm⟩
          generalize hs : erase its = seqs at hm
          cases hm with
          | done hd =>
            have : hadEntry its = false := by
              rw [hadEntry_false]
              intro it hit
              have := hd (it.map (·.1)) (by rw [← hs]; exact List.mem_map_of_mem hit)
              simpa using this
            rw [he] at this
            simp at this
          | @step pre c t post out hg hpre hm =>
            obtain ⟨y, w, hy, rfl⟩ := erase_cons_mem (its := its) (d := c) (u := t) (by rw [hs]; simp)
            have := hbad y w hy
            rw [← hs] at hg
            rw [(conflicts_iff its y.1).mpr hg] at this
            simp at this
        split
        · rename_i x its' h'
          constructor
          · intro out hm; exact absurd ⟨out, hm⟩ hno
          · intro h2
            exfalso
            split at h2
            · rw [loop_false object _ _ _ _ rfl] at h2; simp at h2
            · rw [loop_false object _ _ _ _ rfl] at h2; simp at h2
        · rename_i h'
          have := popFirst_none h'
          rw [hadEntry_false.mpr this] at he
          simp at he

end Verif.Mro
