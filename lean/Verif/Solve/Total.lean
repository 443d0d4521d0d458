import Verif.Solve.Order

/-! # Solving type variables does not panic, and what bounds are made of -/

namespace Verif.Solve

open Verif.Match Verif.Sub

variable {K : Type} {L : Lang K} [DecidableEq K]

theorem outside_total {b : Bound K} (hb : b.calculated = true) (o : K) (m : Match) (v : Variance) :
    ∃ b' m', outside L b o m v = some (b', m') ∧ b'.calculated = true := by
  cases v with
  | inv => exact ⟨b, m, rfl, hb⟩
  | cov =>
    cases b with
    | uncalculated _ => cases hb
    | lower t => simp only [outside]; split <;> exact ⟨_, _, rfl, rfl⟩
    | invariant t => exact ⟨_, _, rfl, rfl⟩
    | upper t => exact ⟨_, _, rfl, rfl⟩
    | upperAndLower u l =>
      simp only [outside]
      split
      · split <;> exact ⟨_, _, rfl, rfl⟩
      · exact ⟨_, _, rfl, rfl⟩
  | contra =>
    cases b with
    | uncalculated _ => cases hb
    | upper t => simp only [outside]; split <;> exact ⟨_, _, rfl, rfl⟩
    | invariant t => exact ⟨_, _, rfl, rfl⟩
    | lower t => exact ⟨_, _, rfl, rfl⟩
    | upperAndLower u l =>
      simp only [outside]
      split
      · split <;> exact ⟨_, _, rfl, rfl⟩
      · exact ⟨_, _, rfl, rfl⟩

theorem inside_total {b : Bound K} (hb : b.calculated = true) (hi : ∀ k, b ≠ .invariant k) (o : K)
    (m : Match) (v : Variance) :
    ∃ b' m', inside L b o m v = some (b', m') ∧ b'.calculated = true := by
  unfold inside
  split
  · cases v with
    | inv => exact ⟨_, _, rfl, rfl⟩
    | cov =>
      cases b with
      | uncalculated _ => cases hb
      | invariant k => exact absurd rfl (hi k)
      | lower t => exact ⟨_, _, rfl, rfl⟩
      | upper t => simp only [updateLower]; split <;> exact ⟨_, _, rfl, rfl⟩
      | upperAndLower u l => simp only [updateLower]; split <;> exact ⟨_, _, rfl, rfl⟩
    | contra =>
      cases b with
      | uncalculated _ => cases hb
      | invariant k => exact absurd rfl (hi k)
      | upper t => exact ⟨_, _, rfl, rfl⟩
      | lower t => simp only [updateUpper]; split <;> exact ⟨_, _, rfl, rfl⟩
      | upperAndLower u l => simp only [updateUpper]; split <;> exact ⟨_, _, rfl, rfl⟩
  · exact outside_total hb o m v

theorem mergeOne_total {a : Arg K} (ha : a.bound.calculated = true) (o : K) (v : Variance) :
    ∃ a' m, mergeOne L a o v = some (a', m) ∧ a'.bound.calculated = true := by
  obtain ⟨b, c, u, any⟩ := a
  simp only at ha
  cases b with
  | uncalculated _ => cases ha
  | invariant t =>
    simp only [mergeOne]
    split
    · refine ⟨_, _, rfl, ?_⟩
      split
      · cases v <;> rfl
      · rfl
    · obtain ⟨b', m', e, h⟩ := outside_total (L := L) ha o (L.cmp .inv t o) v
      rw [e]; exact ⟨_, _, rfl, h⟩
  | upper t =>
    obtain ⟨b', m', e, h⟩ := inside_total (L := L) ha (by simp) o (L.cmp .cov t o) v
    simp only [mergeOne, e]; exact ⟨_, _, rfl, h⟩
  | lower t =>
    obtain ⟨b', m', e, h⟩ := inside_total (L := L) ha (by simp) o (L.cmp .contra t o) v
    simp only [mergeOne, e]; exact ⟨_, _, rfl, h⟩
  | upperAndLower t l =>
    obtain ⟨b', m', e, h⟩ := inside_total (L := L) ha (by simp) o
      ((L.cmp .cov t o).and (L.cmp .contra l o)) v
    simp only [mergeOne, e]; exact ⟨_, _, rfl, h⟩

theorem merge_total (a : Arg K) (o : Bound K) : ∃ r, merge L a o = some r := by
  by_cases hc : a.bound.calculated = true
  · have one := mergeOne_total (L := L) hc
    unfold merge
    split
    · exact ⟨_, rfl⟩
    · split
      · next e => rw [e] at hc; cases hc
      · cases o with
        | uncalculated _ => exact ⟨_, rfl⟩
        | upperAndLower p q =>
          obtain ⟨a1, m1, e1, h1⟩ := one p .contra
          obtain ⟨a2, m2, e2, h2⟩ := mergeOne_total (L := L) h1 q .cov
          simp only [e1, Option.bind_some, e2]
          exact ⟨_, rfl⟩
        | upper k => obtain ⟨a1, m1, e1, -⟩ := one k .contra; simp only [e1]; exact ⟨_, rfl⟩
        | lower k => obtain ⟨a1, m1, e1, -⟩ := one k .cov; simp only [e1]; exact ⟨_, rfl⟩
        | invariant k => obtain ⟨a1, m1, e1, -⟩ := one k .inv; simp only [e1]; exact ⟨_, rfl⟩
  · obtain ⟨b, c, u, any⟩ := a
    cases b with
    | uncalculated f =>
      unfold merge
      split
      · exact ⟨_, rfl⟩
      · simp only
        split
        · split <;> exact ⟨_, rfl⟩
        · exact ⟨_, rfl⟩
    | _ => exact absurd rfl hc

theorem matchOrAdd_total (kind : Kind K) (a : Arg K) (k : K) (v : Variance) :
    ∃ r, matchOrAdd L kind a k v = some r := by
  cases kind with
  | unrestricted => exact merge_total _ _
  | bound b =>
    simp only [matchOrAdd]
    split
    · exact merge_total _ _
    · exact ⟨_, rfl⟩
  | constraints cs =>
    simp only [matchOrAdd]
    split
    · split
      · exact merge_total _ _
      · exact ⟨_, rfl⟩
    · exact ⟨_, rfl⟩

/-- A predicate that common types inherit. -/
structure Inherited (L : Lang K) (Q : K → Prop) : Prop where
  base : ∀ a b r, Q a → Q b → L.base a b = some r → Q r
  sub : ∀ a b r, Q a → Q b → L.sub a b = some r → Q r

omit [DecidableEq K] in
theorem outside_types {Q : K → Prop} (hQ : Inherited L Q) {b b' : Bound K} {o : K} {m m' : Match}
    {v : Variance} (hb : ∀ k ∈ b.types, Q k) (ho : Q o)
    (h : outside L b o m v = some (b', m')) : ∀ k ∈ b'.types, Q k := by
  cases v with
  | inv => cases h; exact hb
  | cov =>
    cases b with
    | uncalculated _ => cases h
    | invariant t => cases h; exact hb
    | upper t => cases h; exact hb
    | lower t =>
      simp only [Bound.types, List.mem_singleton, forall_eq] at hb
      simp only [outside] at h
      split at h <;> cases h <;> simp only [Bound.types, List.mem_singleton, forall_eq]
      · next e => exact hQ.base _ _ _ hb ho e
      · exact hb
    | upperAndLower u l =>
      simp only [outside] at h
      split at h
      · next e =>
        split at h <;> cases h
        · have hl := hQ.base _ _ _ (hb l (by simp [Bound.types])) ho e
          have hu := hb u (by simp [Bound.types])
          simpa [Bound.types] using ⟨hu, hl⟩
        · exact hb
      · cases h; exact hb
  | contra =>
    cases b with
    | uncalculated _ => cases h
    | invariant t => cases h; exact hb
    | lower t => cases h; exact hb
    | upper t =>
      simp only [Bound.types, List.mem_singleton, forall_eq] at hb
      simp only [outside] at h
      split at h <;> cases h <;> simp only [Bound.types, List.mem_singleton, forall_eq]
      · next e => exact hQ.sub _ _ _ hb ho e
      · exact hb
    | upperAndLower u l =>
      simp only [outside] at h
      split at h
      · next e =>
        split at h <;> cases h
        · have hl := hb l (by simp [Bound.types])
          have hu := hQ.sub _ _ _ (hb u (by simp [Bound.types])) ho e
          simpa [Bound.types] using ⟨hu, hl⟩
        · exact hb
      · cases h; exact hb

omit [DecidableEq K] in
theorem getD_base {Q : K → Prop} (hQ : Inherited L Q) {l o : K} (hl : Q l) (ho : Q o) :
    Q ((L.base l o).getD o) := by
  cases h : L.base l o with
  | none => exact ho
  | some r => exact hQ.base _ _ _ hl ho h

theorem inside_types {Q : K → Prop} (hQ : Inherited L Q) {b b' : Bound K} {o : K} {m m' : Match}
    {v : Variance} (hb : ∀ k ∈ b.types, Q k) (ho : Q o)
    (h : inside L b o m v = some (b', m')) : ∀ k ∈ b'.types, Q k := by
  unfold inside at h
  split at h
  · cases v with
    | inv => cases h; simpa [Bound.types] using ho
    | cov =>
      simp only [Option.map_eq_some_iff, Prod.mk.injEq] at h
      obtain ⟨b'', h, rfl, -⟩ := h
      cases b with
      | uncalculated _ => cases h
      | invariant _ => cases h
      | upper u =>
        simp only [updateLower, Option.some.injEq] at h
        split at h <;> subst h
        · simpa [Bound.types] using ho
        · simpa [Bound.types] using ⟨hb u (by simp [Bound.types]), ho⟩
      | lower l =>
        cases h
        simpa [Bound.types] using getD_base hQ (hb l (by simp [Bound.types])) ho
      | upperAndLower u l =>
        have := getD_base hQ (hb l (by simp [Bound.types])) ho
        simp only [updateLower, Option.some.injEq] at h
        split at h <;> subst h
        · simpa [Bound.types] using this
        · simpa [Bound.types] using ⟨hb u (by simp [Bound.types]), this⟩
    | contra =>
      simp only [Option.map_eq_some_iff, Prod.mk.injEq] at h
      obtain ⟨b'', h, rfl, -⟩ := h
      cases b with
      | uncalculated _ => cases h
      | invariant _ => cases h
      | upper u => cases h; simpa [Bound.types] using ho
      | lower l =>
        simp only [updateUpper, Option.some.injEq] at h
        split at h <;> subst h
        · simpa [Bound.types] using ho
        · simpa [Bound.types] using ⟨ho, hb l (by simp [Bound.types])⟩
      | upperAndLower u l =>
        simp only [updateUpper, Option.some.injEq] at h
        split at h <;> subst h
        · simpa [Bound.types] using ho
        · simpa [Bound.types] using ⟨ho, hb l (by simp [Bound.types])⟩
  · exact outside_types hQ hb ho h

theorem mergeOne_types {Q : K → Prop} (hQ : Inherited L Q) {a a' : Arg K} {o : K} {m : Match}
    {v : Variance} (hb : ∀ k ∈ a.bound.types, Q k) (ho : Q o)
    (h : mergeOne L a o v = some (a', m)) : ∀ k ∈ a'.bound.types, Q k := by
  obtain ⟨b, c, u, any⟩ := a
  simp only at hb
  cases b with
  | uncalculated _ => cases h
  | invariant t =>
    simp only [mergeOne] at h
    split at h
    · cases h
      split
      · cases v <;> simpa [Bound.new, Bound.types] using ho
      · exact hb
    · simp only [Option.map_eq_some_iff, Prod.mk.injEq] at h
      obtain ⟨⟨b', m'⟩, h, rfl, rfl⟩ := h
      exact outside_types hQ hb ho h
  | _ =>
    simp only [mergeOne, Option.map_eq_some_iff, Prod.mk.injEq] at h
    obtain ⟨⟨b', m'⟩, h, rfl, rfl⟩ := h
    exact inside_types hQ hb ho h

omit [DecidableEq K] in
theorem conflict_bound (r : Arg K × Match) : (conflict r).1.bound = r.1.bound := by
  unfold conflict; split <;> rfl

theorem merge_types {Q : K → Prop} (hQ : Inherited L Q) {a : Arg K} {k : K} {v : Variance}
    {r : Arg K × Match} (hb : ∀ k ∈ a.bound.types, Q k) (ho : Q k)
    (h : merge L a (.new k v) = some r) : ∀ k ∈ r.1.bound.types, Q k := by
  have hnew : ∀ x ∈ (Bound.new k v).types, Q x := by
    cases v <;> simpa [Bound.new, Bound.types] using ho
  obtain ⟨b, c, u, any⟩ := a
  simp only at hb
  unfold merge at h
  split at h
  · cases h; exact hb
  · simp only at h
    cases b with
    | uncalculated f =>
      simp only at h
      split at h
      · split at h <;> cases h
        · exact hb
        · exact hnew
        · exact hnew
      · cases h; exact hb
    | _ =>
      cases v <;>
      · simp only [Bound.new, Option.map_eq_some_iff] at h
        obtain ⟨s, h, rfl⟩ := h
        rw [conflict_bound]
        exact mergeOne_types hQ hb ho h

end Verif.Solve
