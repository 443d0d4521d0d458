import Verif.Callable.Exact

/-!
# Functions that are accepted in place of others
-/

namespace Verif.Callable

open Verif.Call Verif.Call.Spec Verif.Callable.Spec

variable {α τ : Type} {c : Cfg τ} {ps1 ps2 : List (Param τ)}

/-! ## C81: a function that is accepted can be called like the one that is expected -/

/-- Partial: not for the leniency with `*args: Any` and `**kwargs: Any` of `ps1`, and only under `KeepsDefaults`, `Plain`
and `NoClash`; without these it is false, see `Verif.Callable.Violations`.  Comparing invariantly must imply comparing. -/
theorem accepted_function_usable_partial (h1 : Signature ps1) (h2 : Signature ps2) (hi : c.ignoreNames = false)
    (hinv : ∀ a b t, c.inv a b = true → c.ok t a = true → c.ok t b = true)
    (hany : c.precise = true ∨ ∀ p ∈ ps1, p.kind = .star ∨ p.kind = .starStar → c.isAny p.ty = false)
    (hdef : KeepsDefaults ps1 ps2) (hplain : Plain ps1 ps2) (hclash : NoClash ps1 ps2)
    (h : matchesParams c ps1 ps2 = true) : Usable α c.ok ps1 ps2 := by
  refine early_usable ps1 ps2 {} (fun _ => hi) (fun _ _ => hinv) rfl rfl ?_
    ⟨Signature.sorted h1, Signature.sorted h2, hdef, hplain, hclash⟩ h
  exact hany.imp id fun hh p hp hm => hh p hp (by simpa [many] using hm)

/-- If there are only positional parameters, no other conditions are necessary. -/
theorem accepted_positional_function_usable (h1 : Signature ps1) (h2 : Signature ps2) (hi : c.ignoreNames = false)
    (hp1 : ∀ p ∈ ps1, positional p) (hp2 : ∀ p ∈ ps2, positional p)
    (h : matchesParams c ps1 ps2 = true) : Usable α c.ok ps1 ps2 := by
  have hkw : ∀ p ∈ ps1, p.kind ≠ .kwOnly := by
    intro p hp hk
    rcases hp1 p hp with h | h <;> simp [h] at hk
  refine early_usable ps1 ps2 {} (fun _ => hi) ?_ rfl rfl ?_
    ⟨Signature.sorted h1, Signature.sorted h2, ?_, ?_, ?_⟩ h
  · rintro - ⟨q, hq, hk⟩
    rcases hp2 q hq with h | h <;> simp [h] at hk
  · refine .inr fun p hp hm => ?_
    rcases hp1 p hp with h | h <;> simp [many, h] at hm
  · exact fun p hp hk => absurd hk (hkw p hp)
  · rintro ⟨q, hq, hk⟩
    rcases hp2 q hq with h | h <;> simp [h] at hk
  · intro j p q n hj hk hj2 hk2 hn
    refine ⟨?_, ?_⟩
    · intro p' hp' hpn
      obtain ⟨i, hi'⟩ := List.getElem?_of_mem hp'
      have hk' : p'.kind = .posOrKw := by
        rcases hp1 p' hp' with h | h
        · exact absurd hpn (not_named_posOnly h)
        · exact h
      obtain ⟨q', hq', hqk, hqn⟩ := loop_aligned hi ps1 ps2 {} rfl rfl hp1 hp2 h i p' hi' hk'
      have hij : i ≠ j := by
        rintro rfl
        rw [hj] at hi'
        simp at hi'
        subst hi'
        simp [hk] at hk'
      have d := List.pairwise_iff_getElem.mp h2.different
      obtain ⟨l1, e1⟩ := List.getElem?_eq_some_iff.mp hq'
      obtain ⟨l2, e2⟩ := List.getElem?_eq_some_iff.mp hj2
      have n1 : named q' n := ⟨.inl hqk, hqn.trans hpn.2⟩
      have n2 : named q n := ⟨.inl hk2, hn⟩
      rcases Nat.lt_or_gt_of_ne hij with hlt | hlt
      · exact d i j l1 l2 hlt n (by rw [e1]; exact n1) (by rw [e2]; exact n2)
      · exact d j i l2 l1 hlt n (by rw [e2]; exact n2) (by rw [e1]; exact n1)
    · intro p' hp' hk'
      rcases hp1 p' hp' with h | h <;> simp [h] at hk'

/-! ## C82: a function is accepted in place of itself -/

theorem function_accepted_for_itself {ps : List (Param τ)} (hs : Signature ps)
    (hok : ∀ p ∈ ps, c.ok p.ty p.ty = true) : matchesParams c ps ps = true :=
  loop_refl ps {} rfl (Signature.sorted hs) hok

/-! ## C83: the order of keyword-only parameters is not important -/

/-- Partial: without `**kwargs`, and only if all of the keyword-only parameters have defaults or none of them has one;
otherwise it is false, see `Verif.Callable.Violations`. -/
theorem keyword_order_irrelevant_partial {front ks1 ks2 : List (Param τ)} (b : Bool)
    (hf : ∀ p ∈ front, positional p ∨ p.kind = .star) (hk : ∀ p ∈ ks1, p.kind = .kwOnly)
    (hn : ks1.Pairwise fun p q => p.name ≠ q.name) (hperm : ks1.Perm ks2) (hb : ∀ p ∈ ks1, p.hasDefault = b)
    (hok : ∀ p ∈ front ++ ks1, c.ok p.ty p.ty = true) : matchesParams c (front ++ ks1) (front ++ ks2) = true := by
  refine loop_front front ks1 ks2 {} rfl hf (fun p hp => hok p (List.mem_append_left _ hp)) fun st hst => ?_
  exact loop_perm b ks1 ks2 st (by rw [hst]; exact hperm) hk hb hn fun p hp => hok p (List.mem_append_right _ hp)

/-! ## C84: `Callable[[A, B], R]` -/

/-- A function is accepted for parameters without names exactly if it can be called with them. -/
theorem callable_type_exact (h1 : ∀ p ∈ ps1, p.kind = .posOnly)
    (hd : ps1.Pairwise fun p q => p.hasDefault = true → q.hasDefault = true) (h2 : Signature ps2) :
    matchesParams c ps1 ps2 = true ↔ Usable Nat c.ok ps1 ps2 := by
  constructor
  · intro h
    have hno : ∀ k, k ≠ .posOnly → ¬ ∃ p ∈ ps1, p.kind = k := by
      rintro k hk ⟨p, hp, rfl⟩
      exact hk (h1 p hp)
    have hs1 : Sorted ps1 := by
      refine ⟨?_, ?_, ?_⟩
      · rw [List.pairwise_iff_forall_sublist]
        intro p q hs
        have hp := h1 p (hs.subset (by simp))
        have hq := h1 q (hs.subset (by simp))
        simp [hp, hq]
      · intro p hp hk
        simp [h1 p hp] at hk
      · rw [List.pairwise_iff_forall_sublist]
        intro p q hs n hn
        exact absurd hn (not_named_posOnly (h1 p (hs.subset (by simp))))
    refine early_usable ps1 ps2 {} ?_ ?_ rfl rfl ?_ ⟨hs1, Signature.sorted h2, ?_, ?_, ?_⟩ h
    · exact fun hh => absurd hh (hno _ (by simp))
    · exact fun hh => absurd hh (hno _ (by simp))
    · refine .inr fun p hp hm => ?_
      simp [many, h1 p hp] at hm
    · intro p hp hk
      simp [h1 p hp] at hk
    · intro _
      refine ⟨?_, fun _ p hp hk => hno _ (by simp) ⟨p, hp, hk⟩⟩
      rw [SameOrder, List.pairwise_iff_forall_sublist]
      intro p q hs hk
      simp [h1 p (hs.subset (by simp))] at hk
    · intro j p q n _ _ _ _ _
      exact ⟨fun p' hp' => not_named_posOnly (h1 p' hp'), fun p' hp' hk => hno _ (by simp) ⟨p', hp', hk⟩⟩
  · exact exact_complete ps1 ps2 {} rfl h1 hd (Signature.sorted h2)

end Verif.Callable
