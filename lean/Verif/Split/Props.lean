import Verif.Split.Lemmas

/-! # Properties of the narrowing by `isinstance` -/

namespace Verif.Split

variable {A V : Type} {w : World A} {mem inst : V → A → Prop} {num : V → Option Num}

/-- C101: where `isinstance(x, ts)` is true, the value of `x` is in the type that `x` has
there.  Missing: values that are instances by an inheritance that is not seen in the types
while other members match, and type variables among other members. -/
theorem isinstance_true_partial (h : Sound w mem inst num) {original ts : List A} {v : V}
    (hx : Visible w mem inst original ts) (ha : VarAlone w original)
    (hv : In mem v original) (hi : In inst v ts) :
    In mem v (splitAndIntersect w original ts).1 := by
  simp only [splitAndIntersect]
  by_cases hf : ∃ t ∈ original, w.freeVar t = true
  · obtain ⟨t, h1, h2⟩ := hf
    have he := ha t h1 h2
    subst he
    have hv' : mem v t := in_one.mp hv
    simp only [List.foldl_cons, List.foldl_nil]
    rcases hx with hx | hx
    · unfold member
      split
      · exact fallback_keep (in_mem h hi)
      · split
        · exact fallback_keep (h.intersect v t ts _ ‹_› hv' hi)
        · rw [split_unrelated (hx t (pieces_var h1 h2))]
          exact fallback_empty h hv hi
    · exact fallback_keep (member_hit h h1 hv' hi (fun u hu i hi => hx u hu i hi v))
  · have hf' : ∀ t ∈ original, w.freeVar t ≠ true := fun t ht he => hf ⟨t, ht, he⟩
    rcases hx with hx | hx
    · rcases members_unrelated h hi hx original {} (fun _ h => h) hf' (.inl rfl) with h1 | h1
      · rw [h1]
        exact fallback_empty h hv hi
      · exact fallback_keep h1
    · exact fallback_keep
        (members_hit h hi (fun u hu i hi => hx u hu i hi v) original {} (fun _ h => h) hf' hv)

/-- C101: where `isinstance(x, ts)` is false, the value of `x` is in the type that `x` has
there.  Missing: some combinations of `float` and `complex` with other types. -/
theorem isinstance_false_partial (h : Sound w mem inst num) {original ts : List A} {v : V}
    (hs : Simple w original ts) (hv : In mem v original) (hi : ¬ In inst v ts) :
    In mem v (splitAndIntersect w original ts).2 := by
  simp only [splitAndIntersect]
  rcases members_other_hit h (w := w) (ts := ts) (original := original) original {}
    (fun _ h => h) hv with h1 | ⟨u, hu, hvu, i, hm, hin⟩
  · exact promotions_keep h h1 hi
  · have hni : ¬ inst v i := fun h2 => hi ⟨i, hm, h2⟩
    have hc : ∃ n b, (w.kind i).map Prod.fst = some n ∧ w.kind u = some (n, b) := by
      rcases hin with hin | hin
      · exact absurd (h.typedDict v u i hin hvu) hni
      · rcases h.compare i u hin with h2 | h2
        · exact absurd (h2 v hvu) hni
        · exact h2
    obtain ⟨n, b, hk, hu2⟩ := hc
    have hn : num v ≠ some n := fun he => hni ((h.number v i n hk).mpr he)
    cases b with
    | false => exact absurd ((h.exact v u n hu2).mp hvu) hn
    | true =>
      obtain ⟨m, hm1, hm2⟩ := (h.promoted v u n hu2).mp hvu
      rcases hs with hs | ⟨j, rfl, h2, h3, h4⟩ | ⟨j, rfl, h2, h3, h4, h5, h6⟩
      · obtain rfl := hs u hu i hm n hu2 hk
        cases m
        · exact absurd hm1 hn
        · cases hm2
        · cases hm2
      · obtain rfl : i = j := by simpa using hm
        rw [hk] at h2
        cases h2
        have hint : mem v w.int := int_mem h (by
          cases m
          · exact hm1
          · exact absurd hm1 hn
          · cases hm2)
        have hvs := members_varSplit (w := w) (ts := [i]) original {}
          (fun t ht => by simp [h4 t ht])
        simp only [promotions, hk]
        rw [if_neg (by
          simp only [exact, List.any_eq_true, beq_iff_eq, not_exists, not_and]
          exact fun t ht => h3 t ht)]
        split
        · exact (h.union ..).mpr (.inr (in_one.mpr hint))
        · split
          · exact (h.union ..).mpr (.inr (in_one.mpr hint))
          · rename_i h5
            rw [hvs] at h5
            simp only [Bool.not_false, Bool.true_and, Bool.not_eq_true', Bool.not_eq_false] at h5
            exact h.covers v _ h5 hint
      · obtain rfl : i = j := by simpa using hm
        rw [hk] at h2
        cases h2
        have he := members_inside (w := w) h4 original {} (fun t ht =>
          ⟨(h6 t ht).1, (h6 t ht).2.1, fun u hu => ⟨by rw [h3], (h6 t ht).2.2 u hu⟩⟩)
        simp only [promotions, hk]
        rw [if_pos (by
          rw [he]
          simp only [List.isEmpty_nil, Bool.true_and, Bool.not_eq_true', exact, List.any_eq_false,
            beq_iff_eq]
          exact fun t ht => h5 t ht)]
        rw [in_one, h.promoted v _ _ h.float]
        refine ⟨m, hm1, ?_⟩
        cases m
        · trivial
        · trivial
        · exact absurd hm1 hn

/-- C102: the type of `x` where `isinstance(x, ts)` is true has only values of the classes of
`ts`, read as types.  Missing: protocols. -/
theorem isinstance_true_narrow_partial (h : Sound w mem inst num) {original ts : List A} {v : V}
    (hb : ∀ i ∈ ts, ∀ n, w.kind i ≠ some (n, false)) (hp : w.protocol ts = false)
    (hm : ∀ t r, w.intersect t ts = some r → In mem v r → In mem v ts)
    (hv : In mem v (splitAndIntersect w original ts).1) : In mem v ts :=
  fallback_in h hm hp (members_in h hb hm original {} (fun ⟨_, h, _⟩ => by simp at h)) hv

/-- C102: the type of `x` where `isinstance(x, ts)` is false has only values of the original
type.  Missing: `isinstance` with `float` or `complex` alone. -/
theorem isinstance_false_narrow_partial (h : Sound w mem inst num) {original ts : List A} {v : V}
    (hu : ∀ ts us t, t ∈ w.union ts us → t ∈ ts ∨ t ∈ us)
    (hk : ∀ i, ts = [i] → (w.kind i).map Prod.fst ≠ some .float ∧
      (w.kind i).map Prod.fst ≠ some .complex)
    (hc : ∀ t ∈ pieces w original, w.kind t ≠ some (.complex, false))
    (hv : In mem v (splitAndIntersect w original ts).2) : In mem v original := by
  simp only [splitAndIntersect] at hv
  have hm : ∀ u ∈ (original.foldl (member w ts) {}).other, u ∈ pieces w original := fun u hu' =>
    (members_other_mem hu original {} (fun _ h => h) hu').resolve_left (by simp)
  generalize original.foldl (member w ts) {} = s at hv hm
  have done : In mem v s.other → In mem v original := fun ⟨u, h1, h2⟩ =>
    pieces_in h ⟨u, hm u h1, h2⟩
  unfold promotions at hv
  split at hv
  · rename_i c
    split at hv
    · exact absurd ‹_› (hk c rfl).1
    · cases hr : replace w .int s.other with
      | none => rw [hr] at hv; exact done hv
      | some new =>
        rw [hr] at hv
        exact done (replace_sub h (fun t ht => hc t (hm t ht)) hr hv)
    · exact absurd ‹_› (hk c rfl).2
    · exact done hv
  · exact done hv

end Verif.Split
