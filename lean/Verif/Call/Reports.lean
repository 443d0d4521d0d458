import Verif.Call.Glue

/-!
# Messages

The reports that `match_arguments_against_params` makes, for all arguments, and then for the arguments of an orderly call.
-/

namespace Verif.Call

open Verif.Call.Spec

variable {α τ : Type}

/-! ## The arguments that are kept have names -/

def Kept (it : It α τ) : Prop := ∀ a ∈ it.unused, a.keywordName.isSome

theorem Kept.of_eq {it it' : It α τ} (h : Kept it) (e : it'.unused = it.unused) : Kept it' := by
  unfold Kept
  rw [e]
  exact h

theorem Kept.push {it it' : It α τ} (h : Kept it) {a : Arg α} (ha : a.keywordName.isSome) (e : it'.unused = it.unused ++ [a]) :
    Kept it' := by
  unfold Kept
  rw [e]
  intro b hb
  rcases List.mem_append.mp hb with hb | hb
  · exact h b hb
  · simp at hb
    subst hb
    exact ha

theorem takeUnused_mem : ∀ {l : List (Arg α)} {n a as}, takeUnused n l = some (a, as) → ∀ b ∈ as, b ∈ l
  | [], _, _, _, h => by cases h
  | b :: bs, n, a, as, h => by
    unfold takeUnused at h
    split at h
    · cases h
      exact fun c hc => List.mem_cons_of_mem _ hc
    · cases hr : takeUnused n bs with
      | none => rw [hr] at h; cases h
      | some r =>
        rw [hr] at h
        cases h
        intro c hc
        rcases List.mem_cons.mp hc with rfl | hc
        · exact List.mem_cons_self
        · exact List.mem_cons_of_mem _ (takeUnused_mem hr c hc)

theorem exactMulti_unused (isKw : Bool) (it : It α τ) : (exactMulti isKw it).2.unused = it.unused := by
  fun_induction exactMulti isKw it with
  | case1 => rfl
  | case2 _ _ _ h => exact (nextArg_unused h).trans rfl
  | case3 _ _ _ h _ _ ih => exact ih.trans ((nextArg_unused h).trans rfl)
  | case4 _ _ _ h => exact (nextArg_unused h).trans rfl

theorem fromDoubleStarred_kept {it : It α τ} (h : Kept it) : Kept (fromDoubleStarred it).2 := by
  unfold fromDoubleStarred
  split
  · exact h
  · have hk : Kept (nextKeyword it).2 := by
      unfold nextKeyword
      have := exactMulti_unused true it
      split
      · rename_i he
        rw [he] at this
        exact h.of_eq this
      · rename_i it' he
        rw [he] at this
        unfold popUnused
        split
        · intro a ha
          exact h a (by rw [← this]; exact List.dropLast_subset _ ha)
        · exact h.of_eq this
    split
    · rename_i he
      rw [he] at hk
      exact hk
    · rename_i he
      rw [he] at hk
      exact hk.of_eq rfl

theorem fromStarred_kept {it : It α τ} (h : Kept it) : Kept (fromStarred it).2 := by
  unfold fromStarred
  split
  · exact fromDoubleStarred_kept h
  · have := exactMulti_unused false it
    split
    · rename_i he
      rw [he] at this
      exact h.of_eq this
    · rename_i it' he
      rw [he] at this
      exact fromDoubleStarred_kept (h.of_eq this)

theorem bindPosOrKw_kept (p : Param τ) (it : It α τ) (h : Kept it) : Kept (bindPosOrKw p it).2 := by
  have take : ∀ {i : It α τ} {a as}, Kept i → takeUnused p.name i.unused = some (a, as) →
      Kept ({ i with unused := as } : It α τ) := fun hi h a ha => hi a (takeUnused_mem h a ha)
  fun_induction bindPosOrKw p it with
  | case1 it _ _ _ h1 => exact take h h1
  | case2 => exact h
  | case3 _ _ _ _ _ h1 => exact h.of_eq (nextArg_unused h1)
  | case4 it n b v it' h1 _ ih => exact ih (h.push (a := .kw n b v) rfl (by simp [nextArg_unused h1]))
  | case5 _ _ it' _ h1 _ _ _ hu => exact take (h.of_eq (nextArg_unused h1)) hu
  | case6 _ _ _ _ h1 => exact h.of_eq (nextArg_unused h1)
  | case7 _ _ _ _ h1 => exact h.of_eq (nextArg_unused h1)

theorem bindKwOnly_kept (p : Param τ) (it : It α τ) (h : Kept it) : Kept (bindKwOnly p it).2 := by
  have take : ∀ {i : It α τ} {a as}, Kept i → takeUnused p.name i.unused = some (a, as) →
      Kept ({ i with unused := as } : It α τ) := fun hi h a ha => hi a (takeUnused_mem h a ha)
  fun_induction bindKwOnly p it with
  | case1 it _ _ _ h1 => exact take h h1
  | case2 => exact h
  | case3 _ _ it' h1 _ _ hu => exact take (h.of_eq (nextArg_unused h1)) hu
  | case4 _ _ _ h1 => exact h.of_eq (nextArg_unused h1)
  | case5 _ _ _ _ _ h1 => exact h.of_eq (nextArg_unused h1)
  | case6 it n b v it' h1 _ ih => exact ih (h.push (a := .kw n b v) rfl (by simp [nextArg_unused h1]))
  | case7 it v it' h1 ih => exact ih (h.of_eq ((nextArg_unused h1).trans rfl))
  | case8 it v it' h1 ih => exact ih (h.of_eq ((nextArg_unused h1).trans rfl))

theorem bindPosOnly_kept {it : It α τ} (h : Kept it) : Kept (bindPosOnly it).2 := by
  unfold bindPosOnly
  split
  · exact h
  · rename_i arg it' h1
    split
    · exact h.of_eq (nextArg_unused h1)
    · split
      · rename_i ha
        exact h.push ha (by simp [nextArg_unused h1])
      · exact h.of_eq (nextArg_unused h1)

theorem next_kept : ∀ (n : Nat) (it : It α τ), it.params.length = n → Kept it → Kept (next it).2 := by
  intro n
  induction n using Nat.strongRecOn with
  | ind n ih =>
    intro it hn h
    rw [next_eq]
    have h1 := fromStarred_kept h
    have h2 := fromStarred_params it
    split
    · rename_i he
      rw [he] at h1
      exact h1
    · rename_i it' he
      rw [he] at h1 h2
      simp only at h1 h2
      split
      · exact h1
      · rename_i p ps hps
        have hlen : ps.length < n := by rw [← hn, ← h2, hps]; simp
        split
        · exact bindPosOrKw_kept p _ (h1.of_eq rfl)
        · exact bindKwOnly_kept p _ (h1.of_eq rfl)
        · exact bindPosOnly_kept (h1.of_eq rfl)
        · exact ih _ hlen _ rfl (h1.of_eq rfl)
        · exact ih _ hlen _ rfl (h1.of_eq rfl)

theorem collect_kept (it : It α τ) (h : Kept it) : Kept (collect it).2 := by
  fun_induction collect it with
  | case1 it it' h1 =>
    have := next_kept _ it rfl h
    rw [h1] at this
    exact this
  | case2 it it' r h1 _ ih =>
    have := next_kept _ it rfl h
    rw [h1] at this
    exact ih this

theorem hasUnused_kept (it : It α τ) (h : Kept it) : Kept (hasUnused it).2 := by
  fun_induction hasUnused it with
  | case1 => exact h
  | case2 it a it' h1 _ ih => exact ih (h.of_eq ((nextArg_unused h1).trans rfl))
  | case3 it a it' h1 _ => exact h.of_eq ((nextArg_unused h1).trans rfl)

theorem hasUnused_current (it : It α τ) (h : (hasUnused it).1 = true) : ∃ a, (hasUnused it).2.current = some a ∧ a.arbitrary = false := by
  fun_induction hasUnused it with
  | case1 => cases h
  | case2 it a it' h1 _ ih => exact ih h
  | case3 it a it' h1 ha => exact ⟨a, rfl, by simpa using ha⟩

theorem reportUnused_eq (ps : List (Param τ)) (it : It α τ) : reportUnused ps it =
    match nextArg it with
    | none => []
    | some (.kw n _ _, it') => .keyword n (hasKeywordParam ps n) :: reportUnused ps it'
    | some _ => [.tooMany] := by
  rw [reportUnused.eq_def]
  split
  · rename_i h
    rw [h]
  · rename_i h
    rw [h]
  · rename_i x hne h
    rw [h]
    rcases x with ⟨a, it'⟩
    cases a with
    | kw n b v => exact absurd rfl (hne n b v it')
    | _ => rfl

theorem reportUnused_ne (ps : List (Param τ)) {it : It α τ} {a : Arg α} (h : it.current = some a) (ha : a.arbitrary = false) :
    reportUnused ps it ≠ [] := by
  rw [reportUnused_eq]
  have : nextArg it = some (a, { it with current := none }) := by
    simp [nextArg, h, found, ha]
  rw [this]
  cases a with
  | kw n b v => simp
  | _ => simp

theorem reportMissing_nil (m : List (Param τ)) : ((reportMissing m).1 ++
    (if (reportMissing m).2.isEmpty then [] else [Report.missingPositional (reportMissing m).2])) = [] ↔ m = [] := by
  constructor
  · intro h
    cases m with
    | nil => rfl
    | cons p ps =>
      exfalso
      unfold reportMissing at h
      split at h <;> simp at h
  · rintro rfl
    rfl

theorem finish_reports (ps : List (Param τ)) (pairs : List (Param τ × Option (Arg α))) (it : It α τ) (h : Kept it) :
    (finish ps pairs it).fits = false ↔ (finish ps pairs it).reports ≠ [] := by
  unfold finish
  simp only
  split
  · simp
  · split
    · rename_i hu
      obtain ⟨a, h1, h2⟩ := hasUnused_current it hu
      simpa using reportUnused_ne ps h1 h2
    · split
      · rename_i _ hu
        have hk := hasUnused_kept it h
        simp only [true_iff, ne_eq]
        cases hl : (hasUnused it).2.unused with
        | nil => simp [hl] at hu
        | cons a l =>
          have := hk a (by rw [hl]; exact List.mem_cons_self)
          obtain ⟨n, hn⟩ := Option.isSome_iff_exists.mp this
          simp [hn]
      · rw [ne_eq, reportMissing_nil]
        simp

/-! ## What is left in an orderly call -/

variable {p : Param τ} {ps : List (Param τ)} {ab : Ab α}

theorem room_nil (h : ab.P = []) : Room ps ab := Or.inr (by rw [h]; simp)

theorem ideal_room : ∀ (ps : List (Param τ)) (ab : Ab α), Sig ps → Room ps ab →
    (ideal ps ab).2.tooMany = ab.tooMany ∧ (ideal ps ab).2.P = []
  | [], ab, _, hr => by
    refine ⟨rfl, ?_⟩
    rcases hr with ⟨q, hq, _⟩ | hr
    · cases hq
    · cases hP : ab.P with
      | nil => exact hP
      | cons v P' =>
        obtain ⟨q, hq, _⟩ := hr 0 (by rw [hP]; simp)
        simp at hq
  | p :: ps, ab, hs, hr => by
    cases hk : p.kind with
    | posOnly =>
      obtain ⟨_, h2, h3, _⟩ := move_onlyPositional (p := p) (ps := ps) (ab := ab) hk
      have := ideal_room ps _ hs.tail ((room_positional (Or.inl hk) h2).mp hr)
      simp only [ideal, hk]
      rwa [h3] at this
    | posOrKw =>
      obtain ⟨n, hn⟩ := hs.names p List.mem_cons_self (Or.inl hk)
      obtain ⟨_, h2, h3, _⟩ := move_positionalOrNamed (p := p) (ps := ps) (ab := ab) hk hn
      have := ideal_room ps _ hs.tail ((room_positional (Or.inr hk) h2).mp hr)
      simp only [ideal, hk, hn, Option.getD_some]
      rwa [h3] at this
    | kwOnly =>
      obtain ⟨n, hn⟩ := hs.names p List.mem_cons_self (Or.inr hk)
      obtain ⟨_, h2, h3, _⟩ := move_kwOnly (ab := ab) hs hk hn
      have := ideal_room ps _ hs.tail (room_nil h2)
      simp only [ideal, hk, hn, Option.getD_some]
      rw [h3, (room_named hs (Or.inl hk)).mp hr] at this
      simpa using this
    | star =>
      have := ideal_room ps { ab with P := [], s := none } hs.tail (room_nil rfl)
      simp only [ideal, hk]
      exact this
    | starStar =>
      have hP := (room_named hs (Or.inr hk)).mp hr
      have e : afterDouble ab = { ab with s := none, E := [], k := none, U := [] } := by simp [afterDouble, hP]
      have := ideal_room ps { ab with s := none, E := [], k := none, U := [] } hs.tail (room_nil hP)
      simp only [ideal, hk, e]
      exact this

/-- The named arguments that are left, and the parameters without argument. -/
theorem ideal_left : ∀ (ps : List (Param τ)) (ab : Ab α), Sig ps → Room ps ab →
    (∀ e ∈ (ideal ps ab).2.R, e ∈ ab.R ∧ ¬ hasKind .starStar ps ∧ (Taken ps ab e.name → ¬ (ab.R.map Named.name).Nodup)) ∧
    ∀ q ∈ missing (ideal ps ab).1, required q ∧ ∃ j : Nat, ps[j]? = some q ∧ ∀ a, ¬ takesOne q ab j a
  | [], ab, _, _ => by
    refine ⟨fun e he => ⟨he, ?_, ?_⟩, by simp [ideal, missing]⟩
    · rintro ⟨q, hq, _⟩
      cases hq
    · rintro ⟨j, q, hj, _⟩
      simp at hj
  | p :: ps, ab, hs, hr => by
    have left : ∀ {ab'}, Move p ps ab ab' → p.kind ≠ .starStar → Room ps ab' →
        ∀ e ∈ (ideal ps ab').2.R, e ∈ ab.R ∧ ¬ hasKind .starStar (p :: ps) ∧
          (Taken (p :: ps) ab e.name → ¬ (ab.R.map Named.name).Nodup) := by
      intro ab' hm hk hr' e he
      obtain ⟨h1, h2, h3⟩ := (ideal_left ps ab' hs.tail hr').1 e he
      have hin : e ∈ ab.R := by
        rcases hm.rel with ⟨h4, _⟩ | ⟨e0, h4, _⟩
        · exact h4.mem_iff.mp h1
        · exact h4.mem_iff.mp (List.mem_cons_of_mem _ h1)
      refine ⟨hin, ?_, ?_⟩
      · rintro ⟨q, hq, hqk⟩
        rcases List.mem_cons.mp hq with rfl | hq
        · exact hk hqk
        · exact h2 ⟨q, hq, hqk⟩
      · intro ht hnd
        rcases (hm.taken _).mp ht with hw | ht
        · rcases hm.rel with ⟨_, h5⟩ | ⟨e0, h4, h5⟩
          · exact h5 e hin hw
          · have hname : e.name = e0.name := by
              have := hw.1.2.symm.trans h5.1.2
              injection this
            have := (h4.map Named.name).nodup_iff.mpr hnd
            exact (List.nodup_cons.mp this).1 (hname ▸ List.mem_map_of_mem h1)
        · exact h3 ht (hm.nodup hnd)
    have miss : ∀ {ab'} {l1 : List (Param τ × Option (Arg α))}, Move p ps ab ab' → Room ps ab' →
        (∀ q ∈ missing l1, required q ∧ ∃ j : Nat, (p :: ps)[j]? = some q ∧ ∀ a, ¬ takesOne q ab j a) →
        ∀ q ∈ missing (l1 ++ (ideal ps ab').1), required q ∧ ∃ j : Nat, (p :: ps)[j]? = some q ∧ ∀ a, ¬ takesOne q ab j a := by
      intro ab' l1 hm hr' hl q hq
      unfold missing at hq
      rw [List.filterMap_append, List.mem_append] at hq
      rcases hq with hq | hq
      · exact hl q hq
      · obtain ⟨h1, j, hj, h2⟩ := (ideal_left ps ab' hs.tail hr').2 q hq
        exact ⟨h1, j + 1, by simpa using hj, fun a ha => h2 a ((hm.takesOne hs (List.mem_of_getElem? hj) j a).mp ha)⟩
    have one : ∀ {r : Option (Arg α)}, p.kind ≠ .star → p.kind ≠ .starStar → (r.isSome ↔ ∃ a, takesOne p ab 0 a) →
        ∀ q ∈ missing [(p, r)], required q ∧ ∃ j : Nat, (p :: ps)[j]? = some q ∧ ∀ a, ¬ takesOne q ab j a := by
      intro r hk1 hk2 h q hq
      unfold missing at hq
      cases r with
      | some a => simp at hq
      | none =>
        cases hd : p.hasDefault with
        | true => simp [hd] at hq
        | false =>
          simp [hd] at hq
          subst hq
          refine ⟨⟨hk1, hk2, hd⟩, 0, by simp, fun a ha => ?_⟩
          have := h.mpr ⟨a, ha⟩
          cases this
    cases hk : p.kind with
    | posOnly =>
      obtain ⟨h1, h2, h3, h4⟩ := move_onlyPositional (p := p) (ps := ps) (ab := ab) hk
      have hr' := (room_positional (Or.inl hk) h2).mp hr
      simp only [ideal, hk]
      refine ⟨left h1 (by rw [hk]; simp) hr', miss (l1 := [(p, (onlyPositional ab).1)]) h1 hr'
        (one (by rw [hk]; simp) (by rw [hk]; simp) ?_)⟩
      rw [Option.isSome_iff_exists]
      exact exists_congr h4
    | posOrKw =>
      obtain ⟨n, hn⟩ := hs.names p List.mem_cons_self (Or.inl hk)
      obtain ⟨h1, h2, h3, h4, _⟩ := move_positionalOrNamed (p := p) (ps := ps) (ab := ab) hk hn
      have hr' := (room_positional (Or.inr hk) h2).mp hr
      simp only [ideal, hk, hn, Option.getD_some]
      exact ⟨left h1 (by rw [hk]; simp) hr', miss (l1 := [(p, (positionalOrNamed n ab).1)]) h1 hr'
        (one (by rw [hk]; simp) (by rw [hk]; simp) h4)⟩
    | kwOnly =>
      obtain ⟨n, hn⟩ := hs.names p List.mem_cons_self (Or.inr hk)
      obtain ⟨h1, h2, h3, h4, _⟩ := move_kwOnly (ab := ab) hs hk hn
      have hr' : Room ps (look n (dropPositional ab)).2 := room_nil h2
      simp only [ideal, hk, hn, Option.getD_some]
      exact ⟨left h1 (by rw [hk]; simp) hr', miss (l1 := [(p, (look n (dropPositional ab)).1)]) h1 hr'
        (one (by rw [hk]; simp) (by rw [hk]; simp) h4)⟩
    | star =>
      have hnp : ¬ positional p := by unfold positional; rw [hk]; simp
      have hm : Move p ps ab { ab with P := [], s := none } :=
        ⟨rfl, Or.inr (not_positional_after hs hnp), Or.inl ⟨List.Perm.refl _, by
          rintro e _ ⟨⟨h, _⟩, _⟩
          rcases h with h | h <;> rw [hk] at h <;> cases h⟩⟩
      have hr' : Room ps { ab with P := [], s := none } := room_nil rfl
      simp only [ideal, hk]
      refine ⟨left hm (by rw [hk]; simp) hr', miss hm hr' ?_⟩
      intro q hq
      have : missing (starPart p ab) = [] := by
        unfold missing
        rw [List.filterMap_eq_nil_iff]
        intro r hr
        unfold starPart at hr
        simp at hr
        rcases hr with ⟨_, _, rfl⟩ | ⟨_, _, rfl⟩ <;> rfl
      rw [this] at hq
      cases hq
    | starStar =>
      have hnil : ps = [] := by
        cases ps with
        | nil => rfl
        | cons q ps =>
          have h1 := (List.pairwise_cons.mp hs.order).1 q List.mem_cons_self
          rw [hk] at h1
          cases hq : q.kind <;> simp [hq, rank] at h1
      subst hnil
      have hP := (room_named hs (Or.inr hk)).mp hr
      have e : afterDouble ab = { ab with s := none, E := [], k := none, U := [] } := by simp [afterDouble, hP]
      simp only [ideal, hk, e]
      refine ⟨by simp [Ab.R], ?_⟩
      intro q hq
      have : missing (doublePart p ab) = [] := by
        unfold missing
        rw [List.filterMap_eq_nil_iff]
        intro r hr
        unfold doublePart at hr
        aesop
      rw [List.append_nil, this] at hq
      cases hq

theorem ideal_known : ∀ (ps : List (Param τ)) (ab : Ab α), Sig ps → ab.s = none → ab.k = none →
    (ideal ps ab).2.s = none ∧ (ideal ps ab).2.k = none
  | [], _, _, h1, h2 => ⟨h1, h2⟩
  | p :: ps, ab, hs, h1, h2 => by
    cases hk : p.kind with
    | posOnly =>
      obtain ⟨hm, _⟩ := move_onlyPositional (p := p) (ps := ps) (ab := ab) hk
      simp only [ideal, hk]
      refine ideal_known ps _ hs.tail ?_ (hm.k.trans h2)
      unfold onlyPositional
      split
      · exact h1
      · split
        · exact h1
        · split <;> exact h1
    | posOrKw =>
      obtain ⟨n, hn⟩ := hs.names p List.mem_cons_self (Or.inl hk)
      obtain ⟨hm, _⟩ := move_positionalOrNamed (p := p) (ps := ps) (ab := ab) hk hn
      simp only [ideal, hk, hn, Option.getD_some]
      refine ideal_known ps _ hs.tail ?_ (hm.k.trans h2)
      unfold positionalOrNamed
      split
      · exact h1
      · rw [h1]
        exact (look_spec n ab).1.s.trans h1
    | kwOnly =>
      obtain ⟨n, hn⟩ := hs.names p List.mem_cons_self (Or.inr hk)
      simp only [ideal, hk, hn, Option.getD_some]
      have hsm := (look_spec n (dropPositional ab)).1
      exact ideal_known ps _ hs.tail (hsm.s.trans rfl) (hsm.k.trans h2)
    | star =>
      simp only [ideal, hk]
      exact ideal_known ps { ab with P := [], s := none } hs.tail rfl h2
    | starStar =>
      simp only [ideal, hk]
      refine ideal_known ps (afterDouble ab) hs.tail ?_ ?_ <;> unfold afterDouble <;> split
      · rfl
      · exact h1
      · rfl
      · exact h2

/-- The messages for the arguments that are left. -/
theorem reportUnused_named (qs : List (Param τ)) : ∀ (E : List (Named α)) {it : It α τ} {ab : Ab α} {st dst}, At it ps st dst ab → ab.P = [] →
    ab.s = none → ab.k = none → ab.E = E →
    reportUnused qs it = E.map fun e => .keyword e.name (hasKeywordParam qs e.name)
  | [], it, ab, st, dst, h, hP, hs, hk, hE => by
    rw [reportUnused_eq, h.next_none hP hs hE hk]
    rfl
  | e :: E, it, ab, st, dst, h, hP, hs, hk, hE => by
    obtain ⟨it', e1, _, e2⟩ := h.next_kw hP hs hE
    rw [reportUnused_eq, e1]
    simp only [List.map_cons, List.cons.injEq, true_and]
    exact reportUnused_named qs E e2 hP hs hk rfl

/-- All messages about an orderly call without arguments of unknown length. -/
theorem finish_known {it : It α τ} {st dst} (qs : List (Param τ)) (pairs : List (Param τ × Option (Arg α)))
    (h : At it ps st dst ab) (hs : ab.s = none) (hk : ab.k = none) {r : Report} (hr : r ∈ (finish qs pairs it).reports) :
    (r = .tooManyPositional ∧ ab.tooMany = true) ∨ (r = .tooMany ∧ ab.P ≠ []) ∨
      ((ab.tooMany = false ∧ ab.P = []) ∧ ((∃ e ∈ ab.R, r = .keyword e.name (hasKeywordParam qs e.name)) ∨
      r ∈ (reportMissing (missing pairs)).1 ∨
      ((reportMissing (missing pairs)).2 ≠ [] ∧ r = .missingPositional (reportMissing (missing pairs)).2))) := by
  have e0 := h.tooMany
  unfold finish at hr
  simp only at hr
  split at hr
  · rename_i ht
    simp at hr
    exact Or.inl ⟨hr, by rw [← e0]; exact ht⟩
  · rename_i ht
    have ht' : ab.tooMany = false := by rw [← e0]; simpa using ht
    cases hP : ab.P with
    | cons v P' =>
      obtain ⟨it', e1, e2⟩ := h.next_pos hP
      have e3 : hasUnused it = (true, { it' with current := some (.pos v) }) := by
        rw [hasUnused_eq, e1]
        rfl
      rw [e3] at hr
      simp only [if_true] at hr
      rw [reportUnused_eq] at hr
      have e4 : nextArg { it' with current := some (.pos v) } = some (.pos v, { it' with current := none }) := by
        simp [nextArg, found, Arg.arbitrary]
      rw [e4] at hr
      simp at hr
      exact Or.inr (Or.inl ⟨hr, by simp⟩)
    | nil =>
      cases hE : ab.E with
      | cons e E' =>
        obtain ⟨it', e1, ec, e2⟩ := h.next_kw hP hs hE
        have e3 : hasUnused it = (true, { it' with current := some (.kw e.name e.ss e.v) }) := by
          rw [hasUnused_eq, e1]
          rfl
        have hat : At { it' with current := some (.kw e.name e.ss e.v) } ps st dst ab := by
          refine ⟨?_, e2.unused, e2.params, e2.starred, e2.doubleStarred, e2.tooMany⟩
          have h1 := e2.flat
          rw [ec] at h1
          simp only [Option.toList_none, List.nil_append] at h1
          simp only [Option.toList_some, List.singleton_append, h1, Ab.flat, hP, hs, hE]
          rfl
        rw [e3] at hr
        simp only [if_true] at hr
        rw [reportUnused_named qs _ hat hP hs hk rfl] at hr
        obtain ⟨e', he', rfl⟩ := List.mem_map.mp hr
        exact Or.inr (Or.inr ⟨⟨ht', rfl⟩, Or.inl ⟨e', List.mem_append_left _ he', rfl⟩⟩)
      | nil =>
        have e3 : hasUnused it = (false, it) := by
          rw [hasUnused_eq, h.next_none hP hs hE hk]
        rw [e3] at hr
        simp only [Bool.false_eq_true, if_false] at hr
        split at hr
        · rw [h.unused] at hr
          simp only [List.mem_filterMap, List.mem_map] at hr
          obtain ⟨a, ⟨e, he, rfl⟩, hr⟩ := hr
          simp [Named.arg, Arg.keywordName] at hr
          exact Or.inr (Or.inr ⟨⟨ht', rfl⟩, Or.inl ⟨e, List.mem_append_right _ he, hr.symm⟩⟩)
        · rcases List.mem_append.mp hr with hr | hr
          · exact Or.inr (Or.inr ⟨⟨ht', rfl⟩, Or.inr (Or.inl hr)⟩)
          · split at hr
            · cases hr
            · rename_i hne
              simp at hr hne
              exact Or.inr (Or.inr ⟨⟨ht', rfl⟩, Or.inr (Or.inr ⟨hne, hr⟩)⟩)

/-- The messages about parameters that got nothing. -/
theorem reportMissing_mem : ∀ (m : List (Param τ)), (∀ p ∈ m, required p ∧ (p.kind = .posOrKw ∨ p.kind = .kwOnly → ∃ n, p.name = some n)) →
    (∀ r ∈ (reportMissing m).1, (∃ p ∈ m, p.kind = .posOnly ∧ r = .tooFew) ∨
      ∃ p ∈ m, ∃ n, p.kind = .kwOnly ∧ p.name = some n ∧ r = .missingNamed n) ∧
    ∀ n ∈ (reportMissing m).2, ∃ p ∈ m, p.kind = .posOrKw ∧ p.name = some n
  | [], _ => by simp [reportMissing]
  | p :: m, h => by
    obtain ⟨⟨hk1, hk2, hd⟩, hn⟩ := h p List.mem_cons_self
    have ih := reportMissing_mem m fun q hq => h q (List.mem_cons_of_mem _ hq)
    cases hk : p.kind with
    | posOnly =>
      unfold reportMissing
      simp only [hk]
      refine ⟨?_, by simp⟩
      intro r hr
      simp at hr
      exact Or.inl ⟨p, List.mem_cons_self, hk, hr⟩
    | posOrKw =>
      obtain ⟨n, hn⟩ := hn (Or.inl hk)
      unfold reportMissing
      simp only [hk, hn]
      refine ⟨?_, ?_⟩
      · intro r hr
        rcases ih.1 r hr with ⟨q, hq, h1⟩ | ⟨q, hq, h1⟩
        · exact Or.inl ⟨q, List.mem_cons_of_mem _ hq, h1⟩
        · exact Or.inr ⟨q, List.mem_cons_of_mem _ hq, h1⟩
      · intro n' hn'
        rcases List.mem_cons.mp hn' with rfl | hn'
        · exact ⟨p, List.mem_cons_self, hk, hn⟩
        · obtain ⟨q, hq, h1⟩ := ih.2 n' hn'
          exact ⟨q, List.mem_cons_of_mem _ hq, h1⟩
    | kwOnly =>
      obtain ⟨n, hn⟩ := hn (Or.inr hk)
      unfold reportMissing
      simp only [hk, hn]
      refine ⟨?_, ?_⟩
      · intro r hr
        rcases List.mem_cons.mp hr with rfl | hr
        · exact Or.inr ⟨p, List.mem_cons_self, n, hk, hn, rfl⟩
        · rcases ih.1 r hr with ⟨q, hq, h1⟩ | ⟨q, hq, h1⟩
          · exact Or.inl ⟨q, List.mem_cons_of_mem _ hq, h1⟩
          · exact Or.inr ⟨q, List.mem_cons_of_mem _ hq, h1⟩
      · intro n' hn'
        obtain ⟨q, hq, h1⟩ := ih.2 n' hn'
        exact ⟨q, List.mem_cons_of_mem _ hq, h1⟩
    | star => exact absurd hk hk1
    | starStar => exact absurd hk hk2

theorem room_of_ideal : ∀ (ps : List (Param τ)) (ab : Ab α), Sig ps → (ideal ps ab).2.tooMany = false → (ideal ps ab).2.P = [] →
    ab.tooMany = false ∧ Room ps ab
  | [], ab, _, h1, h2 => ⟨h1, room_nil h2⟩
  | p :: ps, ab, hs, h1, h2 => by
    cases hk : p.kind with
    | posOnly =>
      obtain ⟨_, e2, e3, _⟩ := move_onlyPositional (p := p) (ps := ps) (ab := ab) hk
      simp only [ideal, hk] at h1 h2
      obtain ⟨i1, i2⟩ := room_of_ideal ps _ hs.tail h1 h2
      exact ⟨e3 ▸ i1, (room_positional (Or.inl hk) e2).mpr i2⟩
    | posOrKw =>
      obtain ⟨n, hn⟩ := hs.names p List.mem_cons_self (Or.inl hk)
      obtain ⟨_, e2, e3, _⟩ := move_positionalOrNamed (p := p) (ps := ps) (ab := ab) hk hn
      simp only [ideal, hk, hn, Option.getD_some] at h1 h2
      obtain ⟨i1, i2⟩ := room_of_ideal ps _ hs.tail h1 h2
      exact ⟨e3 ▸ i1, (room_positional (Or.inr hk) e2).mpr i2⟩
    | kwOnly =>
      obtain ⟨n, hn⟩ := hs.names p List.mem_cons_self (Or.inr hk)
      obtain ⟨_, e2, e3, _⟩ := move_kwOnly (ab := ab) hs hk hn
      simp only [ideal, hk, hn, Option.getD_some] at h1 h2
      obtain ⟨i1, i2⟩ := room_of_ideal ps _ hs.tail h1 h2
      rw [e3] at i1
      simp at i1
      exact ⟨i1.1, room_nil i1.2⟩
    | star =>
      simp only [ideal, hk] at h1 h2
      obtain ⟨i1, i2⟩ := room_of_ideal ps _ hs.tail h1 h2
      exact ⟨i1, Or.inl ⟨p, List.mem_cons_self, hk⟩⟩
    | starStar =>
      have hnil : ps = [] := by
        cases ps with
        | nil => rfl
        | cons q ps =>
          have h1 := (List.pairwise_cons.mp hs.order).1 q List.mem_cons_self
          rw [hk] at h1
          cases hq : q.kind <;> simp [hq, rank] at h1
      subst hnil
      simp only [ideal, hk, afterDouble] at h1 h2
      split at h2
      · rename_i hP
        rw [if_pos hP] at h1
        exact ⟨h1, room_nil h2⟩
      · rename_i hP
        rw [if_neg hP] at h1
        exact ⟨h1, room_nil h2⟩

end Verif.Call
