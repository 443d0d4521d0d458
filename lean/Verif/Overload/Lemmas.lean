import Mathlib.Data.Nat.ModEq
import Verif.Overload.Spec

/-! # Lemmas about overloads -/

namespace Verif.Overload

/-! ## Equal types -/

mutual
theorem Ty.eq_of {a b : Ty} (h : Ty.eq a b = true) : a = b := by
  cases a with
  | tuple as =>
    cases b <;> simp only [Ty.eq, Bool.false_eq_true] at h
    rw [Ty.eqs_of h]
  | union as =>
    cases b <;> simp only [Ty.eq, Bool.false_eq_true] at h
    rw [Ty.eqs_of h]
  | _ => cases b <;> simp_all [Ty.eq]

theorem Ty.eqs_of {as bs : List Ty} (h : Ty.eqs as bs = true) : as = bs := by
  cases as with
  | nil => cases bs <;> simp_all [Ty.eqs]
  | cons a as =>
    cases bs with
    | nil => simp [Ty.eqs] at h
    | cons b bs =>
      simp only [Ty.eqs, Bool.and_eq_true] at h
      rw [Ty.eq_of h.1, Ty.eqs_of h.2]
end

mutual
theorem Ty.eq_refl (a : Ty) : Ty.eq a a = true := by
  cases a with
  | tuple as => simp only [Ty.eq]; exact Ty.eqs_refl as
  | union as => simp only [Ty.eq]; exact Ty.eqs_refl as
  | _ => simp [Ty.eq]

theorem Ty.eqs_refl (as : List Ty) : Ty.eqs as as = true := by
  cases as with
  | nil => rfl
  | cons a as => simp only [Ty.eqs, Ty.eq_refl a, Ty.eqs_refl as, Bool.and_self]
end

instance : DecidableEq Ty := fun a b =>
  if h : Ty.eq a b = true then .isTrue (Ty.eq_of h)
  else .isFalse fun he => h (he ▸ Ty.eq_refl a)

theorem hasSome_iff {ts : List Ty} {v : Val} : Ty.hasSome ts v ↔ ∃ t ∈ ts, t.has v := by
  induction ts with
  | nil => simp [Ty.hasSome]
  | cons t ts ih => simp [Ty.hasSome, ih]

theorem hasAll_length {ts : List Ty} {vs : List Val} (h : Ty.hasAll ts vs) : ts.length = vs.length := by
  induction ts generalizing vs with
  | nil => cases vs <;> simp_all [Ty.hasAll]
  | cons t ts ih =>
    cases vs with
    | nil => simp [Ty.hasAll] at h
    | cons v vs => simp [Ty.hasAll] at h; simp [ih h.2]

theorem hasAll_snoc {ts : List Ty} {t : Ty} {vs : List Val} {v : Val} (h : Ty.hasAll ts vs)
    (hv : t.has v) : Ty.hasAll (ts ++ [t]) (vs ++ [v]) := by
  induction ts generalizing vs with
  | nil =>
    cases vs with
    | nil => simp [Ty.hasAll, hv]
    | cons => simp [Ty.hasAll] at h
  | cons a ts ih =>
    cases vs with
    | nil => simp [Ty.hasAll] at h
    | cons w vs =>
      simp only [Ty.hasAll] at h
      simp only [List.cons_append, Ty.hasAll]
      exact ⟨h.1, ih h.2⟩

theorem hasAll_snoc_inv {ts : List Ty} {t : Ty} {vs : List Val} (h : Ty.hasAll (ts ++ [t]) vs) :
    ∃ ws w, vs = ws ++ [w] ∧ Ty.hasAll ts ws ∧ t.has w := by
  induction ts generalizing vs with
  | nil =>
    cases vs with
    | nil => simp [Ty.hasAll] at h
    | cons v vs =>
      cases vs with
      | nil => simp [Ty.hasAll] at h; exact ⟨[], v, rfl, trivial, h⟩
      | cons => simp [Ty.hasAll] at h
  | cons a ts ih =>
    cases vs with
    | nil => simp [Ty.hasAll] at h
    | cons v vs =>
      simp only [List.cons_append, Ty.hasAll] at h
      obtain ⟨ws, w, rfl, h1, h2⟩ := ih h.2
      exact ⟨v :: ws, w, rfl, ⟨h.1, h1⟩, h2⟩

/-! ## The pushes -/

theorem inner_get (us : List Ty) (b i : Nat) (start : Nat) (acc : List (List Ty)) :
    ((us.zipIdx start).foldl (fun acc u => acc.modify (b + u.2) (· ++ [u.1])) acc)[i]? =
      if b + start ≤ i ∧ i < b + start + us.length then
        acc[i]?.map (· ++ us[i - (b + start)]?.toList)
      else acc[i]? := by
  induction us generalizing start acc with
  | nil =>
    rw [if_neg (by simp)]
    simp
  | cons u us ih =>
    rw [List.zipIdx_cons, List.foldl_cons, ih]
    simp only [List.length_cons]
    rw [List.getElem?_modify]
    by_cases h1 : i = b + start
    · subst h1
      rw [if_neg (by omega), if_pos (by omega)]
      simp
    · by_cases h2 : b + (start + 1) ≤ i ∧ i < b + (start + 1) + us.length
      · rw [if_pos h2, if_pos (by omega)]
        have : i - (b + start) = i - (b + (start + 1)) + 1 := by omega
        rw [this, List.getElem?_cons_succ]
        simp [Ne.symm h1]
      · rw [if_neg h2, if_neg (by omega)]
        simp [Ne.symm h1]

theorem outer_get (us : List Ty) (n i : Nat) (acc : List (List Ty)) (hm : 0 < us.length) :
    ((List.range n).foldl (fun acc j =>
      us.zipIdx.foldl (fun acc u => acc.modify (j * us.length + u.2) (· ++ [u.1])) acc) acc)[i]? =
      if i < n * us.length then acc[i]?.map (· ++ us[i % us.length]?.toList) else acc[i]? := by
  induction n with
  | zero => simp
  | succ n ih =>
    rw [List.range_succ, List.foldl_append, List.foldl_cons, List.foldl_nil, inner_get, ih]
    simp only [Nat.add_zero]
    have hs : (n + 1) * us.length = n * us.length + us.length := by rw [Nat.succ_mul]
    by_cases h1 : i < n * us.length
    · rw [if_neg (by omega), if_pos h1, if_pos (by omega)]
    · by_cases h2 : i < (n + 1) * us.length
      · rw [if_pos (by omega), if_neg h1, if_pos h2]
        have : i % us.length = i - n * us.length := by
          have e : i = (i - n * us.length) + us.length * n := by
            have := Nat.mul_comm us.length n
            omega
          conv_lhs => rw [e]
          rw [Nat.add_mul_mod_self_left]
          exact Nat.mod_eq_of_lt (by omega)
        rw [this]
      · rw [if_neg (by omega), if_neg h1, if_neg h2]

theorem replicate_get {α : Type} (ts : List α) (m i : Nat) (h : i < m * ts.length) :
    ((List.replicate m ts).flatten)[i]? = ts[i % ts.length]? := by
  induction m generalizing i with
  | zero => simp at h
  | succ m ih =>
    rw [List.replicate_succ, List.flatten_cons]
    by_cases hi : i < ts.length
    · rw [List.getElem?_append_left hi, Nat.mod_eq_of_lt hi]
    · have hl : ts.length ≤ i := by omega
      rw [List.getElem?_append_right hl, ih (i - ts.length) (by rw [Nat.succ_mul] at h; omega)]
      conv_rhs => rw [show i = (i - ts.length) + ts.length by omega, Nat.add_mod_right]

theorem replicate_length {α : Type} (ts : List α) (m : Nat) :
    ((List.replicate m ts).flatten).length = m * ts.length := by
  induction m with
  | zero => simp
  | succ m ih => rw [List.replicate_succ, List.flatten_cons, List.length_append, ih, Nat.succ_mul]; omega

theorem extended_eq {α : Type} (ts : List α) (m : Nat) (hm : 0 < m) :
    ts ++ (List.replicate (m - 1) ts).flatten = (List.replicate m ts).flatten := by
  obtain ⟨k, rfl⟩ : ∃ k, m = k + 1 := ⟨m - 1, by omega⟩
  rw [List.replicate_succ, List.flatten_cons]
  rfl

/-- The `i`-th tuple after the pushes. -/
theorem spread_get (ts : List (List Ty)) (us : List Ty) (hm : 0 < us.length) (i : Nat) :
    (spread ts us)[i]? =
      if i < ts.length * us.length then
        ts[i % ts.length]?.map (· ++ us[i % us.length]?.toList)
      else none := by
  unfold spread
  simp only
  rw [outer_get us ts.length i _ hm, extended_eq ts us.length hm]
  split
  · next h =>
    rw [replicate_get ts us.length i (by rw [Nat.mul_comm]; exact h)]
  · next h =>
    rw [List.getElem?_eq_none]
    rw [replicate_length, Nat.mul_comm]
    omega

theorem spread_length (ts : List (List Ty)) (us : List Ty) (hm : 0 < us.length) :
    (spread ts us).length = ts.length * us.length := by
  have h1 : ∀ i, (spread ts us)[i]? = none ↔ ts.length * us.length ≤ i := by
    intro i
    rw [spread_get ts us hm]
    split
    · next h =>
      have hn : 0 < ts.length := by
        rcases Nat.eq_zero_or_pos ts.length with h0 | h0
        · rw [h0] at h; omega
        · exact h0
      have := Nat.mod_lt i hn
      rw [List.getElem?_eq_getElem this]
      simp; omega
    · simp; omega
  have h2 := (h1 (ts.length * us.length)).mpr (Nat.le_refl _)
  rw [List.getElem?_eq_none_iff] at h2
  have h3 := (h1 (spread ts us).length).mp (List.getElem?_eq_none (Nat.le_refl _))
  omega

/-- Every tuple after the pushes is one from before with an entry. -/
theorem mem_spread {ts : List (List Ty)} {us : List Ty} (hm : 0 < us.length) {x : List Ty}
    (h : x ∈ spread ts us) : ∃ t ∈ ts, ∃ u ∈ us, x = t ++ [u] := by
  obtain ⟨i, hi⟩ := List.mem_iff_getElem?.mp h
  rw [spread_get ts us hm] at hi
  split at hi
  · next hlt =>
    rw [Option.map_eq_some_iff] at hi
    obtain ⟨t, ht, rfl⟩ := hi
    have := Nat.mod_lt i hm
    rw [List.getElem?_eq_getElem this]
    exact ⟨t, List.mem_iff_getElem?.mpr ⟨_, ht⟩, _, List.getElem_mem this, rfl⟩
  · cases hi

/-- Every pair is there if the numbers have no common divisor. -/
theorem spread_mem {ts : List (List Ty)} {us : List Ty} (hc : Nat.Coprime ts.length us.length)
    {t : List Ty} {u : Ty} (ht : t ∈ ts) (hu : u ∈ us) : t ++ [u] ∈ spread ts us := by
  obtain ⟨a, ha⟩ := List.mem_iff_getElem?.mp ht
  obtain ⟨b, hb⟩ := List.mem_iff_getElem?.mp hu
  have hal : a < ts.length := (List.getElem?_eq_some_iff.mp ha).1
  have hbl : b < us.length := (List.getElem?_eq_some_iff.mp hb).1
  let k := Nat.chineseRemainder hc a b
  have hk : (k : Nat) < ts.length * us.length :=
    Nat.chineseRemainder_lt_mul hc a b (by omega) (by omega)
  have h1 : (k : Nat) % ts.length = a := by
    have := k.2.1
    rw [Nat.ModEq, Nat.mod_eq_of_lt hal] at this
    exact this
  have h2 : (k : Nat) % us.length = b := by
    have := k.2.2
    rw [Nat.ModEq, Nat.mod_eq_of_lt hbl] at this
    exact this
  refine List.mem_iff_getElem?.mpr ⟨k, ?_⟩
  rw [spread_get ts us (by omega), if_pos hk, h1, h2, ha, hb]
  rfl

/-! ## Tuples -/

/-- The values of an item are those of its entries. -/
def Inside (p : Ty × Option (List Ty)) : Prop := ∀ us, p.2 = some us → ∀ u ∈ us, ∀ v, u.has v → p.1.has v

/-- The entries of an item have its values. -/
def Covers (p : Ty × Option (List Ty)) : Prop := ∀ us, p.2 = some us → ∀ v, p.1.has v → ∃ u ∈ us, u.has v

theorem loop_inside {ps : List (Ty × Option (List Ty))} {ts rs : List (List Ty)} {done : List Ty}
    (h : spreadLoop ps ts = some rs) (hne : ∀ p ∈ ps, ∀ us, p.2 = some us → us ≠ [])
    (hi : ∀ p ∈ ps, Inside p)
    (hts : ∀ t ∈ ts, ∀ vs, Ty.hasAll t vs → Ty.hasAll done vs) :
    ∀ r ∈ rs, ∀ vs, Ty.hasAll r vs → Ty.hasAll (done ++ ps.map (·.1)) vs := by
  induction ps generalizing ts done with
  | nil =>
    cases h
    simpa using hts
  | cons p ps ih =>
    obtain ⟨item, us⟩ := p
    have hps : ∀ p ∈ ps, ∀ us, p.2 = some us → us ≠ [] := fun p hp => hne p (List.mem_cons_of_mem _ hp)
    have his : ∀ p ∈ ps, Inside p := fun p hp => hi p (List.mem_cons_of_mem _ hp)
    have hnext : ∀ ts', (∀ t ∈ ts', ∃ t0 ∈ ts, ∃ u, t = t0 ++ [u] ∧ ∀ v, u.has v → item.has v) →
        spreadLoop ps ts' = some rs →
        ∀ r ∈ rs, ∀ vs, Ty.hasAll r vs → Ty.hasAll (done ++ (item :: ps.map (·.1))) vs := by
      intro ts' hts' h'
      have := ih (done := done ++ [item]) h' hps his ?_
      · simpa using this
      · intro t ht vs hvs
        obtain ⟨t0, ht0, u, rfl, hu⟩ := hts' t ht
        obtain ⟨ws, w, rfl, h1, h2⟩ := hasAll_snoc_inv hvs
        exact hasAll_snoc (hts t0 ht0 ws h1) (hu w h2)
    cases us with
    | none =>
      rw [spreadLoop] at h
      refine hnext _ ?_ h
      intro t ht
      obtain ⟨t0, ht0, rfl⟩ := List.mem_map.mp ht
      exact ⟨t0, ht0, item, rfl, fun _ => id⟩
    | some us =>
      rw [spreadLoop] at h
      split at h
      · cases h
      · refine hnext _ ?_ h
        intro t ht
        have hne' := hne (item, some us) (List.mem_cons_self ..) us rfl
        obtain ⟨t0, ht0, u, hu, rfl⟩ := mem_spread (List.length_pos_iff.mpr hne') ht
        exact ⟨t0, ht0, u, rfl, hi (item, some us) (List.mem_cons_self ..) us rfl u hu⟩

theorem loop_covers {ps : List (Ty × Option (List Ty))} {ts rs : List (List Ty)}
    (h : spreadLoop ps ts = some rs) (hne : ∀ p ∈ ps, ∀ us, p.2 = some us → us ≠ [])
    (hc : ∀ p ∈ ps, Covers p) (hco : Coprimes ts.length (ps.map (·.2))) {t : List Ty} {ws : List Val}
    (ht : t ∈ ts) (hws : Ty.hasAll t ws) {vs : List Val} (hvs : Ty.hasAll (ps.map (·.1)) vs) :
    ∃ r ∈ rs, Ty.hasAll r (ws ++ vs) := by
  induction ps generalizing ts t ws vs with
  | nil =>
    cases h
    cases vs with
    | nil => exact ⟨t, ht, by simpa using hws⟩
    | cons => simp [Ty.hasAll] at hvs
  | cons p ps ih =>
    obtain ⟨item, us⟩ := p
    have hps : ∀ p ∈ ps, ∀ us, p.2 = some us → us ≠ [] := fun p hp => hne p (List.mem_cons_of_mem _ hp)
    have hcs : ∀ p ∈ ps, Covers p := fun p hp => hc p (List.mem_cons_of_mem _ hp)
    cases vs with
    | nil => simp [Ty.hasAll] at hvs
    | cons v vs =>
      simp only [List.map_cons, Ty.hasAll] at hvs
      cases us with
      | none =>
        rw [spreadLoop] at h
        simp only [List.map_cons, Coprimes] at hco
        obtain ⟨r, hr, hv⟩ := ih h hps hcs (by simpa using hco)
          (List.mem_map.mpr ⟨t, ht, rfl⟩) (hasAll_snoc hws hvs.1) hvs.2
        exact ⟨r, hr, by simpa using hv⟩
      | some us =>
        rw [spreadLoop] at h
        simp only [List.map_cons, Coprimes] at hco
        split at h
        · cases h
        · obtain ⟨u, hu, huv⟩ := hc (item, some us) (List.mem_cons_self ..) us rfl v hvs.1
          have hpos : 0 < us.length := List.length_pos_of_mem hu
          obtain ⟨r, hr, hv⟩ := ih h hps hcs (by rw [spread_length ts us hpos]; exact hco.2)
            (spread_mem hco.1 ht hu) (hasAll_snoc hws huv) hvs.2
          exact ⟨r, hr, by simpa using hv⟩

theorem mat_ne {t : Ty} {us : List Ty} (hf : Filled t) (h : mat t = some us) : us ≠ [] := by
  cases t with
  | union es => simp only [mat, Option.some.injEq] at h; subst h; exact hf
  | bool => simp only [mat, Option.some.injEq] at h; subst h; simp
  | enum id n =>
    simp only [mat] at h
    split at h
    · next hn =>
      simp only [Bool.and_eq_true, decide_eq_true_eq] at hn
      cases h
      simp; omega
    · cases h
  | tuple items =>
    simp only [mat] at h
    split at h
    · cases h
    · split at h
      · split at h
        · cases h
        · cases h
          intro he
          simp_all
      · cases h
  | _ => simp [mat] at h

theorem zip_mats_fst (items : List Ty) : (items.zip (mats items)).map (·.1) = items := by
  induction items with
  | nil => rfl
  | cons t ts ih => simp [mats, ih]

theorem zip_mats_snd (items : List Ty) : (items.zip (mats items)).map (·.2) = mats items := by
  induction items with
  | nil => rfl
  | cons t ts ih => simp [mats, ih]

theorem zip_mats_mem {items : List Ty} {p : Ty × Option (List Ty)} (h : p ∈ items.zip (mats items)) :
    p.1 ∈ items ∧ p.2 = mat p.1 := by
  induction items with
  | nil => simp [mats] at h
  | cons t ts ih =>
    simp only [mats, List.zip_cons_cons, List.mem_cons] at h
    rcases h with rfl | h
    · exact ⟨List.mem_cons_self .., rfl⟩
    · exact ⟨List.mem_cons_of_mem _ (ih h).1, (ih h).2⟩

theorem filleds_mem {ts : List Ty} (h : Filleds ts) : ∀ t ∈ ts, Filled t := by
  induction ts with
  | nil => nofun
  | cons a ts ih =>
    intro t ht
    rcases List.mem_cons.mp ht with rfl | ht
    · exact h.1
    · exact ih h.2 t ht

theorem fairs_mem {ts : List Ty} (h : Fairs ts) : ∀ t ∈ ts, Fair t := by
  induction ts with
  | nil => nofun
  | cons a ts ih =>
    intro t ht
    rcases List.mem_cons.mp ht with rfl | ht
    · exact h.1
    · exact ih h.2 t ht

theorem mat_inside : ∀ (t : Ty) (us : List Ty), Filled t → mat t = some us →
    ∀ u ∈ us, ∀ v, u.has v → t.has v
  | .union es, us, _, h, u, hu, v, hv => by
    simp only [mat, Option.some.injEq] at h
    subst h
    simp only [Ty.has]
    exact hasSome_iff.mpr ⟨u, hu, hv⟩
  | .bool, us, _, h, u, hu, v, hv => by
    simp only [mat, Option.some.injEq] at h
    subst h
    simp only [List.mem_cons, List.not_mem_nil, or_false] at hu
    rcases hu with rfl | rfl <;> cases v <;> simp_all [Ty.has]
  | .enum id n, us, _, h, u, hu, v, hv => by
    simp only [mat] at h
    split at h
    · cases h
      obtain ⟨i, hi, rfl⟩ := List.mem_map.mp hu
      rw [List.mem_range] at hi
      cases v <;> simp_all [Ty.has]
    · cases h
  | .tuple items, us, hf, h, u, hu, v, hv => by
    simp only [mat] at h
    split at h
    · cases h
    · split at h
      · next ts hts =>
        split at h
        · cases h
        · cases h
          obtain ⟨r, hr, rfl⟩ := List.mem_map.mp hu
          cases v with
          | tup vs =>
            simp only [Ty.has] at hv ⊢
            have := loop_inside (done := []) hts (fun p hp us hus => by
                obtain ⟨h1, h2⟩ := zip_mats_mem hp
                exact mat_ne (filleds_mem hf p.1 h1) (h2 ▸ hus))
              (fun p hp us hus u hu v hv => by
                obtain ⟨h1, h2⟩ := zip_mats_mem hp
                exact mat_inside p.1 us (filleds_mem hf p.1 h1) (h2 ▸ hus) u hu v hv)
              (by simp) r hr vs hv
            rwa [List.nil_append, zip_mats_fst] at this
          | _ => simp [Ty.has] at hv
      · cases h
  | .any, _, _, h, _, _, _, _ => by simp [mat] at h
  | .cls _, _, _, h, _, _, _, _ => by simp [mat] at h
  | .lit _, _, _, h, _, _, _, _ => by simp [mat] at h
  | .member _ _ _, _, _, h, _, _, _, _ => by simp [mat] at h
  | .anyTuple, _, _, h, _, _, _, _ => by simp [mat] at h
termination_by t => sizeOf t
decreasing_by
  have := List.sizeOf_lt_of_mem h1
  simp_wf
  omega

theorem mat_covers : ∀ (t : Ty) (us : List Ty), Filled t → Fair t → mat t = some us →
    ∀ v, t.has v → ∃ u ∈ us, u.has v
  | .union es, us, _, _, h, v, hv => by
    simp only [mat, Option.some.injEq] at h
    subst h
    simp only [Ty.has] at hv
    exact hasSome_iff.mp hv
  | .bool, us, _, _, h, v, hv => by
    simp only [mat, Option.some.injEq] at h
    subst h
    cases v with
    | bool b => cases b <;> simp [Ty.has]
    | _ => simp [Ty.has] at hv
  | .enum id n, us, _, _, h, v, hv => by
    simp only [mat] at h
    split at h
    · cases h
      cases v with
      | member i k =>
        simp only [Ty.has] at hv
        exact ⟨.member id n k, List.mem_map.mpr ⟨k, List.mem_range.mpr hv.2, rfl⟩, hv.1, rfl⟩
      | _ => simp [Ty.has] at hv
    · cases h
  | .tuple items, us, hf, hfair, h, v, hv => by
    simp only [mat] at h
    split at h
    · cases h
    · split at h
      · next ts hts =>
        split at h
        · cases h
        · cases h
          cases v with
          | tup vs =>
            simp only [Ty.has] at hv
            simp only [Fair] at hfair
            obtain ⟨r, hr, hrv⟩ := loop_covers (t := []) (ws := []) hts (fun p hp us hus => by
                obtain ⟨h1, h2⟩ := zip_mats_mem hp
                exact mat_ne (filleds_mem hf p.1 h1) (h2 ▸ hus))
              (fun p hp us hus v hv => by
                obtain ⟨h1, h2⟩ := zip_mats_mem hp
                exact mat_covers p.1 us (filleds_mem hf p.1 h1) (fairs_mem hfair.1 p.1 h1)
                  (h2 ▸ hus) v hv)
              (by rw [zip_mats_snd]; exact hfair.2) (List.mem_singleton.mpr rfl) trivial
              (vs := vs) (by rw [zip_mats_fst]; exact hv)
            exact ⟨.tuple r, List.mem_map.mpr ⟨r, hr, rfl⟩, by simpa [Ty.has] using hrv⟩
          | _ => simp [Ty.has] at hv
      · cases h
  | .any, _, _, _, h, _, _ => by simp [mat] at h
  | .cls _, _, _, _, h, _, _ => by simp [mat] at h
  | .lit _, _, _, _, h, _, _ => by simp [mat] at h
  | .member _ _ _, _, _, _, h, _, _ => by simp [mat] at h
  | .anyTuple, _, _, _, h, _, _ => by simp [mat] at h
termination_by t => sizeOf t
decreasing_by
  have := List.sizeOf_lt_of_mem h1
  simp_wf
  omega

/-! ## The combination of results -/

theorem combine_true {join : Ty → Ty → Ty} {rs : List UnionMath} {t t' : Ty} {n : Option Nat} {i : Nat} :
    combine join rs t n true ≠ .found i t' := by
  induction rs generalizing t n with
  | nil => cases n <;> simp [combine]
  | cons r rs ih => cases r <;> simp [combine, ih]

theorem combine_found {join : Ty → Ty → Ty} {rs : List UnionMath} {t t' : Ty} {n : Option Nat} {i : Nat}
    (h : combine join rs t n false = .found i t') : ∀ r ∈ rs, ∃ j u, r = .found j u := by
  induction rs generalizing t n with
  | nil => nofun
  | cons r rs ih =>
    cases r with
    | found j u =>
      simp only [combine, Bool.false_eq_true, if_false] at h
      intro r hr
      rcases List.mem_cons.mp hr with rfl | hr
      · exact ⟨j, u, rfl⟩
      · exact ih h r hr
    | tooManyUnions => simp [combine] at h
    | panic => simp [combine] at h
    | _ => simp only [combine] at h; exact absurd h combine_true

theorem combine_has {join : Ty → Ty → Ty} (hj : Joins join) {rs : List UnionMath} {t t' : Ty}
    {n : Option Nat} {i : Nat} (h : combine join rs t n false = .found i t') (v : Val) :
    (t.has v ∨ ∃ j u, .found j u ∈ rs ∧ u.has v) → t'.has v := by
  induction rs generalizing t n with
  | nil =>
    cases n with
    | none => simp [combine] at h
    | some n => simp only [combine, UnionMath.found.injEq] at h; rw [h.2]; simp
  | cons r rs ih =>
    obtain ⟨j, u, rfl⟩ := combine_found h r (List.mem_cons_self ..)
    simp only [combine, Bool.false_eq_true, if_false] at h
    intro hv
    refine ih h ?_
    rcases hv with hv | ⟨k, w, hw, hv⟩
    · exact .inl (hj _ _ _ (.inl hv))
    · rcases List.mem_cons.mp hw with he | hw
      · cases he; exact .inl (hj _ _ _ (.inr hv))
      · exact .inr ⟨k, w, hw, hv⟩

theorem combine_only {join : Ty → Ty → Ty} (hj : ∀ a b v, (join a b).has v → a.has v ∨ b.has v)
    {rs : List UnionMath} {t t' : Ty} {n : Option Nat} {i : Nat}
    (h : combine join rs t n false = .found i t') (v : Val) (hv : t'.has v) :
    t.has v ∨ ∃ j u, .found j u ∈ rs ∧ u.has v := by
  induction rs generalizing t n with
  | nil =>
    cases n with
    | none => simp [combine] at h
    | some n => simp only [combine, UnionMath.found.injEq] at h; rw [h.2]; exact .inl hv
  | cons r rs ih =>
    obtain ⟨j, u, rfl⟩ := combine_found h r (List.mem_cons_self ..)
    simp only [combine, Bool.false_eq_true, if_false] at h
    rcases ih h with hv | ⟨k, w, hw, hv⟩
    · rcases hj _ _ _ hv with hv | hv
      · exact .inl hv
      · exact .inr ⟨j, u, List.mem_cons_self .., hv⟩
    · exact .inr ⟨k, w, List.mem_cons_of_mem _ hw, hv⟩

theorem minIndex_some (n : Option Nat) (i : Nat) (u : Ty) : ∃ k, minIndex n (.found i u) = some k := by
  cases n with
  | none => exact ⟨i, rfl⟩
  | some f => unfold minIndex; simp only [UnionMath.index]; split <;> exact ⟨_, rfl⟩

theorem combine_all {join : Ty → Ty → Ty} {rs : List UnionMath} {t : Ty} {n : Option Nat}
    (h : ∀ r ∈ rs, ∃ j u, r = .found j u) (hn : n.isSome ∨ rs ≠ []) :
    ∃ i t', combine join rs t n false = .found i t' := by
  induction rs generalizing t n with
  | nil =>
    cases n with
    | none => simp at hn
    | some n => exact ⟨n, t, rfl⟩
  | cons r rs ih =>
    obtain ⟨j, u, rfl⟩ := h r (List.mem_cons_self ..)
    simp only [combine, Bool.false_eq_true, if_false]
    obtain ⟨k, hk⟩ := minIndex_some n j u
    exact ih (fun r hr => h r (List.mem_cons_of_mem _ hr)) (by rw [hk]; exact .inl rfl)

theorem combine_many {join : Ty → Ty → Ty} {rs : List UnionMath} {t : Ty} {n : Option Nat} {b : Bool}
    (h : ∀ r ∈ rs, r ≠ .tooManyUnions) : combine join rs t n b ≠ .tooManyUnions := by
  induction rs generalizing t n b with
  | nil => cases n <;> cases b <;> simp [combine]
  | cons r rs ih =>
    have h' := fun r hr => h r (List.mem_cons_of_mem _ hr)
    cases r with
    | tooManyUnions => exact absurd rfl (h _ (List.mem_cons_self ..))
    | panic => simp [combine]
    | found => simp only [combine]; split <;> exact ih h'
    | _ => simp only [combine]; exact ih h'

theorem combine_panic {join : Ty → Ty → Ty} {rs : List UnionMath} {t : Ty} {n : Option Nat} {b : Bool}
    (h : ∀ r ∈ rs, r ≠ .panic) (hn : n.isSome ∨ b = true ∨ rs ≠ []) :
    combine join rs t n b ≠ .panic := by
  induction rs generalizing t n b with
  | nil => cases n <;> cases b <;> simp_all [combine]
  | cons r rs ih =>
    have h' := fun r hr => h r (List.mem_cons_of_mem _ hr)
    cases r with
    | panic => exact absurd rfl (h _ (List.mem_cons_self ..))
    | tooManyUnions => simp [combine]
    | found i u =>
      simp only [combine]
      split
      · exact ih h' (.inr (.inl rfl))
      · obtain ⟨k, hk⟩ := minIndex_some n i u
        exact ih h' (.inl (by rw [hk]; rfl))
    | _ => simp only [combine]; exact ih h' (.inr (.inl rfl))

/-- The first overload that does not reject the types. -/
def Chosen (run : Sig → List Ty → SigMatch) (sigs : List Sig) (args : List Ty) (s : Sig) : Prop :=
  ∃ before after, sigs = before ++ s :: after ∧ (∀ b, run s args ≠ .no b) ∧
    ∀ t ∈ before, ∃ b, run t args = .no b

theorem leaf_cases (run : Sig → List Ty → SigMatch) (args : List Ty) (sigs : List Sig) (i : Nat)
    (n : Option Nat) :
    (∃ k s, leaf run args sigs i n = .found k s.ret ∧ Chosen run sigs args s) ∨
      ((leaf run args sigs i n = .noMatch ∨ ∃ k, leaf run args sigs i n = .firstSimilar k) ∧
        ∀ s ∈ sigs, ∃ b, run s args = .no b) := by
  induction sigs generalizing i n with
  | nil =>
    cases n with
    | none => exact .inr ⟨.inl rfl, nofun⟩
    | some n => exact .inr ⟨.inr ⟨n, rfl⟩, nofun⟩
  | cons s rest ih =>
    have next : ∀ b n', run s args = .no b → leaf run args (s :: rest) i n = leaf run args rest (i + 1) n' →
        (∃ k s', leaf run args (s :: rest) i n = .found k s'.ret ∧ Chosen run (s :: rest) args s') ∨
        ((leaf run args (s :: rest) i n = .noMatch ∨ ∃ k, leaf run args (s :: rest) i n = .firstSimilar k) ∧
          ∀ s' ∈ s :: rest, ∃ b, run s' args = .no b) := by
      intro b n' hb he
      rw [he]
      rcases ih (i + 1) n' with ⟨k, s', h1, before, after, h2, h3, h4⟩ | ⟨h1, h2⟩
      · refine .inl ⟨k, s', h1, s :: before, after, by rw [h2]; rfl, h3, ?_⟩
        intro t ht
        rcases List.mem_cons.mp ht with rfl | ht
        · exact ⟨b, hb⟩
        · exact h4 t ht
      · refine .inr ⟨h1, ?_⟩
        intro t ht
        rcases List.mem_cons.mp ht with rfl | ht
        · exact ⟨b, hb⟩
        · exact h2 t ht
    cases hr : run s args with
    | withAny is =>
      exact .inl ⟨i, s, by rw [leaf]; simp only [hr], [], rest, rfl, by rw [hr]; nofun, nofun⟩
    | yes b =>
      exact .inl ⟨i, s, by rw [leaf]; simp only [hr], [], rest, rfl, by rw [hr]; nofun, nofun⟩
    | no b =>
      cases b with
      | true => exact next true (n.or (some i)) hr (by rw [leaf]; simp only [hr])
      | false => exact next false n hr (by rw [leaf]; simp only [hr])

theorem chosen_accepted {run : Sig → List Ty → SigMatch} {sigs : List Sig} {args : List Ty} {s : Sig}
    (h : Chosen run sigs args s) : Accepted run sigs args := by
  obtain ⟨b, a, rfl, h1, _⟩ := h
  exact ⟨s, by simp, h1⟩

theorem chosen_mem {run : Sig → List Ty → SigMatch} {sigs : List Sig} {args : List Ty} {s : Sig}
    (h : Chosen run sigs args s) : s ∈ sigs := by
  obtain ⟨b, a, rfl, _, _⟩ := h
  simp

theorem unionMath_depth {join : Ty → Ty → Ty} {run : Sig → List Ty → SigMatch} {sigs : List Sig}
    {args : List Ty} {d : Nat} {done : List Ty} (h : 5 ≤ d) :
    unionMath join run sigs args d done = .tooManyUnions := by
  cases args <;> simp [unionMath, h]

theorem splits_cons (a : Ty) (rest : List Ty) :
    splits (a :: rest) = (if (mat a).isSome then 1 else 0) + splits rest := by
  unfold splits
  rw [List.filter_cons]
  split <;> simp <;> omega

/-- The entries of all arguments that are split exist. -/
theorem unionMath_many {join : Ty → Ty → Ty} {run : Sig → List Ty → SigMatch} {sigs : List Sig}
    {args : List Ty} {d : Nat} {done : List Ty} (hf : Filleds args) :
    unionMath join run sigs args d done = .tooManyUnions ↔ 5 ≤ d + splits args := by
  induction args generalizing d done with
  | nil =>
    rw [unionMath]
    have : splits [] = 0 := rfl
    rw [this]
    split
    · simp; omega
    · rcases leaf_cases run done sigs 0 none with ⟨k, s, h, _⟩ | ⟨h | ⟨k, h⟩, _⟩ <;> rw [h] <;>
        simp <;> omega
  | cons a rest ih =>
    by_cases hd : 5 ≤ d
    · rw [unionMath_depth hd]; simp; omega
    · rw [unionMath, if_neg hd, splits_cons]
      cases hm : mat a with
      | none =>
        simp only [Option.isSome_none, Bool.false_eq_true, if_false]
        rw [ih hf.2, Nat.zero_add]
      | some us =>
        have hne := mat_ne hf.1 hm
        simp only [Option.isSome_some, if_true]
        rw [show d + (1 + splits rest) = d + 1 + splits rest by omega]
        constructor
        · intro h
          by_cases hlt : 5 ≤ d + 1 + splits rest
          · exact hlt
          · exfalso
            refine combine_many ?_ h
            intro r hr
            obtain ⟨u, _, rfl⟩ := List.mem_map.mp hr
            rw [Ne, ih hf.2]
            exact hlt
        · intro h
          obtain ⟨u, us, rfl⟩ := List.exists_cons_of_ne_nil hne
          simp only [List.map_cons]
          rw [(ih hf.2).mpr h]
          rfl

theorem unionMath_found {join : Ty → Ty → Ty} {run : Sig → List Ty → SigMatch} {sigs : List Sig}
    {args : List Ty} {d : Nat} {done : List Ty} (hf : Filleds args) :
    (∃ i t, unionMath join run sigs args d done = .found i t) ↔
      d + splits args < 5 ∧ ∀ c ∈ expand args, Accepted run sigs (done ++ c) := by
  induction args generalizing d done with
  | nil =>
    rw [unionMath]
    have : splits [] = 0 := rfl
    rw [this]
    simp only [expand, List.mem_singleton, forall_eq, List.append_nil]
    by_cases hd : 5 ≤ d
    · rw [if_pos hd]
      constructor
      · rintro ⟨i, t, h⟩; cases h
      · intro h; omega
    · rw [if_neg hd]
      rcases leaf_cases run done sigs 0 none with ⟨k, s, h, hc⟩ | ⟨h, hn⟩
      · exact ⟨fun _ => ⟨by omega, chosen_accepted hc⟩, fun _ => ⟨k, _, h⟩⟩
      · constructor
        · rintro ⟨i, t, h'⟩
          rcases h with h | ⟨k, h⟩ <;> rw [h] at h' <;> cases h'
        · rintro ⟨_, s, hs, hno⟩
          obtain ⟨b, hb⟩ := hn s hs
          exact absurd hb (hno b)
  | cons a rest ih =>
    rw [splits_cons]
    by_cases hd : 5 ≤ d
    · rw [unionMath_depth hd]
      constructor
      · rintro ⟨i, t, h⟩; cases h
      · intro h; omega
    · rw [unionMath, if_neg hd]
      cases hm : mat a with
      | none =>
        simp only [Option.isSome_none, Bool.false_eq_true, if_false, Nat.zero_add]
        rw [ih hf.2]
        simp [expand, hm]
      | some us =>
        have hne := mat_ne hf.1 hm
        simp only [Option.isSome_some, if_true]
        rw [show d + (1 + splits rest) = d + 1 + splits rest by omega]
        constructor
        · rintro ⟨i, t, h⟩
          have hall := combine_found h
          have hall' : ∀ u ∈ us, _ := fun u hu =>
            (ih hf.2 (d := d + 1) (done := done ++ [u])).mp (hall _ (List.mem_map.mpr ⟨u, hu, rfl⟩))
          obtain ⟨u, us', rfl⟩ := List.exists_cons_of_ne_nil hne
          refine ⟨(hall' u (List.mem_cons_self ..)).1, ?_⟩
          intro c hc
          simp only [expand, hm, Option.getD_some, List.mem_flatMap, List.mem_map] at hc
          obtain ⟨w, hw, c', hc', rfl⟩ := hc
          have := (hall' w hw).2 c' hc'
          simpa using this
        · rintro ⟨hlt, h⟩
          refine combine_all ?_ (.inr (by simpa using hne))
          intro r hr
          obtain ⟨u, hu, rfl⟩ := List.mem_map.mp hr
          have := (ih hf.2 (d := d + 1) (done := done ++ [u])).mpr ⟨hlt, fun c hc => by
            have := h (u :: c) (by
              simp only [expand, hm, Option.getD_some, List.mem_flatMap, List.mem_map]
              exact ⟨u, hu, c, hc, rfl⟩)
            simpa using this⟩
          obtain ⟨i, t, h⟩ := this
          exact ⟨i, t, h⟩

theorem unionMath_has {join : Ty → Ty → Ty} (hj : Joins join) {run : Sig → List Ty → SigMatch}
    {sigs : List Sig} {args : List Ty} {d i : Nat} {done : List Ty} {t : Ty}
    (h : unionMath join run sigs args d done = .found i t) :
    ∀ c ∈ expand args, ∃ s, Chosen run sigs (done ++ c) s ∧ ∀ v, s.ret.has v → t.has v := by
  induction args generalizing d done i t with
  | nil =>
    rw [unionMath] at h
    simp only [expand, List.mem_singleton, forall_eq, List.append_nil]
    split at h
    · cases h
    · rcases leaf_cases run done sigs 0 none with ⟨k, s, h', hc⟩ | ⟨h' | ⟨k, h'⟩, hn⟩
      · rw [h'] at h; cases h; exact ⟨s, hc, fun _ => id⟩
      · rw [h'] at h; cases h
      · rw [h'] at h; cases h
  | cons a rest ih =>
    rw [unionMath] at h
    split at h
    · cases h
    · split at h
      · next hm =>
        intro c hc
        simp only [expand, hm, Option.getD_none, List.mem_flatMap, List.mem_map, List.mem_singleton] at hc
        obtain ⟨w, rfl, c', hc', rfl⟩ := hc
        have := ih h c' hc'
        simpa using this
      · next us hm =>
        intro c hc
        simp only [expand, hm, Option.getD_some, List.mem_flatMap, List.mem_map] at hc
        obtain ⟨w, hw, c', hc', rfl⟩ := hc
        obtain ⟨j, u, hu⟩ := combine_found h _ (List.mem_map.mpr ⟨w, hw, rfl⟩)
        obtain ⟨s, hs, hv⟩ := ih hu c' hc'
        refine ⟨s, by simpa using hs, fun v hsv => combine_has hj h v (.inr ⟨j, u, ?_, hv v hsv⟩)⟩
        exact List.mem_map.mpr ⟨w, hw, hu⟩

theorem unionMath_only {join : Ty → Ty → Ty} (hj : ∀ a b v, (join a b).has v → a.has v ∨ b.has v)
    {run : Sig → List Ty → SigMatch}
    {sigs : List Sig} {args : List Ty} {d i : Nat} {done : List Ty} {t : Ty}
    (h : unionMath join run sigs args d done = .found i t) (v : Val) (hv : t.has v) :
    ∃ c ∈ expand args, ∃ s, Chosen run sigs (done ++ c) s ∧ s.ret.has v := by
  induction args generalizing d done i t with
  | nil =>
    rw [unionMath] at h
    split at h
    · cases h
    · rcases leaf_cases run done sigs 0 none with ⟨k, s, h', hc⟩ | ⟨h' | ⟨k, h'⟩, hn⟩
      · rw [h'] at h; cases h; exact ⟨[], by simp [expand], s, by simpa using hc, hv⟩
      · rw [h'] at h; cases h
      · rw [h'] at h; cases h
  | cons a rest ih =>
    rw [unionMath] at h
    split at h
    · cases h
    · split at h
      · next hm =>
        obtain ⟨c, hc, s, hs, hsv⟩ := ih h hv
        refine ⟨a :: c, ?_, s, by simpa using hs, hsv⟩
        simp only [expand, hm, Option.getD_none, List.mem_flatMap, List.mem_map, List.mem_singleton]
        exact ⟨a, rfl, c, hc, rfl⟩
      · next us hm =>
        rcases combine_only hj h v hv with hv | ⟨j, u, hu, hv⟩
        · simp [Ty.has, Ty.hasSome] at hv
        · obtain ⟨w, hw, hu⟩ := List.mem_map.mp hu
          obtain ⟨c, hc, s, hs, hsv⟩ := ih hu hv
          refine ⟨w :: c, ?_, s, by simpa using hs, hsv⟩
          simp only [expand, hm, Option.getD_some, List.mem_flatMap, List.mem_map]
          exact ⟨w, hw, c, hc, rfl⟩

theorem unionMath_panic {join : Ty → Ty → Ty} {run : Sig → List Ty → SigMatch} {sigs : List Sig}
    {args : List Ty} {d : Nat} {done : List Ty} (hf : Filleds args) :
    unionMath join run sigs args d done ≠ .panic := by
  induction args generalizing d done with
  | nil =>
    rw [unionMath]
    split
    · nofun
    · rcases leaf_cases run done sigs 0 none with ⟨k, s, h, _⟩ | ⟨h | ⟨k, h⟩, _⟩ <;> rw [h] <;> nofun
  | cons a rest ih =>
    rw [unionMath]
    split
    · nofun
    · split
      · exact ih hf.2
      · next us hm =>
        refine combine_panic ?_ (.inr (.inr (by simpa using mat_ne hf.1 hm)))
        intro r hr
        obtain ⟨u, _, rfl⟩ := List.mem_map.mp hr
        exact ih hf.2

/-- Values of the arguments have the types of one of the combinations. -/
theorem expand_covers {args : List Ty} (hf : Filleds args) (hfair : Fairs args) {vs : List Val}
    (h : Ty.hasAll args vs) : ∃ c ∈ expand args, Ty.hasAll c vs := by
  induction args generalizing vs with
  | nil => exact ⟨[], by simp [expand], h⟩
  | cons a rest ih =>
    cases vs with
    | nil => simp [Ty.hasAll] at h
    | cons v vs =>
      simp only [Ty.hasAll] at h
      obtain ⟨c, hc, hcv⟩ := ih hf.2 hfair.2 h.2
      cases hm : mat a with
      | none =>
        refine ⟨a :: c, ?_, h.1, hcv⟩
        simp only [expand, hm, Option.getD_none, List.mem_flatMap, List.mem_map, List.mem_singleton]
        exact ⟨a, rfl, c, hc, rfl⟩
      | some us =>
        obtain ⟨u, hu, huv⟩ := mat_covers a us hf.1 hfair.1 hm v h.1
        refine ⟨u :: c, ?_, huv, hcv⟩
        simp only [expand, hm, Option.getD_some, List.mem_flatMap, List.mem_map]
        exact ⟨u, hu, c, hc, rfl⟩

/-! ## The loop over the overloads -/

/-- All overloads in the variables are overloads of the function. -/
def State.Within (sigs : List Sig) (st : State) : Prop :=
  (∀ s, st.notHandled = some s → s ∈ sigs) ∧ (∀ s, st.similar = some s → s ∈ sigs) ∧
    ∀ p, st.anyMatch = some p → p.1 ∈ sigs

theorem or_some_cases {α : Type} {o : Option α} {a b : α} (h : o.or (some a) = some b) :
    o = some b ∨ a = b := by
  cases o with
  | none => right; simpa using h
  | some c => left; simpa using h

theorem loop_within {run : Sig → List Ty → SigMatch × Bool} {args : List Ty} {all : List Sig}
    (sigs : List Sig) (st : State) (hs : ∀ s ∈ sigs, s ∈ all) (hst : st.Within all) :
    (∀ s, loop run args sigs st = .inl (.single s) → s ∈ all) ∧
      (∀ t, loop run args sigs st ≠ .inl (.union t)) ∧ loop run args sigs st ≠ .inl .panic ∧
      ∀ st', loop run args sigs st = .inr st' → st'.Within all := by
  induction sigs generalizing st with
  | nil =>
    refine ⟨nofun, nofun, nofun, ?_⟩
    intro st' h
    cases h
    exact hst
  | cons s rest ih =>
    have hs' : ∀ s ∈ rest, s ∈ all := fun s h => hs s (List.mem_cons_of_mem _ h)
    have hm : s ∈ all := hs s (List.mem_cons_self ..)
    have hsim : State.Within all { st with similar := st.similar.or (some s) } := by
      refine ⟨hst.1, ?_, hst.2.2⟩
      intro u hu
      rcases or_some_cases hu with hu | rfl
      · exact hst.2.1 u hu
      · exact hm
    have hnh : State.Within all { st with notHandled := st.notHandled.or (some s) } := by
      refine ⟨?_, hst.2.1, hst.2.2⟩
      intro u hu
      rcases or_some_cases hu with hu | rfl
      · exact hst.1 u hu
      · exact hm
    rw [loop]
    split
    · split
      · exact ⟨nofun, nofun, nofun, nofun⟩
      · split
        · exact ih _ hs' hnh
        · refine ⟨?_, nofun, nofun, nofun⟩
          intro u hu
          cases hu
          exact hm
    · split
      · split
        · exact ⟨nofun, nofun, nofun, nofun⟩
        · exact ih _ hs' hst
      · refine ih _ hs' ⟨hst.1, hst.2.1, ?_⟩
        intro p hp
        cases hp
        exact hm
    · exact ih _ hs' hst
    · exact ih _ hs' hsim

theorem within_empty (sigs : List Sig) : State.Within sigs {} := ⟨nofun, nofun, nofun⟩

/-- Without `Any` something is found or reported. -/
theorem loop_static {run : Sig → List Ty → SigMatch × Bool} {args : List Ty}
    (hno : ∀ s is, (run s args).1 ≠ .withAny is) (sigs : List Sig) (st : State)
    (hst : st.anyMatch = none) :
    loop run args sigs st ≠ .inl .notFound ∧
      ∀ st', loop run args sigs st = .inr st' → st'.anyMatch = none := by
  induction sigs generalizing st with
  | nil =>
    refine ⟨nofun, ?_⟩
    intro st' h
    cases h
    exact hst
  | cons s rest ih =>
    rw [loop]
    split
    · rw [if_neg (by simp [hst])]
      split
      · exact ih _ hst
      · exact ⟨nofun, nofun⟩
    · next is hr => exact absurd (congrArg Prod.fst hr) (hno s is)
    · exact ih _ hst
    · exact ih _ hst

theorem mem_of_getElem? {sigs : List Sig} {i : Nat} {s : Sig} (h : sigs[i]? = some s) : s ∈ sigs :=
  List.mem_iff_getElem?.mpr ⟨i, h⟩

/-- What one run can find. -/
theorem findOnce_cases (o : Opts) (run : Sig → List Ty → SigMatch × Bool) (sigs : List Sig)
    (args : List Ty) :
    (∃ s ∈ sigs, findOnce o run sigs args = .inl (.single s, [])) ∨
    (loop run args sigs {} = .inl .notFound ∧ findOnce o run sigs args = .inl (.notFound, [])) ∨
    (∃ i t, unionMath o.join (fun s a => (run s a).1) sigs args 0 [] = .found i t ∧
      findOnce o run sigs args = .inl (.union t, [])) ∨
    (unionMath o.join (fun s a => (run s a).1) sigs args 0 [] = .panic ∧
      findOnce o run sigs args = .inl (.panic, [])) ∨
    ∃ s is, (∀ u, s = some u → u ∈ sigs) ∧ findOnce o run sigs args = .inr (s, is) := by
  obtain ⟨h1, h2, h3, h4⟩ := loop_within (run := run) (args := args) sigs {} (fun _ => id) (within_empty sigs)
  unfold findOnce
  cases hl : loop run args sigs {} with
  | inl r =>
    cases r with
    | single s => exact .inl ⟨s, h1 s hl, rfl⟩
    | notFound => exact .inr (.inl ⟨rfl, rfl⟩)
    | union t => exact absurd hl (h2 t)
    | panic => exact absurd hl h3
  | inr st =>
    obtain ⟨w1, w2, w3⟩ := h4 st hl
    simp only [afterLoop]
    cases hany : st.anyMatch with
    | some p => exact .inl ⟨p.1, w3 p hany, rfl⟩
    | none =>
      cases hnh : st.notHandled with
      | some s => exact .inl ⟨s, w1 s hnh, rfl⟩
      | none =>
        simp only
        split
        · cases hu : unionMath o.join (fun s a => (run s a).1) sigs args 0 [] with
          | found i t => exact .inr (.inr (.inl ⟨i, t, rfl, rfl⟩))
          | firstSimilar i => exact .inr (.inr (.inr (.inr ⟨_, _, fun u hu => mem_of_getElem? hu, rfl⟩)))
          | noMatch => exact .inr (.inr (.inr (.inr ⟨_, _, w2, rfl⟩)))
          | tooManyUnions => exact .inr (.inr (.inr (.inr ⟨_, _, w2, rfl⟩)))
          | panic => exact .inr (.inr (.inr (.inl ⟨rfl, rfl⟩)))
        · exact .inr (.inr (.inr (.inr ⟨_, _, w2, rfl⟩)))

/-- What a call without issues can find. -/
theorem find_cases {o : Opts} {run : Run} {sigs : List Sig} {args : List Ty} {c : Bool} {r : Result}
    (h : find o run sigs args c = (r, [])) :
    (∃ s ∈ sigs, r = .single s) ∨
    (r = .notFound ∧ ∃ c', (c' = c ∨ c' = false) ∧ loop (run c') args sigs {} = .inl .notFound) ∨
    (∃ i t c', (c' = c ∨ c' = false) ∧
      unionMath o.join (fun s a => (run c' s a).1) sigs args 0 [] = .found i t ∧ r = .union t) ∨
    (r = .panic ∧ ∃ c', unionMath o.join (fun s a => (run c' s a).1) sigs args 0 [] = .panic) := by
  unfold find at h
  rcases findOnce_cases o (run c) sigs args with ⟨s, hs, he⟩ | ⟨hl, he⟩ | ⟨i, t, hu, he⟩ | ⟨hu, he⟩ |
    ⟨s, is, hs, he⟩
  · rw [he] at h; cases h; exact .inl ⟨s, hs, rfl⟩
  · rw [he] at h; cases h; exact .inr (.inl ⟨rfl, c, .inl rfl, hl⟩)
  · rw [he] at h; cases h; exact .inr (.inr (.inl ⟨i, t, c, .inl rfl, hu, rfl⟩))
  · rw [he] at h; cases h; exact .inr (.inr (.inr ⟨rfl, c, hu⟩))
  · rw [he] at h
    simp only at h
    split at h
    · simp only [Prod.mk.injEq, List.append_eq_nil_iff] at h
      obtain ⟨h1, _, h2⟩ := h
      rcases findOnce_cases o (run false) sigs args with ⟨s, hs, he⟩ | ⟨hl, he⟩ | ⟨i, t, hu, he⟩ |
        ⟨hu, he⟩ | ⟨s, is, hs, he⟩
      · rw [he] at h1; exact .inl ⟨s, hs, h1.symm⟩
      · rw [he] at h1; exact .inr (.inl ⟨h1.symm, false, .inr rfl, hl⟩)
      · rw [he] at h1; exact .inr (.inr (.inl ⟨i, t, false, .inr rfl, hu, h1.symm⟩))
      · rw [he] at h1; exact .inr (.inr (.inr ⟨h1.symm, false, hu⟩))
      · rw [he] at h1 h2
        cases s with
        | some s => exact .inl ⟨s, hs s rfl, h1.symm⟩
        | none => simp [conclude] at h2
    · cases s with
      | some s =>
        simp only [conclude, Prod.mk.injEq] at h
        exact .inl ⟨s, hs s rfl, h.1.symm⟩
      | none => simp [conclude] at h

theorem ok_cases {m : SigMatch × Bool} (h : SigMatch.ok m = true) :
    (∃ b, m.1 = .yes b) ∨ ∃ is, m.1 = .withAny is := by
  obtain ⟨a, e⟩ := m
  cases a with
  | no => simp [SigMatch.ok] at h
  | yes b => exact .inl ⟨b, rfl⟩
  | withAny is => exact .inr ⟨is, rfl⟩

/-! ## Merged types -/

mutual
theorem merge_noUnion {a b : Ty} (h : NoUnion a) : NoUnion (merge a b) := by
  cases a with
  | tuple as =>
    cases b with
    | tuple bs =>
      simp only [merge]
      split
      · simp only [NoUnion] at h ⊢
        exact merges_noUnion h
      · trivial
    | _ => simp [merge, NoUnion]
  | union => exact absurd h (by simp [NoUnion])
  | _ => cases b <;> simp only [merge] <;> (try split) <;> simp_all [NoUnion]

theorem merges_noUnion {as bs : List Ty} (h : NoUnions as) : NoUnions (merges as bs) := by
  cases as with
  | nil => cases bs <;> trivial
  | cons a as =>
    cases bs with
    | nil => trivial
    | cons b bs =>
      simp only [merges, NoUnions] at h ⊢
      exact ⟨merge_noUnion h.1, merges_noUnion h.2⟩
end

mutual
theorem merge_has {a b : Ty} (h : NoUnion a) (v : Val) (hv : a.has v ∨ b.has v) : (merge a b).has v := by
  cases a with
  | tuple as =>
    cases b with
    | tuple bs =>
      simp only [merge]
      split
      · next hl =>
        simp only [NoUnion] at h
        cases v with
        | tup vs => simp only [Ty.has] at hv ⊢; exact merges_has hl h vs hv
        | _ => simp [Ty.has] at hv
      · cases v <;> simp_all [Ty.has]
    | anyTuple => cases v <;> simp_all [Ty.has, merge]
    | _ => simp [merge, Ty.has]
  | union => exact absurd h (by simp [NoUnion])
  | anyTuple => cases b <;> cases v <;> simp_all [Ty.has, merge]
  | _ =>
    cases b <;> simp only [merge] <;> (try split) <;>
      first
        | (rename_i he; have := Ty.eq_of he; rw [← this] at hv; simpa using hv)
        | (rename_i he; subst he; simpa using hv)
        | simp [Ty.has]

theorem merges_has {as bs : List Ty} (hl : as.length = bs.length) (h : NoUnions as) (vs : List Val)
    (hv : Ty.hasAll as vs ∨ Ty.hasAll bs vs) : Ty.hasAll (merges as bs) vs := by
  cases as with
  | nil => cases bs <;> simp_all [merges]
  | cons a as =>
    cases bs with
    | nil => simp at hl
    | cons b bs =>
      cases vs with
      | nil => simp [Ty.hasAll] at hv
      | cons v vs =>
        simp only [merges, Ty.hasAll, NoUnions] at h hv ⊢
        exact ⟨merge_has h.1 v (hv.imp (·.1) (·.1)),
          merges_has (by simpa using hl) h.2 vs (hv.imp (·.2) (·.2))⟩
end

theorem merge_fold {rest : List Sig} {t : Ty} (h : NoUnion t) (v : Val)
    (hv : t.has v ∨ ∃ s ∈ rest, s.ret.has v) : (rest.foldl (fun t u => merge t u.ret) t).has v := by
  induction rest generalizing t with
  | nil => simpa using hv
  | cons s rest ih =>
    rw [List.foldl_cons]
    refine ih (merge_noUnion h) ?_
    rcases hv with hv | ⟨u, hu, hv⟩
    · exact .inl (merge_has h v (.inl hv))
    · rcases List.mem_cons.mp hu with rfl | hu
      · exact .inl (merge_has h v (.inr hv))
      · exact .inr ⟨u, hu, hv⟩

/-! ## Arguments with `Any` -/

/-- Nothing is found, or the type of the found overload has the value. -/
def Good (v : Val) : Result ⊕ State → Prop
  | .inl (.single s) => s.ret.has v
  | .inl .notFound => True
  | .inr st => ∃ p, st.anyMatch = some p ∧ p.1.ret.has v
  | _ => False

/-- With a good overload the rest of the loop is good. -/
theorem loop_good {run : Sig → List Ty → SigMatch × Bool} {args : List Ty} {v : Val} (sigs : List Sig)
    (st : State) {p : Sig × List (Nat × Ty)} (hp : st.anyMatch = some p) (hv : p.1.ret.has v) :
    Good v (loop run args sigs st) := by
  induction sigs generalizing st with
  | nil => exact ⟨p, hp, hv⟩
  | cons s rest ih =>
    rw [loop]
    split
    · rw [hp]; trivial
    · split
      · split
        · trivial
        · exact ih _ hp
      · next h => rw [hp] at h; cases h
    · exact ih _ hp
    · exact ih _ hp

end Verif.Overload
