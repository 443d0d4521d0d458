import Verif.Len.Spec

/-! # Lemmas on the narrowing by the length of a tuple -/

namespace Verif.Len

theorem eq_not_of_bne {a b : Bool} (h : ¬ (a == b) = true) : a = !b := by
  cases a <;> cases b <;> simp at h ⊢

section
variable {E V : Type} {item : E → V → Prop} {vars : Nat → List V → Prop}

theorem Each.length_eq {ts : List E} {vs : List V} (h : Each item ts vs) :
    vs.length = ts.length := by
  induction h with
  | nil => rfl
  | cons _ _ ih => simp [ih]

theorem Each.append {ts us : List E} {vs ws : List V} (h : Each item ts vs) (k : Each item us ws) :
    Each item (ts ++ us) (vs ++ ws) := by
  induction h with
  | nil => exact k
  | cons hx _ ih => exact Each.cons hx ih

theorem Each.split {ts us : List E} {vs : List V} (h : Each item (ts ++ us) vs) :
    ∃ (a b : List V), vs = a ++ b ∧ Each item ts a ∧ Each item us b := by
  induction ts generalizing vs with
  | nil => exact ⟨[], vs, rfl, Each.nil, h⟩
  | cons t ts ih =>
    cases h with
    | cons hx hr =>
      obtain ⟨a, b, rfl, ha, hb⟩ := ih hr
      exact ⟨_ :: a, b, rfl, Each.cons hx ha, hb⟩

theorem each_replicate {t : E} {vs : List V} (h : ∀ v ∈ vs, item t v) :
    Each item (List.replicate vs.length t) vs := by
  induction vs with
  | nil => exact Each.nil
  | cons v vs ih =>
    exact Each.cons (h v (by simp)) (ih fun w hw => h w (by simp [hw]))

theorem of_each_replicate {t : E} {vs : List V} {n : Nat} (h : Each item (List.replicate n t) vs) :
    vs.length = n ∧ ∀ v ∈ vs, item t v := by
  refine ⟨by simpa using h.length_eq, ?_⟩
  induction n generalizing vs with
  | zero => cases h; simp
  | succ n ih =>
    cases h with
    | cons hx hr =>
      intro v hv
      rcases List.mem_cons.mp hv with rfl | hv
      · exact hx
      · exact ih hr v hv

theorem Args.Has.least_le {a : Args E} {vs : List V} (h : a.Has item vars vs) :
    a.least ≤ vs.length := by
  cases a with
  | fixed ts => exact Nat.le_of_eq (Each.length_eq h).symm
  | arbitrary t => exact Nat.zero_le _
  | unpack b m c =>
    obtain ⟨x, y, z, rfl, hx, _, hz⟩ := h
    have := hx.length_eq
    have := hz.length_eq
    simp [Args.least]; omega
  | typeVarTuple b m c =>
    obtain ⟨x, y, z, rfl, hx, _, hz⟩ := h
    have := hx.length_eq
    have := hz.length_eq
    simp [Args.least]; omega

/-- A tuple with at least `k` more items than needed has `k` more leading items. -/
theorem unpack_longer {b : List E} {m : E} {c : List E} {vs : List V} {k : Nat}
    (h : (Args.unpack b m c).Has item vars vs) (hk : b.length + c.length + k ≤ vs.length) :
    (Args.unpack (b ++ List.replicate k m) m c).Has item vars vs := by
  obtain ⟨x, y, z, rfl, hx, hy, hz⟩ := h
  have h1 := hx.length_eq
  have h2 := hz.length_eq
  simp only [List.length_append] at hk
  refine ⟨x ++ y.take k, y.drop k, z, by simp, ?_, fun v hv => hy v (List.mem_of_mem_drop hv), hz⟩
  refine hx.append ?_
  have hl : (y.take k).length = k := by rw [List.length_take]; omega
  have := each_replicate (item := item) (t := m) (vs := y.take k)
    fun v hv => hy v (List.mem_of_mem_take hv)
  rwa [hl] at this

theorem unpack_shorter {b : List E} {m : E} {c : List E} {vs : List V} {k : Nat}
    (h : (Args.unpack (b ++ List.replicate k m) m c).Has item vars vs) :
    (Args.unpack b m c).Has item vars vs ∧ b.length + c.length + k ≤ vs.length := by
  obtain ⟨x, y, z, rfl, hx, hy, hz⟩ := h
  obtain ⟨x1, x2, rfl, hx1, hx2⟩ := hx.split
  obtain ⟨hl, ha⟩ := of_each_replicate hx2
  refine ⟨⟨x1, x2 ++ y, z, by simp, hx1, ?_, hz⟩, ?_⟩
  · intro v hv
    rcases List.mem_append.mp hv with hv | hv
    · exact ha v hv
    · exact hy v hv
  · have := hx1.length_eq
    have := hz.length_eq
    simp; omega

theorem unpack_fixed {b : List E} {m : E} {c : List E} {vs : List V}
    (h : (Args.unpack b m c).Has item vars vs) :
    (Args.fixed (b ++ List.replicate (vs.length - (b.length + c.length)) m ++ c)).Has
      item vars vs := by
  obtain ⟨x, y, z, rfl, hx, hy, hz⟩ := h
  have h1 := hx.length_eq
  have h2 := hz.length_eq
  have h3 : (x ++ y ++ z).length - (b.length + c.length) = y.length := by
    simp; omega
  rw [h3]
  exact (hx.append (each_replicate hy)).append hz

theorem fixed_unpack {b : List E} {m : E} {c : List E} {vs : List V} {k : Nat}
    (h : (Args.fixed (b ++ List.replicate k m ++ c)).Has item vars vs) :
    (Args.unpack b m c).Has item vars vs ∧ vs.length = b.length + c.length + k := by
  obtain ⟨xy, z, rfl, hxy, hz⟩ := Each.split h
  obtain ⟨x, y, rfl, hx, hy⟩ := hxy.split
  obtain ⟨hl, ha⟩ := of_each_replicate hy
  refine ⟨⟨x, y, z, rfl, hx, ha, hz⟩, ?_⟩
  have := hx.length_eq
  have := hz.length_eq
  simp; omega

theorem checkedSub_ok {a b c : Nat} (h : checkedSub a b = .ok c) : b ≤ a ∧ c = a - b := by
  unfold checkedSub at h
  split at h
  · rename_i hb
    injection h with h
    exact ⟨hb, h.symm⟩
  · cases h

/-- The number of `lower_than` describes the comparison. -/
theorem lowerThan_some {n len : Nat} {kind : Kind} {l : Nat} {invert : Bool}
    (h : lowerThan n kind = (some l, invert)) :
    (matchesLen len n kind = true ↔ (if invert then l ≤ len else len < l)) := by
  cases kind <;> simp [lowerThan] at h <;> obtain ⟨rfl, rfl⟩ := h <;> simp [matchesLen] <;> omega

theorem lowerThan_none {n : Nat} {kind : Kind} {invert : Bool}
    (h : lowerThan n kind = (none, invert)) : kind = .equals ∧ invert = false := by
  cases kind <;> simp [lowerThan] at h
  exact ⟨rfl, h⟩

theorem matches_some {n len : Nat} {kind : Kind} {l : Nat} {invert negative : Bool}
    (h : lowerThan n kind = (some l, invert)) :
    (matchesLen len n kind = !negative ↔ (if invert == negative then len < l else l ≤ len)) := by
  have := lowerThan_some (len := len) h
  cases hm : matchesLen len n kind <;> cases invert <;> cases negative <;>
    simp [hm] at this ⊢ <;> omega

/-- The types that replace a tuple are exactly the tuples of the type with the right length. -/
theorem narrowTuple_iff {n : Nat} {a : Args E} {negative : Bool} {kind : Kind}
    {ts : List (Args E)} (h : narrowTuple n a negative kind = .ok (some ts)) (vs : List V) :
    (∃ t ∈ ts, t.Has item vars vs) ↔
      (a.Has item vars vs ∧ matchesLen vs.length n kind = !negative) := by
  cases a with
  | fixed us =>
    simp only [narrowTuple] at h
    split at h
    · rename_i hm
      injection h with h; injection h with h; subst h
      simp only [List.not_mem_nil, false_and, exists_false, false_iff, not_and]
      intro hv he
      have hm' : matchesLen us.length n kind = negative := by simpa using hm
      rw [Each.length_eq hv, hm'] at he
      cases negative <;> cases he
    · cases h
  | arbitrary t =>
    simp only [narrowTuple] at h
    split at h
    · rcases hl : lowerThan n kind with ⟨l, invert⟩
      rw [hl] at h
      cases l with
      | some l =>
        simp only at h
        rw [matches_some hl]
        split at h
        · split at h
          · rename_i hi
            injection h with h; injection h with h; subst h
            rw [if_pos hi]
            constructor
            · rintro ⟨u, hu, hv⟩
              obtain ⟨i, hi, rfl⟩ := List.mem_map.mp hu
              obtain ⟨h1, h2⟩ := of_each_replicate hv
              exact ⟨h2, by rw [h1]; exact List.mem_range.mp hi⟩
            · rintro ⟨hv, hlt⟩
              exact ⟨_, List.mem_map.mpr ⟨vs.length, List.mem_range.mpr hlt, rfl⟩,
                each_replicate hv⟩
          · rename_i hi
            injection h with h; injection h with h; subst h
            rw [if_neg hi]
            constructor
            · rintro ⟨u, hu, hv⟩
              rw [List.mem_singleton.mp hu] at hv
              obtain ⟨h1, h2⟩ := unpack_shorter (b := []) (c := []) hv
              obtain ⟨x, y, z, rfl, hx, hy, hz⟩ := h1
              cases hx; cases hz
              exact ⟨by simpa [Args.Has] using hy, by simpa using h2⟩
            · rintro ⟨hv, hlt⟩
              refine ⟨_, List.mem_singleton.mpr rfl, ?_⟩
              exact unpack_longer (b := []) (c := [])
                ⟨[], vs, [], by simp, Each.nil, hv, Each.nil⟩ (by simpa using hlt)
        · rename_i h0
          split at h
          · rename_i hi
            injection h with h; injection h with h; subst h
            rw [if_pos hi]
            have : l = 0 := by omega
            subst this
            simp
          · cases h
      | none =>
        obtain ⟨rfl, rfl⟩ := lowerThan_none hl
        simp only at h
        split at h
        · rename_i hn
          have hn : negative = false := by simpa using hn
          subst hn
          injection h with h; injection h with h; subst h
          constructor
          · rintro ⟨u, hu, hv⟩
            rw [List.mem_singleton.mp hu] at hv
            obtain ⟨h1, h2⟩ := of_each_replicate hv
            exact ⟨h2, by simpa [matchesLen] using h1⟩
          · rintro ⟨hv, hlt⟩
            have : vs.length = n := by simpa [matchesLen] using hlt
            exact ⟨_, List.mem_singleton.mpr rfl, this ▸ each_replicate hv⟩
        · cases h
    · cases h
  | unpack b m c =>
    simp only [narrowTuple] at h
    rcases hl : lowerThan n kind with ⟨l, invert⟩
    rw [hl] at h
    simp only at h
    split at h
    · rename_i hmin
      injection h with h; injection h with h; subst h
      simp only [List.not_mem_nil, false_and, exists_false, false_iff, not_and]
      intro hv
      have hlen := Args.Has.least_le hv
      simp only [Args.least] at hlen
      obtain ⟨h1, rfl⟩ := hmin
      cases l with
      | some l =>
        rw [matches_some hl]
        simp only [Option.getD_some] at h1
        simp; omega
      | none =>
        obtain ⟨rfl, rfl⟩ := lowerThan_none hl
        simp only [Option.getD_none] at h1
        simp [matchesLen]; omega
    · rename_i hmin
      split at h
      · cases h
      · cases l with
        | some l =>
          rw [matches_some hl]
          simp only at h
          split at h
          · rename_i hi
            rw [if_pos hi]
            cases hc : checkedSub l (b.length + c.length) with
            | error e => rw [hc] at h; cases h
            | ok k =>
              rw [hc] at h
              obtain ⟨hle, rfl⟩ := checkedSub_ok hc
              injection h with h; injection h with h; subst h
              constructor
              · rintro ⟨u, hu, hv⟩
                obtain ⟨i, hi, rfl⟩ := List.mem_map.mp hu
                obtain ⟨h1, h2⟩ := fixed_unpack hv
                have := List.mem_range.mp hi
                exact ⟨h1, by omega⟩
              · rintro ⟨hv, hlt⟩
                have hlen := Args.Has.least_le hv
                simp only [Args.least] at hlen
                exact ⟨_, List.mem_map.mpr ⟨vs.length - (b.length + c.length),
                  List.mem_range.mpr (by omega), rfl⟩, unpack_fixed hv⟩
          · rename_i hi
            rw [if_neg hi]
            cases hc : checkedSub l (b.length + c.length) with
            | error e => rw [hc] at h; cases h
            | ok k =>
              rw [hc] at h
              obtain ⟨hle, rfl⟩ := checkedSub_ok hc
              injection h with h; injection h with h; subst h
              constructor
              · rintro ⟨u, hu, hv⟩
                rw [List.mem_singleton.mp hu] at hv
                obtain ⟨h1, h2⟩ := unpack_shorter hv
                exact ⟨h1, by omega⟩
              · rintro ⟨hv, hlt⟩
                exact ⟨_, List.mem_singleton.mpr rfl, unpack_longer hv (by omega)⟩
        | none =>
          obtain ⟨rfl, rfl⟩ := lowerThan_none hl
          simp only at h
          split at h
          · cases h
          · rename_i hn
            have hn : negative = false := by simpa using hn
            subst hn
            cases hc : checkedSub n (b.length + c.length) with
            | error e => rw [hc] at h; cases h
            | ok k =>
              rw [hc] at h
              obtain ⟨hle, rfl⟩ := checkedSub_ok hc
              injection h with h; injection h with h; subst h
              constructor
              · rintro ⟨u, hu, hv⟩
                rw [List.mem_singleton.mp hu] at hv
                obtain ⟨h1, h2⟩ := fixed_unpack hv
                exact ⟨h1, by simp [matchesLen]; omega⟩
              · rintro ⟨hv, hlt⟩
                have : vs.length = n := by simpa [matchesLen] using hlt
                exact ⟨_, List.mem_singleton.mpr rfl, this ▸ unpack_fixed hv⟩
  | typeVarTuple b m c =>
    simp only [narrowTuple] at h
    rcases hl : lowerThan n kind with ⟨l, invert⟩
    rw [hl] at h
    simp only at h
    split at h
    · rename_i hmin
      injection h with h; injection h with h; subst h
      simp only [List.not_mem_nil, false_and, exists_false, false_iff, not_and]
      intro hv
      have hlen := Args.Has.least_le hv
      simp only [Args.least] at hlen
      obtain ⟨h1, rfl⟩ := hmin
      cases l with
      | some l =>
        rw [matches_some hl]
        simp only [Option.getD_some] at h1
        simp; omega
      | none =>
        obtain ⟨rfl, rfl⟩ := lowerThan_none hl
        simp only [Option.getD_none] at h1
        simp [matchesLen]; omega
    · cases h

variable {isOther : Nat → Val V → Prop}

/-- What is left of one member of the union, if the value is no instance of `other`. -/
theorem retainPart_covers {n : Nat} {negative : Bool} {kind : Kind} {part : Part E}
    {ps : List (Part E)} (h : retainPart n negative kind part = .ok ps) {v : Val V}
    (hv : part.Has item vars isOther v)
    (hm : ∀ (len : Nat), v.len = len → matchesLen len n kind = !negative) :
    Has item vars isOther ps v := by
  cases part with
  | tuple args =>
    cases v with
    | tuple vs =>
      simp only [retainPart] at h
      cases hn : narrowTuple n args negative kind with
      | error e => rw [hn] at h; cases h
      | ok r =>
        rw [hn] at h
        cases r with
        | none => injection h with h; subst h; exact ⟨_, List.mem_singleton.mpr rfl, hv⟩
        | some ts =>
          injection h with h; subst h
          obtain ⟨t, ht, hh⟩ := (narrowTuple_iff hn vs).mpr ⟨hv, hm _ rfl⟩
          exact ⟨_, List.mem_map.mpr ⟨t, ht, rfl⟩, hh⟩
    | _ => exact hv.elim
  | namedTuple fields =>
    cases v with
    | namedTuple vs =>
      simp only [retainPart] at h
      have hl := Each.length_eq hv
      have := hm _ rfl
      rw [hl] at this
      split at h
      · rename_i hb
        rw [this] at hb
        cases negative <;> simp at hb
      · injection h with h; subst h; exact ⟨_, List.mem_singleton.mpr rfl, hv⟩
    | _ => exact hv.elim
  | cls id base =>
    cases base with
    | none => injection h with h; subst h; exact ⟨_, List.mem_singleton.mpr rfl, hv⟩
    | some fields =>
      cases v with
      | inst c vs =>
        simp only [retainPart] at h
        have hl := Each.length_eq hv.2
        have := hm _ rfl
        rw [hl] at this
        split at h
        · rename_i hb
          rw [this] at hb
          cases negative <;> simp at hb
        · injection h with h; subst h; exact ⟨_, List.mem_singleton.mpr rfl, hv⟩
      | _ => exact hv.elim
  | other id => injection h with h; subst h; exact ⟨_, List.mem_singleton.mpr rfl, hv⟩

theorem retainPart_inside {n : Nat} {negative : Bool} {kind : Kind} {part : Part E}
    {ps : List (Part E)} (h : retainPart n negative kind part = .ok ps) {v : Val V}
    (hv : Has item vars isOther ps v) : part.Has item vars isOther v := by
  obtain ⟨q, hq, hh⟩ := hv
  cases part with
  | tuple args =>
    simp only [retainPart] at h
    cases hn : narrowTuple n args negative kind with
    | error e => rw [hn] at h; cases h
    | ok r =>
      rw [hn] at h
      cases r with
      | none => injection h with h; subst h; rwa [List.mem_singleton.mp hq] at hh
      | some ts =>
        injection h with h; subst h
        obtain ⟨t, ht, rfl⟩ := List.mem_map.mp hq
        cases v with
        | tuple vs => exact ((narrowTuple_iff hn vs).mp ⟨t, ht, hh⟩).1
        | _ => exact hh.elim
  | namedTuple fields =>
    simp only [retainPart] at h
    split at h
    · injection h with h; subst h; cases hq
    · injection h with h; subst h; rwa [List.mem_singleton.mp hq] at hh
  | cls id base =>
    cases base with
    | none => injection h with h; subst h; rwa [List.mem_singleton.mp hq] at hh
    | some fields =>
      simp only [retainPart] at h
      split at h
      · injection h with h; subst h; cases hq
      · injection h with h; subst h; rwa [List.mem_singleton.mp hq] at hh
  | other id => injection h with h; subst h; rwa [List.mem_singleton.mp hq] at hh

theorem lowerThan_le {n l : Nat} {kind : Kind} {i : Bool} (h : lowerThan n kind = (some l, i)) :
    l ≤ n + 1 := by
  cases kind <;> simp [lowerThan] at h <;> omega

/-- The tuples that stay as they are have the right length. -/
theorem narrowTuple_none {n : Nat} {a : Args E} {negative : Bool} {kind : Kind}
    (hs : Sized (.tuple a)) (hn : n < maxPrecise) (hk : kind ≠ .equals ∨ negative = false)
    (h : narrowTuple n a negative kind = .ok none) {vs : List V} (hv : a.Has item vars vs) :
    matchesLen vs.length n kind = !negative := by
  cases hs with
  | fixed ts =>
    simp only [narrowTuple] at h
    split at h
    · cases h
    · rename_i hne
      rw [Each.length_eq hv]
      exact eq_not_of_bne hne
  | arbitrary t =>
    simp only [narrowTuple] at h
    rw [if_pos (by omega)] at h
    rcases hl : lowerThan n kind with ⟨l, invert⟩
    rw [hl] at h
    cases l with
    | some l =>
      rw [matches_some hl]
      simp only at h
      split at h
      · split at h <;> cases h
      · split at h
        · cases h
        · rename_i hi
          rw [if_neg hi]; omega
    | none =>
      obtain ⟨rfl, rfl⟩ := lowerThan_none hl
      rcases hk with hk | rfl
      · exact absurd rfl hk
      · cases h
  | unpack b m c =>
    simp only [narrowTuple] at h
    rcases hl : lowerThan n kind with ⟨l, invert⟩
    rw [hl] at h
    simp only at h
    split at h
    · cases h
    · rw [if_neg (by cases l with
        | none => simp; omega
        | some l => have := lowerThan_le hl; simp; omega)] at h
      cases l with
      | some l =>
        simp only at h
        cases hc : checkedSub l (b.length + c.length) <;> rw [hc] at h <;> split at h <;> cases h
      | none =>
        obtain ⟨rfl, rfl⟩ := lowerThan_none hl
        rcases hk with hk | rfl
        · exact absurd rfl hk
        · cases hc : checkedSub n (b.length + c.length) <;> rw [hc] at h <;> cases h

theorem retainPart_exact {n : Nat} {negative : Bool} {kind : Kind} {part : Part E}
    (hs : Sized part) (hn : n < maxPrecise) (hk : kind ≠ .equals ∨ negative = false)
    {ps : List (Part E)} (h : retainPart n negative kind part = .ok ps) {v : Val V}
    (hv : Has item vars isOther ps v) :
    ∃ (len : Nat), v.len = len ∧ matchesLen len n kind = !negative := by
  have hin := retainPart_inside h hv
  obtain ⟨q, hq, hh⟩ := hv
  cases part with
  | tuple args =>
    cases v with
    | tuple vs =>
      refine ⟨vs.length, rfl, ?_⟩
      simp only [retainPart] at h
      cases hn' : narrowTuple n args negative kind with
      | error e => rw [hn'] at h; cases h
      | ok r =>
        rw [hn'] at h
        cases r with
        | none => exact narrowTuple_none hs hn hk hn' hin
        | some ts =>
          injection h with h; subst h
          obtain ⟨t, ht, rfl⟩ := List.mem_map.mp hq
          exact ((narrowTuple_iff hn' vs).mp ⟨t, ht, hh⟩).2
    | _ => exact hin.elim
  | namedTuple fields =>
    cases v with
    | namedTuple vs =>
      refine ⟨vs.length, rfl, ?_⟩
      rw [Each.length_eq hin]
      simp only [retainPart] at h
      split at h
      · injection h with h; subst h; cases hq
      · rename_i hne
        exact eq_not_of_bne hne
    | _ => exact hin.elim
  | cls id base =>
    cases hs with
    | cls _ fields =>
    cases v with
    | inst c vs =>
      refine ⟨vs.length, rfl, ?_⟩
      rw [Each.length_eq hin.2]
      simp only [retainPart] at h
      split at h
      · injection h with h; subst h; cases hq
      · rename_i hne
        exact eq_not_of_bne hne
    | _ => exact hin.elim
  | other id => cases hs

theorem retain_cons {n : Nat} {negative : Bool} {kind : Kind} {p : Part E} {ps rs : List (Part E)}
    (h : retain n negative kind (p :: ps) = .ok rs) :
    ∃ (a b : List (Part E)), retainPart n negative kind p = .ok a ∧
      retain n negative kind ps = .ok b ∧ rs = a ++ b := by
  simp only [retain] at h
  cases h1 : retainPart n negative kind p with
  | error e => rw [h1] at h; cases h
  | ok a =>
    cases h2 : retain n negative kind ps with
    | error e => rw [h1, h2] at h; cases h
    | ok b =>
      rw [h1, h2] at h
      injection h with h
      exact ⟨a, b, rfl, rfl, h.symm⟩

theorem retain_covers {n : Nat} {negative : Bool} {kind : Kind} {parts ps : List (Part E)}
    (h : retain n negative kind parts = .ok ps) {v : Val V}
    (hv : Has item vars isOther parts v)
    (hm : ∀ (len : Nat), v.len = len → matchesLen len n kind = !negative) :
    Has item vars isOther ps v := by
  induction parts generalizing ps with
  | nil => obtain ⟨_, hq, _⟩ := hv; cases hq
  | cons p qs ih =>
    obtain ⟨a, b, ha, hb, rfl⟩ := retain_cons h
    obtain ⟨q, hq, hh⟩ := hv
    rcases List.mem_cons.mp hq with rfl | hq
    · obtain ⟨r, hr, hh⟩ := retainPart_covers ha hh hm
      exact ⟨r, List.mem_append.mpr (.inl hr), hh⟩
    · obtain ⟨r, hr, hh⟩ := ih hb ⟨q, hq, hh⟩
      exact ⟨r, List.mem_append.mpr (.inr hr), hh⟩

theorem retain_mem {n : Nat} {negative : Bool} {kind : Kind} {parts ps : List (Part E)}
    (h : retain n negative kind parts = .ok ps) {r : Part E} (hr : r ∈ ps) :
    ∃ p ∈ parts, ∃ (a : List (Part E)), retainPart n negative kind p = .ok a ∧ r ∈ a := by
  induction parts generalizing ps with
  | nil => simp only [retain] at h; injection h with h; subst h; cases hr
  | cons p qs ih =>
    obtain ⟨a, b, ha, hb, rfl⟩ := retain_cons h
    rcases List.mem_append.mp hr with hr | hr
    · exact ⟨p, by simp, a, ha, hr⟩
    · obtain ⟨q, hq, rest⟩ := ih hb hr
      exact ⟨q, by simp [hq], rest⟩

theorem retain_inside {n : Nat} {negative : Bool} {kind : Kind} {parts ps : List (Part E)}
    (h : retain n negative kind parts = .ok ps) {v : Val V} (hv : Has item vars isOther ps v) :
    Has item vars isOther parts v := by
  obtain ⟨r, hr, hh⟩ := hv
  obtain ⟨p, hp, a, ha, hra⟩ := retain_mem h hr
  exact ⟨p, hp, retainPart_inside ha ⟨r, hra, hh⟩⟩

end

theorem narrowTuple_error_iff {E : Type} {n : Nat} {a : Args E} {negative : Bool} {kind : Kind}
    {e : Panic} : narrowTuple n a negative kind = .error e ↔
      ∃ (b : List E) (m : E) (c : List E) (l : Nat), a = .unpack b m c ∧
        lowerThan n kind = (some l, !negative) ∧ l ≤ maxPrecise ∧ l < b.length + c.length := by
  cases e
  cases a with
  | fixed ts =>
    simp only [narrowTuple]
    constructor
    · intro h; split at h <;> cases h
    · rintro ⟨b, m, c, l, h, _⟩; cases h
  | arbitrary t =>
    constructor
    · intro h
      simp only [narrowTuple] at h
      repeat' split at h
      all_goals cases h
    · rintro ⟨b, m, c, l, h, _⟩; cases h
  | typeVarTuple b m c =>
    constructor
    · intro h
      simp only [narrowTuple] at h
      repeat' split at h
      all_goals cases h
    · rintro ⟨b, m, c, l, h, _⟩; cases h
  | unpack b m c =>
    rcases hl : lowerThan n kind with ⟨l, invert⟩
    cases l with
    | none =>
      obtain ⟨rfl, rfl⟩ := lowerThan_none hl
      constructor
      · intro h
        simp only [narrowTuple, hl] at h
        split at h
        · cases h
        · rename_i hmin
          split at h
          · cases h
          · split at h
            · cases h
            · rename_i hn
              have hn : negative = false := by simpa using hn
              subst hn
              have : b.length + c.length ≤ n := by
                simp only [Option.getD_none, and_true] at hmin; omega
              rw [checkedSub, if_pos this] at h
              cases h
      · rintro ⟨_, _, _, l, _, h, _⟩; cases h
    | some l =>
      constructor
      · intro h
        simp only [narrowTuple, hl, Option.getD_some] at h
        split at h
        · cases h
        · rename_i hmin
          split at h
          · cases h
          · rename_i hle
            have hlt : l < b.length + c.length := by
              refine Nat.lt_of_not_le fun hge => ?_
              rw [checkedSub, if_pos hge] at h
              split at h <;> cases h
            refine ⟨b, m, c, l, rfl, ?_, Nat.le_of_not_lt hle, hlt⟩
            have : invert ≠ negative := fun hi => hmin ⟨by omega, hi⟩
            cases invert <;> cases negative <;> simp at this ⊢
      · rintro ⟨b', m', c', l', h, hi, hle, hlt⟩
        injection h with h1 h2 h3
        subst h1; subst h2; subst h3
        injection hi with h1 h2
        injection h1 with h1
        subst h1; subst h2
        simp only [narrowTuple, hl, Option.getD_some]
        rw [if_neg (by cases negative <;> simp), if_neg (by omega)]
        rw [if_neg (by cases negative <;> simp), checkedSub, if_neg (by omega)]
        rfl

theorem retainPart_error_iff {E : Type} {n : Nat} {p : Part E} {negative : Bool} {kind : Kind}
    {e : Panic} : retainPart n negative kind p = .error e ↔
      ∃ (b : List E) (m : E) (c : List E) (l : Nat), p = .tuple (.unpack b m c) ∧
        lowerThan n kind = (some l, !negative) ∧ l ≤ maxPrecise ∧ l < b.length + c.length := by
  cases p with
  | tuple a =>
    simp only [retainPart]
    cases hn : narrowTuple n a negative kind with
    | error e' =>
      obtain ⟨b, m, c, l, rfl, rest⟩ := narrowTuple_error_iff.mp hn
      cases e; cases e'
      exact ⟨fun _ => ⟨b, m, c, l, rfl, rest⟩, fun _ => rfl⟩
    | ok r =>
      constructor
      · intro h; cases r <;> cases h
      · rintro ⟨b, m, c, l, h, rest⟩
        injection h with h
        have := (narrowTuple_error_iff (e := e)).mpr ⟨b, m, c, l, h, rest⟩
        rw [this] at hn; cases hn
  | namedTuple fs =>
    constructor
    · intro h; simp only [retainPart] at h; split at h <;> cases h
    · rintro ⟨b, m, c, l, h, _⟩; cases h
  | cls id base =>
    constructor
    · intro h; cases base <;> simp only [retainPart] at h
      · cases h
      · split at h <;> cases h
    · rintro ⟨b, m, c, l, h, _⟩; cases h
  | other id =>
    constructor
    · intro h; cases h
    · rintro ⟨b, m, c, l, h, _⟩; cases h

theorem retain_error_iff {E : Type} {n : Nat} {parts : List (Part E)} {negative : Bool}
    {kind : Kind} : retain n negative kind parts = .error .underflow ↔
      ∃ p ∈ parts, retainPart n negative kind p = .error .underflow := by
  induction parts with
  | nil => simp [retain]
  | cons p ps ih =>
    simp only [retain]
    cases h1 : retainPart n negative kind p with
    | error e => cases e; exact ⟨fun _ => ⟨p, by simp, h1⟩, fun _ => rfl⟩
    | ok a =>
      cases h2 : retain n negative kind ps with
      | error e =>
        cases e
        obtain ⟨q, hq, hh⟩ := ih.mp h2
        exact ⟨fun _ => ⟨q, by simp [hq], hh⟩, fun _ => rfl⟩
      | ok b =>
        constructor
        · intro h; cases h
        · rintro ⟨q, hq, hh⟩
          rcases List.mem_cons.mp hq with rfl | hq
          · rw [h1] at hh; cases hh
          · have := ih.mpr ⟨q, hq, hh⟩
            rw [this] at h2; cases h2

theorem narrowLen_error_iff {E : Type} {n : Int} {parts : List (Part E)} {kind : Kind} :
    narrowLen parts n kind = .error .underflow ↔
      0 ≤ n ∧ ∃ (b : List E) (m : E) (c : List E) (l : Nat) (i : Bool),
        .tuple (.unpack b m c) ∈ parts ∧
        lowerThan n.toNat kind = (some l, i) ∧ l ≤ maxPrecise ∧ l < b.length + c.length := by
  unfold narrowLen
  split
  · constructor
    · intro h; cases h
    · rintro ⟨h, _⟩; omega
  · rename_i hn
    have key : (∃ (b : List E) (m : E) (c : List E) (l : Nat) (i : Bool),
        .tuple (.unpack b m c) ∈ parts ∧
        lowerThan n.toNat kind = (some l, i) ∧ l ≤ maxPrecise ∧ l < b.length + c.length) ↔
        (retain n.toNat false kind parts = .error .underflow ∨
          retain n.toNat true kind parts = .error .underflow) := by
      rw [retain_error_iff, retain_error_iff]
      constructor
      · rintro ⟨b, m, c, l, i, hm, hl, rest⟩
        cases i with
        | true => exact .inl ⟨_, hm, retainPart_error_iff.mpr ⟨b, m, c, l, rfl, hl, rest⟩⟩
        | false => exact .inr ⟨_, hm, retainPart_error_iff.mpr ⟨b, m, c, l, rfl, hl, rest⟩⟩
      · rintro (⟨p, hp, h⟩ | ⟨p, hp, h⟩) <;>
        · obtain ⟨b, m, c, l, rfl, hl, rest⟩ := retainPart_error_iff.mp h
          exact ⟨b, m, c, l, _, hp, hl, rest⟩
    rw [key]
    cases h1 : retain n.toNat false kind parts with
    | error e => cases e; exact ⟨fun _ => ⟨by omega, .inl rfl⟩, fun _ => rfl⟩
    | ok a =>
      cases h2 : retain n.toNat true kind parts with
      | error e => cases e; exact ⟨fun _ => ⟨by omega, .inr rfl⟩, fun _ => rfl⟩
      | ok b =>
        constructor
        · intro h; cases h
        · rintro ⟨_, h | h⟩ <;> cases h

theorem guard_error {E : Type} {parts : List (Part E)} {op : Operator} {n : Int}
    {swapped : Bool} : guard parts op n swapped = .error .underflow ↔
      narrowLen parts n (if swapped then (Kind.fromOperand op).invert
        else Kind.fromOperand op) = .error .underflow := by
  simp only [guard]
  generalize (if swapped then (Kind.fromOperand op).invert else Kind.fromOperand op) = kind
  cases h : narrowLen parts n kind with
  | error e => cases e; exact ⟨fun _ => rfl, fun _ => rfl⟩
  | ok r =>
    constructor
    · intro hh
      cases r with
      | none => cases hh
      | some tf =>
        have hh : (if op = .ne then (Except.ok (some (tf.2, tf.1)) : Except Panic _)
              else .ok (some (tf.1, tf.2))) = .error .underflow := hh
        split at hh <;> cases hh
    · intro hh; cases hh

theorem guard_cases {E : Type} {parts t f : List (Part E)} {op : Operator} {n : Int}
    {swapped : Bool} (h : guard parts op n swapped = .ok (some (t, f))) :
    ∃ (m : Nat), n = m ∧
      retain m (decide (op = .ne)) (if swapped then (Kind.fromOperand op).invert
        else Kind.fromOperand op) parts = .ok t ∧
      retain m (!decide (op = .ne)) (if swapped then (Kind.fromOperand op).invert
        else Kind.fromOperand op) parts = .ok f := by
  simp only [guard] at h
  generalize (if swapped then (Kind.fromOperand op).invert else Kind.fromOperand op) = kind at h ⊢
  unfold narrowLen at h
  split at h
  · cases h
  · rename_i hn
    refine ⟨n.toNat, by omega, ?_⟩
    cases h1 : retain n.toNat false kind parts with
    | error e => rw [h1] at h; cases h
    | ok a =>
      cases h2 : retain n.toNat true kind parts with
      | error e => rw [h1, h2] at h; cases h
      | ok b =>
        rw [h1, h2] at h
        by_cases hop : op = .ne
        · subst hop
          injection h with h; injection h with h; injection h with h h'
          subst h; subst h'
          exact ⟨h2, h1⟩
        · have h : (if op = .ne then (Except.ok (some (b, a)) : Except Panic _)
              else .ok (some (a, b))) = .ok (some (t, f)) := h
          rw [if_neg hop] at h
          injection h with h; injection h with h; injection h with h h'
          subst h; subst h'
          rw [decide_eq_false hop]
          exact ⟨h1, h2⟩

/-- `matches_fixed_len_tuple_len` is the comparison of the source. -/
theorem matches_test {op : Operator} {n len : Nat} {swapped : Bool} :
    (matchesLen len n (if swapped then (Kind.fromOperand op).invert else Kind.fromOperand op)
        = !(decide (op = .ne))) ↔ Test op n swapped len := by
  cases op <;> cases swapped <;>
    simp [Kind.fromOperand, Kind.invert, matchesLen, Test, Operator.Holds] <;> omega

end Verif.Len
