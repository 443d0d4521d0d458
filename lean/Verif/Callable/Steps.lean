import Verif.Callable.Calls

/-! # One step of the comparison, seen from the calls -/

namespace Verif.Callable

open Verif.Call Verif.Call.Spec Verif.Callable.Spec

variable {α τ : Type}

/-- `Usable` for calls without positional arguments. -/
def Good (α : Type) (ok : τ → τ → Bool) (ps1 ps2 : List (Param τ)) : Prop :=
  ∀ K : List (String × α), Acc0 ps1 K →
    Acc0 ps2 K ∧ ∀ q v, Arr0 ps2 K q v → ∃ p, Arr0 ps1 K p v ∧ ok p.ty q.ty = true

/-- A parameter that does not matter for named arguments. -/
def Idle (x : Param τ) : Prop := x.kind = .star ∨ (x.kind = .posOnly ∧ x.hasDefault = true)

theorem idle_not_named {x : Param τ} (h : Idle x) {n : String} : ¬ named x n := by
  rcases h with h | h
  · exact not_named_star h
  · exact not_named_posOnly h.1

theorem idle_not_double {x : Param τ} (h : Idle x) : x.kind ≠ .starStar := by
  rcases h with h | h
  · simp [h]
  · simp [h.1]

theorem idle_filled {x : Param τ} (h : Idle x) : x.kind ≠ .star → x.hasDefault = false → False := by
  rcases h with h | h
  · exact fun h' => absurd h h'
  · intro _ h'; simp [h.2] at h'

/-- The arguments with other names. -/
def others (n : String) (K : List (String × α)) : List (String × α) := K.filter fun e => e.1 ≠ n

theorem mem_others {n m : String} {v : α} {K : List (String × α)} :
    (m, v) ∈ others n K ↔ (m, v) ∈ K ∧ m ≠ n := by simp [others]

theorem mem_names_others {n m : String} {K : List (String × α)} :
    m ∈ (others n K).map Prod.fst ↔ m ∈ K.map Prod.fst ∧ m ≠ n := by
  simp only [List.mem_map, Prod.exists, exists_and_right, exists_eq_right, mem_others]

theorem nodup_others {n : String} {K : List (String × α)} (h : (K.map Prod.fst).Nodup) :
    ((others n K).map Prod.fst).Nodup :=
  h.sublist (List.filter_sublist.map _)

/-- The rest of `params1` gets the arguments with other names. -/
theorem acc0_rest {p : Param τ} {r1 : List (Param τ)} {n : String} {K : List (String × α)} (hp : named p n)
    (hd : ∀ x ∈ r1, ¬ named x n) (h : Acc0 (p :: r1) K) : Acc0 r1 (others n K) := by
  refine ⟨nodup_others h.nodup, ?_, ?_⟩
  · intro m hm
    obtain ⟨hm, hne⟩ := mem_names_others.mp hm
    rcases h.known m hm with ⟨x, hx, hk⟩ | ⟨x, hx, hk⟩
    · rcases List.mem_cons.mp hx with rfl | hx
      · exact absurd (named_inj hk hp) hne
      · exact .inl ⟨x, hx, hk⟩
    · rcases List.mem_cons.mp hx with rfl | hx
      · exact absurd hp (not_named_double hk)
      · exact .inr ⟨x, hx, hk⟩
  · intro x hx h1 h2 h3
    obtain ⟨m, v, hm, hv⟩ := h.filled x (List.mem_cons_of_mem _ hx) h1 h2 h3
    refine ⟨m, v, hm, mem_others.mpr ⟨hv, ?_⟩⟩
    rintro rfl
    exact hd x hx hm

theorem arr0_rest {p x : Param τ} {r1 : List (Param τ)} {n : String} {K : List (String × α)} {v : α} (hp : named p n)
    (h : Arr0 r1 (others n K) x v) : Arr0 (p :: r1) K x v := by
  obtain ⟨hx, h⟩ := h
  refine ⟨List.mem_cons_of_mem _ hx, ?_⟩
  rcases h with ⟨m, hm, hv⟩ | ⟨hk, m, hno, hv⟩
  · exact .inl ⟨m, hm, (mem_others.mp hv).1⟩
  · refine .inr ⟨hk, m, ?_, (mem_others.mp hv).1⟩
    intro y hy
    rcases List.mem_cons.mp hy with rfl | hy
    · intro hm; exact (mem_others.mp hv).2 (named_inj hm hp)
    · exact hno y hy

theorem arr0_head {p : Param τ} {r1 : List (Param τ)} {n : String} {K : List (String × α)} {v : α} (hp : named p n)
    (hv : (n, v) ∈ K) : Arr0 (p :: r1) K p v := ⟨by simp, .inl ⟨n, hp, hv⟩⟩

/-- `p` and `q` have the same name, `q` is taken out of `u`. -/
theorem step_named {ok : τ → τ → Bool} {p q : Param τ} {r1 u u' : List (Param τ)} {n : String}
    (hp : named p n) (hd1 : ∀ x ∈ r1, ¬ named x n) (hq : named q n) (hqu : q ∈ u) (huu : ∀ x ∈ u', x ∈ u)
    (hu : ∀ x ∈ u, x = q ∨ x ∈ u' ∨ Idle x) (hd2 : ∀ x ∈ u', ¬ named x n)
    (hok : ok p.ty q.ty = true) (hdef : p.hasDefault = true → q.hasDefault = true) (ih : Good α ok r1 u') :
    Good α ok (p :: r1) u := by
  intro K h
  obtain ⟨ha, hr⟩ := ih (others n K) (acc0_rest hp hd1 h)
  refine ⟨⟨h.nodup, ?_, ?_⟩, ?_⟩
  · intro m hm
    by_cases hmn : m = n
    · subst hmn; exact .inl ⟨q, hqu, hq⟩
    · rcases ha.known m (mem_names_others.mpr ⟨hm, hmn⟩) with ⟨x, hx, hk⟩ | ⟨x, hx, hk⟩
      · exact .inl ⟨x, huu x hx, hk⟩
      · exact .inr ⟨x, huu x hx, hk⟩
  · intro x hx h1 h2 h3
    rcases hu x hx with rfl | hx' | hi
    · have hpd : p.hasDefault = false := by
        cases hh : p.hasDefault with
        | false => rfl
        | true => rw [hdef hh] at h3; simp at h3
      obtain ⟨m, v, hm, hv⟩ := h.filled p (by simp) (fun hk => not_named_star hk hp)
        (fun hk => not_named_double hk hp) hpd
      rw [named_inj hm hp] at hv
      exact ⟨n, v, hq, hv⟩
    · obtain ⟨m, v, hm, hv⟩ := ha.filled x hx' h1 h2 h3
      exact ⟨m, v, hm, (mem_others.mp hv).1⟩
    · exact (idle_filled hi h1 h3).elim
  · rintro x v ⟨hx, hxv⟩
    rcases hxv with ⟨m, hm, hv⟩ | ⟨hk, m, hno, hv⟩
    · rcases hu x hx with rfl | hx' | hi
      · rw [named_inj hm hq] at hv
        exact ⟨p, arr0_head hp hv, hok⟩
      · have hmn : m ≠ n := by rintro rfl; exact hd2 x hx' hm
        obtain ⟨y, hy, hyt⟩ := hr x v ⟨hx', .inl ⟨m, hm, mem_others.mpr ⟨hv, hmn⟩⟩⟩
        exact ⟨y, arr0_rest hp hy, hyt⟩
      · exact absurd hm (idle_not_named hi)
    · rcases hu x hx with rfl | hx' | hi
      · exact absurd hq (not_named_double hk)
      · have hmn : m ≠ n := by rintro rfl; exact hno q hqu hq
        obtain ⟨y, hy, hyt⟩ := hr x v ⟨hx', .inr ⟨hk, m, fun z hz => hno z (huu z hz), mem_others.mpr ⟨hv, hmn⟩⟩⟩
        exact ⟨y, arr0_rest hp hy, hyt⟩
      · exact absurd hk (idle_not_double hi)

/-- The argument for `p` goes into `**kwargs`, which may stay. -/
theorem step_double {ok : τ → τ → Bool} {p q : Param τ} {r1 u u' : List (Param τ)} {n : String}
    (hp : named p n) (hd1 : ∀ x ∈ r1, ¬ named x n) (hq : q.kind = .starStar) (hqu : q ∈ u) (huu : ∀ x ∈ u', x ∈ u)
    (hu : ∀ x ∈ u, x = q ∨ x ∈ u' ∨ Idle x) (huq : ∀ x ∈ u, x.kind = .starStar → x = q)
    (hd2 : ∀ x ∈ u, ¬ named x n) (hok : ok p.ty q.ty = true) (ih : Good α ok r1 u') :
    Good α ok (p :: r1) u := by
  intro K h
  obtain ⟨ha, hr⟩ := ih (others n K) (acc0_rest hp hd1 h)
  refine ⟨⟨h.nodup, fun _ _ => .inr ⟨q, hqu, hq⟩, ?_⟩, ?_⟩
  · intro x hx h1 h2 h3
    rcases hu x hx with rfl | hx' | hi
    · exact absurd hq h2
    · obtain ⟨m, v, hm, hv⟩ := ha.filled x hx' h1 h2 h3
      exact ⟨m, v, hm, (mem_others.mp hv).1⟩
    · exact (idle_filled hi h1 h3).elim
  · rintro x v ⟨hx, hxv⟩
    rcases hxv with ⟨m, hm, hv⟩ | ⟨hk, m, hno, hv⟩
    · have hmn : m ≠ n := by rintro rfl; exact hd2 x hx hm
      rcases hu x hx with rfl | hx' | hi
      · exact absurd hm (not_named_double hq)
      · obtain ⟨y, hy, hyt⟩ := hr x v ⟨hx', .inl ⟨m, hm, mem_others.mpr ⟨hv, hmn⟩⟩⟩
        exact ⟨y, arr0_rest hp hy, hyt⟩
      · exact absurd hm (idle_not_named hi)
    · obtain rfl := huq x hx hk
      by_cases hmn : m = n
      · subst hmn; exact ⟨p, arr0_head hp hv, hok⟩
      · have hv' := mem_others.mpr ⟨hv, hmn⟩
        rcases ha.known m (List.mem_map_of_mem hv') with ⟨y, hy, hym⟩ | ⟨y, hy, hyk⟩
        · exact absurd hym (hno y (huu y hy))
        · obtain rfl := huq y (huu y hy) hyk
          obtain ⟨z, hz, hzt⟩ := hr _ v ⟨hy, .inr ⟨hk, m, fun z hz => hno z (huu z hz), hv'⟩⟩
          exact ⟨z, arr0_rest hp hz, hzt⟩

/-- The argument for `p` goes into `q`, which stays. -/
theorem step_add {ok : τ → τ → Bool} {p q : Param τ} {r1 u : List (Param τ)} {n : String}
    (hp : named p n) (hd1 : ∀ x ∈ r1, ¬ named x n) (hq : named q n) (hqu : q ∈ u)
    (hd2 : ∀ x ∈ u, named x n → x = q) (hok : ok p.ty q.ty = true) (ih : Good α ok r1 u) :
    Good α ok (p :: r1) u := by
  intro K h
  obtain ⟨ha, hr⟩ := ih (others n K) (acc0_rest hp hd1 h)
  refine ⟨⟨h.nodup, ?_, ?_⟩, ?_⟩
  · intro m hm
    by_cases hmn : m = n
    · subst hmn; exact .inl ⟨q, hqu, hq⟩
    · exact ha.known m (mem_names_others.mpr ⟨hm, hmn⟩)
  · intro x hx h1 h2 h3
    obtain ⟨m, v, hm, hv⟩ := ha.filled x hx h1 h2 h3
    exact ⟨m, v, hm, (mem_others.mp hv).1⟩
  · rintro x v ⟨hx, hxv⟩
    rcases hxv with ⟨m, hm, hv⟩ | ⟨hk, m, hno, hv⟩
    · by_cases hmn : m = n
      · subst hmn
        obtain rfl := hd2 x hx hm
        exact ⟨p, arr0_head hp hv, hok⟩
      · obtain ⟨y, hy, hyt⟩ := hr x v ⟨hx, .inl ⟨m, hm, mem_others.mpr ⟨hv, hmn⟩⟩⟩
        exact ⟨y, arr0_rest hp hy, hyt⟩
    · have hmn : m ≠ n := by rintro rfl; exact hno q hqu hq
      obtain ⟨y, hy, hyt⟩ := hr x v ⟨hx, .inr ⟨hk, m, hno, mem_others.mpr ⟨hv, hmn⟩⟩⟩
      exact ⟨y, arr0_rest hp hy, hyt⟩

/-- A positional-only parameter that is not given. -/
theorem good_posOnly {ok : τ → τ → Bool} {p : Param τ} {r1 u : List (Param τ)} (hp : p.kind = .posOnly)
    (ih : Good α ok r1 u) : Good α ok (p :: r1) u := by
  intro K h
  have h' : Acc0 r1 K := by
    refine ⟨h.nodup, ?_, fun x hx => h.filled x (List.mem_cons_of_mem _ hx)⟩
    intro m hm
    rcases h.known m hm with ⟨x, hx, hk⟩ | ⟨x, hx, hk⟩
    · rcases List.mem_cons.mp hx with rfl | hx
      · exact absurd hk (not_named_posOnly hp)
      · exact .inl ⟨x, hx, hk⟩
    · rcases List.mem_cons.mp hx with rfl | hx
      · simp [hp] at hk
      · exact .inr ⟨x, hx, hk⟩
  obtain ⟨ha, hr⟩ := ih K h'
  refine ⟨ha, fun q v hq => ?_⟩
  obtain ⟨y, ⟨hy, hyv⟩, hyt⟩ := hr q v hq
  refine ⟨y, ⟨List.mem_cons_of_mem _ hy, ?_⟩, hyt⟩
  rcases hyv with hyv | ⟨hk, m, hno, hv⟩
  · exact .inl hyv
  · refine .inr ⟨hk, m, ?_, hv⟩
    intro z hz
    rcases List.mem_cons.mp hz with rfl | hz
    · exact not_named_posOnly hp
    · exact hno z hz

/-- A positional-only parameter that is not given stands against one that may have a name. -/
theorem step_posOnly {ok : τ → τ → Bool} {p q : Param τ} {r1 u : List (Param τ)} (hp : p.kind = .posOnly)
    (hq : positional q) (hdef : p.hasDefault = true → q.hasDefault = true)
    (hno : ∀ n, named q n → (∀ x ∈ r1, ¬ named x n) ∧ ∀ x ∈ r1, x.kind ≠ .starStar)
    (ih : Good α ok r1 u) : Good α ok (p :: r1) (q :: u) := by
  intro K h
  obtain ⟨ha, hr⟩ := good_posOnly hp ih K h
  have hpd : p.hasDefault = true := by
    cases hh : p.hasDefault with
    | true => rfl
    | false =>
      obtain ⟨m, v, hm, -⟩ := h.filled p (by simp) (by simp [hp]) (by simp [hp]) hh
      exact absurd hm (not_named_posOnly hp)
  have hK : ∀ n, named q n → n ∉ K.map Prod.fst := by
    intro n hn hm
    rcases h.known n hm with ⟨x, hx, hk⟩ | ⟨x, hx, hk⟩
    · rcases List.mem_cons.mp hx with rfl | hx
      · exact not_named_posOnly hp hk
      · exact (hno n hn).1 x hx hk
    · rcases List.mem_cons.mp hx with rfl | hx
      · simp [hp] at hk
      · exact (hno n hn).2 x hx hk
  refine ⟨⟨h.nodup, ?_, ?_⟩, ?_⟩
  · intro m hm
    rcases ha.known m hm with ⟨x, hx, hk⟩ | ⟨x, hx, hk⟩
    · exact .inl ⟨x, List.mem_cons_of_mem _ hx, hk⟩
    · exact .inr ⟨x, List.mem_cons_of_mem _ hx, hk⟩
  · intro x hx h1 h2 h3
    rcases List.mem_cons.mp hx with rfl | hx
    · rw [hdef hpd] at h3; simp at h3
    · exact ha.filled x hx h1 h2 h3
  · rintro x v ⟨hx, hxv⟩
    rcases List.mem_cons.mp hx with rfl | hx
    · rcases hxv with ⟨m, hm, hv⟩ | ⟨hk, -⟩
      · exact absurd (List.mem_map_of_mem hv) (hK m hm)
      · exact absurd hk (positional_cases hq).2
    · apply hr x v ⟨hx, ?_⟩
      rcases hxv with hm | ⟨hk, m, hno', hv⟩
      · exact .inl hm
      · exact .inr ⟨hk, m, fun z hz => hno' z (List.mem_cons_of_mem _ hz), hv⟩

/-- Both sides end: what is left of the second one has defaults. -/
theorem good_nil {ok : τ → τ → Bool} {u : List (Param τ)}
    (hu : ∀ x ∈ u, x.hasDefault = true ∨ x.kind = .star ∨ x.kind = .starStar) : Good α ok [] u := by
  intro K h
  have hK : K = [] := by
    cases K with
    | nil => rfl
    | cons e K =>
      rcases h.known e.1 (by simp) with ⟨x, hx, -⟩ | ⟨x, hx, -⟩ <;> simp at hx
  subst hK
  refine ⟨⟨by simp, by simp, ?_⟩, ?_⟩
  · intro x hx h1 h2 h3
    rcases hu x hx with h | h | h
    · rw [h] at h3; simp at h3
    · exact absurd h h1
    · exact absurd h h2
  · rintro x v ⟨-, ⟨m, -, hv⟩ | ⟨-, m, -, hv⟩⟩ <;> simp at hv

/-- `**kwargs` on both sides. -/
theorem good_doubles {ok : τ → τ → Bool} {p q : Param τ} {u : List (Param τ)} (hp : p.kind = .starStar)
    (hqu : q ∈ u) (hq : q.kind = .starStar)
    (hu : ∀ x ∈ u, Idle x ∨ (x.kind = .starStar ∨ x.hasDefault = true) ∧ ok p.ty x.ty = true) :
    Good α ok [p] u := by
  intro K h
  refine ⟨⟨h.nodup, fun _ _ => .inr ⟨q, hqu, hq⟩, ?_⟩, ?_⟩
  · intro x hx h1 h2 h3
    rcases hu x hx with hi | ⟨h | h, -⟩
    · exact (idle_filled hi h1 h3).elim
    · exact absurd h h2
    · rw [h] at h3; simp at h3
  · rintro x v ⟨hx, hxv⟩
    have key : ∃ m, (m, v) ∈ K := by
      rcases hxv with ⟨m, -, hv⟩ | ⟨-, m, -, hv⟩ <;> exact ⟨m, hv⟩
    obtain ⟨m, hv⟩ := key
    rcases hu x hx with hi | ⟨-, ht⟩
    · rcases hxv with ⟨m, hm, -⟩ | ⟨hk, -⟩
      · exact absurd hm (idle_not_named hi)
      · exact absurd hk (idle_not_double hi)
    · refine ⟨p, ⟨by simp, .inr ⟨hp, m, ?_, hv⟩⟩, ht⟩
      simp only [List.mem_singleton, forall_eq]
      exact not_named_double hp

/-! ## With positional arguments -/

theorem usable_of_good {ok : τ → τ → Bool} {r1 u : List (Param τ)} (hb : Behind r1) (h : Good α ok r1 u) :
    Usable α ok r1 u := by
  intro P K ha
  obtain rfl := accepts_behind hb ha
  obtain ⟨h1, h2⟩ := h K (accepts_nil.mp ha)
  refine ⟨accepts_nil.mpr h1, fun q v hq => ?_⟩
  obtain ⟨p, hp, ht⟩ := h2 q v (reaches_nil.mp hq)
  exact ⟨p, reaches_nil.mpr hp, ht⟩

theorem good_of_usable {ok : τ → τ → Bool} {r1 u : List (Param τ)} (h : Usable α ok r1 u) : Good α ok r1 u := by
  intro K ha
  obtain ⟨h1, h2⟩ := h [] K (accepts_nil.mpr ha)
  refine ⟨accepts_nil.mp h1, fun q v hq => ?_⟩
  obtain ⟨p, hp, ht⟩ := h2 q v (reaches_nil.mpr hq)
  exact ⟨p, reaches_nil.mp hp, ht⟩

/-- It is enough to look at calls with and without a positional argument for the first parameter. -/
theorem usable_cons {ok : τ → τ → Bool} {p : Param τ} {r1 u : List (Param τ)} (h0 : Good α ok (p :: r1) u)
    (h1 : ∀ (v : α) P K, Accepts (p :: r1) (v :: P) K →
      Accepts u (v :: P) K ∧ ∀ q w, Reaches u (v :: P) K q w →
        ∃ x, Reaches (p :: r1) (v :: P) K x w ∧ ok x.ty q.ty = true) :
    Usable α ok (p :: r1) u := by
  intro P K ha
  match P with
  | v :: P => exact h1 v P K ha
  | [] =>
    obtain ⟨h1, h2⟩ := h0 K (accepts_nil.mp ha)
    refine ⟨accepts_nil.mpr h1, fun q v hq => ?_⟩
    obtain ⟨p, hp, ht⟩ := h2 q v (reaches_nil.mp hq)
    exact ⟨p, reaches_nil.mpr hp, ht⟩

/-- Both first parameters take the positional argument. -/
theorem usable_both {ok : τ → τ → Bool} {p q : Param τ} {r1 u : List (Param τ)} (hp : positional p)
    (hq : positional q) (hok : ok p.ty q.ty = true)
    (hno : ∀ n, named q n → named p n ∨ (∀ x ∈ r1, ¬ named x n) ∧ ∀ x ∈ r1, x.kind ≠ .starStar)
    (h0 : Good α ok (p :: r1) (q :: u)) (ih : Usable α ok r1 u) : Usable α ok (p :: r1) (q :: u) := by
  refine usable_cons h0 fun v P K ha => ?_
  obtain ⟨ha, hpK⟩ := (accepts_cons hp).mp ha
  obtain ⟨h1, h2⟩ := ih P K ha
  have hqK : ∀ n, named q n → n ∉ K.map Prod.fst := by
    intro n hn hm
    rcases hno n hn with h | ⟨h, h'⟩
    · exact hpK n h hm
    · rcases ha.known n hm with ⟨x, hx, hk⟩ | ⟨x, hx, hk⟩
      · exact h x hx hk
      · exact h' x hx hk
  refine ⟨(accepts_cons hq).mpr ⟨h1, hqK⟩, fun x w hx => ?_⟩
  rcases (reaches_cons hq hqK).mp hx with ⟨rfl, rfl⟩ | hx
  · exact ⟨p, (reaches_cons hp hpK).mpr (.inl ⟨rfl, rfl⟩), hok⟩
  · obtain ⟨y, hy, ht⟩ := h2 x w hx
    exact ⟨y, (reaches_cons hp hpK).mpr (.inr hy), ht⟩

/-- `*args` takes the positional argument and stays. -/
theorem usable_into_star {ok : τ → τ → Bool} {p s : Param τ} {r1 u : List (Param τ)} (hp : positional p)
    (hs : s.kind = .star) (hb : Behind u) (hok : ok p.ty s.ty = true)
    (h0 : Good α ok (p :: r1) (s :: u)) (ih : Usable α ok r1 (s :: u)) : Usable α ok (p :: r1) (s :: u) := by
  refine usable_cons h0 fun v P K ha => ?_
  obtain ⟨ha, hpK⟩ := (accepts_cons hp).mp ha
  obtain ⟨h1, h2⟩ := ih P K ha
  refine ⟨(accepts_star hs hb).mpr ((accepts_star hs hb).mp h1), fun x w hx => ?_⟩
  rcases (reaches_star hs hb).mp hx with ⟨rfl, hw⟩ | hx
  · rcases List.mem_cons.mp hw with rfl | hw
    · exact ⟨p, (reaches_cons hp hpK).mpr (.inl ⟨rfl, rfl⟩), hok⟩
    · obtain ⟨y, hy, ht⟩ := h2 x w ((reaches_star hs hb).mpr (.inl ⟨rfl, hw⟩))
      exact ⟨y, (reaches_cons hp hpK).mpr (.inr hy), ht⟩
  · obtain ⟨y, hy, ht⟩ := h2 x w ((reaches_star hs hb).mpr (.inr hx))
    exact ⟨y, (reaches_cons hp hpK).mpr (.inr hy), ht⟩

/-- `*args` on both sides. -/
theorem usable_stars {ok : τ → τ → Bool} {s1 s2 : Param τ} {r1 u : List (Param τ)} (hs1 : s1.kind = .star)
    (hs2 : s2.kind = .star) (hb1 : Behind r1) (hb2 : Behind u) (hok : ok s1.ty s2.ty = true)
    (ih : Good α ok r1 u) : Usable α ok (s1 :: r1) (s2 :: u) := by
  intro P K ha
  obtain ⟨h1, h2⟩ := ih K ((accepts_star hs1 hb1).mp ha)
  refine ⟨(accepts_star hs2 hb2).mpr h1, fun x w hx => ?_⟩
  rcases (reaches_star hs2 hb2).mp hx with ⟨rfl, hw⟩ | hx
  · exact ⟨s1, (reaches_star hs1 hb1).mpr (.inl ⟨rfl, hw⟩), hok⟩
  · obtain ⟨y, hy, ht⟩ := h2 x w hx
    exact ⟨y, (reaches_star hs1 hb1).mpr (.inr hy), ht⟩

end Verif.Callable
