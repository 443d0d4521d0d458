import Verif.Union.Lemmas

/-!
# Union simplification loses nothing and adds nothing (C44)
-/

namespace Verif.Union

open Verif.Union.Spec

variable {T V : Type} [DecidableEq T] {w : World T} {D : T → V → Prop}

/-- C44: the simplified union has the values of the given types, whatever the types mean. -/
theorem simplify_sem (hS : Sound w D) (es : List (Entry T)) (v : V) :
    (∃ t ∈ (simplify w es).types, D t v) ↔ ∃ e ∈ es, D e.type v := by
  rw [simplify]
  cases hl : loop w ⟨[], [], false, false, false⟩ es with
  | error t =>
    obtain ⟨ho, e, he, rfl⟩ := loop_error es _ t hl
    simp only [Out.types, List.mem_singleton]
    exact ⟨fun _ => ⟨e, he, hS.object _ v ho⟩, fun _ => ⟨e.type, rfl, hS.object _ v ho⟩⟩
  | ok s =>
    have hI : Inv w D es s := by
      have h0 : Inv w D [] (⟨[], [], false, false, false⟩ : State T) :=
        ⟨fun v => by simp [Sem], List.Pairwise.nil, by simp, by simp, by simp⟩
      have := inv_loop hS es [] _ s h0 hl
      simpa using this
    have hmem : (∃ t ∈ (fromEntries w (finish w s)).types, D t v) ↔ Sem D (finish w s) v := by
      simp only [types_fromEntries, Sem]
      constructor
      · rintro ⟨t, ⟨e, he, rfl⟩, hd⟩; exact ⟨e, he, hd⟩
      · rintro ⟨e, he, hd⟩; exact ⟨e.type, ⟨e, he, rfl⟩, hd⟩
    simp only
    rw [hmem]
    have goal : Sem D (finish w s) v ↔ Sem D s.new v ∨ Sem D s.literals v := by
      simp only [finish]
      generalize hn1 : (if s.hadEnum = true then contractEnums w s.new else s.new) = new1
      have s1 : Sem D new1 v ↔ Sem D s.new v := by
        rw [← hn1]
        split
        · exact contractEnums_sem hS hI.once v
        · exact Iff.rfl
      generalize hn2 : (if (s.hadFalse && s.hadTrue) = true then contractBools w true new1 else new1) = new2
      have s2 : Sem D new2 v ∨ Sem D s.literals v ↔ Sem D new1 v ∨ Sem D s.literals v := by
        rw [← hn2]
        split
        · rename_i hb
          rw [Bool.and_eq_true] at hb
          obtain ⟨i1, i2⟩ := contractBools_sem hS v new1 true
          constructor
          · rintro (h | h)
            · rcases i1 h with h | h
              · exact .inl h
              · obtain ⟨t, ht, htb⟩ := hI.tru hb.2
                obtain ⟨f, hf, hfb⟩ := hI.fls hb.1
                have : Sem D es v := by
                  rcases hS.bool' _ _ v htb hfb h with h | h
                  · exact ⟨t, ht, h⟩
                  · exact ⟨f, hf, h⟩
                rw [s1]
                exact (hI.sem v).mpr this
            · exact .inr h
          · rintro (h | h)
            · rcases i2 h with h | h
              · exact .inl h
              · exact absurd h.1 (by decide)
            · exact .inr h
        · exact Iff.rfl
      rw [sem_append, ← s1, ← s2, or_comm]
      have sorted : ∀ ls : List (Entry T), Sem D (sortBy (fun e => (e.format : Int)) ls) v ↔ Sem D ls v := by
        intro ls
        simp only [Sem, mem_sortBy]
      rw [sorted]
      split
      · exact Iff.rfl
      · constructor
        · rintro (h | ⟨l, hl, hd⟩)
          · exact .inl h
          · exact .inr ⟨l, (List.mem_filter.mp hl).1, hd⟩
        · rintro (h | ⟨l, hl, hd⟩)
          · exact .inl h
          · by_cases hf : new2.any (fun e => decide (e.type = w.fallback l.type)) = true
            · rw [List.any_eq_true] at hf
              obtain ⟨e, he, hq⟩ := hf
              rw [decide_eq_true_eq] at hq
              exact .inl ⟨e, he, by rw [hq]; exact hS.fallback _ v (hI.lit l hl) hd⟩
            · exact .inr ⟨l, List.mem_filter.mpr ⟨hl, by simpa using hf⟩, hd⟩
    rw [goal]
    exact hI.sem v

/-! ### Where the members come from -/

theorem scan_mem {a : T} {es es' : List (Entry T)} (h : scan w a es = some es') : ∀ x ∈ es', x.type = a ∨ x ∈ es := by
  intro x hx
  rcases scan_shape a es es' h with rfl | ⟨pre, e, rest, rest', rfl, rfl, hsub⟩
  · exact .inr hx
  · rw [List.mem_append, List.mem_cons] at hx
    rcases hx with hx | rfl | hx
    · exact .inr (List.mem_append_left _ hx)
    · exact .inl rfl
    · exact .inr (List.mem_append_right _ (List.mem_cons_of_mem _ (hsub.subset hx)))

/-- All types of the state are among `ts`. -/
def From (ts : List T) (s : State T) : Prop := (∀ x ∈ s.new, x.type ∈ ts) ∧ ∀ x ∈ s.literals, x.type ∈ ts

theorem from_step {ts : List T} {s s' : State T} {e : Entry T} (h : From ts s) (he : e.type ∈ ts) (hs : step w s e = some s') : From ts s' := by
  have push : ∀ l : List (Entry T), (∀ x ∈ l, x.type ∈ ts) → ∀ x ∈ l ++ [e], x.type ∈ ts := by
    intro l hl x hx
    rw [List.mem_append, List.mem_singleton] at hx
    rcases hx with hx | rfl
    · exact hl x hx
    · exact he
  rw [step] at hs
  split at hs
  · split at hs
    · rw [Option.some.injEq] at hs; subst hs; exact h
    · rw [Option.some.injEq] at hs; subst hs
      exact ⟨h.1, push _ h.2⟩
  · split at hs
    · simp at hs
    · split at hs
      · rw [Option.some.injEq] at hs; subst hs
        rw [stepAny]
        split
        · exact h
        · split
          · exact h
          · exact ⟨push _ h.1, h.2⟩
      · rw [Option.some.injEq] at hs; subst hs
        rw [stepPlain]
        split
        · exact h
        · split
          · exact ⟨push _ h.1, h.2⟩
          · split
            · rename_i new hscan
              refine ⟨?_, h.2⟩
              intro x hx
              rcases scan_mem hscan x hx with h' | h'
              · rw [h']; exact he
              · exact h.1 x h'
            · obtain ⟨n1, n2⟩ := note_new (w := w) { s with new := s.new ++ [e] } e.type
              rw [From, n1, n2]
              exact ⟨push _ h.1, h.2⟩

theorem from_loop {ts : List T} : ∀ (es : List (Entry T)) (s s' : State T), From ts s → (∀ e ∈ es, e.type ∈ ts) → loop w s es = .ok s' → From ts s'
  | [], s, s', h, _, hl => by
    simp only [loop, Except.ok.injEq] at hl
    subst hl; exact h
  | e :: es, s, s', h, ht, hl => by
    rw [loop] at hl
    split at hl
    · simp at hl
    · rename_i s1 hs
      exact from_loop es s1 s' (from_step h (ht e (by simp)) hs) (fun x hx => ht x (by simp [hx])) hl

theorem contractBools_mem : ∀ (es : List (Entry T)) (first : Bool), ∀ x ∈ contractBools w first es, x ∈ es ∨ x.type = w.boolType
  | [], _, x, hx => by simp [contractBools] at hx
  | y :: es, first, x, hx => by
    rw [contractBools] at hx
    split at hx
    · split at hx
      · rw [List.mem_cons] at hx
        rcases hx with rfl | hx
        · exact .inr rfl
        · rcases contractBools_mem es _ x hx with h | h
          · exact .inl (List.mem_cons_of_mem _ h)
          · exact .inr h
      · rcases contractBools_mem es _ x hx with h | h
        · exact .inl (List.mem_cons_of_mem _ h)
        · exact .inr h
    · rw [List.mem_cons] at hx
      rcases hx with rfl | hx
      · exact .inl (by simp)
      · rcases contractBools_mem es _ x hx with h | h
        · exact .inl (List.mem_cons_of_mem _ h)
        · exact .inr h

/-- C44: a member of the simplified union is one of the given types, or `bool`, or the enum of a given enum member. -/
theorem simplify_stems (es : List (Entry T)) : ∀ t ∈ (simplify w es).types,
    (∃ e ∈ es, e.type = t) ∨ t = w.boolType ∨ ∃ n, t = w.enum n ∧ ∃ e ∈ es, ∃ i, w.member e.type = some (n, i) := by
  intro t ht
  rw [simplify] at ht
  cases hl : loop w ⟨[], [], false, false, false⟩ es with
  | error u =>
    rw [hl] at ht
    simp only [Out.types, List.mem_singleton] at ht
    subst ht
    obtain ⟨_, e, he, rfl⟩ := loop_error es _ _ hl
    exact .inl ⟨e, he, rfl⟩
  | ok s =>
    rw [hl] at ht
    simp only at ht
    rw [types_fromEntries] at ht
    obtain ⟨x, hx, rfl⟩ := ht
    have hF : From (es.map Entry.type) s :=
      from_loop es _ s ⟨by simp, by simp⟩ (fun e he => List.mem_map.mpr ⟨e, he, rfl⟩) hl
    have orig : ∀ y : Entry T, y.type ∈ es.map Entry.type → ∃ e ∈ es, e.type = y.type := by
      intro y hy
      rw [List.mem_map] at hy
      exact hy
    simp only [finish] at hx
    rw [List.mem_append, mem_sortBy] at hx
    rcases hx with hx | hx
    · have sub : ∀ (new : List (Entry T)), x ∈ (if new.isEmpty = true then s.literals
          else s.literals.filter fun l => !new.any fun e => decide (e.type = w.fallback l.type)) → x ∈ s.literals := by
        intro new hx
        split at hx
        · exact hx
        · exact (List.mem_filter.mp hx).1
      have : x ∈ s.literals := sub _ hx
      exact .inl (orig x (hF.2 x this))
    · have key : ∀ y ∈ (if s.hadEnum = true then contractEnums w s.new else s.new),
          (∃ e ∈ es, e.type = y.type) ∨ y.type = w.boolType ∨ ∃ n, y.type = w.enum n ∧ ∃ e ∈ es, ∃ i, w.member e.type = some (n, i) := by
        intro y hy
        split at hy
        · rw [contractEnums, List.mem_filterMap] at hy
          obtain ⟨z, hz, hc⟩ := hy
          obtain ⟨e0, he0, hez⟩ := orig z (hF.1 z hz)
          rw [contractMember] at hc
          split at hc
          · rename_i n i hm
            split at hc
            · split at hc
              · rw [Option.some.injEq] at hc
                subst hc
                exact .inr (.inr ⟨n, rfl, e0, he0, i, by rw [hez]; exact hm⟩)
              · simp at hc
            · rw [Option.some.injEq] at hc
              subst hc
              exact .inl ⟨e0, he0, hez⟩
          · rw [Option.some.injEq] at hc
            subst hc
            exact .inl ⟨e0, he0, hez⟩
        · exact .inl (orig y (hF.1 y hy))
      split at hx
      · rcases contractBools_mem _ _ x hx with h | h
        · exact key x h
        · exact .inr (.inl h)
      · exact key x hx

/-! ### No member is redundant -/

/-- Entries compared by subtyping are incomparable. -/
def Antichain (w : World T) (es : List (Entry T)) : Prop :=
  es.Pairwise fun x y => Plain w x.type → Plain w y.type → w.sup x.type y.type = false ∧ w.sup y.type x.type = false

/-- Incomparable with all entries. -/
def Apart (w : World T) (a : T) (es : List (Entry T)) : Prop :=
  ∀ x ∈ es, Plain w x.type → w.sup a x.type = false ∧ w.sup x.type a = false

theorem scan_antichain (hm : ∀ x y, mergeable w x y = false) (a : T) (ha : Plain w a) : ∀ (es : List (Entry T)),
    (scan w a es = none → Apart w a es) ∧
    ∀ es', scan w a es = some es' → es' = es ∨ ∃ pre e rest, es = pre ++ e :: rest ∧ Apart w a pre ∧ Plain w e.type ∧
      w.sup a e.type = true ∧ es' = pre ++ ⟨a, e.format⟩ :: rest.filter (!removable w a ·)
  | [] => ⟨fun _ x hx => by simp at hx, fun es' h => by simp [scan] at h⟩
  | e :: rest => by
    obtain ⟨i1, i2⟩ := scan_antichain hm a ha rest
    have rec' : (Plain w e.type → w.sup a e.type = false ∧ w.sup e.type a = false) → ((scan w a rest).map (e :: ·) = none → Apart w a (e :: rest)) ∧
        ∀ es', (scan w a rest).map (e :: ·) = some es' → es' = e :: rest ∨ ∃ pre e' r, e :: rest = pre ++ e' :: r ∧ Apart w a pre ∧
          Plain w e'.type ∧ w.sup a e'.type = true ∧ es' = pre ++ ⟨a, e'.format⟩ :: r.filter (!removable w a ·) := by
      intro hap
      constructor
      · intro h
        rw [Option.map_eq_none_iff] at h
        intro x hx
        rw [List.mem_cons] at hx
        rcases hx with rfl | hx
        · exact hap
        · exact i1 h x hx
      · intro es' h
        rw [Option.map_eq_some_iff] at h
        obtain ⟨r, hr, rfl⟩ := h
        rcases i2 r hr with rfl | ⟨pre, e', r', h1, h2, h3, h4, h5⟩
        · exact .inl rfl
        · refine .inr ⟨e :: pre, e', r', by rw [h1]; rfl, ?_, h3, h4, by rw [h5]; rfl⟩
          intro x hx
          rw [List.mem_cons] at hx
          rcases hx with rfl | hx
          · exact hap
          · exact h2 x hx
    rw [scan]
    split
    · rename_i hany
      rw [if_neg (by rw [hm]; decide)]
      exact rec' fun hp => by rw [hp.1] at hany; exact absurd hany (by decide)
    · split
      · rename_i hc
        rw [ha.2.1] at hc
        exact absurd hc (by decide)
      · split
        · rename_i hr
          exact rec' fun hp => by rw [hp.2.2] at hr; exact absurd hr (by decide)
        · split
          · rename_i hc
            split
            · refine ⟨by simp, ?_⟩
              intro es' h
              rw [Option.some.injEq] at h
              exact .inl h.symm
            · exact rec' fun hp => by rw [hp.2.1] at hc; exact absurd hc (by decide)
          · rename_i h1 _ h2 h3
            split
            · rename_i hsup
              refine ⟨by simp, ?_⟩
              intro es' h
              rw [Option.some.injEq] at h
              refine .inr ⟨[], e, rest, rfl, by intro x hx; simp at hx, ⟨?_, ?_, ?_⟩, hsup, h.symm⟩
              · simpa using h1
              · simpa using h3
              · simpa using h2
            · rename_i hs1
              split
              · refine ⟨by simp, ?_⟩
                intro es' h
                rw [Option.some.injEq] at h
                exact .inl h.symm
              · rename_i hs2
                exact rec' fun _ => ⟨by simpa using hs1, by simpa using hs2⟩

omit [DecidableEq T] in
theorem antichain_push {es : List (Entry T)} {e : Entry T} (h : Antichain w es)
    (ha : Plain w e.type → Apart w e.type es) : Antichain w (es ++ [e]) := by
  rw [Antichain, List.pairwise_append]
  refine ⟨h, List.pairwise_singleton _ _, ?_⟩
  intro x hx y hy hpx hpy
  rw [List.mem_singleton] at hy
  subst hy
  exact (ha hpy x hx hpx).symm

theorem antichain_step (hm : ∀ x y, mergeable w x y = false)
    (ht : ∀ x y z, w.sup x y = true → w.sup y z = true → w.sup x z = true)
    {s s' : State T} {e : Entry T} (h : Antichain w s.new) (hs : step w s e = some s') : Antichain w s'.new := by
  rw [step] at hs
  split at hs
  · split at hs <;> (rw [Option.some.injEq] at hs; subst hs; exact h)
  · split at hs
    · simp at hs
    · split at hs
      · rename_i hany
        rw [Option.some.injEq] at hs; subst hs
        rw [stepAny]
        split
        · exact h
        · split
          · exact h
          · exact antichain_push h fun hp => by rw [hp.1] at hany; exact absurd hany (by decide)
      · rename_i hany
        rw [Option.some.injEq] at hs; subst hs
        rw [stepPlain]
        split
        · exact h
        · split
          · rename_i hrec
            exact antichain_push h fun hp => by rw [hp.2.2] at hrec; exact absurd hrec (by decide)
          · rename_i hrec
            by_cases hcalc : w.calculating e.type = true
            · have key : ∀ l l', scan w e.type l = some l' → l' = l := by
                intro l
                induction l with
                | nil => intro l' h; simp [scan] at h
                | cons x l ih =>
                  intro l' h
                  rw [scan] at h
                  split at h
                  · rw [if_neg (by rw [hm]; decide), Option.map_eq_some_iff] at h
                    obtain ⟨r, hr, rfl⟩ := h
                    rw [ih r hr]
                  · first
                    | (rw [if_pos hcalc] at h; simp at h)
                    | simp at h
              split
              · rename_i new hscan
                rw [key _ _ hscan]
                exact h
              · rw [(note_new _ _).1]
                exact antichain_push h fun hp => by rw [hp.2.1] at hcalc; exact absurd hcalc (by decide)
            · have ha : Plain w e.type := ⟨by simpa using hany, by simpa using hcalc, by simpa using hrec⟩
              obtain ⟨i1, i2⟩ := scan_antichain hm e.type ha s.new
              split
              · rename_i new hscan
                simp only
                rcases i2 new hscan with rfl | ⟨pre, x, rest, h1, h2, h3, h4, rfl⟩
                · exact h
                · rw [h1] at h
                  rw [Antichain, List.pairwise_append, List.pairwise_cons] at h ⊢
                  obtain ⟨a1, ⟨a2, a3⟩, a4⟩ := h
                  refine ⟨a1, ⟨?_, a3.filter _⟩, ?_⟩
                  · intro y hy hp1 hp2
                    rw [List.mem_filter] at hy
                    simp only at hp1 ⊢
                    have hna : w.sup e.type y.type = false := by
                      have := hy.2
                      simp only [removable, hp2.1, hp2.2.1, hp2.2.2, Bool.not_and, Bool.or_self, Bool.not_false, Bool.not_true,
                        Bool.false_or] at this
                      simpa using this
                    refine ⟨hna, ?_⟩
                    by_contra hc
                    have hc' : w.sup y.type e.type = true := by simpa using hc
                    have := ht _ _ _ hc' h4
                    rw [(a2 y hy.1 h3 hp2).2] at this
                    exact absurd this (by decide)
                  · intro y hy z hz hp1 hp2
                    rw [List.mem_cons] at hz
                    rcases hz with rfl | hz
                    · exact (h2 y hy hp1).symm
                    · exact a4 y hy z (List.mem_cons_of_mem _ (List.mem_filter.mp hz).1) hp1 hp2
              · rename_i hscan
                rw [(note_new _ _).1]
                exact antichain_push h fun _ => i1 hscan

theorem antichain_loop (hm : ∀ x y, mergeable w x y = false)
    (ht : ∀ x y z, w.sup x y = true → w.sup y z = true → w.sup x z = true) :
    ∀ (es : List (Entry T)) (s s' : State T), Antichain w s.new → loop w s es = .ok s' → Antichain w s'.new
  | [], s, s', h, hl => by
    simp only [loop, Except.ok.injEq] at hl
    subst hl; exact h
  | e :: es, s, s', h, hl => by
    rw [loop] at hl
    split at hl
    · simp at hl
    · rename_i s1 hs
      exact antichain_loop hm ht es s1 s' (antichain_step hm ht h hs) hl

/-- The flags and literals are not touched by types without literals and enum members. -/
theorem quiet_loop : ∀ (es : List (Entry T)) (s s' : State T),
    (∀ e ∈ es, w.literal e.type = none ∧ w.member e.type = none ∧ w.boolLit e.type = none) → loop w s es = .ok s' →
    s'.literals = s.literals ∧ s'.hadEnum = s.hadEnum ∧ s'.hadTrue = s.hadTrue ∧ s'.hadFalse = s.hadFalse
  | [], s, s', _, hl => by
    simp only [loop, Except.ok.injEq] at hl
    subst hl; exact ⟨rfl, rfl, rfl, rfl⟩
  | e :: es, s, s', h, hl => by
    rw [loop] at hl
    split at hl
    · simp at hl
    · rename_i s1 hs
      obtain ⟨r1, r2, r3, r4⟩ := quiet_loop es s1 s' (fun x hx => h x (by simp [hx])) hl
      rw [r1, r2, r3, r4]
      obtain ⟨e1, e2, e3⟩ := h e (by simp)
      rw [step, if_neg (by rw [e1]; decide)] at hs
      split at hs
      · simp at hs
      · split at hs
        · rw [Option.some.injEq] at hs; subst hs
          rw [stepAny]
          split
          · exact ⟨rfl, rfl, rfl, rfl⟩
          · split <;> exact ⟨rfl, rfl, rfl, rfl⟩
        · rw [Option.some.injEq] at hs; subst hs
          rw [stepPlain]
          split
          · exact ⟨rfl, rfl, rfl, rfl⟩
          · split
            · exact ⟨rfl, rfl, rfl, rfl⟩
            · split
              · exact ⟨rfl, rfl, rfl, rfl⟩
              · rw [State.note, if_neg (by rw [e2]; decide), if_neg (by rw [e3]; decide), if_neg (by rw [e3]; decide)]
                exact ⟨rfl, rfl, rfl, rfl⟩

/-- C44: no member is a subtype of another.  Partial: without literals, enum members and classes with unknown type
parameters; types with `Any`, recursive aliases and types being calculated are not compared. -/
theorem simplify_antichain_partial (hm : ∀ x y, mergeable w x y = false)
    (ht : ∀ x y z, w.sup x y = true → w.sup y z = true → w.sup x z = true) (es : List (Entry T))
    (hq : ∀ e ∈ es, w.literal e.type = none ∧ w.member e.type = none ∧ w.boolLit e.type = none) :
    (simplify w es).types.Pairwise fun x y => Plain w x → Plain w y → w.sup x y = false ∧ w.sup y x = false := by
  rw [simplify]
  cases hl : loop w ⟨[], [], false, false, false⟩ es with
  | error u => exact List.pairwise_singleton _ _
  | ok s =>
    obtain ⟨q1, q2, q3, q4⟩ := quiet_loop es _ s hq hl
    have hA := antichain_loop hm ht es _ s (show Antichain w [] from List.Pairwise.nil) hl
    have hf : finish w s = s.new := by
      simp only [finish, q1, q2, q3, q4]
      simp [sortBy]
    simp only
    rw [hf]
    match hn : s.new with
    | [] => exact List.Pairwise.nil
    | [e] => exact List.pairwise_singleton _ _
    | a :: b :: rest =>
      rw [fromEntries.eq_def]
      simp only [Out.types]
      rw [List.pairwise_map]
      rw [hn] at hA
      refine List.Pairwise.perm hA (sortBy_perm _ _).symm ?_
      intro x y hxy hp1 hp2
      exact (hxy hp2 hp1).symm

/-- C44: a list of incomparable types is left as it is. -/
theorem simplify_fixed (es : List (Entry T))
    (hq : ∀ e ∈ es, w.literal e.type = none ∧ w.member e.type = none ∧ w.boolLit e.type = none ∧ w.isObject e.type = false ∧ Plain w e.type)
    (ha : es.Pairwise fun x y => x.type ≠ y.type ∧ w.sup x.type y.type = false ∧ w.sup y.type x.type = false) :
    simplify w es = fromEntries w es := by
  have scan_none : ∀ (a : T) (l : List (Entry T)), Plain w a → (∀ x ∈ l, Plain w x.type ∧ w.sup a x.type = false ∧ w.sup x.type a = false) →
      scan w a l = none := by
    intro a l hp
    induction l with
    | nil => intro _; rfl
    | cons x l ih =>
      intro h
      obtain ⟨⟨p1, p2, p3⟩, s1, s2⟩ := h x (by simp)
      rw [scan, if_neg (by rw [p1]; decide), if_neg (by rw [hp.2.1]; decide), if_neg (by rw [p3]; decide), if_neg (by rw [p2]; decide),
        if_neg (by rw [s1]; decide), if_neg (by rw [s2]; decide), ih fun y hy => h y (by simp [hy])]
      rfl
  have key : ∀ (rest done : List (Entry T)), es = done ++ rest →
      loop w ⟨done, [], false, false, false⟩ rest = .ok ⟨es, [], false, false, false⟩ := by
    intro rest
    induction rest with
    | nil => intro done h; rw [List.append_nil] at h; rw [h]; rfl
    | cons e rest ih =>
      intro done h
      obtain ⟨e1, e2, e3, e4, e5⟩ := hq e (by rw [h]; simp)
      have hpw := ha
      rw [h, List.pairwise_append] at hpw
      have hd : ∀ x ∈ done, x.type ≠ e.type ∧ w.sup x.type e.type = false ∧ w.sup e.type x.type = false :=
        fun x hx => hpw.2.2 x hx e (by simp)
      have hstep : step w (⟨done, [], false, false, false⟩ : State T) e = some ⟨done ++ [e], [], false, false, false⟩ := by
        rw [step, if_neg (by rw [e1]; decide), if_neg (by rw [e4]; decide), if_neg (by rw [e5.1]; decide), stepPlain, if_neg, if_neg (by rw [e5.2.2]; decide)]
        · rw [scan_none e.type done e5 (fun x hx => ⟨(hq x (by rw [h]; simp [hx])).2.2.2.2, (hd x hx).2.2, (hd x hx).2.1⟩)]
          simp only
          rw [State.note, if_neg (by rw [e2]; decide), if_neg (by rw [e3]; decide), if_neg (by rw [e3]; decide)]
        · rw [List.any_eq_true]
          rintro ⟨x, hx, he⟩
          rw [decide_eq_true_eq] at he
          exact (hd x hx).1 he
      rw [loop, hstep]
      exact ih (done ++ [e]) (by rw [h, List.append_assoc]; rfl)
  rw [simplify, key es [] rfl]
  simp [finish, sortBy]

/-- C44: the members are in the order of their priority. -/
theorem simplify_sorted (es : List (Entry T)) : (simplify w es).types.Pairwise fun x y => w.priority x ≤ w.priority y := by
  have key : ∀ l : List (Entry T), (fromEntries w l).types.Pairwise fun x y => w.priority x ≤ w.priority y := by
    intro l
    match l with
    | [] => exact List.Pairwise.nil
    | [e] => exact List.pairwise_singleton _ _
    | a :: b :: rest =>
      rw [fromEntries.eq_def]
      simp only [Out.types]
      rw [List.pairwise_map]
      exact sortBy_sorted (fun e : Entry T => w.priority e.type) (a :: b :: rest)
  rw [simplify]
  split
  · exact List.pairwise_singleton _ _
  · exact key _

/-- C44: the place of a member in the output is first that of the union it comes from, then that within this union. -/
theorem formatIndex_lt (highest o i o' i' : Nat) (hi : i ≤ highest) (hi' : i' ≤ highest) (ho : o' * (highest + 1) + i' ≤ usizeMax)
    (ho2 : o * (highest + 1) + i ≤ usizeMax) :
    formatIndex highest o i < formatIndex highest o' i' ↔ o < o' ∨ o = o' ∧ i < i' := by
  rw [formatIndex, formatIndex, if_pos ho2, if_pos ho]
  constructor
  · intro h
    by_contra hc
    rw [not_or, not_and] at hc
    obtain ⟨h1, h2⟩ := hc
    by_cases he : o = o'
    · subst he; have := h2 rfl; omega
    · have : o' + 1 ≤ o := by omega
      have := Nat.mul_le_mul_right (highest + 1) this
      rw [Nat.add_mul] at this
      omega
  · rintro (h | ⟨rfl, h⟩)
    · have : o + 1 ≤ o' := by omega
      have := Nat.mul_le_mul_right (highest + 1) this
      rw [Nat.add_mul] at this
      omega
    · omega

/-! ### A world

0 `object`, 1 `str`, 2 `Literal['a']`, 3 `Literal[True]`, 4 `Literal[False]`, 5 `bool`, 6 an enum, 7 and 8 its members,
9 `Sequence[str]`, 10 `list[Any]` with unknown parameter, 11 `list[str]`, 12 no value. -/

def exampleSup (x y : Fin 13) : Bool :=
  x = y || x = 0 || (x, y) ∈ [((1 : Fin 13), (2 : Fin 13)), (5, 3), (5, 4), (6, 7), (6, 8), (9, 1), (9, 2), (9, 11)] || y = 12

def exampleWorld : World (Fin 13) where
  sup := exampleSup
  literal t := if t = 2 then some 0 else none
  fallback _ := 1
  boolLit t := if t = 3 then some true else if t = 4 then some false else none
  boolType := 5
  member t := if t = 7 then some (0, 0) else if t = 8 then some (0, 1) else none
  members n := if n = 0 then 2 else 0
  enum n := if n = 0 then 6 else 12
  isObject t := t = 0
  hasAny t := t = 10
  unknownAny _ := false
  link t := if t = 10 ∨ t = 11 then some 0 else none
  unknownParams t := t = 10
  eqAny x y := x = y
  calculating _ := false
  recursive _ := false
  priority t := if t = 2 ∨ t = 3 ∨ t = 4 ∨ t = 7 ∨ t = 8 then -1 else 0

/-- The values `'a'`, `'b'`, `True`, `False`, two members, `['a']`, `('a',)`. -/
def exampleMeaning (t : Fin 13) (v : Fin 8) : Prop :=
  v ∈ (match t with
    | 0 => [0, 1, 2, 3, 4, 5, 6, 7] | 1 => [0, 1] | 2 => [0] | 3 => [2] | 4 => [3] | 5 => [2, 3] | 6 => [4, 5] | 7 => [4] | 8 => [5]
    | 9 => [0, 1, 6, 7] | 11 => [6] | _ => [] : List (Fin 8))

instance (t v) : Decidable (exampleMeaning t v) := inferInstanceAs (Decidable (_ ∈ _))

/-- The hypotheses of `simplify_sem` can be met. -/
theorem exampleSound : Sound exampleWorld exampleMeaning where
  sup := by decide
  object := by decide
  unknownAny := by decide
  unknownParams := by decide
  eqAny := by decide
  literal := by decide
  fallback := by decide
  bool := by
    intro b x v h
    simp only [exampleWorld] at h
    revert b x v
    decide
  bool' := by decide
  enum := by
    intro e v
    have mem : ∀ t e i, exampleWorld.member t = some (e, i) ↔ (t = 7 ∧ e = 0 ∧ i = 0) ∨ (t = 8 ∧ e = 0 ∧ i = 1) := by
      intro t e i
      simp only [exampleWorld]
      split
      · rename_i h; subst h; simp [eq_comm]
      · split
        · rename_i h; subst h; simp [eq_comm]
        · simp [*]
    simp only [mem]
    by_cases he : e = 0
    · subst he
      constructor
      · intro h
        have : exampleMeaning 7 v ∨ exampleMeaning 8 v := by
          revert v; decide
        rcases this with h | h
        · exact ⟨7, 0, .inl ⟨rfl, rfl, rfl⟩, h⟩
        · exact ⟨8, 1, .inr ⟨rfl, rfl, rfl⟩, h⟩
      · rintro ⟨t, i, (⟨rfl, _, _⟩ | ⟨rfl, _, _⟩), h⟩
        · revert v; decide
        · revert v; decide
    · constructor
      · intro h
        simp only [exampleWorld, if_neg he] at h
        exact absurd h (by revert v; decide)
      · rintro ⟨t, i, (⟨_, h, _⟩ | ⟨_, h, _⟩), _⟩ <;> exact absurd h he
  member_lt := by
    intro t e i h
    simp only [exampleWorld] at h ⊢
    split at h
    · simp at h; obtain ⟨rfl, rfl⟩ := h; decide
    · split at h
      · simp at h; obtain ⟨rfl, rfl⟩ := h; decide
      · simp at h
  member_inj := by decide
  member_any := by decide

def exampleEntries (ts : List (Fin 13)) : List (Entry (Fin 13)) := ts.mapIdx fun i t => ⟨t, i⟩

example : (simplify exampleWorld (exampleEntries [7, 3, 2, 11, 8, 4])).types = [2, 6, 5, 11] ∧
    (simplify exampleWorld (exampleEntries [11, 2, 1])).types = [11, 1] ∧
    (simplify exampleWorld (exampleEntries [11, 2, 0, 7])).types = [0] := by decide +kernel

example : (simplify exampleWorld (exampleEntries [11, 1, 9, 6])).types = [9, 6] := by decide +kernel

/-- C44 fails for literals: they are only compared with their own class, so `Literal['a'] | Sequence[str]` stays although
every `Literal['a']` is a `Sequence[str]`. -/
theorem simplify_literal_violation : ∃ es : List (Entry (Fin 13)),
    (simplify exampleWorld es).types = [2, 9] ∧ exampleWorld.sup 9 2 = true :=
  ⟨exampleEntries [2, 9], by decide +kernel, by decide⟩

/-- C44 fails for unknown type parameters: when they become known, the entry is not compared with the later ones. -/
theorem simplify_unknown_violation : ∃ es : List (Entry (Fin 13)),
    (simplify exampleWorld es).types = [11, 9] ∧ exampleWorld.sup 9 11 = true ∧ Plain exampleWorld 9 ∧ Plain exampleWorld 11 :=
  ⟨exampleEntries [10, 9, 11], by decide +kernel, by decide, ⟨by decide, by decide, by decide⟩, ⟨by decide, by decide, by decide⟩⟩

end Verif.Union
