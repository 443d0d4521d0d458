import Mathlib.Data.Finset.Card
import Mathlib.Data.Finset.Range
import Verif.Union.Spec

namespace Verif.Union

open Verif.Union.Spec

variable {T V : Type} [DecidableEq T] {w : World T} {D : T → V → Prop}

/-- Some entry has the value. -/
def Sem (D : T → V → Prop) (es : List (Entry T)) (v : V) : Prop := ∃ e ∈ es, D e.type v

omit [DecidableEq T] in
theorem sem_nil (v : V) : ¬ Sem D [] v := by rintro ⟨_, h, _⟩; simp at h

omit [DecidableEq T] in
theorem sem_cons (e : Entry T) (es : List (Entry T)) (v : V) : Sem D (e :: es) v ↔ D e.type v ∨ Sem D es v := by
  simp [Sem]

omit [DecidableEq T] in
theorem sem_append (as bs : List (Entry T)) (v : V) : Sem D (as ++ bs) v ↔ Sem D as v ∨ Sem D bs v := by
  simp only [Sem, List.mem_append]
  constructor
  · rintro ⟨e, h | h, hd⟩
    · exact .inl ⟨e, h, hd⟩
    · exact .inr ⟨e, h, hd⟩
  · rintro (⟨e, h, hd⟩ | ⟨e, h, hd⟩)
    · exact ⟨e, .inl h, hd⟩
    · exact ⟨e, .inr h, hd⟩

theorem mergeable_sem (hS : Sound w D) {x y : T} (h : mergeable w x y = true) (v : V) (hd : D x v) : D y v := by
  simp only [mergeable, Bool.and_eq_true, beq_iff_eq] at h
  exact hS.unknownParams x y v h.1.1 h.1.2 h.2 hd

theorem scan_sem (hS : Sound w D) (a : T) (v : V) : ∀ (es es' : List (Entry T)), scan w a es = some es' →
    (Sem D es' v ↔ Sem D es v ∨ D a v)
  | [], _, h => by simp [scan] at h
  | e :: rest, es', h => by
    rw [scan] at h
    have rec' : ∀ es', (scan w a rest).map (e :: ·) = some es' → (Sem D es' v ↔ Sem D (e :: rest) v ∨ D a v) := by
      intro es' h
      rw [Option.map_eq_some_iff] at h
      obtain ⟨r, hr, rfl⟩ := h
      rw [sem_cons, sem_cons, scan_sem hS a v rest r hr, or_assoc]
    split at h
    · split at h
      · rename_i hm
        rw [Option.some.injEq] at h
        subst h
        rw [sem_cons, sem_cons]
        have := mergeable_sem hS hm v
        simp only
        constructor
        · rintro (h | h)
          · exact .inr h
          · exact .inl (.inr h)
        · rintro ((h | h) | h)
          · exact .inl (this h)
          · exact .inr h
          · exact .inl h
      · exact rec' _ h
    · split at h
      · simp at h
      · split at h
        · exact rec' _ h
        · split at h
          · split at h
            · rename_i he
              rw [Option.some.injEq] at h
              subst h
              rw [sem_cons, he]
              constructor
              · intro h; exact .inl h
              · rintro (h | h)
                · exact h
                · exact .inl h
            · exact rec' _ h
          · split at h
            · rename_i hsup
              rw [Option.some.injEq] at h
              subst h
              rw [sem_cons, sem_cons]
              simp only
              constructor
              · rintro (h | ⟨x, hx, hd⟩)
                · exact .inr h
                · exact .inl (.inr ⟨x, (List.mem_filter.mp hx).1, hd⟩)
              · rintro ((h | ⟨x, hx, hd⟩) | h)
                · exact .inl (hS.sup _ _ _ hsup h)
                · by_cases hr : removable w a x = true
                  · simp only [removable, Bool.and_eq_true] at hr
                    exact .inl (hS.sup _ _ _ hr.2 hd)
                  · exact .inr ⟨x, List.mem_filter.mpr ⟨hx, by simpa using hr⟩, hd⟩
                · exact .inl h
            · split at h
              · rename_i hsup
                rw [Option.some.injEq] at h
                subst h
                rw [sem_cons]
                constructor
                · intro h; exact .inl h
                · rintro (h | h)
                  · exact h
                  · exact .inl (hS.sup _ _ _ hsup h)
              · exact rec' _ h

/-- What a scan that deals with the type does to the list. -/
theorem scan_shape (a : T) : ∀ (es es' : List (Entry T)), scan w a es = some es' →
    es' = es ∨ ∃ pre e rest rest', es = pre ++ e :: rest ∧ es' = pre ++ ⟨a, e.format⟩ :: rest' ∧ rest'.Sublist rest
  | [], _, h => by simp [scan] at h
  | e :: rest, es', h => by
    rw [scan] at h
    have rec' : ∀ es', (scan w a rest).map (e :: ·) = some es' →
        es' = e :: rest ∨ ∃ pre e' r r', e :: rest = pre ++ e' :: r ∧ es' = pre ++ ⟨a, e'.format⟩ :: r' ∧ r'.Sublist r := by
      intro es' h
      rw [Option.map_eq_some_iff] at h
      obtain ⟨r, hr, rfl⟩ := h
      rcases scan_shape a rest r hr with rfl | ⟨pre, e', r1, r2, h1, h2, h3⟩
      · exact .inl rfl
      · exact .inr ⟨e :: pre, e', r1, r2, by rw [h1]; rfl, by rw [h2]; rfl, h3⟩
    split at h
    · split at h
      · rw [Option.some.injEq] at h
        exact .inr ⟨[], e, rest, rest, rfl, h.symm, List.Sublist.refl _⟩
      · exact rec' _ h
    · split at h
      · simp at h
      · split at h
        · exact rec' _ h
        · split at h
          · split at h
            · rw [Option.some.injEq] at h
              exact .inl h.symm
            · exact rec' _ h
          · split at h
            · rw [Option.some.injEq] at h
              exact .inr ⟨[], e, rest, _, rfl, h.symm, List.filter_sublist⟩
            · split at h
              · rw [Option.some.injEq] at h
                exact .inl h.symm
              · exact rec' _ h

/-- Enum members occur once. -/
def Once (w : World T) (es : List (Entry T)) : Prop :=
  es.Pairwise fun x y => (w.member x.type).isSome → x.type ≠ y.type

theorem once_push {es : List (Entry T)} {e : Entry T} (h : Once w es) (hn : ∀ x ∈ es, (w.member x.type).isSome → x.type ≠ e.type) :
    Once w (es ++ [e]) := by
  rw [Once, List.pairwise_append]
  refine ⟨h, List.pairwise_singleton _ _, ?_⟩
  intro x hx y hy
  simp only [List.mem_singleton] at hy
  subst hy
  exact hn x hx

theorem once_scan {es es' : List (Entry T)} {a : T} (h : Once w es) (hn : ∀ x ∈ es, x.type ≠ a) (hs : scan w a es = some es') :
    Once w es' := by
  rcases scan_shape a es es' hs with rfl | ⟨pre, e, rest, rest', rfl, rfl, hsub⟩
  · exact h
  · rw [Once, List.pairwise_append, List.pairwise_cons] at h ⊢
    obtain ⟨h1, ⟨_, h3⟩, h4⟩ := h
    refine ⟨h1, ⟨?_, h3.sublist hsub⟩, ?_⟩
    · intro x hx _ he
      exact hn x (List.mem_append_right _ (List.mem_cons_of_mem _ (hsub.subset hx))) he.symm
    · intro x hx y hy
      rw [List.mem_cons] at hy
      rcases hy with rfl | hy
      · intro _; exact hn x (List.mem_append_left _ hx)
      · exact h4 x hx y (List.mem_cons_of_mem _ (hsub.subset hy))

/-- The invariant of the loop. -/
structure Inv (w : World T) (D : T → V → Prop) (done : List (Entry T)) (s : State T) : Prop where
  sem : ∀ v, Sem D s.new v ∨ Sem D s.literals v ↔ Sem D done v
  once : Once w s.new
  lit : ∀ l ∈ s.literals, (w.literal l.type).isSome
  tru : s.hadTrue = true → ∃ e ∈ done, w.boolLit e.type = some true
  fls : s.hadFalse = true → ∃ e ∈ done, w.boolLit e.type = some false

theorem note_new (s : State T) (a : T) : (State.note w s a).new = s.new ∧ (State.note w s a).literals = s.literals := by
  rw [State.note]
  repeat' split
  all_goals exact ⟨rfl, rfl⟩

theorem inv_step (hS : Sound w D) {done : List (Entry T)} {s s' : State T} {e : Entry T} (h : Inv w D done s)
    (hs : step w s e = some s') : Inv w D (done ++ [e]) s' := by
  have mono : ∀ (b : Bool), (∃ x ∈ done, w.boolLit x.type = some b) → ∃ x ∈ done ++ [e], w.boolLit x.type = some b := by
    rintro b ⟨x, hx, hb⟩
    exact ⟨x, List.mem_append_left _ hx, hb⟩
  have single : ∀ v, Sem D [e] v ↔ D e.type v := by
    intro v; rw [sem_cons]; simp [sem_nil]
  rw [step] at hs
  split at hs
  · rename_i hlit
    split at hs
    · rename_i hany
      rw [Option.some.injEq] at hs
      subst hs
      rw [List.any_eq_true] at hany
      obtain ⟨l, hl, hle⟩ := hany
      rw [beq_iff_eq] at hle
      refine ⟨?_, h.once, h.lit, fun ht => mono _ (h.tru ht), fun ht => mono _ (h.fls ht)⟩
      intro v
      rw [sem_append, single, ← h.sem v]
      constructor
      · exact .inl
      · rintro (h' | h')
        · exact h'
        · exact .inr ⟨l, hl, (hS.literal l.type e.type v (h.lit l hl) hle).mpr h'⟩
    · rw [Option.some.injEq] at hs
      subst hs
      refine ⟨?_, h.once, ?_, fun ht => mono _ (h.tru ht), fun ht => mono _ (h.fls ht)⟩
      · intro v
        rw [sem_append, sem_append, ← h.sem v, or_assoc]
      · intro l hl
        rw [List.mem_append, List.mem_singleton] at hl
        rcases hl with hl | rfl
        · exact h.lit l hl
        · exact hlit
  · split at hs
    · simp at hs
    · split at hs
      · rename_i hhas
        rw [Option.some.injEq] at hs
        subst hs
        rw [stepAny]
        split
        · rename_i hm
          rw [List.any_eq_true] at hm
          obtain ⟨c, hc, hm⟩ := hm
          refine ⟨?_, h.once, h.lit, fun ht => mono _ (h.tru ht), fun ht => mono _ (h.fls ht)⟩
          intro v
          rw [sem_append, single, ← h.sem v]
          constructor
          · exact .inl
          · rintro (h' | h')
            · exact h'
            · exact .inl ⟨c, hc, mergeable_sem hS hm v h'⟩
        · split
          · rename_i heq
            rw [Bool.or_eq_true, List.any_eq_true] at heq
            refine ⟨?_, h.once, h.lit, fun ht => mono _ (h.tru ht), fun ht => mono _ (h.fls ht)⟩
            intro v
            rw [sem_append, single, ← h.sem v]
            constructor
            · exact .inl
            · rintro (h' | h')
              · exact h'
              · rcases heq with ⟨c, hc, hq⟩ | hu
                · exact .inl ⟨c, hc, (hS.eqAny _ _ v hq).mpr h'⟩
                · exact absurd h' (hS.unknownAny _ v hu)
          · refine ⟨?_, once_push h.once ?_, h.lit, fun ht => mono _ (h.tru ht), fun ht => mono _ (h.fls ht)⟩
            · intro v
              simp only
              rw [sem_append, sem_append, ← h.sem v]
              constructor
              · rintro ((h' | h') | h')
                · exact .inl (.inl h')
                · exact .inr h'
                · exact .inl (.inr h')
              · rintro ((h' | h') | h')
                · exact .inl (.inl h')
                · exact .inr h'
                · exact .inl (.inr h')
            · intro x hx hmem he
              have := hS.member_any x.type hmem
              rw [he, hhas] at this
              exact absurd this (by decide)
      · rw [Option.some.injEq] at hs
        subst hs
        rw [stepPlain]
        have swap : ∀ (A B C : Prop), ((A ∨ B) ∨ C ↔ (A ∨ C) ∨ B) := fun A B C => ⟨
          fun h => h.elim (fun h => h.elim (fun h => .inl (.inl h)) .inr) (fun h => .inl (.inr h)),
          fun h => h.elim (fun h => h.elim (fun h => .inl (.inl h)) .inr) (fun h => .inl (.inr h))⟩
        split
        · rename_i hq
          rw [List.any_eq_true] at hq
          obtain ⟨c, hc, hq⟩ := hq
          rw [decide_eq_true_eq] at hq
          refine ⟨?_, h.once, h.lit, fun ht => mono _ (h.tru ht), fun ht => mono _ (h.fls ht)⟩
          intro v
          rw [sem_append, single, ← h.sem v]
          constructor
          · exact .inl
          · rintro (h' | h')
            · exact h'
            · exact .inl ⟨c, hc, by rw [hq]; exact h'⟩
        · rename_i hq
          have hne : ∀ x ∈ s.new, x.type ≠ e.type := by
            intro x hx he
            apply hq
            rw [List.any_eq_true]
            exact ⟨x, hx, by simpa using he⟩
          split
          · refine ⟨?_, once_push h.once fun x hx _ => hne x hx, h.lit, fun ht => mono _ (h.tru ht), fun ht => mono _ (h.fls ht)⟩
            intro v
            simp only
            rw [sem_append, sem_append, ← h.sem v, swap]
          · split
            · rename_i new hscan
              refine ⟨?_, once_scan h.once hne hscan, h.lit, fun ht => mono _ (h.tru ht), fun ht => mono _ (h.fls ht)⟩
              intro v
              simp only
              rw [sem_append, single, scan_sem hS e.type v _ _ hscan, ← h.sem v, swap]
            · obtain ⟨n1, n2⟩ := note_new (w := w) { s with new := s.new ++ [e] } e.type
              refine ⟨?_, ?_, ?_, ?_, ?_⟩
              · intro v
                rw [n1, n2]
                simp only
                rw [sem_append, sem_append, ← h.sem v, swap]
              · rw [n1]; exact once_push h.once fun x hx _ => hne x hx
              · rw [n2]; exact h.lit
              · intro ht
                rw [State.note] at ht
                split at ht
                · exact mono _ (h.tru ht)
                · split at ht
                  · rename_i hb
                    exact ⟨e, by simp, hb⟩
                  · split at ht <;> exact mono _ (h.tru ht)
              · intro ht
                rw [State.note] at ht
                split at ht
                · exact mono _ (h.fls ht)
                · split at ht
                  · exact mono _ (h.fls ht)
                  · split at ht
                    · rename_i hb
                      exact ⟨e, by simp, hb⟩
                    · exact mono _ (h.fls ht)

theorem inv_loop (hS : Sound w D) : ∀ (es done : List (Entry T)) (s s' : State T), Inv w D done s → loop w s es = .ok s' →
    Inv w D (done ++ es) s'
  | [], done, s, s', h, hl => by
    simp only [loop, Except.ok.injEq] at hl
    subst hl
    rw [List.append_nil]; exact h
  | e :: es, done, s, s', h, hl => by
    rw [loop] at hl
    split at hl
    · simp at hl
    · rename_i s1 hs
      have := inv_loop hS es (done ++ [e]) s1 s' (inv_step hS h hs) hl
      rw [List.append_assoc] at this
      exact this

theorem loop_error : ∀ (es : List (Entry T)) (s : State T) (t : T), loop w s es = .error t → w.isObject t = true ∧ ∃ e ∈ es, e.type = t
  | [], s, t, h => by simp [loop] at h
  | e :: es, s, t, h => by
    rw [loop] at h
    split at h
    · rename_i hs
      rw [Except.error.injEq] at h
      rw [step] at hs
      split at hs
      · split at hs <;> simp at hs
      · split at hs
        · rename_i ho
          exact ⟨by rw [← h]; exact ho, e, by simp, h⟩
        · split at hs <;> simp at hs
    · obtain ⟨h1, x, hx, h2⟩ := loop_error es _ t h
      exact ⟨h1, x, List.mem_cons_of_mem _ hx, h2⟩

/-- Distinct numbers below `n`, at least `n` of them: all of them. -/
theorem pigeonhole (l : List Nat) (n : Nat) (hd : l.Nodup) (hlt : ∀ x ∈ l, x < n) (hn : n ≤ l.length) (k : Nat) (hk : k < n) : k ∈ l := by
  have h1 : l.toFinset ⊆ Finset.range n := by
    intro x hx
    rw [List.mem_toFinset] at hx
    exact Finset.mem_range.mpr (hlt x hx)
  have h2 : l.toFinset = Finset.range n := by
    apply Finset.eq_of_subset_of_card_le h1
    rw [Finset.card_range, List.toFinset_card_of_nodup hd]
    exact hn
  have : k ∈ l.toFinset := by rw [h2]; exact Finset.mem_range.mpr hk
  exact List.mem_toFinset.mp this

/-- If as many members are counted as an enum has, all are there. -/
theorem all_members (hS : Sound w D) {es : List (Entry T)} (h1 : Once w es) (e : Nat) (hc : w.members e ≤ count w es e)
    (t : T) (i : Nat) (ht : w.member t = some (e, i)) : ∃ x ∈ es, x.type = t := by
  let p : Entry T → Bool := fun x => (w.member x.type).map Prod.fst == some e
  let ix : Entry T → Nat := fun x => ((w.member x.type).map Prod.snd).getD 0
  have hp : ∀ x, p x = true → w.member x.type = some (e, ix x) := by
    intro x hx
    simp only [p, beq_iff_eq] at hx
    cases hm : w.member x.type with
    | none => rw [hm] at hx; simp at hx
    | some q =>
      rw [hm] at hx
      simp at hx
      simp only [ix, hm]
      rw [← hx]; rfl
  have hnd : ((es.filter p).map ix).Nodup := by
    rw [List.Nodup, List.pairwise_map]
    have h2 := List.Pairwise.and_mem.mp (List.Pairwise.filter p h1)
    apply h2.imp
    intro x y hxy he
    obtain ⟨hx, hy, hne⟩ := hxy
    have hx' := hp x (List.mem_filter.mp hx).2
    have hy' := hp y (List.mem_filter.mp hy).2
    refine hne (by rw [hx']; rfl) ?_
    exact hS.member_inj _ _ (by rw [hx']; rfl) (by rw [hx', hy', he])
  have hmem : i ∈ (es.filter p).map ix := by
    apply pigeonhole _ (w.members e) hnd
    · intro j hj
      rw [List.mem_map] at hj
      obtain ⟨x, hx, rfl⟩ := hj
      exact hS.member_lt _ _ _ (hp x (List.mem_filter.mp hx).2)
    · rw [List.length_map]; exact hc
    · exact hS.member_lt _ _ _ ht
  rw [List.mem_map] at hmem
  obtain ⟨x, hx, hxi⟩ := hmem
  have hx' := hp x (List.mem_filter.mp hx).2
  refine ⟨x, (List.mem_filter.mp hx).1, ?_⟩
  exact hS.member_inj _ _ (by rw [hx']; rfl) (by rw [hx', ht, hxi])

theorem firstMember_some {es : List (Entry T)} {x : Entry T} {e i : Nat} (hx : x ∈ es) (hm : w.member x.type = some (e, i)) :
    ∃ y ∈ es, ∃ j, w.member y.type = some (e, j) ∧ firstMember w es e = some j := by
  rw [firstMember]
  cases hf : es.find? fun x => (w.member x.type).map Prod.fst == some e with
  | none =>
    rw [List.find?_eq_none] at hf
    have := hf x hx
    rw [hm] at this
    simp at this
  | some y =>
    have hy := List.find?_some hf
    have hy2 := List.mem_of_find?_eq_some hf
    cases hmy : w.member y.type with
    | none => rw [hmy] at hy; simp at hy
    | some q =>
      rw [hmy] at hy
      simp at hy
      refine ⟨y, hy2, q.2, ?_, by simp [hmy]⟩
      rw [hmy, ← hy]

theorem contractEnums_sem (hS : Sound w D) {es : List (Entry T)} (h1 : Once w es) (v : V) :
    Sem D (contractEnums w es) v ↔ Sem D es v := by
  constructor
  · rintro ⟨x', hx', hd⟩
    rw [contractEnums, List.mem_filterMap] at hx'
    obtain ⟨x, hx, hc⟩ := hx'
    rw [contractMember] at hc
    split at hc
    · rename_i e i hm
      split at hc
      · rename_i hcount
        split at hc
        · rw [Option.some.injEq] at hc
          subst hc
          simp only at hd
          rw [hS.enum] at hd
          obtain ⟨t, j, ht, hd⟩ := hd
          obtain ⟨y, hy, rfl⟩ := all_members hS h1 e hcount t j ht
          exact ⟨y, hy, hd⟩
        · simp at hc
      · rw [Option.some.injEq] at hc
        subst hc
        exact ⟨x, hx, hd⟩
    · rw [Option.some.injEq] at hc
      subst hc
      exact ⟨x, hx, hd⟩
  · rintro ⟨x, hx, hd⟩
    cases hm : w.member x.type with
    | none => exact ⟨x, List.mem_filterMap.mpr ⟨x, hx, by rw [contractMember, hm]⟩, hd⟩
    | some q =>
      obtain ⟨e, i⟩ := q
      by_cases hc : w.members e ≤ count w es e
      · obtain ⟨y, hy, j, hmy, hf⟩ := firstMember_some hx hm
        refine ⟨{ y with type := w.enum e }, List.mem_filterMap.mpr ⟨y, hy, ?_⟩, ?_⟩
        · rw [contractMember, hmy]
          simp only
          rw [if_pos hc, if_pos hf]
        · exact (hS.enum e v).mpr ⟨x.type, i, hm, hd⟩
      · refine ⟨x, List.mem_filterMap.mpr ⟨x, hx, ?_⟩, hd⟩
        rw [contractMember, hm]
        simp only
        rw [if_neg hc]

theorem contractBools_sem (hS : Sound w D) (v : V) : ∀ (es : List (Entry T)) (first : Bool),
    (Sem D (contractBools w first es) v → Sem D es v ∨ D w.boolType v) ∧
    (Sem D es v → Sem D (contractBools w first es) v ∨ first = false ∧ D w.boolType v)
  | [], first => ⟨fun h => absurd h (sem_nil v), fun h => absurd h (sem_nil v)⟩
  | x :: rest, first => by
    rw [contractBools]
    by_cases hb : (w.boolLit x.type).isSome = true
    · rw [if_pos hb]
      obtain ⟨b, hb'⟩ := Option.isSome_iff_exists.mp hb
      obtain ⟨i1, i2⟩ := contractBools_sem hS v rest false
      cases first
      · rw [if_neg (by decide)]
        rw [sem_cons]
        constructor
        · intro h
          rcases i1 h with h | h
          · exact .inl (.inr h)
          · exact .inr h
        · rintro (h | h)
          · exact .inr ⟨rfl, hS.bool b _ v hb' h⟩
          · exact i2 h
      · simp only [if_true]
        rw [sem_cons, sem_cons]
        constructor
        · rintro (h | h)
          · exact .inr h
          · rcases i1 h with h | h
            · exact .inl (.inr h)
            · exact .inr h
        · rintro (h | h)
          · exact .inl (.inl (hS.bool b _ v hb' h))
          · rcases i2 h with h | h
            · exact .inl (.inr h)
            · exact .inl (.inl h.2)
    · rw [if_neg hb]
      obtain ⟨i1, i2⟩ := contractBools_sem hS v rest first
      rw [sem_cons, sem_cons]
      constructor
      · rintro (h | h)
        · exact .inl (.inl h)
        · rcases i1 h with h | h
          · exact .inl (.inr h)
          · exact .inr h
      · rintro (h | h)
        · exact .inl (.inl h)
        · rcases i2 h with h | h
          · exact .inl (.inr h)
          · exact .inr h

theorem insertBy_perm {A : Type} (key : A → Int) (a : A) : ∀ l : List A, (insertBy key a l).Perm (a :: l)
  | [] => List.Perm.refl _
  | b :: bs => by
    rw [insertBy]
    split
    · exact List.Perm.refl _
    · exact ((insertBy_perm key a bs).cons b).trans (List.Perm.swap a b bs)

theorem sortBy_perm {A : Type} (key : A → Int) : ∀ l : List A, (sortBy key l).Perm l
  | [] => List.Perm.refl _
  | a :: l => (insertBy_perm key a _).trans ((sortBy_perm key l).cons a)

theorem mem_sortBy {A : Type} {key : A → Int} {l : List A} {a : A} : a ∈ sortBy key l ↔ a ∈ l := (sortBy_perm key l).mem_iff

theorem insertBy_sorted {A : Type} (key : A → Int) (a : A) : ∀ l : List A, l.Pairwise (fun x y => key x ≤ key y) →
    (insertBy key a l).Pairwise fun x y => key x ≤ key y
  | [], _ => List.pairwise_singleton _ _
  | b :: bs, h => by
    rw [insertBy]
    rw [List.pairwise_cons] at h
    split
    · rename_i hab
      rw [List.pairwise_cons]
      refine ⟨?_, List.pairwise_cons.mpr h⟩
      intro x hx
      rw [List.mem_cons] at hx
      rcases hx with rfl | hx
      · exact hab
      · exact le_trans hab (h.1 x hx)
    · rename_i hab
      rw [List.pairwise_cons]
      refine ⟨?_, insertBy_sorted key a bs h.2⟩
      intro x hx
      rw [(insertBy_perm key a bs).mem_iff, List.mem_cons] at hx
      rcases hx with rfl | hx
      · omega
      · exact h.1 x hx

theorem sortBy_sorted {A : Type} (key : A → Int) : ∀ l : List A, (sortBy key l).Pairwise fun x y => key x ≤ key y
  | [] => List.Pairwise.nil
  | a :: l => insertBy_sorted key a _ (sortBy_sorted key l)

omit [DecidableEq T] in
theorem types_fromEntries (es : List (Entry T)) (t : T) : t ∈ (fromEntries w es).types ↔ ∃ e ∈ es, e.type = t := by
  match es with
  | [] => simp [fromEntries, Out.types]
  | [e] => simp [fromEntries, Out.types, eq_comm]
  | a :: b :: es =>
    rw [fromEntries.eq_def]
    simp only [Out.types, List.mem_map, mem_sortBy]

end Verif.Union
