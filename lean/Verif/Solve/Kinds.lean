import Verif.Solve.Runs

/-! # Lemmas about restricted type variables and cycles of type variables -/

namespace Verif.Solve

open Verif.Match Verif.Sub

variable {K V : Type} {mem : V → K → Prop} {P : K → Prop} {L : Lang K} [DecidableEq K]

/-- What constraints can give. -/
def Allowed (L : Lang K) (cs : List K) (values : List K) (k : K) : Prop :=
  k ∈ cs ∨ k = L.any ∨
    (k ∈ values ∧ ∃ ds, L.constraints k = some ds ∧
      ∀ d ∈ ds, ∃ c ∈ cs, (L.cmp .cov c d).bool = true)

omit [DecidableEq K] in
theorem Allowed.mono {cs vs ws : List K} {k : K} (h : Allowed L cs vs k) (hs : ∀ v ∈ vs, v ∈ ws) :
    Allowed L cs ws k := by
  rcases h with h | h | ⟨h1, h2⟩
  · exact .inl h
  · exact .inr (.inl h)
  · exact .inr (.inr ⟨hs _ h1, h2⟩)

omit [DecidableEq K] in
theorem checkConstraints_allowed {cs : List K} {k : K} {v : Variance} {b : Bound K}
    (h : checkConstraints L cs k v = some b) : ∃ c, b = .invariant c ∧ Allowed L cs [k] c := by
  unfold checkConstraints at h
  split at h
  · next ds hd =>
    split at h
    · next hall =>
      cases h
      refine ⟨k, rfl, .inr (.inr ⟨by simp, ds, hd, ?_⟩)⟩
      simpa using hall
    · cases h
  · simp only [Option.map_eq_some_iff] at h
    obtain ⟨c, h, rfl⟩ := h
    refine ⟨c, rfl, ?_⟩
    rcases constraintLoop_mem h with ⟨hc, -⟩ | h | ⟨h, -⟩ | ⟨h, -⟩
    · exact .inl hc
    · cases h
    · exact .inr (.inl h)
    · exact .inr (.inl h)

theorem merge_invariant {a : Arg K} {t c : K} {r : Arg K × Match} (ha : a.bound = .invariant t)
    (h : merge L a (.invariant c) = some r) :
    r.1.bound = .invariant t ∨ r.1.bound = .invariant c := by
  obtain ⟨b, x, u, any⟩ := a
  simp only at ha
  subst ha
  unfold merge at h
  split at h
  · cases h; exact .inl rfl
  · simp only [Option.map_eq_some_iff] at h
    obtain ⟨s, h, rfl⟩ := h
    rw [conflict_bound]
    simp only [mergeOne] at h
    split at h
    · cases h
      dsimp only
      split
      · exact .inr rfl
      · exact .inl rfl
    · cases h; exact .inl rfl

/-- The state of a type variable with constraints. -/
def Restricted (L : Lang K) (cs vs : List K) (b : Bound K) : Prop :=
  b = .uncalculated none ∨ ∃ k, b = .invariant k ∧ Allowed L cs vs k

theorem matchOrAdd_restricted {cs vs : List K} {a a' : Arg K} {k : K} {v : Variance} {m : Match}
    (ha : Restricted L cs vs a.bound)
    (h : matchOrAdd L (.constraints cs) a k v = some (a', m)) (hm : m.bool = true) :
    ∃ c, a'.bound = .invariant c ∧ Allowed L cs (k :: vs) c := by
  simp only [matchOrAdd] at h
  split at h
  · next b hb =>
    obtain ⟨c, rfl, hc⟩ := checkConstraints_allowed hb
    have hc : Allowed L cs (k :: vs) c := hc.mono (by simp)
    split at h
    · next hcalc =>
      rcases ha with ha | ⟨t, ha, hta⟩
      · rw [ha] at hcalc; cases hcalc
      · rcases merge_invariant ha h with e | e
        · exact ⟨t, e, hta.mono fun v hv => .tail _ hv⟩
        · exact ⟨c, e, hc⟩
    · cases h; exact ⟨c, rfl, hc⟩
  · cases h; cases hm

theorem matchAll_restricted {cs : List K} {xs : List (Variance × K)} {vs : List K} {a a' : Arg K}
    (ha : Restricted L cs vs a.bound) (h : matchAll L (.constraints cs) a xs = some (some a')) :
    (xs = [] ∧ a' = a) ∨
      ∃ c, a'.bound = .invariant c ∧ Allowed L cs (xs.map Prod.snd ++ vs) c := by
  induction xs generalizing a vs with
  | nil => cases h; exact .inl ⟨rfl, rfl⟩
  | cons x xs ih =>
    obtain ⟨v, k⟩ := x
    right
    simp only [matchAll, Option.bind_eq_some_iff] at h
    obtain ⟨⟨a1, m⟩, h1, h⟩ := h
    split at h
    · next hm =>
      obtain ⟨c, e, hc⟩ := matchOrAdd_restricted ha h1 hm
      rcases ih (.inr ⟨c, e, hc⟩) h with ⟨rfl, rfl⟩ | ⟨d, e2, hd⟩
      · exact ⟨c, e, hc.mono (by simp)⟩
      · exact ⟨d, e2, hd.mono (by grind)⟩
    · cases h

/-! ## Cycles -/

/-- A constraint that was made for the type `k`, and whose replacement is right. -/
structure Made (P : K → Prop) (f : K → Option K) (u : Bound K) (v : Variance) (k : K) : Prop where
  eq : u = .new k v
  type : P (replaced f k)
  notLower : v = .cov → f k = none

omit [DecidableEq K] in
theorem Made.getD {f : K → Option K} {u : Bound K} {v : Variance} {k : K} (h : Made P f u v k) :
    (u.replace f).getD u = .new (replaced f k) v := by
  obtain ⟨rfl, h2, h3⟩ := h
  unfold Verif.Solve.replaced
  cases hf : f k with
  | none => cases v <;> simp [Bound.new, Bound.replace, hf]
  | some k' =>
    cases v with
    | cov => rw [h3 rfl] at hf; cases hf
    | contra => simp [Bound.new, Bound.replace, hf]
    | inv => simp [Bound.new, Bound.replace, hf]

theorem resolveConstraints_step (hr : Right L mem P) (ht : Tight L mem P)
    (hn : ∀ k, P k → L.maybeAny k = none) {f : K → Option K} {inCycle : Bound K → Bool}
    {us : List (Bound K)} {a a' : Arg K} (hu : ∀ u ∈ us, ∃ v k, Made P f u v k)
    (ha : Sane mem P a) (h : resolveConstraints L f inCycle a us = some (some a')) :
    Sane mem P a' ∧ ∀ x, Meets mem x a'.bound → Meets mem x a.bound ∧
      ∀ u ∈ us, inCycle u = false → ∀ v k, u = .new k v → Solves mem x (v, replaced f k) := by
  induction us generalizing a with
  | nil => cases h; exact ⟨ha, fun x hx => ⟨hx, by simp⟩⟩
  | cons u us ih =>
    simp only [resolveConstraints] at h
    split at h
    · next hc =>
      obtain ⟨s, g⟩ := ih (fun u hu' => hu u (.tail _ hu')) ha h
      refine ⟨s, fun x hx => ⟨(g x hx).1, fun w hw hi => ?_⟩⟩
      cases hw with
      | head => rw [hc] at hi; cases hi
      | tail _ hw => exact (g x hx).2 w hw hi
    · simp only [Option.bind_eq_some_iff] at h
      obtain ⟨⟨a1, m⟩, h1, h⟩ := h
      split at h
      · next hm =>
        obtain ⟨v, k, mk⟩ := hu u (.head _)
        rw [mk.getD] at h1
        obtain ⟨s1, g1⟩ := merge_step hr ht hn ha (fair_new mk.type v) h1 hm
        obtain ⟨s, g⟩ := ih (fun u hu' => hu u (.tail _ hu')) s1 h
        refine ⟨s, fun x hx => ?_⟩
        obtain ⟨e1, e2⟩ := g1 x (g x hx).1
        refine ⟨e1, fun w hw hi v' k' e => ?_⟩
        cases hw with
        | head =>
          have : v' = v ∧ k' = k := by
            have := e.symm.trans mk.eq
            cases v <;> cases v' <;> simp_all [Bound.new]
          obtain ⟨rfl, rfl⟩ := this
          exact meets_new.mp e2
        | tail _ hw => exact (g x hx).2 w hw hi v' k' e
      · cases h

theorem resolveCycle_step (hr : Right L mem P) (ht : Tight L mem P)
    (hn : ∀ k, P k → L.maybeAny k = none) {f : K → Option K} {inCycle : Bound K → Bool}
    {vars : List (Arg K × List (Bound K))} {a a' : Arg K}
    (hf : ∀ t ∈ vars, Fair mem P t.1.bound) (hu : ∀ t ∈ vars, ∀ u ∈ t.2, ∃ v k, Made P f u v k)
    (ha : Sane mem P a) (h : resolveCycle L f inCycle a vars = some (some a')) :
    Sane mem P a' ∧ ∀ x, Meets mem x a'.bound → Meets mem x a.bound ∧ ∀ t ∈ vars,
      Meets mem x t.1.bound ∧
      ∀ u ∈ t.2, inCycle u = false → ∀ v k, u = .new k v → Solves mem x (v, replaced f k) := by
  induction vars generalizing a with
  | nil => cases h; exact ⟨ha, fun x hx => ⟨hx, by simp⟩⟩
  | cons t vars ih =>
    obtain ⟨used, us⟩ := t
    simp only [resolveCycle, Option.bind_eq_some_iff] at h
    obtain ⟨⟨a1, m⟩, h1, h⟩ := h
    split at h
    · next hm =>
      simp only [Option.bind_eq_some_iff] at h
      obtain ⟨c, h2, h⟩ := h
      cases c with
      | none => cases h
      | some a2 =>
        simp only at h
        have s0 : Sane mem P { a with byContext := a.byContext || used.byContext } :=
          ⟨ha.fair, ha.any, ha.inferrable⟩
        obtain ⟨s1, g1⟩ := merge_step hr ht hn s0 (hf _ (.head _)) h1 hm
        obtain ⟨s2, g2⟩ := resolveConstraints_step hr ht hn (hu _ (.head _)) s1 h2
        obtain ⟨s3, g3⟩ := ih (fun t ht => hf t (.tail _ ht)) (fun t ht => hu t (.tail _ ht)) s2 h
        refine ⟨s3, fun x hx => ?_⟩
        obtain ⟨e1, e2⟩ := g3 x hx
        obtain ⟨e3, e4⟩ := g2 x e1
        obtain ⟨e5, e6⟩ := g1 x e3
        refine ⟨e5, fun t ht => ?_⟩
        cases ht with
        | head => exact ⟨e6, e4⟩
        | tail _ ht => exact e2 t ht
    · cases h

end Verif.Solve
