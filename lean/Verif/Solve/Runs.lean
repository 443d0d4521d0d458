import Verif.Solve.Total

/-! # Lemmas about sequences of constraints -/

namespace Verif.Solve

open Verif.Match Verif.Sub

variable {K V : Type} {mem : V → K → Prop} {P : K → Prop} {L : Lang K}

/-- Types without `Any`. -/
def Clear (L : Lang K) (P : K → Prop) : Prop :=
  ∀ k, P k → L.maybeAny k = none ∧ L.hasAny k = false

/-- The types of the restriction of a type variable. -/
def Kind.types : Kind K → List K
  | .unrestricted => []
  | .bound k => [k]
  | .constraints ks => ks

theorem constraintLoop_mem {k c : K} {v : Variance} {f : Option K} {cs : List K}
    (h : constraintLoop L k v f cs = some c) :
    (c ∈ cs ∧ (L.cmp v c k).bool = true) ∨ f = some c ∨ (c = L.any ∧ L.hasAny k = true) ∨
      (c = L.any ∧ f.isSome = true) := by
  induction cs generalizing f with
  | nil => exact .inr (.inl h)
  | cons d ds ih =>
    simp only [constraintLoop] at h
    split at h
    · next hm =>
      split at h
      · next hf => cases h; exact .inr (.inr (.inr ⟨rfl, hf⟩))
      · split at h
        · next ha =>
          rcases ih h with h | h | h | h
          · exact .inl ⟨.tail _ h.1, h.2⟩
          · cases h; exact .inl ⟨.head _, hm⟩
          · exact .inr (.inr (.inl h))
          · exact .inr (.inr (.inl ⟨h.1, ha⟩))
        · cases h; exact .inl ⟨.head _, hm⟩
    · rcases ih h with h | h | h | h
      · exact .inl ⟨.tail _ h.1, h.2⟩
      · exact .inr (.inl h)
      · exact .inr (.inr (.inl h))
      · exact .inr (.inr (.inr h))

/-- The bound that constraints give. -/
theorem checkConstraints_step (hr : Right L mem P) (hn : Clear L P) {cs : List K} {k : K}
    {v : Variance} {b : Bound K} (pc : ∀ c ∈ cs, P c) (pk : P k)
    (h : checkConstraints L cs k v = some b) :
    Fair mem P b ∧ b.calculated = true ∧ ∀ x, Meets mem x b → Solves mem x (v, k) := by
  have self : Fair mem P (.invariant k) ∧ (Bound.invariant k).calculated = true ∧
      ∀ x, Meets mem x (.invariant k) → Solves mem x (v, k) :=
    ⟨fair_invariant pk, rfl, fun x hx => by
      have := meets_invariant.mp hx
      cases v
      · exact this.1
      · exact this.2
      · exact this⟩
  unfold checkConstraints at h
  split at h
  · split at h <;> cases h
    exact self
  · simp only [Option.map_eq_some_iff] at h
    obtain ⟨c, h, rfl⟩ := h
    rcases constraintLoop_mem h with ⟨hc, hm⟩ | h | ⟨-, h⟩ | ⟨-, h⟩
    · refine ⟨fair_invariant (pc c hc), rfl, fun x hx => ?_⟩
      obtain ⟨h1, h2⟩ := meets_invariant.mp hx
      cases v
      · exact (hr.super _ _ (pc c hc) pk hm).tr h1
      · exact h2.tr (hr.under _ _ (pc c hc) pk hm)
      · obtain ⟨h3, h4⟩ := hr.same _ _ (pc c hc) pk hm
        exact ⟨h3.tr h1, h2.tr h4⟩
    · cases h
    · rw [(hn k pk).2] at h; cases h
    · cases h

variable [DecidableEq K]

theorem matchOrAdd_step (hr : Right L mem P) (ht : Tight L mem P) (hn : Clear L P) {kind : Kind K}
    {a a' : Arg K} {k : K} {v : Variance} {m : Match} (pc : ∀ c ∈ kind.types, P c) (pk : P k)
    (ha : Sane mem P a) (h : matchOrAdd L kind a k v = some (a', m)) (hm : m.bool = true) :
    Sane mem P a' ∧ ∀ x, Meets mem x a'.bound → Meets mem x a.bound ∧ Solves mem x (v, k) := by
  have plain : merge L a (.new k v) = some (a', m) → Sane mem P a' ∧
      ∀ x, Meets mem x a'.bound → Meets mem x a.bound ∧ Solves mem x (v, k) := fun h => by
    obtain ⟨h1, h2⟩ := merge_step hr ht (fun k pk => (hn k pk).1) ha (fair_new pk v) h hm
    exact ⟨h1, fun x hx => ⟨(h2 x hx).1, meets_new.mp (h2 x hx).2⟩⟩
  cases kind with
  | unrestricted => exact plain h
  | bound b =>
    simp only [matchOrAdd] at h
    split at h
    · exact plain h
    · cases h; cases hm
  | constraints cs =>
    simp only [matchOrAdd] at h
    split at h
    · next b hb =>
      obtain ⟨f, -, hs⟩ := checkConstraints_step hr hn pc pk hb
      split at h
      · obtain ⟨h1, h2⟩ := merge_step hr ht (fun k pk => (hn k pk).1) ha f h hm
        exact ⟨h1, fun x hx => ⟨(h2 x hx).1, hs x (h2 x hx).2⟩⟩
      · next hc =>
        cases h
        refine ⟨⟨f, ha.any, ha.inferrable⟩, fun x hx => ⟨?_, hs x hx⟩⟩
        cases hab : a.bound with
        | uncalculated _ => simp
        | _ => rw [hab] at hc; exact absurd rfl hc
    · cases h; cases hm

theorem matchAll_step (hr : Right L mem P) (ht : Tight L mem P) (hn : Clear L P) {kind : Kind K}
    (pc : ∀ c ∈ kind.types, P c) {cs : List (Variance × K)} {a a' : Arg K}
    (pk : ∀ c ∈ cs, P c.2) (ha : Sane mem P a) (h : matchAll L kind a cs = some (some a')) :
    Sane mem P a' ∧ ∀ x, Meets mem x a'.bound →
      Meets mem x a.bound ∧ ∀ c ∈ cs, Solves mem x c := by
  induction cs generalizing a with
  | nil => cases h; exact ⟨ha, fun x hx => ⟨hx, by simp⟩⟩
  | cons c cs ih =>
    obtain ⟨v, k⟩ := c
    simp only [matchAll, Option.bind_eq_some_iff] at h
    obtain ⟨⟨a1, m⟩, h1, h⟩ := h
    split at h
    · next hm =>
      obtain ⟨s1, f1⟩ := matchOrAdd_step hr ht hn pc (pk _ (.head _)) ha h1 hm
      obtain ⟨s2, f2⟩ := ih (fun c hc => pk c (.tail _ hc)) s1 h
      refine ⟨s2, fun x hx => ?_⟩
      obtain ⟨g1, g2⟩ := f2 x hx
      obtain ⟨g3, g4⟩ := f1 x g1
      refine ⟨g3, fun c hc => ?_⟩
      cases hc with
      | head => exact g4
      | tail _ hc => exact g2 c hc
    · cases h

theorem matchAll_total (kind : Kind K) (cs : List (Variance × K)) (a : Arg K) :
    ∃ r, matchAll L kind a cs = some r := by
  induction cs generalizing a with
  | nil => exact ⟨_, rfl⟩
  | cons c cs ih =>
    obtain ⟨v, k⟩ := c
    obtain ⟨r, hr⟩ := matchOrAdd_total (L := L) kind a k v
    simp only [matchAll, hr, Option.bind_some]
    split
    · exact ih _
    · exact ⟨_, rfl⟩

theorem sane_empty : Sane mem P ({} : Arg K) :=
  ⟨⟨by simp [Bound.types], by simp⟩, rfl, rfl⟩

theorem sane_reset (hn : Clear L P) {a : Arg K} (ha : Sane mem P a) :
    Sane mem P (resetContext L a) := by
  unfold resetContext
  split
  · exact sane_empty
  · refine ⟨ha.fair, ?_, ha.inferrable⟩
    have ht := ha.fair.types
    show a.bound.hasAny L = false
    cases hb : a.bound with
    | uncalculated f =>
      cases f with
      | none => rfl
      | some k => rw [hb] at ht; exact (hn k (ht k (by simp [Bound.types]))).2
    | upperAndLower u l =>
      rw [hb] at ht
      simp [Bound.hasAny, (hn u (ht u (by simp [Bound.types]))).2,
        (hn l (ht l (by simp [Bound.types]))).2]
    | _ k => rw [hb] at ht; exact (hn k (ht k (by simp [Bound.types]))).2

/-! ## Ordered types -/

theorem solves_iff (h : Ordered L) {x : K} {c : Variance × K} :
    Solves (below L) x c ↔ L.Fulfils x c := by
  obtain ⟨v, k⟩ := c
  cases v <;> simp [Solves, Lang.Fulfils, under_iff h]

theorem matchAll_exact (h : Ordered L) {cs : List (Variance × K)} {a : Arg K}
    {r : Option (Arg K)} (ha : Sane (below L) (fun _ => True) a)
    (he : matchAll L .unrestricted a cs = some r) :
    (∀ a', r = some a' → ∀ x, Meets (below L) x a.bound → (∀ c ∈ cs, Solves (below L) x c) →
      Meets (below L) x a'.bound) ∧
    (r = none → ¬ ∃ x, Meets (below L) x a.bound ∧ ∀ c ∈ cs, Solves (below L) x c) := by
  have hn : ∀ k, True → L.maybeAny k = none := fun k _ => (h.noAny k).1
  induction cs generalizing a with
  | nil => cases he; exact ⟨by rintro _ ⟨⟩; exact fun x hx _ => hx, by simp⟩
  | cons c cs ih =>
    obtain ⟨v, k⟩ := c
    simp only [matchAll, Option.bind_eq_some_iff] at he
    obtain ⟨⟨a1, m⟩, h1, he⟩ := he
    have ex := merge_exact h ha.any h1
    split at he
    · next hm =>
      obtain ⟨s1, -⟩ := merge_step h.right h.tight hn ha (fair_new trivial v) h1 hm
      obtain ⟨k1, k2⟩ := ih s1 he
      refine ⟨fun a' e x hx hs => k1 a' e x (ex.keeps hm x hx (hs _ (.head _)))
        fun c hc => hs c (.tail _ hc), ?_⟩
      rintro e ⟨x, hx, hs⟩
      exact k2 e ⟨x, ex.keeps hm x hx (hs _ (.head _)), fun c hc => hs c (.tail _ hc)⟩
    · next hm =>
      cases he
      refine ⟨by simp, ?_⟩
      rintro - ⟨x, hx, hs⟩
      exact ex.none (by simpa using hm) x hx (hs _ (.head _))

/-- Whether there is a type to give room for. -/
def Bound.hasLower : Bound K → Bool
  | .upper _ | .uncalculated _ => false
  | _ => true

omit [DecidableEq K] in
theorem outside_hasLower {b b' : Bound K} {o : K} {m m' : Match} {v : Variance}
    (hm : m.bool = false) (h : outside L b o m v = some (b', m')) (hm' : m'.bool = true) :
    b'.hasLower = (b.hasLower || decide (v ≠ .contra)) := by
  cases v with
  | inv => cases h; rw [hm] at hm'; cases hm'
  | cov =>
    cases b with
    | uncalculated _ => cases h
    | upper u => cases h; rw [hm] at hm'; cases hm'
    | invariant t => cases h; rfl
    | lower t => simp only [outside] at h; split at h <;> cases h <;> rfl
    | upperAndLower u l =>
      simp only [outside] at h
      split at h
      · split at h <;> cases h <;> rfl
      · cases h; rfl
  | contra =>
    cases b with
    | uncalculated _ => cases h
    | lower u => cases h; rw [hm] at hm'; cases hm'
    | invariant t => cases h; rfl
    | upper t => simp only [outside] at h; split at h <;> cases h <;> rfl
    | upperAndLower u l =>
      simp only [outside] at h
      split at h
      · split at h <;> cases h <;> rfl
      · cases h; rfl

theorem inside_hasLower {b b' : Bound K} {o : K} {m m' : Match} {v : Variance}
    (h : inside L b o m v = some (b', m')) (hm' : m'.bool = true) :
    b'.hasLower = (b.hasLower || decide (v ≠ .contra)) := by
  unfold inside at h
  split at h
  · cases v with
    | inv => cases h; simp [Bound.hasLower]
    | cov =>
      simp only [Option.map_eq_some_iff, Prod.mk.injEq] at h
      obtain ⟨b'', h, rfl, -⟩ := h
      cases b with
      | uncalculated _ => cases h
      | invariant _ => cases h
      | lower l => cases h; rfl
      | upper u => simp only [updateLower, Option.some.injEq] at h; split at h <;> subst h <;> rfl
      | upperAndLower u l =>
        simp only [updateLower, Option.some.injEq] at h; split at h <;> subst h <;> rfl
    | contra =>
      simp only [Option.map_eq_some_iff, Prod.mk.injEq] at h
      obtain ⟨b'', h, rfl, -⟩ := h
      cases b with
      | uncalculated _ => cases h
      | invariant _ => cases h
      | upper l => cases h; rfl
      | lower u => simp only [updateUpper, Option.some.injEq] at h; split at h <;> subst h <;> rfl
      | upperAndLower u l =>
        simp only [updateUpper, Option.some.injEq] at h; split at h <;> subst h <;> rfl
  · next hm => exact outside_hasLower (by simpa using hm) h hm'

theorem mergeOne_hasLower {a a' : Arg K} {o : K} {m : Match} {v : Variance}
    (ha : a.anyInContext = false) (h : mergeOne L a o v = some (a', m)) (hm : m.bool = true) :
    a'.bound.hasLower = (a.bound.hasLower || decide (v ≠ .contra)) := by
  obtain ⟨b, c, u, any⟩ := a
  simp only at ha
  subst ha
  cases b with
  | uncalculated _ => cases h
  | invariant t =>
    simp only [mergeOne] at h
    split at h
    · cases h; rfl
    · next hm2 =>
      simp only [Option.map_eq_some_iff, Prod.mk.injEq] at h
      obtain ⟨⟨b', m'⟩, h, rfl, rfl⟩ := h
      exact outside_hasLower (by simpa using hm2) h hm
  | _ =>
    simp only [mergeOne, Option.map_eq_some_iff, Prod.mk.injEq] at h
    obtain ⟨⟨b', m'⟩, h, rfl, rfl⟩ := h
    exact inside_hasLower h hm

theorem merge_hasLower (hn : ∀ k, L.maybeAny k = none) {a a' : Arg K} {k : K} {m : Match}
    {v : Variance} (ha : a.anyInContext = false) (h : merge L a (.new k v) = some (a', m))
    (hm : m.bool = true) :
    a'.bound.hasLower = (a.bound.hasLower || decide (v ≠ .contra)) ∧
      a'.bound.calculated = true := by
  have hnew : (Bound.new k v).hasLower = decide (v ≠ .contra) := by cases v <;> rfl
  have hcalc : (Bound.new k v).calculated = true := by cases v <;> rfl
  by_cases hc : a.bound.calculated = true
  · unfold merge at h
    split at h
    · next e =>
      cases h
      exact ⟨by rw [e, hnew, Bool.or_self], hc⟩
    · split at h
      · next e => rw [e] at hc; cases hc
      · have key : ∀ r : Arg K × Match, conflict r = (a', m) → r.1.bound = a'.bound ∧ r.2 = m := by
          intro r e
          unfold conflict at e
          split at e <;> cases e <;> exact ⟨rfl, rfl⟩
        cases v <;>
        · simp only [Bound.new, Option.map_eq_some_iff] at h
          obtain ⟨⟨a1, m1⟩, h, e⟩ := h
          obtain ⟨e1, e2⟩ := key _ e
          simp only at e1 e2
          subst e2
          obtain ⟨a2, m2, e3, hc2⟩ := mergeOne_total (L := L) hc k _
          rw [h] at e3
          cases e3
          rw [← e1]
          exact ⟨mergeOne_hasLower ha h hm, hc2⟩
  · obtain ⟨b, c, u, any⟩ := a
    cases b with
    | uncalculated f =>
      have hno : (Bound.new k v).maybeAny L = none := by cases v <;> exact hn k
      unfold merge at h
      split at h
      · next e => simp only at e; rw [← e] at hcalc; cases hcalc
      · simp only [hcalc, Bool.true_or, if_true, hno, Option.some.injEq, Prod.mk.injEq] at h
        obtain ⟨rfl, rfl⟩ := h
        exact ⟨hnew.trans (Bool.false_or _).symm, hcalc⟩
    | _ => exact absurd rfl hc

theorem matchAll_hasLower (h : Ordered L) {cs : List (Variance × K)} {a a' : Arg K}
    (ha : Sane (below L) (fun _ => True) a)
    (he : matchAll L .unrestricted a cs = some (some a')) :
    a'.bound.hasLower = (a.bound.hasLower || cs.any fun c => decide (c.1 ≠ .contra)) := by
  induction cs generalizing a with
  | nil => cases he; simp
  | cons c cs ih =>
    obtain ⟨v, k⟩ := c
    simp only [matchAll, Option.bind_eq_some_iff] at he
    obtain ⟨⟨a1, m⟩, h1, he⟩ := he
    split at he
    · next hm =>
      obtain ⟨s1, -⟩ := merge_step h.right h.tight (fun k _ => (h.noAny k).1) ha
        (fair_new trivial v) h1 hm
      rw [ih s1 he, (merge_hasLower (fun k => (h.noAny k).1) ha.any h1 hm).1]
      simp [Bool.or_assoc]
    · cases he

theorem merge_calculated {a a' : Arg K} {k : K} {m : Match} {v : Variance}
    (hn : L.maybeAny k = none) (h : merge L a (.new k v) = some (a', m)) :
    a'.bound.calculated = true := by
  have hcalc : (Bound.new k v).calculated = true := by cases v <;> rfl
  by_cases hc : a.bound.calculated = true
  · unfold merge at h
    split at h
    · cases h; exact hc
    · split at h
      · next e => rw [e] at hc; cases hc
      · cases v <;>
        · simp only [Bound.new, Option.map_eq_some_iff] at h
          obtain ⟨⟨a1, m1⟩, h, e⟩ := h
          obtain ⟨a2, m2, e3, hc2⟩ := mergeOne_total (L := L) hc k _
          rw [h] at e3
          cases e3
          have : (conflict (a1, m1)).1.bound = a1.bound := conflict_bound _
          rw [e] at this
          rw [this]; exact hc2
  · obtain ⟨b, c, u, any⟩ := a
    cases b with
    | uncalculated f =>
      have hno : (Bound.new k v).maybeAny L = none := by cases v <;> exact hn
      unfold merge at h
      split at h
      · next e => simp only at e; rw [← e] at hcalc; cases hcalc
      · simp only [hcalc, Bool.true_or, if_true, hno, Option.some.injEq, Prod.mk.injEq] at h
        obtain ⟨rfl, rfl⟩ := h
        exact hcalc
    | _ => exact absurd rfl hc

theorem matchAll_bound_calculated {b : K}
    (hn : ∀ k, P k → L.maybeAny k = none ∧ L.hasAny k = false) {cs : List (Variance × K)}
    {a a' : Arg K} (pk : ∀ c ∈ cs, P c.2) (hne : cs ≠ [])
    (h : matchAll L (.bound b) a cs = some (some a')) : a'.bound.calculated = true := by
  induction cs generalizing a with
  | nil => exact absurd rfl hne
  | cons c cs ih =>
    obtain ⟨v, k⟩ := c
    simp only [matchAll, Option.bind_eq_some_iff] at h
    obtain ⟨⟨a1, m⟩, h1, h⟩ := h
    split at h
    · next hm =>
      simp only [matchOrAdd] at h1
      split at h1
      · by_cases he : cs = []
        · subst he
          cases h
          exact merge_calculated (hn k (pk _ (.head _))).1 h1
        · exact ih (fun c hc => pk c (.tail _ hc)) he h
      · cases h1; cases hm
    · cases h

theorem matchAll_calculated (ho : Ordered L) {cs : List (Variance × K)} {a a' : Arg K}
    (hne : cs ≠ []) (h : matchAll L .unrestricted a cs = some (some a')) :
    a'.bound.calculated = true := by
  induction cs generalizing a with
  | nil => exact absurd rfl hne
  | cons c cs ih =>
    obtain ⟨v, k⟩ := c
    simp only [matchAll, Option.bind_eq_some_iff] at h
    obtain ⟨⟨a1, m⟩, h1, h⟩ := h
    split at h
    · by_cases he : cs = []
      · subst he
        cases h
        exact merge_calculated (ho.noAny k).1 h1
      · exact ih he h
    · cases h

/-! ## Restrictions of type variables -/

theorem matchAll_types {Q : K → Prop} (hQ : Inherited L Q) {b : K}
    (hb : ∀ k, P k → (L.cmp .cov b k).bool = true → Q k) {cs : List (Variance × K)} {a a' : Arg K}
    (pk : ∀ c ∈ cs, P c.2) (ha : ∀ k ∈ a.bound.types, Q k)
    (h : matchAll L (.bound b) a cs = some (some a')) : ∀ k ∈ a'.bound.types, Q k := by
  induction cs generalizing a with
  | nil => cases h; exact ha
  | cons c cs ih =>
    obtain ⟨v, k⟩ := c
    simp only [matchAll, Option.bind_eq_some_iff] at h
    obtain ⟨⟨a1, m⟩, h1, h⟩ := h
    split at h
    · next hm =>
      refine ih (fun c hc => pk c (.tail _ hc)) ?_ h
      simp only [matchOrAdd] at h1
      split at h1
      · next hc => exact merge_types hQ ha (hb k (pk _ (.head _)) hc) h1
      · cases h1; cases hm
    · cases h

theorem solved_mem {a : Arg K} (hu : a.uninferrable = false)
    (hb : a.bound ≠ .uncalculated none) : a.solved L ∈ a.bound.types := by
  obtain ⟨b, c, u, any⟩ := a
  simp only at hu hb
  subst hu
  cases b with
  | uncalculated f =>
    cases f with
    | none => exact absurd rfl hb
    | some k => simp [Arg.solved, Bound.types]
  | _ => simp [Arg.solved, Bound.types]

end Verif.Solve
