import Verif.Solve.Lemmas

/-! # Lemmas about solving type variables of ordered types -/

namespace Verif.Solve

open Verif.Match Verif.Sub

variable {K : Type} {L : Lang K}

/-- Types as values of the types they can be assigned to. -/
def below (L : Lang K) (s k : K) : Prop := L.le s k

theorem under_iff (h : Ordered L) {a b : K} : Under (below L) a b ↔ L.le a b :=
  ⟨fun hu => hu a (h.refl a), fun hl v hv => h.trans _ _ _ hv hl⟩

theorem Ordered.right (h : Ordered L) : Right L (below L) fun _ => True where
  super := fun _ _ _ _ e => (under_iff h).mpr e
  same := fun a b _ _ e =>
    have := (h.same a b).mp e
    ⟨(under_iff h).mpr this.2, (under_iff h).mpr this.1⟩
  under := fun a b _ _ e => (under_iff h).mpr ((h.contra a b).mp e)
  base := by
    intro a b r _ _ e
    obtain ⟨r', e', h1, h2, -⟩ := h.base a b
    rw [e] at e'
    cases e'
    exact ⟨trivial, (under_iff h).mpr h1, (under_iff h).mpr h2⟩
  sub := fun a b r _ _ e =>
    have := h.sub a b r e
    ⟨trivial, (under_iff h).mpr this.1, (under_iff h).mpr this.2.1⟩

theorem Ordered.least (h : Ordered L) : Least L (below L) fun _ => True := by
  intro a b r c _ _ _ e h1 h2
  obtain ⟨r', e', -, -, h3⟩ := h.base a b
  rw [e] at e'
  cases e'
  exact (under_iff h).mpr (h3 c ((under_iff h).mp h1) ((under_iff h).mp h2))

theorem Ordered.tight (h : Ordered L) : Tight L (below L) fun _ => True := fun a b r _ _ hc e =>
  h.least a b r b trivial trivial trivial e ((under_iff h).mpr ((h.contra a b).mp hc)) (Under.rfl' b)

variable [DecidableEq K]

/-- The other half of a step: the new bound asks for nothing else, and there is a mismatch only
if nothing solves both. -/
structure Exact (L : Lang K) (b b' : Bound K) (m : Match) (v : Variance) (o : K) : Prop where
  keeps : m.bool = true → ∀ x, Meets (below L) x b → Solves (below L) x (v, o) →
    Meets (below L) x b'
  none : m.bool = false → ∀ x, Meets (below L) x b → ¬ Solves (below L) x (v, o)

theorem exact_of_true {b b' : Bound K} {m : Match} {v : Variance} {o : K} (hm : m.bool = true)
    (h : ∀ x, Meets (below L) x b → Solves (below L) x (v, o) → Meets (below L) x b') :
    Exact L b b' m v o := ⟨fun _ => h, fun e => by rw [hm] at e; cases e⟩

theorem exact_same {b : Bound K} {m : Match} {v : Variance} {o : K}
    (h : ∀ x, Meets (below L) x b → Solves (below L) x (v, o) → m.bool = true) :
    Exact L b b m v o :=
  ⟨fun _ _ hx _ => hx, fun e x hx hs => by rw [h x hx hs] at e; cases e⟩

theorem outside_exact (h : Ordered L) {b b' : Bound K} {o : K} {m m' : Match} {v : Variance}
    (hi : ∀ x, Meets (below L) x b → Solves (below L) x (v, o) →
      (v = .inv → m.bool = true) ∧ (∀ u, b = .upper u → v = .cov → m.bool = true) ∧
      (∀ l, b = .lower l → v = .contra → m.bool = true))
    (he : outside L b o m v = some (b', m')) : Exact L b b' m' v o := by
  cases v with
  | inv =>
    cases he
    exact exact_same fun x hx hs => (hi x hx hs).1 rfl
  | cov =>
    cases b with
    | uncalculated _ => cases he
    | upper u => cases he; exact exact_same fun x hx hs => (hi x hx hs).2.1 _ rfl rfl
    | invariant t =>
      cases he
      refine exact_same fun x hx hs => ?_
      exact h.trans _ _ _ ((under_iff h).mp hs) ((under_iff h).mp (meets_invariant.mp hx).2)
    | lower t =>
      obtain ⟨r, hr, h1, h2, h3⟩ := h.base t o
      simp only [outside, hr, Option.some.injEq, Prod.mk.injEq] at he
      obtain ⟨rfl, rfl⟩ := he
      refine exact_of_true rfl fun x hx hs => meets_lower.mpr ?_
      exact (under_iff h).mpr (h3 x ((under_iff h).mp (meets_lower.mp hx)) ((under_iff h).mp hs))
    | upperAndLower u l =>
      obtain ⟨r, hr, h1, h2, h3⟩ := h.base l o
      have key : ∀ x, Meets (below L) x (.upperAndLower u l) → Solves (below L) x (.cov, o) →
          L.le r x := fun x hx hs =>
        h3 x ((under_iff h).mp (meets_both.mp hx).2) ((under_iff h).mp hs)
      simp only [outside, hr] at he
      split at he
      · simp only [Option.some.injEq, Prod.mk.injEq] at he
        obtain ⟨rfl, rfl⟩ := he
        exact exact_of_true rfl fun x hx hs =>
          meets_both.mpr ⟨(meets_both.mp hx).1, (under_iff h).mpr (key x hx hs)⟩
      · next hc =>
        simp only [Option.some.injEq, Prod.mk.injEq] at he
        obtain ⟨rfl, rfl⟩ := he
        refine exact_same fun x hx hs => absurd ?_ hc
        exact h.trans _ _ _ (key x hx hs) ((under_iff h).mp (meets_both.mp hx).1)
  | contra =>
    cases b with
    | uncalculated _ => cases he
    | lower u => cases he; exact exact_same fun x hx hs => (hi x hx hs).2.2 _ rfl rfl
    | invariant t =>
      cases he
      refine exact_same fun x hx hs => (h.contra _ _).mpr ?_
      exact h.trans _ _ _ ((under_iff h).mp (meets_invariant.mp hx).1) ((under_iff h).mp hs)
    | upper t =>
      simp only [outside] at he
      cases hr : L.sub t o with
      | some r =>
        obtain ⟨h1, h2, h3⟩ := h.sub _ _ _ hr
        simp only [hr, Option.some.injEq, Prod.mk.injEq] at he
        obtain ⟨rfl, rfl⟩ := he
        refine exact_of_true rfl fun x hx hs => meets_upper.mpr ?_
        exact (under_iff h).mpr (h3 x ((under_iff h).mp (meets_upper.mp hx)) ((under_iff h).mp hs))
      | none =>
        simp only [hr, Option.some.injEq, Prod.mk.injEq] at he
        obtain ⟨rfl, rfl⟩ := he
        exact exact_same fun x hx hs => absurd ((under_iff h).mp hs)
          (h.noSub _ _ hr x ((under_iff h).mp (meets_upper.mp hx)))
    | upperAndLower u l =>
      simp only [outside] at he
      cases hr : L.sub u o with
      | some r =>
        obtain ⟨h1, h2, h3⟩ := h.sub _ _ _ hr
        have key : ∀ x, Meets (below L) x (.upperAndLower u l) →
            Solves (below L) x (.contra, o) → L.le x r := fun x hx hs =>
          h3 x ((under_iff h).mp (meets_both.mp hx).1) ((under_iff h).mp hs)
        simp only [hr] at he
        split at he
        · simp only [Option.some.injEq, Prod.mk.injEq] at he
          obtain ⟨rfl, rfl⟩ := he
          exact exact_of_true rfl fun x hx hs =>
            meets_both.mpr ⟨(under_iff h).mpr (key x hx hs), (meets_both.mp hx).2⟩
        · next hc =>
          simp only [Option.some.injEq, Prod.mk.injEq] at he
          obtain ⟨rfl, rfl⟩ := he
          refine exact_same fun x hx hs => absurd ((h.contra _ _).mpr ?_) hc
          exact h.trans _ _ _ ((under_iff h).mp (meets_both.mp hx).2) (key x hx hs)
      | none =>
        simp only [hr, Option.some.injEq, Prod.mk.injEq] at he
        obtain ⟨rfl, rfl⟩ := he
        exact exact_same fun x hx hs => absurd ((under_iff h).mp hs)
          (h.noSub _ _ hr x ((under_iff h).mp (meets_both.mp hx).1))

theorem inside_exact (h : Ordered L) {b b' : Bound K} {o : K} {m m' : Match} {v : Variance}
    (hi : ∀ x, Meets (below L) x b → Solves (below L) x (v, o) →
      (v = .inv → m.bool = true) ∧ (∀ u, b = .upper u → v = .cov → m.bool = true) ∧
      (∀ l, b = .lower l → v = .contra → m.bool = true))
    (he : inside L b o m v = some (b', m')) : Exact L b b' m' v o := by
  unfold inside at he
  split at he
  · next hm =>
    cases v with
    | inv => cases he; exact exact_of_true hm fun x _ hs => meets_invariant.mpr hs
    | cov =>
      simp only [Option.map_eq_some_iff, Prod.mk.injEq] at he
      obtain ⟨b'', he, rfl, rfl⟩ := he
      cases b with
      | uncalculated _ => cases he
      | invariant _ => cases he
      | upper u =>
        simp only [updateLower, Option.some.injEq] at he
        split at he <;> subst he
        · next e =>
          subst e
          exact exact_of_true hm fun x hx hs => meets_invariant.mpr ⟨hs, meets_upper.mp hx⟩
        · exact exact_of_true hm fun x hx hs => meets_both.mpr ⟨meets_upper.mp hx, hs⟩
      | lower l =>
        obtain ⟨r, hr, h1, h2, h3⟩ := h.base l o
        simp only [updateLower, hr, Option.getD_some, Option.some.injEq] at he
        subst he
        exact exact_of_true hm fun x hx hs => meets_lower.mpr ((under_iff h).mpr
          (h3 x ((under_iff h).mp (meets_lower.mp hx)) ((under_iff h).mp hs)))
      | upperAndLower u l =>
        obtain ⟨r, hr, h1, h2, h3⟩ := h.base l o
        have key : ∀ x, Meets (below L) x (.upperAndLower u l) → Solves (below L) x (.cov, o) →
            Under (below L) r x := fun x hx hs => (under_iff h).mpr
          (h3 x ((under_iff h).mp (meets_both.mp hx).2) ((under_iff h).mp hs))
        simp only [updateLower, hr, Option.getD_some, Option.some.injEq] at he
        split at he <;> subst he
        · next e =>
          subst e
          exact exact_of_true hm fun x hx hs =>
            meets_invariant.mpr ⟨key x hx hs, (meets_both.mp hx).1⟩
        · exact exact_of_true hm fun x hx hs => meets_both.mpr ⟨(meets_both.mp hx).1, key x hx hs⟩
    | contra =>
      simp only [Option.map_eq_some_iff, Prod.mk.injEq] at he
      obtain ⟨b'', he, rfl, rfl⟩ := he
      cases b with
      | uncalculated _ => cases he
      | invariant _ => cases he
      | upper u => cases he; exact exact_of_true hm fun x _ hs => meets_upper.mpr hs
      | lower l =>
        simp only [updateUpper, Option.some.injEq] at he
        split at he <;> subst he
        · next e =>
          subst e
          exact exact_of_true hm fun x hx hs => meets_invariant.mpr ⟨meets_lower.mp hx, hs⟩
        · exact exact_of_true hm fun x hx hs => meets_both.mpr ⟨hs, meets_lower.mp hx⟩
      | upperAndLower u l =>
        simp only [updateUpper, Option.some.injEq] at he
        split at he <;> subst he
        · next e =>
          subst e
          exact exact_of_true hm fun x hx hs =>
            meets_invariant.mpr ⟨(meets_both.mp hx).2, hs⟩
        · exact exact_of_true hm fun x hx hs => meets_both.mpr ⟨hs, (meets_both.mp hx).2⟩
  · exact outside_exact h hi he

theorem mergeOne_exact (h : Ordered L) {a a' : Arg K} {o : K} {m : Match} {v : Variance}
    (ha : a.anyInContext = false) (he : mergeOne L a o v = some (a', m)) :
    Exact L a.bound a'.bound m v o := by
  obtain ⟨b, c, u, any⟩ := a
  simp only at ha
  subst ha
  have le_tr := h.trans
  cases b with
  | uncalculated _ => cases he
  | invariant t =>
    simp only [mergeOne] at he
    split at he
    · next hm2 =>
      simp only [Bool.false_eq_true, if_false, Option.some.injEq, Prod.mk.injEq] at he
      obtain ⟨rfl, rfl⟩ := he
      exact exact_of_true hm2 fun x hx _ => hx
    · next hm2 =>
      simp only [Option.map_eq_some_iff, Prod.mk.injEq] at he
      obtain ⟨⟨b', m'⟩, he, rfl, rfl⟩ := he
      refine outside_exact h (fun x hx hs => ⟨?_, by simp, by simp⟩) he
      rintro rfl
      obtain ⟨h1, h2⟩ := meets_invariant.mp hx
      exact (h.same _ _).mpr ⟨(under_iff h).mp (h1.tr hs.2), (under_iff h).mp (Under.tr hs.1 h2)⟩
  | upper t =>
    simp only [mergeOne, Option.map_eq_some_iff, Prod.mk.injEq] at he
    obtain ⟨⟨b', m'⟩, he, rfl, rfl⟩ := he
    refine inside_exact h (fun x hx hs => ⟨?_, ?_, by simp⟩) he
    · rintro rfl
      exact (under_iff h).mp (Under.tr hs.1 (meets_upper.mp hx))
    · rintro u - rfl
      exact (under_iff h).mp (Under.tr hs (meets_upper.mp hx))
  | lower t =>
    simp only [mergeOne, Option.map_eq_some_iff, Prod.mk.injEq] at he
    obtain ⟨⟨b', m'⟩, he, rfl, rfl⟩ := he
    refine inside_exact h (fun x hx hs => ⟨?_, by simp, ?_⟩) he
    · rintro rfl
      exact (h.contra _ _).mpr ((under_iff h).mp ((meets_lower.mp hx).tr hs.2))
    · rintro u - rfl
      exact (h.contra _ _).mpr ((under_iff h).mp ((meets_lower.mp hx).tr hs))
  | upperAndLower u l =>
    simp only [mergeOne, Option.map_eq_some_iff, Prod.mk.injEq] at he
    obtain ⟨⟨b', m'⟩, he, rfl, rfl⟩ := he
    refine inside_exact h (fun x hx hs => ⟨?_, by simp, by simp⟩) he
    rintro rfl
    obtain ⟨h1, h2⟩ := meets_both.mp hx
    have e1 : (L.cmp .cov u o).bool = true := (under_iff h).mp (Under.tr hs.1 h1)
    have e2 : (L.cmp .contra l o).bool = true :=
      (h.contra _ _).mpr ((under_iff h).mp (h2.tr hs.2))
    generalize L.cmp .cov u o = m1 at e1
    generalize L.cmp .contra l o = m2 at e2
    cases m1 with
    | false _ _ => cases e1
    | true w => cases m2 with
      | false _ _ => cases e2
      | true w' => cases w <;> cases w' <;> rfl

theorem merge_exact (h : Ordered L) {a a' : Arg K} {k : K} {v : Variance} {m : Match}
    (ha : a.anyInContext = false) (he : merge L a (.new k v) = some (a', m)) :
    Exact L a.bound a'.bound m v k := by
  obtain ⟨b, c, u, any⟩ := a
  simp only at ha
  subst ha
  unfold merge at he
  split at he
  · cases he
    exact exact_of_true rfl fun x hx _ => hx
  · simp only at he
    have conf : ∀ {r : Arg K × Match}, conflict r = (a', m) → r.1.bound = a'.bound ∧ r.2 = m := by
      intro r hr'
      unfold conflict at hr'
      split at hr'
      · cases hr'; exact ⟨rfl, rfl⟩
      · cases hr'; exact ⟨rfl, rfl⟩
    have hno : (Bound.new k v).maybeAny L = none := by
      cases v <;> exact (h.noAny k).1
    cases b with
    | uncalculated f =>
      have hc : (Bound.new k v).calculated = true := by cases v <;> rfl
      simp only [hc, Bool.true_or, if_true, hno, Option.some.injEq, Prod.mk.injEq] at he
      obtain ⟨rfl, rfl⟩ := he
      exact exact_of_true rfl fun x _ hs => meets_new.mpr hs
    | _ =>
      cases v <;>
      · simp only [Bound.new, Option.map_eq_some_iff] at he
        obtain ⟨⟨a'', m''⟩, he, e⟩ := he
        obtain ⟨e1, e2⟩ := conf e
        simp only at e1 e2
        subst e2
        have := mergeOne_exact h rfl he
        rw [e1] at this
        exact this

end Verif.Solve
