import Verif.Solve.Spec

/-! # Lemmas about solving type variables -/

namespace Verif.Solve

open Verif.Match Verif.Sub

variable {K V : Type} {mem : V → K → Prop} {P : K → Prop} {L : Lang K}

theorem and_true {m m' : Match} (h : (m.and m').bool = true) : m.bool = true ∧ m'.bool = true := by
  cases m with
  | true w => cases w <;> cases m' with
    | true w' => exact ⟨rfl, rfl⟩
    | false s r => simp [Match.and, Match.bool] at h
  | false s r => cases s <;> cases m' with
    | true w' => simp [Match.and, Match.bool] at h
    | false s' r' => cases s' <;> simp [Match.and, Match.bool] at h

theorem Under.rfl' (a : K) : Under mem a a := fun _ h => h

theorem Under.tr {a b c : K} (h : Under mem a b) (h' : Under mem b c) : Under mem a c :=
  fun v hv => h' v (h v hv)

/-- `x` solves all that the bound stands for. -/
def Meets (mem : V → K → Prop) (x : K) (b : Bound K) : Prop :=
  ∀ c ∈ b.asConstraints, Solves mem x c

/-- The types of the bound have `P`, and a lower bound is below the upper one. -/
structure Fair (mem : V → K → Prop) (P : K → Prop) (b : Bound K) : Prop where
  types : ∀ k ∈ b.types, P k
  order : ∀ u l, b = .upperAndLower u l → Under mem l u

@[simp] theorem meets_uncalculated {x : K} {o : Option K} : Meets mem x (.uncalculated o) := by
  simp [Meets, Bound.asConstraints]
@[simp] theorem meets_invariant {x k : K} :
    Meets mem x (.invariant k) ↔ Under mem k x ∧ Under mem x k := by
  simp [Meets, Bound.asConstraints, Solves]
@[simp] theorem meets_upper {x k : K} : Meets mem x (.upper k) ↔ Under mem x k := by
  simp [Meets, Bound.asConstraints, Solves]
@[simp] theorem meets_lower {x k : K} : Meets mem x (.lower k) ↔ Under mem k x := by
  simp [Meets, Bound.asConstraints, Solves]
@[simp] theorem meets_both {x u l : K} :
    Meets mem x (.upperAndLower u l) ↔ Under mem x u ∧ Under mem l x := by
  simp [Meets, Bound.asConstraints, Solves]

theorem fair_invariant {k : K} (h : P k) : Fair mem P (.invariant k) :=
  ⟨by simpa [Bound.types] using h, by simp⟩
theorem fair_upper {k : K} (h : P k) : Fair mem P (.upper k) :=
  ⟨by simpa [Bound.types] using h, by simp⟩
theorem fair_lower {k : K} (h : P k) : Fair mem P (.lower k) :=
  ⟨by simpa [Bound.types] using h, by simp⟩
theorem fair_both {u l : K} (hu : P u) (hl : P l) (h : Under mem l u) :
    Fair mem P (.upperAndLower u l) :=
  ⟨by simpa [Bound.types] using ⟨hu, hl⟩, by rintro _ _ ⟨⟩; exact h⟩

theorem fair_new {k : K} (h : P k) (v : Variance) : Fair mem P (.new k v) := by
  cases v
  · exact fair_lower h
  · exact fair_upper h
  · exact fair_invariant h

theorem meets_new {x k : K} {v : Variance} : Meets mem x (.new k v) ↔ Solves mem x (v, k) := by
  cases v <;> simp [Bound.new, Solves]

/-- What a step has to do: the new bound is fair and asks for all that was asked before and for
the new type. -/
structure Step (mem : V → K → Prop) (P : K → Prop) (b b' : Bound K) (v : Variance) (o : K) :
    Prop where
  fair : Fair mem P b'
  calculated : b'.calculated = true
  old : ∀ x, Meets mem x b' → Meets mem x b
  new : ∀ x, Meets mem x b' → Solves mem x (v, o)

variable [DecidableEq K]

theorem outside_step (hr : Right L mem P) {b b' : Bound K} {o : K} {m m' : Match} {v : Variance}
    (hf : Fair mem P b) (hc : b.calculated = true) (ho : P o) (hm : m.bool = false)
    (h : outside L b o m v = some (b', m')) (hm' : m'.bool = true) : Step mem P b b' v o := by
  cases v with
  | inv =>
    simp only [outside, Option.some.injEq, Prod.mk.injEq] at h
    obtain ⟨-, rfl⟩ := h
    rw [hm] at hm'; cases hm'
  | cov =>
    cases b with
    | uncalculated _ => cases hc
    | upper u =>
      simp only [outside, Option.some.injEq, Prod.mk.injEq] at h
      obtain ⟨-, rfl⟩ := h
      rw [hm] at hm'; cases hm'
    | invariant t =>
      have pt : P t := hf.types _ (by simp [Bound.types])
      simp only [outside, Option.some.injEq, Prod.mk.injEq] at h
      obtain ⟨rfl, rfl⟩ := h
      refine ⟨hf, rfl, fun x hx => hx, fun x hx => ?_⟩
      exact (hr.super _ _ pt ho hm').tr (meets_invariant.mp hx).1
    | lower t =>
      have pt : P t := hf.types _ (by simp [Bound.types])
      simp only [outside] at h
      cases hb : L.base t o with
      | some new =>
        simp only [hb, Option.some.injEq, Prod.mk.injEq] at h
        obtain ⟨rfl, -⟩ := h
        obtain ⟨pn, h1, h2⟩ := hr.base _ _ _ pt ho hb
        exact ⟨fair_lower pn, rfl, fun x hx => meets_lower.mpr (h1.tr (meets_lower.mp hx)),
          fun x hx => h2.tr (meets_lower.mp hx)⟩
      | none =>
        simp only [hb, Option.some.injEq, Prod.mk.injEq] at h
        obtain ⟨rfl, rfl⟩ := h
        exact ⟨hf, rfl, fun x hx => hx,
          fun x hx => (hr.super _ _ pt ho hm').tr (meets_lower.mp hx)⟩
    | upperAndLower u l =>
      have pu : P u := hf.types _ (by simp [Bound.types])
      have pl : P l := hf.types _ (by simp [Bound.types])
      have old : (L.cmp .cov l o).bool = true → Step mem P (.upperAndLower u l)
          (.upperAndLower u l) .cov o := fun h =>
        ⟨hf, rfl, fun x hx => hx, fun x hx => (hr.super _ _ pl ho h).tr (meets_both.mp hx).2⟩
      simp only [outside] at h
      cases hb : L.base l o with
      | some new =>
        simp only [hb] at h
        split at h
        · next hn =>
          simp only [Option.some.injEq, Prod.mk.injEq] at h
          obtain ⟨rfl, -⟩ := h
          obtain ⟨pn, h1, h2⟩ := hr.base _ _ _ pl ho hb
          exact ⟨fair_both pu pn (hr.super _ _ pu pn hn), rfl,
            fun x hx => meets_both.mpr ⟨(meets_both.mp hx).1, h1.tr (meets_both.mp hx).2⟩,
            fun x hx => h2.tr (meets_both.mp hx).2⟩
        · simp only [Option.some.injEq, Prod.mk.injEq] at h
          obtain ⟨rfl, rfl⟩ := h
          exact old hm'
      | none =>
        simp only [hb, Option.some.injEq, Prod.mk.injEq] at h
        obtain ⟨rfl, rfl⟩ := h
        exact old hm'
  | contra =>
    cases b with
    | uncalculated _ => cases hc
    | lower u =>
      simp only [outside, Option.some.injEq, Prod.mk.injEq] at h
      obtain ⟨-, rfl⟩ := h
      rw [hm] at hm'; cases hm'
    | invariant t =>
      have pt : P t := hf.types _ (by simp [Bound.types])
      simp only [outside, Option.some.injEq, Prod.mk.injEq] at h
      obtain ⟨rfl, rfl⟩ := h
      refine ⟨hf, rfl, fun x hx => hx, fun x hx => ?_⟩
      exact Under.tr (meets_invariant.mp hx).2 (hr.under _ _ pt ho hm')
    | upper t =>
      have pt : P t := hf.types _ (by simp [Bound.types])
      simp only [outside] at h
      cases hb : L.sub t o with
      | some new =>
        simp only [hb, Option.some.injEq, Prod.mk.injEq] at h
        obtain ⟨rfl, -⟩ := h
        obtain ⟨pn, h1, h2⟩ := hr.sub _ _ _ pt ho hb
        exact ⟨fair_upper pn, rfl, fun x hx => meets_upper.mpr ((meets_upper.mp hx).tr h1),
          fun x hx => (meets_upper.mp hx).tr h2⟩
      | none =>
        simp only [hb, Option.some.injEq, Prod.mk.injEq] at h
        obtain ⟨rfl, rfl⟩ := h
        exact ⟨hf, rfl, fun x hx => hx,
          fun x hx => (meets_upper.mp hx).tr (hr.under _ _ pt ho hm')⟩
    | upperAndLower u l =>
      have pu : P u := hf.types _ (by simp [Bound.types])
      have pl : P l := hf.types _ (by simp [Bound.types])
      have old : (L.cmp .contra u o).bool = true → Step mem P (.upperAndLower u l)
          (.upperAndLower u l) .contra o := fun h =>
        ⟨hf, rfl, fun x hx => hx, fun x hx => (meets_both.mp hx).1.tr (hr.under _ _ pu ho h)⟩
      simp only [outside] at h
      cases hb : L.sub u o with
      | some new =>
        simp only [hb] at h
        split at h
        · next hn =>
          simp only [Option.some.injEq, Prod.mk.injEq] at h
          obtain ⟨rfl, -⟩ := h
          obtain ⟨pn, h1, h2⟩ := hr.sub _ _ _ pu ho hb
          exact ⟨fair_both pn pl (hr.under _ _ pl pn hn), rfl,
            fun x hx => meets_both.mpr ⟨(meets_both.mp hx).1.tr h1, (meets_both.mp hx).2⟩,
            fun x hx => (meets_both.mp hx).1.tr h2⟩
        · simp only [Option.some.injEq, Prod.mk.injEq] at h
          obtain ⟨rfl, rfl⟩ := h
          exact old hm'
      | none =>
        simp only [hb, Option.some.injEq, Prod.mk.injEq] at h
        obtain ⟨rfl, rfl⟩ := h
        exact old hm'

/-- A type between the bounds. -/
def Between (mem : V → K → Prop) (o : K) : Bound K → Prop
  | .upper u => Under mem o u
  | .lower l => Under mem l o
  | .upperAndLower u l => Under mem o u ∧ Under mem l o
  | _ => False

theorem meets_of_between {b : Bound K} {o x : K} (h : Between mem o b)
    (h1 : Under mem o x) (h2 : Under mem x o) : Meets mem x b := by
  cases b with
  | uncalculated _ => cases h
  | invariant _ => cases h
  | upper u => exact meets_upper.mpr (h2.tr h)
  | lower l => exact meets_lower.mpr (Under.tr h h1)
  | upperAndLower u l => exact meets_both.mpr ⟨h2.tr h.1, Under.tr h.2 h1⟩

theorem updateUpper_step {b b' : Bound K} {o : K} (hf : Fair mem P b) (ho : P o)
    (hb : Between mem o b) (h : updateUpper o b = some b') : Step mem P b b' .contra o := by
  cases b with
  | uncalculated _ => cases hb
  | invariant _ => cases hb
  | upper u =>
    cases h
    exact ⟨fair_upper ho, rfl, fun x hx => meets_upper.mpr ((meets_upper.mp hx).tr hb),
      fun x hx => meets_upper.mp hx⟩
  | lower l =>
    have pl : P l := hf.types _ (by simp [Bound.types])
    simp only [updateUpper, Option.some.injEq] at h
    split at h <;> subst h
    · next e =>
      subst e
      exact ⟨fair_invariant ho, rfl, fun x hx => meets_lower.mpr (meets_invariant.mp hx).1,
        fun x hx => (meets_invariant.mp hx).2⟩
    · exact ⟨fair_both ho pl hb, rfl, fun x hx => meets_lower.mpr (meets_both.mp hx).2,
        fun x hx => (meets_both.mp hx).1⟩
  | upperAndLower u l =>
    have pl : P l := hf.types _ (by simp [Bound.types])
    simp only [updateUpper, Option.some.injEq] at h
    split at h <;> subst h
    · next e =>
      subst e
      exact ⟨fair_invariant ho, rfl,
        fun x hx => meets_both.mpr ⟨(meets_invariant.mp hx).2.tr hb.1, (meets_invariant.mp hx).1⟩,
        fun x hx => (meets_invariant.mp hx).2⟩
    · exact ⟨fair_both ho pl hb.2, rfl,
        fun x hx => meets_both.mpr ⟨(meets_both.mp hx).1.tr hb.1, (meets_both.mp hx).2⟩,
        fun x hx => (meets_both.mp hx).1⟩

/-- The common base type with the default of `update_lower_bound`. -/
theorem base_getD (hr : Right L mem P) (ht : Tight L mem P) {l o : K} (pl : P l) (ho : P o)
    (hc : (L.cmp .contra l o).bool = true) :
    P ((L.base l o).getD o) ∧ Under mem l ((L.base l o).getD o) ∧
      Under mem o ((L.base l o).getD o) ∧ Under mem ((L.base l o).getD o) o := by
  cases hb : L.base l o with
  | none => exact ⟨ho, hr.under _ _ pl ho hc, Under.rfl' _, Under.rfl' _⟩
  | some r =>
    obtain ⟨pr, h1, h2⟩ := hr.base _ _ _ pl ho hb
    exact ⟨pr, h1, h2, ht _ _ _ pl ho hc hb⟩

/-- The comparison that found the type between the bounds. -/
def lowerOf : Bound K → Option K
  | .lower l => some l
  | .upperAndLower _ l => some l
  | _ => none

theorem updateLower_step (hr : Right L mem P) (ht : Tight L mem P) {b b' : Bound K} {o : K}
    (hf : Fair mem P b) (ho : P o) (hb : Between mem o b)
    (hc : ∀ l, lowerOf b = some l → (L.cmp .contra l o).bool = true)
    (h : updateLower L o b = some b') : Step mem P b b' .cov o := by
  cases b with
  | uncalculated _ => cases hb
  | invariant _ => cases hb
  | upper u =>
    have pu : P u := hf.types _ (by simp [Bound.types])
    simp only [updateLower, Option.some.injEq] at h
    split at h <;> subst h
    · next e =>
      subst e
      exact ⟨fair_invariant ho, rfl, fun x hx => meets_upper.mpr (meets_invariant.mp hx).2,
        fun x hx => (meets_invariant.mp hx).1⟩
    · exact ⟨fair_both pu ho hb, rfl, fun x hx => meets_upper.mpr (meets_both.mp hx).1,
        fun x hx => (meets_both.mp hx).2⟩
  | lower l =>
    have pl : P l := hf.types _ (by simp [Bound.types])
    obtain ⟨p, h1, h2, -⟩ := base_getD hr ht pl ho (hc _ rfl)
    cases h
    exact ⟨fair_lower p, rfl, fun x hx => meets_lower.mpr (h1.tr (meets_lower.mp hx)),
      fun x hx => h2.tr (meets_lower.mp hx)⟩
  | upperAndLower u l =>
    have pl : P l := hf.types _ (by simp [Bound.types])
    have pu : P u := hf.types _ (by simp [Bound.types])
    obtain ⟨p, h1, h2, h3⟩ := base_getD hr ht pl ho (hc _ rfl)
    simp only [updateLower, Option.some.injEq] at h
    split at h <;> subst h
    · next e =>
      refine ⟨fair_invariant p, rfl, fun x hx => meets_both.mpr ⟨?_, h1.tr (meets_invariant.mp hx).1⟩,
        fun x hx => h2.tr (meets_invariant.mp hx).1⟩
      rw [e]; exact (meets_invariant.mp hx).2
    · exact ⟨fair_both pu p (h3.tr hb.1), rfl,
        fun x hx => meets_both.mpr ⟨(meets_both.mp hx).1, h1.tr (meets_both.mp hx).2⟩,
        fun x hx => h2.tr (meets_both.mp hx).2⟩

theorem inside_step (hr : Right L mem P) (ht : Tight L mem P) {b b' : Bound K} {o : K}
    {m m' : Match} {v : Variance} (hf : Fair mem P b) (hc : b.calculated = true) (ho : P o)
    (hb : m.bool = true → Between mem o b ∧
      ∀ l, lowerOf b = some l → (L.cmp .contra l o).bool = true)
    (h : inside L b o m v = some (b', m')) (hm' : m'.bool = true) : Step mem P b b' v o := by
  unfold inside at h
  split at h
  · next hm =>
    obtain ⟨hb, hl⟩ := hb hm
    cases v with
    | inv =>
      simp only [Option.map_some, Option.some.injEq, Prod.mk.injEq] at h
      obtain ⟨rfl, -⟩ := h
      exact ⟨fair_invariant ho, rfl,
        fun x hx => meets_of_between hb (meets_invariant.mp hx).1 (meets_invariant.mp hx).2,
        fun x hx => meets_invariant.mp hx⟩
    | cov =>
      simp only [Option.map_eq_some_iff, Prod.mk.injEq] at h
      obtain ⟨b'', h, rfl, -⟩ := h
      exact updateLower_step hr ht hf ho hb hl h
    | contra =>
      simp only [Option.map_eq_some_iff, Prod.mk.injEq] at h
      obtain ⟨b'', h, rfl, -⟩ := h
      exact updateUpper_step hf ho hb h
  · next hm => exact outside_step hr hf hc ho (by simpa using hm) h hm'

theorem mergeOne_step (hr : Right L mem P) (ht : Tight L mem P) {a a' : Arg K} {o : K} {m : Match}
    {v : Variance} (hf : Fair mem P a.bound) (ha : a.anyInContext = false) (ho : P o)
    (h : mergeOne L a o v = some (a', m)) (hm : m.bool = true) :
    Step mem P a.bound a'.bound v o ∧ a'.anyInContext = false ∧ a'.uninferrable = a.uninferrable ∧
      a'.byContext = a.byContext := by
  obtain ⟨b, c, u, any⟩ := a
  simp only at ha hf
  subst ha
  cases b with
  | uncalculated _ => cases h
  | invariant t =>
    have pt : P t := hf.types _ (by simp [Bound.types])
    simp only [mergeOne] at h
    split at h
    · next hm2 =>
      simp only [Bool.false_eq_true, if_false, Option.some.injEq, Prod.mk.injEq] at h
      obtain ⟨rfl, rfl⟩ := h
      obtain ⟨h1, h2⟩ := hr.same _ _ pt ho hm
      refine ⟨⟨hf, rfl, fun x hx => hx, fun x hx => ?_⟩, rfl, rfl, rfl⟩
      obtain ⟨h3, h4⟩ := meets_invariant.mp hx
      cases v
      · exact h1.tr h3
      · exact h4.tr h2
      · exact ⟨h1.tr h3, h4.tr h2⟩
    · next hm2 =>
      simp only [Option.map_eq_some_iff, Prod.mk.injEq] at h
      obtain ⟨⟨b', m'⟩, h, rfl, rfl⟩ := h
      exact ⟨outside_step hr hf rfl ho (by simpa using hm2) h hm, rfl, rfl, rfl⟩
  | upper t =>
    have pt : P t := hf.types _ (by simp [Bound.types])
    simp only [mergeOne, Option.map_eq_some_iff, Prod.mk.injEq] at h
    obtain ⟨⟨b', m'⟩, h, rfl, rfl⟩ := h
    exact ⟨inside_step hr ht hf rfl ho (fun e => ⟨hr.super _ _ pt ho e, by simp [lowerOf]⟩) h hm,
      rfl, rfl, rfl⟩
  | lower t =>
    have pt : P t := hf.types _ (by simp [Bound.types])
    simp only [mergeOne, Option.map_eq_some_iff, Prod.mk.injEq] at h
    obtain ⟨⟨b', m'⟩, h, rfl, rfl⟩ := h
    exact ⟨inside_step hr ht hf rfl ho
      (fun e => ⟨hr.under _ _ pt ho e, by rintro _ ⟨⟩; exact e⟩) h hm, rfl, rfl, rfl⟩
  | upperAndLower u l =>
    have pu : P u := hf.types _ (by simp [Bound.types])
    have pl : P l := hf.types _ (by simp [Bound.types])
    simp only [mergeOne, Option.map_eq_some_iff, Prod.mk.injEq] at h
    obtain ⟨⟨b', m'⟩, h, rfl, rfl⟩ := h
    refine ⟨inside_step hr ht hf rfl ho (fun e => ?_) h hm, rfl, rfl, rfl⟩
    obtain ⟨e1, e2⟩ := and_true e
    exact ⟨⟨hr.super _ _ pu ho e1, hr.under _ _ pl ho e2⟩, by rintro _ ⟨⟩; exact e2⟩

/-- Nothing went wrong so far. -/
structure Sane (mem : V → K → Prop) (P : K → Prop) (a : Arg K) : Prop where
  fair : Fair mem P a.bound
  any : a.anyInContext = false
  inferrable : a.uninferrable = false

theorem merge_step (hr : Right L mem P) (ht : Tight L mem P) (hn : ∀ k, P k → L.maybeAny k = none)
    {a a' : Arg K} {o : Bound K} {m : Match} (ha : Sane mem P a) (ho : Fair mem P o)
    (h : merge L a o = some (a', m)) (hm : m.bool = true) :
    Sane mem P a' ∧ ∀ x, Meets mem x a'.bound → Meets mem x a.bound ∧ Meets mem x o := by
  obtain ⟨b, c, u, any⟩ := a
  obtain ⟨hf, hany, hu⟩ := ha
  simp only at hany hf hu
  subst hany hu
  unfold merge at h
  split at h
  · next e =>
    cases h
    simp only at e
    subst e
    exact ⟨⟨hf, rfl, rfl⟩, fun x hx => ⟨hx, hx⟩⟩
  · simp only at h
    have one : ∀ {v : Variance} {t : K} {r : Arg K × Match}, P t → b.calculated = true →
        mergeOne L ⟨b, c, false, false⟩ t v = some r → r.2.bool = true →
        Sane mem P r.1 ∧ ∀ x, Meets mem x r.1.bound → Meets mem x b ∧ Solves mem x (v, t) :=
      fun pt _ h hm =>
        have := mergeOne_step hr ht hf rfl pt h hm
        ⟨⟨this.1.fair, this.2.1, this.2.2.1⟩, fun x hx => ⟨this.1.old x hx, this.1.new x hx⟩⟩
    have conf : ∀ {r : Arg K × Match}, conflict r = (a', m) → r = (a', m) := by
      intro r hr'
      unfold conflict at hr'
      split at hr'
      · next e =>
        have e2 : r.2 = m := congrArg Prod.snd hr'
        rw [e2, hm] at e
        simp at e
      · exact hr'
    cases b with
    | uncalculated f =>
      simp only at h
      split at h
      · have hno : o.maybeAny L = none := by
          cases o with
          | uncalculated _ => rfl
          | invariant k => exact hn _ (ho.types _ (by simp [Bound.types]))
          | upper k => exact hn _ (ho.types _ (by simp [Bound.types]))
          | lower k => exact hn _ (ho.types _ (by simp [Bound.types]))
          | upperAndLower u l =>
            have : L.maybeAny u = none := hn _ (ho.types _ (by simp [Bound.types]))
            simp [Bound.maybeAny, this]
        simp only [hno, Option.some.injEq, Prod.mk.injEq] at h
        obtain ⟨rfl, -⟩ := h
        exact ⟨⟨ho, rfl, rfl⟩, fun x hx => ⟨by simp, hx⟩⟩
      · next e =>
        simp only [Option.some.injEq, Prod.mk.injEq] at h
        obtain ⟨rfl, -⟩ := h
        refine ⟨⟨hf, rfl, rfl⟩, fun x hx => ⟨hx, ?_⟩⟩
        cases o with
        | uncalculated _ => simp
        | _ => simp [Bound.calculated] at e
    | _ =>
      cases o with
      | uncalculated _ =>
        simp only [Option.some.injEq, Prod.mk.injEq] at h
        obtain ⟨rfl, -⟩ := h
        exact ⟨⟨hf, rfl, rfl⟩, fun x hx => ⟨hx, by simp⟩⟩
      | upperAndLower p q =>
        have pp : P p := ho.types _ (by simp [Bound.types])
        have pq : P q := ho.types _ (by simp [Bound.types])
        simp only [Option.bind_eq_some_iff, Option.map_eq_some_iff] at h
        obtain ⟨r, hr1, s, hs, e⟩ := h
        have e := conf e
        simp only [Prod.mk.injEq] at e
        obtain ⟨rfl, rfl⟩ := e
        obtain ⟨m1, m2⟩ := and_true hm
        obtain ⟨s1, f1⟩ := one pp rfl hr1 m1
        have := mergeOne_step hr ht s1.fair s1.any pq hs m2
        refine ⟨⟨this.1.fair, this.2.1, this.2.2.1.trans s1.inferrable⟩, fun x hx => ?_⟩
        have h1 := f1 x (this.1.old x hx)
        exact ⟨h1.1, meets_both.mpr ⟨h1.2, this.1.new x hx⟩⟩
      | _ k =>
        have pk : P k := ho.types _ (by simp [Bound.types])
        simp only [Option.map_eq_some_iff] at h
        obtain ⟨r, hr1, e⟩ := h
        have e := conf e
        subst e
        obtain ⟨s1, f1⟩ := one pk rfl hr1 hm
        exact ⟨s1, fun x hx => ⟨(f1 x hx).1, by simpa [Solves] using (f1 x hx).2⟩⟩

/-- The type that is chosen is between the bounds. -/
theorem meets_solved {a : Arg K} (h : Sane mem P a) : Meets mem (a.solved L) a.bound := by
  obtain ⟨b, c, u, any⟩ := a
  obtain ⟨hf, hany, hu⟩ := h
  simp only at hany hf hu
  subst hany hu
  cases b with
  | uncalculated _ => simp
  | invariant k => simpa [Arg.solved] using Under.rfl' (mem := mem) k
  | upper k => simpa [Arg.solved] using Under.rfl' (mem := mem) k
  | lower k => simpa [Arg.solved] using Under.rfl' (mem := mem) k
  | upperAndLower u l =>
    simpa [Arg.solved] using ⟨hf.order _ _ rfl, Under.rfl' (mem := mem) l⟩

end Verif.Solve
