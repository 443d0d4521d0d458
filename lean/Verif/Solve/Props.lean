import Verif.Solve.Python

/-! # What solving type variables guarantees -/

namespace Verif.Solve

open Verif.Match Verif.Sub

section

variable {K V : Type} {mem : V → K → Prop} {P : K → Prop} {L : Lang K} [DecidableEq K]

/-- C104: matching types with a type variable does not panic. -/
theorem solving_never_panics (kind : Kind K) (a : Arg K) (cs : List (Variance × K)) :
    matchAll L kind a cs ≠ none := by
  obtain ⟨r, hr⟩ := matchAll_total (L := L) kind cs a
  simp [hr]

/-- C104: if all types match, the type that is chosen for the type variable stands in the right
relation to each of them.  Missing: types with `Any`, and common base types that are wider than
necessary, see `join_violation`. -/
theorem solved_fits_partial (hr : Right L mem P) (ht : Tight L mem P)
    (hn : ∀ k, P k → L.maybeAny k = none ∧ L.hasAny k = false) {kind : Kind K}
    (pk : ∀ k ∈ kind.types, P k) {cs : List (Variance × K)} (pc : ∀ c ∈ cs, P c.2) {a : Arg K}
    (h : matchAll L kind {} cs = some (some a)) : ∀ c ∈ cs, Solves mem (a.solved L) c := by
  obtain ⟨s, f⟩ := matchAll_step hr ht hn pk pc sane_empty h
  exact (f _ (meets_solved s)).2

/-- C104: the same if the expected type was matched before.  The expected type counts too, unless
it is `None`. -/
theorem solved_fits_context_partial (hr : Right L mem P) (ht : Tight L mem P)
    (hn : ∀ k, P k → L.maybeAny k = none ∧ L.hasAny k = false) {kind : Kind K}
    (pk : ∀ k ∈ kind.types, P k) {ctx cs : List (Variance × K)} (px : ∀ c ∈ ctx, P c.2)
    (pc : ∀ c ∈ cs, P c.2) {a b : Arg K} (hx : matchAll L kind {} ctx = some (some a))
    (h : matchAll L kind (resetContext L a) cs = some (some b)) :
    (∀ c ∈ cs, Solves mem (b.solved L) c) ∧
      (a.bound.isNone L = false → ∀ c ∈ ctx, Solves mem (b.solved L) c) := by
  obtain ⟨s, f⟩ := matchAll_step hr ht hn pk px sane_empty hx
  obtain ⟨s', f'⟩ := matchAll_step hr ht hn pk pc (sane_reset hn s) h
  obtain ⟨g1, g2⟩ := f' _ (meets_solved s')
  refine ⟨g2, fun hnone => ?_⟩
  refine (f _ ?_).2
  unfold resetContext at g1
  split at g1
  · next hc =>
    simp only [hnone, s.inferrable, Bool.or_false, Bool.false_or, Bool.not_eq_true'] at hc
    cases hb : a.bound with
    | uncalculated _ => simp
    | _ => rw [hb] at hc; cases hc
  · exact g1

/-- A type variable of ordered types. -/
theorem ordered_step (ho : Ordered L) {cs : List (Variance × K)} {a : Arg K}
    (h : matchAll L .unrestricted {} cs = some (some a)) :
    (∀ c ∈ cs, L.Fulfils (a.solved L) c) ∧ Sane (below L) (fun _ => True) a ∧
      ∀ x, (∀ c ∈ cs, L.Fulfils x c) → Meets (below L) x a.bound := by
  obtain ⟨s, f⟩ := matchAll_step (kind := .unrestricted) (mem := below L) (P := fun _ => True)
    ho.right ho.tight (fun k _ => ho.noAny k) (by simp [Kind.types]) (by simp) sane_empty h
  exact ⟨fun c hc => (solves_iff ho).mp ((f _ (meets_solved s)).2 c hc), s, fun x hx =>
    (matchAll_exact ho sane_empty h).1 a rfl x (by simp) fun c hc => (solves_iff ho).mpr (hx c hc)⟩

/-- C105: there is a mismatch exactly if no type stands in the right relation to all types.
Missing: types that are not ordered, see `order_violation`. -/
theorem accepted_iff_solvable_partial (ho : Ordered L) (cs : List (Variance × K)) :
    (∃ a, matchAll L .unrestricted {} cs = some (some a)) ↔ ∃ x, ∀ c ∈ cs, L.Fulfils x c := by
  constructor
  · rintro ⟨a, h⟩
    exact ⟨_, (ordered_step ho h).1⟩
  · rintro ⟨x, hx⟩
    obtain ⟨r, hr⟩ := matchAll_total (L := L) .unrestricted cs {}
    cases r with
    | some a => exact ⟨a, hr⟩
    | none =>
      exact absurd ⟨x, by simp, fun c hc => (solves_iff ho).mpr (hx c hc)⟩
        ((matchAll_exact ho sane_empty hr).2 rfl)

/-- C105: the type that is chosen can be assigned to all others that were possible, if there is
a type that it has to give room for. -/
theorem solved_least_partial (ho : Ordered L) {cs : List (Variance × K)} {a : Arg K}
    (h : matchAll L .unrestricted {} cs = some (some a)) (hc : ∃ c ∈ cs, c.1 ≠ .contra)
    {x : K} (hx : ∀ c ∈ cs, L.Fulfils x c) : L.le (a.solved L) x := by
  obtain ⟨-, s, f⟩ := ordered_step ho h
  have hl := matchAll_hasLower ho sane_empty h
  have hm := f x hx
  obtain ⟨c, hc, hv⟩ := hc
  have : a.bound.hasLower = true := by
    rw [hl]; simp only [Bool.or_eq_true, List.any_eq_true]
    exact .inr ⟨c, hc, by simpa using hv⟩
  obtain ⟨b, y, u, any⟩ := a
  have hu := s.inferrable
  simp only at hu hm this
  subst hu
  cases b with
  | uncalculated _ => cases this
  | upper _ => cases this
  | invariant k => exact (under_iff ho).mp (meets_invariant.mp hm).1
  | lower k => exact (under_iff ho).mp (meets_lower.mp hm)
  | upperAndLower u l => exact (under_iff ho).mp (meets_both.mp hm).2

/-- C105: otherwise all others can be assigned to the type that is chosen. -/
theorem solved_greatest_partial (ho : Ordered L) {cs : List (Variance × K)} {a : Arg K}
    (h : matchAll L .unrestricted {} cs = some (some a)) (hc : ∀ c ∈ cs, c.1 = .contra)
    (hne : cs ≠ []) {x : K} (hx : ∀ c ∈ cs, L.Fulfils x c) : L.le x (a.solved L) := by
  obtain ⟨-, s, f⟩ := ordered_step ho h
  have hl := matchAll_hasLower ho sane_empty h
  have hcalc := matchAll_calculated ho hne h
  have hm := f x hx
  have : a.bound.hasLower = false := by
    rw [hl]
    have : (cs.any fun c => decide (c.1 ≠ .contra)) = false := by simpa using hc
    rw [this]; rfl
  obtain ⟨b, y, u, any⟩ := a
  have hu := s.inferrable
  simp only at hu hm this hcalc
  subst hu
  cases b with
  | uncalculated _ => cases hcalc
  | upper k => exact (under_iff ho).mp (meets_upper.mp hm)
  | _ => cases this

/-- C105: the order of the types does not matter: neither whether all match, nor, up to
assignability in both directions, which type is chosen. -/
theorem order_independent_partial (ho : Ordered L) {cs ds : List (Variance × K)}
    (hp : cs.Perm ds) {a : Arg K} (h : matchAll L .unrestricted {} cs = some (some a)) :
    ∃ b, matchAll L .unrestricted {} ds = some (some b) ∧
      L.le (a.solved L) (b.solved L) ∧ L.le (b.solved L) (a.solved L) := by
  have ha := (ordered_step ho h).1
  obtain ⟨b, hb⟩ := (accepted_iff_solvable_partial ho ds).mpr
    ⟨_, fun c hc => ha c (hp.mem_iff.mpr hc)⟩
  have hb1 := (ordered_step ho hb).1
  have ha' : ∀ c ∈ ds, L.Fulfils (a.solved L) c := fun c hc => ha c (hp.mem_iff.mpr hc)
  have hb' : ∀ c ∈ cs, L.Fulfils (b.solved L) c := fun c hc => hb1 c (hp.mem_iff.mp hc)
  refine ⟨b, hb, ?_⟩
  by_cases hl : ∃ c ∈ cs, c.1 ≠ .contra
  · have hl' : ∃ c ∈ ds, c.1 ≠ .contra := hl.imp fun c hc => ⟨hp.mem_iff.mp hc.1, hc.2⟩
    exact ⟨solved_least_partial ho h hl hb', solved_least_partial ho hb hl' ha'⟩
  · have hl : ∀ c ∈ cs, c.1 = .contra := fun c hc => Decidable.byContradiction fun e =>
      hl ⟨c, hc, e⟩
    by_cases hne : cs = []
    · subst hne
      have := hp.nil_eq
      subst this
      rw [h] at hb
      cases hb
      exact ⟨ho.refl _, ho.refl _⟩
    · have hne' : ds ≠ [] := fun e => hne (by subst e; exact hp.eq_nil)
      exact ⟨solved_greatest_partial ho hb (fun c hc => hl c (hp.mem_iff.mpr hc)) hne' ha',
        solved_greatest_partial ho h hl hne hb'⟩

/-- C106: the type that is chosen for a type variable with a bound is within the bound.  Missing:
common base types that are wider than necessary, see `bound_join_violation`. -/
theorem solved_within_bound_partial (hr : Right L mem P) (hle : Least L mem P)
    (hn : ∀ k, P k → L.maybeAny k = none ∧ L.hasAny k = false) {b : K} (pb : P b)
    {cs : List (Variance × K)} (hne : cs ≠ []) (pc : ∀ c ∈ cs, P c.2) {a : Arg K}
    (h : matchAll L (.bound b) {} cs = some (some a)) :
    ∀ v, mem v (a.solved L) → mem v b := by
  have ht : Tight L mem P := fun x y r px py hc e =>
    hle x y r y px py py e (hr.under _ _ px py hc) (Under.rfl' y)
  obtain ⟨s, -⟩ := matchAll_step hr ht hn (kind := .bound b) (by simpa [Kind.types] using pb) pc
    sane_empty h
  have key : ∀ k ∈ a.bound.types, P k ∧ Under mem k b := by
    refine matchAll_types (P := P) (Q := fun k => P k ∧ Under mem k b) ⟨?_, ?_⟩ ?_ pc
      (by simp [Bound.types]) h
    · intro x y r hx hy e
      exact ⟨(hr.base _ _ _ hx.1 hy.1 e).1, hle _ _ _ _ hx.1 hy.1 pb e hx.2 hy.2⟩
    · intro x y r hx hy e
      obtain ⟨p, h1, -⟩ := hr.sub _ _ _ hx.1 hy.1 e
      exact ⟨p, h1.tr hx.2⟩
    · exact fun k pk hc => ⟨pk, hr.super _ _ pb pk hc⟩
  refine (key _ (solved_mem s.inferrable ?_)).2
  have := matchAll_bound_calculated hn pc hne h
  intro e
  rw [e] at this
  cases this

/-- C106: the type that is chosen for a type variable with constraints is one of them, or `Any`, or
another type variable whose constraints are all covered. -/
theorem solved_is_constraint {cs : List K} {xs : List (Variance × K)} (hne : xs ≠ []) {a : Arg K}
    (h : matchAll L (.constraints cs) {} xs = some (some a)) :
    a.solved L ∈ cs ∨ a.solved L = L.any ∨
      (a.solved L ∈ xs.map Prod.snd ∧ ∃ ds, L.constraints (a.solved L) = some ds ∧
        ∀ d ∈ ds, ∃ c ∈ cs, L.le d c) := by
  rcases matchAll_restricted (vs := []) (.inl rfl) h with ⟨e, -⟩ | ⟨c, hb, hc⟩
  · exact absurd e hne
  · have : a.solved L = c ∨ a.solved L = L.any := by
      unfold Arg.solved
      split
      · exact .inr rfl
      · rw [hb]; exact .inl rfl
    rcases this with e | e
    · rw [e]; simpa [Allowed, Lang.le] using hc
    · exact .inr (.inl e)

/-- C107: the type that is chosen for the type variables of a cycle stands in the right relation to
all types that were matched with one of them, and to the constraints between type variables after
replacing those.  Missing: constraints that the type has to give room for, see
`transitive_violation`. -/
theorem resolved_fits_partial (hr : Right L mem P) (ht : Tight L mem P)
    (hn : ∀ k, P k → L.maybeAny k = none) {f : K → Option K} {inCycle : Bound K → Bool}
    {vars : List (Arg K × List (Bound K))} (hf : ∀ t ∈ vars, ∀ k ∈ t.1.bound.types, P k)
    (ho : ∀ t ∈ vars, ∀ u l, t.1.bound = .upperAndLower u l → Under mem l u)
    (hu : ∀ t ∈ vars, ∀ u ∈ t.2, ∃ v k, u = .new k v ∧ P (replaced f k) ∧ (v = .cov → f k = none))
    {a : Arg K} (h : resolveCycle L f inCycle {} vars = some (some a)) :
    ∀ t ∈ vars, (∀ c ∈ t.1.bound.asConstraints, Solves mem (a.solved L) c) ∧
      ∀ u ∈ t.2, inCycle u = false → ∀ v k, u = .new k v →
        Solves mem (a.solved L) (v, replaced f k) := by
  obtain ⟨s, g⟩ := resolveCycle_step hr ht hn (fun t ht => ⟨hf t ht, ho t ht⟩)
    (fun t ht u hu' => by
      obtain ⟨v, k, h1, h2, h3⟩ := hu t ht u hu'
      exact ⟨v, k, h1, h2, h3⟩) sane_empty h
  exact (g _ (meets_solved s)).2

end

/-! ## The types of Python -/

variable {V : Type} {w : World} {M : Meaning V} {p q : Nat}

/-- C104 for the types of Python, without the option `use_joins`. -/
theorem python_solved_partial (hl : Lawful w M) (ht : Tame w p q) {su : Ty → Ty → Ty}
    (hu : Unites w M p q su) {n : Nat} {kind : Kind Ty} (pk : ∀ k ∈ kind.types, Good w p q true k)
    {cs : List (Variance × Ty)} (pc : ∀ c ∈ cs, Good w p q true c.2) {a : Arg Ty}
    (h : matchAll (python w su false n) kind {} cs = some (some a)) :
    ∀ c ∈ cs, Solves M.mem (a.solved (python w su false n)) c :=
  have hr := right_python hl ht hu n
  solved_fits_partial hr
    (fun x y r px py hc e => least_python hu n x y r y px py py e (hr.under _ _ px py hc)
      (Under.rfl' y)) clear_python pk pc h

/-- C106 for the types of Python, without the option `use_joins`. -/
theorem python_bound_partial (hl : Lawful w M) (ht : Tame w p q) {su : Ty → Ty → Ty}
    (hu : Unites w M p q su) {n : Nat} {b : Ty} (pb : Good w p q true b)
    {cs : List (Variance × Ty)} (hne : cs ≠ []) (pc : ∀ c ∈ cs, Good w p q true c.2) {a : Arg Ty}
    (h : matchAll (python w su false n) (.bound b) {} cs = some (some a)) :
    Within M (a.solved (python w su false n)) b :=
  solved_within_bound_partial (right_python hl ht hu n) (least_python hu n) clear_python pb hne pc h

/-! ## Cases that meet the hypotheses -/

namespace Instance

open Verif.Sub.Instance

/-- Without `use_joins`. -/
def unions : Lang Ty := python world plainUnion false 40
/-- With `use_joins`. -/
def joined : Lang Ty := python world plainUnion true 40

def object : Ty := .cls 0 []
def bool : Ty := .cls 2 []

theorem good_int {i : Bool} : Good world p q i int := .plain rfl
theorem good_str {i : Bool} : Good world p q i str := .plain rfl
theorem good_float {i : Bool} : Good world p q i float := .plain rfl
theorem good_bool {i : Bool} : Good world p q i bool := .plain rfl
theorem good_union {i : Bool} {a b : Ty} (ha : Good world p q i a) (hb : Good world p q i b)
    (h : a ≠ b) : Good world p q i (.union [a, b]) :=
  .union (by simp) (by simpa using h)
    (by intro t ht; simp at ht; rcases ht with rfl | rfl <;> assumption)

/-- `f(callback, 1, "")` where the callback takes `float | str`: the type variable is
`int | str`. -/
def calls : List (Variance × Ty) :=
  [(.contra, .union [float, str]), (.cov, int), (.cov, str), (.cov, bool)]

theorem calls_good : ∀ c ∈ calls, Good world 0 0 true c.2 := by
  intro c hc
  simp only [calls, List.mem_cons, List.not_mem_nil, or_false] at hc
  rcases hc with rfl | rfl | rfl | rfl
  exacts [good_union good_float good_str (by decide), good_int, good_str, good_bool]

theorem calls_solved : matchAll unions .unrestricted {} calls =
    some (some { bound := .upperAndLower (.union [float, str]) (.union [int, str, bool]) }) := by
  decide +kernel

example : Within meaning (.union [int, str, bool]) (.union [float, str]) :=
  python_solved_partial lawful (tame 0 0) (unites_plainUnion lawful) (kind := .unrestricted)
    (by simp [Kind.types]) calls_good calls_solved (.contra, .union [float, str])
    (by simp [calls])

/-- The state after matching the expected type `int | str`. -/
def expected : Arg Ty := { bound := .upper (.union [int, str]) }

/-- The expected type is matched first. -/
theorem expected_solved : matchAll unions .unrestricted {} [(.contra, .union [int, str])] =
      some (some expected) ∧
    matchAll unions .unrestricted (resetContext unions expected) [(.cov, bool), (.cov, str)] =
      some (some { bound := .upperAndLower (.union [int, str]) (.union [bool, str]),
                   byContext := true }) := by
  decide +kernel

theorem tight_unions : Tight unions meaning.mem (Good world 0 0 true) := fun x y r px py hc e =>
  have hr := right_python lawful (tame 0 0) (unites_plainUnion lawful) 40
  least_python (unites_plainUnion lawful) 40 x y r y px py py e (hr.under _ _ px py hc)
    (Under.rfl' y)

example : Within meaning (.union [bool, str]) (.union [int, str]) :=
  (solved_fits_context_partial (right_python lawful (tame 0 0) (unites_plainUnion lawful) 40)
    tight_unions clear_python (kind := .unrestricted) (by simp [Kind.types])
    (by intro c hc; simp at hc; subst hc; exact good_union good_int good_str (by decide))
    (by intro c hc; simp at hc; rcases hc with rfl | rfl; exacts [good_bool, good_str])
    expected_solved.1 expected_solved.2).2 rfl (.contra, .union [int, str]) (by simp)

/-- A type variable with the bound `float`, and one with the constraints `int` and `str`. -/
example : matchAll unions (.bound float) {} [(.cov, int), (.cov, bool)] =
      some (some { bound := .lower (.union [int, bool]) }) ∧
    matchAll unions (.bound float) {} [(.cov, int), (.cov, str)] = some none ∧
    matchAll unions (.constraints [int, str]) {} [(.cov, bool), (.cov, int)] =
      some (some { bound := .invariant int }) ∧
    matchAll unions (.constraints [int, str]) {} [(.cov, bool), (.cov, str)] = some none := by
  decide +kernel

example : Within meaning (.union [int, bool]) float :=
  python_bound_partial lawful (tame 0 0) (unites_plainUnion lawful) (n := 40) good_float
    (cs := [(.cov, int), (.cov, bool)]) (by simp)
    (by intro c hc; simp at hc; rcases hc with rfl | rfl; exacts [good_int, good_bool])
    (a := { bound := .lower (.union [int, bool]) }) (by decide +kernel)

/-- C104 is false with `use_joins`: if a type variable has to be below `int`, and then `UserId` and
`int` are matched with it, where `UserId = NewType("UserId", int)`, it becomes `object`. -/
theorem join_violation :
    (∃ a, matchAll joined .unrestricted {} [(.contra, int), (.cov, .newType 0), (.cov, int)] =
      some (some a) ∧ a.solved joined = object) ∧
    ¬ Solves meaning.mem object (.contra, int) :=
  ⟨⟨{ bound := .upperAndLower int object }, by decide +kernel, rfl⟩, fun h => by
    have := h (.base (.str "")) (by simp [meaning, object, sem, isClass, sems])
    simp [meaning, int, sem, isClass, sems] at this⟩

/-- Types that are pairs of numbers. -/
def pairs : Lang (Nat × Nat) where
  cmp v a b :=
    let le (a b : Nat × Nat) : Bool := a.1 ≤ b.1 && a.2 ≤ b.2
    let ok := match v with
      | .cov => le b a
      | .contra => le a b
      | .inv => le a b && le b a
    if ok then .newTrue else .newFalse
  base a b := some (max a.1 b.1, max a.2 b.2)
  sub a b := some (min a.1 b.1, min a.2 b.2)
  maybeAny _ := none
  hasAny _ := false
  isNone _ := false
  any := (0, 0)
  never := (0, 0)
  constraints _ := none

theorem pairs_le {a b : Nat × Nat} : pairs.le a b ↔ a.1 ≤ b.1 ∧ a.2 ≤ b.2 := by
  simp only [Lang.le, pairs]
  split <;> simp_all [Match.bool, Match.newTrue, Match.newFalse]

theorem pairs_ordered : Ordered pairs where
  refl := fun a => pairs_le.mpr ⟨Nat.le_refl _, Nat.le_refl _⟩
  trans := fun a b c h1 h2 => by rw [pairs_le] at *; omega
  contra := fun a b => by
    rw [pairs_le]
    simp only [pairs]
    split <;> simp_all [Match.bool, Match.newTrue, Match.newFalse]
  same := fun a b => by
    rw [pairs_le, pairs_le]
    simp only [pairs]
    split <;> simp_all [Match.bool, Match.newTrue, Match.newFalse]
  base := fun a b => ⟨_, rfl, pairs_le.mpr (by simp), pairs_le.mpr (by simp),
    fun c h1 h2 => by rw [pairs_le] at *; simp; omega⟩
  sub := fun a b r h => by
    cases h
    exact ⟨pairs_le.mpr (by simp), pairs_le.mpr (by simp),
      fun c h1 h2 => by rw [pairs_le] at *; simp; omega⟩
  noSub := fun a b h => by cases h
  noAny := fun _ => ⟨rfl, rfl⟩

example : matchAll pairs .unrestricted {} [(.cov, (1, 3)), (.contra, (5, 5)), (.cov, (2, 2))] =
      some (some { bound := .upperAndLower (5, 5) (2, 3) }) ∧
    matchAll pairs .unrestricted {} [(.cov, (1, 3)), (.inv, (2, 2))] = some none := by
  decide +kernel

example : ¬ ∃ x, ∀ c ∈ [(.cov, (1, 3)), (.inv, (2, 2))], pairs.Fulfils x c := by
  rw [← accepted_iff_solvable_partial pairs_ordered]
  rintro ⟨a, h⟩
  have : matchAll pairs .unrestricted {} [(.cov, (1, 3)), (.inv, (2, 2))] = some none := by
    decide +kernel
  rw [this] at h
  cases h

example : ∃ b, matchAll pairs .unrestricted {}
    [(.cov, (2, 2)), (.cov, (1, 3)), (.contra, (5, 5))] = some (some b) ∧
      pairs.le (2, 3) (b.solved pairs) ∧ pairs.le (b.solved pairs) (2, 3) :=
  order_independent_partial pairs_ordered (cs := [(.cov, (1, 3)), (.contra, (5, 5)), (.cov, (2, 2))])
    (by decide) (a := { bound := .upperAndLower (5, 5) (2, 3) }) (by decide +kernel)

example {x : Nat × Nat} (hx : ∀ c ∈ [(.contra, (1, 3)), (.contra, (2, 2))], pairs.Fulfils x c) :
    pairs.le x (1, 2) :=
  solved_greatest_partial pairs_ordered (a := { bound := .upper (1, 2) }) (by decide +kernel)
    (by simp) (by simp) hx

/-- C105 is false with `use_joins`: `f(1, "", x)` is an error where `x` has the type
`list[int | str]`, but not if `x` comes first. -/
theorem order_violation :
    [(.inv, .union [int, str]), (.cov, int), (.cov, str)].Perm
      [(.cov, int), (.cov, str), (Variance.inv, Ty.union [int, str])] ∧
    (∃ a, matchAll joined .unrestricted {} [(.inv, .union [int, str]), (.cov, int), (.cov, str)] =
      some (some a)) ∧
    matchAll joined .unrestricted {} [(.cov, int), (.cov, str), (.inv, .union [int, str])] =
      some none :=
  ⟨by decide, ⟨{ bound := .invariant (.union [int, str]) }, by decide +kernel⟩, by decide +kernel⟩

/-- C105 is false for type variables with a bound: a callback that takes `object` is an error for
a type variable with the bound `int`, but `int` would do. -/
theorem bound_contra_violation :
    matchAll unions (.bound int) {} [(.contra, object)] = some none ∧
    matchAll unions (.bound int) {} [(.cov, int)] = some (some { bound := .lower int }) ∧
    Solves meaning.mem int (.contra, object) :=
  ⟨by decide +kernel, by decide +kernel, fun v _ => by
    simp [meaning, object, sem, isClass, sems]⟩

/-- C106 is false with `use_joins`: a type variable with the bound `int | str` becomes `object`
if it has to give room for `int` and `str`. -/
theorem bound_join_violation :
    (∃ a, matchAll joined (.bound (.union [int, str])) {} [(.cov, int), (.cov, str)] =
      some (some a) ∧ a.solved joined = object) ∧
    ¬ Within meaning object (.union [int, str]) :=
  ⟨⟨{ bound := .lower object }, by decide +kernel, rfl⟩, fun h => by
    have := h .none (by simp [meaning, object, sem, isClass, sems])
    simp [meaning, int, str, sem, isClass, sems] at this⟩

/-- Replaces the first type variable with `int`. -/
def withInt : Ty → Option Ty
  | .var 0 => some int
  | _ => none

/-- A type variable that must be above `bool` and below another one, for which `int` was found. -/
def cycle : List (Arg Ty × List (Bound Ty)) := [({ bound := .lower bool }, [.upper (.var 0)])]

theorem cycle_resolved : resolveCycle unions withInt (fun _ => false) {} cycle =
    some (some { bound := .upperAndLower int bool }) := by decide +kernel

example : Within meaning bool int :=
  ((resolved_fits_partial (right_python lawful (tame 0 0) (unites_plainUnion lawful) 40)
    tight_unions (fun k hk => (clear_python k hk).1)
    (by
      intro t ht; simp only [cycle, List.mem_singleton] at ht; subst ht
      simpa [Bound.types] using good_bool)
    (by
      intro t ht; simp only [cycle, List.mem_singleton] at ht; subst ht
      simp)
    (by
      intro t ht; simp only [cycle, List.mem_singleton] at ht; subst ht
      intro u hu; simp only [List.mem_singleton] at hu; subst hu
      exact ⟨.contra, .var 0, rfl, good_int, by simp⟩)
    cycle_resolved) _ (.head _)).2 _ (.head _) rfl .contra (.var 0) rfl

/-- C107 is false for the other direction, because a lower bound becomes an upper bound when its
type variables are replaced: a type variable that must be above `bool` and above `int` becomes
`bool`. -/
theorem transitive_violation :
    (Bound.lower (.var 0)).replace withInt = some (.upper int) ∧
    (∃ a, resolveCycle unions withInt (fun _ => false) {}
      [({ bound := .lower bool }, [.lower (.var 0)])] = some (some a) ∧ a.solved unions = bool) ∧
    ¬ Solves meaning.mem bool (.cov, replaced withInt (.var 0)) :=
  ⟨by decide +kernel, ⟨{ bound := .upperAndLower int bool }, by decide +kernel, rfl⟩, fun h => by
    have := h (.base (.int 0)) (by simp [meaning, replaced, withInt, int, sem, isClass, sems])
    simp [meaning, bool, sem, isClass, sems] at this⟩

end Instance

end Verif.Solve
