import Verif.Dataclass.Post

/-! # Theorems about dataclasses

C117 the parameters of `__init__`, C118 the errors, C119 panics, C120 `__post_init__`,
C121 `__match_args__`, C122 `dataclasses.replace`. -/

namespace Verif.Dataclass

/-! ## An example -/

/-- `class A: x: int; y: str = ""; _: KW_ONLY; k: int`, `class B(A): z: int = 0; y: bytes = b""` and a
`ClassVar`. -/
def program : List Def :=
  [{ fields := [{ name := "x", ty := 0 }, { name := "y", ty := 1, default := .value },
      { name := "_", kind := .marker, ty := 9 }, { name := "k", ty := 0 }] },
    { bases := [0], fields := [{ name := "z", ty := 0, default := .factory },
      { name := "y", ty := 2, default := .value },
      { name := "c", kind := .classVar, ty := 3, default := .value }] }]

theorem not_raises {mro : List PyClass} {d : Def} (h1 : ∀ b ∈ mro, b.frozen = d.frozen)
    (h2 : (d.fields.filter fun f => f.kind = .marker).length < 2)
    (h3 : firstBad false (positional (process mro d).fields) = none) : ¬ Raises mro d := by
  intro h
  cases h with
  | frozen b x y hb hx hy hn =>
    have := h1 b hb
    rw [hx, hy] at this
    exact hn (by simpa using this)
  | marker h => omega
  | order n h => rw [h3] at h; cases h

theorem program_works : Works [] program := by
  refine ⟨⟨by decide, by decide, by decide⟩, not_raises (by decide) (by decide) (by decide),
    ⟨by decide, by decide, by decide⟩, not_raises (by decide) (by decide) (by decide), trivial⟩

example : (calculateAll [] program).map (fun ks => ks.map fun k => k.inits.params.map (·.name)) =
    some [["x", "y", "k"], ["x", "y", "z", "k"]] := by decide

/-! ## C117: `__init__` -/

/-- C117: all classes of a program have the parameters that Python gives to `__init__`, in the same
order, with the same types and defaults, and no errors are reported. -/
theorem init_is_pythons_partial (ds : List Def) (h : Works [] ds) :
    ∃ ks, calculateAll [] ds = some ks ∧ ks.length = (pyClasses [] ds).length ∧
      ∀ (i : Nat) k c, ks[i]? = some k → (pyClasses [] ds)[i]? = some c → k.issues = [] ∧
        k.inits.params = (positional c.fields ++ keywordOnly c.fields).map
          fun e => ⟨e.name, e.kwOnly, e.hasDefault, e.ty, true⟩ := by
  obtain ⟨ks, h1, h2, h3⟩ := program_right step_right Works.step
    (ks := []) (cs := []) ⟨rfl, fun i k c h => by simp at h⟩ h
  exact ⟨ks, h1, h2, fun i k c hk hc => ⟨(h3 i k c hk hc).2, (h3 i k c hk hc).1.2⟩⟩

/-- The names of the parameters, and whether they are keyword-only, for the type checker. -/
def checkerInits (ds : List Def) : Option (List (List (String × Bool × Bool))) :=
  (calculateAll [] ds).map fun ks =>
    ks.map fun k => k.inits.params.map fun p => (p.name, p.kwOnly, p.hasDefault)

/-- The same for Python. -/
def pythonInits (ds : List Def) : List (List (String × Bool × Bool)) :=
  (pyClasses [] ds).map fun c =>
    (positional c.fields ++ keywordOnly c.fields).map fun e => (e.name, e.kwOnly, e.hasDefault)

/-- `class A: x: int`, `class B(A): x: int = field(init=False)`: Python's `B()` has no parameter, the
type checker wants `x`. -/
theorem override_without_init_violation : ∃ ds,
    checkerInits ds = some [[("x", false, false)], [("x", false, false)]] ∧
    pythonInits ds = [[("x", false, false)], []] :=
  ⟨[{ fields := [{ name := "x", ty := 0 }] },
    { bases := [0], fields := [{ name := "x", ty := 0, init := false }] }], by decide, by decide⟩

/-- `class A: x: int; y: int`, `class B(A): x: int = field(kw_only=True)`: in Python `x` moves behind
the star, for the type checker the keyword-only parameter stays in front of `y`. -/
theorem override_with_keyword_violation : ∃ ds,
    checkerInits ds = some [[("x", false, false), ("y", false, false)],
      [("x", true, false), ("y", false, false)]] ∧
    pythonInits ds = [[("x", false, false), ("y", false, false)],
      [("y", false, false), ("x", true, false)]] :=
  ⟨[{ fields := [{ name := "x", ty := 0 }, { name := "y", ty := 0 }] },
    { bases := [0], fields := [{ name := "x", ty := 0, kwOnly := some true }] }],
    by decide, by decide⟩

/-- `class A: x: int = field(init=False); y: int`, `class B(A): x: int`: the field keeps its place in
Python, so `B(1, 2)` sets `x` to 1, but for the type checker `y` is the first parameter. -/
theorem override_with_init_violation : ∃ ds,
    checkerInits ds = some [[("y", false, false)], [("y", false, false), ("x", false, false)]] ∧
    pythonInits ds = [[("y", false, false)], [("x", false, false), ("y", false, false)]] :=
  ⟨[{ fields := [{ name := "x", ty := 0, init := false }, { name := "y", ty := 0 }] },
    { bases := [0], fields := [{ name := "x", ty := 0 }] }], by decide, by decide⟩

/-- `class A: x: int = 3`, `class B(A): x: int`: in Python the field finds the value of the base
class, so `x` may be left out of `B()`; the type checker wants it. -/
theorem inherited_value_violation : ∃ ds,
    checkerInits ds = some [[("x", false, true)], [("x", false, false)]] ∧
    pythonInits ds = [[("x", false, true)], [("x", false, true)]] :=
  ⟨[{ fields := [{ name := "x", ty := 0, default := .value }] },
    { bases := [0], fields := [{ name := "x", ty := 0 }] }], by decide, by decide⟩

/-! ## C118: errors -/

/-- C118: after classes that Python accepts, errors are reported for the next class exactly if
Python raises a `TypeError`, and an error about defaults is about the field that Python names. -/
theorem errors_are_pythons_partial (ds : List Def) (d : Def) (h : Works [] ds)
    (hd : Steady (mroOf (pyClasses [] ds) d) d) :
    ∃ ks k, calculateAll [] (ds ++ [d]) = some (ks ++ [k]) ∧
      (k.issues = [] ↔ ¬ Raises (mroOf (pyClasses [] ds) d) d) ∧
      ∀ n, .noDefaultAfterDefault n ∈ k.issues ↔
        firstBad false (positional (process (mroOf (pyClasses [] ds) d) d).fields) = some n := by
  obtain ⟨ks, h1, he⟩ := program_right step_right Works.step
    (ks := []) (cs := []) ⟨rfl, fun i k c h => by simp at h⟩ h
  obtain ⟨inits, issues, g1, _, g2, _, g4, _⟩ := calculate_right (he.rels d.bases) hd
  refine ⟨ks, ⟨d.frozen, inits, issues⟩, ?_, g2, g4⟩
  rw [calculateAll_append, h1]
  simp only [Option.bind_some, calculateAll, g1, Option.bind_eq_bind]

/-- `class C(A): w: int` has a field without default after the default of `y`. -/
example : (calculateAll [] (program ++ [{ bases := [0], fields := [{ name := "w", ty := 0 }] }])).map
    (fun ks => ks.map (·.issues)) = some [[], [], [.noDefaultAfterDefault "w"]] := by decide
example : Steady (mroOf (pyClasses [] program) { bases := [0], fields := [{ name := "w", ty := 0 }] })
    { bases := [0], fields := [{ name := "w", ty := 0 }] } := ⟨by decide, by decide, by decide⟩
example : Raises (mroOf (pyClasses [] program) { bases := [0], fields := [{ name := "w", ty := 0 }] })
    { bases := [0], fields := [{ name := "w", ty := 0 }] } := .order "w" (by decide)

theorem mem_gaps {ps : List Param} {i m : Nat} {p q : Param} (hp : ps[m]? = some p)
    (hq : ps[m + 1]? = some q) (h1 : q.kwOnly = false) (h2 : p.hasDefault = true)
    (h3 : q.hasDefault = false) : i + m + 1 ∈ gaps i ps := by
  induction ps generalizing i m with
  | nil => cases hp
  | cons a ps ih =>
    cases ps with
    | nil => simp at hq
    | cons b ps =>
      cases m with
      | zero =>
        simp only [List.getElem?_cons_zero, Option.some.injEq, Nat.zero_add,
          List.getElem?_cons_succ] at hp hq
        subst hp hq
        rw [gaps, if_pos (by simp [h1, h2, h3])]
        simp
      | succ m =>
        have := ih (i := i + 1) (m := m) (by simpa using hp) (by simpa using hq)
        rw [gaps]
        have he : i + (m + 1) + 1 = i + 1 + m + 1 := by omega
        rw [he]
        split
        · exact List.mem_cons_of_mem _ this
        · exact this

theorem gaps_le_last {ps : List Param} {i k l : Nat} (hl : (gaps i ps).getLast? = some l)
    (hk : k ∈ gaps i ps) : k ≤ l := by
  induction ps generalizing i with
  | nil => cases hk
  | cons a ps ih =>
    cases ps with
    | nil => cases hk
    | cons b ps =>
      rw [gaps] at hl hk
      split at hk
      · next hc =>
        rw [if_pos hc] at hl
        cases hg : gaps (i + 1) (b :: ps) with
        | nil =>
          rw [hg] at hl hk
          simp only [List.getLast?_singleton, Option.some.injEq] at hl
          simp only [List.mem_singleton] at hk
          omega
        | cons x xs =>
          rw [hg, List.getLast?_cons_cons, ← hg] at hl
          rcases List.mem_cons.mp hk with rfl | hk
          · have := gaps_lt _ _ _ (List.mem_of_getLast? hl)
            omega
          · exact ih hl hk
      · next hc =>
        rw [if_neg hc] at hl
        exact ih hl hk

theorem sorted_at {ps : List Param} (h : Sorted ps) {i j : Nat} {p q : Param} (hij : i ≤ j)
    (hp : ps[i]? = some p) (hq : ps[j]? = some q) (hk : q.kwOnly = false) : p.kwOnly = false := by
  induction ps generalizing i j with
  | nil => cases hp
  | cons a ps ih =>
    cases j with
    | zero =>
      have : i = 0 := by omega
      subst this
      rw [hp] at hq
      cases hq
      exact hk
    | succ j =>
      cases i with
      | zero =>
        simp only [List.getElem?_cons_zero, Option.some.injEq] at hp
        subst hp
        cases ha : a.kwOnly
        · rfl
        · have := h.1 ha q (List.mem_of_getElem? (by simpa using hq))
          rw [hk] at this
          cases this
      | succ i => exact ih h.2 (i := i) (j := j) (by omega) (by simpa using hp) (by simpa using hq)

theorem default_goes_on {ps : List Param} (h : Sorted ps) {i j : Nat} {p q : Param}
    (hij : i ≤ j) (hp : ps[i]? = some p) (hq : ps[j]? = some q) (hk : q.kwOnly = false)
    (hd : p.hasDefault = true) (hn : ∀ k ∈ gaps 0 ps, k ≤ i) : q.hasDefault = true := by
  induction j generalizing q with
  | zero =>
    have : i = 0 := by omega
    subst this
    rw [hp] at hq
    cases hq
    exact hd
  | succ j ih =>
    by_cases hij' : i = j + 1
    · subst hij'
      rw [hp] at hq
      cases hq
      exact hd
    · have hlen : j < ps.length := by
        have := (List.getElem?_eq_some_iff.mp hq).1
        omega
      have hr := List.getElem?_eq_getElem hlen
      have hrk := sorted_at h (Nat.le_succ j) hr hq hk
      have hrd := ih (by omega) hr hrk
      cases hqd : q.hasDefault
      · have := hn _ (mem_gaps (i := 0) hr hq hk hrd hqd)
        omega
      · rfl

/-- C118: whatever the defaults of the fields are, the signature that is used afterwards is valid: no
parameter in front of the star is without default after one with default. -/
theorem signature_is_valid (ps ps' : List Param) (issues : List Issue) (hs : Sorted ps)
    (h : checkDefaults ps = some (ps', issues)) (i j : Nat) (p q : Param) (hij : i < j)
    (hp : ps'[i]? = some p) (hq : ps'[j]? = some q) (hk : q.kwOnly = false)
    (hd : p.hasDefault = true) : q.hasDefault = true := by
  unfold checkDefaults at h
  split at h
  · next first last hf hl =>
    split at h
    · split at h
      · simp only [Option.some.injEq, Prod.mk.injEq] at h
        obtain ⟨rfl, _⟩ := h
        have hlast := gaps_lt _ _ _ (List.mem_of_getLast? hl)
        have hlen : ((ps.take last).map fun p => { p with hasDefault := false }).length = last := by
          simp; omega
        by_cases hi : i < last
        · rw [List.getElem?_append_left (by omega)] at hp
          simp only [List.getElem?_map, Option.map_eq_some_iff] at hp
          obtain ⟨_, _, rfl⟩ := hp
          cases hd
        · rw [List.getElem?_append_right (by omega), hlen, List.getElem?_drop,
            show last + (i - last) = i from by omega] at hp
          rw [List.getElem?_append_right (by omega), hlen, List.getElem?_drop,
            show last + (j - last) = j from by omega] at hq
          refine default_goes_on hs (Nat.le_of_lt hij) hp hq hk hd fun k hk => ?_
          have := gaps_le_last hl hk
          omega
      · cases h
    · cases h
  · next hno =>
    simp only [Option.some.injEq, Prod.mk.injEq] at h
    obtain ⟨rfl, _⟩ := h
    refine default_goes_on hs (Nat.le_of_lt hij) hp hq hk hd fun k hk => ?_
    cases hg : gaps 0 ps with
    | nil => rw [hg] at hk; cases hk
    | cons x xs =>
      exact absurd (by simp [hg]) (fun e => hno x ((gaps 0 ps).getLast (by simp [hg])) e
        (List.getLast?_eq_some_getLast _))

/-- C118: so it is for every class that follows classes that Python accepts, also if Python raises a
`TypeError` for it. -/
theorem class_signature_is_valid_partial (ds : List Def) (d : Def) (h : Works [] ds)
    (hd : Steady (mroOf (pyClasses [] ds) d) d) (ks : List Known) (k : Known)
    (hk : calculateAll [] (ds ++ [d]) = some (ks ++ [k])) (i j : Nat) (p q : Param) (hij : i < j)
    (hp : k.inits.params[i]? = some p) (hq : k.inits.params[j]? = some q) (hkw : q.kwOnly = false)
    (hdef : p.hasDefault = true) : q.hasDefault = true := by
  obtain ⟨ks', h1, he⟩ := program_right step_right Works.step
    (ks := []) (cs := []) ⟨rfl, fun i k c h => by simp at h⟩ h
  obtain ⟨inits, issues, g1, _, _, _, _, is, g5⟩ := calculate_right (he.rels d.bases) hd
  rw [calculateAll_append, h1] at hk
  simp only [Option.bind_some, calculateAll, g1, Option.bind_eq_bind, Option.some.injEq] at hk
  have := List.append_inj_right' hk rfl
  simp only [List.cons.injEq, and_true] at this
  subst this
  exact signature_is_valid _ _ is (sorted_paramsOf _) g5 i j p q hij hp hq hkw hdef

/-- A keyword-only field that overrides a positional one leads to a signature that is not valid: for
`class A: x, y, z: int = field(default_factory=int)` and
`class B(A): y: int = field(kw_only=True); z: int`, Python raises a `TypeError` about `z` that the type
checker misses. -/
theorem class_signature_violation : ∃ (ds : List Def) (ks : List Known) (k : Known) (c : PyClass),
    calculateAll [] ds = some ks ∧ ks[1]? = some k ∧ k.issues = [] ∧
    (pyClasses [] ds)[1]? = some c ∧ firstBad false (positional c.fields) = some "z" ∧
    k.inits.params.map (fun p => (p.name, p.kwOnly, p.hasDefault)) =
      [("x", false, true), ("y", true, false), ("z", false, false)] :=
  ⟨[{ fields := [{ name := "x", ty := 0, default := .factory },
      { name := "y", ty := 0, default := .factory },
      { name := "z", ty := 0, default := .factory }] },
    { bases := [0], fields := [{ name := "y", ty := 0, kwOnly := some true },
      { name := "z", ty := 0 }] }], _, _, _, rfl, rfl, by decide, rfl, by decide, by decide⟩

example : (checkDefaults [⟨"a", false, true, 0, true⟩, ⟨"b", false, false, 0, true⟩]).map (·.1) =
    some [⟨"a", false, false, 0, true⟩, ⟨"b", false, false, 0, true⟩] := by decide

/-! ## C119: panics -/

/-- A field with an alias that is written with an escape, after one with a default, makes the type
checker panic. -/
theorem alias_violation : ∃ ds, calculateAll [] ds = none :=
  ⟨[{ fields := [{ name := "a", ty := 0, default := .value },
    { name := "b", ty := 0, alias := some ⟨"c", false⟩ }] }], by decide⟩

theorem replaceParam_slice {new : Param} {ps qs : List Param} (hn : new.slice = true)
    (hp : ∀ p ∈ ps, p.slice = true) (h : replaceParam new ps = some qs) : ∀ p ∈ qs, p.slice = true := by
  induction ps generalizing qs with
  | nil => cases h
  | cons a ps ih =>
    rw [replaceParam] at h
    split at h
    · cases h
      intro p hp'
      rcases List.mem_cons.mp hp' with rfl | hp'
      · exact hn
      · exact hp p (List.mem_cons_of_mem _ hp')
    · simp only [Option.map_eq_some_iff] at h
      obtain ⟨rs, h, rfl⟩ := h
      intro p hp'
      rcases List.mem_cons.mp hp' with rfl | hp'
      · exact hp p (List.mem_cons_self ..)
      · exact ih (fun q hq => hp q (List.mem_cons_of_mem _ hq)) h p hp'

theorem insertParam_slice {new : Param} {ps : List Param} (hn : new.slice = true)
    (hp : ∀ p ∈ ps, p.slice = true) : ∀ p ∈ insertParam new ps, p.slice = true := by
  induction ps with
  | nil => simpa [insertParam] using hn
  | cons a ps ih =>
    rw [insertParam]
    split
    · simpa [hn] using hp
    · intro p hp'
      rcases List.mem_cons.mp hp' with rfl | hp'
      · exact hp p (List.mem_cons_self ..)
      · exact ih (fun q hq => hp q (List.mem_cons_of_mem _ hq)) p hp'

theorem addParam_slice {new : Param} {ps : List Param} (hn : new.slice = true)
    (hp : ∀ p ∈ ps, p.slice = true) : ∀ p ∈ (addParam ps new).1, p.slice = true := by
  unfold addParam
  split
  · next h => exact replaceParam_slice hn hp h
  · exact insertParam_slice hn hp

theorem checkDefaults_some {ps : List Param} (h : ∀ p ∈ ps, p.slice = true) :
    ∃ r, checkDefaults ps = some r ∧ ∀ p ∈ r.1, p.slice = true := by
  unfold checkDefaults
  split
  · next first last hf hl =>
    have := gaps_lt _ _ _ (List.mem_of_head? hf)
    rw [List.getElem?_eq_getElem (by omega)]
    simp only [h _ (List.getElem_mem _), if_true]
    refine ⟨_, rfl, ?_⟩
    intro p hp
    rcases List.mem_append.mp hp with hp | hp
    · obtain ⟨q, hq, rfl⟩ := List.mem_map.mp hp
      exact h q (List.mem_of_mem_take hq)
    · exact h p (List.mem_of_mem_drop hp)
  · exact ⟨_, rfl, h⟩

theorem calculate_some {bases : List (Option Bool × Inits)} {d : Def}
    (hb : ∀ b ∈ bases, ∀ p ∈ b.2.params, p.slice = true)
    (hd : ∀ f ∈ d.fields, ∀ a, f.alias = some a → a.slice = true) :
    ∃ r, calculate bases d = some r ∧ ∀ p ∈ r.1.params, p.slice = true := by
  have h1 : ∀ (bs : List (Option Bool × Inits)) (s : State), (∀ b ∈ bs, ∀ p ∈ b.2.params, p.slice = true) →
      (∀ p ∈ s.params, p.slice = true) →
      ∀ p ∈ (bs.foldl (inheritBase d.frozen) s).params, p.slice = true := by
    intro bs
    induction bs with
    | nil => intro s _ h; exact h
    | cons b bs ih =>
      intro s hb hs
      apply ih _ fun c hc => hb c (List.mem_cons_of_mem _ hc)
      rw [(inheritBase_parts d.frozen s b).1]
      have hbp := hb b (List.mem_cons_self ..)
      generalize s.params = ps at hs
      generalize b.2.params = qs at hbp
      induction qs generalizing ps with
      | nil => exact hs
      | cons q qs ih2 =>
        exact ih2 _ (addParam_slice (hbp q (List.mem_cons_self ..)) hs)
          fun p hp => hbp p (List.mem_cons_of_mem _ hp)
  have h2 : ∀ (fs : List Field) (s : State), (∀ f ∈ fs, ∀ a, f.alias = some a → a.slice = true) →
      (∀ p ∈ s.params, p.slice = true) →
      ∀ p ∈ (fs.foldl (addField d.kwOnly) s).params, p.slice = true := by
    intro fs
    induction fs with
    | nil => intro s _ h; exact h
    | cons f fs ih =>
      intro s hf hs
      apply ih _ fun g hg => hf g (List.mem_cons_of_mem _ hg)
      have hsl : f.paramName.slice = true := by
        unfold Field.paramName
        cases ha : f.alias with
        | none => rfl
        | some a => exact hf f (List.mem_cons_self ..) a ha
      unfold addField
      cases f.kind with
      | classVar => exact hs
      | marker => simp only; split <;> exact hs
      | plain =>
        simp only [reduceCtorEq, if_false]
        split
        · exact addParam_slice hsl hs
        · exact hs
      | initVar =>
        simp only [if_true]
        split
        · exact addParam_slice hsl hs
        · exact hs
  obtain ⟨r, hr, hsl⟩ := checkDefaults_some (h2 d.fields _ hd (h1 bases {} hb (by simp)))
  exact ⟨_, by simp only [calculate, hr, Option.map_some]; rfl, hsl⟩

/-- C119: whatever the classes look like, if all aliases are written without escapes the type
checker does not panic. -/
theorem dataclasses_do_not_panic_partial (ds : List Def)
    (h : ∀ d ∈ ds, ∀ f ∈ d.fields, ∀ a, f.alias = some a → a.slice = true) :
    ∃ ks, calculateAll [] ds = some ks := by
  have : ∀ ks : List Known, (∀ k ∈ ks, ∀ p ∈ k.inits.params, p.slice = true) →
      ∃ ks', calculateAll ks ds = some ks' := by
    induction ds with
    | nil => intro ks _; exact ⟨ks, rfl⟩
    | cons d ds ih =>
      intro ks hk
      obtain ⟨⟨inits, issues⟩, hc, hp⟩ := calculate_some (d := d)
        (bases := d.bases.filterMap fun i => (ks[i]?).map fun k => (k.frozen, k.inits)) (by
          intro b hb
          simp only [List.mem_filterMap, Option.map_eq_some_iff] at hb
          obtain ⟨i, _, k, hk', rfl⟩ := hb
          exact hk k (List.mem_of_getElem? hk')) (h d (List.mem_cons_self ..))
      simp only [calculateAll, hc, Option.bind_eq_bind, Option.bind_some]
      apply ih fun e he => h e (List.mem_cons_of_mem _ he)
      intro k hk'
      rcases List.mem_append.mp hk' with hk' | hk'
      · exact hk k hk'
      · simp only [List.mem_singleton] at hk'
        subst hk'
        exact hp
  exact this [] (by simp)

/-! ## C120: `__post_init__` -/

/-- C120: all classes of a program have the parameters of `__post_init__` that Python passes. -/
theorem post_init_is_pythons_partial (ds : List Def) (h : WorksPost [] ds) :
    ∃ ks, calculateAll [] ds = some ks ∧ ks.length = (pyClasses [] ds).length ∧
      ∀ (i : Nat) k c, ks[i]? = some k → (pyClasses [] ds)[i]? = some c →
        k.inits.postInit = (initVars c.fields).map fun e => (e.name, e.ty) := by
  obtain ⟨ks, h1, h2, h3⟩ := program_right (W := WorksPost) step_post
    (fun cs d ds h => ⟨⟨h.1, h.2.1⟩, h.2.2⟩)
    (ks := []) (cs := []) ⟨rfl, fun i k c h => by simp at h⟩ h
  exact ⟨ks, h1, h2, fun i k c hk hc => (h3 i k c hk hc).1.2⟩

/-- Two classes with `InitVar`s. -/
def postProgram : List Def :=
  [{ fields := [{ name := "a", kind := .initVar, ty := 0 }, { name := "x", ty := 1 }] },
    { bases := [0], fields := [{ name := "b", kind := .initVar, ty := 2 }] }]

example : WorksPost [] postProgram := by
  refine ⟨⟨⟨by decide, by decide, by decide⟩, not_raises (by decide) (by decide) (by decide)⟩,
    ⟨by decide, by decide, by decide, by decide, by decide⟩,
    ⟨⟨by decide, by decide, by decide⟩, not_raises (by decide) (by decide) (by decide)⟩,
    ⟨by decide, by decide, by decide, by decide, by decide⟩, trivial⟩

/-- The names of the parameters of `__post_init__`. -/
def checkerPost (ds : List Def) : Option (List (List String)) :=
  (calculateAll [] ds).map fun ks => ks.map fun k => k.inits.postInit.map (·.1)

/-- The same for Python. -/
def pythonPost (ds : List Def) : List (List String) :=
  (pyClasses [] ds).map fun c => (initVars c.fields).map (·.name)

/-- `class A: a: InitVar[int] = field(kw_only=True); b: InitVar[int]`, `class B(A)`: Python passes `a`
and `b` in this order to the `__post_init__` of both classes; for the type checker the parameters
of `B` are exchanged. -/
theorem post_init_order_violation : ∃ ds,
    checkerPost ds = some [["a", "b"], ["b", "a"]] ∧ pythonPost ds = [["a", "b"], ["a", "b"]] :=
  ⟨[{ fields := [{ name := "a", kind := .initVar, ty := 0, kwOnly := some true },
      { name := "b", kind := .initVar, ty := 0 }] }, { bases := [0], fields := [] }],
    by decide, by decide⟩

/-- `class A: a: InitVar[int]`, `class B(A): a: InitVar[int]`: the type checker wants `a` twice. -/
theorem post_init_twice_violation : ∃ ds,
    checkerPost ds = some [["a"], ["a", "a"]] ∧ pythonPost ds = [["a"], ["a"]] :=
  ⟨[{ fields := [{ name := "a", kind := .initVar, ty := 0 }] },
    { bases := [0], fields := [{ name := "a", kind := .initVar, ty := 0 }] }], by decide, by decide⟩

/-! ## C121: `__match_args__` -/

theorem takeWhile_params (es : List Entry) :
    (((positional es ++ keywordOnly es).map toParam).takeWhile fun p => !p.kwOnly).map (·.name) =
      (positional es).map (·.name) := by
  have h1 : ∀ (P K : List Entry), (∀ e ∈ P, e.kwOnly = false) → (∀ e ∈ K, e.kwOnly = true) →
      (((P ++ K).map toParam).takeWhile fun p => !p.kwOnly).map (·.name) = P.map (·.name) := by
    intro P K hP hK
    induction P with
    | nil =>
      cases K with
      | nil => rfl
      | cons k K => simp [toParam, hK k (List.mem_cons_self ..)]
    | cons e P ih =>
      have := ih fun a ha => hP a (List.mem_cons_of_mem _ ha)
      simp only [List.cons_append, List.map_cons, List.takeWhile_cons]
      rw [if_pos (by simp [toParam, hP e (List.mem_cons_self ..)])]
      simp only [List.map_cons, this]
      rfl
  exact h1 _ _ (fun _ h => (mem_positional.mp h).2.2) fun _ h => (mem_keywordOnly.mp h).2.2

/-- C121: `__match_args__` are the parameters of `__init__` in front of the star. -/
theorem match_args_are_pythons_partial (ds : List Def) (h : Works [] ds) (ks : List Known)
    (hk : calculateAll [] ds = some ks) (i : Nat) (k : Known) (c : PyClass) (hi : ks[i]? = some k)
    (hc : (pyClasses [] ds)[i]? = some c) :
    matchArgs k.inits = (positional c.fields).map (·.name) := by
  obtain ⟨ks', h1, _, h3⟩ := init_is_pythons_partial ds h
  rw [hk] at h1
  cases h1
  rw [matchArgs, (h3 i k c hi hc).2]
  exact takeWhile_params c.fields

/-- `class A: x: int; y: int`, `class B(A): x: int = field(kw_only=True)`: `B.__match_args__` is
`("y",)`, but empty for the type checker. -/
theorem match_args_violation : ∃ (ds : List Def) (ks : List Known) (k : Known) (c : PyClass), calculateAll [] ds = some ks ∧ ks[1]? = some k ∧
    (pyClasses [] ds)[1]? = some c ∧ matchArgs k.inits = [] ∧
    (positional c.fields).map (·.name) = ["y"] :=
  ⟨[{ fields := [{ name := "x", ty := 0 }, { name := "y", ty := 0 }] },
    { bases := [0], fields := [{ name := "x", ty := 0, kwOnly := some true }] }], _, _, _, rfl, rfl, rfl,
    by decide, by decide⟩

/-! ## C122: `dataclasses.replace` -/

/-- C122: for a class that is not frozen, `dataclasses.replace` takes the names of the parameters of
`__init__`, and the type checker wants exactly the `InitVar`s without default. -/
theorem replace_wants_init_vars_partial (ds : List Def) (h : Works [] ds) (ks : List Known)
    (hk : calculateAll [] ds = some ks) (i : Nat) (k : Known) (c : PyClass) (hi : ks[i]? = some k)
    (hc : (pyClasses [] ds)[i]? = some c) (hfrozen : k.frozen ≠ some true)
    (bodies : List (List Field)) (hf : ReplaceFair c bodies) :
    replaceParams k.frozen k.inits bodies = (positional c.fields ++ keywordOnly c.fields).map
      fun e => (e.name, decide (¬ (e.kind = .initVar ∧ e.hasDefault = false))) := by
  obtain ⟨ks', h1, _, h3⟩ := init_is_pythons_partial ds h
  rw [hk] at h1
  cases h1
  rw [replaceParams, (h3 i k c hi hc).2, List.map_map]
  apply List.map_congr_left
  intro e he
  have hmem : e ∈ c.fields := by
    rcases List.mem_append.mp he with he | he
    · exact (mem_positional.mp he).1
    · exact (mem_keywordOnly.mp he).1
  simp only [Function.comp, Prod.mk.injEq, true_and]
  have hat : attributeExists k.frozen k.inits bodies e.name = decide (e.kind ≠ .initVar) := by
    unfold attributeExists
    simp only [hfrozen, decide_false, Bool.false_and, Bool.false_eq_true, if_false]
    cases hs : bodies.findSome? fun fs => fs.find? fun f => decide (f.name = e.name) with
    | none =>
      obtain ⟨fs, hfs, f, hff, hn⟩ := hf.found e hmem
      have := List.findSome?_eq_none_iff.mp hs fs hfs
      have := List.find?_eq_none.mp this f hff
      simp [hn] at this
    | some f =>
      obtain ⟨fs, hfs, hff⟩ := List.exists_of_findSome?_eq_some hs
      have hn := List.find?_some hff
      have := hf.kinds fs hfs f (List.mem_of_find?_eq_some hff) e hmem (by simpa using hn)
      simp only
      exact decide_eq_decide.mpr (not_congr this)
  rw [hat]
  cases e.hasDefault
  · simp
  · simp

example : ReplaceFair (process [] { fields := [{ name := "a", kind := .initVar, ty := 0 }, { name := "x", ty := 1 }] })
    [[{ name := "a", kind := .initVar, ty := 0 }, { name := "x", ty := 1 }]] :=
  ⟨by decide, by decide⟩

/-- For a frozen dataclass with an `InitVar` without default, `dataclasses.replace` fails without a
value for it, but the type checker does not want one. -/
theorem replace_frozen_violation : ∃ (ds : List Def) (ks : List Known) (k : Known) (c : PyClass), Works [] ds ∧ calculateAll [] ds = some ks ∧
    ks[0]? = some k ∧ (pyClasses [] ds)[0]? = some c ∧
    (initVars c.fields).map (fun e => (e.name, e.hasDefault)) = [("a", false)] ∧
    replaceParams k.frozen k.inits [c.body] = [("a", true)] :=
  ⟨[{ frozen := some true, fields := [{ name := "a", kind := .initVar, ty := 0 }] }], _, _, _,
    ⟨⟨by decide, by decide, by decide⟩, not_raises (by decide) (by decide) (by decide), trivial⟩,
    rfl, rfl, rfl, by decide, by decide⟩

end Verif.Dataclass
