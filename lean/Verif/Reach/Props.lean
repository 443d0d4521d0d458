import Verif.Reach.Lemmas

/-! # Theorems about static conditions

C112 decided conditions, C113 branches of `if` statements, C114 the idioms are decided, C115 panics,
C116 blocks that are only for the type checker. -/

namespace Verif.Reach

/-- The settings of the examples: Python 3.12 on Linux. -/
def settings : Settings := { major := 3, minor := 12, platform := "linux", alwaysFalse := ["DEBUG"] }

/-- A run of the examples: `typing` is the value of `TYPE_CHECKING`. -/
def run (typing : Bool) : Run where
  version := [3, 12, 4]
  platform := "linux"
  name x :=
    if x = "MYPY" ∨ x = "TYPE_CHECKING" then some typing
    else if x = "PY3" then some true
    else if x = "PY2" ∨ x = "DEBUG" then some false
    else none
  typing := some typing
  elem k := k
  cond _ := some true
  startswith := none
  compare _ _ _ := none

theorem run_fits : Fits settings (run true) where
  version := ⟨[4], by simp, rfl⟩
  platform := rfl
  checking := ⟨by decide, by decide, rfl⟩
  three := by decide
  yes := by intro x hx; cases hx
  no := by
    intro x hx h1 h2 h3 _
    have : x = "PY2" ∨ x = "DEBUG" := by
      rcases hx with h | h
      · exact .inl h
      · exact .inr (by simpa [settings] using h)
    simp [run, h1, h2, h3, this]

/-! ## C112: decided conditions are right -/

/-- `sys.version_info >= (3, 9)` and `sys.platform != "win32"` or a name. -/
def sample : Cond :=
  .and (.compare .version .ge (.tuple [.int 3, .int 9]))
    (.or (.compare .platform .ne (.str "win32")) (.name "fast"))

example : sample.Fair := ⟨.inr rfl, trivial, trivial⟩
example : decideCond settings sample = some (.yes false) := by decide
example : sample.value (run true) = some true := by decide
example : decideCond settings (.compare .version .lt (.tuple [.int 3, .int 9])) = some .no := by
  decide

/-- C112: if a condition with the version on the left of `<` and `>=`, with names, platforms, `and`,
`or` and `not` is decided, then every run with the configured version, platform and names
agrees with that. -/
theorem decided_is_right_partial (s : Settings) (r : Run) (c : Cond) (hf : Fits s r) (hc : c.Fair) :
    (∀ t, decideCond s c = some (.yes t) → c.value r ≠ some false) ∧
      (decideCond s c = some .no → c.value r ≠ some true) := by
  refine ⟨fun t h hv => ?_, fun h hv => ?_⟩
  · have := (decideCond_right hf hc h false hv).1 t rfl
    cases this
  · have := (decideCond_right hf hc h true hv).2 rfl
    cases this

/-- `(3, 8) <= sys.version_info` is false for the type checker although it is true in Python 3.12:
the operator is not turned around when the version is on the right. -/
theorem reversed_comparison_violation :
    ∃ (s : Settings) (r : Run) (c : Cond), Fits s r ∧ decideCond s c = some .no ∧
      c.value r = some true :=
  ⟨settings, run true, .compare (.tuple [.int 3, .int 8]) .le .version, run_fits, by decide,
    by decide⟩

/-- `2 > sys.version_info[0]` is true for the type checker although it is false in Python 3, for the
same reason. -/
theorem reversed_number_violation :
    ∃ (s : Settings) (r : Run) (c : Cond), Fits s r ∧ decideCond s c = some (.yes false) ∧
      c.value r = some false :=
  ⟨settings, run true, .compare (.int 2) .gt (.item (.int 0)), run_fits, by decide, by decide⟩

/-- `sys.version_info > (3, 12)` is false for the type checker although it is true in Python 3.12,
where `sys.version_info` is longer than the tuple. -/
theorem equal_prefix_violation :
    ∃ (s : Settings) (r : Run) (c : Cond), Fits s r ∧ decideCond s c = some .no ∧
      c.value r = some true :=
  ⟨settings, run true, .compare .version .gt (.tuple [.int 3, .int 12]), run_fits, by decide,
    by decide⟩

/-- `sys.version_info[:1] >= (3, 9)` is true for the type checker, but `(3,) >= (3, 9)` is false: the
end of the slice is ignored. -/
theorem ignored_end_violation :
    ∃ (s : Settings) (r : Run) (c : Cond), Fits s r ∧ decideCond s c = some (.yes false) ∧
      c.value r = some false :=
  ⟨settings, run true,
    .compare (.slice none (some (.int 1)) false) .ge (.tuple [.int 3, .int 9]), run_fits, by decide,
    by decide⟩

/-! ## C113: the branch that runs is bound and checked -/

/-- A chain with a branch of every kind. -/
def chain : List Branch :=
  [some (.compare .version .lt (.tuple [.int 3, .int 8])), some (.name "fast"),
    some (.compare .platform .eq (.str "linux")), none]

example : markBranches settings chain = some [.never, .open, .always false, .after] := by decide
example : executed { run true with name := fun _ => some false } chain = some 2 := by decide

theorem executed_marks {s : Settings} {r : Run} (hf : Fits s r) {bs : List Branch}
    (hc : ∀ c, some c ∈ bs → c.Fair) {ms : List Mark} (hm : markBranches s bs = some ms)
    {i : Nat} (he : executed r bs = some i) :
    ∃ m, ms[i]? = some m ∧ (m = .open ∨ ∃ t, m = .always t) := by
  induction bs generalizing ms i with
  | nil => cases he
  | cons b bs ih =>
    have hc' : ∀ c, some c ∈ bs → c.Fair := fun c h => hc c (List.mem_cons_of_mem _ h)
    cases b with
    | none =>
      cases he
      simp only [markBranches, Option.map_eq_some_iff] at hm
      obtain ⟨ms, hm, rfl⟩ := hm
      exact ⟨_, rfl, .inl rfl⟩
    | some c =>
      simp only [markBranches, Option.bind_eq_bind, Option.bind_eq_some_iff] at hm
      obtain ⟨t, ht, hm⟩ := hm
      have hag := decideCond_right hf (hc c (List.mem_cons_self ..)) ht
      simp only [executed] at he
      cases hv : c.value r with
      | none => simp [hv] at he
      | some v =>
        obtain ⟨h1, h2⟩ := hag v hv
        cases v with
        | true =>
          simp only [hv, Option.some.injEq] at he
          subst he
          cases t with
          | no => cases h2 rfl
          | yes f =>
            simp only [Option.some.injEq] at hm
            subst hm
            exact ⟨_, rfl, .inr ⟨_, rfl⟩⟩
          | unknown =>
            simp only [Option.map_eq_some_iff] at hm
            obtain ⟨ms, hm, rfl⟩ := hm
            exact ⟨_, rfl, .inl rfl⟩
        | false =>
          simp only [hv, Option.map_eq_some_iff] at he
          obtain ⟨j, he, rfl⟩ := he
          cases t with
          | yes f => cases h1 f rfl
          | no =>
            simp only [Option.map_eq_some_iff] at hm
            obtain ⟨ms, hm, rfl⟩ := hm
            simpa using ih hc' hm he
          | unknown =>
            simp only [Option.map_eq_some_iff] at hm
            obtain ⟨ms, hm, rfl⟩ := hm
            simpa using ih hc' hm he

theorem bound_at (ms : List Mark) (i : Nat) : (bound ms)[i]? = (ms[i]?).map fun m =>
    decide (m = .open ∨ m = .always true ∨ m = .always false) := by
  induction ms generalizing i with
  | nil => rfl
  | cons m ms ih =>
    cases i with
    | zero => cases m with
      | always t => cases t <;> rfl
      | _ => rfl
    | succ i => cases m <;> simpa [bound] using ih i

theorem checked_eq (ms : List Mark) : checked ms = bound ms := by
  induction ms with
  | nil => rfl
  | cons m ms ih => cases m <;> simp [bound, checked, ih]

/-- C113: names of the branch that Python executes are bound, and its statements are checked. -/
theorem executed_branch_is_seen_partial (s : Settings) (r : Run) (bs : List Branch) (hf : Fits s r)
    (hc : ∀ c, some c ∈ bs → c.Fair) (ms : List Mark) (hm : markBranches s bs = some ms) (i : Nat)
    (he : executed r bs = some i) :
    (bound ms)[i]? = some true ∧ (checked ms)[i]? = some true := by
  obtain ⟨m, h1, h2⟩ := executed_marks hf hc hm he
  rw [checked_eq, bound_at, h1]
  rcases h2 with rfl | ⟨t, rfl⟩
  · simp
  · cases t <;> simp

example : ∀ c, some c ∈ chain → c.Fair := by
  intro c h
  simp only [chain, List.mem_cons, Option.some.injEq, reduceCtorEq, List.not_mem_nil, or_false] at h
  rcases h with rfl | rfl | rfl
  · exact .inl rfl
  · trivial
  · trivial

/-- C113: a branch with a condition that is known to be false is not checked, and no branch is
after one with a condition that is known to be true. -/
theorem dead_branches_are_skipped (s : Settings) (bs cs : List Branch) (c : Cond) (ms : List Mark)
    (hm : markBranches s (bs ++ some c :: cs) = some ms) :
    (decideCond s c = some .no → (checked ms)[bs.length]? = some false ∧
      (bound ms)[bs.length]? = some false) ∧
    (∀ t, decideCond s c = some (.yes t) → ∀ j < cs.length,
      (checked ms)[bs.length + 1 + j]? = some false ∧
        (bound ms)[bs.length + 1 + j]? = some false) := by
  rw [checked_eq]
  simp only [and_self, bound_at]
  induction bs generalizing ms with
  | nil =>
    simp only [List.nil_append, markBranches, Option.bind_eq_bind, Option.bind_eq_some_iff] at hm
    obtain ⟨t, ht, hm⟩ := hm
    refine ⟨fun h => ?_, fun f h j hj => ?_⟩
    · rw [ht] at h
      cases h
      simp only [Option.map_eq_some_iff] at hm
      obtain ⟨ms, hm, rfl⟩ := hm
      simp
    · rw [ht] at h
      cases h
      simp only [Option.some.injEq] at hm
      subst hm
      rw [show ([] : List Branch).length + 1 + j = j + 1 from by simp; omega]
      simp [hj]
  | cons b bs ih =>
    cases b with
    | none =>
      simp only [List.cons_append, markBranches, Option.map_eq_some_iff] at hm
      obtain ⟨ms, hm, rfl⟩ := hm
      have := ih _ hm
      refine ⟨fun h => by simpa using this.1 h, fun t h j hj => ?_⟩
      rw [show (none :: bs).length + 1 + j = (bs.length + 1 + j) + 1 from by simp; omega]
      simpa using this.2 t h j hj
    | some d =>
      simp only [List.cons_append, markBranches, Option.bind_eq_bind, Option.bind_eq_some_iff] at hm
      obtain ⟨u, hu, hm⟩ := hm
      cases u with
      | yes f =>
        simp only [Option.some.injEq] at hm
        subst hm
        refine ⟨fun h => ?_, fun t h j hj => ?_⟩
        · simp
        · rw [show (some d :: bs).length + 1 + j = (bs.length + 1 + j) + 1 from by simp; omega]
          simp only [List.getElem?_cons_succ, List.getElem?_map]
          rw [List.getElem?_eq_getElem (by simp; omega)]
          simp
      | no =>
        simp only [Option.map_eq_some_iff] at hm
        obtain ⟨ms, hm, rfl⟩ := hm
        have := ih _ hm
        refine ⟨fun h => by simpa using this.1 h, fun t h j hj => ?_⟩
        rw [show (some d :: bs).length + 1 + j = (bs.length + 1 + j) + 1 from by simp; omega]
        simpa using this.2 t h j hj
      | unknown =>
        simp only [Option.map_eq_some_iff] at hm
        obtain ⟨ms, hm, rfl⟩ := hm
        have := ih _ hm
        refine ⟨fun h => by simpa using this.1 h, fun t h j hj => ?_⟩
        rw [show (some d :: bs).length + 1 + j = (bs.length + 1 + j) + 1 from by simp; omega]
        simpa using this.2 t h j hj

/-- With `if sys.version_info < (3, 8): .. else: ..` in the body of a `TypedDict` or `NamedTuple`,
the members of the `else` branch are lost, although that is the branch that Python executes: the
search stops at the first branch that is statically false. -/
theorem members_after_false_branch_violation :
    ∃ (s : Settings) (r : Run) (bs : List Branch) (ms : List Mark) (i : Nat), Fits s r ∧
      (∀ c, some c ∈ bs → c.Fair) ∧ markBranches s bs = some ms ∧ executed r bs = some i ∧
      (visited ms)[i]? = some false := by
  refine ⟨settings, run true, [some (.compare .version .lt (.tuple [.int 3, .int 8])), none],
    [.never, .open], 1, run_fits, ?_, by decide, by decide, by decide⟩
  intro c h
  simp only [List.mem_cons, Option.some.injEq, reduceCtorEq, List.not_mem_nil, or_false] at h
  subst h
  exact .inl rfl

theorem visited_at {ms : List Mark} (h : Mark.never ∉ ms) {i : Nat} {m : Mark} (hi : ms[i]? = some m)
    (hm : m = .open ∨ ∃ t, m = .always t) (hb : ∀ j < i, ms[j]? ≠ some .after) :
    (visited ms)[i]? = some true := by
  induction ms generalizing i with
  | nil => cases hi
  | cons a ms ih =>
    cases i with
    | zero =>
      simp only [List.getElem?_cons_zero, Option.some.injEq] at hi
      subst hi
      rcases hm with rfl | ⟨t, rfl⟩ <;> rfl
    | succ i =>
      have := ih (fun g => h (List.mem_cons_of_mem _ g)) (by simpa using hi)
        (fun j hj => by simpa using hb (j + 1) (by omega))
      cases a with
      | never => exact absurd (List.mem_cons_self ..) h
      | after => exact absurd rfl (hb 0 (by omega))
      | _ => simpa [visited] using this

theorem no_after {s : Settings} {r : Run} (hf : Fits s r) {bs : List Branch}
    (hc : ∀ c, some c ∈ bs → c.Fair) {ms : List Mark} (hm : markBranches s bs = some ms)
    {i : Nat} (he : executed r bs = some i) : ∀ j < i, ms[j]? ≠ some .after := by
  induction bs generalizing ms i with
  | nil => cases he
  | cons b bs ih =>
    have hc' : ∀ c, some c ∈ bs → c.Fair := fun c h => hc c (List.mem_cons_of_mem _ h)
    intro j hj
    cases b with
    | none => cases he; omega
    | some c =>
      simp only [markBranches, Option.bind_eq_bind, Option.bind_eq_some_iff] at hm
      obtain ⟨t, ht, hm⟩ := hm
      have hag := decideCond_right hf (hc c (List.mem_cons_self ..)) ht
      simp only [executed] at he
      cases hv : c.value r with
      | none => simp [hv] at he
      | some v =>
        obtain ⟨h1, h2⟩ := hag v hv
        cases v with
        | true => simp only [hv, Option.some.injEq] at he; omega
        | false =>
          simp only [hv, Option.map_eq_some_iff] at he
          obtain ⟨k, he, rfl⟩ := he
          cases t with
          | yes f => cases h1 f rfl
          | no =>
            simp only [Option.map_eq_some_iff] at hm
            obtain ⟨ms, hm, rfl⟩ := hm
            cases j with
            | zero => simp
            | succ j => simpa using ih hc' hm he j (by omega)
          | unknown =>
            simp only [Option.map_eq_some_iff] at hm
            obtain ⟨ms, hm, rfl⟩ := hm
            cases j with
            | zero => simp
            | succ j => simpa using ih hc' hm he j (by omega)

/-- C113: without a condition that is known to be false, members are found in the branch that Python
executes. -/
theorem executed_members_are_found_partial (s : Settings) (r : Run) (bs : List Branch)
    (hf : Fits s r) (hc : ∀ c, some c ∈ bs → c.Fair)
    (hn : ∀ c, some c ∈ bs → decideCond s c ≠ some .no) (ms : List Mark)
    (hm : markBranches s bs = some ms) (i : Nat) (he : executed r bs = some i) :
    (visited ms)[i]? = some true := by
  have hnever : Mark.never ∉ ms := by
    clear he hc
    induction bs generalizing ms with
    | nil => cases hm; simp
    | cons b bs ih =>
      have hn' : ∀ c, some c ∈ bs → decideCond s c ≠ some .no :=
        fun c h => hn c (List.mem_cons_of_mem _ h)
      cases b with
      | none =>
        simp only [markBranches, Option.map_eq_some_iff] at hm
        obtain ⟨ms, hm, rfl⟩ := hm
        simpa using ih hn' _ hm
      | some c =>
        simp only [markBranches, Option.bind_eq_bind, Option.bind_eq_some_iff] at hm
        obtain ⟨t, ht, hm⟩ := hm
        cases t with
        | yes f => cases hm; simp
        | no => exact absurd ht (hn c (List.mem_cons_self ..))
        | unknown =>
          simp only [Option.map_eq_some_iff] at hm
          obtain ⟨ms, hm, rfl⟩ := hm
          simpa using ih hn' _ hm
  obtain ⟨m, h1, h2⟩ := executed_marks hf hc hm he
  exact visited_at hnever h1 h2 (no_after hf hc hm he)

example : (visited [.open, .always false, .after])[1]? = some true := by decide
example : markBranches settings [some (.name "fast"), some (.name "TYPE_CHECKING"), none] =
    some [.open, .always true, .after] := by decide

/-! ## C114: the usual conditions are always decided -/

/-- The conditions of the documentation of type checkers, with numbers that fit into a word. -/
inductive Idiom : Cond → Prop where
  | name {x : String} : x ∈ ["MYPY", "TYPE_CHECKING", "PY2", "PY3"] → Idiom (.name x)
  | typing : Idiom .typing
  | major {op : Op} {n : Nat} : op ≠ .other → n < 2 ^ 64 →
    Idiom (.compare .version op (.tuple [.int n]))
  | minor {op : Op} {n m : Nat} : op ≠ .other → n < 2 ^ 64 → m < 2 ^ 64 →
    Idiom (.compare .version op (.tuple [.int n, .int m]))
  | first {op : Op} {n : Nat} : op ≠ .other → n < 2 ^ 64 →
    Idiom (.compare (.item (.int 0)) op (.int n))
  | platform {x : String} : Idiom (.compare .platform .eq (.str x))
  | notPlatform {x : String} : Idiom (.compare .platform .ne (.str x))
  | startswith {x : String} : Idiom (.startswith (some x))
  | paren {c : Cond} : Idiom c → Idiom (.paren c)
  | not {c : Cond} : Idiom c → Idiom (.not c)
  | and {a b : Cond} : Idiom a → Idiom b → Idiom (.and a b)
  | or {a b : Cond} : Idiom a → Idiom b → Idiom (.or a b)

theorem decideOrder_known {op : Op} (h : op ≠ .other) (o : Ordering) :
    decideOrder op o = .no ∨ decideOrder op o = .yes false := by
  cases op <;> first | exact absurd rfl h | (cases o <;> decide)

theorem ofBool_known (b : Bool) : Truth.ofBool b = .no ∨ Truth.ofBool b = .yes false := by
  cases b <;> simp [Truth.ofBool]

theorem known_compare {s : Settings} {a b : Part} {op : Op} {t : Truth}
    (h : checkComparison s op a b = some t) (ht : t ≠ .unknown) :
    decideCond s (.compare a op b) = some t := by
  cases t with
  | unknown => exact absurd rfl ht
  | _ => simp only [decideCond, h]

/-- C114: the type checker decides every combination of the usual conditions. -/
theorem idioms_are_decided (s : Settings) (c : Cond) (h : Idiom c) :
    decideCond s c = some .no ∨ ∃ t, decideCond s c = some (.yes t) := by
  have fin : ∀ t u, (t = Truth.no ∨ t = .yes false) → u = some t →
      u = some .no ∨ ∃ f, u = some (.yes f) := by
    rintro t u (rfl | rfl) rfl
    · exact .inl rfl
    · exact .inr ⟨_, rfl⟩
  induction h with
  | @name x hx =>
    simp only [List.mem_cons, List.not_mem_nil, or_false] at hx
    rcases hx with rfl | rfl | rfl | rfl
    · exact .inr ⟨true, by simp [decideCond]⟩
    · exact .inr ⟨true, by simp [decideCond]⟩
    · by_cases h : "PY2" ∈ s.alwaysTrue
      · exact .inr ⟨false, by simp [decideCond, h]⟩
      · exact .inl (by simp [decideCond, h])
    · exact .inr ⟨false, by simp [decideCond]⟩
  | typing => exact .inr ⟨_, rfl⟩
  | @major op n hop hn =>
    have hk := fun o => decideOrder_known hop o
    have : ∃ o, checkComparison s op .version (.tuple [.int n]) = some (decideOrder op o) := by
      have h1 : ¬ word ≤ n := by unfold word; omega
      simp only [checkComparison, versionTuple, tupleOrder, List.drop_zero, h1, if_false,
        List.length_cons, List.length_nil]
      rw [if_neg (by unfold word; decide), if_neg (by decide)]
      cases Ord.compare s.major n <;> exact ⟨_, rfl⟩
    obtain ⟨o, ho⟩ := this
    exact fin _ _ (hk o) (known_compare ho (by rcases hk o with h | h <;> rw [h] <;> decide))
  | @minor op n m hop hn hm =>
    have hk := fun o => decideOrder_known hop o
    have : ∃ o, checkComparison s op .version (.tuple [.int n, .int m]) =
        some (decideOrder op o) := by
      have h1 : ¬ word ≤ n := by unfold word; omega
      have h2 : ¬ word ≤ m := by unfold word; omega
      simp only [checkComparison, versionTuple, tupleOrder, List.drop_zero, h1, h2, if_false,
        List.length_cons, List.length_nil]
      rw [if_neg (by unfold word; decide), if_neg (by decide)]
      cases Ord.compare s.major n
      · exact ⟨_, rfl⟩
      · cases Ord.compare s.minor m <;> exact ⟨_, rfl⟩
      · exact ⟨_, rfl⟩
    obtain ⟨o, ho⟩ := this
    exact fin _ _ (hk o) (known_compare ho (by rcases hk o with h | h <;> rw [h] <;> decide))
  | @first op n hop hn =>
    have hk := decideOrder_known hop (Ord.compare s.major n)
    have h1 : ¬ word ≤ n := by unfold word; omega
    have ho : checkComparison s op (.item (.int 0)) (.int n) =
        some (decideOrder op (Ord.compare s.major n)) := by
      simp only [checkComparison, h1, if_false]
    exact fin _ _ hk (known_compare ho (by rcases hk with h | h <;> rw [h] <;> decide))
  | @platform x =>
    have hk := ofBool_known (x == s.platform)
    exact fin _ _ hk (known_compare rfl (by rcases hk with h | h <;> rw [h] <;> decide))
  | @notPlatform x =>
    have hk := ofBool_known (!(x == s.platform))
    exact fin _ _ hk (known_compare rfl (by rcases hk with h | h <;> rw [h] <;> decide))
  | startswith => exact fin _ _ (ofBool_known _) rfl
  | paren _ ih => exact ih
  | not _ ih =>
    rcases ih with h | ⟨t, h⟩
    · exact .inr ⟨_, by simp only [decideCond, h]; rfl⟩
    · exact .inl (by simp only [decideCond, h]; rfl)
  | and _ _ iha ihb =>
    rcases iha with h | ⟨t, h⟩ <;> rcases ihb with g | ⟨u, g⟩ <;>
      simp [decideCond, h, g, Truth.and]
  | or _ _ iha ihb =>
    rcases iha with h | ⟨t, h⟩ <;> rcases ihb with g | ⟨u, g⟩ <;>
      simp [decideCond, h, g, Truth.or]

example : Idiom (.and (.compare .version .ge (.tuple [.int 3, .int 9])) (.not .typing)) :=
  .and (.minor (by decide) (by omega) (by omega)) (.not .typing)

/-- C114: of `if` and `else` with such a condition exactly one branch is checked. -/
theorem idiom_keeps_one_branch (s : Settings) (c : Cond) (h : Idiom c) :
    ∃ ms, markBranches s [some c, none] = some ms ∧
      (checked ms = [true, false] ∨ checked ms = [false, true]) ∧ bound ms = checked ms := by
  rcases idioms_are_decided s c h with h | ⟨t, h⟩
  · exact ⟨[.never, .open], by simp [markBranches, h], .inr rfl, rfl⟩
  · exact ⟨[.always t, .after], by simp [markBranches, h], .inl rfl, rfl⟩

/-! ## C115: panics -/

/-- `sys.version_info[18446744073709551615:] >= (3,)` makes the type checker panic: the length of
the tuple is added to the number without a check. -/
theorem slice_start_violation :
    ∃ (s : Settings) (c : Cond), decideCond s c = none :=
  ⟨settings, .compare (.slice (some (.int 18446744073709551615)) none false) .ge
    (.tuple [.int 3]), by decide +kernel⟩

/-- A side of a comparison without a huge slice, and without a huge tuple. -/
def Part.Small : Part → Prop
  | .slice (some (.int n)) _ _ => n < 2 ^ 63
  | .tuple es => es.length < 2 ^ 63
  | _ => True

/-- A condition with such comparisons only. -/
def Cond.Small : Cond → Prop
  | .paren c | .not c => c.Small
  | .and a b | .or a b => a.Small ∧ b.Small
  | .compare a _ b => a.Small ∧ b.Small
  | _ => True

theorem versionTuple_some {s : Settings} {op : Op} {p : Part} {lo : Nat} (h : p.Small)
    (hlo : lo < 2 ^ 63) : ∃ t, versionTuple s op p lo = some t := by
  cases p with
  | tuple es =>
    have : es.length < 2 ^ 63 := h
    simp only [versionTuple]
    rw [if_neg (by unfold word; omega)]
    split
    · exact ⟨_, rfl⟩
    · split <;> exact ⟨_, rfl⟩
  | _ => exact ⟨_, rfl⟩

theorem checkComparison_some {s : Settings} {op : Op} {a b : Part} (ha : a.Small) (hb : b.Small) :
    ∃ t, checkComparison s op a b = some t := by
  cases a with
  | platform => cases op <;> cases b <;> exact ⟨_, rfl⟩
  | version => exact versionTuple_some hb (by decide)
  | slice first upper step =>
    simp only [checkComparison]
    split
    · exact ⟨_, rfl⟩
    · match first with
      | none => exact versionTuple_some hb (by decide)
      | some (.int n) =>
        simp only
        split
        · exact ⟨_, rfl⟩
        · exact versionTuple_some hb ha
      | some (.other _) => exact ⟨_, rfl⟩
  | item i =>
    match i with
    | .int 0 =>
      cases b with
      | int n => simp only [checkComparison]; split <;> exact ⟨_, rfl⟩
      | _ => exact ⟨_, rfl⟩
    | .int (k + 1) => exact ⟨_, rfl⟩
    | .other _ => exact ⟨_, rfl⟩
  | _ => exact ⟨_, rfl⟩

/-- C115: with slices that begin below 2^63, conditions never make the type checker panic. -/
theorem conditions_do_not_panic_partial (s : Settings) (c : Cond) (h : c.Small) :
    ∃ t, decideCond s c = some t := by
  induction c with
  | name x => simp only [decideCond]; split; exact ⟨_, rfl⟩; split; exact ⟨_, rfl⟩; split <;> exact ⟨_, rfl⟩
  | typing => exact ⟨_, rfl⟩
  | startswith a => cases a <;> exact ⟨_, rfl⟩
  | paren c ih => exact ih h
  | compare a op b =>
    obtain ⟨t, ht⟩ := checkComparison_some (s := s) (op := op) h.1 h.2
    obtain ⟨u, hu⟩ := checkComparison_some (s := s) (op := op) h.2 h.1
    simp only [decideCond, ht, hu]
    cases t <;> exact ⟨_, rfl⟩
  | not c ih => obtain ⟨t, ht⟩ := ih h; exact ⟨_, by simp [decideCond, ht]; rfl⟩
  | and a b iha ihb =>
    obtain ⟨t, ht⟩ := iha h.1; obtain ⟨u, hu⟩ := ihb h.2
    exact ⟨_, by simp [decideCond, ht, hu]; rfl⟩
  | or a b iha ihb =>
    obtain ⟨t, ht⟩ := iha h.1; obtain ⟨u, hu⟩ := ihb h.2
    exact ⟨_, by simp [decideCond, ht, hu]; rfl⟩
  | other k => exact ⟨_, rfl⟩

theorem branches_do_not_panic_partial (s : Settings) (bs : List Branch)
    (h : ∀ c, some c ∈ bs → c.Small) : ∃ ms, markBranches s bs = some ms ∧ ms.length = bs.length := by
  induction bs with
  | nil => exact ⟨[], rfl, rfl⟩
  | cons b bs ih =>
    obtain ⟨ms, hm, hl⟩ := ih fun c hc => h c (List.mem_cons_of_mem _ hc)
    cases b with
    | none => exact ⟨_, by simp only [markBranches, hm]; rfl, by simp [hl]⟩
    | some c =>
      obtain ⟨t, ht⟩ := conditions_do_not_panic_partial s c (h c (List.mem_cons_self ..))
      cases t with
      | yes f => exact ⟨.always f :: bs.map fun _ => .after, by simp [markBranches, ht], by simp⟩
      | no => exact ⟨.never :: ms, by simp [markBranches, ht, hm], by simp [hl]⟩
      | unknown => exact ⟨.open :: ms, by simp [markBranches, ht, hm], by simp [hl]⟩

example : sample.Small := by simp [sample, Cond.Small, Part.Small]

/-! ## C116: blocks that exist for the type checker only -/

/-- No `or` in the condition. -/
def Cond.NoOr : Cond → Prop
  | .paren c | .not c => c.NoOr
  | .and a b => a.NoOr ∧ b.NoOr
  | .or _ _ => False
  | _ => True

/-- `if TYPE_CHECKING or debug:` is taken for a block that the type checker only sees, but it runs
if `debug` is true. -/
theorem checking_or_violation :
    ∃ (s : Settings) (r : Run) (c : Cond), r.name "TYPE_CHECKING" = some false ∧
      decideCond s c = some (.yes true) ∧ c.value r = some true :=
  ⟨settings, run false, .or (.name "TYPE_CHECKING") (.other 0), by decide, by decide, by decide⟩

theorem checkComparison_flag {s : Settings} {op : Op} {a b : Part} :
    checkComparison s op a b ≠ some (.yes true) := by
  have ho : ∀ x : Bool, some (Truth.ofBool x) ≠ some (.yes true) := by
    intro x; cases x <;> simp [Truth.ofBool]
  have hd : ∀ o, some (decideOrder op o) ≠ some (.yes true) := by
    intro o
    unfold decideOrder
    split
    · exact ho _
    · simp
  have hv : ∀ p lo, versionTuple s op p lo ≠ some (.yes true) := by
    intro p lo
    cases p with
    | tuple es =>
      simp only [versionTuple]
      split
      · simp
      · split
        · simp
        · split
          · exact hd _
          · simp
    | _ => simp [versionTuple]
  cases a with
  | platform => cases op <;> cases b <;> simp only [checkComparison] <;> first | exact ho _ | simp
  | version => exact hv _ _
  | slice first upper step =>
    simp only [checkComparison]
    split
    · simp
    · match first with
      | none => exact hv _ _
      | some (.int n) =>
        simp only
        split
        · simp
        · exact hv _ _
      | some (.other _) => simp
  | item i =>
    match i with
    | .int 0 =>
      cases b with
      | int n =>
        simp only [checkComparison]
        split
        · simp
        · exact hd _
      | _ => simp [checkComparison]
    | .int (k + 1) => simp [checkComparison]
    | .other _ => simp [checkComparison]
  | _ => simp [checkComparison]

/-- C116: without `or`, a condition of a block that is only for the type checker is never true in a
run in which `TYPE_CHECKING` is false. -/
theorem checking_blocks_do_not_run_partial (s : Settings) (r : Run) (c : Cond)
    (h1 : r.name "TYPE_CHECKING" = some false) (h2 : r.name "MYPY" = some false)
    (h3 : r.typing = some false) (hc : c.NoOr) (h : decideCond s c = some (.yes true)) :
    c.value r ≠ some true := by
  induction c with
  | name x =>
    simp only [decideCond] at h
    split at h
    · next hx => rcases hx with rfl | rfl <;> simp [Cond.value, h1, h2]
    · split at h
      · cases h
      · split at h <;> cases h
  | typing => simp [Cond.value, h3]
  | startswith a =>
    cases a with
    | none => cases h
    | some x =>
      simp only [decideCond] at h
      exfalso
      revert h
      generalize x.toList.isPrefixOf s.platform.toList = b
      cases b <;> simp [Truth.ofBool]
  | paren c ih => exact ih hc h
  | compare a op b =>
    simp only [decideCond] at h
    split at h <;> exact absurd h checkComparison_flag
  | not c ih =>
    simp only [decideCond, Option.map_eq_some_iff] at h
    obtain ⟨t, _, h⟩ := h
    cases t <;> simp [Truth.invert] at h
  | and a b iha ihb =>
    simp only [decideCond, Option.bind_eq_bind, Option.bind_eq_some_iff, Option.some.injEq] at h
    obtain ⟨t, ht, u, hu, h⟩ := h
    simp only [Cond.value]
    intro hv
    simp only [Option.bind_eq_some_iff] at hv
    obtain ⟨x, hx, hv⟩ := hv
    cases x with
    | false => simp at hv
    | true =>
      simp only [if_true] at hv
      cases t with
      | yes f =>
        cases u with
        | yes g =>
          cases f with
          | true => exact iha hc.1 ht hx
          | false =>
            cases g with
            | true => exact ihb hc.2 hu hv
            | false => simp [Truth.and] at h
        | _ => simp [Truth.and] at h
      | no => simp [Truth.and] at h
      | unknown => cases u <;> simp [Truth.and] at h
  | or a b => cases hc
  | other k => cases h

example : (Cond.and .typing (.compare .version .ge (.tuple [.int 3]))).NoOr ∧
    decideCond settings (.and .typing (.compare .version .ge (.tuple [.int 3]))) =
      some (.yes true) := ⟨⟨trivial, trivial⟩, by decide⟩

/-- `TYPE_CHECKING` is one of the conditions that are connected by `and`. -/
inductive Guarded : Cond → Prop where
  | name : Guarded (.name "TYPE_CHECKING")
  | mypy : Guarded (.name "MYPY")
  | typing : Guarded .typing
  | paren {c : Cond} : Guarded c → Guarded (.paren c)
  | left {a b : Cond} : Guarded a → Guarded (.and a b)
  | right {a b : Cond} : Guarded b → Guarded (.and a b)

/-- C116: the type checker knows of every decided block behind `TYPE_CHECKING` that it does not
run. -/
theorem checking_blocks_are_known (s : Settings) (c : Cond) (h : Guarded c) (ms : List Mark)
    (bs : List Branch) (hm : markBranches s (some c :: bs) = some ms) (t : Bool)
    (hd : decideCond s c = some (.yes t)) : ms.head? = some (.always true) := by
  have : t = true := by
    clear hm
    induction h generalizing t with
    | name => simpa [decideCond] using hd.symm
    | mypy => simpa [decideCond] using hd.symm
    | typing => simpa [decideCond] using hd.symm
    | paren _ ih => exact ih t hd
    | left _ ih =>
      simp only [decideCond, Option.bind_eq_bind, Option.bind_eq_some_iff, Option.some.injEq] at hd
      obtain ⟨x, hx, y, hy, hd⟩ := hd
      cases x with
      | yes f =>
        have := ih f hx
        subst this
        cases y <;> simp [Truth.and] at hd
        exact hd
      | no => simp [Truth.and] at hd
      | unknown => cases y <;> simp [Truth.and] at hd
    | right _ ih =>
      simp only [decideCond, Option.bind_eq_bind, Option.bind_eq_some_iff, Option.some.injEq] at hd
      obtain ⟨x, hx, y, hy, hd⟩ := hd
      cases y with
      | yes f =>
        have := ih f hy
        subst this
        cases x <;> simp [Truth.and] at hd
        exact hd
      | _ => cases x <;> simp [Truth.and] at hd
  subst this
  simp only [markBranches, hd, Option.bind_eq_bind, Option.bind_some, Option.some.injEq] at hm
  subst hm
  rfl

example : Guarded (.and (.name "PY3") .typing) ∧
    markBranches settings [some (.and (.name "PY3") .typing), none] = some [.always true, .after] :=
  ⟨.right .typing, by decide⟩

end Verif.Reach
