import Verif.Fixtures.Spec

/-!
# Fixtures: modules are searched in the order of pytest

C239 to C241.
-/

set_option linter.unusedVariables false
set_option linter.unusedSimpArgs false

namespace Verif.Fixtures

open Spec

/-! ## C239: the modules and their order -/

/-- What is still to come in a state. -/
def pending (w : World) (current : Nat) (s : State) : List Nat :=
  (if s.skip then [] else [current]) ++ s.plugins ++
    ((s.parent.getD []).flatMap (ofDirectory w current) ++ s.builtin.filterMap id)

theorem ofDirectory_found (w : World) (current : Nat) (d : Option Nat) :
    ofDirectory w current d = match found current d with | some f => f :: w.plugins f | none => [] := by
  cases d with
  | none => rfl
  | some f =>
    by_cases h : f = current
    · simp [ofDirectory, found, h]
    · simp [ofDirectory, found, h]

theorem climb_pending (w : World) (current : Nat) (ds : List (Option Nat)) :
    ds.flatMap (ofDirectory w current) =
      match climb current ds with
      | some (f, rest) => f :: (w.plugins f ++ (rest.getD []).flatMap (ofDirectory w current))
      | none => [] := by
  induction ds with
  | nil => rfl
  | cons d ds ih =>
    rw [List.flatMap_cons, ofDirectory_found]
    cases ds with
    | nil =>
      unfold climb
      cases found current d <;> simp
    | cons d' rest =>
      unfold climb
      cases found current d with
      | none => simpa using ih
      | some f => simp

theorem nextBuiltin_pending (ds : List (Option Nat)) :
    ds.filterMap id = match nextBuiltin ds with | some (f, rest) => f :: rest.filterMap id | none => [] := by
  induction ds with
  | nil => rfl
  | cons d ds ih =>
    cases d with
    | none => simpa [nextBuiltin] using ih
    | some f => simp [nextBuiltin]

theorem next_pending (w : World) (current : Nat) (s : State) :
    pending w current s = match next w current s with | some (f, s') => f :: pending w current s' | none => [] := by
  obtain ⟨skip, parent, builtin, plugins⟩ := s
  unfold next
  cases skip with
  | false => simp [pending]
  | true =>
    cases plugins with
    | cons f rest => simp [pending]
    | nil =>
      simp only [Bool.not_true, Bool.false_eq_true, if_false]
      have hp : ∀ q : Option (List (Option Nat)), (q.getD []).flatMap (ofDirectory w current) =
          match q.bind (climb current) with
          | some (f, rest) => f :: (w.plugins f ++ (rest.getD []).flatMap (ofDirectory w current))
          | none => [] := by
        intro q
        cases q with
        | none => rfl
        | some ds => exact climb_pending w current ds
      have h1 := hp parent
      cases hc : parent.bind (climb current) with
      | some x =>
        obtain ⟨f, rest⟩ := x
        rw [hc] at h1
        simp only at h1
        simp [pending, h1]
      | none =>
        rw [hc] at h1
        simp only at h1
        have h2 := nextBuiltin_pending builtin
        cases hb : nextBuiltin builtin with
        | some x =>
          obtain ⟨f, rest⟩ := x
          rw [hb] at h2
          simp only at h2
          simp only [pending, h1, h2]
          simp
        | none =>
          rw [hb] at h2
          simp only at h2
          simp only [pending, h1, h2]
          simp

theorem collect_pending (w : World) (current : Nat) (fuel : Nat) (s : State) :
    (fuel ≤ (pending w current s).length → collect w current fuel s = none) ∧
    ((pending w current s).length < fuel → collect w current fuel s = some (pending w current s)) := by
  induction fuel generalizing s with
  | zero => simp [collect]
  | succ n ih =>
    have h := next_pending w current s
    rw [collect]
    cases hn : next w current s with
    | none =>
      rw [hn] at h
      simp only at h
      rw [h]
      simp
    | some x =>
      obtain ⟨f, s'⟩ := x
      rw [hn] at h
      simp only at h
      rw [h]
      simp only [List.length_cons]
      constructor
      · intro hl
        rw [(ih s').1 (by omega)]
        rfl
      · intro hl
        rw [(ih s').2 (by omega)]
        rfl

theorem start_pending (w : World) (current : Nat) (skip : Bool) :
    pending w current (start w skip) = if skip then (order w current).tail else order w current := by
  cases skip <;> simp [pending, start, order]

/-- C239: the iterator ends, after exactly these files: the file itself, then the `conftest`s from the nearest directory
upwards, each followed by its plugins, then the modules of pytest.  If the file is skipped, only it is missing. -/
theorem modules_in_order (w : World) (current : Nat) (skip : Bool) (fuel : Nat) (files : List Nat) :
    (collect w current fuel (start w skip) = some files →
      files = if skip then (order w current).tail else order w current) ∧
    ((order w current).length < fuel → (collect w current fuel (start w skip)).isSome) := by
  have h := collect_pending w current fuel (start w skip)
  rw [start_pending] at h
  constructor
  · intro hc
    by_cases hl : fuel ≤ (if skip then (order w current).tail else order w current).length
    · rw [h.1 hl] at hc
      simp at hc
    · rw [h.2 (by omega)] at hc
      exact (Option.some.inj hc).symm
  · intro hl
    rw [h.2 (by
      refine Nat.lt_of_le_of_lt ?_ hl
      split <;> simp)]
    rfl

/-- The test file 1, a `conftest` 2 with the plugin 3, a directory without one, the `conftest` 4, and the modules 8 and 9. -/
def sample : World where
  conftests := [some 2, none, some 4]
  plugins f := if f = 2 then [3] else []
  builtin := [some 8, none, some 9]
  fixtures f := if f = 1 then [10] else if f = 3 then [10, 11] else if f = 4 then [11] else if f = 8 then [10] else []

example : collect sample 1 10 (start sample false) = some [1, 2, 3, 4, 8, 9] ∧
    collect sample 2 10 (start sample true) = some [4, 8, 9] := by decide

/-! ## C240: the fixture of a parameter -/

theorem find_first (w : World) (files : List Nat) (name : Nat) :
    (∀ f, files.find? (fun f => (w.fixtures f).contains name) = some f ↔ First w files name f) ∧
    (files.find? (fun f => (w.fixtures f).contains name) = none ↔ ∀ f ∈ files, name ∉ w.fixtures f) := by
  constructor
  · intro f
    rw [List.find?_eq_some_iff_append]
    unfold First
    simp
    constructor
    · rintro ⟨h, b, ⟨a, e⟩, h'⟩
      exact ⟨b, ⟨a, e⟩, h, h'⟩
    · rintro ⟨b, ⟨a, e⟩, h, h'⟩
      exact ⟨h, b, ⟨a, e⟩, h'⟩
  · rw [List.find?_eq_none]
    simp

/-- C240: a parameter stands for the fixture of the first file in the order that defines it, where a function does not look
into its own file for a fixture of its own name. -/
theorem fixture_first (w : World) (current func fuel name : Nat) (r : Option Nat)
    (h : findFixture w current func fuel name = some r) :
    (name ≠ func → ∀ f, r = some f ↔ First w (order w current) name f) ∧
    (name = func → ∀ f, r = some f ↔ First w (order w current).tail name f) ∧
    (r = none → name ≠ func → ∀ f ∈ order w current, name ∉ w.fixtures f) := by
  unfold findFixture at h
  rw [Option.map_eq_some_iff] at h
  obtain ⟨files, hf, rfl⟩ := h
  have := (modules_in_order w current (name == func) fuel files).1 hf
  refine ⟨?_, ?_, ?_⟩
  · intro hne f
    simp only [beq_iff_eq, if_neg hne] at this
    rw [this]
    exact (find_first w _ name).1 f
  · intro he f
    simp only [beq_iff_eq, if_pos he] at this
    rw [this]
    exact (find_first w _ name).1 f
  · intro hr hne
    simp only [beq_iff_eq, if_neg hne] at this
    rw [this] at hr
    exact (find_first w _ name).2.mp hr

/-- C240: a fixture that overrides another of the same name never stands for itself, if its file is not a plugin or a
module of pytest itself. -/
theorem not_itself_partial (w : World) (current func fuel : Nat) (hp : ∀ f, current ∉ w.plugins f)
    (hb : some current ∉ w.builtin) : findFixture w current func fuel func ≠ some (some current) := by
  intro h
  obtain ⟨b, a, e, -, -⟩ := ((fixture_first w current func fuel func _ h).2.1 rfl current).mp rfl
  have hm : current ∈ (order w current).tail := by rw [e]; simp
  simp only [order, List.tail_cons, List.mem_append, List.mem_flatMap, List.mem_filterMap, id] at hm
  rcases hm with ⟨d, hd, hm⟩ | ⟨d, hd, rfl⟩
  · cases d with
    | none => simp [ofDirectory] at hm
    | some f =>
      unfold ofDirectory at hm
      simp only at hm
      split at hm
      · simp at hm
      · rename_i hne
        rcases List.mem_cons.mp hm with rfl | hm
        · exact hne rfl
        · exact hp f hm
  · exact hb hd

/-- A fixture of a plugin that overrides a fixture of pytest, like `def tmp_path(tmp_path)`, in a file that a `conftest` names in
`pytest_plugins`: the parameter stands for the function itself, because the file comes again as a plugin. -/
theorem itself_violation : findFixture sample 3 10 10 10 = some (some 3) ∧ 10 ∈ sample.fixtures 8 ∧ 8 ∈ order sample 3 := by
  decide

/-- The plugins of a `conftest` are not searched for functions of that `conftest`, although pytest knows them there. -/
theorem own_plugins_violation :
    3 ∈ sample.plugins 2 ∧ 10 ∈ sample.fixtures 3 ∧ findFixture { sample with builtin := [] } 2 0 10 10 = some none := by
  decide

example : findFixture sample 1 0 10 10 = some (some 1) ∧ findFixture sample 1 10 10 10 = some (some 3) ∧
    findFixture sample 1 0 10 11 = some (some 3) := by decide

/-! ## C241: completions -/

/-- C241: the names that are offered as parameters are exactly those that stand for a fixture.  Missing: the name of the
function itself, if its file is also a plugin or a module of pytest. -/
theorem offered_iff_partial (w : World) (current func fuel : Nat) (all : List (Nat × Nat))
    (h : allFixtures w current func fuel = some all) (name : Nat)
    (hn : name = func → current ∉ (order w current).tail) (r : Option Nat)
    (hr : findFixture w current func fuel name = some r) :
    (∃ f, (f, name) ∈ all) ↔ r.isSome := by
  unfold allFixtures at h
  rw [Option.map_eq_some_iff] at h
  obtain ⟨files, hf, rfl⟩ := h
  have e := (modules_in_order w current false fuel files).1 hf
  simp only [Bool.false_eq_true, if_false] at e
  subst e
  have hx := fixture_first w current func fuel name r hr
  have hall : (∃ f, (f, name) ∈ (order w current).flatMap fun f =>
      ((w.fixtures f).filter fun name => !(f == current && name == func)).map fun name => (f, name)) ↔
      ∃ f ∈ order w current, name ∈ w.fixtures f ∧ ¬ (f = current ∧ name = func) := by
    simp only [List.mem_flatMap, List.mem_map, List.mem_filter]
    constructor
    · rintro ⟨f, g, hg, n, ⟨h1, h2⟩, h3⟩
      simp only [Prod.mk.injEq] at h3
      obtain ⟨rfl, rfl⟩ := h3
      exact ⟨g, hg, h1, by intro h; simp [h.1, h.2] at h2⟩
    · rintro ⟨f, hf, h1, h2⟩
      exact ⟨f, f, hf, name, ⟨h1, by by_cases a : f = current <;> by_cases b : name = func <;> simp_all⟩, rfl⟩
  rw [hall]
  have ho : order w current = current :: (order w current).tail := rfl
  unfold findFixture at hr
  rw [Option.map_eq_some_iff] at hr
  obtain ⟨files, hf', rfl⟩ := hr
  have e' := (modules_in_order w current (name == func) fuel files).1 hf'
  rw [List.find?_isSome]
  simp only [List.contains_iff_mem]
  by_cases hnf : name = func
  · simp only [beq_iff_eq, if_pos hnf] at e'
    subst e'
    constructor
    · rintro ⟨f, h1, h2, h3⟩
      rw [ho] at h1
      rcases List.mem_cons.mp h1 with rfl | h1
      · exact absurd ⟨rfl, hnf⟩ h3
      · exact ⟨f, h1, h2⟩
    · rintro ⟨f, h1, h2⟩
      refine ⟨f, List.mem_of_mem_tail h1, h2, ?_⟩
      rintro ⟨rfl, -⟩
      exact hn hnf h1
  · simp only [beq_iff_eq, if_neg hnf] at e'
    subst e'
    constructor
    · rintro ⟨f, h1, h2, h3⟩
      exact ⟨f, h1, h2⟩
    · rintro ⟨f, h1, h2⟩
      exact ⟨f, h1, h2, fun h => hnf h.2⟩

/-- In a fixture of a plugin, the name of the fixture itself is not offered, but as a parameter it stands for a fixture (the
function itself). -/
theorem offered_violation :
    allFixtures { sample with builtin := [] } 3 10 10 = some [(3, 11), (3, 11), (4, 11)] ∧
    findFixture { sample with builtin := [] } 3 10 10 10 = some (some 3) := by decide

example : allFixtures sample 1 10 10 = some [(3, 10), (3, 11), (4, 11), (8, 10)] := by decide

end Verif.Fixtures
