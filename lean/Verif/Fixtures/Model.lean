/-!
# Fixtures of pytest

Model of `FixtureModuleIterator`, `find_pytest_fixture_for_param` and `find_all_possible_pytest_fixtures`,
`crates/zuban_python/src/pytest.rs` 49-83 and 136-283.

Simplified: files and names are numbers.  Not modelled: how imports are resolved, whether a function is a test, and what
makes a function a fixture.
-/

namespace Verif.Fixtures

/-- What the iterator sees: the `conftest` of the directories from the file upwards, the files of `pytest_plugins` of a
file, the modules of pytest that were found, and the fixtures that are defined in a file. -/
structure World where
  conftests : List (Option Nat)
  plugins : Nat → List Nat
  builtin : List (Option Nat)
  fixtures : Nat → List Nat

/-- `FixtureModuleIterator`, pytest.rs 172-180.  `parent` are the directories that are left. -/
structure State where
  skip : Bool
  parent : Option (List (Option Nat))
  builtin : List (Option Nat)
  plugins : List Nat
deriving DecidableEq, Repr

/-- `new`, pytest.rs 183-198. -/
def start (w : World) (skip : Bool) : State := ⟨skip, some w.conftests, w.builtin, []⟩

/-- A `conftest` that is the file itself does not count, pytest.rs 225-228. -/
def found (current : Nat) : Option Nat → Option Nat
  | some f => if f ≠ current then some f else none
  | none => none

/-- The loop over the directories, pytest.rs 214-253: the `conftest` and the directories that are left.  The last one is
the workspace. -/
def climb (current : Nat) : List (Option Nat) → Option (Nat × Option (List (Option Nat)))
  | [] => none
  | [d] =>
    match found current d with
    | some f => some (f, none)
    | none => none
  | d :: d' :: rest =>
    match found current d with
    | some f => some (f, some (d' :: rest))
    | none => climb current (d' :: rest)

/-- The modules of pytest, pytest.rs 255-282: the first that exists, and those that are left. -/
def nextBuiltin : List (Option Nat) → Option (Nat × List (Option Nat))
  | [] => none
  | some f :: rest => some (f, rest)
  | none :: rest => nextBuiltin rest

/-- `next`, pytest.rs 204-283. -/
def next (w : World) (current : Nat) (s : State) : Option (Nat × State) :=
  if !s.skip then some (current, { s with skip := true })
  else
    match s.plugins with
    | f :: rest => some (f, { s with plugins := rest })
    | [] =>
      match s.parent.bind (climb current) with
      | some (f, rest) => some (f, { s with parent := rest, plugins := w.plugins f })
      | none =>
        match nextBuiltin s.builtin with
        | some (f, rest) => some (f, { s with parent := none, builtin := rest })
        | none => none

/-- Calls of `next` until the end; `none` if there are more than `fuel` of them. -/
def collect (w : World) (current : Nat) : Nat → State → Option (List Nat)
  | 0, _ => none
  | fuel + 1, s =>
    match next w current s with
    | none => some []
    | some (f, s') => (collect w current fuel s').map (f :: ·)

/-- `find_pytest_fixture_for_param`, pytest.rs 49-83: the file that defines the fixture, among the files of the iterator. -/
def findFixture (w : World) (current func : Nat) (fuel : Nat) (name : Nat) : Option (Option Nat) :=
  (collect w current fuel (start w (name == func))).map fun files => files.find? fun f => (w.fixtures f).contains name

/-- `find_all_possible_pytest_fixtures`, pytest.rs 136-170. -/
def allFixtures (w : World) (current func : Nat) (fuel : Nat) : Option (List (Nat × Nat)) :=
  (collect w current fuel (start w false)).map fun files =>
    files.flatMap fun f => ((w.fixtures f).filter fun name => !(f == current && name == func)).map fun name => (f, name)

end Verif.Fixtures
