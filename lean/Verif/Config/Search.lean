import Verif.Config.Model

/-!
# Discovery of the configuration file

Model of `crates/config/src/searcher.rs`.  A directory is described by the four files that are
looked at; of their contents only what decides the search is kept.  What the options of a section
mean is not modelled here: the options are the start value of a mode and the list of sections
that were applied.
-/

namespace Verif.Config.Search

/-- `Mode`, lib.rs 52-56. -/
inductive Mode where
  | default
  | mypy
deriving DecidableEq, Repr

/-- `ModeChoice`, lib.rs 64-69. -/
inductive ModeChoice where
  | explicit (m : Mode)
  | implicit (m : Mode)
  | auto
deriving DecidableEq, Repr

/-- `From<ModeChoice> for Mode`, lib.rs 89-96. -/
def ModeChoice.toMode : ModeChoice → Mode
  | .explicit m | .implicit m => m
  | .auto => .default

/-- The four names of `CONFIG_NAMES`, searcher.rs 8-19. -/
inductive FileName where
  | pyproject | mypyIni | dotMypyIni | setupCfg
deriving DecidableEq, Repr

/-- `pyproject.toml`: is there a `[tool.mypy]`, is there a `[tool.zuban]` and does it have a `mode`. -/
structure Pyproject where
  mypy : Bool
  zuban : Option (Option Mode)
deriving DecidableEq, Repr

/-- An ini file: is there a `[mypy]` or `[mypy-…]` section (`had_relevant_section`, lib.rs 314). -/
structure Ini where
  relevant : Bool
deriving DecidableEq, Repr

/-- A directory; `none` if the file cannot be opened. Files that cannot be read or parsed, and
sections with errors, abort the search with an error and are not modelled. -/
structure Dir where
  pyproject : Option Pyproject
  mypyIni : Option Ini
  dotMypyIni : Option Ini
  setupCfg : Option Ini
deriving DecidableEq, Repr

/-- A section that has been applied to the options. -/
inductive Layer where
  | mypySections (file : FileName)
  | zubanSection
deriving DecidableEq, Repr

/-- `ProjectOptions`: `default_for_mode(mode)` and the sections applied to it in order. -/
structure Options where
  mode : Mode
  layers : List Layer
deriving DecidableEq, Repr

/-- `FoundConfig`, searcher.rs 21-27; `path` is the number of the directory and the name. -/
structure Found where
  options : Options
  file : FileName
deriving DecidableEq, Repr

/-- `get_zuban_config_and_apply_mode`, lib.rs 500-529. -/
def applyMode (p : Pyproject) (mode : ModeChoice) : ModeChoice :=
  match mode, p.zuban with
  | .explicit m, _ => .explicit m
  | _, some (some m) => .explicit m
  | .auto, some none => .implicit .default
  | .auto, none => if p.mypy then .implicit .mypy else .auto
  | .implicit m, _ => .implicit m

/-- The body of the loop in `find_mypy_config_file_in_dir` for an ini file (searcher.rs 151-176):
the new mode and the result if the loop is left. -/
def iniStep (name : FileName) (ini : Ini) (mode : ModeChoice) : ModeChoice × Option Found :=
  let mode := match mode with
    | .auto => .implicit .mypy
    | m => m
  if ini.relevant then (mode, some { options := { mode := mode.toMode, layers := [.mypySections name] }, file := name })
  else if name = .mypyIni ∨ name = .dotMypyIni then
    (mode, some { options := { mode := mode.toMode, layers := [] }, file := name })
  else (mode, none)

/-- The loop over the ini files (searcher.rs 116-179, without pyproject.toml). -/
def iniLoop : List (FileName × Option Ini) → ModeChoice → ModeChoice × Option Found
  | [], mode => (mode, none)
  | (_, none) :: rest, mode => iniLoop rest mode
  | (name, some ini) :: rest, mode =>
    match iniStep name ini mode with
    | (mode, some found) => (mode, some found)
    | (mode, none) => iniLoop rest mode

/-- `find_mypy_config_file_in_dir`, searcher.rs 108-198. -/
def findInDir (d : Dir) (mode : ModeChoice) : Option Found :=
  let inis := [(.mypyIni, d.mypyIni), (.dotMypyIni, d.dotMypyIni), (.setupCfg, d.setupCfg)]
  match d.pyproject with
  | none => (iniLoop inis mode).2
  | some p =>
    let mode := applyMode p mode
    let (mode, endResult) :=
      if p.mypy then
        (mode, some { options := { mode := mode.toMode, layers := [.mypySections .pyproject] }, file := .pyproject })
      else iniLoop inis mode
    let found := endResult.getD { options := { mode := mode.toMode, layers := [] }, file := .pyproject }
    if p.zuban.isSome then
      some { found with options := { found.options with layers := found.options.layers ++ [.zubanSection] } }
    else some found

/-- `find_config` without an explicit file, searcher.rs 59-74: the directories from the current one
to the root.  The result has the number of the directory; `none` is "no relevant config found" with the
default configuration. -/
def findConfig (mode : ModeChoice) : Nat → List Dir → Option (Nat × Found)
  | _, [] => none
  | i, d :: ds =>
    match findInDir d mode with
    | some found => some (i, found)
    | none => findConfig mode (i + 1) ds

/-- The kinds of files that can be named explicitly. -/
inductive ExplicitFile where
  | toml (p : Pyproject)
  | ini (i : Ini)
  /-- any other name, e.g. setup.cfg -/
  | other (i : Ini)

/-- `find_config` with an explicit file, searcher.rs 36-58; for TOML files the options come from
`from_pyproject_toml_only` (lib.rs 354-386).  `name` is only used to label the layers. -/
def findExplicit (name : FileName) (file : ExplicitFile) (mode : ModeChoice) : Options :=
  match file with
  | .toml p =>
    let mode' := applyMode p mode
    match p.mypy, p.zuban.isSome with
    | true, true => { mode := mode'.toMode, layers := [.mypySections name, .zubanSection] }
    | true, false => { mode := mode'.toMode, layers := [.mypySections name] }
    | false, true => { mode := mode'.toMode, layers := [.zubanSection] }
    | false, false => { mode := mode.toMode, layers := [] }
  | .ini i =>
    let mode : ModeChoice := match mode with
      | .auto => .explicit .mypy
      | m => m
    { mode := mode.toMode, layers := if i.relevant then [.mypySections name] else [] }
  | .other i => { mode := mode.toMode, layers := if i.relevant then [.mypySections name] else [] }

/-! ## Specification -/

namespace Spec

/-- The directory takes part in the search. -/
def Relevant (d : Dir) : Prop :=
  d.pyproject.isSome ∨ d.mypyIni.isSome ∨ d.dotMypyIni.isSome ∨ d.setupCfg = some ⟨true⟩

/-- The file of a relevant directory that gives the mypy options. -/
inductive Main (d : Dir) : FileName → Prop
  | tool {p} : d.pyproject = some p → p.mypy = true → Main d .pyproject
  | mypyIni : (∀ p, d.pyproject = some p → p.mypy = false) → d.mypyIni.isSome → Main d .mypyIni
  | dotMypyIni : (∀ p, d.pyproject = some p → p.mypy = false) → d.mypyIni = none → d.dotMypyIni.isSome → Main d .dotMypyIni
  | setupCfg : (∀ p, d.pyproject = some p → p.mypy = false) → d.mypyIni = none → d.dotMypyIni = none →
      d.setupCfg = some ⟨true⟩ → Main d .setupCfg
  | none {p} : d.pyproject = some p → p.mypy = false → d.mypyIni = none → d.dotMypyIni = none →
      d.setupCfg ≠ some ⟨true⟩ → Main d .pyproject

/-- Does the file have mypy sections? -/
def HasSections (d : Dir) : FileName → Prop
  | .pyproject => ∃ p, d.pyproject = some p ∧ p.mypy = true
  | .mypyIni => d.mypyIni = some ⟨true⟩
  | .dotMypyIni => d.dotMypyIni = some ⟨true⟩
  | .setupCfg => d.setupCfg = some ⟨true⟩

/-- Is there a `[tool.zuban]`? -/
def HasZuban (d : Dir) : Prop := ∃ p, d.pyproject = some p ∧ p.zuban.isSome

/-- The mode: the command line decides, then `mode` in `[tool.zuban]`, then the presence of
`[tool.zuban]`, then whether the main file is a mypy configuration. -/
def IsMode (d : Dir) (f : FileName) (arg : Option Mode) (m : Mode) : Prop :=
  match arg with
  | some a => m = a
  | none =>
    (∃ p a, d.pyproject = some p ∧ p.zuban = some (some a) ∧ m = a) ∨
    (∃ p, d.pyproject = some p ∧ p.zuban = some none ∧ m = .default) ∨
    (¬ HasZuban d ∧ m = if f = .pyproject ∧ ∀ p, d.pyproject = some p → p.mypy = false then .default else .mypy)

end Spec

/-- The mode choice that stands for the command line argument. -/
def ofArg : Option Mode → ModeChoice
  | some m => .explicit m
  | none => .auto

/-- The defect: an irrelevant setup.cfg decides the mode. -/
def IrrelevantSetupCfg (d : Dir) : Prop :=
  d.setupCfg = some ⟨false⟩ ∧ d.mypyIni = none ∧ d.dotMypyIni = none ∧ ∃ p, d.pyproject = some p ∧ p.mypy = false ∧ p.zuban = none

open Spec

theorem findInDir_none_iff (d : Dir) (mode : ModeChoice) : findInDir d mode = none ↔ ¬ Relevant d := by
  obtain ⟨p, a, b, c⟩ := d
  cases p with
  | some p =>
    simp only [findInDir, Relevant, Option.isSome_some, true_or, not_true_eq_false, iff_false]
    split <;> simp
  | none =>
    rcases a with _ | ⟨⟨a⟩⟩
    · rcases b with _ | ⟨⟨b⟩⟩
      · rcases c with _ | ⟨⟨c⟩⟩
        · simp [findInDir, iniLoop, Relevant]
        · cases c <;> simp [findInDir, iniLoop, iniStep, Relevant]
      · cases b <;> simp [findInDir, iniLoop, iniStep, Relevant]
    · cases a <;> simp [findInDir, iniLoop, iniStep, Relevant]

/-- What is found in one directory. -/
theorem findInDir_spec (d : Dir) (arg : Option Mode) (found : Found) (h : findInDir d (ofArg arg) = some found)
    (hs : arg = none → ¬ IrrelevantSetupCfg d) :
    Main d found.file ∧ IsMode d found.file arg found.options.mode ∧
    (∀ l, l ∈ found.options.layers ↔ (l = .mypySections found.file ∧ HasSections d found.file) ∨ (l = .zubanSection ∧ HasZuban d)) ∧
    (∀ l1 l2, found.options.layers = l1 ++ .zubanSection :: l2 → l2 = []) := by
  obtain ⟨p, a, b, c⟩ := d
  have main_mono : ∀ {p : Pyproject}, p.mypy = false → ∀ q : Pyproject, some p = some q → q.mypy = false := by
    intro p hp q hq; simp only [Option.some.injEq] at hq; rw [← hq]; exact hp
  rcases p with _ | ⟨⟨pm, pz⟩⟩
  · rcases a with _ | ⟨⟨_ | _⟩⟩
    · rcases b with _ | ⟨⟨_ | _⟩⟩
      · rcases c with _ | ⟨⟨_ | _⟩⟩
        · simp [findInDir, iniLoop] at h
        · simp [findInDir, iniLoop, iniStep] at h
        · cases arg <;> simp only [findInDir, iniLoop, iniStep, ofArg, if_true, Option.some.injEq] at h <;> subst h <;>
            refine ⟨.setupCfg (by simp) rfl rfl rfl, ?_, ?_, ?_⟩ <;>
            simp [IsMode, HasZuban, HasSections, ModeChoice.toMode, List.cons_eq_append_iff]
      · cases arg <;> simp [findInDir, iniLoop, iniStep, ofArg] at h <;> subst h <;>
          refine ⟨.dotMypyIni (by simp) rfl rfl, ?_, ?_, ?_⟩ <;>
          simp [IsMode, HasZuban, HasSections, ModeChoice.toMode, List.cons_eq_append_iff]
      · cases arg <;> simp [findInDir, iniLoop, iniStep, ofArg] at h <;> subst h <;>
          refine ⟨.dotMypyIni (by simp) rfl rfl, ?_, ?_, ?_⟩ <;>
          simp [IsMode, HasZuban, HasSections, ModeChoice.toMode, List.cons_eq_append_iff]
    · cases arg <;> simp [findInDir, iniLoop, iniStep, ofArg] at h <;> subst h <;>
        refine ⟨.mypyIni (by simp) rfl, ?_, ?_, ?_⟩ <;>
        simp [IsMode, HasZuban, HasSections, ModeChoice.toMode, List.cons_eq_append_iff]
    · cases arg <;> simp [findInDir, iniLoop, iniStep, ofArg] at h <;> subst h <;>
        refine ⟨.mypyIni (by simp) rfl, ?_, ?_, ?_⟩ <;>
        simp [IsMode, HasZuban, HasSections, ModeChoice.toMode, List.cons_eq_append_iff]
  · cases pm with
    | true =>
      rcases pz with _ | _ | pz <;> cases arg <;> simp [findInDir, applyMode, ofArg] at h <;> subst h <;>
        refine ⟨.tool rfl rfl, ?_, ?_, ?_⟩ <;>
        simp [IsMode, HasZuban, HasSections, ModeChoice.toMode, List.cons_eq_append_iff]
    | false =>
      rcases a with _ | ⟨⟨_ | _⟩⟩
      · rcases b with _ | ⟨⟨_ | _⟩⟩
        · rcases c with _ | ⟨⟨_ | _⟩⟩
          · rcases pz with _ | _ | pz <;> cases arg <;>
              simp [findInDir, iniLoop, applyMode, ofArg] at h <;> subst h <;>
              refine ⟨.none rfl rfl rfl rfl (by simp), ?_, ?_, ?_⟩ <;>
              simp [IsMode, HasZuban, HasSections, ModeChoice.toMode, List.cons_eq_append_iff]
          · rcases pz with _ | _ | pz <;> cases arg <;>
              simp [findInDir, iniLoop, iniStep, applyMode, ofArg] at h <;> subst h <;>
              refine ⟨.none rfl rfl rfl rfl (by simp), ?_, ?_, ?_⟩ <;>
              simp [IsMode, HasZuban, HasSections, ModeChoice.toMode, List.cons_eq_append_iff]
            exact hs rfl ⟨rfl, rfl, rfl, _, rfl, rfl, rfl⟩
          · rcases pz with _ | _ | pz <;> cases arg <;>
              simp [findInDir, iniLoop, iniStep, applyMode, ofArg] at h <;> subst h <;>
              refine ⟨.setupCfg (main_mono rfl) rfl rfl rfl, ?_, ?_, ?_⟩ <;>
              simp [IsMode, HasZuban, HasSections, ModeChoice.toMode, List.cons_eq_append_iff]
        all_goals
          rcases pz with _ | _ | pz <;> cases arg <;>
            simp [findInDir, iniLoop, iniStep, applyMode, ofArg] at h <;> subst h <;>
            refine ⟨.dotMypyIni (main_mono rfl) rfl rfl, ?_, ?_, ?_⟩ <;>
            simp [IsMode, HasZuban, HasSections, ModeChoice.toMode, List.cons_eq_append_iff]
      all_goals
        rcases pz with _ | _ | pz <;> cases arg <;>
          simp [findInDir, iniLoop, iniStep, applyMode, ofArg] at h <;> subst h <;>
          refine ⟨.mypyIni (main_mono rfl) rfl, ?_, ?_, ?_⟩ <;>
          simp [IsMode, HasZuban, HasSections, ModeChoice.toMode, List.cons_eq_append_iff]

end Verif.Config.Search
