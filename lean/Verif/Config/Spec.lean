import Verif.Config.Model

/-!
# Specification of the configuration language

Written after mypy's documentation of its configuration file, independently of the functions of
the model.
-/

namespace Verif.Config.Spec

/-- The components of a module name behind the first one: a name stands for itself, a `*` for any
number of components. -/
inductive Rest : List Part → List Name → Prop
  | nil : Rest [] []
  | part {p ps cs} : Rest ps cs → Rest (.part p :: ps) (p :: cs)
  | star {pre ps cs} : Rest ps cs → Rest (.wildcard :: ps) (pre ++ cs)

/-- A pattern denotes a module (outermost component first): a `*` in the first place stands for at
least one component. -/
inductive Denotes : List Part → List Name → Prop
  | part {p ps cs} : Rest ps cs → Denotes (.part p :: ps) (p :: cs)
  | star {c pre ps cs} : Rest ps cs → Denotes (.wildcard :: ps) (c :: pre ++ cs)

/-- The documented names of the options of a flag, and whether the name means the opposite of the
flag.  `warn_redundant_casts` and `allow_incomplete_generics` have no option. -/
def optionNames : Flag → List (Name × Bool)
  | .ignoreErrors => [("ignore_errors".toList, false)]
  | .strictOptional => [("strict_optional".toList, false)]
  | .strictEquality => [("strict_equality".toList, false)]
  | .implicitOptional => [("implicit_optional".toList, false)]
  | .checkUntypedDefs => [("check_untyped_defs".toList, false)]
  | .ignoreMissingImports => [("ignore_missing_imports".toList, false)]
  | .followUntypedImports => [("follow_untyped_imports".toList, false)]
  | .disallowUntypedDefs => [("disallow_untyped_defs".toList, false)]
  | .disallowUntypedCalls => [("disallow_untyped_calls".toList, false)]
  | .disallowUntypedDecorators => [("disallow_untyped_decorators".toList, false)]
  | .disallowAnyGenerics => [("disallow_any_generics".toList, false)]
  | .disallowAnyDecorated => [("disallow_any_decorated".toList, false)]
  | .disallowAnyExplicit => [("disallow_any_explicit".toList, false)]
  | .disallowAnyUnimported => [("disallow_any_unimported".toList, false)]
  | .disallowAnyExpr => [("disallow_any_expr".toList, false)]
  | .disallowSubclassingAny => [("disallow_subclassing_any".toList, false)]
  | .disallowIncompleteDefs => [("disallow_incomplete_defs".toList, false)]
  | .allowUntypedGlobals => [("allow_untyped_globals".toList, false)]
  | .allowRedefinition => [("allow_redefinition".toList, false), ("allow_redefinition_new".toList, false)]
  | .allowEmptyBodies => [("allow_empty_bodies".toList, false)]
  | .warnUnreachable => [("warn_unreachable".toList, false)]
  | .warnRedundantCasts => []
  | .warnReturnAny => [("warn_return_any".toList, false)]
  | .warnNoReturn => [("warn_no_return".toList, false)]
  | .localPartialTypes => [("local_partial_types".toList, false)]
  | .noImplicitReexport => [("implicit_reexport".toList, true)]
  | .disableBytearrayPromotion => [("disable_bytearray_promotion".toList, false)]
  | .disableMemoryviewPromotion => [("disable_memoryview_promotion".toList, false)]
  | .extraChecks => [("extra_checks".toList, false)]
  | .allowIncompleteGenerics => []
  | .untypedStrictOptional => [("untyped_strict_optional".toList, false)]

/-- Which option names set which flag, and whether they negate: an option under its own name, the
same with `no_`, and `allow`/`disallow` exchanged. -/
inductive Key : Name → Flag → Bool → Prop
  | own {n f neg} : (n, neg) ∈ optionNames f → Key n f neg
  | no {n f neg} : (n, neg) ∈ optionNames f → Key ("no_".toList ++ n) f (!neg)
  | allow {x f neg} : ("disallow".toList ++ x, neg) ∈ optionNames f → Key ("allow".toList ++ x) f (!neg)
  | disallow {x f neg} : ("allow".toList ++ x, neg) ∈ optionNames f → Key ("disallow".toList ++ x) f (!neg)

/-- The boolean denoted by a value. -/
inductive BoolValue : Value → Bool → Prop
  | toml (b) : BoolValue (.tomlBool b) b
  | inline : BoolValue .inlineNoValue true
  | yes (s) : toLower s ∈ ["true".toList, "1".toList, "yes".toList, "on".toList] → BoolValue (.ini s) true
  | no (s) : toLower s ∈ ["false".toList, "0".toList, "no".toList, "off".toList] → BoolValue (.ini s) false

/-- The options that take a list of strings, and the list they extend. -/
inductive ListKey : Name → ListFlag → Prop
  | alwaysTrue : ListKey "always_true".toList .alwaysTrue
  | alwaysFalse : ListKey "always_false".toList .alwaysFalse
  | enable : ListKey "enable_error_code".toList .enabledErrorCodes
  | disable : ListKey "disable_error_code".toList .disabledErrorCodes

/-- Their names. -/
def listOptions : List Name :=
  ["always_true".toList, "always_false".toList, "enable_error_code".toList, "disable_error_code".toList]

/-- A value for a list option. -/
def ListValue : Value → Prop
  | .tomlStrs _ | .tomlStr _ | .ini _ => True
  | _ => False

/-- A value for `exclude`. -/
def RegexValue (valid : Name → Bool) : Value → Prop
  | .tomlStrs l => ∀ s ∈ l, valid s = true
  | .tomlStr s | .ini s => valid s = true
  | _ => False

/-- An entry of a per-module section that is not acceptable. -/
inductive Bad (valid : Name → Bool) : Name → Value → Prop
  | strict (v) : Bad valid "strict".toList v
  | noStrict (v) : Bad valid "no_strict".toList v
  | version (v) : Bad valid "python_version".toList v
  | noVersion (v) : Bad valid "no_python_version".toList v
  | bool {n f neg} (v) : Key n f neg → (¬ ∃ b, BoolValue v b) → Bad valid n v
  | list {n} (v) : n ∈ listOptions → ¬ ListValue v → Bad valid n v
  | noList {n} (v) : n ∈ listOptions → Bad valid ("no_".toList ++ n) v
  | exclude (v) : ¬ RegexValue valid v → Bad valid "exclude".toList v
  | noExclude (v) : Bad valid "no_exclude".toList v

/-- The section applies to the module of the file. -/
def Applies (o : Override) (f : File) : Prop :=
  Denotes o.module.path ((nameAndParents f).1 :: (nameAndParents f).2).reverse

/-- The precedence of a section by its pattern: concrete module names over patterns with a name behind a
`*`, and these over patterns like `pkg.*`. -/
def level (ps : List Part) : Nat :=
  if ps.all (· ≠ .wildcard) then 2
  else if (ps.dropWhile (· ≠ .wildcard)).any (· ≠ .wildcard) then 1
  else 0

/-- The section says something about the flag. -/
def Mentions (o : Override) (f : Flag) : Prop := ∃ k v neg, (k, v) ∈ o.config ∧ Key k f neg

/-- The section sets the flag to `b`: the last entry about the flag counts. -/
def Sets (o : Override) (f : Flag) (b : Bool) : Prop :=
  ∃ pre k v post neg b', o.config = pre ++ (k, v) :: post ∧ Key k f neg ∧ BoolValue v b' ∧ b = (b' != neg) ∧
    ∀ k' v' neg', (k', v') ∈ post → ¬ Key k' f neg'

end Verif.Config.Spec
