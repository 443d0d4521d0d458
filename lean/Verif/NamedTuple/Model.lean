/-!
# Named tuples

Model of `new_collections_named_tuple`, `add_named_tuple_param` and `is_identifier`
(`crates/zuban_python/src/file/type_computation/named_tuple.rs` 290-413, 429-489) and of
`find_stmt_named_tuple_types` (`crates/zuban_python/src/file/type_computation/class.rs` 1931-2000).

Not modelled: the name of the type (`check_named_tuple_name`), the types of fields, `if` statements in the class (the
statements are those of the reachable blocks), and elements that are no string literals.
-/

set_option linter.unusedVariables false

namespace Verif.NamedTuple

abbrev Str := List Char

/-- Unicode outside of ASCII, as Rust (`is_alphabetic`, `is_alphanumeric`) and Python (`XID_Start`, `XID_Continue`) see
it. -/
structure Unicode where
  alphabetic : Char → Bool
  alphanumeric : Char → Bool
  idStart : Char → Bool
  idContinue : Char → Bool

/-- `a` to `z` and `A` to `Z`. -/
def asciiLetter (c : Char) : Bool :=
  (decide (97 ≤ c.toNat) && decide (c.toNat ≤ 122)) || (decide (65 ≤ c.toNat) && decide (c.toNat ≤ 90))

/-- `0` to `9`. -/
def asciiDigit (c : Char) : Bool := decide (48 ≤ c.toNat) && decide (c.toNat ≤ 57)

/-- `char::is_alphabetic`. -/
def isAlphabetic (u : Unicode) (c : Char) : Bool := if c.toNat < 128 then asciiLetter c else u.alphabetic c

/-- `char::is_alphanumeric`. -/
def isAlphanumeric (u : Unicode) (c : Char) : Bool :=
  if c.toNat < 128 then asciiLetter c || asciiDigit c else u.alphanumeric c

/-- `is_identifier`, named_tuple.rs 429-435. -/
def isIdentifier (u : Unicode) : Str → Bool
  | [] => false
  | c :: cs => (isAlphabetic u c || c == '_') && cs.all (fun c => isAlphanumeric u c || c == '_')

/-- The words in quotes in the grammar, parsa_python/src/lib.rs 13-455; `Keywords::add` (parsa/src/automaton.rs 228-234)
is called for all of them, also for the soft keywords. -/
def grammarWords : List Str :=
  ["False", "None", "True", "_", "and", "as", "assert", "async", "await", "break", "case", "class", "continue", "def",
   "del", "elif", "else", "except", "finally", "for", "from", "global", "if", "import", "in", "is", "lambda", "match",
   "nonlocal", "not", "or", "pass", "raise", "return", "try", "type", "while", "with", "yield"].map String.toList

/-- `keywords_contain`, parsa/src/lib.rs 755-757. -/
def keywordsContain (s : Str) : Bool := decide (s ∈ grammarWords)

/-- A field, `CallableParam`.  The first parameter of `__new__` is left out: it has no name. -/
structure Field where
  name : Str
  hasDefault : Bool
deriving DecidableEq, Repr

/-- The errors about a field name, named_tuple.rs 455-483. -/
inductive Issue where
  | duplicate
  | invalid
  | underscore
  | keyword
deriving DecidableEq, Repr

/-- The conditions of named_tuple.rs 455-483 one after the other. -/
def issueOf (u : Unicode) (fields : List Field) (name : Str) : Option Issue :=
  if fields.any (fun f => f.name == name) then some .duplicate
  else if !isIdentifier u name then some .invalid
  else if ['_'].isPrefixOf name then some .underscore
  else if keywordsContain name then some .keyword
  else none

/-- `format!("_{}", params.len() - 1)`, named_tuple.rs 449. -/
def placeholder (n : Nat) : Str := '_' :: (Nat.repr n).toList

/-- `add_named_tuple_param`, named_tuple.rs 437-489: the fields and the errors. -/
def addField (u : Unicode) (rename : Bool) (st : List Field × List Issue) (name : Str) : List Field × List Issue :=
  match issueOf u st.1 name with
  | some issue => (st.1 ++ [⟨placeholder st.1.length, false⟩], if rename then st.2 else st.2 ++ [issue])
  | none => (st.1 ++ [⟨name, false⟩], st.2)

/-- The loop over the names, named_tuple.rs 342-371. -/
def addFields (u : Unicode) (rename : Bool) (names : List Str) : List Field × List Issue :=
  names.foldl (addField u rename) ([], [])

/-- `str::split(&[',', ' '])`, named_tuple.rs 361. -/
def splitParts : Str → List Str
  | [] => [[]]
  | c :: cs =>
    if c == ',' || c == ' ' then [] :: splitParts cs
    else match splitParts cs with
      | [] => [[c]]
      | p :: ps => (c :: p) :: ps

/-- `str::len`. -/
def bytes : Str → Nat
  | [] => 0
  | c :: cs => c.utf8Size + bytes cs

/-- The loop over the parts, named_tuple.rs 359-370: the names with start and end. -/
def slices : Nat → List Str → List (Str × Nat × Nat)
  | _, [] => []
  | start, p :: ps =>
    if p.isEmpty then slices (start + bytes p + 1) ps
    else (p, start, start + bytes p) :: slices (start + bytes p + 1) ps

/-- The names in a text that begins at `start`. -/
def namesOf (start : Nat) (text : Str) : List (Str × Nat × Nat) := slices start (splitParts text)

/-- The arguments after the second one, named_tuple.rs 299-340. -/
inductive Opt where
  /-- `defaults=` a list or tuple of this length, or something else. -/
  | defaults (count : Option Nat)
  /-- `rename=True`, `rename=False` or something else. -/
  | rename (value : Option Bool)
  /-- Another keyword. -/
  | keyword (name : Str)
  /-- No keyword. -/
  | positional
deriving DecidableEq, Repr

/-- The errors about these arguments. -/
inductive OptIssue where
  | defaultsShouldBeListOrTuple
  | expectedBool
  | unexpectedKeyword
  | tooMany
deriving DecidableEq, Repr

/-- `rename`, `defaults_arg` and the errors.  `stop` is `return None`. -/
structure Opts where
  rename : Bool
  defaults : Option Nat
  issues : List OptIssue
  stop : Bool
deriving DecidableEq, Repr

/-- named_tuple.rs 299-340. -/
def readOpts : Opts → List Opt → Opts
  | o, [] => o
  | o, .defaults (some n) :: rest => readOpts { o with defaults := some n } rest
  | o, .defaults none :: rest => { o with issues := o.issues ++ [.defaultsShouldBeListOrTuple], stop := true }
  | o, .rename (some b) :: rest => readOpts { o with rename := b } rest
  | o, .rename none :: rest => readOpts { o with issues := o.issues ++ [.expectedBool] } rest
  | o, .keyword _ :: rest => readOpts { o with issues := o.issues ++ [.unexpectedKeyword] } rest
  | o, .positional :: rest => readOpts { o with issues := o.issues ++ [.tooMany] } rest

/-- `for param in params.iter_mut().skip(skip + 1)`; the parameter of the class itself is not in the list. -/
def markFrom : Nat → List Field → List Field
  | _, [] => []
  | 0, f :: fs => { f with hasDefault := true } :: markFrom 0 fs
  | n + 1, f :: fs => f :: markFrom n fs

/-- named_tuple.rs 389-401: the fields and whether there are too many defaults. -/
def applyDefaults (fields : List Field) : Option Nat → List Field × Bool
  | none => (fields, false)
  | some count =>
    if count > fields.length then (markFrom 0 fields, true) else (markFrom (fields.length - count) fields, false)

/-- The errors of a class body, class.rs 1940-1957. -/
inductive ClassIssue where
  | nonDefaultFollowsDefault
  | underscore
deriving DecidableEq, Repr

/-- `find_stmt_named_tuple_types`, class.rs 1938-1966, for statements `name: type` and `name: type = default`. -/
def classFields : List Field × List ClassIssue → List Field → List Field × List ClassIssue
  | st, [] => st
  | st, s :: rest =>
    if !s.hasDefault && (match st.1.getLast? with | some l => l.hasDefault | none => false) then
      classFields (st.1, st.2 ++ [.nonDefaultFollowsDefault]) rest
    else if ['_'].isPrefixOf s.name then classFields (st.1, st.2 ++ [.underscore]) rest
    else classFields (st.1 ++ [s], st.2) rest

end Verif.NamedTuple
