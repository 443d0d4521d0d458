import Verif.Dataclass.Model

/-! # What Python does

`dataclasses._process_class` of the standard library: a dataclass has a dictionary of fields.  The
fields of all dataclasses in the MRO are put into it, beginning with the last one, and then its own
fields.  A field that is put twice stays at its place and gets the new value. -/

namespace Verif.Dataclass

/-- An entry of `__dataclass_fields__`. -/
structure Entry where
  name : String
  kind : Kind
  init : Bool
  kwOnly : Bool
  hasDefault : Bool
  ty : Nat
deriving DecidableEq

/-- Assignment to a key of a dictionary. -/
def put : List Entry → Entry → List Entry
  | [], e => [e]
  | a :: as, e => if a.name = e.name then e :: as else a :: put as e

/-- Whether a class of the MRO has a value for the name, which is then the default of a field
without another one: `default = getattr(cls, a_name, MISSING)`. -/
def inheritedValue (bases : List (List Field)) (name : String) : Bool :=
  bases.any fun fs => fs.any fun f => f.name = name && f.default = .value

/-- The entries of the fields of the class itself; fields after `KW_ONLY` are keyword-only. -/
def entries (bases : List (List Field)) : Bool → List Field → List Entry
  | _, [] => []
  | kw, f :: fs =>
    if f.kind = .marker then entries bases true fs
    else
      ⟨f.name, f.kind, f.init, f.kwOnly.getD kw, f.default ≠ .none || inheritedValue bases f.name,
        f.ty⟩ :: entries bases kw fs

/-- Whether `__init__` has a parameter for the field. -/
def Entry.param (e : Entry) : Bool := e.kind ≠ .classVar && e.init

/-- The parameters of `__init__` in front of the star. -/
def positional (es : List Entry) : List Entry := es.filter fun e => e.param && !e.kwOnly

/-- The parameters of `__init__` after the star. -/
def keywordOnly (es : List Entry) : List Entry := es.filter fun e => e.param && e.kwOnly

/-- The arguments of `__post_init__`. -/
def initVars (es : List Entry) : List Entry := es.filter fun e => e.kind = .initVar

/-- A class of the program after it was processed. -/
structure PyClass where
  fields : List Entry
  /-- The body of the class. -/
  body : List Field
  frozen : Option Bool

/-- The classes in the MRO. -/
def mroOf (known : List PyClass) (d : Def) : List PyClass := d.bases.filterMap fun i => known[i]?

/-- The entries that are put into the dictionary of a class. -/
def allEntries (mro : List PyClass) (d : Def) : List Entry :=
  (mro.map (·.fields)).flatten ++ entries (mro.map (·.body)) d.kwOnly d.fields

/-- A class with these classes in its MRO. -/
def process (mro : List PyClass) (d : Def) : PyClass :=
  ⟨(allEntries mro d).foldl put [], d.fields, d.frozen⟩

/-- The classes of a program. -/
def pyClasses (known : List PyClass) : List Def → List PyClass
  | [] => known
  | d :: ds => pyClasses (known ++ [process (mroOf known d) d]) ds

/-- The field of `TypeError: non-default argument .. follows default argument`. -/
def firstBad : Bool → List Entry → Option String
  | _, [] => none
  | seen, e :: es =>
    if e.hasDefault then firstBad true es else if seen then some e.name else firstBad seen es

/-- The decorator raises a `TypeError`: frozen and other classes are mixed, `KW_ONLY` is there twice,
or a field without default is after one with default. -/
inductive Raises (mro : List PyClass) (d : Def) : Prop where
  | frozen (b : PyClass) (x y : Bool) : b ∈ mro → b.frozen = some x → d.frozen = some y → x ≠ y →
    Raises mro d
  | marker : 2 ≤ (d.fields.filter fun f => f.kind = .marker).length → Raises mro d
  | order (n : String) : firstBad false (positional (process mro d).fields) = some n → Raises mro d

/-- The classes that are covered: a field that overrides another one is a parameter of `__init__` if
that is one, and of the same kind.  Fields have no alias, and if the overridden field has a value,
the new one has one too. -/
structure Steady (mro : List PyClass) (d : Def) : Prop where
  agree : ∀ a ∈ allEntries mro d, ∀ b ∈ allEntries mro d, a.name = b.name →
    a.param = b.param ∧ (a.param = true → a.kwOnly = b.kwOnly)
  value : ∀ f ∈ d.fields, inheritedValue (mro.map (·.body)) f.name → f.default ≠ .none
  alias : ∀ f ∈ d.fields, f.alias = none

/-- All classes are covered and Python can run their definitions. -/
def Works (known : List PyClass) : List Def → Prop
  | [] => True
  | d :: ds => Steady (mroOf known d) d ∧ ¬ Raises (mroOf known d) d ∧
    Works (known ++ [process (mroOf known d) d]) ds

/-- The entries that come from the MRO. -/
def inherited (mro : List PyClass) : List Entry := (mro.map (·.fields)).flatten

/-- The entries of the class itself. -/
def own (mro : List PyClass) (d : Def) : List Entry :=
  entries (mro.map (·.body)) d.kwOnly d.fields

/-- Classes whose `InitVar`s are covered: they are positional parameters, and no field overrides
them. -/
structure PostFair (mro : List PyClass) (d : Def) : Prop where
  positional : ∀ e ∈ allEntries mro d, e.kind = .initVar → e.init = true ∧ e.kwOnly = false
  kinds : ∀ a ∈ inherited mro, ∀ b ∈ inherited mro, a.name = b.name →
    (a.kind = .initVar ↔ b.kind = .initVar)
  types : ∀ a ∈ inherited mro, ∀ b ∈ inherited mro, a.name = b.name → a.kind = .initVar → a.ty = b.ty
  new : ∀ e ∈ own mro d, ∀ b ∈ inherited mro, e.name = b.name →
    e.kind ≠ .initVar ∧ b.kind ≠ .initVar
  distinct : ((own mro d).map (·.name)).Nodup

/-- All classes are covered and Python can run their definitions, and their `InitVar`s are covered too. -/
def WorksPost (known : List PyClass) : List Def → Prop
  | [] => True
  | d :: ds => (Steady (mroOf known d) d ∧ ¬ Raises (mroOf known d) d) ∧ PostFair (mroOf known d) d ∧
    WorksPost (known ++ [process (mroOf known d) d]) ds

/-- Names that are `InitVar`s everywhere in the MRO or nowhere; `bodies` are the classes of the MRO,
beginning with the class itself. -/
structure ReplaceFair (c : PyClass) (bodies : List (List Field)) : Prop where
  found : ∀ e ∈ c.fields, ∃ fs ∈ bodies, ∃ f ∈ fs, f.name = e.name
  kinds : ∀ fs ∈ bodies, ∀ f ∈ fs, ∀ e ∈ c.fields, f.name = e.name →
    (f.kind = .initVar ↔ e.kind = .initVar)

end Verif.Dataclass
