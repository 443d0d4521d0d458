/-! # The `__init__` of dataclasses

`calculate_init_of_dataclass`, crates/zuban_python/src/type_/dataclass.rs 199-552, and what is
computed from its result.

Simplified: a program is a list of dataclasses, each of which names the earlier dataclasses in its
MRO.  Classes that are not dataclasses are left out.  Types are numbers, type variables are not
replaced, and the fields of a class are in the order of the text with a single definition per
name. -/

namespace Verif.Dataclass

/-- The right side of a field: nothing, `= value` or `= field(default=value)`, or
`= field(default_factory=f)`. -/
inductive Default where
  | none | value | factory
deriving DecidableEq

/-- What the annotation says: `InitVar[..]`, `ClassVar[..]`, `KW_ONLY` or something else. -/
inductive Kind where
  | plain | initVar | classVar | marker
deriving DecidableEq

/-- An alias of `dataclass_transform`; `slice` if the name is a `DbString::StringSlice`, which is the
case for strings without escapes. -/
structure Alias where
  text : String
  slice : Bool
deriving DecidableEq

/-- An annotated name in the body of a class with `FieldOptions`, dataclass.rs 578-585, and
`calculate_field_arg`, dataclass.rs 599-627. -/
structure Field where
  name : String
  kind : Kind := .plain
  default : Default := .none
  kwOnly : Option Bool := Option.none
  init : Bool := true
  alias : Option Alias := Option.none
  ty : Nat
deriving DecidableEq

/-- A dataclass with the options of the decorator, dataclass.rs 55-69. -/
structure Def where
  /-- The dataclasses in the MRO, from the last one to the first one, without the class itself. -/
  bases : List Nat := []
  kwOnly : Bool := false
  frozen : Option Bool := some false
  fields : List Field
deriving DecidableEq

/-- `CallableParam`; `slice` is as in `Alias`. -/
structure Param where
  name : String
  kwOnly : Bool
  hasDefault : Bool
  ty : Nat
  slice : Bool := true
deriving DecidableEq

/-- The errors. -/
inductive Issue where
  | nonFrozenFromFrozen
  | frozenFromNonFrozen
  | multipleKwOnly (name : String)
  | noDefaultAfterDefault (name : String)
deriving DecidableEq

/-- `Inits`, dataclass.rs 191-197; `postInit` are the names and types of the parameters of
`__post_init__`. -/
structure Inits where
  params : List Param
  postInit : List (String × Nat)
  nonInit : List String
deriving DecidableEq

/-- The loop of `add_param` if a parameter of this name exists, dataclass.rs 229-241. -/
def replaceParam (new : Param) : List Param → Option (List Param)
  | [] => none
  | p :: ps => if p.name = new.name then some (new :: ps) else (replaceParam new ps).map (p :: ·)

/-- The end of `add_param`, dataclass.rs 230-235 and 243-247: before the first keyword-only
parameter if the new one is not keyword-only. -/
def insertParam (new : Param) : List Param → List Param
  | [] => [new]
  | p :: ps => if p.kwOnly && !new.kwOnly then new :: p :: ps else p :: insertParam new ps

/-- `add_param`, dataclass.rs 211-249; the flag is its result. -/
def addParam (ps : List Param) (new : Param) : List Param × Bool :=
  match replaceParam new ps with
  | some ps => (ps, false)
  | none => (insertParam new ps, true)

/-- The state of `calculate_init_of_dataclass`. -/
structure State where
  params : List Param := []
  postInit : List (String × Nat) := []
  nonInit : List String := []
  hadMarker : Bool := false
  issues : List Issue := []
deriving DecidableEq

/-- A parameter of a base class, dataclass.rs 271-309. -/
def inheritParam (base : Inits) (s : State) (p : Param) : State :=
  let (ps, added) := addParam s.params p
  { s with
    params := ps,
    postInit :=
      if added then
        s.postInit ++ (base.postInit.find? (fun q => q.1 = p.name)).toList
      else s.postInit }

/-- A dataclass in the MRO, dataclass.rs 252-312. -/
def inheritBase (frozen : Option Bool) (s : State) (base : Option Bool × Inits) : State :=
  let s := match frozen, base.1 with
    | some false, some true => { s with issues := s.issues ++ [.nonFrozenFromFrozen] }
    | some true, some false => { s with issues := s.issues ++ [.frozenFromNonFrozen] }
    | _, _ => s
  base.2.params.foldl (inheritParam base.2) s

/-- The name of the parameter, dataclass.rs 396-398. -/
def Field.paramName (f : Field) : Alias := f.alias.getD ⟨f.name, true⟩

/-- A field of the class itself, dataclass.rs 322-409 and 417-476. -/
def addField (kwOnly : Bool) (s : State) (f : Field) : State :=
  match f.kind with
  | .classVar => s
  | .marker =>
    if s.hadMarker then { s with issues := s.issues ++ [.multipleKwOnly f.name] }
    else { s with hadMarker := true }
  | k =>
    let kw := f.kwOnly.getD (kwOnly || s.hadMarker)
    let s :=
      if k = .initVar then { s with postInit := s.postInit ++ [(f.paramName.text, f.ty)] } else s
    if f.init then
      { s with
        params := (addParam s.params
          ⟨f.paramName.text, kw, f.default ≠ .none, f.ty, f.paramName.slice⟩).1 }
    else { s with nonInit := s.nonInit ++ [f.paramName.text] }

/-- The positions of parameters without default after one with default, dataclass.rs 477-482. -/
def gaps : Nat → List Param → List Nat
  | i, p :: q :: ps =>
    if !q.kwOnly && p.hasDefault && !q.hasDefault then (i + 1) :: gaps (i + 1) (q :: ps)
    else gaps (i + 1) (q :: ps)
  | _, _ => []

/-- The check of the defaults, dataclass.rs 477-510.  `none` is the `unreachable!`. -/
def checkDefaults (ps : List Param) : Option (List Param × List Issue) :=
  match (gaps 0 ps).head?, (gaps 0 ps).getLast? with
  | some first, some last =>
    match ps[first]? with
    | some p =>
      if p.slice then
        some ((ps.take last).map (fun p => { p with hasDefault := false }) ++ ps.drop last,
          [.noDefaultAfterDefault p.name])
      else none
    | none => none
  | _, _ => some (ps, [])

/-- `calculate_init_of_dataclass`, dataclass.rs 199-552; the bases are already calculated. -/
def calculate (bases : List (Option Bool × Inits)) (d : Def) : Option (Inits × List Issue) :=
  let s := bases.foldl (inheritBase d.frozen) {}
  let s := d.fields.foldl (addField d.kwOnly) s
  (checkDefaults s.params).map fun (ps, is) => (⟨ps, s.postInit, s.nonInit⟩, s.issues ++ is)

/-- The results for a whole program. -/
structure Known where
  frozen : Option Bool
  inits : Inits
  issues : List Issue
deriving DecidableEq

/-- All dataclasses of a program, each after those in its MRO. -/
def calculateAll (known : List Known) : List Def → Option (List Known)
  | [] => some known
  | d :: ds => do
    let bases := d.bases.filterMap fun i => (known[i]?).map fun k => (k.frozen, k.inits)
    let (inits, issues) ← calculate bases d
    calculateAll (known ++ [⟨d.frozen, inits, issues⟩]) ds

/-- `dunder_match_args_tuple`, dataclass.rs 1176-1193. -/
def matchArgs (i : Inits) : List String :=
  (i.params.takeWhile fun p => !p.kwOnly).map (·.name)

/-- Whether `lookup_on_dataclass`, dataclass.rs 1208-1270, finds the field `name`: a frozen dataclass
answers with the parameter, others with the definition that is nearest in the MRO unless it is an
`InitVar`.  `mro` are the fields of the classes of the MRO. -/
def attributeExists (frozen : Option Bool) (i : Inits) (mro : List (List Field)) (name : String) :
    Bool :=
  if frozen = some true && i.params.any (fun p => p.name = name) then true
  else
    match mro.findSome? fun fs => fs.find? fun f => f.name = name with
    | some f => f.kind ≠ .initVar
    | none => false

/-- The keyword arguments of `dataclasses.replace`, dataclass.rs 823-853; the flag says that the
argument may be left out. -/
def replaceParams (frozen : Option Bool) (i : Inits) (mro : List (List Field)) :
    List (String × Bool) :=
  i.params.map fun p => (p.name, p.hasDefault || attributeExists frozen i mro p.name)

end Verif.Dataclass
