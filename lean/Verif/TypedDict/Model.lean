/-! # Typed dictionaries

crates/zuban_python/src/type_/typed_dict.rs and the definition of typed dicts by classes,
crates/zuban_python/src/file/type_computation/class.rs 1737-1843 and
crates/zuban_python/src/file/type_computation/typed_dict.rs 237-268 and 432-530.

Simplified: the types of the members are a parameter `T` with the comparisons of `Ops`, so typed
dicts are not nested and have no type variables.  A check is a `Bool`, which is `true` if no issue
is added. -/

namespace Verif.TypedDict

/-- What is used of the types of members: `sub a b` is `a.is_super_type_of(b)`, `same a b` is
`a.is_same_type(b)`, `isNever` is `Type::is_never`, `union` is `Type::simplified_union`. -/
structure Ops (T : Type) where
  sub : T → T → Bool
  same : T → T → Bool
  isNever : T → Bool
  union : T → T → T
  never : T
  object : T
  none : T

/-- `TypedDictMember`, typed_dict.rs 31-36. -/
structure Member (T : Type) where
  name : String
  ty : T
  required : Bool := true
  readOnly : Bool := false
deriving DecidableEq

/-- `ExtraItemsType`, typed_dict.rs 78-81; `closed=True` has the type `Never`. -/
structure Extra (T : Type) where
  ty : T
  readOnly : Bool := false
deriving DecidableEq

/-- `TypedDict` with its `TypedDictMembers`, typed_dict.rs 84-97. -/
structure TD (T : Type) where
  named : List (Member T)
  extra : Option (Extra T) := Option.none
  definedAt : Nat := 0
  final : Bool := false
deriving DecidableEq

/-- `TypedDictEntry`, typed_dict.rs 39-44; `isNamed` is whether `name` is there. -/
structure Entry (T : Type) where
  isNamed : Bool
  ty : T
  required : Bool
  readOnly : Bool
deriving DecidableEq

variable {T : Type}

/-- `find_member`, typed_dict.rs 269-274. -/
def findMember (td : TD T) (name : String) : Option (Member T) :=
  td.named.find? fun m => m.name = name

/-- `find_entry`, typed_dict.rs 276-298. -/
def findEntry (o : Ops T) (td : TD T) (name : String) : Option (Entry T) :=
  match td.named.find? fun m => m.name = name with
  | some m => some ⟨true, m.ty, m.required, m.readOnly⟩
  | none =>
    match td.extra with
    | some e => if o.isNever e.ty then none else some ⟨false, e.ty, false, e.readOnly⟩
    | none => none

/-- The check of a member in `is_super_type_of`, typed_dict.rs 535-557. -/
def memberFits (o : Ops T) (m1 : Member T) (b : TD T) : Bool :=
  match findEntry o b m1.name with
  | none => false
  | some m2 =>
    if m1.required != m2.required && !(m1.readOnly && !m1.required) then false
    else if !m1.readOnly && m2.readOnly then false
    else if m1.readOnly then o.sub m1.ty m2.ty
    else o.same m1.ty m2.ty

/-- The check of the extra items in `is_super_type_of`, typed_dict.rs 558-587. -/
def extraFits (o : Ops T) (a b : TD T) : Bool :=
  match a.extra with
  | none => true
  | some e1 =>
    match b.extra with
    | none => false
    | some e2 =>
      (if e1.readOnly then o.sub e1.ty e2.ty else o.same e1.ty e2.ty) &&
        b.named.all fun m2 =>
          match findEntry o a m2.name with
          | some m1 =>
            if m1.isNamed then true
            else if m2.required then false
            else if e1.readOnly then o.sub m1.ty m2.ty
            else o.same m1.ty m2.ty
          | none => true

/-- `is_super_type_of`, typed_dict.rs 526-589: a value of type `b` is accepted for `a`. -/
def isSuperTypeOf (o : Ops T) (a b : TD T) : Bool :=
  a.named.all (fun m1 => memberFits o m1 b) && extraFits o a b

/-- The comparison of typed dicts with its shortcut, type_/matching.rs 202-225. -/
def matchesTypedDict (o : Ops T) (a b : TD T) : Bool :=
  a.definedAt == b.definedAt || isSuperTypeOf o a b

/-- `can_be_emptied`, typed_dict.rs 597-601. -/
def canBeEmptied (td : TD T) : Bool :=
  (match td.extra with
    | some e => !e.readOnly
    | none => false) && td.named.all fun m => !m.required && !m.readOnly

/-- `can_be_overwritten_with`, typed_dict.rs 608-616. -/
def canBeOverwrittenWith (o : Ops T) (td : TD T) : Option T :=
  match td.extra with
  | none => none
  | some e =>
    if !e.readOnly && td.named.all fun m => !m.required && !m.readOnly && o.same e.ty m.ty then
      some e.ty
    else none

/-- `union_of_all_types`, typed_dict.rs 629-638. -/
def unionOfAllTypes (o : Ops T) (td : TD T) : T :=
  let ts := td.named.map (·.ty) ++ (td.extra.map (·.ty)).toList
  ts.foldl o.union o.never

/-! ## Operations -/

/-- The type of a key: one or more string literals, or `str`. -/
inductive Key where
  | lits (k : String) (ks : List String)
  | str

/-- What a program does with a typed dict: `d[key] = value`, `del d[key]` or `d.pop(key)`,
`d.setdefault(key, value)`, `d.popitem()`, `d.clear()`, and `d.update(e)` for a typed dict `e`. -/
inductive Action (T : Type) where
  | set (key : Key) (ty : T)
  | delete (key : Key)
  | setDefault (key : Key) (ty : T)
  | popItem
  | clear
  | update (arg : TD T)

/-- `typed_dict_setitem_internal`, typed_dict.rs 985-1043. -/
def setItem (o : Ops T) (td : TD T) (key : Key) (ty : T) : Bool :=
  match key with
  | .lits k [] =>
    match findEntry o td k with
    | some e => !e.readOnly && o.sub e.ty ty
    | none => false
  | .lits _ _ => false
  | .str =>
    match canBeOverwrittenWith o td with
    | some t => o.sub t ty
    | none => false

/-- The checks of `typed_dict_get_or_pop_internal` for `pop` and `del`, typed_dict.rs 842-867 and
891-894. -/
def deleteItem (o : Ops T) (td : TD T) (key : Key) : Bool :=
  match key with
  | .lits k ks =>
    (k :: ks).all fun k =>
      match findEntry o td k with
      | some e => !(e.required || e.readOnly)
      | none => false
  | .str => canBeEmptied td

/-- `typed_dict_setdefault_internal`, typed_dict.rs 715-779. -/
def setDefaultItem (o : Ops T) (td : TD T) (key : Key) (ty : T) : Bool :=
  match key with
  | .lits k ks =>
    (k :: ks).all fun k =>
      match findEntry o td k with
      | some e => o.sub e.ty ty
      | none => false
  | .str => false

/-- `typed_dict_update_internal`, typed_dict.rs 1090-1150, for an argument that is a typed dict. -/
def updateItems (o : Ops T) (td arg : TD T) : Bool :=
  (arg.named.all fun m =>
    match findEntry o td m.name with
    | some e => !(e.readOnly && !o.isNever m.ty)
    | none => true) &&
  match arg.extra with
  | some x =>
    o.isNever x.ty ||
      !(td.named.any (·.readOnly) || match td.extra with
        | some e => e.readOnly
        | none => false)
  | none => true

/-- Whether the action is accepted for a typed dict; `clear` and `popitem` are only found if the
typed dict can be emptied, typed_dict.rs 1237-1247. -/
def accepts (o : Ops T) (td : TD T) : Action T → Bool
  | .set key ty => setItem o td key ty
  | .delete key => deleteItem o td key
  | .setDefault key ty => setDefaultItem o td key ty
  | .popItem => canBeEmptied td
  | .clear => canBeEmptied td
  | .update arg => updateItems o td arg

/-! ## Views as other types -/

/-- A type of an expression whose value is a dictionary: a typed dict, `dict[str, t]` or
`MutableMapping[str, t]`, `Mapping[str, t]`. -/
inductive View (T : Type) where
  | td (td : TD T)
  | dict (value : T)
  | mapping (value : T)

/-- Whether a value with the second type is accepted for the first one; typed dicts against classes:
type_/matching.rs 847-884, and the base class `Mapping[str, object]` of all typed dicts. -/
def matchesView (o : Ops T) : View T → View T → Bool
  | .td a, .td b => matchesTypedDict o a b
  | .td _, _ => false
  | .dict v, .td b =>
    match canBeOverwrittenWith o b with
    | some t => o.same v t
    | none => false
  | .dict v, .dict w => o.same v w
  | .dict _, .mapping _ => false
  | .mapping v, .td b =>
    o.sub v o.object || (b.extra.isSome && o.sub v (unionOfAllTypes o b))
  | .mapping v, .dict w => o.sub v w
  | .mapping v, .mapping w => o.sub v w

/-- The actions on a `dict[str, t]` are those of typeshed. -/
def acceptsView (o : Ops T) : View T → Action T → Bool
  | .td td, a => accepts o td a
  | .dict v, .set _ ty => o.sub v ty
  | .dict _, .delete _ => true
  | .dict v, .setDefault _ ty => o.sub v ty
  | .dict _, .popItem => true
  | .dict _, .clear => true
  | .dict _, .update _ => false
  | .mapping _, _ => false

/-! ## Types of results -/

/-- The type of `d[key]`, typed_dict.rs 466-481; `none` is an issue. -/
def getItem (o : Ops T) (td : TD T) (key : String) : Option T := (findEntry o td key).map (·.ty)

/-- The type of `d.get(key, default)`, typed_dict.rs 820-912. -/
def get (o : Ops T) (td : TD T) (key : Key) (default : T) : T :=
  match key with
  | .lits k ks =>
    let ty k := match findEntry o td k with
      | some e => e.ty
      | none => o.object
    let found := ks.foldl (fun t k => o.union t (ty k)) (ty k)
    let needsDefault := (k :: ks).any fun k =>
      match findEntry o td k with
      | some e => !e.required
      | none => false
    if needsDefault then o.union found default else found
  | .str =>
    if td.extra.isSome then o.union (unionOfAllTypes o td) default else o.object

/-- The type of `d.pop(key)` or `d.pop(key, default)` if it is accepted, typed_dict.rs 820-912. -/
def pop (o : Ops T) (td : TD T) (key : Key) (default : Option T) : T :=
  match key with
  | .lits k ks =>
    let ty k := match findEntry o td k with
      | some e => e.ty
      | none => o.object
    let found := ks.foldl (fun t k => o.union t (ty k)) (ty k)
    let needsDefault := (k :: ks).any fun k =>
      match findEntry o td k with
      | some e => !e.required
      | none => false
    match default with
    | some d => if needsDefault then o.union found d else found
    | none => found
  | .str =>
    if td.extra.isSome then o.union (unionOfAllTypes o td) (default.getD o.none) else o.object

/-- The type of `d.setdefault(key, default)` for literals, typed_dict.rs 741-775. -/
def setDefaultType (o : Ops T) (td : TD T) (k : String) (ks : List String) (default : T) : T :=
  let ty k := match findEntry o td k with
    | some e => e.ty
    | none => o.object
  o.union (ks.foldl (fun t k => o.union t (ty k)) (ty k)) default

/-- The type of the elements of `d.values()` and of the values of `d.items()` and `d.popitem()`,
typed_dict.rs 1241-1262; without extra items it is `object`. -/
def valueType (o : Ops T) (td : TD T) : T :=
  if td.extra.isSome then unionOfAllTypes o td else o.object

/-! ## Calls -/

/-- An issue of `check_typed_dict_call`. -/
inductive CallIssue where
  | incompatible (key : String)
  | extraKeys (keys : List String)
  | missingKeys (keys : List String)
deriving DecidableEq

/-- `check_typed_dict_call`, typed_dict.rs 1324-1388, with `infer_typed_dict_arg`, typed_dict.rs
1290-1322: the issues of `TD(k1=v1, ..)` with the types of the values. -/
def checkCall (o : Ops T) (td : TD T) (args : List (String × T)) : List CallIssue :=
  let wrong := args.filter fun a =>
    match findEntry o td a.1 with
    | some e => !o.sub e.ty a.2
    | none => false
  let extra := (args.filter fun a => (findEntry o td a.1).isNone).map (·.1)
  let missing := (td.named.filter fun m => m.required && !args.any fun a => a.1 = m.name).map (·.name)
  wrong.map (fun a => .incompatible a.1) ++
    (if extra.isEmpty then [] else [.extraKeys extra]) ++
    (if missing.isEmpty then [] else [.missingKeys missing])

/-! ## Joins and meets -/

/-- `union`, typed_dict.rs 306-337: the common subtype; `none` is `Never`. -/
def meet (o : Ops T) (a b : TD T) : Option (TD T) :=
  let rec go (ms : List (Member T)) : List (Member T) → Option (List (Member T))
    | [] => some ms
    | m2 :: rest =>
      match ms.find? fun m1 => m1.name = m2.name with
      | some m1 =>
        if m1.required != m2.required || m1.readOnly != m2.readOnly || !o.same m1.ty m2.ty then none
        else go ms rest
      | none => go (ms ++ [m2]) rest
  (go a.named b.named).map fun ms => { named := ms, definedAt := a.definedAt }

/-- `intersection`, typed_dict.rs 339-380: the common base type. -/
def join (o : Ops T) (a b : TD T) : TD T where
  named := (a.named.map fun m1 => (b.named.filter fun m2 =>
    m1.name = m2.name && m1.required == m2.required && o.same m1.ty m2.ty).map fun m2 =>
      { m1 with readOnly := m1.readOnly || m2.readOnly }).flatten
  extra :=
    match a.extra, b.extra with
    | some e1, some e2 => if o.same e1.ty e2.ty then some ⟨e1.ty, e1.readOnly || e2.readOnly⟩ else none
    | _, _ => none
  definedAt := a.definedAt

/-! ## Classes -/

/-- The issues of the definition of a class. -/
inductive Issue where
  | overwritingWhileMerging (key : String)
  | duplicate (key : String)
  | overwritingWhileExtending (key : String)
  | requiredButExtra (key : String)
  | readOnlyButExtra (key : String)
  | notAssignableToExtra (key : String)
  | closeNonReadOnly
  | closeFalseClosed
  | closeFalseExtra
  | extraChange
deriving DecidableEq

/-- `TypedDictMemberGatherer`, file/type_computation/typed_dict.rs 431-435, with the issues so far. -/
structure Gatherer (T : Type) where
  members : List (Member T) := []
  firstAfterMerge : Nat := 0
  issues : List Issue := []

/-- Replaces the first member with the name. -/
def replaceMember (new : Member T) : List (Member T) → List (Member T)
  | [] => []
  | m :: ms => if m.name = new.name then new :: ms else m :: replaceMember new ms

/-- A member in `merge`, file/type_computation/typed_dict.rs 507-517. -/
def mergeMember (g : Gatherer T) (m : Member T) : Gatherer T :=
  if g.members.any fun c => c.name = m.name then
    { g with
      members := replaceMember m g.members, issues := g.issues ++ [.overwritingWhileMerging m.name] }
  else { g with members := g.members ++ [m] }

/-- `merge`, file/type_computation/typed_dict.rs 505-520. -/
def merge (g : Gatherer T) (ms : List (Member T)) : Gatherer T :=
  let g := ms.foldl mergeMember g
  { g with firstAfterMerge := g.members.length }

/-- The check of a new member against the extra items of the base class,
file/type_computation/typed_dict.rs 470-499. -/
def checkAgainstExtra (o : Ops T) (extra : Option (Extra T)) (m : Member T) : List Issue :=
  match extra with
  | none => []
  | some e =>
    if m.required && !e.readOnly then [.requiredButExtra m.name]
    else if !e.readOnly && m.readOnly then [.readOnlyButExtra m.name]
    else if if e.readOnly then o.sub e.ty m.ty else o.same e.ty m.ty then []
    else [.notAssignableToExtra m.name]

/-- `add`, file/type_computation/typed_dict.rs 438-503. -/
def addMember (o : Ops T) (extra : Option (Extra T)) (g : Gatherer T) (m : Member T) : Gatherer T :=
  match g.members.findIdx? fun c => c.name = m.name with
  | some i =>
    if g.firstAfterMerge ≤ i then { g with issues := g.issues ++ [.duplicate m.name] }
    else
      match g.members[i]? with
      | some old =>
        { g with
          members := replaceMember m g.members,
          issues := g.issues ++
            if old.readOnly && !(old.required && !m.required) && o.sub old.ty m.ty then []
            else [.overwritingWhileExtending m.name] }
      | none => g
  | none =>
    { g with members := g.members ++ [m], issues := g.issues ++ checkAgainstExtra o extra m }

/-- The definition of a typed dict by a class: the direct bases that are typed dicts from the last
one to the first one, the annotations, and the arguments `extra_items` and `closed`. -/
structure ClassDef (T : Type) where
  bases : List (TD T)
  members : List (Member T)
  extraItems : Option (Extra T) := none
  closed : Option Bool := none

/-- `calc_extra_items_type`, file/type_computation/typed_dict.rs 237-268. -/
def calcExtra (o : Ops T) (c : ClassDef T) : Option (Extra T) :=
  match c.extraItems with
  | some e => some e
  | none => if c.closed = some true then some ⟨o.never, false⟩ else none

/-- The issues about `closed`, file/type_computation/class.rs 1788-1799. -/
def closedIssues (o : Ops T) (c : ClassDef T) (old : Option (Extra T)) : List Issue :=
  match old with
  | none => []
  | some e =>
    match c.closed with
    | some true => if !e.readOnly && !o.isNever e.ty then [.closeNonReadOnly] else []
    | some false => if o.isNever e.ty then [.closeFalseClosed] else [.closeFalseExtra]
    | none => []

/-- The issues about `extra_items`, file/type_computation/class.rs 1800-1815. -/
def extraIssues (o : Ops T) (c : ClassDef T) (old : Option (Extra T)) : List Issue :=
  match calcExtra o c, old with
  | some new, some e =>
    if c.closed.isNone then
      if e.readOnly then if o.sub e.ty new.ty then [] else [.extraChange] else [.extraChange]
    else []
  | _, _ => []

/-- `initialize_typed_dict_members`, file/type_computation/class.rs 1737-1843; the members and the
issues. -/
def initMembers (o : Ops T) (c : ClassDef T) : TD T × List Issue :=
  let g := c.bases.foldl (fun g b => merge g b.named) ({} : Gatherer T)
  let old := c.bases.foldl (fun e b => b.extra.or e) none
  let g := c.members.foldl (addMember o old) g
  ({ named := g.members, extra := (calcExtra o c).or old },
    g.issues ++ closedIssues o c old ++ extraIssues o c old)

/-! ## Narrowing -/

/-- The typed dict in the branches of `if key in d` for literals, file/flow_analysis.rs 4694-4719:
whether it is kept in the true branch and in the false branch. -/
def narrowIn (td : TD T) (k : String) (ks : List String) : Bool × Bool :=
  let lits := k :: ks
  let trueOnly := (lits.filter fun k =>
    match findMember td k with
    | some m => m.required
    | none => false).length
  let falseOnly := (lits.filter fun k => (findMember td k).isNone).length
  if trueOnly = lits.length then (true, false)
  else (!td.final || falseOnly != lits.length, true)

end Verif.TypedDict
