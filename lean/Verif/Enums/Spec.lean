import Verif.Enums.Model

/-!
# What Python makes of the body of an enum class (specification)

`EnumDict.__setitem__` and `EnumType.__new__` of CPython's `Lib/enum.py`. Nothing here uses the
functions of the model.
-/

namespace Verif.Enums

/-- An object, as far as the module `enum` distinguishes it. -/
inductive Obj where
  /-- an object without `__get__`; two are equal if the numbers are -/
  | value (v : Nat)
  /-- a function, a `property`, a `staticmethod` -/
  | descriptor (id : Nat)
  /-- a class that is defined in the body -/
  | cls (id : Nat)
  | member (o : Obj)
  | nonmember (o : Obj)
  /-- a list of names, for `_ignore_` -/
  | names (ns : List Name)
  deriving DecidableEq

/-- The name ends with two underscores. -/
def EndsDunder (n : Name) : Prop := ∃ (xs : Name), n = xs ++ ['_', '_']

/-- `_is_dunder`: `__x__` where `x` neither begins nor ends with an underscore. -/
def IsDunder (n : Name) : Prop :=
  ∃ (x : Name), n = ['_', '_'] ++ x ++ ['_', '_'] ∧ x ≠ [] ∧ x.head? ≠ some '_' ∧
    x.getLast? ≠ some '_'

/-- `_is_sunder`: `_x_` where `x` neither begins nor ends with an underscore. -/
def IsSunder (n : Name) : Prop :=
  ∃ (x : Name), n = ['_'] ++ x ++ ['_'] ∧ x ≠ [] ∧ x.head? ≠ some '_' ∧ x.getLast? ≠ some '_'

/-- `_is_private`: `_C__x` in the class `C`, which does not end with two underscores. -/
def IsPrivate (cls n : Name) : Prop :=
  (∃ (x : Name), n = ['_'] ++ cls ++ ['_', '_'] ++ x ∧ x ≠ []) ∧ ¬ EndsDunder n

/-- The compiler mangles names that begin with two underscores and do not end with two. -/
inductive Mangled (cls : Name) : Name → Name → Prop
  | mangle {n x : Name} : n = ['_', '_'] ++ x → ¬ EndsDunder n →
      Mangled cls n (['_'] ++ cls.dropWhile (· = '_') ++ n)
  | plain {n : Name} : ((∃ (x : Name), n = ['_', '_'] ++ x) → EndsDunder n) → Mangled cls n n

/-- The names that never become members in the class. -/
def Reserved (cls n : Name) : Prop :=
  ∃ (k : Name), Mangled cls n k ∧ (IsPrivate cls k ∨ IsSunder k ∨ IsDunder k)

/-- The names for which the code and Python differ: `_`, names that begin with an underscore and
end with two but are not of the form `__x__`, and names that are written like private ones. -/
def Odd (cls n : Name) : Prop :=
  n = ['_'] ∨ (['_'] <+: n ∧ EndsDunder n ∧ ¬ IsDunder n) ∨
    ((∃ (x : Name), n = ['_'] ++ cls ++ ['_', '_'] ++ x ∧ x ≠ []) ∧ ¬ ['_'] <:+ n)

/-- The state of an `EnumDict`. -/
structure Dict where
  items : List (Name × Obj)
  memberNames : List Name
  ignore : List Name

/-- The value of a name in the body. -/
def Dict.get (d : Dict) (n : Name) : Option Obj := d.items.lookup n

/-- `value.value` of an `enum.member`. -/
def unwrapMember : Obj → Obj
  | .member o => o
  | o => o

/-- The object becomes the value of a member: it is no `nonmember`, no descriptor and (since
Python 3.13) no class that is defined in the body. -/
def IsMemberValue (minor : Nat) : Obj → Prop
  | .nonmember _ => False
  | .descriptor _ => False
  | .cls _ => minor < 13
  | _ => True

/-- `EnumDict.__setitem__`. The keys are the names as they are written; a name is `reserved` if
it is private, a sunder or a dunder. Errors of Python are missing steps. -/
inductive SetItem (minor : Nat) (reserved : Name → Prop) : Dict → Name → Obj → Dict → Prop
  | ignore {d : Dict} {ns : List Name} : (∀ n ∈ ns, n ∉ d.memberNames) →
      SetItem minor reserved d "_ignore_".toList (.names ns)
        { d with items := ("_ignore_".toList, .names ns) :: d.items, ignore := ns }
  | reserved {d : Dict} {n : Name} {o : Obj} : reserved n → n ≠ "_ignore_".toList →
      SetItem minor reserved d n o { d with items := (n, o) :: d.items }
  | ignored {d : Dict} {n : Name} {o : Obj} : ¬ reserved n → n ∉ d.memberNames → n ∈ d.ignore →
      SetItem minor reserved d n o { d with items := (n, o) :: d.items }
  | nonmember {d : Dict} {n : Name} {o : Obj} : ¬ reserved n → n ∉ d.memberNames →
      n ∉ d.ignore →
      SetItem minor reserved d n (.nonmember o) { d with items := (n, o) :: d.items }
  | other {d : Dict} {n : Name} {o : Obj} : ¬ reserved n → n ∉ d.memberNames → n ∉ d.ignore →
      (∀ (o' : Obj), o ≠ .nonmember o') → ¬ IsMemberValue minor o →
      SetItem minor reserved d n o { d with items := (n, o) :: d.items }
  | member {d : Dict} {n : Name} {o : Obj} : ¬ reserved n → n ∉ d.memberNames → n ∉ d.ignore →
      IsMemberValue minor o → d.get n = none →
      SetItem minor reserved d n o
        { d with items := (n, unwrapMember o) :: d.items, memberNames := d.memberNames ++ [n] }

/-- What a decorator makes of an object. Functions return the object as it is. -/
def applyDec (d : Dec) (o r : Obj) : Prop :=
  match d with
  | .member => r = .member o
  | .nonmember => r = .nonmember o
  | .cls => ∃ (id : Nat), r = .descriptor id
  | .func => r = o

/-- The decorators are applied from the last to the first one. -/
inductive Decorate : List Dec → Obj → Obj → Prop
  | nil {o : Obj} : Decorate [] o o
  | cons {d : Dec} {ds : List Dec} {o o' r : Obj} : Decorate ds o o' → applyDec d o' r →
      Decorate (d :: ds) o r

/-- A statement binds its name to the object. -/
def Binds (d : Dict) : Stmt → Obj → Prop
  | .assign none, _ => False
  | .assign (some .lambda), o => ∃ (id : Nat), o = .descriptor id
  | .assign (some (.call .nonmember)), o => ∃ (o' : Obj), o = .nonmember o'
  | .assign (some (.call .member)), o => ∃ (o' : Obj), o = .member o'
  | .assign (some (.call .classMethod)), o => ∃ (id : Nat), o = .descriptor id
  | .assign (some (.call .staticMethod)), o => ∃ (id : Nat), o = .descriptor id
  | .assign (some (.call .other)), _ => True
  | .assign (some (.ref n true)), o => d.get n = some o
  | .assign (some (.ref n false)), _ => d.get n = none
  | .assign (some .other), _ => True
  | .func decs, o => ∃ (id : Nat), Decorate decs (.descriptor id) o
  | .cls decs, o => ∃ (id : Nat), Decorate decs (.cls id) o
  | .bind, _ => True

/-- Python executes the body of the class, and `P` holds at each definition, for the definitions
before it, the dictionary, the definition and its object. -/
inductive Runs (minor : Nat) (reserved : Name → Prop)
    (P : List Entry → Dict → Entry → Obj → Prop) : List Entry → Dict → Prop
  | nil : Runs minor reserved P [] ⟨[], [], []⟩
  | annotation {es : List Entry} {d : Dict} {e : Entry} : Runs minor reserved P es d →
      e.stmt = .assign none → (∀ e' ∈ es, e'.name ≠ e.name) → Runs minor reserved P (es ++ [e]) d
  | step {es : List Entry} {d d' : Dict} {e : Entry} {o : Obj} : Runs minor reserved P es d →
      Binds d e.stmt o → (∀ e' ∈ es, e'.name ≠ e.name) → P es d e o →
      SetItem minor reserved d e.name o d' → Runs minor reserved P (es ++ [e]) d'

/-- `EnumType.__new__`: the names whose values are not those of earlier ones are the members. -/
inductive Canonical (d : Dict) : List Name → List Name → Prop
  | nil : Canonical d [] []
  | new {ns cs : List Name} {n : Name} : Canonical d ns cs → (∀ c ∈ cs, d.get c ≠ d.get n) →
      Canonical d (ns ++ [n]) (cs ++ [n])
  | alias {ns cs : List Name} {n c : Name} : Canonical d ns cs → c ∈ cs → d.get c = d.get n →
      Canonical d (ns ++ [n]) cs

/-- `_member_names_` of the class: the members in the order of their definitions. -/
def MemberNames (d : Dict) (cs : List Name) : Prop := Canonical d d.memberNames cs

/-- `E.n` is the `i`th member. -/
def IsAttribute (d : Dict) (cs : List Name) (n : Name) (i : Nat) : Prop :=
  n ∈ d.memberNames ∧ ∃ (c : Name), cs[i]? = some c ∧ d.get c = d.get n

/-- The definition takes over the value of another name of the class. -/
def IsRef (s : Stmt) : Prop := ∃ (n : Name), s = .assign (some (.ref n true))

/-- The definitions for which the code agrees with Python. -/
structure Supported (minor : Nat) (cls : Name) (es : List Entry) (d : Dict) (e : Entry) (o : Obj) :
    Prop where
  name : ¬ Odd cls e.name
  noIgnore : e.name ≠ "_ignore_".toList
  /-- Expressions that the code does not look at have no functions, properties and so on as
  values. -/
  value : e.stmt = .assign (some (.call .other)) ∨ e.stmt = .assign (some .other) ∨
    e.stmt = .bind ∨ (∃ (n : Name), e.stmt = .assign (some (.ref n false))) → IsMemberValue minor o
  /-- Classes are not members by accident. -/
  nested : (∃ (decs : List Dec), e.stmt = .cls decs) →
    (∃ (o' : Obj), o = .nonmember o') ∨ IsMemberValue minor o
  /-- A name alone stands for a function or for a member that is not an alias itself and that is
  not a function or a class. -/
  ref : ∀ (n : Name), e.stmt = .assign (some (.ref n true)) →
    (n ∉ d.memberNames ∧ ∃ (id : Nat), o = .descriptor id) ∨
    (n ∈ d.memberNames ∧ (∃ e' ∈ es, e'.name = n ∧ ¬ IsRef e'.stmt) ∧ IsMemberValue minor o ∧
      ∀ (o' : Obj), o ≠ .member o')
  /-- Other members have other values. -/
  distinct : ¬ IsRef e.stmt → ∀ m ∈ d.memberNames, d.get m ≠ some (unwrapMember o)

/-! ## Texts with names -/

/-- `names.replace(',', ' ').split()`: the maximal parts without white space. -/
inductive PySplit (space : Char → Prop) : List Char → List Name → Prop
  | nil : PySplit space [] []
  | skip {c : Char} {cs : List Char} {ns : List Name} : (space c ∨ c = ',') →
      PySplit space cs ns → PySplit space (c :: cs) ns
  | name {n rest : List Char} {ns : List Name} : n ≠ [] → (∀ c ∈ n, ¬ space c ∧ c ≠ ',') →
      (∀ (c : Char), rest.head? = some c → space c ∨ c = ',') → PySplit space rest ns →
      PySplit space (n ++ rest) (n :: ns)

end Verif.Enums
