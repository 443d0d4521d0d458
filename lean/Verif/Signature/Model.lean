/-!
# Signature help

Model of `CallSignatures::into_iterator` and `SignatureParam` (`crates/zuban_python/src/signatures.rs` 110-280,
297-334), of `SignatureArgsIterator::next` (`crates/parsa_python_cst/src/signatures.rs` 116-179) and of the choice of
the active signature in `handle_signature_help` (`crates/zubanls/src/request_handlers.rs` 210-256).

Not modelled: the search for the call around the cursor (`signature_node`), the statements after a syntax error that are
read as further arguments (`ErrorStmtSignaturePart`), how types are formatted, and `CallableParams::Any`.
-/

set_option linter.unusedVariables false

namespace Verif.Signature

/-- Names and labels. -/
abbrev Str := List Char

/-- `ParamType`, type_/callable.rs. -/
inductive Kind where
  | posOnly
  | posOrKw
  | star
  | kwOnly
  | starStar
deriving DecidableEq, Repr

/-- `CallableParam`.  `ty` is the formatted type (signatures.rs 223-235). -/
structure Param where
  kind : Kind
  name : Option Str
  ty : Str
  hasDefault : Bool
deriving DecidableEq, Repr

/-- `SignatureArg`, parsa_python_cst/src/signatures.rs 107-114. -/
inductive Arg where
  | pos
  | posName (n : Str)
  | kw (n : Str)
  | star
  | starStar
deriving DecidableEq, Repr

/-- The variables of `calc_current_param`, signatures.rs 116-121. -/
structure St where
  expected : Int
  forKw : Option Str
  used : List Str
  hadKw : Bool
  hadStar : Bool
  potential : Option Str
deriving DecidableEq, Repr

/-- signatures.rs 116-121. -/
def St.init : St := ⟨0, none, [], false, false, none⟩

/-- The body of `for arg in self.args.clone()`, signatures.rs 122-144. -/
def St.step (s : St) : Arg → St
  | .pos => { s with potential := none, forKw := none, expected := s.expected + 1 }
  | .posName n => { s with potential := some n, forKw := none, expected := s.expected + 1 }
  | .kw n => { s with potential := none, used := s.used ++ [n], forKw := some n, hadKw := true }
  | .star => { s with potential := none, forKw := none, hadStar := true }
  | .starStar => { s with potential := none, forKw := none, hadKw := true }

/-- signatures.rs 116-145. -/
def collect (args : List Arg) : St :=
  let s := args.foldl St.step St.init
  { s with expected := s.expected + (if s.hadStar then 1 else 0) }

/-- The loop for an argument `name=...`, signatures.rs 152-170.  `k` is the index of the first parameter. -/
def byKeyword (n : Str) : Nat → List Param → Option Nat
  | _, [] => none
  | k, p :: ps =>
    match p.kind with
    | .posOnly => byKeyword n (k + 1) ps
    | .star => byKeyword n (k + 1) ps
    | .posOrKw => if p.name = some n then some k else byKeyword n (k + 1) ps
    | .kwOnly => if p.name = some n then some k else byKeyword n (k + 1) ps
    | .starStar => some k

/-- Whether a keyword-only parameter is the active one, signatures.rs 203-215. -/
def kwOnlyHit (s : St) (p : Param) : Bool :=
  match p.name with
  | none => false
  | some n =>
    if n ∈ s.used then false
    else match s.potential with
      | some q => q.isPrefixOf n
      | none => true

/-- `used_kwargs.contains(&name)`, signatures.rs 193-197. -/
def isUsed (s : St) (p : Param) : Bool :=
  match p.name with
  | none => false
  | some n => decide (n ∈ s.used)

/-- The loop for the other arguments, signatures.rs 174-228.  `e` is `expected_positional`, `v` is
`is_valid_with_arguments`. -/
def byPosition (s : St) : Int → Nat → Bool → List Param → Option Nat × Bool
  | _, _, _, [] => (none, false)
  | e, k, v, p :: ps =>
    match p.kind with
    | .posOnly =>
      if s.hadKw then byPosition s e (k + 1) (if s.hadStar then v else false) ps
      else if e - 1 ≤ 0 then (some k, v) else byPosition s (e - 1) (k + 1) v ps
    | .posOrKw =>
      if s.hadKw && isUsed s p then byPosition s e (k + 1) v ps
      else if e - 1 ≤ 0 then (some k, v) else byPosition s (e - 1) (k + 1) v ps
    | .kwOnly => if kwOnlyHit s p then (some k, v) else byPosition s e (k + 1) v ps
    | .star => if s.hadKw then byPosition s e (k + 1) v ps else (some k, v)
    | .starStar => (some k, v)

/-- `calc_current_param`, signatures.rs 115-230: `current_param` and `is_valid_with_arguments`. -/
def current (ps : List Param) (args : List Arg) : Option Nat × Bool :=
  let s := collect args
  match s.forKw with
  | some n =>
    match byKeyword n 0 ps with
    | some i => (some i, true)
    | none => (none, false)
  | none => byPosition s s.expected 0 true ps

/-- `active_signature` and `active_parameter`, request_handlers.rs 218-229: the first signature that is valid.  `k` is
the index of the first one. -/
def activeSignature : Nat → List (Option Nat × Bool) → Option (Nat × Option Nat)
  | _, [] => none
  | k, (c, v) :: rest => if v then some (k, c) else activeSignature (k + 1) rest

/-! ## The label -/

/-- `str::len`: the number of bytes in UTF-8. -/
def bytes : Str → Nat
  | [] => 0
  | c :: cs => c.utf8Size + bytes cs

/-- `encode_utf16().count()`. -/
def units : Str → Nat
  | [] => 0
  | c :: cs => (if c.val < 0x10000 then 1 else 2) + units cs

/-- What is in front of the name, signatures.rs 236-243. -/
def stars (p : Param) : Str :=
  match p.kind with
  | .star => ['*']
  | .starStar => ['*', '*']
  | _ => []

/-- `" ="`, signatures.rs 257-259. -/
def defaultMark (p : Param) : Str := if p.hasDefault then [' ', '='] else []

/-- `PRE_PARAMS_OFFSET`, signatures.rs 219. -/
def preParamsOffset : Nat := 1

/-- One parameter, signatures.rs 222-261: the new label and the range of the name. -/
def pushParam (label : Str) (p : Param) : Str × (Nat × Nat) :=
  let label := if label.isEmpty then label else label ++ [',', ' ']
  let label := label ++ stars p
  let start := bytes label
  match p.name with
  | some n =>
    let named := label ++ n
    (named ++ [':', ' '] ++ p.ty ++ defaultMark p, (start + preParamsOffset, bytes named + preParamsOffset))
  | none =>
    let named := label ++ p.ty
    (named ++ defaultMark p, (start + preParamsOffset, bytes named + preParamsOffset))

/-- The loop of signatures.rs 220-262. -/
def pushParams : Str → List Param → Str × List (Nat × Nat)
  | label, [] => (label, [])
  | label, p :: ps =>
    let r := pushParam label p
    let rest := pushParams r.1 ps
    (rest.1, r.2 :: rest.2)

/-- `CallSignature::label` and `params`, signatures.rs 216-277. -/
def signature (ps : List Param) (ret : Str) : Str × List (Nat × Nat) :=
  let r := pushParams [] ps
  (['('] ++ r.1 ++ [')', ' ', '-', '>', ' '] ++ ret, r.2)

/-- `&label[..column]` for a byte index.  In Rust an index within a character panics, here it is `none`. -/
def upTo : Nat → Str → Option Str
  | 0, _ => some []
  | _ + 1, [] => none
  | n + 1, c :: cs => if c.utf8Size ≤ n + 1 then (upTo (n + 1 - c.utf8Size) cs).map (c :: ·) else none

/-- `&label[column..]` for a byte index. -/
def since : Nat → Str → Option Str
  | 0, cs => some cs
  | _ + 1, [] => none
  | n + 1, c :: cs => if c.utf8Size ≤ n + 1 then since (n + 1 - c.utf8Size) cs else none

/-- `utf16_code_units_name_range`, signatures.rs 322-328. -/
def utf16Range (label : Str) (r : Nat × Nat) : Option (Nat × Nat) :=
  match upTo r.1 label, upTo r.2 label with
  | some a, some b => some (units a, units b)
  | _, _ => none

/-- `SignatureParam::name`, signatures.rs 330-332: `&label[start..end]`. -/
def nameOf (label : Str) (r : Nat × Nat) : Option Str :=
  match upTo r.2 label with
  | some a => since r.1 a
  | none => none

/-! ## The arguments -/

/-- A child of `arguments` or `kwargs`, parsa_python/src/lib.rs 399-408, as far as `next` tells them apart
(parsa_python_cst/src/signatures.rs 129-171).  `errKwarg` is an unfinished `kwarg` and whether a `=` comes after it. -/
inductive Leaf where
  | comma (stop : Nat)
  | name (n : Str)
  | kwarg (n : Str)
  | errKwarg (n : Str) (eq : Bool)
  | starred
  | doubleStarred
  | other
deriving DecidableEq, Repr

/-- A child of `arguments`. -/
inductive Node where
  | leaf (l : Leaf)
  | kwargs (cs : List Leaf)
deriving DecidableEq, Repr

/-- parsa_python_cst/src/signatures.rs 140-171. -/
def classify : Leaf → Arg
  | .name n => .posName n
  | .kwarg n => .kw n
  | .errKwarg n eq => if eq then .kw n else .posName n
  | .starred => .star
  | .doubleStarred => .starStar
  | .comma _ => .pos
  | .other => .pos

/-- What `next` returns one after the other until it returns `None`, for the children of `kwargs`. -/
def iterLeaves (position : Nat) : List Leaf → List Arg
  | [] => []
  | .comma stop :: rest =>
    if stop > position then []
    else match rest with
      | [] => [.pos]
      | l :: rest => classify l :: iterLeaves position rest
  | l :: rest => classify l :: iterLeaves position rest

/-- What `next` returns one after the other until it returns `None`, for the children of `arguments`,
parsa_python_cst/src/signatures.rs 119-173: at `kwargs` it goes on with the children of that node (149-151). -/
def iterNodes (position : Nat) : List Node → List Arg
  | [] => []
  | .leaf (.comma stop) :: rest =>
    if stop > position then []
    else match rest with
      | [] => [.pos]
      | .kwargs cs :: _ => iterLeaves position cs
      | .leaf l :: rest => classify l :: iterNodes position rest
  | .kwargs cs :: _ => iterLeaves position cs
  | .leaf l :: rest => classify l :: iterNodes position rest

end Verif.Signature
