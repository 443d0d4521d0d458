/-!
# Operators of classes

Model of `infer_detailed_operation` (crates/zuban_python/src/file/inference.rs 3127-3360), of
augmented assignments (`cache_aug_assign`, inference.rs 515-545) and of the check for operators that
overlap (`check_overlapping_op_methods`, crates/zuban_python/src/file/diagnostics.rs 2318-2440).

Left out: literals (see `Arith`), `%` of texts, `|` of types, overloads, generic classes, types
that are not classes, and the type that the checker goes on with after an error.
-/

namespace Verif.Operator

/-- The methods of one operator, e.g. `__add__`, `__radd__` and `__iadd__`, or `__lt__` and `__gt__`. -/
inductive Name where
  | op | rop | iop
  deriving DecidableEq

/-- A method with one argument; types are unions of classes. -/
structure Sig where
  param : List Nat
  ret : List Nat
  deriving DecidableEq

/-- The classes of the program. -/
structure World where
  /-- the class and its bases -/
  mro : Nat → List Nat
  /-- `int` is accepted where `float` is expected -/
  promote : Nat → Nat → Bool
  /-- the methods that are defined in the class itself -/
  defs : Nat → Name → Option Sig

/-- A member of a union. -/
inductive Ty where
  | any
  | cls (c : Nat)
  deriving DecidableEq

variable (w : World)

/-- `lookup_with_details`: the class where the method is found, and the method. -/
def lookup (c : Nat) (n : Name) : Option (Nat × Sig) :=
  (w.mro c).findSome? fun d => (w.defs d n).map (d, ·)

/-- `is_simple_sub_type_of` for two classes. -/
def sub (a b : Nat) : Bool := (w.mro a).any fun c => c == b || w.promote c b

/-- The method can be called with the argument. -/
def accepts (s : Sig) (a : Nat) : Bool := s.param.any (sub w a ·)

/-- `LookupStrategy`, inference.rs 3135-3139. -/
inductive Strategy where
  | shortCircuit | normalThenReverse | reverseThenNormal
  deriving DecidableEq

/-- `ldef != rdef`, inference.rs 3234-3236. If a method is not found, then the order does not
matter. -/
def elsewhere (l r : Nat) : Bool :=
  match lookup w l .op, lookup w r .rop with
  | some (ldef, _), some (rdef, _) => ldef != rdef
  | _, _ => false

/-- `get_strategy`, inference.rs 3221-3241. -/
def strategy (shortcut : Bool) (l r : Nat) : Strategy :=
  if shortcut && l == r then .shortCircuit
  else if sub w r l && elsewhere w l r then .reverseThenNormal
  else .normalThenReverse

/-- `run`, inference.rs 3244-3271: the call of a method that might not exist. -/
def run (m : Option (Nat × Sig)) (arg : Nat) : Option (List Nat) :=
  match m with
  | some (_, s) => if accepts w s arg then some s.ret else none
  | none => none

inductive Issue where
  /-- `UnsupportedLeftOperand` -/
  | left (l : Nat)
  /-- `UnsupportedOperand` -/
  | operands (l r : Nat)
  /-- an argument of `__iadd__` that is not accepted -/
  | argument (l : Nat)
  deriving DecidableEq

structure Res where
  types : List Ty
  issues : List Issue

/-- The type that the operator has, inference.rs 3273-3291. -/
def chosen (shortcut : Bool) (l r : Nat) : Option (List Nat) :=
  let left := lookup w l .op
  let right := lookup w r .rop
  match strategy w shortcut l r with
  | .shortCircuit => run w left r
  | .normalThenReverse => (run w left r).or (run w right l)
  | .reverseThenNormal => (run w right l).or (run w left r)

/-- The two operands are classes, inference.rs 3242-3330. -/
def pair (shortcut : Bool) (l r : Nat) : Res :=
  match chosen w shortcut l r with
  | some ret => ⟨ret.map .cls, []⟩
  | none =>
    if (lookup w l .op).isNone &&
        ((lookup w r .rop).isNone || strategy w shortcut l r == .shortCircuit) then
      ⟨[.any], [.left l]⟩
    else ⟨[.any], [.operands l r]⟩

/-- The loop over the members of the right operand, inference.rs 3163-3331; it ends at `Any`. -/
def rights (shortcut : Bool) (l : Ty) : List Ty → Res
  | [] => ⟨[], []⟩
  | .any :: _ => ⟨[.any], []⟩
  | .cls r :: rs =>
    let first : Res := match l with
      | .any => ⟨[.any], []⟩
      | .cls l => pair w shortcut l r
    let rest := rights shortcut l rs
    ⟨first.types ++ rest.types, first.issues ++ rest.issues⟩

/-- `infer_detailed_operation`, inference.rs 3127-3360. -/
def operation (shortcut : Bool) (ls rs : List Ty) : Res :=
  ⟨ls.flatMap fun l => (rights w shortcut l rs).types,
   ls.flatMap fun l => (rights w shortcut l rs).issues⟩

/-- A call with a union: all members have to be accepted. -/
def acceptsAll (s : Sig) (rs : List Ty) : Bool :=
  rs.all fun r => match r with
    | .any => true
    | .cls r => accepts w s r

/-- `type_lookup_and_execute` with one member of the left operand; the flag says that there is such
a method. -/
def inplace (l : Ty) (rs : List Ty) : Bool × Res :=
  match l with
  | .any => (true, ⟨[.any], []⟩)
  | .cls l =>
    match lookup w l .iop with
    | none => (false, ⟨[.any], []⟩)
    | some (_, s) =>
      (true, ⟨s.ret.map .cls, if acceptsAll w s rs then [] else [.argument l]⟩)

/-- `lookup_and_execute` of `cache_aug_assign`, inference.rs 524-545. -/
def augmented (ls rs : List Ty) : Res :=
  let results := ls.map fun l => inplace w l rs
  let issues := results.flatMap fun r => r.2.issues
  if results.all (·.1) then ⟨results.flatMap fun r => r.2.types, issues⟩
  else
    let res := operation w true ls rs
    ⟨res.types, issues ++ res.issues⟩

/-- Subtyping of unions. -/
def subUnion (a b : List Nat) : Bool := a.all fun x => b.any (sub w x ·)

/-- `check_overlapping_op_methods`, diagnostics.rs 2318-2440, for the method `rop` of the class `c`
with one member of the type of its parameter. -/
def overlaps (c : Nat) (s : Sig) (forward : Nat) : Bool :=
  match lookup w forward .op with
  | none => false
  | some (_, f) =>
    if forward == c then false
    else if !subUnion w [c] f.param && !subUnion w f.param [c] then false
    else if sub w c forward then !subUnion w s.ret f.ret
    else !subUnion w f.ret s.ret

/-- The classes for which the operators overlap unsafely. -/
def overlapping (c : Nat) (s : Sig) : List Nat := s.param.filter (overlaps w c s)

end Verif.Operator
