/-
What the programs of the flow analysis do when they run, and what the types of
the analysis mean.  Nothing here uses the functions of the model.
-/
import Verif.Flow.Model
import Mathlib.Data.List.FinRange

namespace Verif.Flow

/-- What types and tests mean: the values of a type and whether a value passes
a test. -/
structure Sem (Ty V P : Type) where
  mem : V → Ty → Prop
  holds : P → V → Bool

section
variable {Ty V P : Type}

/-- The operations on types do what they are meant to do. -/
structure Lawful (O : Ops Ty P) (S : Sem Ty V P) : Prop where
  join : ∀ v a b, S.mem v a ∨ S.mem v b → S.mem v (O.join a b)
  meet : ∀ v a b, S.mem v a → S.mem v b → ∃ t, O.meet a b = some t ∧ S.mem v t
  never : ∀ v t, O.never t = true → ¬ S.mem v t
  split_pos : ∀ p t a b v, O.split p t = some (a, b) → S.mem v t → S.holds p v = true → S.mem v a
  split_neg : ∀ p t a b v, O.split p t = some (a, b) → S.mem v t → S.holds p v = false → S.mem v b

/-- The values of the keys; a name that is not bound has none. -/
abbrev Env (V : Type) := Key → Option V

variable (O : Ops Ty P) (S : Sem Ty V P)

/-- Every value is of the declared type of its key. -/
def WellTyped (env : Env V) : Prop := ∀ k v, env k = some v → S.mem v (O.decl k)

/-- `k = v`: what hangs below `k` may be anything afterwards, everything else
stays as it is. -/
structure Assigned (k : Key) (v : V) (env env' : Env V) : Prop where
  here : env' k = some v
  other : ∀ k', k' ≠ k → k'.isChildOf k = false → env' k' = env k'
  typed : WellTyped O S env'

/-- `del n`. -/
structure Deleted (n : Nat) (env env' : Env V) : Prop where
  here : env' (.name n) = none
  below : ∀ k', k'.isChildOf (.name n) = true → env' k' = none
  other : ∀ k', k' ≠ .name n → k'.isChildOf (.name n) = false → env' k' = env k'

/-- The values an expression can have. -/
def EvalE (env : Env V) (v : V) : Expr Ty → Prop
  | .opaque t => S.mem v t
  | .key k => env k = some v

/-- Evaluating a condition to a boolean. -/
inductive EvalC : Cond Ty P → Env V → Bool → Env V → Prop where
  | expr {t p env v} : S.mem v t → EvalC (.expr t p) env (S.holds p v) env
  | test {k p env v} : env k = some v → EvalC (.test k p) env (S.holds p v) env
  | not {c env b env'} : EvalC c env b env' → EvalC (.not c) env (!b) env'
  | and_short {c d env env'} : EvalC c env false env' → EvalC (.and c d) env false env'
  | and_long {c d env env' b env''} :
      EvalC c env true env' → EvalC d env' b env'' → EvalC (.and c d) env b env''
  | or_short {c d env env'} : EvalC c env true env' → EvalC (.or c d) env true env'
  | or_long {c d env env' b env''} :
      EvalC c env false env' → EvalC d env' b env'' → EvalC (.or c d) env b env''
  | walrus {n e p env v env'} :
      EvalE S env v e → Assigned O S (.name n) v env env' →
      EvalC (.walrus n e p) env (S.holds p v) env'

/-- Evaluating a condition until an exception is raised. -/
inductive RaiseC : Cond Ty P → Env V → Env V → Prop where
  | now {c env} : RaiseC c env env
  | not {c env env'} : RaiseC c env env' → RaiseC (.not c) env env'
  | and_left {c d env env'} : RaiseC c env env' → RaiseC (.and c d) env env'
  | and_right {c d env env' env''} :
      EvalC O S c env true env' → RaiseC d env' env'' → RaiseC (.and c d) env env''
  | or_left {c d env env'} : RaiseC c env env' → RaiseC (.or c d) env env'
  | or_right {c d env env' env''} :
      EvalC O S c env false env' → RaiseC d env' env'' → RaiseC (.or c d) env env''
  | walrus {n e p env v env'} :
      EvalE S env v e → Assigned O S (.name n) v env env' → RaiseC (.walrus n e p) env env'

/-- How running a statement ends.  `probe l k` means that the run is looked at
where it reads `k` at `l`. -/
inductive Outcome where
  | normal
  | brk
  | cont
  | leave
  | raised
  | probe (l : Nat) (k : Key)
deriving DecidableEq

/-- The outcomes a loop passes on. -/
def Outcome.leavesLoop : Outcome → Bool
  | .leave | .raised | .probe _ _ => true
  | _ => false

/-- The outcomes that skip the `finally` block: the run is only looked at. -/
def Outcome.isProbe : Outcome → Bool
  | .probe _ _ => true
  | _ => false

/-- Running a statement.  Every statement can raise an exception before it does
anything. -/
inductive Exec : Stmt Ty P → Env V → Outcome → Env V → Prop where
  | halt {s env} : Exec s env .raised env
  | skip {env} : Exec .skip env .normal env
  | look {l k env} : Exec (.read l k) env (.probe l k) env
  | read {l k env v} : env k = some v → Exec (.read l k) env .normal env
  | assign {k e env v env'} :
      EvalE S env v e → Assigned O S k v env env' → Exec (.assign k e) env .normal env'
  | untyped {k env v env'} : Assigned O S k v env env' → Exec (.untyped k) env .normal env'
  | del {n env env'} : Deleted n env env' → Exec (.del n) env .normal env'
  | assert_ok {c env env'} : EvalC O S c env true env' → Exec (.assert c) env .normal env'
  | assert_fail {c env env'} : EvalC O S c env false env' → Exec (.assert c) env .raised env'
  | assert_raise {c env env'} : RaiseC O S c env env' → Exec (.assert c) env .raised env'
  | leave {env} : Exec .leave env .leave env
  | raise {env} : Exec .raise env .raised env
  | brk {env} : Exec .brk env .brk env
  | cont {env} : Exec .cont env .cont env
  | seq {a b env env' o env''} :
      Exec a env .normal env' → Exec b env' o env'' → Exec (.seq a b) env o env''
  | seq_stop {a b env o env'} : Exec a env o env' → o ≠ .normal → Exec (.seq a b) env o env'
  | ite_true {c a b env env' o env''} :
      EvalC O S c env true env' → Exec a env' o env'' → Exec (.ite c a b) env o env''
  | ite_false {c a b env env' o env''} :
      EvalC O S c env false env' → Exec b env' o env'' → Exec (.ite c a b) env o env''
  | ite_raise {c a b env env'} : RaiseC O S c env env' → Exec (.ite c a b) env .raised env'
  | while_done {c b e env env' o env''} :
      EvalC O S c env false env' → Exec e env' o env'' → Exec (.whileS c b e) env o env''
  | while_next {c b e env env' o' env'' o env'''} :
      EvalC O S c env true env' → Exec b env' o' env'' → o' = .normal ∨ o' = .cont →
      Exec (.whileS c b e) env'' o env''' → Exec (.whileS c b e) env o env'''
  | while_break {c b e env env' env''} :
      EvalC O S c env true env' → Exec b env' .brk env'' → Exec (.whileS c b e) env .normal env''
  | while_stop {c b e env env' o env''} :
      EvalC O S c env true env' → Exec b env' o env'' → o.leavesLoop = true →
      Exec (.whileS c b e) env o env''
  | while_raise {c b e env env'} : RaiseC O S c env env' → Exec (.whileS c b e) env .raised env'
  | for_done {k t b e env o env'} : Exec e env o env' → Exec (.forS k t b e) env o env'
  | for_next {k t b e env v env' o' env'' o env'''} :
      S.mem v t → Assigned O S k v env env' → Exec b env' o' env'' → o' = .normal ∨ o' = .cont →
      Exec (.forS k t b e) env'' o env''' → Exec (.forS k t b e) env o env'''
  | for_break {k t b e env v env' env''} :
      S.mem v t → Assigned O S k v env env' → Exec b env' .brk env'' →
      Exec (.forS k t b e) env .normal env''
  | for_stop {k t b e env v env' o env''} :
      S.mem v t → Assigned O S k v env env' → Exec b env' o env'' → o.leavesLoop = true →
      Exec (.forS k t b e) env o env''
  | guarded {b env o env'} : Exec b env o env' → Exec (.guarded b) env o env'
  | suppressed {b env env'} : Exec b env .raised env' → Exec (.guarded b) env .normal env'
  | try_ok {b n hs e env env'} :
      Exec b env .normal env' → Exec (.tryS b n hs false e .skip) env .normal env'
  | try_else {b n hs e env env' o env''} :
      Exec b env .normal env' → Exec e env' o env'' →
      Exec (.tryS b n hs true e .skip) env o env''
  | try_stop {b n hs he e env o env'} :
      Exec b env o env' → o ≠ .normal → Exec (.tryS b n hs he e .skip) env o env'
  | try_handled {b n hs he e env env' o env''} (i : Fin n) :
      Exec b env .raised env' → Exec (hs i) env' o env'' →
      Exec (.tryS b n hs he e .skip) env o env''
  | try_look {b n hs he e f env o env'} :
      Exec (.tryS b n hs he e .skip) env o env' → o.isProbe = true →
      Exec (.tryS b n hs he e f) env o env'
  | try_finally {b n hs he e f env o env' o' env''} :
      f ≠ .skip → Exec (.tryS b n hs he e .skip) env o env' → o.isProbe = false →
      Exec f env' o' env'' →
      Exec (.tryS b n hs he e f) env (if o' = .normal then o else o') env''

end

/-! ### What a program assigns, tests and mentions -/

section
variable {Ty P : Type}

/-- The keys a condition binds. -/
def Cond.Assigns (k : Key) : Cond Ty P → Prop
  | .expr _ _ => False
  | .test _ _ => False
  | .not c => c.Assigns k
  | .and c d => c.Assigns k ∨ d.Assigns k
  | .or c d => c.Assigns k ∨ d.Assigns k
  | .walrus n _ _ => k = .name n

/-- The keys an expression reads. -/
def Expr.Mentions (k : Key) : Expr Ty → Prop
  | .opaque _ => False
  | .key k' => k = k'

/-- The keys of a condition. -/
def Cond.Mentions (k : Key) : Cond Ty P → Prop
  | .expr _ _ => False
  | .test k' _ => k = k'
  | .not c => c.Mentions k
  | .and c d => c.Mentions k ∨ d.Mentions k
  | .or c d => c.Mentions k ∨ d.Mentions k
  | .walrus n e _ => k = .name n ∨ e.Mentions k

/-- A condition without `:=`. -/
def Cond.Pure : Cond Ty P → Prop
  | .expr _ _ => True
  | .test _ _ => True
  | .not c => c.Pure
  | .and c d => c.Pure ∧ d.Pure
  | .or c d => c.Pure ∧ d.Pure
  | .walrus _ _ _ => False

/-- The keys a statement assigns or deletes. -/
def Stmt.Assigns (k : Key) : Stmt Ty P → Prop
  | .skip => False
  | .read _ _ => False
  | .assign k' _ => k = k'
  | .untyped k' => k = k'
  | .del n => k = .name n
  | .assert c => c.Assigns k
  | .leave => False
  | .raise => False
  | .brk => False
  | .cont => False
  | .seq a b => a.Assigns k ∨ b.Assigns k
  | .ite c a b => c.Assigns k ∨ a.Assigns k ∨ b.Assigns k
  | .whileS c b e => c.Assigns k ∨ b.Assigns k ∨ e.Assigns k
  | .forS k' _ b e => k = k' ∨ b.Assigns k ∨ e.Assigns k
  | .guarded b => b.Assigns k
  | .tryS b _ hs _ e f => b.Assigns k ∨ (∃ i, (hs i).Assigns k) ∨ e.Assigns k ∨ f.Assigns k

/-- The names a statement deletes. -/
def Stmt.Deletes (n : Nat) : Stmt Ty P → Prop
  | .del m => n = m
  | .seq a b => a.Deletes n ∨ b.Deletes n
  | .ite _ a b => a.Deletes n ∨ b.Deletes n
  | .whileS _ b e => b.Deletes n ∨ e.Deletes n
  | .forS _ _ b e => b.Deletes n ∨ e.Deletes n
  | .guarded b => b.Deletes n
  | .tryS b _ hs _ e f => b.Deletes n ∨ (∃ i, (hs i).Deletes n) ∨ e.Deletes n ∨ f.Deletes n
  | _ => False

/-- The keys of a statement. -/
def Stmt.Mentions (k : Key) : Stmt Ty P → Prop
  | .skip => False
  | .read _ k' => k = k'
  | .assign k' e => k = k' ∨ e.Mentions k
  | .untyped k' => k = k'
  | .del n => k = .name n
  | .assert c => c.Mentions k
  | .leave => False
  | .raise => False
  | .brk => False
  | .cont => False
  | .seq a b => a.Mentions k ∨ b.Mentions k
  | .ite c a b => c.Mentions k ∨ a.Mentions k ∨ b.Mentions k
  | .whileS c b e => c.Mentions k ∨ b.Mentions k ∨ e.Mentions k
  | .forS k' _ b e => k = k' ∨ b.Mentions k ∨ e.Mentions k
  | .guarded b => b.Mentions k
  | .tryS b _ hs _ e f => b.Mentions k ∨ (∃ i, (hs i).Mentions k) ∨ e.Mentions k ∨ f.Mentions k

/-- A statement without `:=` in its conditions, without untyped assignments,
and whose `try` statements have neither `else` nor `finally`. -/
def Stmt.Plain : Stmt Ty P → Prop
  | .untyped _ => False
  | .assert c => c.Pure
  | .seq a b => a.Plain ∧ b.Plain
  | .ite c a b => c.Pure ∧ a.Plain ∧ b.Plain
  | .whileS c b e => c.Pure ∧ b.Plain ∧ e.Plain
  | .forS _ _ b e => b.Plain ∧ e.Plain
  | .guarded b => b.Plain
  | .tryS b _ hs he _ f => b.Plain ∧ (∀ i, (hs i).Plain) ∧ he = false ∧ f = .skip
  | _ => True

/-- No key that is assigned has another key of the program below or above it. -/
def Flat (s : Stmt Ty P) : Prop :=
  ∀ a k, s.Assigns a → s.Mentions k → k.isChildOf a = false ∧ a.isChildOf k = false

/-- A statement without loops, `try` and `with`. -/
def Stmt.Straight : Stmt Ty P → Prop
  | .seq a b => a.Straight ∧ b.Straight
  | .ite _ a b => a.Straight ∧ b.Straight
  | .whileS _ _ _ => False
  | .forS _ _ _ _ => False
  | .guarded _ => False
  | .tryS _ _ _ _ _ _ => False
  | _ => True

/-- Assignments one after the other. -/
def bindAll : List (Key × Expr Ty) → Stmt Ty P
  | [] => .skip
  | (k, e) :: rest => .seq (.assign k e) (bindAll rest)

/-- Statements one after the other. -/
def chain : List (Stmt Ty P) → Stmt Ty P
  | [] => .skip
  | s :: rest => .seq s (chain rest)

/-- The keys a statement assigns are not below or above keys of `M`. -/
def Stmt.ApartFrom (M : Key → Prop) (s : Stmt Ty P) : Prop :=
  ∀ a k, s.Assigns a → M k → k.isChildOf a = false ∧ a.isChildOf k = false

/-- The statements of the body of a function whose keys are `M`, after statements
with the keys `seen`: assignments to any keys; plain statements that assign only
keys that are not below or above others; and `if (n := e):` with such branches,
for a name that was not used before. -/
def Body (M : Key → Prop) : (Key → Prop) → List (Stmt Ty P) → Prop
  | _, [] => True
  | seen, s :: rest =>
    ((∃ k e, s = .assign k e) ∨
      (s.Plain ∧ (∀ n, ¬ s.Deletes n) ∧ s.ApartFrom M) ∨
      (∃ n e p a b, s = .ite (.walrus n e p) a b ∧ a.Plain ∧ b.Plain ∧ (∀ m, ¬ s.Deletes m) ∧
        s.ApartFrom M ∧ ¬ seen (.name n))) ∧
    Body M (fun k => seen k ∨ s.Mentions k) rest

/-- The reads of a statement in the order of the text. -/
def Stmt.reads : Stmt Ty P → List (Nat × Key)
  | .read l k => [(l, k)]
  | .seq a b => a.reads ++ b.reads
  | .ite _ a b => a.reads ++ b.reads
  | .whileS _ b e => b.reads ++ e.reads
  | .forS _ _ b e => b.reads ++ e.reads
  | .guarded b => b.reads
  | .tryS b n hs _ e f =>
    b.reads ++ (List.finRange n).flatMap (fun i => (hs i).reads) ++ e.reads ++ f.reads
  | _ => []

/-- Every read of the program is at a place of its own. -/
def Stmt.Labelled (s : Stmt Ty P) : Prop := (s.reads.map (·.1)).Nodup

/-- A statement without `try` and `with`. -/
def Stmt.NoTry : Stmt Ty P → Prop
  | .seq a b => a.NoTry ∧ b.NoTry
  | .ite _ a b => a.NoTry ∧ b.NoTry
  | .whileS _ b e => b.NoTry ∧ e.NoTry
  | .forS _ _ b e => b.NoTry ∧ e.NoTry
  | .guarded _ => False
  | .tryS _ _ _ _ _ _ => False
  | _ => True

/-! ### What the frames allow -/

variable {V : Type} (S : Sem Ty V P)

/-- An entry allows a value. -/
def Covers (e : Entry Ty) (v : V) : Prop :=
  e.deleted = false ∧ ∀ t, e.kind = some t → S.mem v t

/-- The frames allow a value for a key: the first entry of the key does, and
so do those below it up to one that stands for an assignment. -/
def Allowed (k : Key) (v : V) : List (Frame Ty) → Prop
  | [] => True
  | f :: fs =>
    (∃ e ∈ f.entries, e.key = k ∧ Covers S e v ∧ (e.mods = true ∨ Allowed k v fs)) ∨
    ((∀ e ∈ f.entries, e.key ≠ k) ∧ Allowed k v fs)

/-- The keys assigned in a loop are not narrowed when the loop is entered: the
frames allow every value of their declared type. -/
def LoopOk (O : Ops Ty P) (ev : Event Ty P) : Prop :=
  match ev with
  | .loop frames body target =>
    ∀ k, body.Assigns k ∨ target = some k → ∀ v, S.mem v (O.decl k) → Allowed S k v frames
  | _ => True

/-- A key that was assigned between the start of the loop and a `break` was not
tested after that in a frame of its own. -/
def BreakOk (ev : Event Ty P) : Prop :=
  match ev with
  | .brk frames =>
    frames.Pairwise (fun f g => ∀ e ∈ f.entries, ∀ e' ∈ g.entries,
      e.key = e'.key → e'.mods = true → e.mods = true)
  | _ => True

/-- What is noted for the handlers of a `try` has room for what was known before
the `try`. -/
def TryOk (O : Ops Ty P) (ev : Event Ty P) : Prop :=
  match ev with
  | .tried frames entries =>
    ∀ e ∈ entries, ∀ v, S.mem v (O.decl e.key) → Allowed S e.key v frames → Covers S e v
  | _ => True

/-! ### What the user is told -/

/-- What a log says about the places of the program is true of every run from
an environment that respects the declarations: where a key is read and has a
value, a type was reported, and every type that was reported there has that
value; it was not reported as deleted. -/
def TellsTruth (O : Ops Ty P) (s : Stmt Ty P) (log : List (Event Ty P)) : Prop :=
  ∀ env env' l k v, WellTyped O S env → Exec O S s env (.probe l k) env' → env' k = some v →
    (∃ c, Event.read l k c ∈ log) ∧
    ∀ c, Event.read l k c ∈ log → ∃ t, c = .typ t ∧ S.mem v t

/-- The operations on types are exact: nothing is added to what they mean. -/
structure Exact (O : Ops Ty P) : Prop where
  join : ∀ v a b, S.mem v (O.join a b) → S.mem v a ∨ S.mem v b
  never : ∀ t, O.never t = false → ∃ v, S.mem v t
  split_pos : ∀ p t a b v, O.split p t = some (a, b) → S.mem v a → S.mem v t ∧ S.holds p v = true
  split_neg : ∀ p t a b v, O.split p t = some (a, b) → S.mem v b → S.mem v t ∧ S.holds p v = false
  unknown : ∀ p t, O.split p t = none → ∀ b, ∃ v, S.mem v t ∧ S.holds p v = b
  declared : ∀ k, ∃ v, S.mem v (O.decl k)

/-- A condition about values that have no name. -/
def Cond.Opaque : Cond Ty P → Prop
  | .expr t _ => ∃ v, S.mem v t
  | .test _ _ => False
  | .not c => c.Opaque
  | .and c d => c.Opaque ∧ d.Opaque
  | .or c d => c.Opaque ∧ d.Opaque
  | .walrus _ _ _ => False

/-- A statement without loops, `try`, `with` and `del`, with conditions about
values that have no name, whose assignments respect the declarations. -/
def Stmt.Opaque (O : Ops Ty P) : Stmt Ty P → Prop
  | .skip => True
  | .read _ _ => True
  | .assign k (.opaque t) => (∃ v, S.mem v t) ∧ ∀ v, S.mem v t → S.mem v (O.decl k)
  | .assign k (.key k') => ∀ v, S.mem v (O.decl k') → S.mem v (O.decl k)
  | .assert c => c.Opaque S
  | .leave => True
  | .raise => True
  | .seq a b => a.Opaque O ∧ b.Opaque O
  | .ite c a b => c.Opaque S ∧ a.Opaque O ∧ b.Opaque O
  | _ => False

/-- Every value of a reported type occurs in a run. -/
def TellsOnlyWhatOccurs (O : Ops Ty P) (s : Stmt Ty P) (log : List (Event Ty P)) : Prop :=
  ∀ l k c, Event.read l k c ∈ log → ∃ t, c = .typ t ∧ ∀ v, S.mem v t →
    ∃ env env', WellTyped O S env ∧ Exec O S s env (.probe l k) env' ∧ env' k = some v

/-- A run reaches the end of the program. -/
def EndReached (O : Ops Ty P) (s : Stmt Ty P) : Prop :=
  ∃ env env', WellTyped O S env ∧ Exec O S s env .normal env'

end
end Verif.Flow
