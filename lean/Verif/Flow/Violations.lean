/-
Programs the flow analysis of zuban gets wrong, and programs that meet the
conditions of the theorems of `Verif.Flow.Props`.
-/
import Verif.Flow.Props

namespace Verif.Flow.Instance

open Stmt

/-- Statements one after the other. -/
def block (l : List S') : S' := l.foldr .seq .skip

/-- Some expression of a type. -/
def some' (t : List Nat) : Expr (List Nat) := .opaque t

/-- `x.b`. -/
def xb : Key := .sub x (.attr "b")

/-! ### Runs -/

theorem mem_reports {s : S'} {l : Nat} {k : Key} {c : Claim (List Nat)}
    (h : (l, k, c) ∈ reports s) : Event.read l k c ∈ (analyseFunction ops s).1 := by
  unfold reports at h
  obtain ⟨ev, h1, h2⟩ := List.mem_filterMap.mp h
  cases ev with
  | read l' k' c' =>
    simp only [Option.some.injEq, Prod.mk.injEq] at h2
    obtain ⟨rfl, rfl, rfl⟩ := h2
    exact h1
  | loop _ _ _ => cases h2
  | brk _ => cases h2
  | tried _ _ => cases h2

/-- One run with a value that was not reported is enough. -/
theorem refute {s : S'} {env env' : Env Nat} {l : Nat} {k : Key} {v : Nat} {t : List Nat}
    (hw : WellTyped ops sem env) (hx : Exec ops sem s env (.probe l k) env')
    (hv : env' k = some v) (hr : (l, k, Claim.typ t) ∈ reports s) (ht : v ∉ t) :
    ¬ TellsTruth sem ops s (analyseFunction ops s).1 := by
  intro h
  obtain ⟨t', h1, h2⟩ := (h env env' l k v hw hx hv).2 _ (mem_reports hr)
  cases h1
  exact ht h2

theorem refute_deleted {s : S'} {env env' : Env Nat} {l : Nat} {k : Key} {v : Nat}
    (hw : WellTyped ops sem env) (hx : Exec ops sem s env (.probe l k) env')
    (hv : env' k = some v) (hr : (l, k, Claim.deleted) ∈ reports s) :
    ¬ TellsTruth sem ops s (analyseFunction ops s).1 := by
  intro h
  obtain ⟨t', h1, h2⟩ := (h env env' l k v hw hx hv).2 _ (mem_reports hr)
  cases h1

theorem assigned {l : List (Key × Nat)} {k : Key} {v : Nat} (hl : ∀ p ∈ (k, v) :: l, p.2 ≤ 2) :
    Assigned ops sem k v (envOf l) (envOf ((k, v) :: l)) := by
  refine ⟨?_, ?_, typed_envOf hl⟩
  · unfold envOf
    rw [List.lookup_cons, beq_self_eq_true]
  · intro k' hk _
    unfold envOf
    rw [List.lookup_cons, beq_eq_false_iff_ne.mpr hk]

/-- An assignment that changes what hangs below as well. -/
theorem assigned_below {l : List (Key × Nat)} {k k' : Key} {v v' : Nat}
    (hk : k'.isChildOf k = true) (hne : k ≠ k') (hl : ∀ p ∈ (k', v') :: (k, v) :: l, p.2 ≤ 2) :
    Assigned ops sem k v (envOf l) (envOf ((k', v') :: (k, v) :: l)) := by
  refine ⟨?_, ?_, typed_envOf hl⟩
  · unfold envOf
    rw [List.lookup_cons, beq_eq_false_iff_ne.mpr hne, List.lookup_cons, beq_self_eq_true]
  · intro k2 h2 hc
    unfold envOf
    have h3 : k2 ≠ k' := by
      rintro rfl
      rw [hk] at hc; cases hc
    rw [List.lookup_cons, beq_eq_false_iff_ne.mpr h3, List.lookup_cons,
      beq_eq_false_iff_ne.mpr h2]

theorem run_assign {l : List (Key × Nat)} {k : Key} {v : Nat} {t : List Nat} (hv : v ∈ t)
    (hl : ∀ p ∈ (k, v) :: l, p.2 ≤ 2) :
    Exec ops sem (.assign k (some' t)) (envOf l) .normal (envOf ((k, v) :: l)) :=
  .assign (v := v) hv (assigned hl)

theorem unknown_true {env : Env Nat} : EvalC ops sem unknown env true env :=
  EvalC.expr (O := ops) (S := sem) (t := [0, 1]) (p := [0]) (v := 0)
    (show 0 ∈ [0, 1] by decide)

theorem unknown_false {env : Env Nat} : EvalC ops sem unknown env false env :=
  EvalC.expr (O := ops) (S := sem) (t := [0, 1]) (p := [0]) (v := 1)
    (show 1 ∈ [0, 1] by decide)

theorem always_true {env : Env Nat} : EvalC ops sem always env true env :=
  EvalC.expr (O := ops) (S := sem) (t := [0]) (p := [0]) (v := 0)
    (show 0 ∈ [0] by decide)

theorem test_is {env : Env Nat} {k : Key} {p : List Nat} {v : Nat} (b : Bool) (h : env k = some v)
    (hb : p.contains v = b) : EvalC ops sem (.test k p) env b env := by
  subst hb
  exact EvalC.test (O := ops) (S := sem) h

/-! ### Loops -/

/-- `x = 1`, and in a loop `x` is read and then set to a string. -/
def staleLoop : S' :=
  block [assign x (some' [0]), whileS unknown (block [read 1 x, assign x (some' [1])]) skip]

/-- C86.  The body of a loop is analysed once, with what was known when the loop
was entered: what a later round of the loop finds is not considered. -/
theorem loop_round_violation :
    ¬ TellsTruth sem ops staleLoop (analyseFunction ops staleLoop).1 := by
  refine refute (env := envOf []) (env' := envOf [(x, 1), (x, 0)]) (l := 1) (k := x) (v := 1)
    (t := [0]) (typed_envOf (by simp)) ?_ rfl (by decide +kernel) (by decide)
  refine .seq (run_assign (v := 0) (by decide) (by decide)) ?_
  refine .seq_stop ?_ (by simp)
  refine .while_next (env'' := envOf [(x, 1), (x, 0)]) unknown_true ?_ (Or.inl rfl)
    (.while_stop unknown_true ?_ rfl)
  · exact .seq (.read (v := 0) rfl) (.seq (run_assign (v := 1) (by decide) (by decide)) .skip)
  · exact .seq_stop .look (by simp)

/-- `x = 1`, then `while True:` a `break` under some condition and `x = "a"`. -/
def breakLoop : S' :=
  block [assign x (some' [0]),
    whileS always (block [ite unknown brk skip, assign x (some' [1])]) skip, read 1 x]

/-- C86.  After `while True:` only what was known at the `break` counts, and that
is as of the first round. -/
theorem loop_break_violation :
    ¬ TellsTruth sem ops breakLoop (analyseFunction ops breakLoop).1 := by
  refine refute (env := envOf []) (env' := envOf [(x, 1), (x, 0)]) (l := 1) (k := x) (v := 1)
    (t := [0]) (typed_envOf (by simp)) ?_ rfl (by decide +kernel) (by decide)
  refine .seq (run_assign (v := 0) (by decide) (by decide)) ?_
  refine .seq (env' := envOf [(x, 1), (x, 0)]) ?_ (.seq_stop .look (by simp))
  refine .while_next (env'' := envOf [(x, 1), (x, 0)]) always_true ?_ (Or.inl rfl)
    (.while_break always_true ?_)
  · exact .seq (.ite_false unknown_false .skip)
      (.seq (run_assign (v := 1) (by decide) (by decide)) .skip)
  · exact .seq_stop (.ite_true unknown_true .brk) (by simp)

/-- `x = None`, and under some condition `while True:` with `x = g()` and a
`break` when `x is not None`. -/
def maskedBreak : S' :=
  block [assign x (some' [2]),
    ite unknown (whileS always
      (block [assign x (some' [0, 2]), ite (.not (isNone x)) brk skip]) skip) skip,
    read 1 x]

/-- C86.  The test of `x` around the `break` hides that `x` was assigned in the
loop, so the assignment is forgotten after the `if`. -/
theorem masked_break_violation :
    ¬ TellsTruth sem ops maskedBreak (analyseFunction ops maskedBreak).1 := by
  refine refute (env := envOf []) (env' := envOf [(x, 0), (x, 2)]) (l := 1) (k := x) (v := 0)
    (t := [2]) (typed_envOf (by simp)) ?_ rfl (by decide +kernel) (by decide)
  refine .seq (run_assign (v := 2) (by decide) (by decide)) ?_
  refine .seq (env' := envOf [(x, 0), (x, 2)]) ?_ (.seq_stop .look (by simp))
  refine .ite_true unknown_true (.while_break always_true ?_)
  refine .seq (run_assign (v := 0) (by decide) (by decide)) (.seq_stop ?_ (by simp))
  exact .ite_true (.not (test_is (v := 0) false rfl (by decide))) .brk

/-! ### `try` -/

/-- `x = 1`, then `try: x = "a"`, `except: return`, `else: pass`. -/
def tryWithElse : S' :=
  block [assign x (some' [0]),
    tryS (assign x (some' [1])) 1 (fun _ => leave) true skip skip, read 1 x]

/-- C87.  With an `else` block what the `try` block assigned is forgotten. -/
theorem try_else_violation :
    ¬ TellsTruth sem ops tryWithElse (analyseFunction ops tryWithElse).1 := by
  refine refute (env := envOf []) (env' := envOf [(x, 1), (x, 0)]) (l := 1) (k := x) (v := 1)
    (t := [0]) (typed_envOf (by simp)) ?_ rfl (by decide +kernel) (by decide)
  refine .seq (run_assign (v := 0) (by decide) (by decide)) ?_
  refine .seq (env' := envOf [(x, 1), (x, 0)]) ?_ (.seq_stop .look (by simp))
  exact .try_else (run_assign (v := 1) (by decide) (by decide)) .skip

/-- `x = 1`, then `try: x = "a"; raise`, `finally:` a read of `x`. -/
def tryFinally : S' :=
  block [assign x (some' [0]),
    tryS (block [assign x (some' [1]), raise]) 0 (fun _ => skip) false skip (read 1 x)]

/-- C87.  The `finally` block is not analysed for the exceptions that pass
through it. -/
theorem try_finally_violation :
    ¬ TellsTruth sem ops tryFinally (analyseFunction ops tryFinally).1 := by
  refine refute (env := envOf []) (env' := envOf [(x, 1), (x, 0)]) (l := 1) (k := x) (v := 1)
    (t := [0]) (typed_envOf (by simp)) ?_ rfl (by decide +kernel) (by decide)
  refine .seq (run_assign (v := 0) (by decide) (by decide)) ?_
  refine .seq_stop ?_ (by simp)
  refine Exec.try_finally (o := .raised) (o' := .probe 1 x) (env' := envOf [(x, 1), (x, 0)])
    (by simp) ?_ rfl .look
  refine .try_stop ?_ (by simp)
  exact .seq (run_assign (v := 1) (by decide) (by decide)) (.seq_stop .raise (by simp))

/-- `try: if x is None: x = 1; return`, then something that raises, and an
`except` block that reads `x`. -/
def tryTested : S' :=
  tryS (block [ite (isNone x) (block [assign x (some' [0]), leave]) skip, raise]) 1
    (fun _ => read 1 x) false skip skip

/-- C87.  What a handler is told about `x` comes from the assignments in the
`try` block only, made under the test that surrounds them. -/
theorem try_handler_violation :
    ¬ TellsTruth sem ops tryTested (analyseFunction ops tryTested).1 := by
  refine refute (env := envOf [(x, 1)]) (env' := envOf [(x, 1)]) (l := 1) (k := x) (v := 1)
    (t := [2, 0]) (typed_envOf (by decide)) ?_ rfl (by decide +kernel) (by decide)
  refine .try_handled (env' := envOf [(x, 1)]) 0 ?_ .look
  exact .seq (.ite_false (test_is (v := 1) false rfl (by decide)) .skip) (.seq_stop .raise (by simp))

/-! ### Attributes -/

/-- `assert isinstance(x.b, int)`, then under some condition either `x` or `x.b`
is assigned, and `x.b` is read. -/
def childBranches : S' :=
  block [assert (.test xb [0]),
    ite unknown (block [ite unknown (assign x (some' [0])) (assign xb (some' [0])), read 1 xb])
      skip]

/-- C88.  When one branch assigns `x` and the other `x.b`, what was known of
`x.b` before is kept for the first branch. -/
theorem child_branches_violation :
    ¬ TellsTruth sem ops childBranches (analyseFunction ops childBranches).1 := by
  refine refute (env := envOf [(xb, 0)]) (env' := envOf [(xb, 1), (x, 0), (xb, 0)]) (l := 1)
    (k := xb) (v := 1) (t := [0]) (typed_envOf (by decide)) ?_ rfl (by decide +kernel) (by decide)
  refine .seq (.assert_ok (test_is (v := 0) true rfl (by decide))) ?_
  refine .seq_stop (.ite_true unknown_true ?_) (by simp)
  refine .seq (env' := envOf [(xb, 1), (x, 0), (xb, 0)]) (.ite_true unknown_true ?_)
    (.seq_stop .look (by simp))
  exact .assign (v := 0) (show 0 ∈ [0] by decide) (assigned_below (by decide) (by decide) (by decide))

/-- `if (x := x.b):` and `x.b` is read. -/
def childWalrus : S' := ite (.walrus 0 (.key xb) [0]) (read 1 xb) skip

/-- C88.  The test of `x.b` is kept although `x` is bound anew. -/
theorem child_walrus_violation :
    ¬ TellsTruth sem ops childWalrus (analyseFunction ops childWalrus).1 := by
  refine refute (env := envOf [(xb, 0)]) (env' := envOf [(xb, 1), (x, 0), (xb, 0)]) (l := 1)
    (k := xb) (v := 1) (t := [0]) (typed_envOf (by decide)) ?_ rfl (by decide +kernel) (by decide)
  refine .ite_true (env' := envOf [(xb, 1), (x, 0), (xb, 0)]) ?_ .look
  exact EvalC.walrus (O := ops) (S := sem) (n := 0) (p := [0]) (v := 0) (e := .key xb) rfl
    (assigned_below (by decide) (by decide) (by decide))

/-! ### `:=` in conditions -/

/-- `x = None`, then `if (x := f()) and v():` with a read of `x` in the `else`. -/
def walrusAnd : S' :=
  block [assign x (some' [2]),
    ite (.and (.walrus 0 (some' [0, 1]) [0]) unknown) skip (read 1 x)]

/-- C89.  When the rest of an `and` fails, `x` is said to have its old type. -/
theorem walrus_and_violation :
    ¬ TellsTruth sem ops walrusAnd (analyseFunction ops walrusAnd).1 := by
  refine refute (env := envOf []) (env' := envOf [(x, 0), (x, 2)]) (l := 1) (k := x) (v := 0)
    (t := [2]) (typed_envOf (by simp)) ?_ rfl (by decide +kernel) (by decide)
  refine .seq (run_assign (v := 2) (by decide) (by decide)) (.seq_stop ?_ (by simp))
  refine .ite_false (env' := envOf [(x, 0), (x, 2)]) ?_ .look
  exact .and_long (EvalC.walrus (O := ops) (S := sem) (n := 0) (p := [0]) (v := 0)
    (e := some' [0, 1]) (show 0 ∈ [0, 1] by decide) (assigned (by decide))) unknown_false

/-- `x = None`, then under some condition `if (x := f()): return`. -/
def walrusIf : S' :=
  block [assign x (some' [2]),
    ite unknown (ite (.walrus 0 (some' [0, 1]) [0]) leave skip) skip, read 1 x]

/-- C89.  That `x` was bound by a condition that failed is forgotten. -/
theorem walrus_if_violation :
    ¬ TellsTruth sem ops walrusIf (analyseFunction ops walrusIf).1 := by
  refine refute (env := envOf []) (env' := envOf [(x, 1), (x, 2)]) (l := 1) (k := x) (v := 1)
    (t := [2]) (typed_envOf (by simp)) ?_ rfl (by decide +kernel) (by decide)
  refine .seq (run_assign (v := 2) (by decide) (by decide)) ?_
  refine .seq (env' := envOf [(x, 1), (x, 2)]) ?_ (.seq_stop .look (by simp))
  refine .ite_true unknown_true (.ite_false (env' := envOf [(x, 1), (x, 2)]) ?_ .skip)
  exact EvalC.walrus (O := ops) (S := sem) (n := 0) (p := [0]) (v := 1)
    (e := some' [0, 1]) (show 1 ∈ [0, 1] by decide) (assigned (by decide))

/-! ### `del` -/

/-- Under some condition `del x`, then `x` is read. -/
def deletedName : S' := block [ite unknown (del 0) skip, read 1 x]

/-- C90.  A name that is deleted in one branch, and of which nothing was known
before, is reported as deleted although the other branch leaves it bound. -/
theorem deleted_name_violation :
    ¬ TellsTruth sem ops deletedName (analyseFunction ops deletedName).1 := by
  refine refute_deleted (env := envOf [(x, 0)]) (env' := envOf [(x, 0)]) (l := 1) (k := x) (v := 0)
    (typed_envOf (by decide)) ?_ rfl (by decide +kernel)
  exact .seq (.ite_false unknown_false .skip) (.seq_stop .look (by simp))

/-! ### Values of type `Any` -/

/-- `assert isinstance(x, int)`, then `x = any_value()`, and `x` is read. -/
def untypedAssign : S' := block [assert (.test x [0]), untyped x, read 1 x]

/-- C90.  Assigning a value of type `Any` leaves what a test has found in
place. -/
theorem untyped_violation :
    ¬ TellsTruth sem ops untypedAssign (analyseFunction ops untypedAssign).1 := by
  refine refute (env := envOf [(x, 0)]) (env' := envOf [(x, 1), (x, 0)]) (l := 1) (k := x) (v := 1)
    (t := [0]) (typed_envOf (by decide)) ?_ rfl (by decide +kernel) (by decide)
  refine .seq (.assert_ok (test_is (v := 0) true rfl (by decide))) ?_
  exact .seq (.untyped (assigned (by decide))) (.seq_stop .look (by simp))

/-! ### The end of a function -/

/-- `x = None`, then `while True:` with `if x is not None: break` and `x = 1`. -/
def endOfLoop : S' :=
  block [assign x (some' [2]),
    whileS always (block [ite (.not (isNone x)) brk skip, assign x (some' [0])]) skip]

/-- C91.  The `break` is taken to be unreachable because of the first round, and
with it the end of the function. -/
theorem end_of_loop_violation :
    (analyseFunction ops endOfLoop).2 = true ∧ EndReached sem ops endOfLoop := by
  refine ⟨by decide +kernel, envOf [], envOf [(x, 0), (x, 2)], typed_envOf (by simp), ?_⟩
  refine .seq (run_assign (v := 2) (by decide) (by decide)) ?_
  refine .seq (env' := envOf [(x, 0), (x, 2)]) ?_ .skip
  refine .while_next (env'' := envOf [(x, 0), (x, 2)]) always_true ?_ (Or.inl rfl)
    (.while_break always_true ?_)
  · exact .seq (.ite_false (.not (test_is (v := 2) true rfl (by decide))) .skip)
      (.seq (run_assign (v := 0) (by decide) (by decide)) .skip)
  · exact .seq_stop (.ite_true (.not (test_is (v := 0) false rfl (by decide))) .brk) (by simp)

/-! ### The conditions of the theorems can be met -/

theorem flat_names {s : S'} (h : ∀ k, s.Mentions k → ∃ n, k = .name n) : Flat s := by
  intro a k ha hk
  obtain ⟨n, rfl⟩ := h a (assigns_mentions ha)
  obtain ⟨m, rfl⟩ := h k hk
  exact ⟨rfl, rfl⟩

/-- `x = f()`, then `if x is None: del x` and `x = 1` or `return`, otherwise
`assert isinstance(x, str)`; and then `x` is read. -/
def straightExample : S' :=
  block [read 0 x, ite (.or (isNone x) (.and unknown (.test x [0])))
    (block [read 1 x, del 0, ite unknown (assign x (some' [0])) leave])
    (block [read 2 x, assert (.test x [1])]), read 3 x]

example : reports (.seq (bindAll [(x, some' [0, 1, 2])]) straightExample) =
    [(0, x, .typ [0, 1, 2]), (1, x, .typ [2, 0]), (2, x, .typ [0, 1]), (3, x, .typ [1, 0])] := by
  decide +kernel

example : TellsTruth sem ops (.seq (bindAll [(x, some' [0, 1, 2])]) straightExample)
    (analyseFunction ops (.seq (bindAll [(x, some' [0, 1, 2])]) straightExample)).1 := by
  refine straight_types_true lawful (by unfold Stmt.Labelled; decide) (flat_names ?_) ?_ ?_ ?_
  · intro k h
    simp [straightExample, block, bindAll, Stmt.Mentions, Cond.Mentions, Expr.Mentions, isNone,
      unknown, some', x] at h
    exact ⟨0, h⟩
  · simp [straightExample, block, Stmt.Plain, Cond.Pure, isNone, unknown]
  · simp [straightExample, block, Stmt.Straight]
  · intro n h
    simp only [straightExample, block, List.foldr, Stmt.Deletes, or_false, false_or] at h
    subst h
    exact ⟨_, by simp [x]; rfl⟩

/-- A run of that program that gets to the last read. -/
example : Exec ops sem (.seq (bindAll [(x, some' [0, 1, 2])]) straightExample) (envOf [])
    (.probe 3 x) (envOf [(x, 1)]) := by
  refine .seq (env' := envOf [(x, 1)]) ?_ ?_
  · exact .seq (run_assign (v := 1) (by decide) (by decide)) .skip
  · refine .seq (.read (v := 1) rfl) (.seq (env' := envOf [(x, 1)]) ?_ (.seq_stop .look (by simp)))
    refine .ite_false (.or_long (test_is (v := 1) false rfl (by decide))
      (.and_short unknown_false)) ?_
    refine .seq (.read (v := 1) rfl) (.seq (.assert_ok ?_) .skip)
    exact test_is (v := 1) true rfl (by decide)

/-- `y` is narrowed and not assigned in the loop, `x` is assigned in the loop and
was not narrowed before. -/
def loopBody : S' :=
  block [read 1 x, read 2 y, ite unknown (block [assign x (some' [2]), brk]) skip,
    assign x (some' [1]), read 3 x]

def loopExample : S' :=
  block [assert (.test y [0]), whileS (.test x [0, 1]) loopBody (read 4 x), read 5 x, read 6 y]

example : reports (.seq (bindAll []) loopExample) =
    [(1, x, .typ [0, 1]), (2, y, .typ [0]), (3, x, .typ [1]), (4, x, .typ [2]), (5, x, .typ [2]),
      (6, y, .typ [0])] := by
  decide +kernel

theorem loopExample_log : (analyseFunction ops (.seq (bindAll []) loopExample)).1 =
    [.loop [⟨[⟨y, some [0], false, false⟩], false⟩] loopBody none,
      .read 1 x (.typ [0, 1]), .read 2 y (.typ [0]),
      .brk [⟨[⟨x, some [2], true, false⟩], false⟩, ⟨[⟨x, some [0, 1], false, false⟩], false⟩],
      .read 3 x (.typ [1]), .read 4 x (.typ [2]), .read 5 x (.typ [2]), .read 6 y (.typ [0])] := by
  rfl

example : TellsTruth sem ops (.seq (bindAll []) loopExample)
    (analyseFunction ops (.seq (bindAll []) loopExample)).1 := by
  refine loop_types_true_partial lawful (by unfold Stmt.Labelled; decide) (flat_names ?_) ?_ ?_
    ?_ ?_ ?_
  · intro k h
    simp [loopExample, loopBody, block, bindAll, Stmt.Mentions, Cond.Mentions, Expr.Mentions,
      unknown, some', x, y] at h
    by_cases hk : k = .name 0
    · exact ⟨_, hk⟩
    · simp [hk] at h
      exact ⟨_, h⟩
  · simp [loopExample, loopBody, block, Stmt.Plain, Cond.Pure, unknown]
  · simp [loopExample, loopBody, block, Stmt.NoTry]
  · intro n h
    simp [loopExample, loopBody, block, Stmt.Deletes] at h
  · rw [loopExample_log]
    simp [LoopOk, loopBody, block, Stmt.Assigns, Cond.Assigns, unknown, Allowed, x, y]
  · rw [loopExample_log]
    simp [BreakOk, x]

/-- `x = 1`, then a `try` that assigns `x` in one branch, with a handler. -/
def tryExample : S' :=
  block [tryS (block [ite unknown (assign x (some' [1])) skip, read 1 x]) 1 (fun _ => read 2 x)
    false skip skip, read 3 x]

example : reports (.seq (bindAll [(x, some' [0])]) tryExample) =
    [(1, x, .typ [0, 1]), (2, x, .typ [0, 1]), (3, x, .typ [0, 1])] := by
  decide +kernel

theorem tryExample_log : (analyseFunction ops (.seq (bindAll [(x, some' [0])]) tryExample)).1 =
    [.read 1 x (.typ [0, 1]),
      .tried [⟨[⟨x, some [0], true, false⟩], false⟩] [⟨x, some [0, 1], true, false⟩],
      .read 2 x (.typ [0, 1]), .read 3 x (.typ [0, 1])] := by
  rfl

example : TellsTruth sem ops (.seq (bindAll [(x, some' [0])]) tryExample)
    (analyseFunction ops (.seq (bindAll [(x, some' [0])]) tryExample)).1 := by
  refine types_true_partial lawful (by unfold Stmt.Labelled; decide) (flat_names ?_) ?_ ?_
    ?_ ?_ ?_
  · intro k h
    simp [tryExample, block, bindAll, Stmt.Mentions, Cond.Mentions, Expr.Mentions,
      unknown, some', x] at h
    exact ⟨_, h⟩
  · simp [tryExample, block, Stmt.Plain, Cond.Pure, unknown]
  · intro n h
    simp [tryExample, block, Stmt.Deletes] at h
  · rw [tryExample_log]
    simp [LoopOk]
  · rw [tryExample_log]
    simp [BreakOk]
  · rw [tryExample_log]
    simp [TryOk, Allowed, Covers, sem]
    intro v _ h
    exact Or.inl h

/-- `if x is None: return`, otherwise `raise`: the end is not reached. -/
example : ¬ EndReached sem ops
    (.seq (bindAll [(x, some' [0, 2])]) (ite (isNone x) leave (block [read 1 x, raise]))) := by
  refine straight_end_true_partial lawful (flat_names ?_) ?_ ?_ ?_ (by decide +kernel)
  · intro k h
    simp [block, bindAll, Stmt.Mentions, Cond.Mentions, Expr.Mentions, isNone, some', x] at h
    exact ⟨_, h⟩
  · simp [block, Stmt.Plain, Cond.Pure, isNone]
  · simp [block, Stmt.Straight]
  · intro n h
    simp [block, Stmt.Deletes] at h

end Verif.Flow.Instance
