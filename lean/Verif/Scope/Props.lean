import Verif.Scope.Runs
import Verif.Scope.Total

/-! # Names have the meaning that Python gives them -/

namespace Verif.Scope

/-- Everything that the name binder does with a file. -/
theorem file_step {q : Bool} {b : Block} {n : Nat} {s : St} (ht : FileTame q b)
    (h : bindFile n b = some s) : ∃ handled : List Use,
      (∀ e ∈ s.events, (∃ u ∈ handled, Right u e) ∨ (q = false ∧ ∃ id, e = .usedBefore id) ∨
        ∃ id, e = .issue id) ∧
      (∀ u ∈ handled, ∃ e ∈ s.events, Right u e) ∧
      (∀ id, .issue id ∈ s.events ↔ ∃ x, .nonlocal id x none ∈ handled) ∧
      ∀ u, u ∈ fileUses b ↔ (u ∈ handled ∨ ∃ r ∈ s.frame.toParent, u = .ref r.1 r.2 none) := by
  simp only [bindFile, Option.bind_eq_bind, Option.bind_eq_some_iff] at h
  obtain ⟨s1, a1, a2⟩ := h
  obtain ⟨-, -, hb, hc, -, -⟩ := all_ok n
  have hw : WfTop (moduleScope b) [] := .inl ⟨rfl, rfl⟩
  have hi : Inv q (moduleScope b) [] none ({ frame := { kind := .global } } : St).frame := by
    refine ⟨rfl, ?_, ?_, ?_, ?_, ?_⟩ <;> simp
  obtain ⟨b1, b2, -⟩ := hb (soon := none) (S := moduleScope b) a1 hw (.inl rfl) hi ht
    (fun p hp => hp) (fun h => h) (by intro h; cases h)
  obtain ⟨c1, c2, -, -⟩ := hc a2 hw b1 (by
    intro x hx; simpa [Scope.names_eq, moduleScope] using hx)
    ⟨(by intro h; cases h), fun _ => rfl⟩
  obtain ⟨evs, handled, e1, e2, e3, e4⟩ := b2.trans c2
  have e1 : s.events = evs := by rw [e1]; rfl
  rw [← e1] at e2 e3
  refine ⟨handled, e2, e3.1, e3.2, fun u => ?_⟩
  have := e4 u
  simp only [pend, c1.unordered, c1.unresolved (by simp [moduleScope]), List.map_nil,
    List.flatMap_nil, List.append_nil, List.nil_append, List.not_mem_nil, or_false, List.mem_map,
    List.drop_succ_cons, List.drop_zero, meaning, List.find?_nil] at this
  rw [fileUses, ← this]
  constructor
  · rintro (h | ⟨r, hr, rfl⟩)
    · exact .inl h
    · exact .inr ⟨r, hr, rfl⟩
  · rintro (h | ⟨r, hr, rfl⟩)
    · exact .inl h
    · exact .inr ⟨r, hr, rfl⟩

/-- C108. Every name that is used is connected with a definition of the variable that Python would
use: the one of the nearest scope that binds the name anywhere, without the classes around it.
Names that no scope binds are left for the builtins, and nothing else is connected.

Missing: programs that are not `FileTame`, see the theorems below. -/
theorem names_mean_their_scope_partial {b : Block} {n : Nat} {s : St} (ht : FileTame false b)
    (h : bindFile n b = some s) :
    (∀ id x S, .ref id x (some S) ∈ fileUses b →
      ∃ d, (x, d) ∈ Scope.binders S ∧ .redirect id d ∈ s.events) ∧
    (∀ id d, .redirect id d ∈ s.events →
      ∃ x S, .ref id x (some S) ∈ fileUses b ∧ (x, d) ∈ Scope.binders S) ∧
    ∀ id x, .ref id x none ∈ fileUses b ↔ (id, x) ∈ s.frame.toParent := by
  obtain ⟨handled, h1, h2, -, h4⟩ := file_step ht h
  refine ⟨?_, ?_, ?_⟩
  · intro id x S hu
    rcases (h4 _).mp hu with hu | ⟨r, -, hr⟩
    · obtain ⟨e, he, hr⟩ := h2 _ hu
      cases hr with
      | ref hd => exact ⟨_, hd, he⟩
    · cases hr
  · intro id d he
    rcases h1 _ he with ⟨u, hu, hr⟩ | ⟨-, i, hr⟩ | ⟨i, hr⟩
    · cases hr with
      | ref hd => exact ⟨_, _, (h4 _).mpr (.inl hu), hd⟩
    · cases hr
    · cases hr
  · intro id x
    rw [h4]
    constructor
    · rintro (hu | ⟨r, hr, e⟩)
      · obtain ⟨e, he, hr⟩ := h2 _ hu
        cases hr
      · cases e; exact hr
    · intro hr
      exact .inr ⟨_, hr, rfl⟩

/-- C109. `global` refers to the variable of the module, `nonlocal` to the one of the nearest
function around it, and a `nonlocal` without such a function is reported, but nothing else.

Missing: programs that are not `FileTame`, see the theorems below. -/
theorem declarations_find_their_scope_partial {b : Block} {n : Nat} {s : St}
    (ht : FileTame false b) (h : bindFile n b = some s) :
    (∀ id x S, .global id x (some S) ∈ fileUses b ∨ .nonlocal id x (some S) ∈ fileUses b →
      ∃ d, (x, d) ∈ Scope.binders S ∧ .declare id (some d) ∈ s.events) ∧
    (∀ id d, .declare id (some d) ∈ s.events → ∃ x S, (x, d) ∈ Scope.binders S ∧
      (.global id x (some S) ∈ fileUses b ∨ .nonlocal id x (some S) ∈ fileUses b)) ∧
    (∀ id, .issue id ∈ s.events ↔ ∃ x, .nonlocal id x none ∈ fileUses b) := by
  obtain ⟨handled, h1, h2, h3, h4⟩ := file_step ht h
  refine ⟨?_, ?_, ?_⟩
  · rintro id x S (hu | hu)
    · rcases (h4 _).mp hu with hu | ⟨r, -, hr⟩
      · obtain ⟨e, he, hr⟩ := h2 _ hu
        cases hr with
        | global hd => exact ⟨_, hd, he⟩
      · cases hr
    · rcases (h4 _).mp hu with hu | ⟨r, -, hr⟩
      · obtain ⟨e, he, hr⟩ := h2 _ hu
        cases hr with
        | «nonlocal» hd => exact ⟨_, hd, he⟩
      · cases hr
  · intro id d he
    rcases h1 _ he with ⟨u, hu, hr⟩ | ⟨-, i, hr⟩ | ⟨i, hr⟩
    · cases hr with
      | global hd => exact ⟨_, _, hd, .inl ((h4 _).mpr (.inl hu))⟩
      | «nonlocal» hd => exact ⟨_, _, hd, .inr ((h4 _).mpr (.inl hu))⟩
    · cases hr
    · cases hr
  · intro id
    rw [h3]
    constructor
    · rintro ⟨x, hx⟩; exact ⟨x, (h4 _).mpr (.inl hx)⟩
    · rintro ⟨x, hx⟩
      rcases (h4 _).mp hx with hx | ⟨r, -, hr⟩
      · exact ⟨x, hx⟩
      · cases hr

/-- C110. If every name is bound before it is used in the same scope, or in the loop around it, no
use before the definition is reported.

Missing: programs that are not `FileTame`, see the theorems below. -/
theorem bound_names_are_not_reported_partial {b : Block} {n : Nat} {s : St} (ht : FileTame true b)
    (h : bindFile n b = some s) (id : Node) : .usedBefore id ∉ s.events := by
  obtain ⟨handled, h1, -, -, -⟩ := file_step ht h
  intro he
  rcases h1 _ he with ⟨u, hu, hr⟩ | ⟨hq, -⟩ | ⟨i, hr⟩
  · cases hr
  · cases hq
  · cases hr

/-- C111. The name binder finishes every file, whatever is nested in it. -/
theorem every_file_is_bound (b : Block) : ∃ n s, ∀ N, n ≤ N → bindFile N b = some s :=
  bindFile_ends b

/-! ## Examples -/

/-- A module with a function, a closure with `nonlocal`, a class, a loop and comprehensions:
```
limit = 1
def outer(arg):
    def inner():
        nonlocal total
        total = arg
        return [item for item in arg if limit]
    total = 0
    class Local:
        size = total
        def method(self):
            return size          # not the size of the class
    while limit:
        late
        late = print
size = lambda item: item
``` -/
def closures : Block :=
  .expr (.bind 1 0) <|
  .func 2 1 .empty [(2, 3)]
    (.func 4 3 .empty []
      (.nonlocal 5 4 <|
       .expr (.both (.ref 6 2) (.bind 7 4)) <|
       .expr (.comp false (.clause (.ref 8 2) (.bind 9 5) (.ref 10 0) (.elt (.ref 11 5)))) <|
       .stop .done) <|
     .expr (.bind 12 4) <|
     .cls 13 6 .empty
       (.expr (.both (.ref 14 4) (.bind 15 7)) <|
        .func 16 8 .empty [(9, 17)] (.expr (.ref 18 7) (.stop .done)) .done) <|
     .loop (.ref 19 0) (.expr (.ref 20 10) <| .expr (.both (.ref 21 11) (.bind 22 10)) .done) .done
       .done) <|
  .expr (.both (.lambda .empty [(5, 23)] (.ref 24 5)) (.bind 25 7)) .done

theorem closures_tame : FileTame true closures := by
  simp [FileTame, closures, Block.Tame, Expr.Tame, Comp.Tame, MayUse, moduleScope, funcScope,
    classScope, lambdaScope, clauseScope, Scope.names, names, Block.binds, Expr.binds, Comp.binds,
    Expr.targets, Expr.walruses, Comp.outer, Comp.walruses, Block.loops]

theorem closures_tame_false : FileTame false closures := by
  simp [FileTame, closures, Block.Tame, Expr.Tame, Comp.Tame, MayUse, moduleScope, funcScope,
    classScope, lambdaScope, clauseScope, Scope.names, names, Block.binds, Expr.binds, Comp.binds,
    Expr.targets, Expr.walruses, Comp.outer, Comp.walruses, Block.loops]

/-- What is found out about a file. -/
theorem found {b : Block} {n : Nat} (p : List Event → List (Node × Name) → Bool)
    (h : (bindFile n b).any (fun s => p s.events s.frame.toParent) = true) :
    ∃ s, bindFile n b = some s ∧ p s.events s.frame.toParent = true := by
  cases hb : bindFile n b with
  | none => rw [hb] at h; cases h
  | some s => rw [hb] at h; exact ⟨s, rfl, h⟩

/-- The `size` in the method is the one of the module, the `total` after `nonlocal` the one of the
function, and `print` is left for the builtins. -/
example : ∃ s, bindFile 40 closures = some s ∧ (.redirect 18 25 ∈ s.events ∧
    .declare 5 (some 12) ∈ s.events ∧ .redirect 20 22 ∈ s.events ∧ .redirect 11 9 ∈ s.events ∧
    (21, 11) ∈ s.frame.toParent) := by
  obtain ⟨s, h, hp⟩ := found (b := closures) (n := 40) (fun es ts => decide (
    .redirect 18 25 ∈ es ∧ .declare 5 (some 12) ∈ es ∧ .redirect 20 22 ∈ es ∧
    .redirect 11 9 ∈ es ∧ (21, 11) ∈ ts)) (by decide +kernel)
  exact ⟨s, h, of_decide_eq_true hp⟩

/-- The scopes of these names. -/
example : (∃ S, Use.ref 18 7 (some S) ∈ fileUses closures ∧ S.kind = .global) ∧
    (∃ S, Use.nonlocal 5 4 (some S) ∈ fileUses closures ∧ S.kind = .function) ∧
    Use.ref 21 11 none ∈ fileUses closures := by
  refine ⟨⟨moduleScope closures, by decide +kernel, rfl⟩,
    ⟨⟨.function, [(2, 3), (3, 4), (4, 12), (6, 13), (10, 22)], true⟩, by decide +kernel, rfl⟩,
    by decide +kernel⟩

/-! ## Where the name binder is wrong -/

/-- A program in which a name is connected with a variable that Python would not use. -/
def Misled (b : Block) : Prop := ∃ n s id x S d, bindFile n b = some s ∧
  Use.ref id x (some S) ∈ fileUses b ∧ Event.redirect id d ∈ s.events ∧ (x, d) ∉ S.binders ∧
  ∀ d', Event.redirect id d' ∈ s.events → d' = d

theorem misled {b : Block} (n : Nat) (id x : Nat) (S : Scope) (d : Node)
    (hu : Use.ref id x (some S) ∈ fileUses b) (hd : (x, d) ∉ S.binders)
    (h : (bindFile n b).any (fun s => decide (Event.redirect id d ∈ s.events) &&
      s.events.all fun e => match e with
        | .redirect i d' => i != id || d' == d
        | _ => true) = true) : Misled b := by
  obtain ⟨s, h1, h2⟩ := found (fun es _ => decide (Event.redirect id d ∈ es) &&
    es.all fun e => match e with
      | .redirect i d' => i != id || d' == d
      | _ => true) h
  rw [Bool.and_eq_true] at h2
  refine ⟨n, s, id, x, S, d, h1, hu, of_decide_eq_true h2.1, hd, fun d' hd' => ?_⟩
  have := List.all_eq_true.mp h2.2 _ hd'
  simpa using this

/-- A local variable that is used before a loop and assigned after it is taken for the global one:
```
x = 0
def f(xs):
    print(x)
    for y in xs: ...
    x = 1
``` -/
def beforeLoop : Block :=
  .expr (.bind 1 0) <|
  .func 2 1 .empty [(2, 3)]
    (.expr (.ref 4 0) <| .loop (.both (.bind 5 3) (.ref 6 2)) .done .done <|
     .expr (.bind 7 0) .done) .done

/-- C108 is false for names used before a loop and assigned after it: references are
resolved at the end of a loop, and the name is taken for a global variable. -/
theorem name_before_loop_violation : Misled beforeLoop :=
  misled 30 4 0 ⟨.function, [(2, 3), (3, 5), (0, 7)], true⟩ 1 (by decide +kernel)
    (by decide +kernel) (by decide +kernel)

/-- A variable that is assigned with `:=` in a generator expression is a variable of the function
(PEP 572), but is taken for the global one if a loop comes before its next use:
```
c = 0
def f(ls):
    any((c := l) for l in ls)
    for x in ls: print(c)
``` -/
def walrusGenerator : Block :=
  .expr (.bind 1 0) <|
  .func 2 1 .empty [(2, 3)]
    (.expr (.comp true (.clause (.ref 4 2) (.bind 5 3) .empty (.elt (.walrus 6 0 (.ref 7 3))))) <|
     .loop (.both (.bind 8 4) (.ref 9 2)) (.expr (.ref 10 0) .done) .done .done) .done

/-- C108 is false for `:=` in generator expressions, which are only looked at when the
function is complete. -/
theorem walrus_in_generator_violation : Misled walrusGenerator :=
  misled 30 10 0 ⟨.function, [(2, 3), (0, 6), (4, 8)], true⟩ 1 (by decide +kernel)
    (by decide +kernel) (by decide +kernel)

/-- What a generator expression in a class iterates over is evaluated in the class, but is looked
up outside of it:
```
xs = 0
class C:
    xs = []
    ys = list(x for x in xs)
``` -/
def classGenerator : Block :=
  .expr (.bind 1 0) <|
  .cls 2 1 .empty
    (.expr (.bind 3 0) <|
     .expr (.both (.comp true (.clause (.ref 4 0) (.bind 5 2) .empty (.elt (.ref 6 2))))
       (.bind 7 3)) .done) .done

/-- C108 is false for generator expressions in classes, which are postponed like functions. -/
theorem generator_in_class_violation : Misled classGenerator :=
  misled 30 4 0 ⟨.cls, [(0, 3), (3, 7)], false⟩ 1 (by decide +kernel)
    (by decide +kernel) (by decide +kernel)

/-- An assignment after `return` makes the variable a local one, but is ignored:
```
x = 0
def f():
    print(x)
    return
    x = 1
``` -/
def unreachableAssignment : Block :=
  .expr (.bind 1 0) <|
  .func 2 1 .empty [] (.expr (.ref 3 0) <| .stop <| .expr (.bind 4 0) .done) .done

/-- C108 is false for assignments in unreachable code, which Python counts as well. -/
theorem unreachable_assignment_violation : Misled unreachableAssignment :=
  misled 30 3 0 ⟨.function, [(0, 4)], false⟩ 1 (by decide +kernel)
    (by decide +kernel) (by decide +kernel)

/-- `nonlocal` in a class in a class does not find the variable of the function around them:
```
def f():
    x = 1
    class A:
        class B:
            nonlocal x
``` -/
def nonlocalInClasses : Block :=
  .func 1 0 .empty []
    (.expr (.bind 2 1) <| .cls 3 2 .empty (.cls 4 3 .empty (.nonlocal 5 1 .done) .done) .done) .done

/-- C109 is false in nested classes: the search ends at the outer class. -/
theorem nonlocal_in_classes_violation : ∃ n s S, bindFile n nonlocalInClasses = some s ∧
    Use.nonlocal 5 1 (some S) ∈ fileUses nonlocalInClasses ∧ .issue 5 ∈ s.events ∧
    .declare 5 none ∈ s.events := by
  obtain ⟨s, h, hp⟩ := found (b := nonlocalInClasses) (n := 30) (fun es _ => decide (
    .issue 5 ∈ es ∧ .declare 5 none ∈ es)) (by decide +kernel)
  exact ⟨30, s, ⟨.function, [(1, 2), (2, 3)], false⟩, h, by decide +kernel, of_decide_eq_true hp⟩

/-- `nonlocal` in a class does not find a variable that the function assigns later, unlike the
same statement in a function:
```
def f():
    class A:
        nonlocal x
        x = 1
    x = 2
``` -/
def nonlocalFirst : Block :=
  .func 1 0 .empty []
    (.cls 2 1 .empty (.nonlocal 3 2 <| .expr (.bind 4 2) .done) <| .expr (.bind 5 2) .done) .done

/-- C109 is false in classes above the assignment: unlike functions, classes are not
postponed. -/
theorem nonlocal_before_assignment_violation : ∃ n s S, bindFile n nonlocalFirst = some s ∧
    Use.nonlocal 3 2 (some S) ∈ fileUses nonlocalFirst ∧ .issue 3 ∈ s.events ∧
    .declare 3 none ∈ s.events := by
  obtain ⟨s, h, hp⟩ := found (b := nonlocalFirst) (n := 30) (fun es _ => decide (
    .issue 3 ∈ es ∧ .declare 3 none ∈ es)) (by decide +kernel)
  exact ⟨30, s, ⟨.function, [(1, 2), (2, 5)], false⟩, h, by decide +kernel, of_decide_eq_true hp⟩

/-- `c` is assigned by the generator expression in the line before:
```
def f(ls):
    any((c := l) for l in ls)
    print(c)
``` -/
def walrusAny : Block :=
  .func 1 0 .empty [(1, 2)]
    (.expr (.comp true (.clause (.ref 3 1) (.bind 4 2) .empty (.elt (.walrus 5 3 (.ref 6 2))))) <|
     .expr (.ref 7 3) .done) .done

/-- C110 is false after `:=` in a generator expression. -/
theorem used_after_walrus_violation : ∃ n s, bindFile n walrusAny = some s ∧
    .redirect 7 5 ∈ s.events ∧ .usedBefore 7 ∈ s.events := by
  obtain ⟨s, h, hp⟩ := found (b := walrusAny) (n := 30) (fun es _ => decide (
    .redirect 7 5 ∈ es ∧ .usedBefore 7 ∈ es)) (by decide +kernel)
  exact ⟨30, s, h, of_decide_eq_true hp⟩

/-- In a loop, names may be used above their assignment, but not in a list comprehension: the first
`x` is not reported, but the second is.
```
for i in range(2):
    if i: print(x)
    if i: print([y for y in x])
    x = []
``` -/
def listInLoop : Block :=
  .loop (.both (.bind 1 0) (.ref 2 9))
    (.group (.expr (.ref 3 1) .done) <|
     .group (.expr (.comp false (.clause (.ref 4 1) (.bind 5 2) .empty (.elt (.ref 6 2)))) .done) <|
     .expr (.bind 7 1) .done) .done .done

/-- C110 is false for list comprehensions in loops. -/
theorem list_in_loop_violation : ∃ n s, bindFile n listInLoop = some s ∧
    .redirect 3 7 ∈ s.events ∧ .usedBefore 3 ∉ s.events ∧ .redirect 4 7 ∈ s.events ∧
    .usedBefore 4 ∈ s.events := by
  obtain ⟨s, h, hp⟩ := found (b := listInLoop) (n := 30) (fun es _ => decide (
    .redirect 3 7 ∈ es ∧ .usedBefore 3 ∉ es ∧ .redirect 4 7 ∈ es ∧ .usedBefore 4 ∈ es))
    (by decide +kernel)
  exact ⟨30, s, h, of_decide_eq_true hp⟩

end Verif.Scope
