import Verif.Equality.Lemmas

/-!
# Properties of the narrowing by comparisons and by truth

`compare_then_partial` and `compare_else_partial`: the branch of `if x == y` or `if x is y` that
Python executes gets a type that `x` has. `is_else` is the part that holds in full.
`is_exhaustive`: after all values were excluded, nothing is left. `in_then_partial`, `in_else`:
the same for `x in (a, b)`. `type_of_then_partial`, `type_of_else`: for `type(x) == y`.
`truth_partial`: for `if x`.
-/

namespace Verif.Equality

variable {w : World} {r : Run}

/-! ## `==` and `is` -/

/-- The branch in which the test holds. Missing: the operands that `Handled` leaves out, and
values that are equal without being the same. -/
theorem compare_then_partial {simpleKey : Bool} {checking other : List Ty} {isEq : Bool}
    {t f : Learned} (hb : Builtins w)
    (h : narrow w simpleKey checking other isEq = some (t, f)) {x y : Val}
    (hx : Has w r checking x) (hy : Has w r other y) (hh : Handled w r checking other isEq y)
    (he : isEq = true → EqualOnlyIfSame w r checking x y) (htest : Test w r isEq x y) :
    Fits w r t x := by
  refine narrow_then hb h hx hy hh fun u hu hux => ?_
  cases isEq with
  | false => exact .inl htest
  | true =>
    by_cases hs : SaysCustom w u y
    · exact .inr ⟨rfl, hs⟩
    · exact .inl (he rfl u hu hux hs htest)

/-- The branch in which the test does not hold. Missing: flags with one member, and second
operands that are not equal to themselves. -/
theorem compare_else_partial {simpleKey : Bool} {checking other : List Ty} {isEq : Bool}
    {t f : Learned} (hb : Builtins w)
    (h : narrow w simpleKey checking other isEq = some (t, f)) {x y : Val}
    (hx : Has w r checking x) (hy : Has w r other y)
    (hflag : ∀ (e : Nat), other = [.enum e] → w.isFlag e = false)
    (hrefl : isEq = true → Equal w r y y) (htest : ¬ Test w r isEq x y) : Fits w r f x := by
  refine narrow_else hb h hx hy ?_ hflag
  rintro rfl
  cases isEq with
  | false => exact htest rfl
  | true => exact htest (hrefl rfl)

/-- Values whose classes do not define `__eq__` are equal to themselves. -/
theorem equal_self {y : Val} (h : w.customEq (y.classOf w) = false) : Equal w r y y := by
  unfold Equal
  rw [if_neg (by simp [h])]
  exact .inl rfl

/-- A value is equal to a text only if it is the text, if its class defines no `__eq__` and does
not inherit from `str`. -/
theorem equal_text {checking : List Ty} {x : Val} {s : String} (hs : w.customEq cStr = false)
    (hx : w.customEq (x.classOf w) = false)
    (hkey : x.key r = some (.text s) → ∃ (l : Lit), x = .lit l) :
    EqualOnlyIfSame w r checking x (.lit (.str s)) := by
  intro _ _ _ _ heq
  unfold Equal at heq
  rw [if_neg (by
    rintro (h | h)
    · rw [hx] at h; cases h
    · have h : w.customEq cStr = true := h
      rw [hs] at h; cases h)] at heq
  rcases heq with h | ⟨k, h1, h2⟩
  · exact h
  · injection h2 with h2
    subst h2
    obtain ⟨l, rfl⟩ := hkey h1
    cases l <;> simp [Val.key] at h1
    rw [h1]

/-- A value is equal to a member of an enum without a mixed in type only if it is the member. -/
theorem equal_member {checking : List Ty} {x : Val} {e i : Nat} (hk : r.memberKey e i = none)
    (he : w.customEq (w.enumClass e) = false) (hx : w.customEq (x.classOf w) = false) :
    EqualOnlyIfSame w r checking x (.member e i) := by
  intro _ _ _ _ heq
  unfold Equal at heq
  rw [if_neg (by
    rintro (h | h)
    · rw [hx] at h; cases h
    · have h : w.customEq (w.enumClass e) = true := h
      rw [he] at h; cases h)] at heq
  rcases heq with h | ⟨k, _, h2⟩
  · exact h
  · have h2 : r.memberKey e i = some k := h2
    rw [hk] at h2; cases h2

/-- `if x is y`: the branch in which they differ. -/
theorem is_else {simpleKey : Bool} {checking other : List Ty} {t f : Learned} (hb : Builtins w)
    (h : narrow w simpleKey checking other false = some (t, f)) {x y : Val}
    (hx : Has w r checking x) (hy : Has w r other y)
    (hflag : ∀ (e : Nat), other = [.enum e] → w.isFlag e = false) (hne : x ≠ y) :
    Fits w r f x :=
  narrow_else hb h hx hy hne hflag

/-- `if x is A: ... elif x is B: ... elif ...`: what is left in the end. -/
def excludeAll (w : World) (simpleKey : Bool) : List Ty → List Ty → Option (List Ty)
  | ts, [] => some ts
  | ts, s :: ss =>
    match narrow w simpleKey ts [s] false with
    | some (_, some f) => excludeAll w simpleKey f ss
    | _ => none

/-- If all values were excluded by `is`, nothing is left: the checker knows that the tests are
exhaustive. -/
theorem is_exhaustive {simpleKey : Bool} {ts ss : List Ty} (r : Run) (hb : Builtins w)
    (hf : ∀ t ∈ ts, Finite w t) (hs : ∀ s ∈ ss, OneValue s)
    (hall : ∀ (x : Val), Has w r ts x → ∃ s ∈ ss, s.Has w r x) :
    excludeAll w simpleKey ts ss = some [] := by
  induction ss generalizing ts with
  | nil =>
    cases ts with
    | nil => rfl
    | cons t ts =>
      obtain ⟨x, hx⟩ := finite_inhabited r hb (hf t (by simp))
      obtain ⟨s, hs, _⟩ := hall x ⟨t, by simp, hx⟩
      cases hs
  | cons s ss ih =>
    obtain ⟨t, f, h, hff, hiff⟩ := exclude_one (r := r) (simpleKey := simpleKey) hb hf
      (hs s (by simp))
    simp only [excludeAll, h]
    refine ih hff (fun s' hs' => hs s' (by simp [hs'])) fun x hx => ?_
    obtain ⟨h1, h2⟩ := (hiff x).mp hx
    obtain ⟨s', hs', hsx⟩ := hall x h1
    rcases List.mem_cons.mp hs' with rfl | hs'
    · exact absurd hsx h2
    · exact ⟨s', hs', hsx⟩

/-- If a value was not excluded, its type is still there: no test is taken as exhaustive that is
not. -/
theorem is_not_exhaustive {simpleKey : Bool} {ts ss fs : List Ty} (hb : Builtins w)
    (hf : ∀ t ∈ ts, Finite w t) (hs : ∀ s ∈ ss, OneValue s) {x : Val} (hx : Has w r ts x)
    (hnot : ∀ s ∈ ss, ¬ s.Has w r x) (h : excludeAll w simpleKey ts ss = some fs) :
    Has w r fs x := by
  induction ss generalizing ts with
  | nil => simp only [excludeAll] at h; injection h with h; subst h; exact hx
  | cons s ss ih =>
    obtain ⟨t, f, h', hff, hiff⟩ := exclude_one (r := r) (simpleKey := simpleKey) hb hf
      (hs s (by simp))
    simp only [excludeAll, h'] at h
    exact ih hff (fun s' hs' => hs s' (by simp [hs'])) ((hiff x).mpr ⟨hx, hnot s (by simp)⟩)
      (fun s' hs' => hnot s' (by simp [hs'])) h

/-! ## `in` -/

/-- `if x in (a, b)`: the branch in which one of the items is equal to `x`. -/
theorem in_then_partial {meet : List Ty → List Ty → List Ty} {simpleKey : Bool}
    {checking : List Ty} (hb : Builtins w)
    (hmeet : ∀ (a b : List Ty) (v : Val), Has w r a v → Has w r b v → Has w r (meet a b) v)
    {items : List (List Ty)} {ys : List Val} (hys : EachHas w r items ys) {x : Val}
    (hx : Has w r checking x) {t f : Learned}
    (h : guardIn w meet simpleKey checking items = some (t, f))
    (hall : ∀ (item : List Ty) (y : Val), Has w r item y → item ∈ items → y ∈ ys →
      Handled w r checking item true y ∧ EqualOnlyIfSame w r checking x y)
    (htest : In w r x ys) : Fits w r t x :=
  (inTuple_sound hb hmeet hys hx h).1 hall (.inr htest)

/-- `if x in (a, b)`: the branch in which no item is equal to `x`. -/
theorem in_else {meet : List Ty → List Ty → List Ty} {simpleKey : Bool}
    {checking : List Ty} (hb : Builtins w)
    (hmeet : ∀ (a b : List Ty) (v : Val), Has w r a v → Has w r b v → Has w r (meet a b) v)
    {items : List (List Ty)} {ys : List Val} (hys : EachHas w r items ys) {x : Val}
    (hx : Has w r checking x) {t f : Learned}
    (h : guardIn w meet simpleKey checking items = some (t, f))
    (hflag : ∀ (e : Nat), [.enum e] ∈ items → w.isFlag e = false)
    (htest : ¬ In w r x ys) : Fits w r f x :=
  (inTuple_sound hb hmeet hys hx h).2 hflag (fun _ hts => nomatch hts) htest

/-- Nothing is in the empty tuple: the branch is not executed. -/
example {meet : List Ty → List Ty → List Ty} {simpleKey : Bool} {checking : List Ty} :
    guardIn w meet simpleKey checking [] = some (some [], none) := rfl

/-- `if x in container`: `None` is removed from the type of `x` if no item can be equal to it.
Missing: items that are `None` although the declared type of the items does not list it. -/
theorem in_container_partial {checking item : List Ty} {overlaps : Bool} {t f : Learned}
    (h : guardInContainer checking item overlaps = some (t, f)) {x : Val} {ys : List Val}
    (hx : Has w r checking x) (hys : ∀ y ∈ ys, y = .none → Ty.none ∈ item)
    (he : ∀ y ∈ ys, Equal w r .none y → y = .none) :
    (In w r x ys → Fits w r t x) ∧ Fits w r f x := by
  unfold guardInContainer at h
  split at h
  · cases h
  · split at h
    · injection h with h; injection h with h1 h2
      subst h1; subst h2
      refine ⟨?_, fun _ hts => nomatch hts⟩
      rintro ⟨y, hy, htest⟩ ts hts
      injection hts with hts
      subst hts
      obtain ⟨u, hu, hux⟩ := hx
      rename_i hnone
      have hyn : y ≠ .none := fun h => hnone.1 (hys y hy h)
      have hxn : x ≠ .none := by
        rintro rfl
        rcases htest with h | h
        · exact hyn h.symm
        · exact hyn (he y hy h)
      refine ⟨u, List.mem_filter.mpr ⟨hu, ?_⟩, hux⟩
      have : u ≠ .none := by
        rintro rfl
        exact hxn hux
      simpa using this
    · cases h

/-! ## Chains -/

/-- `if x is a is b`: the branch in which all are the same object. -/
theorem chain_then_partial {simpleKey : Bool} {checking : List Ty} {others : List (List Ty)}
    {t f : Learned} (hb : Builtins w)
    (h : chain w simpleKey checking false others = some (t, f)) {x : Val}
    (hx : Has w r checking x) (hys : ∀ other ∈ others, Has w r other x)
    (hh : ∀ other ∈ others, Handled w r checking other false x) : Fits w r t x := by
  induction others with
  | nil => cases h
  | cons other others ih =>
    simp only [chain] at h
    split at h
    · rename_i res hn
      injection h with h
      subst h
      exact compare_then_partial hb hn hx (hys other (by simp)) (hh other (by simp))
        (fun h => nomatch h) rfl
    · exact ih h (fun o ho => hys o (by simp [ho])) fun o ho => hh o (by simp [ho])

/-! ## `type(x) == y` -/

/-- `if type(x) == y` where `y` is the class `c` itself and the type of `x` consists of classes. -/
theorem type_of_then_partial {checking : List Ty} {c : Nat} {x : Val} (hx : Has w r checking x)
    (hcls : ∀ t ∈ checking, t = .any ∨ t = .object ∨ ∃ (d : Nat), t = .cls d)
    (hself : w.sub c c = true) (hc : x.classOf w = c) :
    Fits w r (guardTypeOf w checking c).1 x := by
  intro ts hts
  injection hts with hts
  subst hts
  have : acceptsAll w checking [.cls c] = true := by
    simp only [acceptsAll, List.all_cons, List.all_nil, Bool.and_true, List.any_eq_true]
    obtain ⟨t, ht, htx⟩ := hx
    refine ⟨t, ht, ?_⟩
    rcases hcls t ht with rfl | rfl | ⟨d, rfl⟩
    · rfl
    · rfl
    · have : w.sub (x.classOf w) d = true := htx
      rw [hc] at this
      exact this
  rw [if_pos this]
  exact ⟨_, List.mem_singleton.mpr rfl, by rw [← hc] at hself ⊢; exact hself⟩

/-- `if type(x) == y`, where `y` is the class `d`: the branch in which they differ. -/
theorem type_of_else {checking : List Ty} {c d : Nat} {x : Val} (hx : Has w r checking x)
    (hfinal : w.isFinal c = true → d = c ∧ ∀ (v : Val), (Ty.cls c).Has w r v → v.classOf w = c)
    (hne : x.classOf w ≠ d) : Fits w r (guardTypeOf w checking c).2 x := by
  intro ts hts
  simp only [guardTypeOf] at hts
  split at hts
  · rename_i hf
    injection hts with hts
    subst hts
    obtain ⟨rfl, hfin⟩ := hfinal hf
    obtain ⟨t, ht, htx⟩ := hx
    refine ⟨t, List.mem_filter.mpr ⟨ht, ?_⟩, htx⟩
    have : t ≠ .cls d := by
      rintro rfl
      exact hne (hfin x htx)
    simpa using this
  · cases hts

/-! ## Truth -/

/-- `if x`: the branch that Python executes gets a type that the value has. Missing: instances of
subclasses, which can define their own `__bool__` or be the `False` of an `int`. -/
theorem truth_partial {ts tr fa : List Ty} (hb : Builtins w) (h : splitTruth w ts = some (tr, fa))
    {x : Val} (hx : Has w r ts x) (hh : Honest w r x)
    (hd : ∀ t ∈ ts, t.Has w r x → Direct w t x) :
    (Truth w r x = true → Has w r tr x) ∧ (Truth w r x = false → Has w r fa x) := by
  obtain ⟨t, ht, htx⟩ := hx
  unfold splitTruth at h
  split at h
  · split at h
    · rename_i hn
      subst hn
      cases ht
    · cases h
  · injection h with h; injection h with h1 h2
    subst h1; subst h2
    cases hs : truthPart w t with
    | none =>
      have : Has w r [t] x := ⟨t, List.mem_singleton.mpr rfl, htx⟩
      exact ⟨fun _ => has_flatMap ht (by rw [hs]; exact this),
        fun _ => has_flatMap ht (by rw [hs]; exact this)⟩
    | some tf =>
      obtain ⟨a, b⟩ := tf
      have := truthPart_sound hb hs htx hh (hd t ht htx)
      exact ⟨fun h => has_flatMap ht (by rw [hs]; exact this.1 h),
        fun h => has_flatMap ht (by rw [hs]; exact this.2 h)⟩

/-! ## What goes wrong -/

/-- A program: the enum 0 (class 20) with two members, whose base class is 21; the enum 1 (class
30) with two members, which defines `__eq__`; the flag 2 (class 40) with one member; the protocol
22, which everything implements (`Hashable`); the class 51, which inherits from 50. -/
def sample : World where
  sub d c := d == c || (d == cBool && c == cInt) || ((d == cBool || d == cInt) && c == cFloat) ||
    (d == 20 && c == 21) || c == 22 || (d == 51 && c == 50)
  customEq c := c == 30
  varCustomEq _ := false
  enumClass e := 20 + 10 * e
  members e := if e = 2 then 1 else 2
  isFlag e := e == 2
  kind _ := .normal
  boolRet c := if c = cFloat ∨ c = cNone then .unknown else .missing
  lenRet _ := .missing
  isFinal c := c == 52
  namedTuple _ := none

/-- The `__eq__` of the second enum is never true. -/
def sampleRun : Run where
  memberKey _ _ := none
  objKey _ _ := none
  customEqual _ _ := False
  vars _ _ := True
  bool _ := true
  len _ := 0

theorem sample_builtins : Builtins sample where
  boolOnly v h := by
    cases v with
    | lit l => cases l <;> simp_all [sample, Val.classOf, cBool, cInt, cStr, cBytes, cFloat]
    | member e i =>
      simp [sample, Val.classOf, cBool, cInt, cFloat] at h; omega
    | obj c id => simp [sample, Val.classOf, cBool, cInt, cFloat] at h
    | _ => simp [sample, Val.classOf, cBool, cInt, cFloat, cNone] at h
  boolSub := rfl
  boolEq := rfl
  enumClasses e := by simp [sample]; omega
  floatBool := by simp [sample]
  noneBool := by simp [sample]

/-- `def f(x: int | None, y: int | None): if x is y` (or `x == y`): the checker removes `None` from
the type of `x`, although both can be `None`. -/
theorem both_optional_violation (isEq : Bool) :
    narrow sample true [.cls cInt, .none] [.cls cInt, .none] isEq =
      some (some [.cls cInt], none) ∧
    Test sample sampleRun isEq .none .none ∧
    ¬ Fits sample sampleRun (some [.cls cInt]) .none := by
  refine ⟨by cases isEq <;> decide +kernel, ?_, ?_⟩
  · cases isEq
    · rfl
    · exact equal_self (w := sample) (y := .none) rfl
  · intro h
    obtain ⟨t, ht, hh⟩ := h _ rfl
    rw [List.mem_singleton.mp ht] at hh
    have hh : sample.sub cNone cInt = true := hh
    revert hh
    decide

/-- `def f(x: Hashable): if x is None`: the branch is taken as unreachable, although `None` is
hashable. -/
theorem none_of_protocol_violation :
    narrow sample true [.cls 22] [.none] false = some (some [], some [.cls 22]) ∧
    (Ty.cls 22).Has sample sampleRun .none := by
  exact ⟨by decide +kernel, rfl⟩

/-- `class Base: ...`, `class E(Base, Enum)`, `def f(x: Base): if x is E.A`: the branch is taken
as unreachable. -/
theorem member_of_base_violation :
    narrow sample true [.cls 21] [.member 0 0] false = some (some [], some [.cls 21]) ∧
    (Ty.cls 21).Has sample sampleRun (.member 0 0) := by
  exact ⟨by decide +kernel, rfl⟩

/-- `def f(x: T): if x is E.A` with a type variable: the branch is taken as unreachable. -/
theorem member_of_type_var_violation :
    narrow sample true [.typeVar 0] [.member 0 0] false = some (some [], some [.typeVar 0]) ∧
    (Ty.typeVar 0).Has sample sampleRun (.member 0 0) := by
  exact ⟨by decide +kernel, trivial⟩

/-- `def f(x: float): if x == 1`: the checker takes `x` for the `int` 1, although 1.0 is equal to
it. -/
theorem equal_float_violation :
    narrow sample true [.cls cFloat] [.lit (.int 1) true] true =
      some (some [.lit (.int 1) true], some [.cls cFloat]) ∧
    Equal sample sampleRun (.float 1) (.lit (.int 1)) ∧
    ¬ Has sample sampleRun [.lit (.int 1) true] (.float 1) := by
  refine ⟨by decide +kernel, ?_, ?_⟩
  · unfold Equal
    rw [if_neg (by decide)]
    exact .inr ⟨.number 1, rfl, rfl⟩
  · intro h
    cases has_one h

/-- `def f(x: Literal[0, 1]): if x == True`: the branch is taken as unreachable, although 1 is
equal to `True`. -/
theorem equal_true_violation :
    narrow sample true [.lit (.int 0) false, .lit (.int 1) false] [.lit (.bool true) true] true =
      some (some [], some [.lit (.int 0) false, .lit (.int 1) false]) ∧
    Equal sample sampleRun (.lit (.int 1)) (.lit (.bool true)) := by
  refine ⟨by decide +kernel, ?_⟩
  unfold Equal
  rw [if_neg (by decide)]
  exact .inr ⟨.number 1, rfl, rfl⟩

/-- An enum that defines `__eq__` so that nothing is equal: `if x == E.A` removes the member from
the other branch, which is the one that Python executes. -/
theorem equal_custom_enum_violation :
    narrow sample true [.enum 1] [.member 1 0] true =
      some (some [.member 1 0], some [.member 1 1]) ∧
    ¬ Equal sample sampleRun (.member 1 0) (.member 1 0) ∧
    ¬ Has sample sampleRun [.member 1 1] (.member 1 0) := by
  refine ⟨by decide +kernel, ?_, ?_⟩
  · unfold Equal
    rw [if_pos (by decide)]
    exact fun h => h
  · intro h
    cases has_one h

/-- `class E(int, Enum): A = 1`, `def f(x: E): if x == 1`: the checker takes the branch for
unreachable, although `E.A == 1`. Only `IntEnum` and `StrEnum` are handled. -/
theorem mixin_violation :
    let r : Run := { sampleRun with memberKey := fun _ _ => some (.number 1) }
    narrow sample true [.enum 0] [.lit (.int 1) false] true = some (some [], some [.enum 0]) ∧
    (Ty.enum 0).Has sample r (.member 0 0) ∧
    Equal sample r (.member 0 0) (.lit (.int 1)) := by
  refine ⟨by decide +kernel, ⟨0, .inl (by decide), rfl⟩, ?_⟩
  unfold Equal
  rw [if_neg (by decide)]
  exact .inr ⟨.number 1, rfl, rfl⟩

/-- `class F(Flag): A = 1`, `def f(x: F, y: F): if x is y`: `y` is taken for `F.A`, although it can
be `F(0)`. -/
theorem flag_with_one_member_violation :
    narrow sample true [.enum 2] [.enum 2] false = some (some [.member 2 0], some [.enum 2]) ∧
    (Ty.enum 2).Has sample sampleRun (.member 2 1) ∧
    ¬ Has sample sampleRun [.member 2 0] (.member 2 1) := by
  refine ⟨by decide +kernel, ⟨1, .inr rfl, rfl⟩, ?_⟩
  intro h
  cases has_one h

/-- `def f(x: int | None): if x is g() is None: ... else: ...` where `g` returns `str | None`: in
the other branch `None` is removed from the type of `x`. If `g` returns a text, Python gets there
with `None`. -/
theorem chain_else_violation :
    chain sample true [.cls cInt, .none] false [[.cls cStr, .none], [.none]] =
      some (some [.none], some [.cls cInt]) ∧
    Has sample sampleRun [.cls cStr, .none] (.lit (.str "a")) ∧
    (Val.none ≠ .lit (.str "a")) ∧
    ¬ Has sample sampleRun [.cls cInt] .none := by
  refine ⟨by decide +kernel, ⟨.cls cStr, by simp, rfl⟩, by simp, ?_⟩
  intro h
  have hh : sample.sub cNone cInt = true := has_one h
  revert hh
  decide

/-- `def f(x: Derived, y: type[Base]): if type(x) == y`: the branch is taken as unreachable,
although `y` can be `Derived`. -/
theorem type_of_variable_violation :
    (guardTypeOf sample [.cls 51] 50).1 = some [] ∧
    (Ty.cls 51).Has sample sampleRun (.obj 42 0) ∧ sample.sub 51 50 = true := by
  exact ⟨by decide +kernel, rfl, rfl⟩

/-- `def f(x: Literal[1]): if type(x) == int`: the branch is taken as unreachable, although the
test always holds. -/
theorem type_of_literal_violation :
    (guardTypeOf sample [.lit (.int 1) false] cInt).1 = some [] ∧
    Val.classOf sample (.lit (.int 1)) = cInt := by
  exact ⟨by decide +kernel, rfl⟩

/-- `def f(x: int): if not x`: `x` is taken for 0, although it can be `False`. -/
theorem truth_of_int_violation :
    splitTruth sample [.cls cInt] = some ([.cls cInt], [.lit (.int 0) false]) ∧
    (Ty.cls cInt).Has sample sampleRun (.lit (.bool false)) ∧
    Truth sample sampleRun (.lit (.bool false)) = false ∧
    ¬ Has sample sampleRun [.lit (.int 0) false] (.lit (.bool false)) := by
  refine ⟨by decide +kernel, rfl, rfl, ?_⟩
  intro h
  cases has_one h

/-- `def f(x: int | None, c: list[Hashable]): if x in c`: `None` is removed, although the list can
have it. -/
theorem in_container_violation :
    guardInContainer [.cls cInt, .none] [.cls 22] true = some (some [.cls cInt], none) ∧
    (Ty.cls 22).Has sample sampleRun .none ∧ In sample sampleRun .none [.none] := by
  exact ⟨by decide +kernel, rfl, .none, by simp, .inl rfl⟩

/-! ## The hypotheses can be met -/

/-- `x: E | None`, `if x == E.A` -/
example : narrow sample true [.enum 0, .none] [.member 0 0] true =
    some (some [.member 0 0], some [.member 0 1, .none]) := by decide +kernel

example : Handled sample sampleRun [.enum 0, .none] [.member 0 0] true (.member 0 0) where
  noClass _ c h := by simp at h
  noVar e i n _ h := by simp at h
  noneAlone h := by cases h
  noFlag e h := by simp at h
  valid e i h := by simp at h; obtain ⟨rfl, rfl⟩ := h; decide
  noCustom e i h _ := by cases h; rfl

example : EqualOnlyIfSame sample sampleRun [.enum 0, .none] .none (.member 0 0) :=
  equal_member rfl rfl rfl

example : EqualOnlyIfSame sample sampleRun [.cls cStr] (.lit (.str "b")) (.lit (.str "a")) :=
  equal_text rfl rfl fun _ => ⟨_, rfl⟩

/-- `x: E | bool | Literal["a"]`: five tests exclude everything. -/
example : excludeAll sample true [.enum 0, .cls cBool, .lit (.str "a") false]
    [.member 0 1, .lit (.bool true) true, .lit (.str "a") true, .member 0 0,
      .lit (.bool false) true] = some [] := by decide +kernel

example : ∀ t ∈ [Ty.enum 0, .cls cBool, .lit (.str "a") false], Finite sample t := by
  simp [Finite, sample]

/-- `x: Literal["a", "b", "c"]`, `if x in ("a", "b")` -/
example : guardIn sample (fun a b => a.filter (· ∈ b)) true
    [.lit (.str "a") false, .lit (.str "b") false, .lit (.str "c") false]
    [[.lit (.str "a") true], [.lit (.str "b") true]] =
    some (some [.lit (.str "a") false, .lit (.str "b") false], some [.lit (.str "c") false]) := by
  decide +kernel

example : Honest sample sampleRun (.lit (.str "a")) where
  bool l h := by simp [sample, Val.classOf, cStr, cFloat, cNone] at h
  len _ l h := by simp [sample] at h
  fields _ n h := by simp [sample] at h

example : splitTruth sample [.cls cStr, .none] =
    some ([.cls cStr], [.lit (.str "") false, .none]) ∧
    Direct sample (.cls cStr) (.lit (.str "a")) := by
  refine ⟨by decide +kernel, ?_⟩
  intro c h
  injection h

end Verif.Equality
