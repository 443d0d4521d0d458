import Verif.Operator.Lemmas

/-!
# Operators of classes: the properties

`Faithful` says that the methods of the program do what they declare. C161: the type of an operator,
C162: what is reported, C163: operators that overlap, C164: augmented assignments.
-/

namespace Verif.Operator

variable {w : World} {run : Run}

/-! ## C161: the type of an operator -/

/-- The value of `x op y` has the type that is inferred for it, for all members of the unions of
the two operands.

Missing: classes for which the two operands are asked in another order than in Python, see the
violations below. -/
theorem result_partial (hf : Faithful w run) {arith : Bool} {ls rs : List Ty} {l r v : Nat}
    (hl : .cls l ∈ ls) (hr : .cls r ∈ rs) (ho : SameOrder w arith l r)
    (he : Evals w run arith l r (.value v)) : Fits w v (operation w arith ls rs).types := by
  have up : ∀ t, t ∈ (rights w arith (.cls l) rs).types → t ∈ (operation w arith ls rs).types :=
    fun t ht => List.mem_flatMap.mpr ⟨_, hl, ht⟩
  rcases rights_types (w := w) (arith := arith) (l := l) hr with h | h
  · exact .inl (up _ h)
  · cases hc : chosen w arith l r with
    | none => cases chosen_type_error hf hc he
    | some ret =>
      obtain ⟨v', e, t, ht, hv⟩ := chosen_right hf ho hc he
      cases e
      rw [pair_some hc] at h
      exact .inr ⟨t, up _ (h _ (List.mem_map_of_mem ht)), hv⟩

/-- If one operand may be `Any`, then the result may be `Any`: nothing is known about it. -/
theorem any_operand {arith : Bool} {ls rs : List Ty} (hl : ls ≠ []) (hr : rs ≠ [])
    (h : .any ∈ ls ∨ .any ∈ rs) : .any ∈ (operation w arith ls rs).types := by
  have right : ∀ (l : Ty) (rs : List Ty), .any ∈ rs → .any ∈ (rights w arith l rs).types := by
    intro l rs
    induction rs with
    | nil => intro h; cases h
    | cons r rs ih =>
      intro h
      cases r with
      | any => simp [rights]
      | cls r =>
        have : .any ∈ rs := by simpa using h
        simp only [rights]
        exact List.mem_append.mpr (.inr (ih this))
  rcases h with h | h
  · refine List.mem_flatMap.mpr ⟨_, h, ?_⟩
    match rs, hr with
    | .any :: rs, _ => simp [rights]
    | .cls r :: rs, _ => simp [rights]
  · obtain ⟨l, hl⟩ := List.exists_mem_of_ne_nil _ hl
    exact List.mem_flatMap.mpr ⟨_, hl, right l rs h⟩

/-- If both operands are instances of one class, then only the normal method of arithmetic counts,
and the type is exactly the one that this method returns. -/
theorem same_class {l : Nat} {d : Nat} {s : Sig} (h : Finds w l .op d) (hs : w.defs d .op = some s)
    (ha : IsOneOf w l s.param) : (operation w true [.cls l] [.cls l]).types = s.ret.map .cls := by
  obtain ⟨s', hl, hs'⟩ := finds_lookup h
  rw [hs] at hs'
  cases hs'
  have hc : chosen w true l l = some s.ret := by
    unfold chosen
    rw [short_iff.mpr ⟨rfl, rfl⟩, hl]
    simp only [Operator.run, if_pos (accepts_iff.mpr ha)]
  simp only [operation, rights, List.flatMap_cons, List.flatMap_nil, List.append_nil, pair_some hc]

namespace Sample

/-- 0: `int`, 1: `str`, 2: `class A` with `__add__(self, o: A) -> int` and `__radd__(self, o: A) -> int`,
3: `class B(A)` with `__radd__(self, o: A) -> str`, 4: `class C` with `__radd__(self, o: A | int) -> str`. -/
def classes : List Cls :=
  [⟨[], none, none, none⟩, ⟨[], none, none, none⟩,
   ⟨[], some ⟨[2], [0]⟩, some ⟨[2], [0]⟩, none⟩,
   ⟨[2], none, some ⟨[2], [1]⟩, none⟩,
   ⟨[], none, some ⟨[2, 0], [1]⟩, none⟩]

theorem faithful : Faithful (program classes) (obedient (program classes)) :=
  program_faithful (by decide)

/-- `A() + B()`: the reflected method of the subclass comes first. -/
theorem order : SameOrder (program classes) true 2 3 := by
  refine ⟨fun _ => by decide, fun _ d h => ?_, (nomatch ·), (nomatch ·)⟩
  rw [finds_iff] at h ⊢
  exact h

example : Evals (program classes) (obedient (program classes)) true 2 3 (.value 1) ∧
    (operation (program classes) true [.cls 2] [.cls 3]).types = [.cls 1] ∧
    (operation (program classes) true [.cls 2, .cls 0] [.cls 4]).types = [.cls 1, .cls 1] :=
  ⟨evalB_evals (run := obedient (program classes)) true 2 3, by decide, by decide⟩

/-- 2: `class Base` with `__radd__(self, o: object) -> str`, 3: `class A(Base)` with
`__add__(self, o: object) -> int`, 4: `class B(A)`, 5: `object`. -/
def inherited : List Cls :=
  [⟨[5], none, none, none⟩, ⟨[5], none, none, none⟩,
   ⟨[5], none, some ⟨[5], [1]⟩, none⟩,
   ⟨[2, 5], some ⟨[5], [0]⟩, none, none⟩,
   ⟨[3, 2, 5], none, none, none⟩,
   ⟨[], none, none, none⟩]

/-- `A() + B()`, where the subclass `B` of `A` defines nothing: Python calls `A.__add__`, because both
classes have the same `__radd__`, and the value is an `int`. But the checker compares the class that
defines `__add__` with the class that defines `__radd__`, so that it infers `str`, the type of
`Base.__radd__`. -/
theorem inherited_reflected_violation :
    Faithful (program inherited) (obedient (program inherited)) ∧
    Evals (program inherited) (obedient (program inherited)) true 3 4 (.value 0) ∧
    (operation (program inherited) true [.cls 3] [.cls 4]).types = [.cls 1] ∧
    ¬ Fits (program inherited) 0 (operation (program inherited) true [.cls 3] [.cls 4]).types := by
  have ht : (operation (program inherited) true [.cls 3] [.cls 4]).types = [.cls 1] := by decide
  refine ⟨program_faithful (by decide), evalB_evals (run := obedient (program inherited)) true 3 4, ht, ?_⟩
  rw [ht]
  rintro (h | ⟨t, h, h'⟩)
  · simp at h
  · simp only [List.mem_singleton, Ty.cls.injEq] at h
    subst h
    exact absurd (sub_iff.mpr h') (by decide)

/-- 0: `float`, 1: `str`, 2: `int`, 3: `class I(int)` with `__radd__(self, o: float) -> str`; `float`
has `__add__(self, o: float) -> float`. -/
def promoted : List Cls :=
  [⟨[], some ⟨[0], [0]⟩, some ⟨[0], [0]⟩, none⟩, ⟨[], none, none, none⟩,
   ⟨[], some ⟨[2], [2]⟩, some ⟨[2], [2]⟩, none⟩,
   ⟨[2], none, some ⟨[0], [1]⟩, none⟩]

/-- `1.0 + I()`, where `I` is a subclass of `int`: Python calls `float.__add__`, because `I` is no
subclass of `float`, and the value is a `float`. The checker counts `int` as a subtype of `float`, asks
`I.__radd__` first and infers `str`. -/
theorem promotion_violation :
    let w := program promoted fun a b => a == 2 && b == 0
    Faithful w (obedient w) ∧ Evals w (obedient w) true 0 3 (.value 0) ∧
    (operation w true [.cls 0] [.cls 3]).types = [.cls 1] ∧
    ¬ Fits w 0 (operation w true [.cls 0] [.cls 3]).types := by
  intro w
  have ht : (operation w true [.cls 0] [.cls 3]).types = [.cls 1] := by decide
  refine ⟨program_faithful (by decide), evalB_evals (run := obedient w) true 0 3, ht, ?_⟩
  rw [ht]
  rintro (h | ⟨t, h, h'⟩)
  · simp at h
  · simp only [List.mem_singleton, Ty.cls.injEq] at h
    subst h
    exact absurd (sub_iff.mpr h') (by decide)

/-- 2: `class A` with `__lt__(self, o: object) -> int` and `__gt__(self, o: object) -> str`, 3:
`class B(A)`, 4: `object`, 5: `class C` with `__lt__(self, o: object) -> int`, 6: `class D(C)` with
`__gt__(self, o: object) -> str`. -/
def compared : List Cls :=
  [⟨[4], none, none, none⟩, ⟨[4], none, none, none⟩,
   ⟨[4], some ⟨[4], [0]⟩, some ⟨[4], [1]⟩, none⟩,
   ⟨[2, 4], none, none, none⟩, ⟨[], none, none, none⟩,
   ⟨[4], some ⟨[4], [0]⟩, none, none⟩,
   ⟨[5, 4], none, some ⟨[4], [1]⟩, none⟩]

/-- `A() < B()` with a subclass `B` of `A`: for comparisons Python always asks the instance of the
subclass first, so the value is the `str` of `__gt__`. The checker infers `int`, the type of `__lt__`,
because the two methods are defined in one class. -/
theorem comparison_violation :
    Faithful (program compared) (obedient (program compared)) ∧
    Evals (program compared) (obedient (program compared)) false 2 3 (.value 1) ∧
    (operation (program compared) false [.cls 2] [.cls 3]).types = [.cls 0] ∧
    ¬ Fits (program compared) 1 (operation (program compared) false [.cls 2] [.cls 3]).types := by
  have ht : (operation (program compared) false [.cls 2] [.cls 3]).types = [.cls 0] := by decide
  refine ⟨program_faithful (by decide), evalB_evals (run := obedient (program compared)) false 2 3, ht, ?_⟩
  rw [ht]
  rintro (h | ⟨t, h, h'⟩)
  · simp at h
  · simp only [List.mem_singleton, Ty.cls.injEq] at h
    subst h
    exact absurd (sub_iff.mpr h') (by decide)

/-- `D() < D()`, where `__lt__` is inherited and `__gt__` is defined in `D`: Python asks `__lt__` first, so
the value is an `int`. The checker infers `str`, the type of `__gt__`. -/
theorem comparison_same_violation :
    Faithful (program compared) (obedient (program compared)) ∧
    Evals (program compared) (obedient (program compared)) false 6 6 (.value 0) ∧
    (operation (program compared) false [.cls 6] [.cls 6]).types = [.cls 1] ∧
    ¬ Fits (program compared) 0 (operation (program compared) false [.cls 6] [.cls 6]).types := by
  have ht : (operation (program compared) false [.cls 6] [.cls 6]).types = [.cls 1] := by decide
  refine ⟨program_faithful (by decide), evalB_evals (run := obedient (program compared)) false 6 6, ht, ?_⟩
  rw [ht]
  rintro (h | ⟨t, h, h'⟩)
  · simp at h
  · simp only [List.mem_singleton, Ty.cls.injEq] at h
    subst h
    exact absurd (sub_iff.mpr h') (by decide)

end Sample

/-! ## C162: what is reported -/

/-- Each report is about two members of the unions for which Python raises a `TypeError`; and if only
the left operand is named, then it does not have the method at all. -/
theorem issue_real (hf : Faithful w run) {arith : Bool} {ls rs : List Ty} {i : Issue}
    (h : i ∈ (operation w arith ls rs).issues) :
    ∃ (l r : Nat), .cls l ∈ ls ∧ .cls r ∈ rs ∧
      ((i = .left l ∧ ∀ (d : Nat), ¬ Finds w l .op d) ∨ i = .operands l r) ∧
      Evals w run arith l r .notImplemented := by
  obtain ⟨l, hl, h⟩ := List.mem_flatMap.mp h
  obtain ⟨a, b, rfl, hb, hi⟩ := rights_issue h
  cases hc : chosen w arith a b with
  | some ret => rw [pair_some hc] at hi; exact absurd hi List.not_mem_nil
  | none =>
    obtain ⟨o, ho⟩ := evals_exists (w := w) (run := run) arith a b
    rw [chosen_type_error hf hc ho] at ho
    refine ⟨a, b, hl, hb, ?_, ho⟩
    rcases pair_none hc with ⟨e, hn⟩ | e
    · rw [e] at hi
      exact .inl ⟨List.mem_singleton.mp hi, lookup_none hn⟩
    · rw [e] at hi
      exact .inr (List.mem_singleton.mp hi)

/-- If Python raises a `TypeError` for members of the two unions, then this is reported; whether the
order is the one of Python does not matter.

Missing: a right operand with `Any`, see `any_violation`. -/
theorem issue_reported_partial (hf : Faithful w run) {arith : Bool} {ls rs : List Ty} {l r : Nat}
    (hl : .cls l ∈ ls) (hr : .cls r ∈ rs) (ha : .any ∉ rs)
    (he : Evals w run arith l r .notImplemented) :
    .left l ∈ (operation w arith ls rs).issues ∨ .operands l r ∈ (operation w arith ls rs).issues := by
  cases hc : chosen w arith l r with
  | some ret => exact absurd he (chosen_no_error hf hc)
  | none =>
    have h := rights_issues (w := w) (arith := arith) (l := l) hr ha
    have up : ∀ i, i ∈ (rights w arith (.cls l) rs).issues → i ∈ (operation w arith ls rs).issues :=
      fun i hi => List.mem_flatMap.mpr ⟨_, hl, hi⟩
    rcases pair_none hc with ⟨e, _⟩ | e
    · rw [e] at h
      exact .inl (up _ (h _ List.mem_cons_self))
    · rw [e] at h
      exact .inr (up _ (h _ List.mem_cons_self))

namespace Sample

/-- `A() + 1` is an error, and `A() + A()` is none. -/
example : Evals (program classes) (obedient (program classes)) true 2 0 .notImplemented ∧
    (operation (program classes) true [.cls 2] [.cls 2, .cls 0]).issues = [.operands 2 0] ∧
    (operation (program classes) true [.cls 0] [.cls 1]).issues = [.left 0] :=
  ⟨evalB_evals (run := obedient (program classes)) true 2 0, by decide, by decide⟩

/-- `A() + x` is reported for `x: int | Any` but not for `x: Any | int`: the members of the right operand
after `Any` are ignored. -/
theorem any_violation :
    Faithful (program classes) (obedient (program classes)) ∧
    Evals (program classes) (obedient (program classes)) true 2 0 .notImplemented ∧
    (operation (program classes) true [.cls 2] [.any, .cls 0]).issues = [] ∧
    (operation (program classes) true [.cls 2] [.cls 0, .any]).issues = [.operands 2 0] :=
  ⟨faithful, evalB_evals (run := obedient (program classes)) true 2 0, by decide, by decide⟩

end Sample

/-! ## C163: operators that overlap -/

/-- The class `c` defines a reflected method that is not reported, and it is a subclass of a class `f`
that the method accepts. If the normal method of `f` accepts instances of `c`, then the value of
`f_instance op c_instance` has the type that the normal method of `f` declares. So for static types
it does not matter that the instance of the subclass is asked first. -/
theorem overlap_subclass (hf : Faithful w run) (hp : Preorder w) {arith : Bool} {c f d : Nat}
    {s t : Sig} (hs : w.defs c .rop = some s) (hno : overlapping w c s = []) (hm : f ∈ s.param)
    (hc : f ∈ w.mro c) (hfc : Finds w c .rop c) (ht : Finds w f .op d) (hd : w.defs d .op = some t)
    (ha : IsOneOf w c t.param) (hne : f ≠ c) {o : Out} (he : Evals w run arith f c o) :
    ∃ (v : Nat), o = .value v ∧ IsOneOf w v t.ret := by
  obtain ⟨t', hl, hd'⟩ := finds_lookup ht
  rw [hd] at hd'
  cases hd'
  obtain ⟨s', hl', hs'⟩ := finds_lookup hfc
  rw [hs] at hs'
  cases hs'
  have hsub : Is w c f := ⟨f, hc, .inl rfl⟩
  have ret : ∀ x ∈ s.ret, IsOneOf w x t.ret := by
    have h : ¬ overlaps w c s f = true := by
      unfold overlapping at hno
      rw [List.filter_eq_nil_iff] at hno
      exact hno f hm
    unfold overlaps at h
    rw [hl] at h
    dsimp only at h
    rw [if_neg (by simpa using hne), if_neg, if_pos (sub_iff.mpr hsub)] at h
    · rw [Bool.not_eq_true, Bool.not_eq_false'] at h
      exact subUnion_iff.mp h
    · have : subUnion w [c] t.param = true := subUnion_iff.mpr (by simpa using ha)
      simp [this]
  have normal : ∀ {o : Out}, Calls w run f .op c o → ∃ (v : Nat), o = .value v ∧ IsOneOf w v t.ret := by
    intro o h
    exact (calls_run hf h).1 t.ret (by rw [hl]; simp [Operator.run, accepts_iff.mpr ha])
  have reflected : ∀ {o : Out}, Calls w run c .rop f o →
      ∃ (v : Nat), o = .value v ∧ IsOneOf w v t.ret := by
    intro o h
    have hacc : IsOneOf w f s.param := ⟨f, hm, f, hp.self f, .inl rfl⟩
    obtain ⟨v, e, x, hx, hv⟩ :=
      (calls_run hf h).1 s.ret (by rw [hl']; simp [Operator.run, accepts_iff.mpr hacc])
    obtain ⟨y, hy, hxy⟩ := ret x hx
    exact ⟨v, e, y, hy, hp.trans hv hxy⟩
  cases he with
  | reflected _ h => exact reflected h
  | normalAfter _ _ h => exact normal h
  | normal _ h => exact normal h
  | same _ e _ => exact absurd e hne
  | reflectedAfter _ _ _ h => exact reflected h

/-- The class `c` defines a reflected method that is not reported and that accepts a class `f`, and
`c` is not a subtype of `f`. If the normal method of `f` accepts only subtypes of `c`, then the checker
takes the type of the reflected method for other instances of `c`; and if it meets an instance of
such a subtype `q` (that is not a subclass of `f`), then the value has this type as well. -/
theorem overlap_other (hf : Faithful w run) (hp : Preorder w) {arith : Bool} {c f d q : Nat}
    {s t : Sig} (hno : overlapping w c s = []) (hm : f ∈ s.param)
    (hc : ¬ Is w c f) (ht : Finds w f .op d) (hd : w.defs d .op = some t)
    (hall : ∀ x ∈ t.param, Is w x c) (ha : IsOneOf w q t.param) (hq : f ∉ w.mro q)
    {o : Out} (he : Evals w run arith f q o) : ∃ (v : Nat), o = .value v ∧ IsOneOf w v s.ret := by
  obtain ⟨t', hl, hd'⟩ := finds_lookup ht
  rw [hd] at hd'
  cases hd'
  have hne : f ≠ c := fun e => hc (e ▸ ⟨f, hp.self f, .inl rfl⟩)
  have ret : ∀ x ∈ t.ret, IsOneOf w x s.ret := by
    have h : ¬ overlaps w c s f = true := by
      unfold overlapping at hno
      rw [List.filter_eq_nil_iff] at hno
      exact hno f hm
    unfold overlaps at h
    rw [hl] at h
    dsimp only at h
    rw [if_neg (by simpa using hne), if_neg, if_neg (fun h' => hc (sub_iff.mp h'))] at h
    · rw [Bool.not_eq_true, Bool.not_eq_false'] at h
      exact subUnion_iff.mp h
    · have : subUnion w t.param [c] = true :=
        subUnion_iff.mpr fun x hx => ⟨c, List.mem_singleton.mpr rfl, hall x hx⟩
      simp [this]
  have normal : ∀ {o : Out}, Calls w run f .op q o → ∃ (v : Nat), o = .value v ∧ IsOneOf w v s.ret := by
    intro o h
    obtain ⟨v, e, x, hx, hv⟩ :=
      (calls_run hf h).1 t.ret (by rw [hl]; simp [Operator.run, accepts_iff.mpr ha])
    obtain ⟨y, hy, hxy⟩ := ret x hx
    exact ⟨v, e, y, hy, hp.trans hv hxy⟩
  cases he with
  | reflected h _ => exact absurd h.2.1 hq
  | normalAfter h _ _ => exact absurd h.2.1 hq
  | normal _ h => exact normal h
  | same _ _ h => exact normal h
  | reflectedAfter _ _ h _ =>
    obtain ⟨v, e, _⟩ := normal h
    cases e

/-- What is reported is a real danger: a subclass whose reflected method may return something that
the normal method of the other class does not declare, or the other way round. -/
theorem overlap_real {c f : Nat} {s : Sig} (h : f ∈ overlapping w c s) :
    f ∈ s.param ∧ f ≠ c ∧ ∃ (d : Nat) (t : Sig), Finds w f .op d ∧ w.defs d .op = some t ∧
      ((∀ x ∈ t.param, Is w x c) ∨ IsOneOf w c t.param) ∧
      ((Is w c f ∧ ∃ x ∈ s.ret, ¬ IsOneOf w x t.ret) ∨
       (¬ Is w c f ∧ ∃ x ∈ t.ret, ¬ IsOneOf w x s.ret)) := by
  unfold overlapping at h
  rw [List.mem_filter] at h
  obtain ⟨hm, h⟩ := h
  have notAll : ∀ {a b : List Nat}, subUnion w a b = false → ∃ x ∈ a, ¬ IsOneOf w x b := by
    intro a b h
    apply Classical.byContradiction
    intro hn
    have : subUnion w a b = true := subUnion_iff.mpr fun x hx =>
      Classical.byContradiction fun h' => hn ⟨x, hx, h'⟩
    rw [h] at this
    cases this
  unfold overlaps at h
  split at h
  · cases h
  · rename_i d t hl
    obtain ⟨hd, ht⟩ := lookup_some hl
    split at h
    · cases h
    · rename_i hne
      split at h
      · cases h
      · rename_i hp
        refine ⟨hm, by simpa using hne, d, t, hd, ht, ?_, ?_⟩
        · by_cases h1 : subUnion w t.param [c] = true
          · left
            intro x hx
            obtain ⟨y, hy, h'⟩ := subUnion_iff.mp h1 x hx
            rw [List.mem_singleton.mp hy] at h'
            exact h'
          · right
            have h2 : subUnion w [c] t.param = true := by
              cases h2 : subUnion w [c] t.param with
              | true => rfl
              | false =>
                rw [Bool.not_eq_true] at h1
                rw [h1, h2] at hp
                exact absurd rfl hp
            exact subUnion_iff.mp h2 c (List.mem_singleton.mpr rfl)
        · split at h
          · rename_i hs
            rw [Bool.not_eq_true'] at h
            exact .inl ⟨sub_iff.mp hs, notAll h⟩
          · rename_i hs
            rw [Bool.not_eq_true'] at h
            exact .inr ⟨fun h' => hs (sub_iff.mpr h'), notAll h⟩

namespace Sample

/-- `class B(A)` with `__radd__(self, o: A) -> str` is reported, and with `-> int` it is not. -/
example : overlapping (program classes) 3 ⟨[2], [1]⟩ = [2] ∧ overlapping (program classes) 3 ⟨[2], [0]⟩ = [] := by
  decide

/-- 0: `int`, 1: `bool`, 2: `class A` with `__add__(self, o: A) -> int`, 3: `class B(A)` with
`__radd__(self, o: A) -> bool`. -/
def safe : List Cls :=
  [⟨[], none, none, none⟩, ⟨[0], none, none, none⟩, ⟨[], some ⟨[2], [0]⟩, none, none⟩,
   ⟨[2], none, some ⟨[2], [1]⟩, none⟩]

theorem safe_mro {a b : Nat} : Is (program safe) a b ↔ b = a ∨ (a = 1 ∧ b = 0) ∨ (a = 3 ∧ b = 2) := by
  rcases a with _ | _ | _ | _ | a <;> simp [Is, program, safe, eq_comm]

theorem safe_preorder : Preorder (program safe) where
  self c := List.mem_cons_self
  trans := by
    intro a b c h1 h2
    rw [safe_mro] at h1 h2 ⊢
    omega

/-- The hypotheses of `overlap_subclass` hold, and the reflected method is the one that is called. -/
example : overlapping (program safe) 3 ⟨[2], [1]⟩ = [] ∧ Finds (program safe) 3 .rop 3 ∧
    Finds (program safe) 2 .op 2 ∧ IsOneOf (program safe) 3 [2] ∧
    Evals (program safe) (obedient (program safe)) true 2 3 (.value 1) :=
  ⟨by decide, finds_iff.mpr (by decide), finds_iff.mpr (by decide),
   ⟨2, List.mem_singleton.mpr rfl, safe_mro.mpr (.inr (.inr ⟨rfl, rfl⟩))⟩,
   evalB_evals (run := obedient (program safe)) true 2 3⟩

/-- 0: `int`, 1: `bool`, 2: `class C` with `__radd__(self, o: F) -> int`, 3: `class Q(C)`, 4: `class F` with
`__add__(self, o: Q) -> bool`. -/
def other : List Cls :=
  [⟨[], none, none, none⟩, ⟨[0], none, none, none⟩, ⟨[], none, some ⟨[4], [0]⟩, none⟩,
   ⟨[2], none, none, none⟩, ⟨[], some ⟨[3], [1]⟩, none, none⟩]

theorem other_mro {a b : Nat} : Is (program other) a b ↔ b = a ∨ (a = 1 ∧ b = 0) ∨ (a = 3 ∧ b = 2) := by
  rcases a with _ | _ | _ | _ | _ | a <;> simp [Is, program, other, eq_comm]

theorem other_preorder : Preorder (program other) where
  self c := List.mem_cons_self
  trans := by
    intro a b c h1 h2
    rw [other_mro] at h1 h2 ⊢
    omega

/-- The hypotheses of `overlap_other` hold; with `__add__(self, o: Q) -> str` it would be reported. -/
example : overlapping (program other) 2 ⟨[4], [0]⟩ = [] ∧ ¬ Is (program other) 2 4 ∧
    Finds (program other) 4 .op 4 ∧ Is (program other) 3 2 ∧ 4 ∉ (program other).mro 3 ∧
    (operation (program other) true [.cls 4] [.cls 2]).types = [.cls 0] ∧
    Evals (program other) (obedient (program other)) true 4 3 (.value 1) :=
  ⟨by decide, by rw [other_mro]; decide, finds_iff.mpr (by decide),
   other_mro.mpr (.inr (.inr ⟨rfl, rfl⟩)), by decide, by decide,
   evalB_evals (run := obedient (program other)) true 4 3⟩

/-- 0: `int`, 1: `str`, 2: `class A` with `__add__(self, o: A) -> int`, 3: `class B(A)` with
`__radd__(self, o: object) -> str`, 4: `object`. -/
def general : List Cls :=
  [⟨[4], none, none, none⟩, ⟨[4], none, none, none⟩, ⟨[4], some ⟨[2], [0]⟩, none, none⟩,
   ⟨[2, 4], none, some ⟨[4], [1]⟩, none⟩, ⟨[], none, none, none⟩]

/-- `class A` with `__add__(self, o: A) -> int` and `class B(A)` with `__radd__(self, o: object) -> str`:
nothing is reported, because `object` has no `__add__`. But for `x: A` and `y: A` the checker infers
`int` for `x + y`, and if `y` is an instance of `B`, then the value is a `str`. -/
theorem overlap_object_violation :
    overlapping (program general) 3 ⟨[4], [1]⟩ = [] ∧
    (operation (program general) true [.cls 2] [.cls 2]).types = [.cls 0] ∧
    (operation (program general) true [.cls 2] [.cls 2]).issues = [] ∧
    Evals (program general) (obedient (program general)) true 2 3 (.value 1) ∧
    ¬ Fits (program general) 1 [.cls 0] := by
  refine ⟨by decide, by decide, by decide, evalB_evals (run := obedient (program general)) true 2 3, ?_⟩
  rintro (h | ⟨t, h, h'⟩)
  · simp at h
  · simp only [List.mem_singleton, Ty.cls.injEq] at h
    subst h
    exact absurd (sub_iff.mpr h') (by decide)

/-- 0: `int`, 1: `str`, 2: `class C` with `__radd__(self, o: F) -> str`, 3: `class Q(C)`, 4: `class F` with
`__add__(self, o: Q | int) -> int`. -/
def partly : List Cls :=
  [⟨[], none, none, none⟩, ⟨[], none, none, none⟩, ⟨[], none, some ⟨[4], [1]⟩, none⟩,
   ⟨[2], none, none, none⟩, ⟨[], some ⟨[3, 0], [0]⟩, none, none⟩]

/-- `class C` with `__radd__(self, o: F) -> str`, a subclass `Q` of `C` and `class F` with
`__add__(self, o: Q | int) -> int`: nothing is reported, because `Q | int` is not comparable with `C`. But
for `x: F` and `y: C` the checker infers `str` for `x + y`, and if `y` is an instance of `Q`, then the
value is an `int`. With `__add__(self, o: Q) -> int` it is reported. -/
theorem overlap_union_violation :
    overlapping (program partly) 2 ⟨[4], [1]⟩ = [] ∧
    (operation (program partly) true [.cls 4] [.cls 2]).types = [.cls 1] ∧
    (operation (program partly) true [.cls 4] [.cls 2]).issues = [] ∧
    Evals (program partly) (obedient (program partly)) true 4 3 (.value 0) ∧
    ¬ Fits (program partly) 0 [.cls 1] := by
  refine ⟨by decide, by decide, by decide, evalB_evals (run := obedient (program partly)) true 4 3, ?_⟩
  rintro (h | ⟨t, h, h'⟩)
  · simp at h
  · simp only [List.mem_singleton, Ty.cls.injEq] at h
    subst h
    exact absurd (sub_iff.mpr h') (by decide)

end Sample

/-! ## C164: augmented assignments -/

/-- If nothing is reported for `x op= y`, then the new value of `x` has the type that is inferred.

Missing: unions of which some members have the in-place method and others have not, see
`aug_union_violation`. -/
theorem aug_result_partial (hf : Faithful w run) {ls rs : List Ty} {l r v : Nat}
    (hl : .cls l ∈ ls) (hr : .cls r ∈ rs) (hn : (augmented w ls rs).issues = [])
    (hall : (∀ (a : Nat), .cls a ∈ ls → ∃ (d : Nat), Finds w a .iop d) ∨ ∀ (d : Nat), ¬ Finds w l .iop d)
    (ho : SameOrder w true l r) (he : Augments w run l r (.value v)) :
    Fits w v (augmented w ls rs).types := by
  rcases hall with hall | hnone
  · have all : (ls.map fun l => inplace w l rs).all (·.1) = true := by
      rw [List.all_map, List.all_eq_true]
      intro t ht
      cases t with
      | any => rfl
      | cls a =>
        obtain ⟨d, hd⟩ := hall a ht
        obtain ⟨s, hs, _⟩ := finds_lookup hd
        simp [inplace, hs]
    obtain ⟨d, hd⟩ := hall l hl
    obtain ⟨s, hs, _⟩ := finds_lookup hd
    unfold augmented at hn ⊢
    simp only [all, if_true] at hn ⊢
    have hacc : acceptsAll w s rs = true := by
      rw [List.flatMap_eq_nil_iff] at hn
      have := hn _ (List.mem_map_of_mem hl)
      simp only [inplace, hs] at this
      split at this
      · assumption
      · cases this
    have ha : accepts w s r = true := List.all_eq_true.mp hacc _ hr
    have hrun : Operator.run w (lookup w l .iop) r = some s.ret := by
      rw [hs]
      simp [Operator.run, ha]
    cases he with
    | inplace hc =>
      obtain ⟨v', e, t, ht, hv⟩ := (calls_run hf hc).1 _ hrun
      cases e
      refine .inr ⟨t, List.mem_flatMap.mpr ⟨_, List.mem_map_of_mem hl, ?_⟩, hv⟩
      simp only [inplace, hs]
      exact List.mem_map_of_mem ht
    | normal hc _ =>
      obtain ⟨v', e, _⟩ := (calls_run hf hc).1 _ hrun
      cases e
  · have hlk : lookup w l .iop = none := by
      cases h : lookup w l .iop with
      | none => rfl
      | some p => exact absurd (lookup_some (d := p.1) (s := p.2) h).1 (hnone _)
    have notAll : (ls.map fun l => inplace w l rs).all (·.1) = false := by
      rw [List.all_map, List.all_eq_false]
      exact ⟨_, hl, by simp [inplace, hlk]⟩
    unfold augmented
    simp only [notAll]
    cases he with
    | inplace hc =>
      have := (calls_run hf hc).2 (by rw [hlk]; rfl)
      cases this
    | normal _ he => exact result_partial hf hl hr ho he

/-- If `x` may be `Any`, then so may be the new value of `x`. -/
theorem aug_any {ls rs : List Ty} (h : .any ∈ ls) (hr : rs ≠ []) :
    .any ∈ (augmented w ls rs).types := by
  unfold augmented
  dsimp only
  split
  · exact List.mem_flatMap.mpr ⟨_, List.mem_map_of_mem h, by simp [inplace]⟩
  · exact any_operand (List.ne_nil_of_mem h) hr (.inl h)

/-- If nothing is reported for `x op= y`, then there is no `TypeError`. -/
theorem aug_safe_partial (hf : Faithful w run) {ls rs : List Ty} {l r : Nat}
    (hl : .cls l ∈ ls) (hr : .cls r ∈ rs) (ha : .any ∉ rs) (hn : (augmented w ls rs).issues = []) :
    ¬ Augments w run l r .notImplemented := by
  intro he
  cases he with
  | normal hc he =>
    cases h : lookup w l .iop with
    | some p =>
      obtain ⟨d, s⟩ := p
      have hacc : acceptsAll w s rs = true := by
        have hi : ((ls.map fun l => inplace w l rs).flatMap fun r => r.2.issues) = [] := by
          unfold augmented at hn
          dsimp only at hn
          split at hn
          · exact hn
          · exact (List.append_eq_nil_iff.mp hn).1
        rw [List.flatMap_eq_nil_iff] at hi
        have := hi _ (List.mem_map_of_mem hl)
        simp only [inplace, h] at this
        split at this
        · assumption
        · cases this
      have ha : accepts w s r = true := List.all_eq_true.mp hacc _ hr
      obtain ⟨v, e, _⟩ := (calls_run hf hc).1 s.ret (by rw [h]; simp [Operator.run, ha])
      cases e
    | none =>
      have notAll : (ls.map fun l => inplace w l rs).all (·.1) = false := by
        rw [List.all_map, List.all_eq_false]
        exact ⟨_, hl, by simp [inplace, h]⟩
      unfold augmented at hn
      simp only [notAll] at hn
      have hop : (operation w true ls rs).issues = [] := (List.append_eq_nil_iff.mp hn).2
      rcases issue_reported_partial hf hl hr ha he with h' | h' <;> rw [hop] at h' <;>
        exact absurd h' List.not_mem_nil

namespace Sample

/-- 0: `int`, 1: `str`, 2: `class A` with `__iadd__(self, o: int) -> str` and `__add__(self, o: int) -> int`,
3: `class B` with `__add__(self, o: int) -> int`, 4: `class C` with `__iadd__(self, o: str) -> C` and
`__add__(self, o: int) -> C`. -/
def assigned : List Cls :=
  [⟨[], none, none, none⟩, ⟨[], none, none, none⟩,
   ⟨[], some ⟨[0], [0]⟩, none, some ⟨[0], [1]⟩⟩,
   ⟨[], some ⟨[0], [0]⟩, none, none⟩,
   ⟨[], some ⟨[0], [4]⟩, none, some ⟨[1], [4]⟩⟩]

theorem assigned_faithful : Faithful (program assigned) (obedient (program assigned)) :=
  program_faithful (by decide)

/-- `x += 1` with `x: A | Any`. -/
example : (augmented (program assigned) [.cls 2, .any] [.cls 0]).types = [.cls 1, .any] := by decide

/-- `A() += 1` is a `str`. -/
example : (augmented (program assigned) [.cls 2] [.cls 0]).types = [.cls 1] ∧
    (augmented (program assigned) [.cls 2] [.cls 0]).issues = [] ∧
    Augments (program assigned) (obedient (program assigned)) 2 0 (.value 1) :=
  ⟨by decide, by decide, .inplace (.found (d := 2) (finds_iff.mpr (by decide)))⟩

/-- `x += 1` with `x: A | B`, where `A` has an `__iadd__` that returns `str` and `B` has none: the checker uses
`__add__` for both and infers `int`, although the value is a `str` if `x` is an instance of `A`. -/
theorem aug_union_violation :
    Faithful (program assigned) (obedient (program assigned)) ∧
    (augmented (program assigned) [.cls 2, .cls 3] [.cls 0]).types = [.cls 0, .cls 0] ∧
    (augmented (program assigned) [.cls 2, .cls 3] [.cls 0]).issues = [] ∧
    Augments (program assigned) (obedient (program assigned)) 2 0 (.value 1) ∧
    ¬ Fits (program assigned) 1 [.cls 0, .cls 0] := by
  refine ⟨assigned_faithful, by decide, by decide,
    .inplace (.found (d := 2) (finds_iff.mpr (by decide))), ?_⟩
  rintro (h | ⟨t, h, h'⟩)
  · simp at h
  · simp only [List.mem_cons, Ty.cls.injEq, List.not_mem_nil, or_false, or_self] at h
    subst h
    exact absurd (sub_iff.mpr h') (by decide)

/-- `x += 1` with `x: C`, where `__iadd__` accepts only `str` and `__add__` accepts `int`: an error is reported,
although Python falls back to `__add__` and the value is a `C`. -/
theorem aug_fallback_violation :
    Faithful (program assigned) (obedient (program assigned)) ∧
    (augmented (program assigned) [.cls 4] [.cls 0]).issues = [.argument 4] ∧
    Augments (program assigned) (obedient (program assigned)) 4 0 (.value 4) := by
  refine ⟨assigned_faithful, by decide, .normal ?_ (evalB_evals (run := obedient (program assigned)) true 4 0)⟩
  exact callB_calls (w := program assigned) (run := obedient (program assigned)) 4 .iop 0

end Sample

end Verif.Operator
