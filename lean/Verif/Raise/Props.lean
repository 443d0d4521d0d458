import Verif.Raise.Spec

/-!
Properties of `raise` and `except`: C216 (what can be raised), C217 (what can be in `except`), C218
(the type of the caught exception), C219 (the type of the group caught by `except*`), C220 (what
can be raised can be caught).
-/
namespace Verif.Raise
open Spec

variable {k : Classes} {r : Run}

/-! ### Classes for the examples -/

namespace Example

/-- `BaseException` (0), `Exception` (1), `ValueError` (2), `KeyboardInterrupt` (3),
`BaseExceptionGroup` (4), `ExceptionGroup` (5), `int` (6), `str` (7), a class with an unknown
base (8). -/
def sub : Nat → Nat → Bool
  | a, 0 => a == 0 || a == 1 || a == 2 || a == 3 || a == 4 || a == 5 || a == 8
  | a, 1 => a == 1 || a == 2 || a == 5
  | a, 4 => a == 4 || a == 5
  | a, b => a == b

theorem sub_trans : ∀ {a b c : Nat}, sub a b = true → sub b c = true → sub a c = true := by
  intro a b c h1 h2
  unfold sub at h1 h2 ⊢
  split at h2
  · split at h1 <;> simp_all <;> omega
  · split at h1 <;> simp_all
  · split at h1 <;> simp_all
  · have : b = c := by simpa using h2
    subst this
    split at h1 <;> simp_all

def run : Run where
  sub a b := sub a b = true
  trans := sub_trans
  base := 0
  exception := 1
  group := 4
  rest _ _ := True

/-- The checker does not know the base of the class 8. -/
def classes : Classes where
  isBase c := sub c 0 && c != 8
  isException c := sub c 1
  isGroup c := sub c 4
  incomplete c := c == 8

/-- The same for a program without the class 8. -/
def run' : Run where
  sub a b := sub a b = true ∧ a ≠ 8
  trans h1 h2 := ⟨sub_trans h1.1 h2.1, h1.2⟩
  base := 0
  exception := 1
  group := 4
  rest _ _ := True

theorem knows : Knows classes run' where
  isBase c := by simp [classes, run']
  isException c := by
    simp only [classes, run']
    constructor
    · intro h
      refine ⟨h, ?_⟩
      rintro rfl
      exact absurd h (by decide)
    · exact fun h => h.1
  isGroup c := by
    simp only [classes, run']
    constructor
    · intro h
      refine ⟨h, ?_⟩
      rintro rfl
      exact absurd h (by decide)
    · exact fun h => h.1
  exceptionBase := by exact ⟨by decide, by decide⟩
  groupBase := by exact ⟨by decide, by decide⟩

end Example

/-! ### C216 -/

theorem canRaise_true {v : Val} (h : CanRaise r false v) : ∀ a, CanRaise r a v := by
  intro a
  cases v <;> simp_all [CanRaise]

theorem inst_of_check (hk : Knows k r) {c : Nat} (hi : k.incomplete c = false)
    (h : checkClass k c = true) {d : Nat} (hd : r.sub d c) : r.sub d r.base := by
  simp only [checkClass, hi, Bool.false_or] at h
  exact r.trans hd ((hk.isBase c).1 h)

mutual
/-- C216, the full claim is that every value of a type that is accepted in `raise` can be raised.
Missing: `Any` and unknown bases, for which nothing can be said, and class objects of anything but
a class (`raise_type_violation`). -/
theorem raise_partial (hk : Knows k r) (a : Bool) : ∀ (t : Ty), Precise k t →
    validRaise k a t = true → ∀ v, HasTy r v t → CanRaise r a v
  | .cls c, hp, h, v, hv => by
    obtain ⟨d, rfl, hd⟩ := hv
    exact inst_of_check hk hp h hd
  | .dataclass c, hp, h, v, hv => by
    obtain ⟨d, rfl, hd⟩ := hv
    exact inst_of_check hk hp h hd
  | .typeOf t, hp, h, v, hv => by
    obtain ⟨c, ht, hi⟩ := hp
    obtain ⟨d, rfl, hd⟩ := hv
    rcases ht with rfl | rfl
    · obtain ⟨d', he, hd'⟩ := hd
      injection he with he
      subst he
      exact inst_of_check hk hi h hd'
    · obtain ⟨d', he, hd'⟩ := hd
      injection he with he
      subst he
      exact inst_of_check hk hi h hd'
  | .any, hp, _, _, _ => by cases hp
  | .never, _, _, _, hv => by cases hv
  | .none, _, h, v, hv => by
    have hv' : v = .none := hv
    subst hv'
    exact h
  | .typeVarBound t, hp, h, v, hv => canRaise_true (raise_partial hk false t hp h v hv) a
  | .typeVarOther _, _, h, _, _ => by simp [validRaise] at h
  | .inter ts, hp, h, v, hv => raise_any hk a ts hp h v hv
  | .union ts, hp, h, v, hv => raise_all hk a ts hp h v hv
  | .tuple _, _, h, _, _ => by simp [validRaise] at h
  | .tupleOf _, _, h, _, _ => by simp [validRaise] at h
  | .tupleUnpack _ _ _, _, h, _, _ => by simp [validRaise] at h
  | .tupleVariadic _, _, h, _, _ => by simp [validRaise] at h
  | .other _, _, h, _, _ => by simp [validRaise] at h

theorem raise_any (hk : Knows k r) (a : Bool) : ∀ (ts : List Ty), AllPrecise k ts →
    validRaiseAny k a ts = true → ∀ v, HasAll r v ts → CanRaise r a v
  | [], _, h, _, _ => by simp [validRaiseAny] at h
  | t :: ts, hp, h, v, hv => by
    simp only [validRaiseAny, Bool.or_eq_true] at h
    rcases h with h | h
    · exact raise_partial hk a t hp.1 h v hv.1
    · exact raise_any hk a ts hp.2 h v hv.2

theorem raise_all (hk : Knows k r) (a : Bool) : ∀ (ts : List Ty), AllPrecise k ts →
    validRaiseAll k a ts = true → ∀ v, HasSome r v ts → CanRaise r a v
  | [], _, _, _, hv => by cases hv
  | t :: ts, hp, h, v, hv => by
    simp only [validRaiseAll, Bool.and_eq_true] at h
    rcases hv with hv | hv
    · exact raise_partial hk a t hp.1 h.1 v hv
    · exact raise_all hk a ts hp.2 h.2 v hv
end

/-- `raise x from y` with `x: ValueError | type[Exception]`, and `y: KeyboardInterrupt | None`. -/
example : validRaise Example.classes false (.union [.cls 2, .typeOf (.cls 1)]) = true ∧
    validRaise Example.classes true (.union [.cls 3, .none]) = true ∧
    validRaise Example.classes false (.union [.cls 3, .none]) = false := by decide +kernel

example : Precise Example.classes (.union [.cls 2, .typeOf (.cls 1)]) :=
  ⟨rfl, ⟨1, .inl rfl, rfl⟩, trivial⟩

/-- C216 is false: `def f(x: type[int | str]): raise x` is accepted, but raises a `TypeError`. Only
the class objects of a class are checked. -/
theorem raise_type_violation :
    validRaise Example.classes false (.typeOf (.union [.cls 6, .cls 7])) = true ∧
    HasTy Example.run' (.class 6) (.typeOf (.union [.cls 6, .cls 7])) ∧
    ¬ CanRaise Example.run' false (.class 6) := by
  refine ⟨by decide +kernel, ⟨6, rfl, .inl ⟨6, rfl, by decide, by decide⟩⟩, ?_⟩
  intro h
  exact absurd h.1 (by decide)

/-! ### C217 -/

theorem exceptOk_and {x y : ExceptType} (h : exceptOk (x.and y) = true) :
    exceptOk x = true ∧ exceptOk y = true := by
  cases x <;> cases y <;> revert h <;> decide

theorem class_of_except (hk : Knows k r) {c : Nat} (h : exceptOk (exceptClass k c) = true) :
    r.sub c r.base := by
  unfold exceptClass at h
  split at h
  · rename_i hg
    exact r.trans ((hk.isGroup c).1 hg) hk.groupBase
  · split at h
    · rename_i hb
      exact (hk.isBase c).1 hb
    · simp [exceptOk] at h

/-- A class, or a tuple of classes if that is allowed. -/
def Allowed (r : Run) (allowTuple : Bool) (v : Val) : Prop :=
  ExceptionClass r v ∨ allowTuple = true ∧ ∃ vs, v = .tuple vs ∧ ∀ x ∈ vs, ExceptionClass r x

theorem allowed_false {v : Val} (h : Allowed r false v) : ExceptionClass r v := by
  rcases h with h | ⟨h, _⟩
  · exact h
  · cases h

mutual
theorem except_allowed (hk : Knows k r) (a : Bool) : ∀ (t : Ty), NoAny t →
    exceptOk (exceptType k a t) = true → ∀ v, HasTy r v t → Allowed r a v
  | .typeOf t, _, h, v, hv => by
    obtain ⟨d, rfl, hd⟩ := hv
    cases t with
    | cls c =>
      obtain ⟨d', he, hd'⟩ := hd
      injection he with he
      subst he
      exact .inl ⟨_, rfl, r.trans hd' (class_of_except hk h)⟩
    | dataclass c =>
      obtain ⟨d', he, hd'⟩ := hd
      injection he with he
      subst he
      exact .inl ⟨_, rfl, r.trans hd' (class_of_except hk h)⟩
    | _ => simp [exceptType, exceptOk] at h
  | .any, hp, _, _, _ => by cases hp
  | .tuple ts, hp, h, v, hv => by
    cases a with
    | false => simp [exceptType, exceptOk] at h
    | true =>
      obtain ⟨vs, rfl, he⟩ := hv
      simp only [exceptType, if_true] at h
      exact .inr ⟨rfl, vs, rfl, except_each hk ts hp h vs he⟩
  | .tupleOf t, hp, h, v, hv => by
    cases a with
    | false => simp [exceptType, exceptOk] at h
    | true =>
      obtain ⟨vs, rfl, he⟩ := hv
      simp only [exceptType, if_true] at h
      exact .inr ⟨rfl, vs, rfl,
        fun x hx => allowed_false (except_allowed hk false t hp h x (he x hx))⟩
  | .tupleUnpack before t after, hp, h, v, hv => by
    cases a with
    | false => simp [exceptType, exceptOk] at h
    | true =>
      obtain ⟨xs, ys, zs, rfl, h1, h2, h3⟩ := hv
      simp only [exceptType, if_true] at h
      have ha := exceptOk_and h
      have hb := exceptOk_and ha.2
      refine .inr ⟨rfl, _, rfl, ?_⟩
      intro x hx
      rcases List.mem_append.1 hx with hx | hx
      · exact except_each hk before hp.1 ha.1 xs h1 x hx
      · rcases List.mem_append.1 hx with hx | hx
        · exact allowed_false (except_allowed hk false t hp.2.1 hb.2 x (h2 x hx))
        · exact except_each hk after hp.2.2 hb.1 zs h3 x hx
  | .union ts, hp, h, v, hv => except_some hk a ts hp h v hv
  | .cls _, _, h, _, _ => by simp [exceptType, exceptOk] at h
  | .dataclass _, _, h, _, _ => by simp [exceptType, exceptOk] at h
  | .never, _, h, _, _ => by simp [exceptType, exceptOk] at h
  | .none, _, h, _, _ => by simp [exceptType, exceptOk] at h
  | .typeVarBound _, _, h, _, _ => by simp [exceptType, exceptOk] at h
  | .typeVarOther _, _, h, _, _ => by simp [exceptType, exceptOk] at h
  | .inter _, _, h, _, _ => by simp [exceptType, exceptOk] at h
  | .tupleVariadic _, _, h, _, _ => by simp [exceptType, exceptOk] at h
  | .other _, _, h, _, _ => by simp [exceptType, exceptOk] at h

theorem except_some (hk : Knows k r) (a : Bool) : ∀ (ts : List Ty), AllNoAny ts →
    exceptOk (exceptTypes k a ts) = true → ∀ v, HasSome r v ts → Allowed r a v
  | [], _, _, _, hv => by cases hv
  | t :: ts, hp, h, v, hv => by
    simp only [exceptTypes] at h
    have ha := exceptOk_and h
    rcases hv with hv | hv
    · exact except_allowed hk a t hp.1 ha.1 v hv
    · exact except_some hk a ts hp.2 ha.2 v hv

theorem except_each (hk : Knows k r) : ∀ (ts : List Ty), AllNoAny ts →
    exceptOk (exceptTypes k false ts) = true → ∀ vs, HasEach r vs ts →
    ∀ x ∈ vs, ExceptionClass r x
  | [], _, _, vs, hv, x, hx => by
    have hv' : vs = [] := hv
    subst hv'
    cases hx
  | t :: ts, hp, h, vs, hv, x, hx => by
    obtain ⟨v, rest, rfl, h1, h2⟩ := hv
    simp only [exceptTypes] at h
    have ha := exceptOk_and h
    rcases List.mem_cons.1 hx with hx | hx
    · subst hx
      exact allowed_false (except_allowed hk false t hp.1 ha.1 _ h1)
    · exact except_each hk ts hp.2 ha.2 rest h2 x hx
end

/-- C217 for one expression: if there is no error, then Python accepts the value. -/
theorem except_one (hk : Knows k r) (t : Ty) (hp : NoAny t)
    (h : exceptOk (exceptExpressions k [t]) = true) (v : Val) (hv : HasTy r v t) :
    CanExcept r v := by
  unfold exceptExpressions at h
  simp only [exceptTypes] at h
  rcases except_allowed hk true t hp (exceptOk_and h).1 v hv with h | ⟨_, h⟩
  · exact .inl h
  · exact .inr h

/-- C217 for several expressions, `except a, b:`. The full claim is that if there is no error, then
Python accepts the tuple of the values. Missing: expressions that are tuples themselves
(`except_nested_violation`). -/
theorem except_several_partial (hk : Knows k r) (ts : List Ty) (hp : AllNoAny ts)
    (h : exceptOk (exceptTypes k false ts) = true) (vs : List Val) (hv : HasEach r vs ts) :
    CanExcept r (.tuple vs) := .inr ⟨vs, rfl, except_each hk ts hp h vs hv⟩

/-- Without tuples it makes no difference whether they are allowed, so the partial theorem is about
the check of the code. -/
theorem several_without_tuples (ts : List Ty) (h : ∀ t ∈ ts, ∃ c, t = .typeOf (.cls c)) :
    exceptExpressions k ts = exceptTypes k false ts := by
  unfold exceptExpressions
  induction ts with
  | nil => rfl
  | cons t ts ih =>
    obtain ⟨c, rfl⟩ := h t List.mem_cons_self
    simp only [exceptTypes]
    rw [ih (fun t ht => h t (List.mem_cons_of_mem _ ht))]
    rfl

/-- C217 is false: `except (ValueError, KeyboardInterrupt), Exception:` is accepted, but Python
raises a `TypeError` for it, because of the tuple in the tuple. -/
theorem except_nested_violation :
    exceptOk (exceptExpressions Example.classes
      [.tuple [.typeOf (.cls 2), .typeOf (.cls 3)], .typeOf (.cls 1)]) = true ∧
    HasEach Example.run' [.tuple [.class 2, .class 3], .class 1]
      [.tuple [.typeOf (.cls 2), .typeOf (.cls 3)], .typeOf (.cls 1)] ∧
    ¬ CanExcept Example.run' (.tuple [.tuple [.class 2, .class 3], .class 1]) := by
  have has : ∀ c, Example.run'.sub c c → HasTy Example.run' (.class c) (.typeOf (.cls c)) :=
    fun c h => ⟨c, rfl, c, rfl, h⟩
  refine ⟨by decide +kernel, ?_, ?_⟩
  · refine ⟨_, _, rfl, ⟨_, rfl, ?_⟩, ?_⟩
    · exact ⟨_, _, rfl, has 2 ⟨by decide, by decide⟩, _, _, rfl, has 3 ⟨by decide, by decide⟩, rfl⟩
    · exact ⟨_, _, rfl, has 1 ⟨by decide, by decide⟩, rfl⟩
  · rintro (⟨c, h, _⟩ | ⟨vs, h, hall⟩)
    · cases h
    · injection h with h
      subst h
      obtain ⟨c, hc, _⟩ := hall _ List.mem_cons_self
      cases hc

example : exceptOk (exceptExpressions Example.classes [.tuple [.typeOf (.cls 2), .typeOf (.cls 3)]]) =
    true ∧ exceptOk (exceptExpressions Example.classes [.typeOf (.cls 6)]) = false := by
  decide +kernel

/-! ### C218 -/

theorem hasSome_iff {v : Val} {ts : List Ty} : HasSome r v ts ↔ ∃ t ∈ ts, HasTy r v t := by
  induction ts with
  | nil => simp [HasSome]
  | cons t ts ih => simp [HasSome, ih]

theorem has_gather {v : Val} {ts : List Ty} (h : HasSome r v ts) : HasTy r v (gather ts) := by
  obtain ⟨t, ht, hv⟩ := hasSome_iff.1 h
  have hf : t ∈ ts.filter notNever := by
    refine List.mem_filter.2 ⟨ht, ?_⟩
    cases t <;> first | rfl | (exact absurd hv (by simp [HasTy]))
  unfold gather
  revert hf
  generalize ts.filter notNever = l
  intro hf
  match l, hf with
  | [], hf => cases hf
  | [x], hf =>
    rw [List.mem_singleton] at hf
    subst hf
    exact hv
  | x :: y :: l, hf => exact hasSome_iff.2 ⟨t, hf, hv⟩

theorem mem_instantiates {t : Ty} {ts : List Ty} (h : t ∈ ts) : instantiate t ∈ instantiates ts := by
  induction ts with
  | nil => cases h
  | cons x ts ih =>
    simp only [instantiates]
    rcases List.mem_cons.1 h with rfl | h
    · exact List.mem_cons_self
    · exact List.mem_cons_of_mem _ (ih h)

theorem hasEach_mem : ∀ {ts : List Ty} {vs : List Val}, HasEach r vs ts → ∀ x ∈ vs,
    ∃ t ∈ ts, HasTy r x t
  | [], vs, h, x, hx => by
    have h' : vs = [] := h
    subst h'
    cases hx
  | t :: ts, vs, h, x, hx => by
    obtain ⟨v, rest, rfl, h1, h2⟩ := h
    rcases List.mem_cons.1 hx with hx | hx
    · subst hx
      exact ⟨t, List.mem_cons_self, h1⟩
    · obtain ⟨t', ht', hv⟩ := hasEach_mem h2 x hx
      exact ⟨t', List.mem_cons_of_mem _ ht', hv⟩

mutual
/-- A class in a type gives its instances. -/
theorem inst_of_class : ∀ (t : Ty) (c d : Nat), HasTy r (.class c) t → r.sub d c →
    HasTy r (.inst d) (instantiate t)
  | .typeOf t, c, d, h, hs => by
    obtain ⟨c', he, hc⟩ := h
    injection he with he
    subst he
    cases t with
    | cls x =>
      obtain ⟨y, he, hy⟩ := hc
      injection he with he
      subst he
      exact ⟨d, rfl, r.trans hs hy⟩
    | _ => exact trivial
  | .union ts, c, d, h, hs => by
    show HasTy r (.inst d) (.union (instantiates ts))
    exact inst_of_some ts c d h hs
  | .tuple _, _, _, h, _ => by obtain ⟨_, he, _⟩ := h; cases he
  | .tupleOf _, _, _, h, _ => by obtain ⟨_, he, _⟩ := h; cases he
  | .tupleUnpack _ _ _, _, _, h, _ => by obtain ⟨_, _, _, he, _⟩ := h; cases he
  | .tupleVariadic _, _, _, h, _ => by obtain ⟨_, he⟩ := h; cases he
  | .any, _, _, _, _ => trivial
  | .cls _, _, _, _, _ => trivial
  | .dataclass _, _, _, _, _ => trivial
  | .never, _, _, _, _ => trivial
  | .none, _, _, _, _ => trivial
  | .typeVarBound _, _, _, _, _ => trivial
  | .typeVarOther _, _, _, _, _ => trivial
  | .inter _, _, _, _, _ => trivial
  | .other _, _, _, _, _ => trivial

theorem inst_of_some : ∀ (ts : List Ty) (c d : Nat), HasSome r (.class c) ts → r.sub d c →
    HasSome r (.inst d) (instantiates ts)
  | [], _, _, h, _ => by cases h
  | t :: ts, c, d, h, hs => by
    rcases h with h | h
    · exact .inl (inst_of_class t c d h hs)
    · exact .inr (inst_of_some ts c d h hs)
end

mutual
/-- C218: an exception that is caught has the type that the name after `as` gets, for every type of
the expression after `except`, whether it is accepted or not. -/
theorem caught_has_type : ∀ (t : Ty) (v : Val) (d : Nat), HasTy r v t → Catches r v d →
    HasTy r (.inst d) (instantiate t)
  | .typeOf t, v, d, h, hc => by
    rcases hc with ⟨c, rfl, hs⟩ | ⟨vs, c, rfl, _, _⟩
    · exact inst_of_class (.typeOf t) c d h hs
    · obtain ⟨_, he, _⟩ := h
      cases he
  | .union ts, v, d, h, hc => by
    show HasTy r (.inst d) (.union (instantiates ts))
    exact caught_some ts v d h hc
  | .tuple ts, v, d, h, hc => by
    obtain ⟨vs, rfl, he⟩ := h
    rcases hc with ⟨c, h, _⟩ | ⟨vs', c, h, hm, hs⟩
    · cases h
    · injection h with h
      subst h
      obtain ⟨t, ht, hv⟩ := hasEach_mem he _ hm
      exact has_gather (hasSome_iff.2 ⟨_, mem_instantiates ht, inst_of_class t c d hv hs⟩)
  | .tupleOf t, v, d, h, hc => by
    obtain ⟨vs, rfl, he⟩ := h
    rcases hc with ⟨c, h, _⟩ | ⟨vs', c, h, hm, hs⟩
    · cases h
    · injection h with h
      subst h
      exact has_gather (hasSome_iff.2
        ⟨_, List.mem_singleton.2 rfl, inst_of_class t c d (he _ hm) hs⟩)
  | .tupleUnpack before t after, v, d, h, hc => by
    obtain ⟨xs, ys, zs, rfl, h1, h2, h3⟩ := h
    rcases hc with ⟨c, h, _⟩ | ⟨vs', c, h, hm, hs⟩
    · cases h
    · injection h with h
      subst h
      refine has_gather (hasSome_iff.2 ?_)
      rcases List.mem_append.1 hm with hm | hm
      · obtain ⟨t', ht', hv⟩ := hasEach_mem h1 _ hm
        exact ⟨_, List.mem_append_left _ (mem_instantiates ht'), inst_of_class t' c d hv hs⟩
      · rcases List.mem_append.1 hm with hm | hm
        · exact ⟨_, List.mem_append_right _ List.mem_cons_self, inst_of_class t c d (h2 _ hm) hs⟩
        · obtain ⟨t', ht', hv⟩ := hasEach_mem h3 _ hm
          exact ⟨_, List.mem_append_right _ (List.mem_cons_of_mem _ (mem_instantiates ht')),
            inst_of_class t' c d hv hs⟩
  | .tupleVariadic _, _, _, _, _ => trivial
  | .any, _, _, _, _ => trivial
  | .cls _, _, _, _, _ => trivial
  | .dataclass _, _, _, _, _ => trivial
  | .never, _, _, _, _ => trivial
  | .none, _, _, _, _ => trivial
  | .typeVarBound _, _, _, _, _ => trivial
  | .typeVarOther _, _, _, _, _ => trivial
  | .inter _, _, _, _, _ => trivial
  | .other _, _, _, _, _ => trivial

theorem caught_some : ∀ (ts : List Ty) (v : Val) (d : Nat), HasSome r v ts → Catches r v d →
    HasSome r (.inst d) (instantiates ts)
  | [], _, _, h, _ => by cases h
  | t :: ts, v, d, h, hc => by
    rcases h with h | h
    · exact .inl (caught_has_type t v d h hc)
    · exact .inr (caught_some ts v d h hc)
end

/-- The name is not just anything: for classes it is exactly the instances of them. -/
theorem caught_exact (cs : List Nat) (h : cs ≠ []) (v : Val) :
    HasTy r v (instantiate (.tuple (cs.map fun c => .typeOf (.cls c)))) ↔
      ∃ c ∈ cs, ∃ d, v = .inst d ∧ r.sub d c := by
  have hin : ∀ cs : List Nat, instantiates (cs.map fun c => Ty.typeOf (.cls c)) =
      cs.map fun c => Ty.cls c := by
    intro cs
    induction cs with
    | nil => rfl
    | cons c cs ih => simp only [List.map_cons, instantiates, ih]; rfl
  have hfil : ∀ cs : List Nat, (cs.map fun c => Ty.cls c).filter notNever = cs.map fun c => Ty.cls c := by
    intro cs
    induction cs with
    | nil => rfl
    | cons c cs ih => simp [notNever, ih]
  show HasTy r v (gather (instantiates (cs.map fun c => Ty.typeOf (.cls c)))) ↔ _
  rw [hin]
  unfold gather
  rw [hfil]
  match cs, h with
  | [], h => exact absurd rfl h
  | [c], _ => simp [HasTy]
  | a :: b :: cs, _ =>
    show HasSome r v ((a :: b :: cs).map fun c => Ty.cls c) ↔ _
    rw [hasSome_iff]
    simp only [List.mem_map]
    constructor
    · rintro ⟨t, ⟨c, hc, rfl⟩, d, rfl, hd⟩
      exact ⟨c, hc, d, rfl, hd⟩
    · rintro ⟨c, hc, d, rfl, hd⟩
      exact ⟨_, ⟨c, hc, rfl⟩, d, rfl, hd⟩

example : Catches Example.run' (.tuple [.class 2, .class 3]) 3 :=
  .inr ⟨_, 3, rfl, List.mem_cons_of_mem _ List.mem_cons_self, by decide, by decide⟩

/-! ### C219 -/

mutual
/-- What `gather_except_star` gives has only classes, `Any`, `Never` and unions of them. -/
theorem hasBase_defined : ∀ (t : Ty), ∃ b, hasBase k (gatherStar k t) = some b
  | .typeOf t => by
    cases t with
    | cls c =>
      simp only [gatherStar]
      split
      · exact ⟨_, rfl⟩
      · split <;> exact ⟨_, rfl⟩
    | _ => exact ⟨_, rfl⟩
  | .tuple ts => hasBase_gather (hasBases_defined ts)
  | .tupleOf t => by
    obtain ⟨b, hb⟩ := hasBase_defined t
    refine hasBase_gather ⟨b || false, ?_⟩
    simp only [hasBases, hb]
  | .union ts => hasBases_defined ts
  | .tupleUnpack _ _ _ => ⟨_, rfl⟩
  | .tupleVariadic _ => ⟨_, rfl⟩
  | .any => ⟨_, rfl⟩
  | .cls _ => ⟨_, rfl⟩
  | .dataclass _ => ⟨_, rfl⟩
  | .never => ⟨_, rfl⟩
  | .none => ⟨_, rfl⟩
  | .typeVarBound _ => ⟨_, rfl⟩
  | .typeVarOther _ => ⟨_, rfl⟩
  | .inter _ => ⟨_, rfl⟩
  | .other _ => ⟨_, rfl⟩

theorem hasBases_defined : ∀ (ts : List Ty), ∃ b, hasBases k (gatherStars k ts) = some b
  | [] => ⟨_, rfl⟩
  | t :: ts => by
    obtain ⟨a, ha⟩ := hasBase_defined t
    obtain ⟨b, hb⟩ := hasBases_defined ts
    refine ⟨a || b, ?_⟩
    simp only [gatherStars, hasBases, ha, hb]

theorem hasBase_gather {ts : List Ty} (h : ∃ b, hasBases k ts = some b) :
    ∃ b, hasBase k (gather ts) = some b := by
  have hmem : ∀ t ∈ ts, ∃ b, hasBase k t = some b := by
    obtain ⟨b, hb⟩ := h
    revert b
    induction ts with
    | nil => intro _ _ t ht; cases ht
    | cons x ts ih =>
      intro b hb t ht
      simp only [hasBases] at hb
      split at hb
      · rename_i a' b' ha' hb'
        rcases List.mem_cons.1 ht with rfl | ht
        · exact ⟨_, ha'⟩
        · exact ih b' hb' t ht
      · cases hb
  have hall : ∀ l : List Ty, (∀ t ∈ l, ∃ b, hasBase k t = some b) → ∃ b, hasBases k l = some b := by
    intro l
    induction l with
    | nil => intro _; exact ⟨_, rfl⟩
    | cons x l ih =>
      intro hl
      obtain ⟨a, ha⟩ := hl x List.mem_cons_self
      obtain ⟨b, hb⟩ := ih (fun t ht => hl t (List.mem_cons_of_mem _ ht))
      exact ⟨a || b, by simp only [hasBases, ha, hb]⟩
  have hf : ∀ t ∈ ts.filter notNever, ∃ b, hasBase k t = some b :=
    fun t ht => hmem t (List.mem_filter.1 ht).1
  unfold gather
  revert hf
  generalize ts.filter notNever = l
  intro hf
  match l, hf with
  | [], _ => exact ⟨_, rfl⟩
  | [x], hf => exact hf x List.mem_cons_self
  | x :: y :: l, hf => exact hall _ hf
end

/-- C219: the recoverable error in `has_base_exception` does not occur. -/
theorem star_defined (t : Ty) : ∃ g, instantiateStar k t = some g := by
  obtain ⟨b, hb⟩ := hasBase_defined (k := k) t
  exact ⟨(b, gatherStar k t), by simp [instantiateStar, hb]⟩

mutual
/-- A type of which only the instances of classes are known to be exceptions has only
`Exception`s, if there is no `Any` in it. -/
theorem not_base (hk : Knows k r) : ∀ (t : Ty), NoAny t → hasBase k t = some false → ∀ d,
    HasTy r (.inst d) t → r.sub d r.exception
  | .cls c, _, h, d, hd => by
    obtain ⟨d', he, hs⟩ := hd
    injection he with he
    subst he
    simp only [hasBase, Option.some.injEq, Bool.not_eq_false'] at h
    exact r.trans hs ((hk.isException c).1 h)
  | .union ts, hp, h, d, hd => not_bases hk ts hp h d hd
  | .any, hp, _, _, _ => by cases hp
  | .never, _, _, _, hd => by cases hd
  | .dataclass _, _, h, _, _ => by simp [hasBase] at h
  | .typeOf _, _, h, _, _ => by simp [hasBase] at h
  | .none, _, h, _, _ => by simp [hasBase] at h
  | .typeVarBound _, _, h, _, _ => by simp [hasBase] at h
  | .typeVarOther _, _, h, _, _ => by simp [hasBase] at h
  | .inter _, _, h, _, _ => by simp [hasBase] at h
  | .tuple _, _, h, _, _ => by simp [hasBase] at h
  | .tupleOf _, _, h, _, _ => by simp [hasBase] at h
  | .tupleUnpack _ _ _, _, h, _, _ => by simp [hasBase] at h
  | .tupleVariadic _, _, h, _, _ => by simp [hasBase] at h
  | .other _, _, h, _, _ => by simp [hasBase] at h

theorem not_bases (hk : Knows k r) : ∀ (ts : List Ty), AllNoAny ts → hasBases k ts = some false →
    ∀ d, HasSome r (.inst d) ts → r.sub d r.exception
  | [], _, _, _, hd => by cases hd
  | t :: ts, hp, h, d, hd => by
    simp only [hasBases] at h
    split at h
    · rename_i a b ha hb
      injection h with h
      rw [Bool.or_eq_false_iff] at h
      rcases hd with hd | hd
      · exact not_base hk t hp.1 (by rw [ha, h.1]) d hd
      · exact not_bases hk ts hp.2 (by rw [hb, h.2]) d hd
    · cases h
end

theorem mem_gatherStars {t : Ty} {ts : List Ty} (h : t ∈ ts) :
    gatherStar k t ∈ gatherStars k ts := by
  induction ts with
  | nil => cases h
  | cons x ts ih =>
    simp only [gatherStars]
    rcases List.mem_cons.1 h with rfl | h
    · exact List.mem_cons_self
    · exact List.mem_cons_of_mem _ (ih h)

mutual
theorem star_of_class : ∀ (t : Ty) (c d : Nat), HasTy r (.class c) t → r.sub d c →
    HasTy r (.inst d) (gatherStar k t)
  | .typeOf t, c, d, h, hs => by
    obtain ⟨c', he, hc⟩ := h
    injection he with he
    subst he
    cases t with
    | cls x =>
      obtain ⟨y, he, hy⟩ := hc
      injection he with he
      subst he
      simp only [gatherStar]
      split
      · exact trivial
      · split
        · exact ⟨d, rfl, r.trans hs hy⟩
        · exact trivial
    | _ => exact trivial
  | .union ts, c, d, h, hs => by
    show HasTy r (.inst d) (.union (gatherStars k ts))
    exact star_of_some ts c d h hs
  | .tuple _, _, _, h, _ => by obtain ⟨_, he, _⟩ := h; cases he
  | .tupleOf _, _, _, h, _ => by obtain ⟨_, he, _⟩ := h; cases he
  | .tupleUnpack _ _ _, _, _, h, _ => by obtain ⟨_, _, _, he, _⟩ := h; cases he
  | .tupleVariadic _, _, _, h, _ => by obtain ⟨_, he⟩ := h; cases he
  | .any, _, _, _, _ => trivial
  | .cls _, _, _, _, _ => trivial
  | .dataclass _, _, _, _, _ => trivial
  | .never, _, _, _, _ => trivial
  | .none, _, _, _, _ => trivial
  | .typeVarBound _, _, _, _, _ => trivial
  | .typeVarOther _, _, _, _, _ => trivial
  | .inter _, _, _, _, _ => trivial
  | .other _, _, _, _, _ => trivial

theorem star_of_some : ∀ (ts : List Ty) (c d : Nat), HasSome r (.class c) ts → r.sub d c →
    HasSome r (.inst d) (gatherStars k ts)
  | [], _, _, h, _ => by cases h
  | t :: ts, c, d, h, hs => by
    rcases h with h | h
    · exact .inl (star_of_class t c d h hs)
    · exact .inr (star_of_some ts c d h hs)
end

mutual
theorem star_member : ∀ (t : Ty) (v : Val) (d : Nat), HasTy r v t → Catches r v d →
    HasTy r (.inst d) (gatherStar k t)
  | .typeOf t, v, d, h, hc => by
    rcases hc with ⟨c, rfl, hs⟩ | ⟨vs, c, rfl, _, _⟩
    · exact star_of_class (.typeOf t) c d h hs
    · obtain ⟨_, he, _⟩ := h
      cases he
  | .union ts, v, d, h, hc => by
    show HasTy r (.inst d) (.union (gatherStars k ts))
    exact star_members ts v d h hc
  | .tuple ts, v, d, h, hc => by
    obtain ⟨vs, rfl, he⟩ := h
    rcases hc with ⟨c, h, _⟩ | ⟨vs', c, h, hm, hs⟩
    · cases h
    · injection h with h
      subst h
      obtain ⟨t, ht, hv⟩ := hasEach_mem he _ hm
      exact has_gather (hasSome_iff.2 ⟨_, mem_gatherStars ht, star_of_class t c d hv hs⟩)
  | .tupleOf t, v, d, h, hc => by
    obtain ⟨vs, rfl, he⟩ := h
    rcases hc with ⟨c, h, _⟩ | ⟨vs', c, h, hm, hs⟩
    · cases h
    · injection h with h
      subst h
      exact has_gather (hasSome_iff.2
        ⟨_, List.mem_singleton.2 rfl, star_of_class t c d (he _ hm) hs⟩)
  | .tupleUnpack _ _ _, _, _, _, _ => trivial
  | .tupleVariadic _, _, _, _, _ => trivial
  | .any, _, _, _, _ => trivial
  | .cls _, _, _, _, _ => trivial
  | .dataclass _, _, _, _, _ => trivial
  | .never, _, _, _, _ => trivial
  | .none, _, _, _, _ => trivial
  | .typeVarBound _, _, _, _, _ => trivial
  | .typeVarOther _, _, _, _, _ => trivial
  | .inter _, _, _, _, _ => trivial
  | .other _, _, _, _, _ => trivial

theorem star_members : ∀ (ts : List Ty) (v : Val) (d : Nat), HasSome r v ts → Catches r v d →
    HasSome r (.inst d) (gatherStars k ts)
  | [], _, _, h, _ => by cases h
  | t :: ts, v, d, h, hc => by
    rcases h with h | h
    · exact .inl (star_member t v d h hc)
    · exact .inr (star_members ts v d h hc)
end

/-- C219, the full claim is that every exception in the group has the type of the items and, if the
group is an `ExceptionGroup`, is an `Exception`; otherwise the group is a `BaseExceptionGroup`, as
Python makes an `ExceptionGroup` only if all exceptions are `Exception`s. Missing: the second part
if the type of the items has `Any` (`star_dataclass_violation`). -/
theorem star_partial (hk : Knows k r) (t : Ty) (isBase : Bool) (item : Ty)
    (h : instantiateStar k t = some (isBase, item)) (v : Val) (hv : HasTy r v t) (d : Nat)
    (hc : Catches r v d) :
    HasTy r (.inst d) item ∧ (NoAny item → isBase = false → r.sub d r.exception) := by
  have hi : item = gatherStar k t ∧ hasBase k (gatherStar k t) = some isBase := by
    unfold instantiateStar at h
    cases hb : hasBase k (gatherStar k t) with
    | none => rw [hb] at h; cases h
    | some b =>
      rw [hb] at h
      injection h with h
      injection h with h1 h2
      exact ⟨h2.symm, by rw [h1]⟩
  obtain ⟨rfl, hb⟩ := hi
  have hm := star_member (k := k) t v d hv hc
  refine ⟨hm, ?_⟩
  rintro hn rfl
  exact not_base hk _ hn hb d hm

/-- `except* (ValueError, KeyboardInterrupt) as e`, and with `ValueError` alone. -/
example : (instantiateStar Example.classes (.tuple [.typeOf (.cls 2), .typeOf (.cls 3)])).map (·.1) =
    some true ∧ (instantiateStar Example.classes (.typeOf (.cls 2))).map (·.1) = some false := by
  decide +kernel

/-- C219 is false: for `except* E as e`, where `E` is a data class with the base `BaseException`,
the type of `e` is an `ExceptionGroup`, but the group has an exception that is no `Exception`, so
that it is a `BaseExceptionGroup`. The class of data classes is not looked at, and `Any` counts as
an `Exception`. -/
theorem star_dataclass_violation :
    exceptStarOk (exceptExpressions Example.classes [.typeOf (.dataclass 3)]) = true ∧
    (instantiateStar Example.classes (.typeOf (.dataclass 3))).map (·.1) = some false ∧
    HasTy Example.run' (.class 3) (.typeOf (.dataclass 3)) ∧
    Catches Example.run' (.class 3) 3 ∧ ¬ Example.run'.sub 3 Example.run'.exception := by
  refine ⟨by decide +kernel, by decide +kernel, ⟨3, rfl, 3, rfl, by decide, by decide⟩,
    .inl ⟨3, rfl, by decide, by decide⟩, ?_⟩
  rintro ⟨h, _⟩
  exact absurd h (by decide)

theorem starOk_and {x y : ExceptType} (h : exceptStarOk (x.and y) = true) :
    exceptStarOk x = true ∧ exceptStarOk y = true := by
  cases x <;> cases y <;> revert h <;> decide

theorem class_of_star (hk : Knows k r) {c : Nat} (h : exceptStarOk (exceptClass k c) = true) :
    r.sub c r.base ∧ ¬ r.sub c r.group := by
  unfold exceptClass at h
  split at h
  · simp [exceptStarOk] at h
  · rename_i hg
    split at h
    · rename_i hb
      exact ⟨(hk.isBase c).1 hb, fun hx => hg ((hk.isGroup c).2 hx)⟩
    · simp [exceptStarOk] at h

mutual
theorem star_names (hk : Knows k r) (a : Bool) : ∀ (t : Ty), exceptStarOk (exceptType k a t) = true →
    ∀ c, Names c t → r.sub c r.base ∧ ¬ r.sub c r.group
  | .typeOf t, h, c, hc => by
    rcases hc with rfl | rfl
    · exact class_of_star hk h
    · exact class_of_star hk h
  | .tuple ts, h, c, hc => by
    cases a with
    | false => simp [exceptType, exceptStarOk] at h
    | true =>
      simp only [exceptType, if_true] at h
      exact star_some_names hk false ts h c hc
  | .tupleOf t, h, c, hc => by
    cases a with
    | false => simp [exceptType, exceptStarOk] at h
    | true =>
      simp only [exceptType, if_true] at h
      exact star_names hk false t h c hc
  | .tupleUnpack before t after, h, c, hc => by
    cases a with
    | false => simp [exceptType, exceptStarOk] at h
    | true =>
      simp only [exceptType, if_true] at h
      have ha := starOk_and h
      have hb := starOk_and ha.2
      rcases hc with hc | hc | hc
      · exact star_some_names hk false before ha.1 c hc
      · exact star_names hk false t hb.2 c hc
      · exact star_some_names hk false after hb.1 c hc
  | .union ts, h, c, hc => star_some_names hk a ts h c hc
  | .any, _, _, hc => by cases hc
  | .cls _, _, _, hc => by cases hc
  | .dataclass _, _, _, hc => by cases hc
  | .never, _, _, hc => by cases hc
  | .none, _, _, hc => by cases hc
  | .typeVarBound _, _, _, hc => by cases hc
  | .typeVarOther _, _, _, hc => by cases hc
  | .inter _, _, _, hc => by cases hc
  | .tupleVariadic _, _, _, hc => by cases hc
  | .other _, _, _, hc => by cases hc

theorem star_some_names (hk : Knows k r) (a : Bool) : ∀ (ts : List Ty),
    exceptStarOk (exceptTypes k a ts) = true → ∀ c, SomeNames c ts → r.sub c r.base ∧ ¬ r.sub c r.group
  | [], _, _, hc => by cases hc
  | t :: ts, h, c, hc => by
    simp only [exceptTypes] at h
    have ha := starOk_and h
    rcases hc with hc | hc
    · exact star_names hk a t ha.1 c hc
    · exact star_some_names hk a ts ha.2 c hc
end

/-- C219, groups: if there is no error for the expressions after `except*`, then every class they name is a class of
exceptions and none is a class of groups, for which Python raises a `TypeError`. -/
theorem star_no_group (hk : Knows k r) (ts : List Ty) (h : exceptStarOk (exceptExpressions k ts) = true) (c : Nat)
    (hc : SomeNames c ts) : r.sub c r.base ∧ ¬ r.sub c r.group :=
  star_some_names hk true ts h c hc

example : exceptStarOk (exceptExpressions Example.classes [.tuple [.typeOf (.cls 2), .typeOf (.cls 3)]]) = true ∧
    SomeNames 3 [.tuple [.typeOf (.cls 2), .typeOf (.cls 3)]] :=
  ⟨by decide +kernel, .inl (.inr (.inl (.inl rfl)))⟩

/-- C219: no group of exceptions may be after `except*`. It is false that this is excluded: with
`x: type[Exception]`, `except* x` is accepted, but `x` can be `ExceptionGroup`. -/
theorem star_group_violation :
    exceptStarOk (exceptExpressions Example.classes [.typeOf (.cls 1)]) = true ∧
    HasTy Example.run' (.class 5) (.typeOf (.cls 1)) ∧
    Example.run'.sub 5 Example.run'.group := by
  exact ⟨by decide +kernel, ⟨5, rfl, 5, rfl, by decide, by decide⟩, by decide, by decide⟩

/-! ### C220 -/

/-- C220, the full claim is that if objects of a class can be raised, then the class is accepted
after `except`. Missing: classes with unknown bases (`catch_violation`). -/
theorem catch_raised_partial (c : Nat) (hi : k.incomplete c = false)
    (h : validRaise k false (.cls c) = true) :
    exceptOk (exceptExpressions k [.typeOf (.cls c)]) = true := by
  simp only [validRaise, checkClass, hi, Bool.false_or] at h
  simp only [exceptExpressions, exceptTypes, exceptType, exceptClass, h]
  split <;> rfl

example : validRaise Example.classes false (.cls 2) = true ∧ Example.classes.incomplete 2 = false := by
  decide +kernel

/-- C220 is false: an object of a class with an unknown base can be raised, but the class in
`except` is an error. -/
theorem catch_violation : validRaise Example.classes false (.cls 8) = true ∧
    exceptOk (exceptExpressions Example.classes [.typeOf (.cls 8)]) = false ∧
    CanExcept Example.run (.class 8) := by
  refine ⟨by decide +kernel, by decide +kernel, .inl ⟨8, rfl, ?_⟩⟩
  show Example.sub 8 0 = true
  decide

/-- What is not an exception is rejected by both, if its bases are known. -/
theorem reject (c : Nat) (hi : k.incomplete c = false) (hb : k.isBase c = false)
    (hg : k.isGroup c = false) (a : Bool) :
    validRaise k a (.cls c) = false ∧ validRaise k a (.typeOf (.cls c)) = false ∧
    exceptOk (exceptExpressions k [.typeOf (.cls c)]) = false := by
  refine ⟨?_, ?_, ?_⟩
  · simp [validRaise, checkClass, hi, hb]
  · simp [validRaise, checkClass, hi, hb]
  · simp [exceptExpressions, exceptTypes, exceptType, exceptClass, hg, hb, ExceptType.and, exceptOk]

end Verif.Raise
