import Verif.Split.Props
import Mathlib.Data.List.Dedup
import Mathlib.Data.Fintype.Defs

/-!
# Narrowing by `isinstance` in a small world

The conditions of the theorems are met by a concrete world, and where they are not met
the properties fail.
-/

namespace Verif.Split.Instance

/-- The types: `A` is a class with the base class `S`, `B` is another class, `both` is the
intersection of `B` and `S`, `var` is a type variable that stands for `str`, and `varInt` is
the intersection of it with `int`. -/
inductive Atom where
  | object | int | bool | float | complex | exactFloat | exactComplex | str
  | s | a | b | both | any | var | varInt | typeAB | typeA | typeB
  deriving DecidableEq

instance : Fintype Atom :=
  ⟨⟨([.object, .int, .bool, .float, .complex, .exactFloat, .exactComplex, .str, .s, .a, .b,
    .both, .any, .var, .varInt, .typeAB, .typeA, .typeB] : List Atom), by decide⟩, fun x => by cases x <;> decide⟩

/-- The values: numbers, a string, objects of the classes, an object of a class
`D(B, S)`, and the classes themselves. -/
inductive Obj where
  | int | bool | float | complex | str | s | a | b | d | classA | classB
  deriving DecidableEq

instance : Fintype Num :=
  ⟨⟨([.int, .float, .complex] : List Num), by decide⟩, fun x => by cases x <;> decide⟩

instance : Fintype Obj :=
  ⟨⟨([.int, .bool, .float, .complex, .str, .s, .a, .b, .d, .classA, .classB] : List Obj), by decide⟩, fun x => by cases x <;> decide⟩

/-- `isinstance` at run time; for the types of classes it is `issubclass`. -/
def inst : Obj → Atom → Bool
  | _, .object | _, .any => true
  | .int, .int | .bool, .int | .bool, .bool => true
  | .float, .float | .float, .exactFloat | .complex, .complex | .complex, .exactComplex => true
  | .str, .str | .str, .var => true
  | .s, .s | .a, .s | .d, .s | .a, .a | .b, .b | .d, .b | .d, .both => true
  | .classA, .typeAB | .classB, .typeAB | .classA, .typeA | .classB, .typeB => true
  | _, _ => false

/-- The values of types. -/
def mem : Obj → Atom → Bool
  | .int, .float | .bool, .float | .int, .complex | .bool, .complex | .float, .complex => true
  | v, t => inst v t

def num : Obj → Option Num
  | .int | .bool => some .int
  | .float => some .float
  | .complex => some .complex
  | _ => none

/-- Subtypes without promotions. -/
def sub : Atom → Atom → Bool
  | _, .object => true
  | .bool, .int | .exactFloat, .float | .float, .exactFloat => true
  | .exactComplex, .complex | .complex, .exactComplex => true
  | .a, .s | .both, .s | .both, .b | .varInt, .var | .varInt, .int => true
  | .typeA, .typeAB | .typeB, .typeAB => true
  | x, y => x == y

/-- Subtypes with promotions. -/
def subPromoted : Atom → Atom → Bool
  | .int, .float | .bool, .float | .int, .complex | .bool, .complex => true
  | .float, .complex | .exactFloat, .complex => true
  | x, y => sub x y

/-- The intersection of two types. -/
def intersectOne (t i : Atom) : Option (List Atom) :=
  if subPromoted i t then some [i]
  else if subPromoted t i then some [t]
  else
    match t, i with
    | .b, .s | .s, .b => some [.both]
    | .var, .int | .int, .var => some [.varInt]
    | .var, .str | .str, .var => some [.var]
    | .any, i => some [i]
    | t, .any => some [t]
    | _, _ => none

def kind : Atom → Option (Num × Bool)
  | .int => some (.int, true)
  | .float => some (.float, true)
  | .complex => some (.complex, true)
  | .exactFloat => some (.float, false)
  | .exactComplex => some (.complex, false)
  | _ => none

def world : World Atom where
  compare := fun i t => if t = .any then .yes true else if sub t i then .yes false else .no
  within := fun i t => sub i t
  simplify := List.dedup
  union := fun ts us => (ts ++ us).dedup
  parts := fun t => if t = .typeAB then [.typeA, .typeB] else [t]
  isAny := fun t => t == .any
  freeVar := fun t => t == .var
  typedDict := fun _ _ => false
  overlaps := fun ts is => ts.any fun t => is.any fun i => sub t i || sub i t
  intersect := fun t is =>
    if (is.filterMap (intersectOne t)).isEmpty then none
    else some (is.filterMap (intersectOne t)).flatten
  protocol := fun _ => false
  kind := kind
  int := .int
  float := .float
  exactFloat := .exactFloat
  exactComplex := .exactComplex
  covers := fun ts t => ts.any fun u => subPromoted t u

abbrev Mem (v : Obj) (t : Atom) : Prop := mem v t = true
abbrev Inst (v : Obj) (t : Atom) : Prop := inst v t = true

theorem instance_mem : ∀ v t, inst v t = true → mem v t = true := by decide +kernel

theorem intersectOne_mem : ∀ v t i, mem v t = true → inst v i = true →
    ((intersectOne t i).any fun r => r.any fun u => mem v u) = true := by decide +kernel

theorem intersectOne_sub : ∀ v t i, ((intersectOne t i).any fun r => r.any fun u => mem v u) = true →
    mem v i = true := by decide +kernel

theorem sub_mem : ∀ v t i, sub t i = true → t ≠ .any → mem v t = true →
    inst v i = true ∨ (kind i).isSome ∧ (kind i).map Prod.fst = (kind t).map Prod.fst := by
  decide +kernel

theorem subPromoted_mem : ∀ v t u, t = .int → subPromoted t u = true → mem v t = true →
    mem v u = true := by decide +kernel

theorem sound : Sound world Mem Inst num where
  simplify := fun v ts => by simp [In, world]
  union := fun v ts us => by
    simp only [In, world, List.mem_dedup, List.mem_append]
    constructor
    · rintro ⟨t, h1 | h1, h2⟩
      · exact .inl ⟨t, h1, h2⟩
      · exact .inr ⟨t, h1, h2⟩
    · rintro (⟨t, h1, h2⟩ | ⟨t, h1, h2⟩)
      · exact ⟨t, .inl h1, h2⟩
      · exact ⟨t, .inr h1, h2⟩
  parts := fun v t => by
    have : ∀ v t, ((if t = Atom.typeAB then [.typeA, .typeB] else [t]).any fun u => mem v u) =
      mem v t := by decide +kernel
    rw [Mem, ← this v t]
    simp [In, world, List.any_eq_true]
  any := fun v t h => by
    simp only [world, beq_iff_eq] at h
    subst h
    cases v <;> rfl
  instance_ := instance_mem
  compare := fun i t h => by
    by_cases hk : (kind i).isSome ∧ (kind i).map Prod.fst = (kind t).map Prod.fst
    · right
      obtain ⟨⟨n, b⟩, h1⟩ := Option.isSome_iff_exists.mp hk.1
      have h2 : (kind t).map Prod.fst = some n := by rw [← hk.2, h1]; rfl
      obtain ⟨⟨n', b'⟩, h3, h4⟩ := Option.map_eq_some_iff.mp h2
      cases h4
      exact ⟨_, b', by simp [world, h1], h3⟩
    · left
      intro v hv
      simp only [world] at h
      split at h
      · cases h
      · split at h
        · exact (sub_mem v t i ‹_› ‹_› hv).resolve_right hk
        · cases h
  typedDict := fun v t i h => by cases h
  intersect := fun v t ts r h hv hi => by
    simp only [world] at h
    split at h
    · cases h
    · cases h
      obtain ⟨i, h1, h2⟩ := hi
      have := intersectOne_mem v t i hv h2
      cases ho : intersectOne t i with
      | none => rw [ho] at this; cases this
      | some r =>
        rw [ho] at this
        simp only [Option.any_some, List.any_eq_true] at this
        obtain ⟨u, h3, h4⟩ := this
        exact ⟨u, List.mem_flatten.mpr ⟨r, List.mem_filterMap.mpr ⟨i, h1, ho⟩, h3⟩, h4⟩
  disjoint := fun v t ts h _ hv hi => by
    simp only [world] at h
    split at h
    · rename_i he
      rw [List.isEmpty_iff] at he
      obtain ⟨i, h1, h2⟩ := hi
      have := intersectOne_mem v t i hv h2
      cases ho : intersectOne t i with
      | none => rw [ho] at this; cases this
      | some r =>
        have hm : r ∈ ts.filterMap (intersectOne t) := List.mem_filterMap.mpr ⟨i, h1, ho⟩
        rw [he] at hm
        simp at hm
    · cases h
  promoted := fun v t n h => by
    simp only [world] at h
    cases t <;> simp only [kind, Option.some.injEq, Prod.mk.injEq, reduceCtorEq, and_true, and_false,
      Bool.true_eq_false, Bool.false_eq_true] at h <;> subst h <;> cases v <;>
      simp [Mem, mem, inst, num, Num.le]
  exact := fun v t n h => by
    simp only [world] at h
    cases t <;> simp only [kind, Option.some.injEq, Prod.mk.injEq, reduceCtorEq, and_true, and_false,
      Bool.true_eq_false, Bool.false_eq_true] at h <;> subst h <;> cases v <;>
      simp [Mem, mem, inst, num]
  number := fun v t n h => by
    simp only [world] at h
    cases t <;> simp only [kind, Option.map_some, Option.map_none, Option.some.injEq,
      reduceCtorEq] at h <;> subst h <;> cases v <;> simp [Inst, inst, num]
  int := rfl
  float := rfl
  exactFloat := rfl
  exactComplex := rfl
  covers := fun v ts h hv => by
    simp only [world, List.any_eq_true] at h
    obtain ⟨u, h1, h2⟩ := h
    exact ⟨u, h1, subPromoted_mem v .int u rfl h2 hv⟩

/-- `x: A | str | None` and `isinstance(x, (S, int))`, with `bool` for `None`. -/
example : splitAndIntersect world [.a, .str, .bool] [.s, .int] = ([.a, .bool], [.str]) := by
  decide +kernel

/-- `x: type[A | B]` and `issubclass(x, A)`. -/
example : splitAndIntersect world [.typeAB] [.typeA] = ([.typeA], [.typeB]) := by decide +kernel

/-- `x: float` and `isinstance(x, int)`, and `isinstance(x, float)`. -/
example : splitAndIntersect world [.float] [.int] = ([.int], [.exactFloat]) ∧
    splitAndIntersect world [.float] [.float] = ([.float], [.int]) := by decide +kernel

/-- `x: B` and `isinstance(x, S)`. -/
example : splitAndIntersect world [.b] [.s] = ([.both], [.b]) := by decide +kernel

theorem visible_ab : Visible world Mem Inst [.a, .str, .bool] [.s, .int] := by
  refine .inr ?_
  simp only [pieces, world, Related]
  decide +kernel

/-- An `int` that is in `A | str | bool` is in the type for true. -/
example : ∀ v, In Mem v [.a, .str, .bool] → In Inst v [.s, .int] → In Mem v [.a, .bool] :=
  fun _ hv hi => isinstance_true_partial (w := world) sound visible_ab
    (by intro t ht hf; simp [world] at ht hf; subst hf; simp at ht) hv hi

theorem simple_float : Simple world [.float, .complex, .str] [.float] :=
  .inr (.inl ⟨.float, rfl, rfl, by decide +kernel, by decide +kernel⟩)

/-- `x: float | complex | str` and `isinstance(x, float)`: the `int`s are kept. -/
example : splitAndIntersect world [.float, .complex, .str] [.float] =
    ([.float], [.exactComplex, .str, .int]) := by decide +kernel

example : ∀ v, In Mem v [.float, .complex, .str] → ¬ In Inst v [.float] →
    In Mem v [.exactComplex, .str, .int] :=
  fun _ hv hi => isinstance_false_partial (w := world) sound simple_float hv hi

example : Simple world [.complex] [.complex] :=
  .inr (.inr ⟨.complex, rfl, rfl, rfl, rfl, by decide +kernel, by decide +kernel⟩)

example : Simple world [.float, .str] [.int] :=
  .inl (by simp only [pieces, world]; decide +kernel)

theorem intersect_sub (v : Obj) (ts : List Atom) (t : Atom) (r : List Atom)
    (h : world.intersect t ts = some r) (hv : In Mem v r) : In Mem v ts := by
  simp only [world] at h
  split at h
  · cases h
  · cases h
    obtain ⟨u, h1, h2⟩ := hv
    obtain ⟨r, h3, h4⟩ := List.mem_flatten.mp h1
    obtain ⟨i, h5, h6⟩ := List.mem_filterMap.mp h3
    refine ⟨i, h5, intersectOne_sub v t i ?_⟩
    rw [h6]
    simp only [Option.any_some, List.any_eq_true]
    exact ⟨u, h4, h2⟩

example : ∀ v, In Mem v (splitAndIntersect world [.b, .float] [.s, .int]).1 → In Mem v [.s, .int] :=
  fun v hv => isinstance_true_narrow_partial sound (by decide +kernel) rfl (intersect_sub v _) hv

example : ∀ v, In Mem v (splitAndIntersect world [.b, .float] [.int]).2 → In Mem v [.b, .float] :=
  fun _ hv => isinstance_false_narrow_partial sound
    (by intro ts us t h; simpa [world] using h)
    (by intro i hi; cases hi; decide +kernel) (by decide +kernel) hv

/-! ## Where the properties fail -/

/-- C101 is false for promotions and a subclass of `int`: for `x: float | bool` and
`isinstance(x, int)` the type is `bool`, but `x` can be 5. -/
theorem promotion_true_violation :
    splitAndIntersect world [.float, .bool] [.int] = ([.bool], [.exactFloat]) ∧
    Mem .int .float ∧ Inst .int .int ∧ ¬ Mem .int .bool := by decide +kernel

/-- C101 is false for promotions and several classes: for `x: float` and
`isinstance(x, (float, str))` the other type is `Never`, but `x` can be 5. -/
theorem promotion_tuple_violation :
    splitAndIntersect world [.float] [.float, .str] = ([.float], []) ∧
    Mem .int .float ∧ ¬ Inst .int .float ∧ ¬ Inst .int .str := by decide +kernel

/-- C101 is false for `complex` and another type: for `x: complex | str` and
`isinstance(x, complex)` the other type is `str`, but `x` can be 1.5. -/
theorem promotion_complex_violation :
    splitAndIntersect world [.complex, .str] [.complex] = ([.complex], [.str]) ∧
    Mem .float .complex ∧ ¬ Inst .float .complex ∧ ¬ Mem .float .str := by decide +kernel

/-- C101 is false for multiple inheritance: for `x: A | B` and `isinstance(x, S)` the type is
`A`, but `x` can be an object of `class D(B, S)`. -/
theorem inheritance_violation :
    splitAndIntersect world [.a, .b] [.s] = ([.a], [.b]) ∧
    Mem .d .b ∧ Inst .d .s ∧ ¬ Mem .d .a := by decide +kernel

/-- C101 is false for a type variable after another type: for `x: int | T` and
`isinstance(x, int)` the type is the intersection of `T` and `int`, but `x` can be 5 while `T`
is `str`. -/
theorem type_var_violation :
    splitAndIntersect world [.int, .var] [.int] = ([.varInt], [.var]) ∧
    Mem .int .int ∧ Inst .int .int ∧ ¬ Mem .int .varInt := by decide +kernel

/-- C102 is false for `float`: for `x: str` and `isinstance(x, float)` the other type is
`str | int`, but `x` cannot be 5. -/
theorem promotion_wide_violation :
    splitAndIntersect world [.str] [.float] = ([], [.str, .int]) ∧
    Mem .int .int ∧ ¬ Mem .int .str := by decide +kernel

end Verif.Split.Instance
