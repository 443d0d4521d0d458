import Verif.Callable.Props
import Verif.Call.Violations

/-!
# Functions in place of others: cases that meet the hypotheses, and disagreements with Python
-/

namespace Verif.Callable

open Verif.Call Verif.Call.Spec Verif.Callable.Spec

/-- Some types. -/
inductive T
  | int
  | str
  | any
deriving DecidableEq

def fitsT (a b : T) : Bool := a == b || a == .any || b == .any

/-- The usual flags. -/
def usual : Cfg T := { ok := fitsT, inv := fitsT, isAny := (· == .any) }

/-- No leniency for `*args: Any`. -/
def exacting : Cfg T := { ok := fun a b => a == b, inv := fun a b => a == b, isAny := (· == .any), precise := true }

def pt (i : Nat) (k : Kind) (n : String) (t : T := .int) (d : Bool := false) : Param T := ⟨i, k, some n, d, t⟩

/-! ## Computing with calls -/

instance (p : Param T) (n : String) : Decidable (named p n) := by unfold named; infer_instance

theorem acc0_iff {ps : List (Param T)} {K : List (String × Nat)} :
    Acc0 ps K ↔ (K.map Prod.fst).Nodup ∧
      (∀ n ∈ K.map Prod.fst, (∃ p ∈ ps, named p n) ∨ ∃ p ∈ ps, p.kind = .starStar) ∧
      ∀ p ∈ ps, p.kind ≠ .star → p.kind ≠ .starStar → p.hasDefault = false → ∃ e ∈ K, named p e.1 := by
  constructor
  · rintro ⟨h1, h2, h3⟩
    refine ⟨h1, h2, fun p hp a b d => ?_⟩
    obtain ⟨n, v, hn, hv⟩ := h3 p hp a b d
    exact ⟨(n, v), hv, hn⟩
  · rintro ⟨h1, h2, h3⟩
    refine ⟨h1, h2, fun p hp a b d => ?_⟩
    obtain ⟨⟨n, v⟩, hv, hn⟩ := h3 p hp a b d
    exact ⟨n, v, hn, hv⟩

instance (ps : List (Param T)) (K : List (String × Nat)) : Decidable (Acc0 ps K) := decidable_of_iff' _ acc0_iff

theorem arr0_iff {ps : List (Param T)} {K : List (String × Nat)} {q : Param T} {v : Nat} :
    Arr0 ps K q v ↔ q ∈ ps ∧ ((∃ e ∈ K, named q e.1 ∧ e.2 = v) ∨
      (q.kind = .starStar ∧ ∃ e ∈ K, (∀ p ∈ ps, ¬ named p e.1) ∧ e.2 = v)) := by
  unfold Arr0
  refine and_congr_right fun _ => or_congr ?_ (and_congr_right fun _ => ?_)
  · constructor
    · rintro ⟨n, hn, hv⟩; exact ⟨(n, v), hv, hn, rfl⟩
    · rintro ⟨⟨n, w⟩, hv, hn, rfl⟩; exact ⟨n, hn, hv⟩
  · constructor
    · rintro ⟨n, hn, hv⟩; exact ⟨(n, v), hv, hn, rfl⟩
    · rintro ⟨⟨n, w⟩, hv, hn, rfl⟩; exact ⟨n, hn, hv⟩

instance (ps : List (Param T)) (K : List (String × Nat)) (q : Param T) (v : Nat) : Decidable (Arr0 ps K q v) :=
  decidable_of_iff' _ arr0_iff

/-- A call by name that only `ps1` accepts. -/
theorem not_usable_of_call {ok : T → T → Bool} {ps1 ps2 : List (Param T)} (K : List (String × Nat)) (h1 : Acc0 ps1 K)
    (h2 : ¬ Acc0 ps2 K) : ¬ Usable Nat ok ps1 ps2 :=
  fun h => h2 (accepts_nil.mp (h [] K (accepts_nil.mpr h1)).1)

/-- A value that reaches a parameter of another type. -/
theorem not_usable_of_value {ok : T → T → Bool} {ps1 ps2 : List (Param T)} (K : List (String × Nat)) (q : Param T)
    (v : Nat) (h1 : Acc0 ps1 K) (h2 : Arr0 ps2 K q v) (h3 : ∀ p ∈ ps1, Arr0 ps1 K p v → ok p.ty q.ty = false) :
    ¬ Usable Nat ok ps1 ps2 := by
  intro h
  obtain ⟨p, hp, ht⟩ := (h [] K (accepts_nil.mpr h1)).2 q v (reaches_nil.mpr h2)
  have hp := reaches_nil.mp hp
  rw [h3 p hp.1 hp] at ht
  simp at ht

/-! ## The theorems apply -/

/-- `def f(a: int, b: str, /, c: int, *, k: int, l: str = "")` -/
def sig1 : List (Param T) :=
  [pt 0 .posOnly "a", pt 1 .posOnly "b" .str, pt 2 .posOrKw "c", pt 3 .kwOnly "k", pt 4 .kwOnly "l" .str true]

/-- `def g(a: int, b: str, c: int, d: int = 0, *args: int, k: int, m: int = 0, l: str = "", **kw: int)` -/
def sig2 : List (Param T) :=
  [pt 0 .posOrKw "a", pt 1 .posOrKw "b" .str, pt 2 .posOrKw "c", pt 3 .posOrKw "d" .int true, pt 4 .star "args",
    pt 5 .kwOnly "k", pt 6 .kwOnly "m" .int true, pt 7 .kwOnly "l" .str true, pt 8 .starStar "kw"]

theorem sig1_signature : Signature sig1 := signature_of (by decide)
theorem sig2_signature : Signature sig2 := signature_of (by decide)

theorem sigs_conditions : KeepsDefaults sig1 sig2 ∧ Plain sig1 sig2 ∧ NoClash sig1 sig2 := by
  refine ⟨?_, ?_, ?_⟩
  · intro p hp hk hd q hq n hn hqn
    have : p = pt 4 .kwOnly "l" .str true := by
      simp only [sig1, List.mem_cons, List.not_mem_nil, or_false] at hp
      rcases hp with rfl | rfl | rfl | rfl | rfl <;> simp_all [pt]
    subst this
    have hn' : n = "l" := by
      have := hn.2
      simpa [pt] using this.symm
    subst hn'
    simp only [sig2, List.mem_cons, List.not_mem_nil, or_false] at hq
    rcases hq with rfl | rfl | rfl | rfl | rfl | rfl | rfl | rfl | rfl <;> simp_all [pt, named]
  · intro _
    refine ⟨?_, ?_⟩
    · simp [SameOrder, sig1, sig2, named, pt]
    · rintro ⟨p, hp, hk⟩
      simp only [sig1, List.mem_cons, List.not_mem_nil, or_false] at hp
      rcases hp with rfl | rfl | rfl | rfl | rfl <;> simp [pt] at hk
  · intro j p q n hj hk hj2 hk2 hn
    have hsplit : n = "a" ∨ n = "b" := by
      match j with
      | 0 => simp [sig2] at hj2; subst hj2; simp [pt] at hn; exact .inl hn.symm
      | 1 => simp [sig2] at hj2; subst hj2; simp [pt] at hn; exact .inr hn.symm
      | j + 2 =>
        exfalso
        simp only [sig1, List.getElem?_cons_succ] at hj
        match j with
        | 0 => simp at hj; subst hj; simp [pt] at hk
        | 1 => simp at hj; subst hj; simp [pt] at hk
        | 2 => simp at hj; subst hj; simp [pt] at hk
        | j + 3 => simp at hj
    refine ⟨?_, ?_⟩
    · intro p' hp' hpn
      simp only [sig1, List.mem_cons, List.not_mem_nil, or_false] at hp'
      rcases hsplit with rfl | rfl <;> rcases hp' with rfl | rfl | rfl | rfl | rfl <;> simp [pt, named] at hpn
    · intro p' hp' hk'
      simp only [sig1, List.mem_cons, List.not_mem_nil, or_false] at hp'
      rcases hp' with rfl | rfl | rfl | rfl | rfl <;> simp [pt] at hk'

example : Usable Nat exacting.ok sig1 sig2 :=
  accepted_function_usable_partial sig1_signature sig2_signature rfl
    (by intro a b t; cases a <;> cases b <;> cases t <;> decide) (.inl rfl) sigs_conditions.1
    sigs_conditions.2.1 sigs_conditions.2.2 (by decide +kernel)

/-- `f(1, "2", 3)` and the like: there is a call to speak of. -/
example : Accepts sig1 [1, 2] [("c", 3), ("k", 4)] := by
  refine (accepts_cons (.inl rfl)).mpr ⟨(accepts_cons (.inl rfl)).mpr ⟨accepts_nil.mpr (by decide), ?_⟩, ?_⟩
  · exact fun n hn => absurd hn (not_named_posOnly rfl)
  · exact fun n hn => absurd hn (not_named_posOnly rfl)

example : Usable Nat usual.ok [pt 0 .posOnly "x", pt 1 .posOrKw "b"]
    [pt 0 .posOrKw "a", pt 1 .posOrKw "b", pt 2 .posOrKw "c" .str true] :=
  accepted_positional_function_usable (signature_of (by decide)) (signature_of (by decide)) rfl
    (by simp [positional, pt]) (by simp [positional, pt]) (by decide +kernel)

example : matchesParams usual sig2 sig2 = true :=
  function_accepted_for_itself sig2_signature (by decide)

example : matchesParams usual
    [pt 0 .posOrKw "x", pt 1 .kwOnly "a", pt 2 .kwOnly "b" .str, pt 3 .kwOnly "c"]
    [pt 0 .posOrKw "x", pt 3 .kwOnly "c", pt 1 .kwOnly "a", pt 2 .kwOnly "b" .str] = true :=
  keyword_order_irrelevant_partial (front := [pt 0 .posOrKw "x"])
    (ks1 := [pt 1 .kwOnly "a", pt 2 .kwOnly "b" .str, pt 3 .kwOnly "c"])
    (ks2 := [pt 3 .kwOnly "c", pt 1 .kwOnly "a", pt 2 .kwOnly "b" .str]) false
    (by simp [positional, pt]) (by simp [pt]) (by simp [pt])
    (by decide) (by simp [pt]) (by decide)

/-- `Callable[[int, str], ..]` and `def f(a: int, *args: str, k: int = 0)` -/
example : Usable Nat usual.ok [pt 0 .posOnly "x", pt 1 .posOnly "y" .str]
    [pt 0 .posOrKw "a", pt 1 .star "args" .str, pt 2 .kwOnly "k" .int true] :=
  (callable_type_exact (by simp [pt]) (by simp [pt]) (signature_of (by decide))).mp (by decide +kernel)

/-- `Callable[[int, str], ..]` and `def f(a: int, b: str, *, k: int)` -/
example : ¬ Usable Nat usual.ok [pt 0 .posOnly "x", pt 1 .posOnly "y" .str]
    [pt 0 .posOrKw "a", pt 1 .posOrKw "b" .str, pt 2 .kwOnly "k"] := by
  rw [← callable_type_exact (by simp [pt]) (by simp [pt]) (signature_of (by decide))]
  decide +kernel

/-! ## C81: functions that are accepted and cannot be called -/

/-- Expected `def f(*, b: int = 1)`, accepted `def g(*, c: int = 1, b: int)`: `f()` is fine, `g()` raises.  The default is
looked for in the parameter that comes next, and not in the one with the same name. -/
theorem default_not_kept_violation : ∃ ps1 ps2 : List (Param T), Signature ps1 ∧ Signature ps2 ∧
    matchesParams exacting ps1 ps2 = true ∧ matchesParams usual ps1 ps2 = true ∧
    Plain ps1 ps2 ∧ NoClash ps1 ps2 ∧ ¬ Usable Nat usual.ok ps1 ps2 := by
  refine ⟨[pt 0 .kwOnly "b" .int true], [pt 0 .kwOnly "c" .int true, pt 1 .kwOnly "b"], signature_of (by decide),
    signature_of (by decide), by decide +kernel, by decide +kernel, ?_, ?_,
    not_usable_of_call [] (by decide) (by decide)⟩
  · rintro ⟨q, hq, hk⟩
    simp only [List.mem_cons, List.not_mem_nil, or_false] at hq
    rcases hq with rfl | rfl <;> simp [pt] at hk
  · intro j p q n hj hk
    match j with
    | 0 => simp at hj; subst hj; simp [pt] at hk
    | j + 1 => simp at hj

/-- Expected `def f(*, a: int, b: int)`, accepted `def g(*, b: str = "", a: int, **kw: int)`: `f(a=1, b=2)` gives an `int`
to a `str`.  `b` was passed over while looking for `a`, and is then compared with `**kw`. -/
theorem passed_over_violation : ∃ ps1 ps2 : List (Param T), Signature ps1 ∧ Signature ps2 ∧
    matchesParams exacting ps1 ps2 = true ∧ matchesParams usual ps1 ps2 = true ∧ ¬ Usable Nat usual.ok ps1 ps2 :=
  ⟨[pt 0 .kwOnly "a", pt 1 .kwOnly "b"], [pt 0 .kwOnly "b" .str true, pt 1 .kwOnly "a", pt 2 .starStar "kw"],
    signature_of (by decide), signature_of (by decide), by decide +kernel, by decide +kernel,
    not_usable_of_value [("a", 1), ("b", 2)] (pt 0 .kwOnly "b" .str true) 2 (by decide) (by decide) (by decide)⟩

/-- Expected `def f(*, b: int, **kw: int)`, accepted `def g(*, a: str = "", b: int, **kw: int)`: `f(b=1, a=2)` gives an
`int` to a `str`. -/
theorem passed_over_by_double_violation : ∃ ps1 ps2 : List (Param T), Signature ps1 ∧ Signature ps2 ∧
    matchesParams exacting ps1 ps2 = true ∧ matchesParams usual ps1 ps2 = true ∧ SameOrder ps1 ps2 ∧
    ¬ Usable Nat usual.ok ps1 ps2 :=
  ⟨[pt 0 .kwOnly "b", pt 1 .starStar "kw"], [pt 0 .kwOnly "a" .str true, pt 1 .kwOnly "b", pt 2 .starStar "kw"],
    signature_of (by decide), signature_of (by decide), by decide +kernel, by decide +kernel,
    by simp [SameOrder, pt],
    not_usable_of_value [("b", 1), ("a", 2)] (pt 0 .kwOnly "a" .str true) 2 (by decide) (by decide) (by decide)⟩

/-- Expected `def f(x: int, /, *, b: int)`, accepted `def g(b: int, **kw: int)`: `g(1, b=2)` raises "got multiple values
for argument 'b'". -/
theorem positional_name_violation : ∃ ps1 ps2 : List (Param T), Signature ps1 ∧ Signature ps2 ∧
    matchesParams exacting ps1 ps2 = true ∧ matchesParams usual ps1 ps2 = true ∧ KeepsDefaults ps1 ps2 ∧
    Plain ps1 ps2 ∧ ¬ Usable Nat usual.ok ps1 ps2 := by
  refine ⟨[pt 0 .posOnly "x", pt 1 .kwOnly "b"], [pt 0 .posOrKw "b", pt 1 .starStar "kw"], signature_of (by decide),
    signature_of (by decide), by decide +kernel, by decide +kernel, ?_, ?_, ?_⟩
  · intro p hp hk hd
    simp only [List.mem_cons, List.not_mem_nil, or_false] at hp
    rcases hp with rfl | rfl <;> simp [pt] at hd
  · refine fun _ => ⟨by simp [SameOrder, pt], ?_⟩
    rintro ⟨p, hp, hk⟩
    simp only [List.mem_cons, List.not_mem_nil, or_false] at hp
    rcases hp with rfl | rfl <;> simp [pt] at hk
  · intro h
    have h1 : Accepts [pt 0 .posOnly "x", pt 1 .kwOnly "b"] [1] [("b", 2)] := by
      refine (accepts_cons (.inl rfl)).mpr ⟨accepts_nil.mpr (by decide), ?_⟩
      exact fun n hn => absurd hn (not_named_posOnly rfl)
    have h2 := (h _ _ h1).1
    exact ((accepts_cons (.inr rfl)).mp h2).2 "b" ⟨.inl rfl, rfl⟩ (by simp)

/-- Expected `def f(a: int)`, accepted `def g(*args: Any, **kwargs: str)`: `f(a=1)` gives an `int` to `**kwargs: str`.  The
type of `a` is only compared with the type of `*args`. -/
theorem only_star_compared_violation : ∃ ps1 ps2 : List (Param T), Signature ps1 ∧ Signature ps2 ∧
    matchesParams usual ps1 ps2 = true ∧ ¬ Usable Nat usual.ok ps1 ps2 :=
  ⟨[pt 0 .posOrKw "a"], [pt 0 .star "args" .any, pt 1 .starStar "kwargs" .str], signature_of (by decide),
    signature_of (by decide), by decide +kernel,
    not_usable_of_value [("a", 1)] (pt 1 .starStar "kwargs" .str) 1 (by decide) (by decide) (by decide)⟩

/-- Expected `def f(*args: int, **kwargs: Any)`, accepted `def g(a: str)`: the leniency is meant for functions that end with
`*args: Any, **kwargs: Any`, but the type of `*args` is not looked at: `f(1)` gives an `int` to a `str`. -/
theorem star_not_any_violation : ∃ ps1 ps2 : List (Param T), Signature ps1 ∧ Signature ps2 ∧
    matchesParams usual ps1 ps2 = true ∧ (∀ p ∈ ps1, p.kind = .star → usual.isAny p.ty = false) ∧
    Accepts ps1 [1] [] ∧ Accepts ps2 [1] [] ∧
    ∃ q, Reaches ps2 [1] [] q 1 ∧ ∀ p, Reaches ps1 [1] [] p 1 → usual.ok p.ty q.ty = false := by
  have hb : Behind [pt 1 .starStar "kwargs" .any] := by simp [Behind, pt]
  refine ⟨[pt 0 .star "args", pt 1 .starStar "kwargs" .any], [pt 0 .posOrKw "a" .str], signature_of (by decide),
    signature_of (by decide), by decide +kernel, by decide, ?_, ?_, pt 0 .posOrKw "a" .str, ?_, ?_⟩
  · exact (accepts_star rfl hb).mpr (by decide)
  · exact (accepts_cons (.inr rfl)).mpr ⟨accepts_nil.mpr (by decide), by simp⟩
  · exact (reaches_cons (.inr rfl) (by simp)).mpr (.inl ⟨rfl, rfl⟩)
  · intro p hp
    rcases (reaches_star rfl hb).mp hp with ⟨rfl, -⟩ | hp
    · rfl
    · simp [Arr0] at hp

/-! ## C83: the order of keyword-only parameters matters -/

/-- `def f(*, a: int = 1, b: int)` and `def g(*, b: int, a: int = 1)` -/
theorem default_order_violation : ∃ ps1 ps2 : List (Param T), Signature ps1 ∧ Signature ps2 ∧
    (∀ p ∈ ps1, p.kind = .kwOnly) ∧ (ps1.map fun p => (p.name, p.hasDefault, p.ty)).Perm
      (ps2.map fun p => (p.name, p.hasDefault, p.ty)) ∧ matchesParams usual ps1 ps2 = false :=
  ⟨[pt 0 .kwOnly "a" .int true, pt 1 .kwOnly "b"], [pt 0 .kwOnly "b", pt 1 .kwOnly "a" .int true],
    signature_of (by decide), signature_of (by decide), by simp [pt], by decide, by decide +kernel⟩

/-- `def f(*, a: int, b: int, **kw: str)` and `def g(*, b: int, a: int, **kw: str)`: `b` is compared with `**kw`. -/
theorem double_order_violation : ∃ ps1 ps2 : List (Param T), Signature ps1 ∧ Signature ps2 ∧
    (∀ p ∈ ps1, p.hasDefault = false) ∧ (ps1.map fun p => (p.kind, p.name, p.ty)).Perm
      (ps2.map fun p => (p.kind, p.name, p.ty)) ∧ matchesParams usual ps1 ps2 = false :=
  ⟨[pt 0 .kwOnly "a", pt 1 .kwOnly "b", pt 2 .starStar "kw" .str],
    [pt 0 .kwOnly "b", pt 1 .kwOnly "a", pt 2 .starStar "kw" .str],
    signature_of (by decide), signature_of (by decide), by decide, by decide, by decide +kernel⟩

/-- `def f(*, a: int, **kw: int)` and `def g(*, c: int = 1, **kw: int)`: refused, because looking for `a` uses `**kw` up. -/
theorem double_used_up_violation : ∃ ps1 ps2 : List (Param T), Signature ps1 ∧ Signature ps2 ∧
    matchesParams usual ps1 ps2 = false ∧ Usable Nat usual.ok ps1 ps2 := by
  refine ⟨[pt 0 .kwOnly "a", pt 1 .starStar "kw"], [pt 0 .kwOnly "c" .int true, pt 1 .starStar "kw"],
    signature_of (by decide), signature_of (by decide), by decide +kernel, ?_⟩
  refine usable_of_good (by simp [Behind, pt]) fun K h => ⟨⟨h.nodup, ?_, ?_⟩, ?_⟩
  · exact fun n _ => .inr ⟨pt 1 .starStar "kw", by simp, rfl⟩
  · intro p hp _ h2 h3
    simp only [List.mem_cons, List.not_mem_nil, or_false] at hp
    rcases hp with rfl | rfl
    · simp [pt] at h3
    · exact absurd rfl h2
  · intro q v hq
    have hv : ∃ n, (n, v) ∈ K := by
      rcases hq.2 with ⟨n, -, hv⟩ | ⟨-, n, -, hv⟩ <;> exact ⟨n, hv⟩
    obtain ⟨n, hv⟩ := hv
    have hqt : q.ty = .int := by
      have := hq.1
      simp only [List.mem_cons, List.not_mem_nil, or_false] at this
      rcases this with rfl | rfl <;> rfl
    by_cases hn : n = "a"
    · subst hn
      exact ⟨pt 0 .kwOnly "a", ⟨by simp, .inl ⟨"a", ⟨.inr rfl, rfl⟩, hv⟩⟩, by rw [hqt]; rfl⟩
    · refine ⟨pt 1 .starStar "kw", ⟨by simp, .inr ⟨rfl, n, ?_, hv⟩⟩, by rw [hqt]; rfl⟩
      intro p hp hpn
      simp only [List.mem_cons, List.not_mem_nil, or_false] at hp
      rcases hp with rfl | rfl
      · have := hpn.2
        simp [pt] at this
        exact hn this.symm
      · exact not_named_double rfl hpn

end Verif.Callable
