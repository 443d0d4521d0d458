/-
A small world of types to show that the hypotheses of the theorems are met and
to exhibit the programs the analysis gets wrong.
-/
import Verif.Flow.Spec

namespace Verif.Flow.Instance

/-- A type is a list of tags and a value is its tag: 0 is an `int`, 1 a `str`,
2 is `None`. A test is `isinstance` with a list of tags; the test `[0, 1]` is
"is not None".  Every key is declared as `int | str | None`. -/
def ops : Ops (List Nat) (List Nat) where
  join a b := a ++ b.filter (fun x => !a.contains x)
  meet a b :=
    let c := a.filter (fun x => b.contains x)
    if c.isEmpty then none else some c
  never t := t.isEmpty
  bottom := []
  error := [0, 1, 2]
  split p t := some (t.filter (fun x => p.contains x), t.filter (fun x => !p.contains x))
  decl _ := [0, 1, 2]

def sem : Sem (List Nat) Nat (List Nat) where
  mem v t := v ∈ t
  holds p v := p.contains v

theorem lawful : Lawful ops sem where
  join v a b h := by
    simp only [sem, ops, List.mem_append, List.mem_filter] at h ⊢
    by_cases ha : v ∈ a
    · exact Or.inl ha
    · right
      exact ⟨h.resolve_left ha, by simp [ha]⟩
  meet v a b ha hb := by
    simp only [sem, ops] at *
    have hm : v ∈ a.filter (fun x => b.contains x) := List.mem_filter.mpr ⟨ha, by simp [hb]⟩
    rw [if_neg (by
      rw [List.isEmpty_iff]
      intro h
      rw [h] at hm
      cases hm)]
    exact ⟨_, rfl, hm⟩
  never v t h := by
    simp only [sem, ops, List.isEmpty_iff] at *
    simp [h]
  split_pos p t a b v h hm hh := by
    simp only [sem, ops, Option.some.injEq, Prod.mk.injEq] at *
    rw [← h.1]
    exact List.mem_filter.mpr ⟨hm, hh⟩
  split_neg p t a b v h hm hh := by
    simp only [sem, ops, Option.some.injEq, Prod.mk.injEq] at *
    rw [← h.2]
    exact List.mem_filter.mpr ⟨hm, by simp only [hh, Bool.not_false]⟩

abbrev S' := Stmt (List Nat) (List Nat)

/-- Names of the programs below. -/
def x : Key := .name 0
def y : Key := .name 1

/-- Runs the analysis and gives the reports of the reads. -/
def reports (s : S') : List (Nat × Key × Claim (List Nat)) :=
  (analyseFunction ops s).1.filterMap (fun ev =>
    match ev with | .read l k c => some (l, k, c) | _ => none)

/-- A value for some names, and no others. -/
def envOf (l : List (Key × Nat)) : Env Nat := fun k => l.lookup k

/-- Some condition of which nothing is known: it may hold or not. -/
def unknown : Cond (List Nat) (List Nat) := .expr [0, 1] [0]

/-- `True`. -/
def always : Cond (List Nat) (List Nat) := .expr [0] [0]

/-- `x is None`. -/
def isNone (k : Key) : Cond (List Nat) (List Nat) := .test k [2]

theorem typed_envOf {l : List (Key × Nat)} (h : ∀ p ∈ l, p.2 ≤ 2) :
    WellTyped ops sem (envOf l) := by
  intro k v hv
  have : (k, v) ∈ l := by
    unfold envOf at hv
    rw [List.lookup_eq_some_iff] at hv
    obtain ⟨a, b, rfl, _⟩ := hv
    simp
  have := h _ this
  simp only [sem, ops, List.mem_cons, List.not_mem_nil, or_false]
  omega

end Verif.Flow.Instance
