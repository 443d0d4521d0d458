import Verif.Sub.Tuple
import Verif.Sub.Refl
import Verif.Sub.Instance

/-!
# What the comparison of types guarantees

`isSuper w n rev t s` is `t.is_super_type_of(s)`: `s` can be assigned to `t`.
-/

namespace Verif.Sub

open Verif.Match

variable {V : Type} {w : World} {M : Meaning V} {p q : Nat}

/-- C94: if the comparison says that `s` can be assigned to `t`, then every value of `s`
is a value of `t`.  Partial: for types without `Any`, with strict optional, without
unknown base classes; all tuples with `*tuple[..]` have the same number of items
around it; below an invariant type parameter there are no `type[..]`, no
`*tuple[..]` and only dataclasses whose parameters are invariant.  Without these the
claim is false, see `Verif.Sub.Violations`. -/
theorem accepted_within_partial (hl : Lawful w M) (ht : Tame w p q) {t s : Ty} {rev : Bool}
    (gt : Good w p q false t) (gs : Good w p q false s) (h : Accepts w rev t s) :
    Within M s t := by
  obtain ⟨n, m, h1, h2⟩ := h
  exact (sound hl ht n).super rev t s m gt gs h1 h2

/-- C94: types that the comparison treats as the same have the same values.  Partial as
above. -/
theorem same_values_partial (hl : Lawful w M) (ht : Tame w p q) {t s : Ty} {rev : Bool} {n : Nat}
    {m : Match} (gt : Good w p q true t) (gs : Good w p q true s)
    (h : isSame w n rev t s = some m) (hm : m.bool = true) (v : V) :
    M.mem v t ↔ M.mem v s := by
  obtain ⟨h1, h2⟩ := (sound hl ht n).same rev t s m gt gs h hm
  exact ⟨h2 v, h1 v⟩

/-- C95: the answer does not depend on how much fuel there is. -/
theorem answer_unique {t s : Ty} {rev : Bool} {n k : Nat} {m m' : Match}
    (h1 : isSuper w n rev t s = some m) (h2 : isSuper w k rev t s = some m') : m = m' := by
  rcases Nat.le_total n k with h | h
  · have := super_mono h rev t s m h1
    rw [this] at h2
    simpa using h2
  · have := super_mono h rev t s m' h2
    rw [this] at h1
    simpa using h1.symm

/-- C95: no type is both accepted and rejected. -/
theorem not_accepted_and_rejected {t s : Ty} {rev : Bool} (h1 : Accepts w rev t s)
    (h2 : Rejects w rev t s) : False := by
  obtain ⟨n, m, h1, h3⟩ := h1
  obtain ⟨k, m', h2, h4⟩ := h2
  have := answer_unique h1 h2
  subst this
  rw [h3] at h4
  cases h4

/-- C96: every type can be assigned to itself, also below invariant type parameters.
Partial: the type has no `type[N]` of a `NewType` in it. -/
theorem reflexive_partial {t : Ty} (h : Usual t) (rev : Bool) : Accepts w rev t t ∧
    ∃ n m, isSame w n rev t t = some m ∧ m.bool = true := by
  obtain ⟨n, hn⟩ := own (w := w) h
  obtain ⟨⟨m, h1, h2⟩, m', h3, h4⟩ := hn n (Nat.le_refl n) rev
  exact ⟨⟨n, m, h1, h2⟩, n, m', h3, h4⟩

/-! Cases that meet the hypotheses. -/

namespace Instance

def int : Ty := .cls 1 []
def str : Ty := .cls 3 []
def float : Ty := .cls 9 []
def seq (t : Ty) : Ty := .cls 7 [t]
def list (t : Ty) : Ty := .cls 8 [t]

theorem good_seq {t : Ty} (h : Good world p q false t) : Good world p q false (seq t) :=
  .cls rfl (fun k a v ha hv => by
    cases k with
    | zero =>
      have h1 : some t = some a := ha
      have h2 : some Variance.cov = some v := hv
      cases h1; cases h2
      exact h
    | succ k => simp at ha)

theorem good_list {t : Ty} {i : Bool} (h : Good world p q true t) : Good world p q i (list t) :=
  .cls rfl (fun k a v ha hv => by
    cases k with
    | zero =>
      have h1 : some t = some a := ha
      have h2 : some Variance.inv = some v := hv
      cases h1; cases h2
      simpa using h
    | succ k => simp at ha)

/-- `list[int | None]` can be assigned to `Sequence[float | None]`, and the lists of the
first are sequences of the second. -/
example : Within meaning (list (.union [int, .none])) (seq (.union [.none, float])) :=
  accepted_within_partial lawful (tame 0 0) (rev := false)
    (good_seq (.union (by simp) (by decide)
      (by intro t ht; simp at ht; rcases ht with rfl | rfl; exacts [.none, .plain rfl])))
    (good_list (.union (by simp) (by decide)
      (by intro t ht; simp at ht; rcases ht with rfl | rfl; exacts [.plain rfl, .none])))
    ⟨40, .newTrue, by decide +kernel, rfl⟩

/-- A tuple with `*tuple[..]` for another. -/
example : Within meaning (.unpack [int] (.lit (.str "a")) []) (.unpack [float] str []) :=
  accepted_within_partial lawful (tame 1 0) (rev := false)
    (.unpack (by simp) rfl rfl (by intro t ht; simp at ht; subst ht; exact .plain rfl) (.plain rfl)
      (by simp))
    (.unpack (by simp) rfl rfl (by intro t ht; simp at ht; subst ht; exact .plain rfl) (.lit _)
      (by simp))
    ⟨40, .newTrue, by decide +kernel, rfl⟩

/-- `list[int]` cannot be assigned to `list[float]`. -/
example : Rejects world false (list float) (list int) :=
  ⟨40, .false true .none, by decide +kernel, rfl⟩

example : ∀ v, sem (list (.union [int, str])) v ↔ sem (list (.union [str, int])) v :=
  fun v => same_values_partial lawful (tame 0 0) (rev := false) (n := 40) (m := .newTrue)
    (good_list (.union (by simp) (by decide)
      (by intro t ht; simp at ht; rcases ht with rfl | rfl; exacts [.plain rfl, .plain rfl])))
    (good_list (.union (by simp) (by decide)
      (by intro t ht; simp at ht; rcases ht with rfl | rfl; exacts [.plain rfl, .plain rfl])))
    (by decide +kernel) rfl v

example : Usual (.unpack [list .any] (.type (.union [int, .none])) [.data 10 [.newType 3]]) := by
  refine .unpack ?_ (.type (by simp) (.union ?_)) ?_
  · intro t ht; simp at ht; subst ht
    exact .cls (by intro t ht; simp at ht; subst ht; exact .any)
  · intro t ht; simp at ht; rcases ht with rfl | rfl
    · exact .cls (by simp)
    · exact .none
  · intro t ht; simp at ht; subst ht
    exact .data (by intro t ht; simp at ht; subst ht; exact .newType 3)

end Instance

end Verif.Sub
