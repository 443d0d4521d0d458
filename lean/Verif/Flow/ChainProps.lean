/-
Keys below keys and `:=`: the cases in which the flow analysis is right.
-/
import Verif.Flow.Chain
import Verif.Flow.Violations

namespace Verif.Flow

section
variable {Ty P V : Type} {O : Ops Ty P} {S : Sem Ty V P}

theorem top_start {M : Key → Prop} : Top S (fun _ => False) M (start : St Ty P) :=
  ⟨wf_start, rfl, rfl, ⟨_, rfl⟩⟩

/-- C88 and C89 (partial).  In a function made of assignments to any keys — also
to keys that have others below them, such as `x` when `x.b` was narrowed —, of
plain statements that assign only keys without others below or above them, and
of `if (n := e):` for names `n` not used before, what is said about types is true
of every run, under the conditions of `types_true_partial`.  Missing: assignments
to keys with others below them inside of branches and loops, and `:=` for a name
that was bound before or that has keys below it, or below `and`, `or` and `not`:
there the code is wrong (`child_branches_violation`, `child_walrus_violation`,
`walrus_and_violation`, `walrus_if_violation`). -/
theorem body_types_true_partial (L : Lawful O S) {ss : List (Stmt Ty P)}
    (hl : (chain ss).Labelled) (hb : Body (fun k => (chain ss).Mentions k) (fun _ => False) ss)
    (h1 : ∀ ev ∈ (analyseFunction O (chain ss)).1, LoopOk S O ev)
    (h2 : ∀ ev ∈ (analyseFunction O (chain ss)).1, BreakOk ev)
    (h3 : ∀ ev ∈ (analyseFunction O (chain ss)).1, TryOk S O ev) :
    TellsTruth S O (chain ss) (analyseFunction O (chain ss)).1 := by
  intro env env' l k v hw hx hv
  have hdone := (body_done (O := O) L ss (fun _ => False) start env env' _ hb
    (fun k hk => hk.resolve_left (fun h => h)) top_start rfl fits_start hw hx
    (fun ev h => ⟨h1 ev h, h2 ev h, h3 ev h⟩)).1
  obtain ⟨t, ht, hm⟩ := hdone.probe l k rfl v (probe_mentions hx rfl) hv
  refine ⟨⟨_, ht⟩, fun c hc => ⟨t, ?_, hm⟩⟩
  exact report_unique hl hc ht

/-- C88 and C89 (partial).  Without loops, `try` and `with` there are no further
conditions. -/
theorem straight_body_types_true_partial (L : Lawful O S) {ss : List (Stmt Ty P)}
    (hl : (chain ss).Labelled) (hb : Body (fun k => (chain ss).Mentions k) (fun _ => False) ss)
    (hs : (chain ss).Straight) :
    TellsTruth S O (chain ss) (analyseFunction O (chain ss)).1 := by
  have hlog : ∀ ev ∈ (analyseFunction O (chain ss)).1, ∃ l k c, ev = Event.read l k c :=
    fun ev h => ((straight_log (O := O) (chain ss) start hs rfl).2 ev h).resolve_left
      (by simp [start])
  refine body_types_true_partial L hl hb ?_ ?_ ?_ <;>
  · intro ev h
    obtain ⟨l, k, c, rfl⟩ := hlog ev h
    trivial

/-- C91 (partial).  The same for the end of the function. -/
theorem body_end_true_partial (L : Lawful O S) {ss : List (Stmt Ty P)}
    (hb : Body (fun k => (chain ss).Mentions k) (fun _ => False) ss)
    (h1 : ∀ ev ∈ (analyseFunction O (chain ss)).1, LoopOk S O ev)
    (h2 : ∀ ev ∈ (analyseFunction O (chain ss)).1, BreakOk ev)
    (h3 : ∀ ev ∈ (analyseFunction O (chain ss)).1, TryOk S O ev)
    (h : (analyseFunction O (chain ss)).2 = true) : ¬ EndReached S O (chain ss) := by
  rintro ⟨env, env', hw, hx⟩
  have hdone := (body_done (O := O) L ss (fun _ => False) start env env' _ hb
    (fun k hk => hk.resolve_left (fun h => h)) top_start rfl fits_start hw hx
    (fun ev h => ⟨h1 ev h, h2 ev h, h3 ev h⟩)).1
  exact absurd ((hdone.normal rfl).1.symm.trans h) (by simp)

end

namespace Instance

open Stmt

/-- `x.b` is narrowed, `x` is assigned, `x.b` is read; then `if (y := f()):` with
reads of `y` in both branches and after them. -/
def bodyExample : List S' :=
  [assign x (some' [0]), assign xb (some' [0]), read 1 xb, assign x (some' [1]), read 2 xb,
    ite (.walrus 1 (some' [0, 2]) [2]) (read 3 y) (read 4 y), read 5 y]

theorem bodyExample_mentions {k : Key} (h : (chain bodyExample).Mentions k) :
    k = x ∨ k = xb ∨ k = y := by
  simp only [chain, bodyExample, Stmt.Mentions, Cond.Mentions, Expr.Mentions, some', y] at h ⊢
  grind

theorem bodyExample_body :
    Body (fun k => (chain bodyExample).Mentions k) (fun _ => False) bodyExample := by
  refine ⟨Or.inl ⟨_, _, rfl⟩, Or.inl ⟨_, _, rfl⟩,
    Or.inr (Or.inl ⟨trivial, fun _ h => h, fun _ _ h => h.elim⟩), Or.inl ⟨_, _, rfl⟩,
    Or.inr (Or.inl ⟨trivial, fun _ h => h, fun _ _ h => h.elim⟩),
    Or.inr (Or.inr ⟨_, _, _, _, _, rfl, trivial, trivial, ?_, ?_, ?_⟩),
    Or.inr (Or.inl ⟨trivial, fun _ h => h, fun _ _ h => h.elim⟩), trivial⟩
  · intro m h
    simp [Stmt.Deletes] at h
  · intro a k ha hk
    simp only [Stmt.Assigns, Cond.Assigns, or_false] at ha
    subst ha
    rcases bodyExample_mentions hk with rfl | rfl | rfl <;> decide
  · simp [Stmt.Mentions, Expr.Mentions, some', x, xb]

example : TellsTruth sem ops (chain bodyExample) (analyseFunction ops (chain bodyExample)).1 :=
  straight_body_types_true_partial lawful (by unfold Stmt.Labelled; decide +kernel) bodyExample_body
    (by simp [chain, bodyExample, Stmt.Straight])

/-- The old `x.b` is forgotten, and `y` has the parts of its type in the branches. -/
example : reports (chain bodyExample) =
    [(1, xb, .typ [0]), (2, xb, .typ [0, 1, 2]), (3, y, .typ [2]), (4, y, .typ [0]),
      (5, y, .typ [0, 2])] := by decide +kernel

end Instance
end Verif.Flow
