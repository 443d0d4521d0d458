/-
Properties of the flow analysis: what is said about the type of a name or an
attribute where it is read, and about the end of a function.
-/
import Verif.Flow.Top
import Verif.Flow.Instance

namespace Verif.Flow

section
variable {Ty P V : Type} {O : Ops Ty P} {S : Sem Ty V P}

/-- C87 (partial).  In a function made of assignments, `assert`, `if`, loops,
`with` and `try` with handlers, what is said about types where keys are read is
true of every run, provided that the keys assigned in a loop are not narrowed
when the loop is entered (`LoopOk`), no key that was assigned in a loop is tested
in a frame of its own around a `break` (`BreakOk`), and what is noted for the
handlers of a `try` has room for what was known before it (`TryOk`). -/
theorem types_true_partial (L : Lawful O S) {pre : List (Key × Expr Ty)} {s : Stmt Ty P}
    (hl : (Stmt.seq (bindAll pre) s).Labelled) (hfl : Flat (.seq (bindAll pre) s)) (hp : s.Plain)
    (hd : ∀ n, s.Deletes n → ∃ e, (Key.name n, e) ∈ pre)
    (h1 : ∀ ev ∈ (analyseFunction O (.seq (bindAll pre) s)).1, LoopOk S O ev)
    (h2 : ∀ ev ∈ (analyseFunction O (.seq (bindAll pre) s)).1, BreakOk ev)
    (h3 : ∀ ev ∈ (analyseFunction O (.seq (bindAll pre) s)).1, TryOk S O ev) :
    TellsTruth S O (.seq (bindAll pre) s) (analyseFunction O (.seq (bindAll pre) s)).1 := by
  intro env env' l k v hw hx hv
  have hpost := function_sound L hfl hp hd
    (fun ev h => ⟨h1 ev h, h2 ev h, h3 ev h⟩) hw hx
  obtain ⟨t, ht, hm⟩ := hpost.probe l k rfl v (probe_mentions hx rfl) hv
  refine ⟨⟨_, ht⟩, fun c hc => ⟨t, ?_, hm⟩⟩
  exact report_unique hl hc ht

/-- C86 (partial).  The same without `try` and `with`. -/
theorem loop_types_true_partial (L : Lawful O S) {pre : List (Key × Expr Ty)} {s : Stmt Ty P}
    (hl : (Stmt.seq (bindAll pre) s).Labelled) (hfl : Flat (.seq (bindAll pre) s)) (hp : s.Plain)
    (hn : s.NoTry) (hd : ∀ n, s.Deletes n → ∃ e, (Key.name n, e) ∈ pre)
    (h1 : ∀ ev ∈ (analyseFunction O (.seq (bindAll pre) s)).1, LoopOk S O ev)
    (h2 : ∀ ev ∈ (analyseFunction O (.seq (bindAll pre) s)).1, BreakOk ev) :
    TellsTruth S O (.seq (bindAll pre) s) (analyseFunction O (.seq (bindAll pre) s)).1 :=
  types_true_partial L hl hfl hp hd h1 h2 (fun ev h =>
    ((noTry_log (V := V) (O := O) (.seq (bindAll pre) s) ⟨bindAll_noTry pre, hn⟩ start ev h).resolve_left
      (by simp [start])) S)

/-- C85.  In a function without loops, `try` and `with`, that deletes only names
it has bound at its start, what is said about types is true of every run. -/
theorem straight_types_true (L : Lawful O S) {pre : List (Key × Expr Ty)} {s : Stmt Ty P}
    (hl : (Stmt.seq (bindAll pre) s).Labelled) (hfl : Flat (.seq (bindAll pre) s)) (hp : s.Plain)
    (hs : s.Straight) (hd : ∀ n, s.Deletes n → ∃ e, (Key.name n, e) ∈ pre) :
    TellsTruth S O (.seq (bindAll pre) s) (analyseFunction O (.seq (bindAll pre) s)).1 := by
  have hlog : ∀ ev ∈ (analyseFunction O (.seq (bindAll pre) s)).1,
      ∃ l k c, ev = Event.read l k c := fun ev h =>
    ((straight_log (O := O) (.seq (bindAll pre) s) start ⟨bindAll_straight pre, hs⟩ rfl).2 ev
      h).resolve_left (by simp [start])
  refine types_true_partial L hl hfl hp hd ?_ ?_ ?_ <;>
  · intro ev h
    obtain ⟨l, k, c, rfl⟩ := hlog ev h
    trivial

/-- C91 (partial).  When the end of a function is taken to be unreachable, no
run reaches it; under the same conditions. -/
theorem end_true_partial (L : Lawful O S) {pre : List (Key × Expr Ty)} {s : Stmt Ty P}
    (hfl : Flat (.seq (bindAll pre) s)) (hp : s.Plain)
    (hd : ∀ n, s.Deletes n → ∃ e, (Key.name n, e) ∈ pre)
    (h1 : ∀ ev ∈ (analyseFunction O (.seq (bindAll pre) s)).1, LoopOk S O ev)
    (h2 : ∀ ev ∈ (analyseFunction O (.seq (bindAll pre) s)).1, BreakOk ev)
    (h3 : ∀ ev ∈ (analyseFunction O (.seq (bindAll pre) s)).1, TryOk S O ev)
    (h : (analyseFunction O (.seq (bindAll pre) s)).2 = true) :
    ¬ EndReached S O (.seq (bindAll pre) s) := by
  rintro ⟨env, env', hw, hx⟩
  have hpost := function_sound L hfl hp hd
    (fun ev h => ⟨h1 ev h, h2 ev h, h3 ev h⟩) hw hx
  have := (hpost.normal rfl).1
  exact absurd (this.symm.trans h) (by simp)

/-- C91 (partial).  Without loops, `try` and `with` there are no further
conditions. -/
theorem straight_end_true_partial (L : Lawful O S) {pre : List (Key × Expr Ty)} {s : Stmt Ty P}
    (hfl : Flat (.seq (bindAll pre) s)) (hp : s.Plain) (hs : s.Straight)
    (hd : ∀ n, s.Deletes n → ∃ e, (Key.name n, e) ∈ pre)
    (h : (analyseFunction O (.seq (bindAll pre) s)).2 = true) :
    ¬ EndReached S O (.seq (bindAll pre) s) := by
  have hlog : ∀ ev ∈ (analyseFunction O (.seq (bindAll pre) s)).1,
      ∃ l k c, ev = Event.read l k c := fun ev h =>
    ((straight_log (O := O) (.seq (bindAll pre) s) start ⟨bindAll_straight pre, hs⟩ rfl).2 ev
      h).resolve_left (by simp [start])
  refine end_true_partial L hfl hp hd ?_ ?_ ?_ h <;>
  · intro ev h
    obtain ⟨l, k, c, rfl⟩ := hlog ev h
    trivial

end
end Verif.Flow
