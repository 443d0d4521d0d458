/-
Properties of the flow analysis: the levels of the stack, and types that are
not too wide.
-/
import Verif.Flow.Attained
import Verif.Flow.Violations

namespace Verif.Flow

section
variable {Ty P V : Type} {O : Ops Ty P} {S : Sem Ty V P}

/-- C92.  Whatever the program, its analysis takes away exactly the frames, the
`try`s and the loops it has added: only the frame at the top can have changed,
so that no `pop().unwrap()` fails and what is known in the blocks around is as it
was. -/
theorem stacks_balanced (s : Stmt Ty P) (st : St Ty P) (h : st.frames ≠ []) :
    (analyse O s st).frames ≠ [] ∧ (analyse O s st).frames.tail = st.frames.tail ∧
    (analyse O s st).tries.length = st.tries.length ∧
    (analyse O s st).loop.isSome = st.loop.isSome := by
  have hs := same_analyse (O := O) s st
  obtain ⟨f, R, hf⟩ : ∃ f R, st.frames = f :: R := by
    cases hfr : st.frames with
    | nil => exact absurd hfr h
    | cons f R => exact ⟨f, R, rfl⟩
  obtain ⟨f', h1⟩ := hs.frames f R hf
  refine ⟨by rw [h1]; simp, by rw [h1, hf]; rfl, hs.tries, ?_⟩
  have := congrArg Option.isSome hs.loop
  simpa using this

/-- C92.  What is read after a block that was analysed in a frame of its own is
what would have been read before it. -/
theorem nested_block_reads_same (s : Stmt Ty P) (f : Frame Ty) (st : St Ty P) (k : Key) :
    readClaim O (withFrame f (analyse O s) st).2.frames k = readClaim O st.frames k := by
  rw [frames_withFrame (fun st => same_analyse s st) st]

/-- C93 (partial).  In a function without loops, `try`, `with` and `del`, and
with conditions about values that have no name, every value of a type that is
reported for a read occurs there in a run; and when the end of the function is
taken to be reachable, there is a run that reaches it.  Missing: tests of names,
after which the analysis forgets how the values of two names go together. -/
theorem only_what_occurs_partial (L : Lawful O S) (X : Exact S O) {s : Stmt Ty P}
    (ho : s.Opaque S O) (hfl : Flat s) :
    TellsOnlyWhatOccurs S O s (analyseFunction O s).1 ∧
    ((analyseFunction O s).2 = false → EndReached S O s) := by
  have lv : Level s.Assigns s.Mentions := fun a k ha hk => (hfl a k ha hk).1
  have hinit : ∃ env₀ : Env V, Whole O S s.Mentions env₀ := by
    choose w hw using X.declared
    refine ⟨fun k => some (w k), ?_, fun k _ => ⟨w k, rfl⟩⟩
    intro k v hv
    cases hv
    exact hw k
  obtain ⟨env₀, h₀⟩ := hinit
  obtain ⟨f', h1, hr⟩ := res_analyse L X lv s ho (fun _ h => h) (fun _ h => h) start ⟨[], false⟩ []
    rfl (by
      intro g hg
      rw [List.mem_singleton] at hg
      rw [hg]
      exact tidy_nil) rfl
  have hatt : Att O S s.Mentions (fun env => Whole O S s.Mentions env) [⟨[], false⟩] := by
    intro k v _ hv
    have hv' : S.mem v (O.decl k) := hv
    exact ⟨env₀.set k v, set_whole h₀ hv', by simp [Env.set]⟩
  constructor
  · intro l k c hc
    rcases hr.reads _ (fun _ h => h) ⟨env₀, h₀⟩ hatt l k c hc with h | ⟨t, h2, h3⟩
    · simp [start] at h
    · refine ⟨t, h2, fun v hv => ?_⟩
      obtain ⟨env, env', g1, g2, g3⟩ := h3 v hv
      exact ⟨env, env', g1.typed, g2, g3⟩
  · intro hu
    have hu' : f'.unreachable = false := by
      simpa [analyseFunction, isUnreachable, h1] using hu
    obtain ⟨env', g1, _, _⟩ := hr.pass hu' env₀ h₀
    exact ⟨env₀, env', h₀.typed, g1⟩

end

namespace Instance

theorem exact : Exact sem ops where
  join v a b h := by
    simp only [sem, ops, List.mem_append, List.mem_filter] at h ⊢
    exact h.imp id (·.1)
  never t h := by
    cases t with
    | nil => cases h
    | cons v t => exact ⟨v, by simp [sem]⟩
  split_pos p t a b v h hm := by
    simp only [sem, ops, Option.some.injEq, Prod.mk.injEq] at *
    rw [← h.1] at hm
    exact List.mem_filter.mp hm
  split_neg p t a b v h hm := by
    simp only [sem, ops, Option.some.injEq, Prod.mk.injEq] at *
    rw [← h.2] at hm
    obtain ⟨h1, h2⟩ := List.mem_filter.mp hm
    exact ⟨h1, by simpa using h2⟩
  unknown p t h := by cases h
  declared k := ⟨0, by simp [sem, ops]⟩

open Stmt in
/-- `x = 1`, in one branch `x = "a"`, and in another nothing after a `return`. -/
def exactExample : S' :=
  block [assign x (some' [0]), ite unknown (ite always (assign x (some' [1])) (read 0 x))
    (block [ite unknown (assign x (.key y)) leave, assign y (some' [2])]), read 1 x, read 2 y]

example : reports exactExample = [(1, x, .typ [1, 0, 2]), (2, y, .typ [0, 1, 2])] := by
  decide +kernel

example : TellsOnlyWhatOccurs sem ops exactExample (analyseFunction ops exactExample).1 ∧
    EndReached sem ops exactExample := by
  have h := only_what_occurs_partial lawful exact (s := exactExample) ?_ (flat_names ?_)
  · exact ⟨h.1, h.2 (by decide +kernel)⟩
  · refine ⟨?_, ?_, trivial, trivial, trivial⟩
    · exact ⟨⟨0, by simp [sem]⟩, by simp [sem, ops]⟩
    · refine ⟨⟨0, by simp [sem]⟩, ⟨⟨0, by simp [sem]⟩, ⟨⟨1, by simp [sem]⟩, by simp [sem, ops]⟩,
        trivial⟩, ?_⟩
      exact ⟨⟨⟨0, by simp [sem]⟩, fun v h => h, trivial⟩,
        ⟨⟨2, by simp [sem]⟩, by simp [sem, ops]⟩, trivial⟩
  · intro k h
    simp [exactExample, block, Stmt.Mentions, Cond.Mentions, Expr.Mentions, unknown, always,
      some', x, y] at h
    by_cases hk : k = .name 0
    · exact ⟨_, hk⟩
    · simp [hk] at h
      exact ⟨_, h⟩

open Stmt in
/-- `y = x`, and `y` is read where `x` is `None`. -/
def copied : S' := .seq (assign y (.key x)) (ite (isNone x) (read 0 y) skip)

/-- C93.  A test of one name says nothing about a copy of it: `y` is reported
with values it does not have there. -/
theorem copied_name_violation :
    ¬ TellsOnlyWhatOccurs sem ops copied (analyseFunction ops copied).1 := by
  intro h
  have hlog : Event.read 0 y (.typ [0, 1, 2]) ∈ (analyseFunction ops copied).1 := by
    have : (analyseFunction ops copied).1 = [Event.read 0 y (.typ [0, 1, 2])] := rfl
    rw [this]
    simp
  obtain ⟨t, ht, hv⟩ := h 0 y _ hlog
  cases ht
  obtain ⟨env, env', _, hx, he⟩ := hv 0 (by simp [sem])
  unfold copied at hx
  cases hx with
  | seq ha hb =>
    cases ha with
    | assign hev has =>
      cases hb with
      | ite_true hc hd =>
        cases hd
        unfold isNone at hc
        generalize hbv : true = bv at hc
        cases hc with
        | test hk =>
          have h1 := has.other x (by decide) (by decide)
          have h2 : env x = some _ := hev
          have h3 := has.here
          rw [h2, hk] at h1
          rw [h3] at he
          cases he
          cases h1
          simp [sem] at hbv
      | ite_false hc hd => cases hd
  | seq_stop ha hn => cases ha

end Instance
end Verif.Flow
