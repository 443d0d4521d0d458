/-
What happens in a frame stays in that frame: for all programs.
-/
import Verif.Flow.Top

namespace Verif.Flow

section
variable {Ty P V : Type} {O : Ops Ty P}

/-- Only the frame at the top was changed, none was left behind, and no `try` or
loop was left open. -/
structure Same (st st' : St Ty P) : Prop where
  frames : ∀ f R, st.frames = f :: R → ∃ f', st'.frames = f' :: R
  tries : st'.tries.length = st.tries.length
  loop : st'.loop.map (·.index) = st.loop.map (·.index)

theorem same_refl (st : St Ty P) : Same st st := ⟨fun f _ h => ⟨f, h⟩, rfl, rfl⟩

theorem Same.trans {a b c : St Ty P} (h : Same a b) (h' : Same b c) : Same a c :=
  ⟨fun f R hf => by
    obtain ⟨f', h1⟩ := h.frames f R hf
    exact h'.frames f' R h1, h'.tries.trans h.tries, h'.loop.trans h.loop⟩

theorem same_onTop (g : Frame Ty → Frame Ty) (st : St Ty P) : Same st (onTop g st) :=
  ⟨fun f R h => ⟨g f, by simp [onTop, mapTop, h]⟩, rfl, rfl⟩

theorem same_overwriteEntry (st : St Ty P) (e : Entry Ty) : Same st (overwriteEntry O st e) :=
  ⟨fun f R h => ⟨overwriteTop e f, by simp [overwriteEntry, h]⟩, by simp [overwriteEntry], rfl⟩

theorem same_mergeFold (as : List (Entry Ty)) : ∀ (acc : St Ty P × List (Entry Ty)),
    Same acc.1 (as.foldl (mergeStep O) acc).1 := by
  induction as with
  | nil => intro acc; exact same_refl _
  | cons a as ih =>
    intro acc
    rw [List.foldl_cons]
    refine Same.trans ?_ (ih _)
    unfold mergeStep
    split
    · split <;> exact same_overwriteEntry _ _
    · exact same_refl _

theorem same_mergeConditional (st : St Ty P) (t f : Frame Ty) :
    Same st (mergeConditional O st t f) := by
  unfold mergeConditional
  split
  · split
    · exact same_onTop _ _
    · split
      · exact same_onTop _ _
      · exact same_onTop _ _
  · exact (same_mergeFold (O := O) t.entries (st, f.entries)).trans
      (same_mergeFold (t.entries.foldl (mergeStep O) (st, f.entries)).2
        ((t.entries.foldl (mergeStep O) (st, f.entries)).1, t.entries))

/-- Whatever is done inside of a frame, the frames outside are as before. -/
theorem frames_withFrame {f : Frame Ty} {g : St Ty P → St Ty P} (hg : ∀ st, Same st (g st))
    (st : St Ty P) : (withFrame f g st).2.frames = st.frames := by
  obtain ⟨f', h⟩ := (hg { st with frames := f :: st.frames }).frames f st.frames rfl
  simp [withFrame, h]

theorem same_withFrame {f : Frame Ty} {g : St Ty P → St Ty P} (hg : ∀ st, Same st (g st))
    (st : St Ty P) : Same st (withFrame f g st).2 :=
  ⟨fun f' _ h => ⟨f', (frames_withFrame hg st).trans h⟩,
    (hg { st with frames := f :: st.frames }).tries,
    (hg { st with frames := f :: st.frames }).loop⟩

theorem same_frames {a a' b b' : St Ty P} (h : Same a b) (ha : a'.frames = a.frames)
    (hb : b'.frames = b.frames) (hat : a'.tries.length = a.tries.length)
    (hbt : b'.tries.length = b.tries.length) (hal : a'.loop.map (·.index) = a.loop.map (·.index))
    (hbl : b'.loop.map (·.index) = b.loop.map (·.index)) : Same a' b' :=
  ⟨fun f R hf => by rw [hb]; exact h.frames f R (ha.symm.trans hf),
    by rw [hbt, h.tries, hat], by rw [hbl, h.loop, hal]⟩

/-- Conditions leave the frames as they are. -/
theorem frames_guards : ∀ (c : Cond Ty P) (st : St Ty P),
    (guards O c st).1.frames = st.frames ∧ Same st (guards O c st).1
  | .expr _ _, st => ⟨rfl, same_refl _⟩
  | .test _ _, st => ⟨rfl, same_refl _⟩
  | .not c, st => frames_guards c st
  | .and c d, st => by
    obtain ⟨h1, h2⟩ := frames_guards c st
    unfold guards
    simp only
    split
    · exact ⟨h1, h2⟩
    · obtain ⟨h3, h4⟩ := frames_guards d { (guards O c st).1 with
        frames := (guards O c st).2.1 :: (guards O c st).1.frames }
      have h5 := congrArg List.tail h3
      refine ⟨h5.trans h1, ?_⟩
      exact h2.trans ⟨fun f R h => ⟨f, h5.trans h⟩, h4.tries, h4.loop⟩
  | .or c d, st => by
    obtain ⟨h1, h2⟩ := frames_guards c st
    unfold guards
    simp only
    split
    · exact ⟨h1, h2⟩
    · obtain ⟨h3, h4⟩ := frames_guards d { (guards O c st).1 with
        frames := (guards O c st).2.2 :: (guards O c st).1.frames }
      have h5 := congrArg List.tail h3
      refine ⟨h5.trans h1, ?_⟩
      exact h2.trans ⟨fun f R h => ⟨f, h5.trans h⟩, h4.tries, h4.loop⟩
  | .walrus n e p, st => by
    have hs : ∀ t, ∀ st : St Ty P, Same st (saveNarrowed O st (.name n) t) :=
      fun t st => same_overwriteEntry _ _
    unfold guards walrusGuards
    simp only
    split <;> exact ⟨frames_withFrame (hs _) st, same_withFrame (hs _) st⟩

theorem same_whenReachable {g : St Ty P → St Ty P} (h : ∀ st, Same st (g st)) (st : St Ty P) :
    Same st (whenReachable g st) := by
  unfold whenReachable
  split
  · exact same_refl st
  · exact h st

theorem same_processLoop {cond : Bool} {t f : Frame Ty} {g h : St Ty P → St Ty P}
    (hg : ∀ st, Same st (g st)) (hh : ∀ st, Same st (h st)) (st : St Ty P) :
    Same st (processLoop O cond t f g h st) := by
  unfold processLoop
  simp only
  refine Same.trans ?_ (same_mergeConditional _ _ _)
  refine Same.trans ?_ (same_withFrame hh _)
  have h1 := same_withFrame (f := t) hg { st with loop := some ⟨[], [], st.frames.length⟩ }
  exact ⟨fun f R hf => h1.frames f R hf, h1.tries, rfl⟩

theorem same_withTryFrame {g : St Ty P → St Ty P} (hg : ∀ st, Same st (g st)) (st : St Ty P) :
    Same st (withTryFrame g st).2.2 := by
  have h1 := same_withFrame (f := Frame.conditional) hg { st with tries := [] :: st.tries }
  refine ⟨fun f R hf => h1.frames f R hf, ?_, h1.loop⟩
  have := h1.tries
  simp only [withTryFrame, List.length_tail, List.length_cons] at this ⊢
  omega

theorem same_handlers {n : Nat} {start : Frame Ty} {hs : Fin n → St Ty P → St Ty P}
    (hh : ∀ i st, Same st (hs i st)) :
    ∀ (is : List (Fin n)) (acc : Frame Ty × St Ty P),
    Same acc.2 (is.foldl (fun acc i => handlerStep O start acc (hs i)) acc).2 := by
  intro is
  induction is with
  | nil => intro acc; exact same_refl _
  | cons i is ih =>
    intro acc
    rw [List.foldl_cons]
    refine Same.trans ?_ (ih _)
    exact same_withFrame (hh i) acc.2

theorem same_tryEnd {ok exc : Frame Ty} {g : St Ty P → St Ty P} (hg : ∀ st, Same st (g st))
    (st : St Ty P) : Same st (tryEnd O ok exc g st) := by
  unfold tryEnd
  simp only
  refine (same_mergeConditional (O := O) st ok exc).trans ?_
  split
  · exact ((same_onTop _ _).trans (hg _)).trans (same_onTop _ _)
  · exact hg _

theorem same_tryElse {t : Frame Ty} {g : St Ty P → St Ty P} (hg : ∀ st, Same st (g st))
    (st : St Ty P) : Same st (tryElse O t g st).2 := by
  have h1 := same_withFrame (f := if t.unreachable then Frame.dead else Frame.conditional) hg
    { st with frames := t :: st.frames }
  have h2 := frames_withFrame (f := if t.unreachable then Frame.dead else Frame.conditional) hg
    { st with frames := t :: st.frames }
  have h3 := congrArg List.tail h2
  exact ⟨fun f R hf => ⟨f, h3.trans hf⟩, h1.tries, h1.loop⟩

theorem same_analyse : ∀ (s : Stmt Ty P) (st : St Ty P), Same st (analyse O s st)
  | .skip, st => same_refl st
  | .read l k, st => same_whenReachable
      (g := fun st => { st with log := st.log ++ [.read l k (readClaim O st.frames k)] })
      (fun st => ⟨fun f _ h => ⟨f, h⟩, rfl, rfl⟩) st
  | .assign _ _, st => same_whenReachable (fun st => same_overwriteEntry _ _) st
  | .untyped _, st => same_whenReachable (fun st => same_onTop _ _) st
  | .del _, st => same_whenReachable (fun st => same_overwriteEntry _ _) st
  | .assert c, st => same_whenReachable
      (fun st => (frames_guards c st).2.trans (same_onTop _ _)) st
  | .leave, st => same_whenReachable (fun st => same_onTop _ _) st
  | .raise, st => same_whenReachable (fun st => same_onTop _ _) st
  | .brk, st => same_whenReachable (fun st => by
      unfold breakStmt
      split
      · exact same_refl st
      · rename_i l hl
        refine Same.trans ?_ (same_onTop _ _)
        exact ⟨fun f _ h => ⟨f, h⟩, rfl, by simp [hl]⟩) st
  | .cont, st => same_whenReachable (fun st => by
      unfold continueStmt
      split
      · exact same_refl st
      · rename_i l hl
        refine Same.trans ?_ (same_onTop _ _)
        exact ⟨fun f _ h => ⟨f, h⟩, rfl, by simp [hl]⟩) st
  | .seq a b, st => (same_analyse a st).trans (same_analyse b _)
  | .ite c a b, st => same_whenReachable (fun st => by
      refine Same.trans ?_ (same_mergeConditional _ _ _)
      refine Same.trans ?_ (same_withFrame (same_analyse b) _)
      exact (frames_guards c st).2.trans (same_withFrame (same_analyse a) _)) st
  | .whileS c b e, st => same_whenReachable (fun st => by
      refine Same.trans ?_ (same_processLoop (same_analyse b) (same_analyse e) _)
      refine (frames_guards (O := O) c st).2.trans ⟨fun f _ h => ⟨f, h⟩, rfl, rfl⟩) st
  | .forS k t b e, st => same_whenReachable (fun st => by
      refine Same.trans (b := { st with log := st.log ++ [.loop st.frames b (some k)] })
        ⟨fun f _ h => ⟨f, h⟩, rfl, rfl⟩ ?_
      exact same_processLoop
        (fun st => (same_overwriteEntry (O := O) st _).trans (same_analyse b _))
        (same_analyse e) _) st
  | .guarded b, st => same_whenReachable (fun st =>
      (same_withTryFrame (same_analyse b) st).trans (same_onTop _ _)) st
  | .tryS b n hs he e f, st => same_whenReachable (fun st => by
      have h1 := same_withTryFrame (same_analyse b) st
      have h2 := same_handlers (O := O) (start := (withTryFrame (analyse O b) st).2.1)
        (fun i st => same_analyse (hs i) st) (List.finRange n)
        (Frame.dead, (withTryFrame (analyse O b) st).2.2)
      simp only
      split
      · exact ((h1.trans h2).trans (same_tryElse (same_analyse e) _)).trans
          (same_tryEnd (same_analyse f) _)
      · exact (h1.trans h2).trans (same_tryEnd (same_analyse f) _)) st

end
end Verif.Flow
