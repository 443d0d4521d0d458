/-
The claim of `Verif.Flow.Sound`, by induction on the run.
-/
import Verif.Flow.Sound

namespace Verif.Flow

section
variable {Ty P V : Type} {O : Ops Ty P} {S : Sem Ty V P} {A M D : Key → Prop}

theorem whenReachable_eq {g : St Ty P → St Ty P} {st : St Ty P} (h : isUnreachable st = false) :
    whenReachable g st = g st := by
  unfold whenReachable
  rw [if_neg (by simp [h])]

theorem post_raised {env : Env V} {st : St Ty P} : Post O S A M .raised env env st :=
  ⟨changed_refl, fun h => (by cases h), fun h => (by cases h), fun l k h => (by cases h)⟩

theorem reach_cons {f : Frame Ty} {st : St Ty P} (h : f.unreachable = false) :
    isUnreachable (push f st) = false := h

/-- What `analyse` of an `if` does, in parts. -/
theorem ite_parts (L : Lawful O S) (ap : Apart A M D) {c : Cond Ty P} {a b : Stmt Ty P}
    {st : St Ty P} (hin : In A M D (.ite c a b)) (hp : (Stmt.ite c a b).Plain) (hw : WF M D st)
    (hr : isUnreachable st = false) :
    ∃ f1 st1 f2 st2, Framed S A M D (guards O c st).2.1 (analyse O a) st f1 st1 ∧
      Framed S A M D (guards O c st).2.2 (analyse O b) st1 f2 st2 ∧
      analyse O (.ite c a b) st = mergeConditional O st2 f1 f2 := by
  have hg := guardOk_guards (O := O) hp.1 (fun k hk => hin.mentions k (Or.inl hk)) st
  obtain ⟨f1, st1, h1⟩ := framed (good_analyse (O := O) (S := S) L ap a hin.ite_left hp.2.1) hw
    (hg.1.entriesOk (D := D))
  obtain ⟨f2, st2, h2⟩ := framed (good_analyse (O := O) (S := S) L ap b hin.ite_right hp.2.2) h1.wf
    (hg.2.entriesOk (D := D))
  refine ⟨f1, st1, f2, st2, h1, h2, ?_⟩
  have : analyse O (.ite c a b) st = whenReachable (fun st =>
      mergeConditional O
        (withFrame (guards O c st).2.2 (analyse O b)
          (withFrame (guards O c st).2.1 (analyse O a) (guards O c st).1).2).2
        (withFrame (guards O c st).2.1 (analyse O a) (guards O c st).1).1
        (withFrame (guards O c st).2.2 (analyse O b)
          (withFrame (guards O c st).2.1 (analyse O a) (guards O c st).1).2).1) st := rfl
  rw [this, whenReachable_eq hr]
  simp only [guards_state hp.1, h1.eq, h2.eq]

/-- What `analyse` of a `while` does, in parts. -/
theorem while_parts (L : Lawful O S) (ap : Apart A M D) {c : Cond Ty P} {b e : Stmt Ty P}
    {st : St Ty P} (hin : In A M D (.whileS c b e)) (hp : (Stmt.whileS c b e).Plain)
    (hw : WF M D st) (hr : isUnreachable st = false) :
    ∃ f1 l st1 f2 st2,
      Looped S A M D (guards O c st).2.1 (analyse O b)
        { st with log := st.log ++ [.loop st.frames b none] } f1 l st1 ∧
      Framed S A M D (afterBody O true st.frames (guards O c st).2.2 f1 l.continues)
        (analyse O e) st1 f2 st2 ∧
      analyse O (.whileS c b e) st =
        mergeConditional O st2
          (l.breaks.foldl (fun a c => mergeOr O st.frames a c false) f2) Frame.dead ∧
      EntriesOk M D
        (l.breaks.foldl (fun a c => mergeOr O st.frames a c false) f2).entries ∧
      WF M D { st with log := st.log ++ [.loop st.frames b none] } := by
  have hg := guardOk_guards (O := O) hp.1 (fun k hk => hin.mentions k (Or.inl hk)) st
  have hs := step_logged (S := S) (A := A) hw [.loop st.frames b none]
  obtain ⟨f1, l, st1, f2, st2, h1, h2, h3, h4, h5⟩ := processLoop_parts (O := O) (S := S) (A := A)
    L ap (cond := true)
    (good_analyse (O := O) (S := S) L ap b hin.while_body hp.2.1)
    (good_analyse (O := O) (S := S) L ap e hin.while_else hp.2.2) hs.wf hg.1 hg.2
  refine ⟨f1, l, st1, f2, st2, h1, h2, ?_, h4, hs.wf⟩
  have : analyse O (.whileS c b e) st = whenReachable (fun st =>
      processLoop O true (guards O c st).2.1 (guards O c st).2.2 (analyse O b) (analyse O e)
        { (guards O c st).1 with
          log := (guards O c st).1.log ++ [.loop (guards O c st).1.frames b none] }) st := rfl
  rw [this, whenReachable_eq hr]
  simp only [guards_state hp.1]
  exact h3

/-- What `analyse` of a `for` does, in parts. -/
theorem for_parts (L : Lawful O S) (ap : Apart A M D) {k : Key} {t : Ty} {b e : Stmt Ty P}
    {st : St Ty P} (hin : In A M D (.forS k t b e)) (hp : (Stmt.forS k t b e).Plain)
    (hw : WF M D st) (hr : isUnreachable st = false) :
    ∃ f1 l st1 f2 st2,
      Looped S A M D Frame.conditional (fun s => analyse O b (saveNarrowed O s k t))
        { st with log := st.log ++ [.loop st.frames b (some k)] } f1 l st1 ∧
      Framed S A M D (afterBody O false st.frames Frame.conditional f1 l.continues)
        (analyse O e) st1 f2 st2 ∧
      analyse O (.forS k t b e) st =
        mergeConditional O st2
          (l.breaks.foldl (fun a c => mergeOr O st.frames a c false) f2) Frame.dead ∧
      EntriesOk M D
        (l.breaks.foldl (fun a c => mergeOr O st.frames a c false) f2).entries ∧
      WF M D { st with log := st.log ++ [.loop st.frames b (some k)] } := by
  have hs := step_logged (S := S) (A := A) hw [.loop st.frames b (some k)]
  have hb : Good S A M D (fun s => analyse O b (saveNarrowed O s k t)) := by
    intro s hs
    have h1 := step_saveNarrowed (O := O) (S := S) (A := A) (t := t) L ap hs
      (hin.mentions k (Or.inl rfl))
    exact h1.trans (good_analyse (O := O) (S := S) L ap b hin.for_body hp.1 _ h1.wf)
  obtain ⟨f1, l, st1, f2, st2, h1, h2, h3, h4, h5⟩ := processLoop_parts (O := O) (S := S) (A := A)
    L ap (cond := false) hb
    (good_analyse (O := O) (S := S) L ap e hin.for_else hp.2) hs.wf
    (guardOk_conditional (M := M)) (guardOk_conditional (M := M))
  refine ⟨f1, l, st1, f2, st2, h1, h2, ?_, h4, hs.wf⟩
  have : analyse O (.forS k t b e) st = whenReachable (fun st =>
      processLoop O false Frame.conditional Frame.conditional
        (fun s => analyse O b (saveNarrowed O s k t)) (analyse O e)
        { st with log := st.log ++ [.loop st.frames b (some k)] }) st := rfl
  rw [this, whenReachable_eq hr]
  exact h3

theorem fits_over {st : St Ty P} {new : Frame Ty} {ow : Bool} {env : Env V} (ap : Apart A M D)
    (hw : WF M D st) (hn : EntriesOk M D new.entries)
    (h : Fits S A M (new :: st.frames) env) :
    Fits S A M (onTop (fun tos =>
      { tos with entries := overwriteEntries new.entries ow tos.entries }) st).frames env :=
  fun k v hk hv => says_over_top ap hn hw.ne (h k v hk hv)

/-- What `analyse` of a `try` does, in parts. -/
theorem try_parts (L : Lawful O S) (ap : Apart A M D) {b e : Stmt Ty P} {n : Nat}
    {hs : Fin n → Stmt Ty P} {st : St Ty P} (hin : In A M D (.tryS b n hs false e .skip))
    (hp : (Stmt.tryS b n hs false e .skip).Plain) (hw : WF M D st)
    (hr : isUnreachable st = false) :
    ∃ f' es st', Tried S A M D (analyse O b) st f' es st' ∧
      ∃ h, h = (List.finRange n).foldl
        (fun acc i => handlerStep O ⟨es, false⟩ acc (analyse O (hs i))) (Frame.dead, st') ∧
      EntriesOk M D h.1.entries ∧ WF M D h.2 ∧ Ext S A st' h.2 ∧ h.2.frames = st.frames ∧
      analyse O (.tryS b n hs false e .skip) st =
        tryEnd O (mergeOr O st.frames f' Frame.dead false) h.1 (analyse O .skip) h.2 ∧
      Step S A M D h.2 (tryEnd O (mergeOr O st.frames f' Frame.dead false) h.1 (analyse O .skip) h.2) := by
  obtain ⟨f', es, st', ht⟩ := tried (good_analyse (O := O) (S := S) L ap b hin.try_body hp.1) hw
  obtain ⟨r1, r2, r3, r4⟩ := handlers_step (O := O) (S := S) (A := A) (start := ⟨es, false⟩)
    (hs := fun i => analyse O (hs i))
    (fun i => good_analyse (O := O) (S := S) L ap (hs i) (hin.try_handler i) (hp.2.1 i))
    ht.esok.1 (List.finRange n) (Frame.dead, st') entriesOk_nil ht.wf
  refine ⟨f', es, st', ht, _, rfl, r1, r2, r3, r4.trans ht.frames, ?_,
    step_tryEnd L ap (fun st h => step_refl h) r2 (mergeOr_ok ht.ok entriesOk_nil) r1⟩
  have : analyse O (.tryS b n hs false e .skip) st = whenReachable (fun st =>
      tryEnd O
        (mergeOr O
          ((List.finRange n).foldl
            (fun acc i => handlerStep O (withTryFrame (analyse O b) st).2.1 acc (analyse O (hs i)))
            (Frame.dead, (withTryFrame (analyse O b) st).2.2)).2.frames
          (withTryFrame (analyse O b) st).1 Frame.dead false)
        ((List.finRange n).foldl
            (fun acc i => handlerStep O (withTryFrame (analyse O b) st).2.1 acc (analyse O (hs i)))
            (Frame.dead, (withTryFrame (analyse O b) st).2.2)).1
        (analyse O .skip)
        ((List.finRange n).foldl
            (fun acc i => handlerStep O (withTryFrame (analyse O b) st).2.1 acc (analyse O (hs i)))
            (Frame.dead, (withTryFrame (analyse O b) st).2.2)).2) st := rfl
  rw [this, whenReachable_eq hr]
  simp only [ht.eq]
  rw [r4.trans ht.frames]

/-- The end of a `try`. -/
theorem tryEnd_fits {st : St Ty P} {ok exc : Frame Ty} {env : Env V}
    (hr : isUnreachable st = false) (h1 : ok.unreachable = false ∨ exc.unreachable = false)
    (h2 : Fits S A M (mergeConditional O st ok exc).frames env) :
    isUnreachable (tryEnd O ok exc (analyse O .skip) st) = false ∧
      Fits S A M (tryEnd O ok exc (analyse O .skip) st).frames env := by
  have h3 : isUnreachable (mergeConditional O st ok exc) = false := by
    rw [unreachable_mergeConditional h1]; exact hr
  have h4 : tryEnd O ok exc (analyse O .skip) st = mergeConditional O st ok exc := by
    unfold tryEnd
    simp only
    rw [if_neg (by simp [h3])]
    rfl
  rw [h4]
  exact ⟨h3, h2⟩

/-- The frames at the end of a `with` say the truth. -/
theorem guarded_post (L : Lawful O S) (ap : Apart A M D) {b : Stmt Ty P} {st : St Ty P}
    (hin : In A M D (.guarded b)) (hp : (Stmt.guarded b).Plain) (hw : WF M D st)
    (hr : isUnreachable st = false) {o : Outcome} {env env' : Env V}
    (hf : Fits S A M st.frames env) (hty : WellTyped O S env')
    (hev : ∀ ev ∈ (analyse O (.guarded b) st).log, EvOk O S ev)
    (ih : (∀ ev ∈ (analyse O b (pushTry st)).log, EvOk O S ev) →
      Post O S A M o env env' (analyse O b (pushTry st))) :
    Post O S A M o env env' (analyse O (.guarded b) st) ∧
      Post O S A M .normal env env' (analyse O (.guarded b) st) := by
  obtain ⟨f', es, st', ht⟩ := tried (good_analyse (O := O) (S := S) L ap b hin.guarded_body hp) hw
  have heq : analyse O (.guarded b) st = onTop (fun tos =>
      { tos with entries := overwriteEntries es false tos.entries }) st' := by
    have : analyse O (.guarded b) st = whenReachable (fun st =>
        onTop (fun tos => { tos with
          entries := overwriteEntries (withTryFrame (analyse O b) st).2.1.entries false
            tos.entries }) (withTryFrame (analyse O b) st).2.2) st := rfl
    rw [this, whenReachable_eq hr]
    simp only [ht.eq]
  rw [heq] at hev ⊢
  have hl := ht.inner_log
  have hev' : ∀ ev ∈ st'.log, EvOk O S ev := hev
  have hpost := ih (fun ev h => hev' ev (hl.1 ev h))
  have hfit := tried_fits ht (hev' _ hl.2).2.2 hty hpost.changed hf
  have hstep : Step S A M D st' (onTop (fun tos =>
      { tos with entries := overwriteEntries es false tos.entries }) st') :=
    step_onTop ht.wf (fun _ hf => overwriteEntries_ok ht.esok.1 hf)
      (fun _ _ hd => hasD_overwriteEntries ap ht.esok.1 hd)
  have hnorm : Post O S A M .normal env env' (onTop (fun tos =>
      { tos with entries := overwriteEntries es false tos.entries }) st') := by
    refine ⟨changed_grow (changed_popTry ht hpost.changed) hstep.ext.tries, ?_,
      fun h => (by cases h), fun l k h => (by cases h)⟩
    intro _
    refine ⟨?_, ?_⟩
    · rw [unreachable_onTop_entries, reach_of_frames ht.frames]; exact hr
    · refine fits_over (new := ⟨es, false⟩) ap ht.wf ht.esok.1 ?_
      rw [ht.frames]; exact hfit
  refine ⟨?_, hnorm⟩
  by_cases ho : o = .normal
  · subst ho; exact hnorm
  · exact (hpost.popTry ht ho).later ht.wf hstep ho

/-- The analysis tells the truth about every run of a plain statement. -/
theorem exec_sound (L : Lawful O S) (ap : Apart A M D) {s : Stmt Ty P} {env env' : Env V}
    {o : Outcome} (h : Exec O S s env o env') :
    ∀ st, WF M D st → In A M D s → s.Plain → isUnreachable st = false →
    Fits S A M st.frames env → WellTyped O S env →
    (∀ ev ∈ (analyse O s st).log, EvOk O S ev) → Post O S A M o env env' (analyse O s st) := by
  induction h with
  | halt => intro st _ _ _ _ _ _ _; exact post_raised
  | skip =>
    intro st _ _ _ hr hf _ _
    exact ⟨changed_refl, fun _ => ⟨hr, hf⟩, fun h => (by cases h), fun l k h => (by cases h)⟩
  | @look l k env =>
    intro st _ hin _ hr hf hty _
    have heq : analyse O (.read l k) st =
        { st with log := st.log ++ [.read l k (readClaim O st.frames k)] } :=
      whenReachable_eq hr
    rw [heq]
    refine ⟨changed_refl, fun h => (by cases h), fun h => (by cases h), ?_⟩
    intro l' k' h v hm hv
    cases h
    obtain ⟨t, h1, h2⟩ := read_sound (O := O) (hty k v hv) (hf k v hm hv)
    exact ⟨t, by simp [h1], h2⟩
  | @read l k env v _ =>
    intro st _ _ _ hr hf _ _
    have heq : analyse O (.read l k) st =
        { st with log := st.log ++ [.read l k (readClaim O st.frames k)] } :=
      whenReachable_eq hr
    rw [heq]
    exact ⟨changed_refl, fun _ => ⟨hr, hf⟩, fun h => (by cases h), fun l k h => (by cases h)⟩
  | @assign k e env v env' he ha =>
    intro st hw hin _ hr hf hty _
    have heq : analyse O (.assign k e) st = saveNarrowed O st k (exprType O st.frames e) :=
      whenReachable_eq hr
    rw [heq]
    have ht := exprType_sound (O := O) hty hf (fun k hk => hin.mentions k (Or.inr hk)) he
    obtain ⟨h1, h2⟩ := assign_post L ap hw (hin.assigns k rfl) hf ht ha
    refine ⟨h1, fun _ => ⟨?_, h2⟩, fun h => (by cases h), fun l k h => (by cases h)⟩
    unfold saveNarrowed
    rw [unreachable_overwriteEntry]; exact hr
  | untyped _ => intro st _ _ hp _ _ _ _; cases hp
  | @del n env env' hd =>
    intro st hw hin _ hr hf hty _
    have heq : analyse O (.del n) st = overwriteEntry O st ⟨.name n, some O.error, true, true⟩ :=
      whenReachable_eq hr
    rw [heq]
    have hA := hin.assigns (.name n) rfl
    refine ⟨?_, fun _ => ⟨?_, ?_⟩, fun h => (by cases h), fun l k h => (by cases h)⟩
    · intro k hk
      by_cases hkn : k = .name n
      · subst hkn
        refine Or.inr ⟨hA, ?_⟩
        intro v hv
        rw [hd.here] at hv
        cases hv
      · exact Or.inl (hd.other k hkn (ap.below _ k hA hk))
    · rw [unreachable_overwriteEntry]; exact hr
    · intro k v hk hv
      by_cases hkn : k = .name n
      · subst hkn
        rw [hd.here] at hv
        cases hv
      · rw [hd.other k hkn (ap.below _ k hA hk)] at hv
        exact says_overwriteEntry_other (n := ⟨.name n, some O.error, true, true⟩) ap
          (ap.mentioned _ hA) (fun h => hkn h.symm) (hf k v hk hv)
  | @assert_ok c env env' hc =>
    intro st hw hin hp hr hf hty _
    have heq : analyse O (.assert c) st = overwriteFrame st (guards O c st).2.1 := by
      have : analyse O (.assert c) st = whenReachable (fun st =>
        overwriteFrame (guards O c st).1 (guards O c st).2.1) st := rfl
      rw [this, whenReachable_eq hr, guards_state hp]
    rw [heq]
    have he := evalC_env hp hc
    subst he
    have hg : GuardFits S (guards O c st).2.1 env' := guards_sound L hc hp hin.mentions hty st hf
    have ho := (guardOk_guards (O := O) hp hin.mentions st).1
    obtain ⟨f, R, hfr⟩ := hw.cons
    have hfr' : (overwriteFrame st (guards O c st).2.1).frames =
        ⟨overwriteEntries (guards O c st).2.1.entries false f.entries,
          f.unreachable || (guards O c st).2.1.unreachable⟩ :: R := by
      simp [overwriteFrame, onTop, mapTop, hfr]
    refine ⟨changed_refl, fun _ => ⟨?_, ?_⟩, fun h => (by cases h), fun l k h => (by cases h)⟩
    · unfold isUnreachable at hr ⊢
      rw [hfr]  at hr
      rw [hfr']
      simp only at hr ⊢
      rw [hr, hg.reach]; rfl
    · rw [hfr']
      intro k v hk hv
      have := fits_guard hg hf k v hk hv
      rw [hfr] at this
      exact says_overwriteEntries (u := (guards O c st).2.1.unreachable) (u' := f.unreachable) ap
        (ho.entriesOk (D := D)) this
  | assert_fail hc =>
    intro st _ _ hp _ _ _ _
    rw [evalC_env hp hc]; exact post_raised
  | assert_raise hc =>
    intro st _ _ hp _ _ _ _
    rw [raiseC_env hp hc]; exact post_raised
  | leave =>
    intro st _ _ _ _ _ _ _
    exact ⟨changed_refl, fun h => (by cases h), fun h => (by cases h), fun l k h => (by cases h)⟩
  | raise =>
    intro st _ _ _ _ _ _ _
    exact post_raised
  | @brk env =>
    intro st hw _ _ hr hf _ hev
    refine ⟨changed_refl, fun h => (by cases h), ?_, fun l k h => (by cases h)⟩
    intro _ l hl
    have heq : analyse O .brk st = breakStmt st := whenReachable_eq hr
    rw [heq] at hl hev ⊢
    cases h0 : st.loop with
    | none =>
      rw [breakStmt, h0] at hl
      simp only [h0] at hl
      cases hl
    | some l0 =>
      have hb : breakStmt st = markUnreachable { st with
          loop := some { l0 with breaks := l0.breaks ++ [mergeFrames (above l0.index st.frames)] }
          log := st.log ++ [.brk (above l0.index st.frames)] } := by
        rw [breakStmt, h0]
      rw [hb] at hl hev ⊢
      have hl' : l = { l0 with
          breaks := l0.breaks ++ [mergeFrames (above l0.index st.frames)] } :=
        (Option.some.inj hl).symm
      subst hl'
      refine ⟨mergeFrames (above l0.index st.frames), by simp, rfl, ?_⟩
      have hbo := (hev (.brk (above l0.index st.frames)) (by
        simp [markUnreachable, onTop])).2.1
      have hbase : base l0.index (markUnreachable { st with
          loop := some { l0 with breaks := l0.breaks ++ [mergeFrames (above l0.index st.frames)] }
          log := st.log ++ [.brk (above l0.index st.frames)] }).frames =
          base l0.index st.frames := by
        obtain ⟨f, R, hfr⟩ := hw.cons
        have hi := hw.index l0 h0
        rw [hfr] at hi
        simp only [List.length_cons] at hi
        simp only [markUnreachable, onTop, mapTop, hfr]
        rw [base_cons (by omega), base_cons (by omega)]
      simp only at hbase ⊢
      rw [hbase]
      refine fits_mergeFrames (fun f hf => (hw.ok f (mem_above hf)).uniq) hbo ?_
      rw [above_base]
      exact hf
  | cont =>
    intro st _ _ _ _ _ _ _
    exact ⟨changed_refl, fun h => (by cases h), fun h => (by cases h), fun l k h => (by cases h)⟩
  | @seq a b env env' o env'' h1 h2 ih1 ih2 =>
    intro st hw hin hp hr hf hty hev
    have hga := good_analyse (O := O) (S := S) L ap a hin.seq_left hp.1 st hw
    have hgb := good_analyse (O := O) (S := S) L ap b hin.seq_right hp.2 _ hga.wf
    have hev' : ∀ ev ∈ (analyse O b (analyse O a st)).log, EvOk O S ev := hev
    have p1 := ih1 st hw hin.seq_left hp.1 hr hf hty (fun ev h => hev' ev (hgb.ext.log ev h))
    obtain ⟨r1, r2⟩ := p1.normal rfl
    have p2 := ih2 (analyse O a st) hga.wf hin.seq_right hp.2 r1 r2 (exec_typed h1 hty) hev'
    exact ⟨changed_trans p1.changed hgb.ext.tries p2.changed, p2.normal, p2.brk, p2.probe⟩
  | @seq_stop a b env o env' h1 ho ih =>
    intro st hw hin hp hr hf hty hev
    have hga := good_analyse (O := O) (S := S) L ap a hin.seq_left hp.1 st hw
    have hgb := good_analyse (O := O) (S := S) L ap b hin.seq_right hp.2 _ hga.wf
    have hev' : ∀ ev ∈ (analyse O b (analyse O a st)).log, EvOk O S ev := hev
    have p1 := ih st hw hin.seq_left hp.1 hr hf hty (fun ev h => hev' ev (hgb.ext.log ev h))
    exact p1.later hga.wf hgb ho
  | @ite_true c a b env env' o env'' hc h1 ih =>
    intro st hw hin hp hr hf hty hev
    have he := evalC_env hp.1 hc
    subst he
    obtain ⟨f1, st1, f2, st2, p1, p2, heq⟩ := ite_parts (O := O) (S := S) L ap hin hp hw hr
    have hg : GuardFits S (guards O c st).2.1 env' :=
      guards_sound L hc hp.1 (fun k hk => hin.mentions k (Or.inl hk)) hty st hf
    have hgok := guardOk_guards (O := O) hp.1 (fun k hk => hin.mentions k (Or.inl hk)) st
    have hm := step_mergeConditional (O := O) (S := S) (A := A) L ap p2.wf p1.ok p2.ok
    have hs2 : Step S A M D st1 (mergeConditional O st2 f1 f2) :=
      (step_of_frames p2.wf p2.ext p2.frames).trans hm
    rw [heq] at hev ⊢
    have q1 := ih (push (guards O c st).2.1 st) (wf_push hw hgok.1.entriesOk) hin.ite_left hp.2.1
      hg.reach (fits_guard hg hf) hty (fun ev h => hev ev (hs2.ext.log ev (by
        rw [p1.st_eq]; exact h)))
    by_cases ho : o = .normal
    · subst ho
      obtain ⟨t1, t2⟩ := post_top (f := f1) p1.inner q1
      have hch : Changed S A M env' env'' st1.tries := by rw [p1.st_eq]; exact q1.changed
      refine ⟨changed_grow hch hs2.ext.tries, fun _ => ⟨?_, ?_⟩, fun h => (by cases h),
        fun l k h => (by cases h)⟩
      · rw [unreachable_mergeConditional (Or.inl t1), reach_of_frames (p2.frames.trans p1.frames)]
        exact hr
      · refine fits_mergeConditional_left L ap p2.wf p1.ok p2.ok t1 ?_
        rw [p2.frames.trans p1.frames]; exact t2
    · exact (q1.pop p1 ho).later p1.wf hs2 ho
  | @ite_false c a b env env' o env'' hc h1 ih =>
    intro st hw hin hp hr hf hty hev
    have he := evalC_env hp.1 hc
    subst he
    obtain ⟨f1, st1, f2, st2, p1, p2, heq⟩ := ite_parts (O := O) (S := S) L ap hin hp hw hr
    have hg : GuardFits S (guards O c st).2.2 env' :=
      guards_sound L hc hp.1 (fun k hk => hin.mentions k (Or.inl hk)) hty st hf
    have hgok := guardOk_guards (O := O) hp.1 (fun k hk => hin.mentions k (Or.inl hk)) st
    have hm := step_mergeConditional (O := O) (S := S) (A := A) L ap p2.wf p1.ok p2.ok
    rw [heq] at hev ⊢
    have hfr : st2.frames = st.frames := p2.frames.trans p1.frames
    have q1 := ih (push (guards O c st).2.2 st1) (wf_push p1.wf hgok.2.entriesOk) hin.ite_right
      hp.2.2 hg.reach (by
        change Fits S A M (_ :: st1.frames) env'
        rw [p1.frames]; exact fits_guard hg hf) hty
      (fun ev h => hev ev (hm.ext.log ev (by rw [p2.st_eq]; exact h)))
    by_cases ho : o = .normal
    · subst ho
      obtain ⟨t1, t2⟩ := post_top (f := f2) p2.inner q1
      have hch : Changed S A M env' env'' st2.tries := by rw [p2.st_eq]; exact q1.changed
      refine ⟨changed_grow hch hm.ext.tries, fun _ => ⟨?_, ?_⟩, fun h => (by cases h),
        fun l k h => (by cases h)⟩
      · rw [unreachable_mergeConditional (Or.inr t1), reach_of_frames hfr]
        exact hr
      · refine fits_mergeConditional_right L ap p2.wf p1.ok p2.ok t1 ?_
        rw [hfr, ← p1.frames]; exact t2
    · exact (q1.pop p2 ho).later p2.wf hm ho
  | ite_raise hc =>
    intro st _ _ hp _ _ _ _
    rw [raiseC_env hp.1 hc]; exact post_raised
  | @while_done c b e env env' o env'' hc h1 ih =>
    intro st hw hin hp hr hf hty hev
    have he := evalC_env hp.1 hc
    subst he
    obtain ⟨f1, l, st1, f2, st2, p1, p2, heq, hok, hwL⟩ :=
      while_parts (O := O) (S := S) L ap hin hp hw hr
    have hg : GuardFits S (guards O c st).2.2 env' :=
      guards_sound L hc hp.1 (fun k hk => hin.mentions k (Or.inl hk)) hty st hf
    have hgok := guardOk_guards (O := O) hp.1 (fun k hk => hin.mentions k (Or.inl hk)) st
    have hm := step_mergeConditional (O := O) (S := S) (A := A) L ap p2.wf hok
      (f := Frame.dead) entriesOk_nil
    rw [heq] at hev ⊢
    have h1f : st1.frames = st.frames := p1.frames
    obtain ⟨a1, a2⟩ := afterBody_fits (O := O) (cond := true) L ap hw.hasD hgok.2 p1.ok
      (fun f hf => p1.loop f (Or.inr hf)) hg hf
    have q := ih (push (afterBody O true st.frames (guards O c st).2.2 f1 l.continues) st1)
      (wf_push p1.wf (afterBody_ok hgok.2 p1.ok (fun f hf => p1.loop f (Or.inr hf))))
      hin.while_else hp.2.2 a1 (by
        change Fits S A M (_ :: st1.frames) env'
        rw [h1f]; exact a2) hty
      (fun ev h => hev ev (hm.ext.log ev (by rw [p2.st_eq]; exact h)))
    exact loop_exit L ap hw p1.wf h1f p1.loop p2 hok hr q
  | @while_next c b e env env' o' env'' o env''' hc h1 ho' h2 ih1 ih2 =>
    intro st hw hin hp hr hf hty hev
    have he := evalC_env hp.1 hc
    subst he
    obtain ⟨f1, l, st1, f2, st2, p1, p2, heq, hok, hwL⟩ :=
      while_parts (O := O) (S := S) L ap hin hp hw hr
    have hg : GuardFits S (guards O c st).2.1 env' :=
      guards_sound L hc hp.1 (fun k hk => hin.mentions k (Or.inl hk)) hty st hf
    have hgok := guardOk_guards (O := O) hp.1 (fun k hk => hin.mentions k (Or.inl hk)) st
    have hm := step_mergeConditional (O := O) (S := S) (A := A) L ap p2.wf hok
      (f := Frame.dead) entriesOk_nil
    have hs1 : Step S A M D st1 (analyse O (.whileS c b e) st) := by
      rw [heq]
      exact (step_of_frames p2.wf p2.ext p2.frames).trans hm
    have q1 := ih1 (pushLoop (guards O c st).2.1
        { st with log := st.log ++ [.loop st.frames b none] })
      (wf_pushLoop hwL hgok.1.entriesOk) hin.while_body hp.2.1 hg.reach (fits_guard hg hf) hty
      (fun ev h => hev ev (hs1.ext.log ev (by rw [p1.st_eq]; exact h)))
    have hty' := exec_typed h1 hty
    have hlo : LoopOk S O (Event.loop st.frames b none) :=
      (hev _ (hs1.ext.log _ (p1.ext.log _ (by simp)))).1
    have hf' : Fits S A M st.frames env'' := by
      refine loop_back hw hlo ?_ ?_ hty' hf
      · rintro k (hk | hk)
        · exact hin.while_body.assigns k hk
        · cases hk
      · intro k hk hn
        exact exec_frame ap h1 hk hin.while_body hp.2.1 (fun h => hn (Or.inl h))
    have q2 := ih2 st hw hin hp hr hf' hty' hev
    have hch : Changed S A M env' env'' st1.tries := by rw [p1.st_eq]; exact q1.changed
    exact ⟨changed_trans hch hs1.ext.tries q2.changed, q2.normal, q2.brk, q2.probe⟩
  | @while_break c b e env env' env'' hc h1 ih =>
    intro st hw hin hp hr hf hty hev
    have he := evalC_env hp.1 hc
    subst he
    obtain ⟨f1, l, st1, f2, st2, p1, p2, heq, hok, hwL⟩ :=
      while_parts (O := O) (S := S) L ap hin hp hw hr
    have hg : GuardFits S (guards O c st).2.1 env' :=
      guards_sound L hc hp.1 (fun k hk => hin.mentions k (Or.inl hk)) hty st hf
    have hgok := guardOk_guards (O := O) hp.1 (fun k hk => hin.mentions k (Or.inl hk)) st
    have hm := step_mergeConditional (O := O) (S := S) (A := A) L ap p2.wf hok
      (f := Frame.dead) entriesOk_nil
    have hs1 : Step S A M D st1 (analyse O (.whileS c b e) st) := by
      rw [heq]
      exact (step_of_frames p2.wf p2.ext p2.frames).trans hm
    have q1 := ih (pushLoop (guards O c st).2.1
        { st with log := st.log ++ [.loop st.frames b none] })
      (wf_pushLoop hwL hgok.1.entriesOk) hin.while_body hp.2.1 hg.reach (fits_guard hg hf) hty
      (fun ev h => hev ev (hs1.ext.log ev (by rw [p1.st_eq]; exact h)))
    obtain ⟨f, b1, b2, b3⟩ := q1.brk rfl l p1.details
    have hin' := p1.inner
    simp only at hin'
    rw [hin', p1.index, base_cons (Nat.le_refl _), base_all] at b3
    have hch : Changed S A M env' env'' st1.tries := by rw [p1.st_eq]; exact q1.changed
    rw [heq]
    exact loop_break L ap hw p2.wf (p2.frames.trans p1.frames) p1.loop p2.ok hok hr hch
      p2.ext.tries b1 b2 b3
  | @while_stop c b e env env' o env'' hc h1 ho ih =>
    intro st hw hin hp hr hf hty hev
    have he := evalC_env hp.1 hc
    subst he
    obtain ⟨f1, l, st1, f2, st2, p1, p2, heq, hok, hwL⟩ :=
      while_parts (O := O) (S := S) L ap hin hp hw hr
    have hg : GuardFits S (guards O c st).2.1 env' :=
      guards_sound L hc hp.1 (fun k hk => hin.mentions k (Or.inl hk)) hty st hf
    have hgok := guardOk_guards (O := O) hp.1 (fun k hk => hin.mentions k (Or.inl hk)) st
    have hm := step_mergeConditional (O := O) (S := S) (A := A) L ap p2.wf hok
      (f := Frame.dead) entriesOk_nil
    have hs1 : Step S A M D st1 (analyse O (.whileS c b e) st) := by
      rw [heq]
      exact (step_of_frames p2.wf p2.ext p2.frames).trans hm
    have q1 := ih (pushLoop (guards O c st).2.1
        { st with log := st.log ++ [.loop st.frames b none] })
      (wf_pushLoop hwL hgok.1.entriesOk) hin.while_body hp.2.1 hg.reach (fits_guard hg hf) hty
      (fun ev h => hev ev (hs1.ext.log ev (by rw [p1.st_eq]; exact h)))
    exact loop_stop p1 hs1 ho q1
  | while_raise hc =>
    intro st _ _ hp _ _ _ _
    rw [raiseC_env hp.1 hc]; exact post_raised
  | @for_done k t b e env o env' h1 ih =>
    intro st hw hin hp hr hf hty hev
    obtain ⟨f1, l, st1, f2, st2, p1, p2, heq, hok, hwL⟩ :=
      for_parts (O := O) (S := S) L ap hin hp hw hr
    have hm := step_mergeConditional (O := O) (S := S) (A := A) L ap p2.wf hok
      (f := Frame.dead) entriesOk_nil
    rw [heq] at hev ⊢
    have h1f : st1.frames = st.frames := p1.frames
    obtain ⟨a1, a2⟩ := afterBody_fits (O := O) (cond := false) L ap hw.hasD
      (guardOk_conditional (M := M)) p1.ok
      (fun f hf => p1.loop f (Or.inr hf)) guardFits_conditional hf
    have q := ih (push (afterBody O false st.frames Frame.conditional f1 l.continues) st1)
      (wf_push p1.wf (afterBody_ok guardOk_conditional p1.ok
        (fun f hf => p1.loop f (Or.inr hf))))
      hin.for_else hp.2 a1 (by
        change Fits S A M (_ :: st1.frames) env
        rw [h1f]; exact a2) hty
      (fun ev h => hev ev (hm.ext.log ev (by rw [p2.st_eq]; exact h)))
    exact loop_exit L ap hw p1.wf h1f p1.loop p2 hok hr q
  | @for_next k t b e env v env' o' env'' o env''' hv ha h1 ho' h2 ih1 ih2 =>
    intro st hw hin hp hr hf hty hev
    obtain ⟨f1, l, st1, f2, st2, p1, p2, heq, hok, hwL⟩ :=
      for_parts (O := O) (S := S) L ap hin hp hw hr
    have hm := step_mergeConditional (O := O) (S := S) (A := A) L ap p2.wf hok
      (f := Frame.dead) entriesOk_nil
    have hs1 : Step S A M D st1 (analyse O (.forS k t b e) st) := by
      rw [heq]
      exact (step_of_frames p2.wf p2.ext p2.frames).trans hm
    have hwp := wf_pushLoop (f := Frame.conditional) hwL entriesOk_nil
    have hsv := step_saveNarrowed (O := O) (S := S) (A := A) (t := t) L ap hwp
      (hin.mentions k (Or.inl rfl))
    obtain ⟨c1, c2⟩ := assign_post (O := O) L ap hwp (hin.assigns k (Or.inl rfl))
      (fits_guard guardFits_conditional hf) hv ha
    have hgb := good_analyse (O := O) (S := S) L ap b hin.for_body hp.1 _ hsv.wf
    have q1 := ih1 _ hsv.wf hin.for_body hp.1 (by
        unfold saveNarrowed; rw [unreachable_overwriteEntry]; rfl) c2 ha.typed
      (fun ev h => hev ev (hs1.ext.log ev (by rw [p1.st_eq]; exact h)))
    have hty' := exec_typed h1 ha.typed
    have hlo : LoopOk S O (Event.loop st.frames b (some k)) :=
      (hev _ (hs1.ext.log _ (p1.ext.log _ (by simp)))).1
    have hf' : Fits S A M st.frames env'' := by
      refine loop_back hw hlo ?_ ?_ hty' hf
      · rintro k' (hk | hk)
        · exact hin.for_body.assigns k' hk
        · cases hk; exact hin.assigns k (Or.inl rfl)
      · intro k' hk hn
        rw [exec_frame ap h1 hk hin.for_body hp.1 (fun h => hn (Or.inl h))]
        exact ha.other k' (fun h => hn (Or.inr (by rw [h])))
          (ap.below k k' (hin.assigns k (Or.inl rfl)) hk)
    have q2 := ih2 st hw hin hp hr hf' hty' hev
    have hch : Changed S A M env env'' st1.tries := by
      rw [p1.st_eq]; exact changed_trans c1 hgb.ext.tries q1.changed
    exact ⟨changed_trans hch hs1.ext.tries q2.changed, q2.normal, q2.brk, q2.probe⟩
  | @for_break k t b e env v env' env'' hv ha h1 ih =>
    intro st hw hin hp hr hf hty hev
    obtain ⟨f1, l, st1, f2, st2, p1, p2, heq, hok, hwL⟩ :=
      for_parts (O := O) (S := S) L ap hin hp hw hr
    have hm := step_mergeConditional (O := O) (S := S) (A := A) L ap p2.wf hok
      (f := Frame.dead) entriesOk_nil
    have hs1 : Step S A M D st1 (analyse O (.forS k t b e) st) := by
      rw [heq]
      exact (step_of_frames p2.wf p2.ext p2.frames).trans hm
    have hwp := wf_pushLoop (f := Frame.conditional) hwL entriesOk_nil
    have hsv := step_saveNarrowed (O := O) (S := S) (A := A) (t := t) L ap hwp
      (hin.mentions k (Or.inl rfl))
    obtain ⟨c1, c2⟩ := assign_post (O := O) L ap hwp (hin.assigns k (Or.inl rfl))
      (fits_guard guardFits_conditional hf) hv ha
    have hgb := good_analyse (O := O) (S := S) L ap b hin.for_body hp.1 _ hsv.wf
    have q1 := ih _ hsv.wf hin.for_body hp.1 (by
        unfold saveNarrowed; rw [unreachable_overwriteEntry]; rfl) c2 ha.typed
      (fun ev h => hev ev (hs1.ext.log ev (by rw [p1.st_eq]; exact h)))
    obtain ⟨f, b1, b2, b3⟩ := q1.brk rfl l p1.details
    have hin' := p1.inner
    simp only at hin'
    rw [hin', p1.index, base_cons (Nat.le_refl _), base_all] at b3
    have hch : Changed S A M env env'' st1.tries := by
      rw [p1.st_eq]; exact changed_trans c1 hgb.ext.tries q1.changed
    rw [heq]
    exact loop_break L ap hw p2.wf (p2.frames.trans p1.frames) p1.loop p2.ok hok hr hch
      p2.ext.tries b1 b2 b3
  | @for_stop k t b e env v env' o env'' hv ha h1 ho ih =>
    intro st hw hin hp hr hf hty hev
    obtain ⟨f1, l, st1, f2, st2, p1, p2, heq, hok, hwL⟩ :=
      for_parts (O := O) (S := S) L ap hin hp hw hr
    have hm := step_mergeConditional (O := O) (S := S) (A := A) L ap p2.wf hok
      (f := Frame.dead) entriesOk_nil
    have hs1 : Step S A M D st1 (analyse O (.forS k t b e) st) := by
      rw [heq]
      exact (step_of_frames p2.wf p2.ext p2.frames).trans hm
    have hwp := wf_pushLoop (f := Frame.conditional) hwL entriesOk_nil
    have hsv := step_saveNarrowed (O := O) (S := S) (A := A) (t := t) L ap hwp
      (hin.mentions k (Or.inl rfl))
    obtain ⟨c1, c2⟩ := assign_post (O := O) L ap hwp (hin.assigns k (Or.inl rfl))
      (fits_guard guardFits_conditional hf) hv ha
    have hgb := good_analyse (O := O) (S := S) L ap b hin.for_body hp.1 _ hsv.wf
    have q1 := ih _ hsv.wf hin.for_body hp.1 (by
        unfold saveNarrowed; rw [unreachable_overwriteEntry]; rfl) c2 ha.typed
      (fun ev h => hev ev (hs1.ext.log ev (by rw [p1.st_eq]; exact h)))
    refine loop_stop p1 hs1 ho ?_
    exact ⟨changed_trans c1 hgb.ext.tries q1.changed, q1.normal, q1.brk, q1.probe⟩
  | @guarded b env o env' h1 ih =>
    intro st hw hin hp hr hf hty hev
    exact (guarded_post L ap hin hp hw hr hf (exec_typed h1 hty) hev
      (fun h => ih (pushTry st) (wf_pushTry hw) hin.guarded_body hp rfl
        (fits_guard guardFits_conditional hf) hty h)).1
  | @suppressed b env env' h1 ih =>
    intro st hw hin hp hr hf hty hev
    exact (guarded_post L ap hin hp hw hr hf (exec_typed h1 hty) hev
      (fun h => ih (pushTry st) (wf_pushTry hw) hin.guarded_body hp rfl
        (fits_guard guardFits_conditional hf) hty h)).2
  | @try_ok b n hs e env env' h1 ih =>
    intro st hw hin hp hr hf hty hev
    obtain ⟨f', es, st', ht, hh, hheq, r1, r2, r3, r4, heq, hstep⟩ :=
      try_parts (O := O) (S := S) L ap hin hp hw hr
    rw [heq] at hev ⊢
    have hlog := ht.inner_log
    have q1 := ih (pushTry st) (wf_pushTry hw) hin.try_body hp.1 rfl
      (fits_guard guardFits_conditional hf) hty
      (fun ev h => hev ev (hstep.ext.log ev (r3.log ev (hlog.1 ev h))))
    obtain ⟨t1, t2⟩ := post_top (f := f') ht.inner q1
    have hch := changed_popTry ht q1.changed
    have hmok : EntriesOk M D (mergeOr O st.frames f' Frame.dead false).entries :=
      mergeOr_ok ht.ok entriesOk_nil
    have hreach : (mergeOr O st.frames f' Frame.dead false).unreachable = false :=
      mergeOr_reach_left t1
    refine ⟨changed_grow (changed_grow hch r3.tries) hstep.ext.tries, fun _ => ?_,
      fun h => (by cases h), fun l k h => (by cases h)⟩
    refine tryEnd_fits (by rw [reach_of_frames r4]; exact hr) (Or.inl hreach) ?_
    refine fits_mergeConditional_left L ap r2 hmok r1 hreach ?_
    rw [r4]
    exact fits_mergeOr_left L ap hw.hasD ht.ok entriesOk_nil t1 t2
  | try_else _ _ _ _ =>
    intro st _ _ hp _ _ _ _
    exact absurd hp.2.2.1 (by simp)
  | @try_stop b n hs he e env o env' h1 ho ih =>
    intro st hw hin hp hr hf hty hev
    have hhe := hp.2.2.1
    subst hhe
    obtain ⟨f', es, st', ht, hh, hheq, r1, r2, r3, r4, heq, hstep⟩ :=
      try_parts (O := O) (S := S) L ap hin hp hw hr
    rw [heq] at hev ⊢
    have hlog := ht.inner_log
    have q1 := ih (pushTry st) (wf_pushTry hw) hin.try_body hp.1 rfl
      (fits_guard guardFits_conditional hf) hty
      (fun ev h => hev ev (hstep.ext.log ev (r3.log ev (hlog.1 ev h))))
    exact (q1.popTry ht ho).later ht.wf
      ((step_of_frames r2 r3 (r4.trans ht.frames.symm)).trans hstep) ho
  | @try_handled b n hs he e env env' o env'' i h1 h2 ih1 ih2 =>
    intro st hw hin hp hr hf hty hev
    have hhe := hp.2.2.1
    subst hhe
    obtain ⟨f', es, st', ht, hh, hheq, r1, r2, r3, r4, heq, hstep⟩ :=
      try_parts (O := O) (S := S) L ap hin hp hw hr
    rw [heq] at hev ⊢
    have hlog := ht.inner_log
    have q1 := ih1 (pushTry st) (wf_pushTry hw) hin.try_body hp.1 rfl
      (fits_guard guardFits_conditional hf) hty
      (fun ev h => hev ev (hstep.ext.log ev (r3.log ev (hlog.1 ev h))))
    have hty' := exec_typed h1 hty
    have hfit := tried_fits ht (hev _ (hstep.ext.log _ (r3.log _ hlog.2))).2.2 hty' q1.changed hf
    have hch := changed_popTry ht q1.changed
    have hd : HasD D st.frames := hw.hasD
    obtain ⟨g1, g2, g3⟩ := handlers_post (O := O) (S := S) (A := A) (M := M) (o := o)
      (env := env') (env' := env'') (R := st.frames) (start := ⟨es, false⟩) (hs := hs)
      (log := hh.2.log) (i := i) L ap
      (fun i => good_analyse (O := O) (S := S) L ap (hs i) (hin.try_handler i) (hp.2.1 i))
      ht.esok.1 hd
      (by
        intro s hsw hsf hsl
        refine ih2 (push ⟨es, false⟩ s) (wf_push hsw ht.esok.1) (hin.try_handler i) (hp.2.1 i)
          rfl ?_ hty' (fun ev h => hev ev (hstep.ext.log ev (hsl ev h)))
        change Fits S A M (_ :: s.frames) env'
        rw [hsf]; exact hfit)
      (List.finRange n) (List.mem_finRange i) (Frame.dead, st') entriesOk_nil ht.wf ht.frames
      (by rw [← hheq]; exact fun ev h => h)
    rw [← hheq] at g1 g2 g3
    have hmok : EntriesOk M D (mergeOr O st.frames f' Frame.dead false).entries :=
      mergeOr_ok ht.ok entriesOk_nil
    have hchange : Changed S A M env env'' hh.2.tries := changed_trans hch r3.tries g1
    by_cases ho : o = .normal
    · subst ho
      obtain ⟨t1, t2⟩ := g3 rfl
      refine ⟨changed_grow hchange hstep.ext.tries, fun _ => ?_,
        fun h => (by cases h), fun l k h => (by cases h)⟩
      refine tryEnd_fits (by rw [reach_of_frames r4]; exact hr) (Or.inr t1) ?_
      refine fits_mergeConditional_right L ap r2 hmok r1 t1 ?_
      rw [r4]
      exact t2
    · have q3 := (g2 ho).later r2 hstep ho
      exact ⟨changed_grow hchange hstep.ext.tries, q3.normal, q3.brk, q3.probe⟩
  | @try_look b n hs he e f env o env' h1 ho ih =>
    intro st hw hin hp hr hf hty hev
    obtain ⟨p1, p2, p3, p4⟩ := hp
    subst p4
    exact ih st hw hin ⟨p1, p2, p3, rfl⟩ hr hf hty hev
  | try_finally hne _ _ _ _ _ =>
    intro st _ _ hp _ _ _ _
    exact absurd hp.2.2.2 hne

end
end Verif.Flow
