/-
From the claim about statements to the claim about whole functions.
-/
import Verif.Flow.Soundness

namespace Verif.Flow

section
variable {Ty P V : Type} {O : Ops Ty P} {S : Sem Ty V P} {A M D : Key → Prop}

theorem assigns_mentions_cond {k : Key} : ∀ {c : Cond Ty P}, c.Assigns k → c.Mentions k
  | .expr _ _, h => h
  | .test _ _, h => h.elim
  | .not c, h => assigns_mentions_cond (c := c) h
  | .and c d, h => h.imp (assigns_mentions_cond (c := c)) (assigns_mentions_cond (c := d))
  | .or c d, h => h.imp (assigns_mentions_cond (c := c)) (assigns_mentions_cond (c := d))
  | .walrus _ _ _, h => Or.inl h

theorem assigns_mentions {k : Key} : ∀ {s : Stmt Ty P}, s.Assigns k → s.Mentions k
  | .skip, h => h
  | .read _ _, h => h.elim
  | .assign _ _, h => Or.inl h
  | .untyped _, h => h
  | .del _, h => h
  | .assert c, h => assigns_mentions_cond (c := c) h
  | .leave, h => h
  | .raise, h => h
  | .brk, h => h
  | .cont, h => h
  | .seq a b, h => h.imp (assigns_mentions (s := a)) (assigns_mentions (s := b))
  | .ite _ a b, h => h.imp assigns_mentions_cond
      (fun h => h.imp (assigns_mentions (s := a)) (assigns_mentions (s := b)))
  | .whileS _ a b, h => h.imp assigns_mentions_cond
      (fun h => h.imp (assigns_mentions (s := a)) (assigns_mentions (s := b)))
  | .forS _ _ a b, h => h.imp id
      (fun h => h.imp (assigns_mentions (s := a)) (assigns_mentions (s := b)))
  | .guarded b, h => assigns_mentions (s := b) h
  | .tryS b _ hs _ e f, h => h.imp (assigns_mentions (s := b))
      (fun h => h.imp (fun ⟨i, h⟩ => ⟨i, assigns_mentions (s := hs i) h⟩)
        (fun h => h.imp (assigns_mentions (s := e)) (assigns_mentions (s := f))))

theorem deletes_assigns {n : Nat} : ∀ {s : Stmt Ty P}, s.Deletes n → s.Assigns (.name n)
  | .skip, h => h
  | .read _ _, h => h
  | .assign _ _, h => h.elim
  | .untyped _, h => h.elim
  | .del _, h => by
    have : n = _ := h
    subst this; rfl
  | .assert _, h => h.elim
  | .leave, h => h
  | .raise, h => h
  | .brk, h => h
  | .cont, h => h
  | .seq a b, h => h.imp (deletes_assigns (s := a)) (deletes_assigns (s := b))
  | .ite _ a b, h => Or.inr (h.imp (deletes_assigns (s := a)) (deletes_assigns (s := b)))
  | .whileS _ a b, h => Or.inr (h.imp (deletes_assigns (s := a)) (deletes_assigns (s := b)))
  | .forS _ _ a b, h => Or.inr (h.imp (deletes_assigns (s := a)) (deletes_assigns (s := b)))
  | .guarded b, h => deletes_assigns (s := b) h
  | .tryS b _ hs _ e f, h => h.imp (deletes_assigns (s := b))
      (fun h => h.imp (fun ⟨i, h⟩ => ⟨i, deletes_assigns (s := hs i) h⟩)
        (fun h => h.imp (deletes_assigns (s := e)) (deletes_assigns (s := f))))

theorem wf_start : WF M (fun _ => False) (start : St Ty P) :=
  ⟨by simp [start], by
    intro f hf
    simp only [start, List.mem_singleton] at hf
    subst hf
    exact entriesOk_nil, fun k h => h.elim, by simp [start], by simp [start], by simp [start]⟩

theorem fits_start {env : Env V} : Fits S A M (start : St Ty P).frames env := by
  intro k v _ _
  simp [start, Says, find]

theorem wf_weaken {st : St Ty P} (h : WF M (fun _ => False) st) (hd : HasD D st.frames) :
    WF M D st :=
  ⟨h.ne, fun f hf => ⟨(h.ok f hf).uniq, (h.ok f hf).keys,
      fun e he hh => ((h.ok f hf).deleted e he hh).elim⟩, hd,
    fun es he => ⟨⟨(h.tries es he).1.uniq, (h.tries es he).1.keys,
      fun e hm hh => ((h.tries es he).1.deleted e hm hh).elim⟩, (h.tries es he).2⟩, h.index,
    fun l hl f hf => ⟨(h.loop l hl f hf).uniq, (h.loop l hl f hf).keys,
      fun e he hh => ((h.loop l hl f hf).deleted e he hh).elim⟩⟩

/-! ### Assignments at the start of a function -/

theorem bindAll_plain : ∀ (pre : List (Key × Expr Ty)), (bindAll pre : Stmt Ty P).Plain
  | [] => trivial
  | _ :: pre => ⟨trivial, bindAll_plain pre⟩

theorem bindAll_deletes {n : Nat} :
    ∀ (pre : List (Key × Expr Ty)), ¬ (bindAll pre : Stmt Ty P).Deletes n
  | [], h => h
  | _ :: pre, h => h.elim id (bindAll_deletes pre)

theorem bindAll_assigns {k : Key} {e : Expr Ty} :
    ∀ {pre : List (Key × Expr Ty)}, (k, e) ∈ pre → (bindAll pre : Stmt Ty P).Assigns k
  | [], h => by cases h
  | (k', e') :: pre, h => by
    rcases List.mem_cons.mp h with h | h
    · injection h with h1 h2
      exact Or.inl h1
    · exact Or.inr (bindAll_assigns h)

theorem lookup_overwriteTop_isSome {f : Frame Ty} {R : List (Frame Ty)} {new : Entry Ty} {k : Key}
    (h : k = new.key ∨ (lookup (f :: R) k).isSome = true) (hk : k.isChildOf new.key = false) :
    (lookup (overwriteTop new f :: R) k).isSome = true := by
  rw [lookup_cons, find_overwriteTop]
  by_cases hn : new.key = k
  · rw [if_pos hn]; rfl
  · rw [if_neg hn, if_neg (by simp [hk]), ← lookup_cons]
    exact h.resolve_left (fun h => hn h.symm)

/-- After the assignments every bound name has an entry. -/
theorem bindAll_state (ap : Apart A M (fun _ => False)) :
    ∀ (pre : List (Key × Expr Ty)) (st : St Ty P), isUnreachable st = false → st.frames ≠ [] →
    (∀ p ∈ pre, A p.1) → ∀ k, A k →
    ((∃ e, (k, e) ∈ pre) ∨ (lookup st.frames k).isSome = true) →
    isUnreachable (analyse O (bindAll pre) st) = false ∧
      (lookup (analyse O (bindAll pre) st).frames k).isSome = true ∧
      (analyse O (bindAll pre) st).log = st.log := by
  intro pre
  induction pre with
  | nil =>
    intro st hr hne _ k _ h
    rcases h with ⟨e, he⟩ | h
    · cases he
    · exact ⟨hr, h, rfl⟩
  | cons p pre ih =>
    intro st hr hne hA k hk h
    obtain ⟨k', e'⟩ := p
    have heq : analyse O (bindAll ((k', e') :: pre)) st =
        analyse O (bindAll pre) (saveNarrowed O st k' (exprType O st.frames e')) := by
      change analyse O (bindAll pre) (analyse O (.assign k' e') st) = _
      have : analyse O (.assign k' e') st = saveNarrowed O st k' (exprType O st.frames e') :=
        whenReachable_eq hr
      rw [this]
    rw [heq]
    obtain ⟨f, R, hfr⟩ : ∃ f R, st.frames = f :: R := by
      cases hfr : st.frames with
      | nil => exact absurd hfr hne
      | cons f R => exact ⟨f, R, rfl⟩
    · skip
      have hfr' : (saveNarrowed O st k' (exprType O st.frames e')).frames =
          overwriteTop ⟨k', some (exprType O st.frames e'), true, false⟩ f :: R := by
        unfold saveNarrowed overwriteEntry
        simp only [hfr]
      have hlog : (saveNarrowed O st k' (exprType O st.frames e')).log = st.log := rfl
      obtain ⟨r1, r2, r3⟩ := ih (saveNarrowed O st k' (exprType O st.frames e'))
        (by unfold saveNarrowed; rw [unreachable_overwriteEntry]; exact hr)
        (by rw [hfr']; simp) (fun p hp => hA p (by simp [hp])) k hk (by
          rcases h with ⟨e, he⟩ | h
          · rcases List.mem_cons.mp he with he | he
            · injection he with h1 h2
              right
              rw [hfr']
              exact lookup_overwriteTop_isSome (Or.inl h1)
                (ap.below k' k (hA (k', e') (by simp)) (ap.mentioned k hk))
            · exact Or.inl ⟨e, he⟩
          · right
            rw [hfr']
            rw [hfr] at h
            exact lookup_overwriteTop_isSome (Or.inr h)
              (ap.below k' k (hA (k', e') (by simp)) (ap.mentioned k hk)))
      exact ⟨r1, r2, r3.trans hlog⟩

theorem bindAll_straight : ∀ (pre : List (Key × Expr Ty)), (bindAll pre : Stmt Ty P).Straight
  | [] => trivial
  | _ :: pre => ⟨trivial, bindAll_straight pre⟩

theorem bindAll_noTry : ∀ (pre : List (Key × Expr Ty)), (bindAll pre : Stmt Ty P).NoTry
  | [] => trivial
  | _ :: pre => ⟨trivial, bindAll_noTry pre⟩

/-- A run is looked at only where the program reads. -/
theorem probe_mentions {s : Stmt Ty P} {env env' : Env V} {o : Outcome}
    (h : Exec O S s env o env') {l : Nat} {k : Key} (ho : o = .probe l k) : s.Mentions k := by
  induction h with
  | look => cases ho; rfl
  | seq _ _ _ ih => exact Or.inr (ih ho)
  | seq_stop _ _ ih => exact Or.inl (ih ho)
  | ite_true _ _ ih => exact Or.inr (Or.inl (ih ho))
  | ite_false _ _ ih => exact Or.inr (Or.inr (ih ho))
  | while_done _ _ ih => exact Or.inr (Or.inr (ih ho))
  | while_next _ _ _ _ _ ih => exact ih ho
  | while_stop _ _ _ ih => exact Or.inr (Or.inl (ih ho))
  | for_done _ ih => exact Or.inr (Or.inr (ih ho))
  | for_next _ _ _ _ _ _ ih => exact ih ho
  | for_stop _ _ _ _ ih => exact Or.inr (Or.inl (ih ho))
  | guarded _ ih => exact ih ho
  | try_else _ _ _ ih => exact Or.inr (Or.inr (Or.inl (ih ho)))
  | try_stop _ _ ih => exact Or.inl (ih ho)
  | try_handled i _ _ _ ih => exact Or.inr (Or.inl ⟨i, ih ho⟩)
  | try_look _ _ ih =>
    rcases ih ho with h | h | h | h
    · exact Or.inl h
    · exact Or.inr (Or.inl h)
    · exact Or.inr (Or.inr (Or.inl h))
    · cases h
  | @try_finally b n hs he e f env o env' o' env'' _ _ hp _ ih1 ih2 =>
    split at ho
    · exact absurd hp (by rw [ho]; simp [Outcome.isProbe])
    · exact Or.inr (Or.inr (Or.inr (ih2 ho)))
  | _ => cases ho

theorem bindAll_mem {k : Key} : ∀ {pre : List (Key × Expr Ty)},
    (bindAll pre : Stmt Ty P).Assigns k → ∃ e, (k, e) ∈ pre
  | [], h => h.elim
  | (k', e') :: pre, h => by
    rcases h with h | h
    · have h : k = k' := h
      subst h
      exact ⟨e', by simp⟩
    · obtain ⟨e, he⟩ := bindAll_mem h
      exact ⟨e, by simp [he]⟩

/-- A function that begins with assignments to the names it deletes later. -/
theorem function_sound (L : Lawful O S) {pre : List (Key × Expr Ty)} {s : Stmt Ty P}
    (hfl : Flat (.seq (bindAll pre) s)) (hp : s.Plain)
    (hd : ∀ n, s.Deletes n → ∃ e, (Key.name n, e) ∈ pre)
    (hev : ∀ ev ∈ (analyse O (.seq (bindAll pre) s) start).log, EvOk O S ev)
    {env env' : Env V} {o : Outcome} (hw : WellTyped O S env)
    (h : Exec O S (.seq (bindAll pre) s) env o env') :
    Post O S (Stmt.seq (bindAll pre) s).Assigns (Stmt.seq (bindAll pre) s).Mentions o env env'
      (analyse O (.seq (bindAll pre) s) start) := by
  have ap0 : Apart (fun k => (Stmt.seq (bindAll pre) s : Stmt Ty P).Assigns k)
      (fun k => (Stmt.seq (bindAll pre) s).Mentions k) (fun _ => False) :=
    ⟨fun a k ha hk => (hfl a k ha hk).1, fun a k ha hk => (hfl a k ha hk).2,
      fun a ha => assigns_mentions ha, fun a h => h.elim⟩
  have ap1 : Apart (fun k => (Stmt.seq (bindAll pre) s : Stmt Ty P).Assigns k)
      (fun k => (Stmt.seq (bindAll pre) s).Mentions k)
      (fun k => ∃ n, k = .name n ∧ s.Deletes n) :=
    ⟨ap0.below, ap0.above, ap0.mentioned, by
      rintro a ⟨n, rfl, hn⟩
      exact Or.inr (deletes_assigns hn)⟩
  have hin0 : In (fun k => (Stmt.seq (bindAll pre) s : Stmt Ty P).Assigns k)
      (fun k => (Stmt.seq (bindAll pre) s).Mentions k) (fun _ => False) (bindAll pre : Stmt Ty P) :=
    ⟨fun k hk => Or.inl hk, fun k hk => Or.inl hk, fun n hn => bindAll_deletes pre hn⟩
  have hin1 : In (fun k => (Stmt.seq (bindAll pre) s : Stmt Ty P).Assigns k)
      (fun k => (Stmt.seq (bindAll pre) s).Mentions k)
      (fun k => ∃ n, k = .name n ∧ s.Deletes n) s :=
    ⟨fun k hk => Or.inr hk, fun k hk => Or.inr hk, fun n hn => ⟨n, rfl, hn⟩⟩
  have hr0 : isUnreachable (start : St Ty P) = false := rfl
  have hg0 := good_analyse (O := O) (S := S) L ap0 (bindAll pre) hin0 (bindAll_plain pre) start
    wf_start
  have hw1 : WF (fun k => (Stmt.seq (bindAll pre) s : Stmt Ty P).Mentions k)
      (fun k => ∃ n, k = .name n ∧ s.Deletes n) (analyse O (bindAll pre) start) := by
    refine wf_weaken hg0.wf ?_
    rintro k ⟨n, rfl, hn⟩
    exact (bindAll_state (O := O) ap0 pre start hr0 (by simp [start])
      (fun p hp => Or.inl (bindAll_assigns (e := p.2) hp)) (.name n)
      (Or.inr (deletes_assigns hn)) (Or.inl (hd n hn))).2.1
  have hg1 := good_analyse (O := O) (S := S) L ap1 s hin1 hp _ hw1
  have hev' : ∀ ev ∈ (analyse O s (analyse O (bindAll pre) start)).log, EvOk O S ev := hev
  change Post O S _ _ o env env' (analyse O s (analyse O (bindAll pre) start))
  cases h with
  | halt => exact post_raised
  | @seq _ _ _ env1 _ _ h1 h2 =>
    have p1 := exec_sound L ap0 h1 start wf_start hin0 (bindAll_plain pre) hr0 fits_start hw
      (fun ev h => hev' ev (hg1.ext.log ev h))
    obtain ⟨r1, r2⟩ := p1.normal rfl
    have p2 := exec_sound L ap1 h2 _ hw1 hin1 hp r1 r2 (exec_typed h1 hw) hev'
    exact ⟨changed_trans p1.changed hg1.ext.tries p2.changed, p2.normal, p2.brk, p2.probe⟩
  | seq_stop h1 ho =>
    have p1 := exec_sound L ap0 h1 start wf_start hin0 (bindAll_plain pre) hr0 fits_start hw
      (fun ev h => hev' ev (hg1.ext.log ev h))
    exact p1.later hw1 hg1 ho

/-! ### Every place is reported once -/

/-- The places a log reports. -/
def readsOf (log : List (Event Ty P)) : List (Nat × Key) :=
  log.filterMap (fun ev => match ev with | .read l k _ => some (l, k) | _ => none)

theorem readsOf_append (a b : List (Event Ty P)) : readsOf (a ++ b) = readsOf a ++ readsOf b := by
  simp [readsOf]

/-- Only places of the list `rs` are added, each as often as it is in the list. -/
def Adds (st st' : St Ty P) (rs : List (Nat × Key)) : Prop :=
  ∃ new, new.Sublist rs ∧ readsOf st'.log = readsOf st.log ++ new

theorem adds_log {st st' : St Ty P} (h : st'.log = st.log) (rs : List (Nat × Key)) :
    Adds st st' rs := ⟨[], by simp, by simp [h]⟩

theorem Adds.trans {a b c : St Ty P} {rs rs' : List (Nat × Key)} (h : Adds a b rs)
    (h' : Adds b c rs') : Adds a c (rs ++ rs') := by
  obtain ⟨n, h1, h2⟩ := h
  obtain ⟨n', h3, h4⟩ := h'
  exact ⟨n ++ n', h1.append h3, by rw [h4, h2, List.append_assoc]⟩

theorem Adds.congr {a b a' b' : St Ty P} {rs : List (Nat × Key)} (h : Adds a b rs)
    (ha : readsOf a'.log = readsOf a.log) (hb : readsOf b'.log = readsOf b.log) :
    Adds a' b' rs := by
  obtain ⟨n, h1, h2⟩ := h
  exact ⟨n, h1, by rw [hb, h2, ha]⟩

theorem adds_whenReachable {g : St Ty P → St Ty P} {st : St Ty P} {rs : List (Nat × Key)}
    (h : Adds st (g st) rs) : Adds st (whenReachable g st) rs := by
  unfold whenReachable
  split
  · exact adds_log rfl rs
  · exact h

theorem log_overwriteEntry (st : St Ty P) (e : Entry Ty) : (overwriteEntry O st e).log = st.log :=
  rfl

theorem log_mergeFold (as : List (Entry Ty)) : ∀ (acc : St Ty P × List (Entry Ty)),
    (as.foldl (mergeStep O) acc).1.log = acc.1.log := by
  induction as with
  | nil => intro acc; rfl
  | cons a as ih =>
    intro acc
    rw [List.foldl_cons, ih]
    unfold mergeStep
    split
    · split <;> rfl
    · rfl

theorem log_mergeConditional (st : St Ty P) (t f : Frame Ty) :
    (mergeConditional O st t f).log = st.log := by
  unfold mergeConditional
  split
  · split
    · rfl
    · split <;> rfl
  · simp only [log_mergeFold]

theorem log_guards : ∀ (c : Cond Ty P) (st : St Ty P), (guards O c st).1.log = st.log
  | .expr _ _, _ => rfl
  | .test _ _, _ => rfl
  | .not c, st => log_guards c st
  | .and c d, st => by
    unfold guards
    simp only
    split
    · exact log_guards c st
    · simp only
      rw [log_guards d]
      exact log_guards c st
  | .or c d, st => by
    unfold guards
    simp only
    split
    · exact log_guards c st
    · simp only
      rw [log_guards d]
      exact log_guards c st
  | .walrus n e p, st => by
    unfold guards walrusGuards
    simp only
    split <;> rfl

theorem loop_guards : ∀ (c : Cond Ty P) (st : St Ty P), (guards O c st).1.loop = st.loop
  | .expr _ _, _ => rfl
  | .test _ _, _ => rfl
  | .not c, st => loop_guards c st
  | .and c d, st => by
    unfold guards
    simp only
    split
    · exact loop_guards c st
    · simp only
      rw [loop_guards d]
      exact loop_guards c st
  | .or c d, st => by
    unfold guards
    simp only
    split
    · exact loop_guards c st
    · simp only
      rw [loop_guards d]
      exact loop_guards c st
  | .walrus n e p, st => by
    unfold guards walrusGuards
    simp only
    split <;> rfl

theorem loop_mergeFold (as : List (Entry Ty)) : ∀ (acc : St Ty P × List (Entry Ty)),
    (as.foldl (mergeStep O) acc).1.loop = acc.1.loop := by
  induction as with
  | nil => intro acc; rfl
  | cons a as ih =>
    intro acc
    rw [List.foldl_cons, ih]
    unfold mergeStep
    split
    · split <;> rfl
    · rfl

theorem loop_mergeConditional (st : St Ty P) (t f : Frame Ty) :
    (mergeConditional O st t f).loop = st.loop := by
  unfold mergeConditional
  split
  · split
    · rfl
    · split <;> rfl
  · simp only [loop_mergeFold]

theorem log_withFrame (f : Frame Ty) (g : St Ty P → St Ty P) (st : St Ty P) :
    (withFrame f g st).2.log = (g { st with frames := f :: st.frames }).log := rfl

theorem adds_withFrame {f : Frame Ty} {g : St Ty P → St Ty P} {rs : List (Nat × Key)}
    (h : ∀ st, Adds st (g st) rs) (st : St Ty P) : Adds st (withFrame f g st).2 rs :=
  (h { st with frames := f :: st.frames }).congr rfl rfl

theorem Adds.merged {a b : St Ty P} {rs : List (Nat × Key)} (h : Adds a b rs) (t f : Frame Ty) :
    Adds a (mergeConditional O b t f) rs :=
  h.congr rfl (by rw [log_mergeConditional])

theorem Adds.after {a a' b : St Ty P} {rs : List (Nat × Key)} (h : Adds a b rs)
    (ha : readsOf a'.log = readsOf a.log) : Adds a' b rs := h.congr ha rfl

theorem adds_processLoop {cond : Bool} {t f : Frame Ty} {g h : St Ty P → St Ty P}
    {rs rs' : List (Nat × Key)} (hg : ∀ st, Adds st (g st) rs) (hh : ∀ st, Adds st (h st) rs')
    (st : St Ty P) : Adds st (processLoop O cond t f g h st) (rs ++ rs') := by
  unfold processLoop
  simp only
  refine Adds.merged ?_ _ _
  refine Adds.trans (b := (withLoopFrame t g st).2.2) ?_ (adds_withFrame hh _)
  unfold withLoopFrame
  exact (adds_withFrame (f := t) hg { st with loop := some ⟨[], [], st.frames.length⟩ }).congr
    rfl rfl

theorem adds_withTryFrame {g : St Ty P → St Ty P} {rs : List (Nat × Key)}
    (hg : ∀ st, Adds st (g st) rs) (st : St Ty P) : Adds st (withTryFrame g st).2.2 rs := by
  unfold withTryFrame
  refine (adds_withFrame (f := Frame.conditional) hg { st with tries := [] :: st.tries }).congr
    rfl ?_
  simp [readsOf]

theorem adds_handlers {n : Nat} {start : Frame Ty} {hs : Fin n → St Ty P → St Ty P}
    {rs : Fin n → List (Nat × Key)} (hh : ∀ i st, Adds st (hs i st) (rs i)) :
    ∀ (is : List (Fin n)) (acc : Frame Ty × St Ty P),
    Adds acc.2 (is.foldl (fun acc i => handlerStep O start acc (hs i)) acc).2 (is.flatMap rs) := by
  intro is
  induction is with
  | nil => intro acc; exact adds_log rfl _
  | cons i is ih =>
    intro acc
    rw [List.foldl_cons, List.flatMap_cons]
    refine Adds.trans (b := (handlerStep O start acc (hs i)).2) ?_ (ih _)
    exact adds_withFrame (hh i) acc.2

theorem adds_tryEnd {ok exc : Frame Ty} {g : St Ty P → St Ty P} {rs : List (Nat × Key)}
    (hg : ∀ st, Adds st (g st) rs) (st : St Ty P) : Adds st (tryEnd O ok exc g st) rs := by
  unfold tryEnd
  simp only
  split
  · refine (hg _).congr ?_ rfl
    rw [← log_mergeConditional (O := O) st ok exc]; rfl
  · refine (hg _).congr ?_ rfl
    rw [log_mergeConditional]

theorem adds_tryElse {t : Frame Ty} {g : St Ty P → St Ty P} {rs : List (Nat × Key)}
    (hg : ∀ st, Adds st (g st) rs) (st : St Ty P) : Adds st (tryElse O t g st).2 rs := by
  unfold tryElse
  exact (adds_withFrame (f := if t.unreachable then Frame.dead else Frame.conditional) hg
    { st with frames := t :: st.frames }).congr rfl rfl

/-- Analysing a statement reports only places of the statement, and none of them
twice. -/
theorem analyse_adds : ∀ (s : Stmt Ty P) (st : St Ty P), Adds st (analyse O s st) s.reads
  | .skip, st => adds_log rfl _
  | .read l k, st => adds_whenReachable ⟨[(l, k)], by simp [Stmt.reads], by
      simp [readsOf_append]; rfl⟩
  | .assign _ _, st => adds_whenReachable (adds_log rfl _)
  | .untyped _, st => adds_whenReachable (adds_log rfl _)
  | .del _, st => adds_whenReachable (adds_log rfl _)
  | .assert c, st => adds_whenReachable (adds_log (log_guards c st) _)
  | .leave, st => adds_whenReachable (adds_log rfl _)
  | .raise, st => adds_whenReachable (adds_log rfl _)
  | .brk, st => by
    refine adds_whenReachable ?_
    unfold breakStmt
    split
    · exact adds_log rfl _
    · exact ⟨[], by simp, by simp [markUnreachable, onTop, readsOf]⟩
  | .cont, st => by
    refine adds_whenReachable ?_
    unfold continueStmt
    split
    · exact adds_log rfl _
    · exact adds_log rfl _
  | .seq a b, st => (analyse_adds a st).trans (analyse_adds b _)
  | .ite c a b, st => by
    refine adds_whenReachable ?_
    refine Adds.merged ?_ _ _
    refine Adds.after (a := (guards O c st).1) ?_ (by rw [log_guards])
    exact (adds_withFrame (analyse_adds a) (guards O c st).1).trans
      (adds_withFrame (analyse_adds b) _)
  | .whileS c b e, st => by
    refine adds_whenReachable ?_
    refine (adds_processLoop (analyse_adds b) (analyse_adds e) _).congr ?_ rfl
    simp [log_guards, readsOf]
  | .forS k t b e, st => by
    refine adds_whenReachable ?_
    refine (adds_processLoop (rs := b.reads) (fun st => ?_) (analyse_adds e) _).congr ?_ rfl
    · exact (analyse_adds b (saveNarrowed O st k t)).after rfl
    · simp [readsOf]
  | .guarded b, st => adds_whenReachable ((adds_withTryFrame (analyse_adds b) st).congr rfl rfl)
  | .tryS b n hs he e f, st => by
    refine adds_whenReachable ?_
    have h1 := adds_withTryFrame (analyse_adds b) st
    have h2 := adds_handlers (O := O) (start := (withTryFrame (analyse O b) st).2.1)
      (fun i st => analyse_adds (hs i) st) (List.finRange n)
      (Frame.dead, (withTryFrame (analyse O b) st).2.2)
    simp only
    split
    · refine ((h1.trans h2).trans (adds_tryElse (analyse_adds e) _)).trans
        (adds_tryEnd (analyse_adds f) _)
    · have h3 := (h1.trans h2).trans (adds_log (rs := e.reads) (st' := ((List.finRange n).foldl
        (fun acc i => handlerStep O (withTryFrame (analyse O b) st).2.1 acc (analyse O (hs i)))
        (Frame.dead, (withTryFrame (analyse O b) st).2.2)).2) rfl)
      exact h3.trans (adds_tryEnd (analyse_adds f) _)

/-- With a place of its own for every read there is one report for each. -/
theorem report_unique {s : Stmt Ty P} (hl : s.Labelled) {l : Nat} {k k' : Key} {c c' : Claim Ty}
    (h : Event.read l k c ∈ (analyse O s start).log)
    (h' : Event.read l k' c' ∈ (analyse O s start).log) : c = c' := by
  obtain ⟨new, h1, h2⟩ := analyse_adds (O := O) s start
  have h3 : readsOf (analyse O s start).log = new := by rw [h2]; rfl
  have h4 : ((readsOf (analyse O s start).log).map (·.1)).Nodup := by
    rw [h3]; exact (h1.map _).nodup hl
  generalize (analyse O s start).log = log at h h' h4
  induction log with
  | nil => cases h
  | cons ev log ih =>
    have hmem : ∀ {k c}, Event.read l k c ∈ log → l ∈ (readsOf log).map (·.1) := by
      intro k c hm
      refine List.mem_map.mpr ⟨(l, k), ?_, rfl⟩
      exact List.mem_filterMap.mpr ⟨_, hm, rfl⟩
    rcases List.mem_cons.mp h with rfl | g
    · rcases List.mem_cons.mp h' with e | g'
      · injection e with _ _ e; exact e.symm
      · exact absurd (hmem g') (by
          have : readsOf (Event.read l k c :: log) = (l, k) :: readsOf log := rfl
          rw [this, List.map_cons, List.nodup_cons] at h4
          exact h4.1)
    · rcases List.mem_cons.mp h' with e | g'
      · subst e
        exact absurd (hmem g) (by
          have : readsOf (Event.read l k' c' :: log) = (l, k') :: readsOf log := rfl
          rw [this, List.map_cons, List.nodup_cons] at h4
          exact h4.1)
      · refine ih g g' ?_
        have : (readsOf log).Sublist (readsOf (ev :: log)) :=
          (List.sublist_cons_self ev log).filterMap _
        exact (this.map _).nodup h4

/-! ### What is in the log -/

theorem log_whenReachable {g : St Ty P → St Ty P} {st : St Ty P} {Q : Event Ty P → Prop}
    (h : ∀ ev ∈ (g st).log, ev ∈ st.log ∨ Q ev) :
    ∀ ev ∈ (whenReachable g st).log, ev ∈ st.log ∨ Q ev := by
  unfold whenReachable
  split
  · exact fun ev h => Or.inl h
  · exact h

/-- A program without loops, `try` and `with` notes down only reads and
breaks outside of loops. -/
theorem straight_log : ∀ (s : Stmt Ty P) (st : St Ty P), s.Straight → st.loop = none →
    (analyse O s st).loop = none ∧
    ∀ ev ∈ (analyse O s st).log, ev ∈ st.log ∨ ∃ l k c, ev = Event.read l k c
  | .skip, st, _, hl => ⟨hl, fun ev h => Or.inl h⟩
  | .read l k, st, _, hl => by
    unfold analyse whenReachable
    split
    · exact ⟨hl, fun ev h => Or.inl h⟩
    · refine ⟨hl, fun ev h => ?_⟩
      rcases List.mem_append.mp h with h | h
      · exact Or.inl h
      · exact Or.inr ⟨l, k, _, List.mem_singleton.mp h⟩
  | .assign k e, st, _, hl => by
    unfold analyse whenReachable
    split <;> exact ⟨hl, fun ev h => Or.inl h⟩
  | .untyped k, st, _, hl => by
    unfold analyse whenReachable
    split <;> exact ⟨hl, fun ev h => Or.inl h⟩
  | .del n, st, _, hl => by
    unfold analyse whenReachable
    split <;> exact ⟨hl, fun ev h => Or.inl h⟩
  | .assert c, st, _, hl => by
    unfold analyse whenReachable
    split
    · exact ⟨hl, fun ev h => Or.inl h⟩
    · refine ⟨(loop_guards c st).trans hl, fun ev h => Or.inl ?_⟩
      have h : ev ∈ (guards O c st).1.log := h
      rwa [log_guards] at h
  | .leave, st, _, hl => by
    unfold analyse whenReachable
    split <;> exact ⟨hl, fun ev h => Or.inl h⟩
  | .raise, st, _, hl => by
    unfold analyse whenReachable
    split <;> exact ⟨hl, fun ev h => Or.inl h⟩
  | .brk, st, _, hl => by
    unfold analyse whenReachable breakStmt
    rw [hl]
    split <;> exact ⟨hl, fun ev h => Or.inl h⟩
  | .cont, st, _, hl => by
    unfold analyse whenReachable continueStmt
    rw [hl]
    split <;> exact ⟨hl, fun ev h => Or.inl h⟩
  | .seq a b, st, hs, hl => by
    obtain ⟨h1, h2⟩ := straight_log a st hs.1 hl
    obtain ⟨h3, h4⟩ := straight_log b (analyse O a st) hs.2 h1
    exact ⟨h3, fun ev h => (h4 ev h).elim (h2 ev) Or.inr⟩
  | .ite c a b, st, hs, hl => by
    unfold analyse whenReachable
    split
    · exact ⟨hl, fun ev h => Or.inl h⟩
    · simp only
      obtain ⟨h1, h2⟩ := straight_log a
        { (guards O c st).1 with frames := (guards O c st).2.1 :: (guards O c st).1.frames } hs.1
        ((loop_guards c st).trans hl)
      obtain ⟨h3, h4⟩ := straight_log b
        { (withFrame (guards O c st).2.1 (analyse O a) (guards O c st).1).2 with
          frames := (guards O c st).2.2 ::
            (withFrame (guards O c st).2.1 (analyse O a) (guards O c st).1).2.frames } hs.2 h1
      refine ⟨(loop_mergeConditional _ _ _).trans h3, fun ev h => ?_⟩
      rw [log_mergeConditional] at h
      rcases h4 ev h with h | h
      · rcases h2 ev h with h | h
        · left
          have h : ev ∈ (guards O c st).1.log := h
          rwa [log_guards] at h
        · exact Or.inr h
      · exact Or.inr h
  | .whileS _ _ _, _, hs, _ => hs.elim
  | .forS _ _ _ _, _, hs, _ => hs.elim
  | .guarded _, _, hs, _ => hs.elim
  | .tryS _ _ _ _ _ _, _, hs, _ => hs.elim

theorem noTry_withFrame {f : Frame Ty} {g : St Ty P → St Ty P}
    (h : ∀ st, ∀ ev ∈ (g st).log, ev ∈ st.log ∨ ∀ S : Sem Ty V P, TryOk S O ev) (st : St Ty P) :
    ∀ ev ∈ (withFrame f g st).2.log, ev ∈ st.log ∨ ∀ S : Sem Ty V P, TryOk S O ev :=
  h { st with frames := f :: st.frames }

theorem noTry_processLoop {cond : Bool} {t f : Frame Ty} {g h : St Ty P → St Ty P}
    (hg : ∀ st, ∀ ev ∈ (g st).log, ev ∈ st.log ∨ ∀ S : Sem Ty V P, TryOk S O ev)
    (hh : ∀ st, ∀ ev ∈ (h st).log, ev ∈ st.log ∨ ∀ S : Sem Ty V P, TryOk S O ev) (st : St Ty P) :
    ∀ ev ∈ (processLoop O cond t f g h st).log, ev ∈ st.log ∨ ∀ S : Sem Ty V P, TryOk S O ev := by
  intro ev hev
  unfold processLoop at hev
  simp only [log_mergeConditional] at hev
  rcases noTry_withFrame hh _ ev hev with h1 | h1
  · exact hg { st with loop := some ⟨[], [], st.frames.length⟩, frames := t :: st.frames } ev h1
  · exact Or.inr h1

/-- A program without `try` and `with` notes down nothing about them. -/
theorem noTry_log : ∀ (s : Stmt Ty P), s.NoTry → ∀ (st : St Ty P),
    ∀ ev ∈ (analyse O s st).log, ev ∈ st.log ∨ ∀ S : Sem Ty V P, TryOk S O ev
  | .skip, _, st => fun ev h => Or.inl h
  | .read l k, _, st => log_whenReachable fun ev h => by
      rcases List.mem_append.mp h with h | h
      · exact Or.inl h
      · rw [List.mem_singleton.mp h]
        exact Or.inr (fun S => trivial)
  | .assign k e, _, st => log_whenReachable fun ev h => Or.inl h
  | .untyped k, _, st => log_whenReachable fun ev h => Or.inl h
  | .del n, _, st => log_whenReachable fun ev h => Or.inl h
  | .assert c, _, st => log_whenReachable fun ev h => Or.inl (by
      have h : ev ∈ (guards O c st).1.log := h
      rwa [log_guards] at h)
  | .leave, _, st => log_whenReachable fun ev h => Or.inl h
  | .raise, _, st => log_whenReachable fun ev h => Or.inl h
  | .brk, _, st => log_whenReachable fun ev h => by
      unfold breakStmt at h
      split at h
      · exact Or.inl h
      · rcases List.mem_append.mp h with h | h
        · exact Or.inl h
        · rw [List.mem_singleton.mp h]
          exact Or.inr (fun S => trivial)
  | .cont, _, st => log_whenReachable fun ev h => by
      unfold continueStmt at h
      split at h <;> exact Or.inl h
  | .seq a b, hs, st => fun ev h =>
      (noTry_log b hs.2 (analyse O a st) ev h).elim (noTry_log a hs.1 st ev) Or.inr
  | .ite c a b, hs, st => log_whenReachable fun ev h => by
      simp only [log_mergeConditional] at h
      rcases noTry_withFrame (noTry_log b hs.2) _ ev h with h | h
      · rcases noTry_withFrame (noTry_log a hs.1) _ ev h with h | h
        · rw [log_guards] at h
          exact Or.inl h
        · exact Or.inr h
      · exact Or.inr h
  | .whileS c b e, hs, st => log_whenReachable fun ev h => by
      rcases noTry_processLoop (noTry_log b hs.1) (noTry_log e hs.2) _ ev h with h | h
      · rcases List.mem_append.mp h with h | h
        · rw [log_guards] at h
          exact Or.inl h
        · rw [List.mem_singleton.mp h]
          exact Or.inr (fun S => trivial)
      · exact Or.inr h
  | .forS k t b e, hs, st => log_whenReachable fun ev h => by
      rcases noTry_processLoop
        (fun st ev h => noTry_log b hs.1 (saveNarrowed O st k t) ev h) (noTry_log e hs.2) _ ev h
        with h | h
      · rcases List.mem_append.mp h with h | h
        · exact Or.inl h
        · rw [List.mem_singleton.mp h]
          exact Or.inr (fun S => trivial)
      · exact Or.inr h
  | .guarded _, hs, _ => hs.elim
  | .tryS _ _ _ _ _ _, hs, _ => hs.elim

end
end Verif.Flow
