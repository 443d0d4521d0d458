/-
The body of a function statement by statement: assignments to keys below one
another, and `:=`.
-/
import Verif.Flow.Discipline

namespace Verif.Flow

section
variable {Ty P V : Type} {O : Ops Ty P} {S : Sem Ty V P} {A M N : Key → Prop}

theorem says_single {k : Key} {v : V} {f : Frame Ty} :
    Says S A k v [f] ↔ ∀ e, find k f.entries = some e → Covers S e v := by
  cases hf : find k f.entries with
  | none => simp [Says, hf]
  | some e => simp [Says, hf]

theorem entriesOk_mono {D : Key → Prop} {es : List (Entry Ty)} (h : EntriesOk M D es)
    (hm : ∀ k, M k → N k) : EntriesOk N D es :=
  ⟨h.uniq, fun e he => hm _ (h.keys e he), h.deleted⟩

theorem wf_mono {D : Key → Prop} {st : St Ty P} (h : WF M D st) (hm : ∀ k, M k → N k) :
    WF N D st :=
  ⟨h.ne, fun f hf => entriesOk_mono (h.ok f hf) hm, h.hasD,
    fun es he => ⟨entriesOk_mono (h.tries es he).1 hm, (h.tries es he).2⟩, h.index,
    fun l hl f hf => entriesOk_mono (h.loop l hl f hf) hm⟩

/-- The state between two statements of the body. -/
structure Top (S : Sem Ty V P) (seen M : Key → Prop) (st : St Ty P) : Prop where
  wf : WF seen (fun _ => False) st
  tries : st.tries = []
  noloop : st.loop = none
  single : ∃ f, st.frames = [f]

theorem Top.after {seen seen' : Key → Prop} {st : St Ty P} (h : Top S seen M st) (s : Stmt Ty P)
    (hw : WF seen' (fun _ => False) (analyse O s st)) : Top S seen' M (analyse O s st) := by
  have hs := same_analyse (O := O) s st
  refine ⟨hw, ?_, ?_, ?_⟩
  · have := hs.tries
    rw [h.tries] at this
    exact List.length_eq_zero_iff.mp this
  · have := hs.loop
    rw [h.noloop] at this
    cases hl : (analyse O s st).loop with
    | none => rfl
    | some l => rw [hl] at this; cases this
  · obtain ⟨f, hf⟩ := h.single
    obtain ⟨f', h'⟩ := hs.frames f [] hf
    exact ⟨f', h'⟩

/-! ### `if (n := e):` -/

theorem withFrame_save {st : St Ty P} (ht : st.tries = []) (n : Nat) (t : Ty) :
    withFrame Frame.conditional (fun s => saveNarrowed O s (.name n) t) st =
      (⟨[⟨.name n, some t, true, false⟩], false⟩, st) := by
  cases st with
  | mk frames tries loop log =>
    simp only at ht
    subst ht
    rfl

/-- The entry the walrus adds to a side. -/
structure WalrusEntry (S : Sem Ty V P) (n : Nat) (p : P) (t : Ty) (b : Bool) (e : Entry Ty) :
    Prop where
  key : e.key = .name n
  deleted : e.deleted = false
  covers : ∀ v, S.mem v t → S.holds p v = b → Covers S e v

theorem walrus_frames (L : Lawful O S) {st : St Ty P} (ht : st.tries = []) (n : Nat) (e : Expr Ty)
    (p : P) : ∃ e1 e2 : Entry Ty,
      guards O (.walrus n e p) st = (st, frameOverwrite (exprGuards O st.frames e p).1 e1,
        frameOverwrite (exprGuards O st.frames e p).2 e2) ∧
      WalrusEntry S n p (exprType O st.frames e) true e1 ∧
      WalrusEntry S n p (exprType O st.frames e) false e2 := by
  have hg : guards O (.walrus n e p) st = walrusGuards O st n e p := rfl
  rw [hg]
  unfold walrusGuards
  simp only [withFrame_save ht]
  cases hs : O.split p (exprType O st.frames e) with
  | none =>
    refine ⟨⟨.name n, some (exprType O st.frames e), true, false⟩,
      ⟨.name n, some (exprType O st.frames e), true, false⟩, rfl, ⟨rfl, rfl, ?_⟩, ⟨rfl, rfl, ?_⟩⟩
    all_goals
      intro v hv _
      exact ⟨rfl, fun s hs => by cases hs; exact hv⟩
  | some ab =>
    obtain ⟨a, b⟩ := ab
    refine ⟨⟨.name n, some a, true, false⟩, ⟨.name n, some b, false, false⟩, rfl,
      ⟨rfl, rfl, ?_⟩, ⟨rfl, rfl, ?_⟩⟩
    · intro v hv hh
      exact ⟨rfl, fun s h => by cases h; exact L.split_pos p _ a b v hs hv hh⟩
    · intro v hv hh
      exact ⟨rfl, fun s h => by cases h; exact L.split_neg p _ a b v hs hv hh⟩

theorem find_frameOverwrite {k : Key} {f : Frame Ty} {e : Entry Ty} :
    find k (frameOverwrite f e).entries = if e.key = k then some e else find k f.entries := by
  unfold frameOverwrite
  rw [find_upsert k _ _ _ (fun _ _ => rfl)]
  by_cases h : e.key = k
  · rw [if_pos h, if_pos h]
    cases find k f.entries <;> rfl
  · rw [if_neg h, if_neg h]

theorem entriesOk_frameOverwrite {D : Key → Prop} {f : Frame Ty} {e : Entry Ty}
    (h : EntriesOk M D f.entries) (hk : M e.key) (hd : e.deleted = false) :
    EntriesOk M D (frameOverwrite f e).entries :=
  entriesOk_upsert h ⟨hk, fun h => by rw [hd] at h; cases h⟩ (fun _ _ => rfl)
    (fun _ _ _ h => by rw [hd] at h; cases h)

/-- The frame of a side is right after the walrus, for a name not known before. -/
theorem walrus_fits {f : Frame Ty} {g : Frame Ty} {e : Entry Ty} {n : Nat} {p : P} {t : Ty}
    {b : Bool} {v : V} {env env' : Env V} (he : WalrusEntry S n p t b e) (hv : S.mem v t)
    (hb : S.holds p v = b) (hf : Fits S A M [f] env) (hg : GuardFits S g env)
    (hn : find (.name n) f.entries = none) (ha : Assigned O S (.name n) v env env')
    (hap : ∀ k, M k → k.isChildOf (.name n) = false) :
    Fits S A M [frameOverwrite g e, f] env' := by
  intro k w hk hw
  by_cases hkn : k = .name n
  · subst hkn
    have hfd : find (.name n) (frameOverwrite g e).entries = some e := by
      rw [find_frameOverwrite, if_pos he.key]
    rw [says_some hfd]
    have hwv : w = v := by
      have := ha.here
      rw [hw] at this
      cases this
      rfl
    subst hwv
    refine ⟨he.covers w hv hb, Or.inr ?_⟩
    rw [says_none hn]
    trivial
  · have hfd : find k (frameOverwrite g e).entries = find k g.entries := by
      rw [find_frameOverwrite, if_neg (by rw [he.key]; exact fun h => hkn h.symm)]
    have hs := fits_guard hg hf k w hk ((ha.other k hkn (hap k hk)) ▸ hw)
    simp only [Says] at hs ⊢
    rw [hfd]
    exact hs

theorem walrus_parts (L : Lawful O S) (ap : Apart A M (fun _ => False)) {n : Nat} {e : Expr Ty}
    {p : P} {a b : Stmt Ty P} {st : St Ty P}
    (hin : In A M (fun _ => False) (.ite (.walrus n e p) a b)) (hpa : a.Plain) (hpb : b.Plain)
    (hw : WF M (fun _ => False) st) (ht : st.tries = []) (hr : isUnreachable st = false) :
    ∃ e1 e2 f1 st1 f2 st2, WalrusEntry S n p (exprType O st.frames e) true e1 ∧
      WalrusEntry S n p (exprType O st.frames e) false e2 ∧
      EntriesOk M (fun _ => False)
        (frameOverwrite (exprGuards O st.frames e p).1 e1).entries ∧
      EntriesOk M (fun _ => False)
        (frameOverwrite (exprGuards O st.frames e p).2 e2).entries ∧
      Framed S A M (fun _ => False) (frameOverwrite (exprGuards O st.frames e p).1 e1)
        (analyse O a) st f1 st1 ∧
      Framed S A M (fun _ => False) (frameOverwrite (exprGuards O st.frames e p).2 e2)
        (analyse O b) st1 f2 st2 ∧
      analyse O (.ite (.walrus n e p) a b) st = mergeConditional O st2 f1 f2 := by
  obtain ⟨e1, e2, heq, h1, h2⟩ := walrus_frames (S := S) L ht n e p
  have hg := guardOk_exprGuards (O := O) (frames := st.frames) (e := e) (p := p) (M := M)
    (fun k hk => hin.mentions k (Or.inl (Or.inr hk)))
  have hn : M (.name n) := hin.mentions _ (Or.inl (Or.inl rfl))
  have o1 : EntriesOk M (fun _ => False)
      (frameOverwrite (exprGuards O st.frames e p).1 e1).entries :=
    entriesOk_frameOverwrite hg.1.entriesOk (by rw [h1.key]; exact hn) h1.deleted
  have o2 : EntriesOk M (fun _ => False)
      (frameOverwrite (exprGuards O st.frames e p).2 e2).entries :=
    entriesOk_frameOverwrite hg.2.entriesOk (by rw [h2.key]; exact hn) h2.deleted
  obtain ⟨f1, st1, p1⟩ := framed (good_analyse (O := O) (S := S) L ap a hin.ite_left hpa) hw o1
  obtain ⟨f2, st2, p2⟩ := framed (good_analyse (O := O) (S := S) L ap b hin.ite_right hpb) p1.wf o2
  refine ⟨e1, e2, f1, st1, f2, st2, h1, h2, o1, o2, p1, p2, ?_⟩
  have : analyse O (.ite (.walrus n e p) a b) st = whenReachable (fun st =>
      mergeConditional O
        (withFrame (guards O (.walrus n e p) st).2.2 (analyse O b)
          (withFrame (guards O (.walrus n e p) st).2.1 (analyse O a)
            (guards O (.walrus n e p) st).1).2).2
        (withFrame (guards O (.walrus n e p) st).2.1 (analyse O a)
          (guards O (.walrus n e p) st).1).1
        (withFrame (guards O (.walrus n e p) st).2.2 (analyse O b)
          (withFrame (guards O (.walrus n e p) st).2.1 (analyse O a)
            (guards O (.walrus n e p) st).1).2).1) st := rfl
  rw [this, whenReachable_eq hr]
  simp only [heq, p1.eq, p2.eq]

/-- What one statement of the body gives. -/
structure Done (O : Ops Ty P) (S : Sem Ty V P) (M : Key → Prop) (o : Outcome) (env' : Env V)
    (st : St Ty P) : Prop where
  normal : o = .normal → isUnreachable st = false ∧ Fits S (fun _ => True) M st.frames env'
  probe : ∀ l k, o = .probe l k → ∀ v, M k → env' k = some v →
    ∃ t, Event.read l k (.typ t) ∈ st.log ∧ S.mem v t

theorem fits_single {A B : Key → Prop} {st : St Ty P} {env : Env V} (h : ∃ f, st.frames = [f])
    (hf : Fits S A M st.frames env) : Fits S B M st.frames env := by
  obtain ⟨f, hfr⟩ := h
  rw [hfr] at hf ⊢
  intro k v hk hv
  exact says_single.mpr (says_single.mp (hf k v hk hv))

theorem apart_of {N : Key → Prop} {s : Stmt Ty P} (h : s.ApartFrom M) (hn : ∀ k, N k → M k)
    (hm : ∀ k, s.Mentions k → N k) : Apart (fun k => s.Assigns k) N (fun _ => False) :=
  ⟨fun a k ha hk => (h a k ha (hn k hk)).1, fun a k ha hk => (h a k ha (hn k hk)).2,
    fun _ ha => hm _ (assigns_mentions ha), fun _ h => h.elim⟩

/-- The state after a statement of the body, without looking at runs. -/
theorem item_wf (L : Lawful O S) {seen : Key → Prop} {s : Stmt Ty P} {rest : List (Stmt Ty P)}
    {st : St Ty P} (hb : Body M seen (s :: rest)) (hM : ∀ k, seen k ∨ s.Mentions k → M k)
    (h : Top S seen M st) :
    Top S (fun k => seen k ∨ s.Mentions k) M (analyse O s st) ∧
    ∀ ev ∈ st.log, ev ∈ (analyse O s st).log := by
  have hw : WF (fun k => seen k ∨ s.Mentions k) (fun _ => False) st :=
    wf_mono h.wf (fun k hk => Or.inl hk)
  by_cases hr : isUnreachable st = true
  · rcases hb.1 with ⟨k, e, rfl⟩ | ⟨hp, hdel, hap⟩ | ⟨n, e, p, a, b, rfl, _⟩
    · have hd : analyse O (.assign k e) st = st := by
        simp only [analyse, whenReachable, hr, if_true]
      rw [hd]
      exact ⟨⟨hw, h.tries, h.noloop, h.single⟩, fun _ h => h⟩
    · have hs := good_analyse (O := O) (S := S) L (apart_of hap hM (fun k hk => Or.inr hk)) s
        ⟨fun k hk => hk, fun k hk => Or.inr hk, fun m hm => hdel m hm⟩ hp st hw
      exact ⟨h.after s hs.wf, hs.ext.log⟩
    · have hd : analyse O (.ite (.walrus n e p) a b) st = st := by
        simp only [analyse, whenReachable, hr, if_true]
      rw [hd]
      exact ⟨⟨hw, h.tries, h.noloop, h.single⟩, fun _ h => h⟩
  · simp only [Bool.not_eq_true] at hr
    rcases hb.1 with ⟨k, e, rfl⟩ | ⟨hp, hdel, hap⟩ | ⟨n, e, p, a, b, rfl, hpa, hpb, hdel, hap, hfresh⟩
    · have heq : analyse O (.assign k e) st = saveNarrowed O st k (exprType O st.frames e) :=
        whenReachable_eq hr
      obtain ⟨f, hf⟩ := h.single
      have hfr : (analyse O (.assign k e) st).frames =
          [overwriteTop ⟨k, some (exprType O st.frames e), true, false⟩ f] := by
        rw [heq]
        simp [saveNarrowed, overwriteEntry, hf]
      refine ⟨h.after _ ⟨by rw [hfr]; simp, ?_, fun k hk => hk.elim, ?_, ?_, ?_⟩, ?_⟩
      · intro g hg
        rw [hfr, List.mem_singleton] at hg
        rw [hg]
        refine overwriteTop_ok (hw.ok f (by rw [hf]; simp)) ⟨?_, fun h => by cases h⟩
        exact Or.inr (Or.inl rfl)
      · rw [heq]; simp [saveNarrowed, overwriteEntry, h.tries]
      · rw [heq]; simp [saveNarrowed, overwriteEntry, h.noloop]
      · rw [heq]; simp [saveNarrowed, overwriteEntry, h.noloop]
      · rw [heq]; exact fun _ h => h
    · have hs := good_analyse (O := O) (S := S) L (apart_of hap hM (fun k hk => Or.inr hk)) s
        ⟨fun k hk => hk, fun k hk => Or.inr hk, fun m hm => hdel m hm⟩ hp st hw
      exact ⟨h.after s hs.wf, hs.ext.log⟩
    · have ap := apart_of hap hM (fun k hk => Or.inr hk)
      obtain ⟨e1, e2, f1, st1, f2, st2, _, _, _, _, p1, p2, heq⟩ := walrus_parts (O := O) (S := S) L ap
        (n := n) (e := e) (p := p) (a := a) (b := b) (st := st)
        ⟨fun k hk => hk, fun k hk => Or.inr hk, fun m hm => hdel m hm⟩ hpa hpb hw h.tries hr
      have hm := step_mergeConditional (O := O) (S := S) L ap p2.wf p1.ok p2.ok
      refine ⟨h.after _ (by rw [heq]; exact hm.wf), ?_⟩
      intro ev hev
      rw [heq]
      exact hm.ext.log ev (p2.ext.log ev (p1.ext.log ev hev))

/-- What a statement of the body gives. -/
theorem item_done (L : Lawful O S) {seen : Key → Prop} {s : Stmt Ty P} {rest : List (Stmt Ty P)}
    {st : St Ty P} {env env' : Env V} {o : Outcome} (hb : Body M seen (s :: rest))
    (hM : ∀ k, seen k ∨ s.Mentions k → M k) (h : Top S seen M st)
    (hr : isUnreachable st = false) (hf : Fits S (fun _ => True) M st.frames env)
    (hty : WellTyped O S env) (hx : Exec O S s env o env')
    (hev : ∀ ev ∈ (analyse O s st).log, EvOk O S ev) : Done O S M o env' (analyse O s st) := by
  have hsingle := (item_wf (O := O) L hb hM h).1.single
  have hwM : WF M (fun _ => False) st := wf_mono h.wf (fun k hk => hM k (Or.inl hk))
  rcases hb.1 with ⟨k, e, rfl⟩ | ⟨hp, hdel, hap⟩ | ⟨n, e, p, a, b, rfl, hpa, hpb, hdel, hap, hfresh⟩
  · have heq : analyse O (.assign k e) st = saveNarrowed O st k (exprType O st.frames e) :=
      whenReachable_eq hr
    cases hx with
    | halt => exact ⟨fun h => (by cases h), fun l k h => (by cases h)⟩
    | @assign _ _ _ v _ he ha =>
      refine ⟨fun _ => ?_, fun l k h => (by cases h)⟩
      have ht := exprType_sound (O := O) hty hf
        (fun k' hk' => hM k' (Or.inr (Or.inr hk'))) he
      obtain ⟨f, hfr⟩ := h.single
      have hfr' : (analyse O (.assign k e) st).frames =
          [overwriteTop ⟨k, some (exprType O st.frames e), true, false⟩ f] := by
        rw [heq]
        simp [saveNarrowed, overwriteEntry, hfr]
      refine ⟨?_, ?_⟩
      · have hu : f.unreachable = false := by simpa [isUnreachable, hfr] using hr
        simp [isUnreachable, hfr', overwriteTop, hu]
      · rw [hfr']
        intro k' w hk' hw
        rw [says_single]
        intro en hen
        rw [find_overwriteTop] at hen
        by_cases hkk : k = k'
        · subst hkk
          rw [if_pos rfl] at hen
          cases hen
          have := ha.here
          rw [hw] at this
          cases this
          exact ⟨rfl, fun s hs => by cases hs; exact ht⟩
        · rw [if_neg hkk] at hen
          by_cases hc : k'.isChildOf k = true
          · rw [if_pos hc] at hen; cases hen
          · rw [if_neg hc] at hen
            simp only [Bool.not_eq_true] at hc
            rw [ha.other k' (fun h => hkk h.symm) hc] at hw
            have := hf k' w hk' hw
            rw [hfr, says_single] at this
            exact this en hen
  · have ap := apart_of (N := M) hap (fun _ h => h) (fun k hk => hM k (Or.inr hk))
    have hpost := exec_sound L ap hx st hwM
      ⟨fun k hk => hk, fun k hk => hM k (Or.inr hk), fun m hm => hdel m hm⟩ hp hr
      (fits_single h.single hf) hty hev
    exact ⟨fun ho => ⟨(hpost.normal ho).1, fits_single hsingle (hpost.normal ho).2⟩, hpost.probe⟩
  · have ap := apart_of (N := M) hap (fun _ h => h) (fun k hk => hM k (Or.inr hk))
    have hin : In (fun k => (Stmt.ite (.walrus n e p) a b : Stmt Ty P).Assigns k) M
        (fun _ => False) (.ite (.walrus n e p) a b) :=
      ⟨fun k hk => hk, fun k hk => hM k (Or.inr hk), fun m hm => hdel m hm⟩
    obtain ⟨e1, e2, f1, st1, f2, st2, w1, w2, o1, o2, p1, p2, heq⟩ :=
      walrus_parts (O := O) (S := S) L ap hin hpa hpb hwM h.tries hr
    have hm := step_mergeConditional (O := O) (S := S) L ap p2.wf p1.ok p2.ok
    have hs2 := (step_of_frames p2.wf p2.ext p2.frames).trans hm
    have hfrs : st2.frames = st.frames := p2.frames.trans p1.frames
    obtain ⟨f, hfr⟩ := h.single
    have hnone : find (.name n) f.entries = none := by
      rw [find_none_iff]
      intro en hen hk
      exact hfresh (hk ▸ (h.wf.ok f (by rw [hfr]; simp)).keys en hen)
    have hchild : ∀ k, M k → k.isChildOf (.name n) = false :=
      fun k hk => (hap _ k (Or.inl rfl) hk).1
    have hem : ∀ k, e.Mentions k → M k :=
      fun k hk => hM k (Or.inr (Or.inl (Or.inr hk)))
    rw [heq] at hev hsingle ⊢
    have hf' : Fits S (fun k => (Stmt.ite (.walrus n e p) a b : Stmt Ty P).Assigns k) M [f] env := by
      rw [← hfr]; exact fits_single h.single hf
    cases hx with
    | halt => exact ⟨fun h => (by cases h), fun l k h => (by cases h)⟩
    | ite_raise hc => exact ⟨fun h => (by cases h), fun l k h => (by cases h)⟩
    | @ite_true _ _ _ _ env1 _ _ hc h1 =>
      generalize hbt : true = bt at hc
      cases hc with
      | @walrus _ _ _ _ v _ he ha =>
        have hg := exprGuards_sound (O := O) (p := p) L hty hf hem he
        rw [← hbt] at hg
        have hfit := walrus_fits (A := fun k => (Stmt.ite (.walrus n e p) a b : Stmt Ty P).Assigns k)
          w1 (exprType_sound (O := O) hty hf hem he) hbt.symm hf' hg hnone ha hchild
        have q1 := exec_sound L ap h1
          (push (frameOverwrite (exprGuards O st.frames e p).1 e1) st) (wf_push hwM o1)
          hin.ite_left hpa hg.reach (by
            change Fits S _ M (_ :: st.frames) env1
            rw [hfr]; rw [hfr] at hfit; exact hfit) ha.typed
          (fun ev h => hev ev (hs2.ext.log ev (by rw [p1.st_eq]; exact h)))
        refine ⟨?_, ?_⟩
        · intro ho
          subst ho
          obtain ⟨t1, t2⟩ := post_top (f := f1) p1.inner q1
          refine ⟨?_, fits_single
            (A := fun k => (Stmt.ite (.walrus n e p) a b : Stmt Ty P).Assigns k) hsingle ?_⟩
          · rw [unreachable_mergeConditional (Or.inl t1), reach_of_frames hfrs]
            exact hr
          · refine fits_mergeConditional_left L ap p2.wf p1.ok p2.ok t1 ?_
            rw [hfrs]; exact t2
        · intro l k ho
          subst ho
          exact ((q1.pop p1 (by simp)).later p1.wf hs2 (by simp)).probe l k rfl
    | @ite_false _ _ _ _ env1 _ _ hc h1 =>
      generalize hbt : false = bt at hc
      cases hc with
      | @walrus _ _ _ _ v _ he ha =>
        have hg := exprGuards_sound (O := O) (p := p) L hty hf hem he
        rw [← hbt] at hg
        have hfit := walrus_fits (A := fun k => (Stmt.ite (.walrus n e p) a b : Stmt Ty P).Assigns k)
          w2 (exprType_sound (O := O) hty hf hem he) hbt.symm hf' hg hnone ha hchild
        have q1 := exec_sound L ap h1
          (push (frameOverwrite (exprGuards O st.frames e p).2 e2) st1) (wf_push p1.wf o2)
          hin.ite_right hpb hg.reach (by
            change Fits S _ M (_ :: st1.frames) env1
            rw [p1.frames, hfr]; rw [hfr] at hfit; exact hfit) ha.typed
          (fun ev h => hev ev (hm.ext.log ev (by rw [p2.st_eq]; exact h)))
        refine ⟨?_, ?_⟩
        · intro ho
          subst ho
          obtain ⟨t1, t2⟩ := post_top (f := f2) p2.inner q1
          refine ⟨?_, fits_single
            (A := fun k => (Stmt.ite (.walrus n e p) a b : Stmt Ty P).Assigns k) hsingle ?_⟩
          · rw [unreachable_mergeConditional (Or.inr t1), reach_of_frames hfrs]
            exact hr
          · refine fits_mergeConditional_right L ap p2.wf p1.ok p2.ok t1 ?_
            rw [hfrs, ← p1.frames]; exact t2
        · intro l k ho
          subst ho
          exact ((q1.pop p2 (by simp)).later p2.wf hm (by simp)).probe l k rfl

theorem body_done (L : Lawful O S) : ∀ (ss : List (Stmt Ty P)) (seen : Key → Prop) (st : St Ty P)
    (env env' : Env V) (o : Outcome), Body M seen ss →
    (∀ k, seen k ∨ (chain ss).Mentions k → M k) → Top S seen M st →
    isUnreachable st = false → Fits S (fun _ => True) M st.frames env → WellTyped O S env →
    Exec O S (chain ss) env o env' → (∀ ev ∈ (analyse O (chain ss) st).log, EvOk O S ev) →
    Done O S M o env' (analyse O (chain ss) st) ∧
      ∀ ev ∈ st.log, ev ∈ (analyse O (chain ss) st).log := by
  have hmono : ∀ (ss : List (Stmt Ty P)) (seen : Key → Prop) (st : St Ty P), Body M seen ss →
      (∀ k, seen k ∨ (chain ss).Mentions k → M k) → Top S seen M st →
      ∀ ev ∈ st.log, ev ∈ (analyse O (chain ss) st).log := by
    intro ss
    induction ss with
    | nil => intro seen st _ _ _ ev h; exact h
    | cons s rest ih =>
      intro seen st hb hM ht ev h
      obtain ⟨h1, h2⟩ := item_wf (O := O) L hb (fun k hk => hM k (hk.imp id Or.inl)) ht
      have heq : analyse O (chain (s :: rest)) st = analyse O (chain rest) (analyse O s st) := rfl
      rw [heq]
      exact ih _ _ hb.2 (fun k hk => hM k (or_assoc.mp hk)) h1 ev (h2 ev h)
  intro ss
  induction ss with
  | nil =>
    intro seen st env env' o _ _ _ hr hf _ hx _
    refine ⟨?_, fun _ h => h⟩
    cases hx with
    | halt => exact ⟨fun h => (by cases h), fun l k h => (by cases h)⟩
    | skip => exact ⟨fun _ => ⟨hr, hf⟩, fun l k h => (by cases h)⟩
  | cons s rest ih =>
    intro seen st env env' o hb hM ht hr hf hty hx hev
    refine ⟨?_, hmono _ _ _ hb hM ht⟩
    have hM1 : ∀ k, seen k ∨ s.Mentions k → M k := fun k hk => hM k (hk.imp id Or.inl)
    have hM2 : ∀ k, (seen k ∨ s.Mentions k) ∨ (chain rest).Mentions k → M k :=
      fun k hk => hM k (or_assoc.mp hk)
    obtain ⟨h1, h2⟩ := item_wf (O := O) L hb hM1 ht
    have heq : analyse O (chain (s :: rest)) st = analyse O (chain rest) (analyse O s st) := rfl
    rw [heq] at hev ⊢
    have hlog := hmono _ _ _ hb.2 hM2 h1
    have hx' : Exec O S (.seq s (chain rest)) env o env' := hx
    cases hx' with
    | halt => exact ⟨fun h => (by cases h), fun l k h => (by cases h)⟩
    | @seq _ _ _ env1 _ _ ha hb' =>
      have d1 := item_done L hb hM1 ht hr hf hty ha (fun ev h => hev ev (hlog ev h))
      obtain ⟨r1, r2⟩ := d1.normal rfl
      exact (ih _ _ env1 env' o hb.2 hM2 h1 r1 r2 (exec_typed ha hty) hb' hev).1
    | seq_stop ha hn =>
      have d1 := item_done L hb hM1 ht hr hf hty ha (fun ev h => hev ev (hlog ev h))
      refine ⟨fun h => absurd h hn, fun l k ho v hk hv => ?_⟩
      obtain ⟨t, h3, h4⟩ := d1.probe l k ho v hk hv
      exact ⟨t, hlog _ h3, h4⟩

end
end Verif.Flow
