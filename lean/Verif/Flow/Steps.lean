/-
The analysis of a statement keeps the states well formed, changes only the
frame at the top, and what it notes only grows.
-/
import Verif.Flow.Guards

namespace Verif.Flow

section
variable {Ty P V : Type} {O : Ops Ty P} {S : Sem Ty V P} {A M D : Key → Prop}

/-- The keys of a statement. -/
structure In (A M D : Key → Prop) (s : Stmt Ty P) : Prop where
  assigns : ∀ k, s.Assigns k → A k
  mentions : ∀ k, s.Mentions k → M k
  deletes : ∀ n, s.Deletes n → D (.name n)

/-! ### Merging all frames of a loop -/

theorem find_addNew {k : Key} {es : List (Entry Ty)} : ∀ (acc : List (Entry Ty)),
    find k (es.foldl (fun acc e => if (find e.key acc).isSome then acc else acc ++ [e]) acc) =
      (find k acc).or (find k es) := by
  induction es with
  | nil => intro acc; simp [find_nil]
  | cons e es ih =>
    intro acc
    rw [List.foldl_cons, ih, find_cons]
    cases he : find e.key acc with
    | some e' =>
      simp only [Option.isSome_some, if_true]
      by_cases hk : e.key = k
      · rw [← hk, he]; rfl
      · rw [if_neg hk]
    | none =>
      simp only [Option.isSome_none, Bool.false_eq_true, if_false]
      rw [find_append, find_cons, find_nil]
      by_cases hk : e.key = k
      · rw [if_pos hk, if_pos hk, ← hk, he]; rfl
      · rw [if_neg hk, if_neg hk]; simp

theorem addNew_ok {es : List (Entry Ty)} : ∀ (acc : List (Entry Ty)), EntriesOk M D acc →
    (∀ e ∈ es, EntryOk M D e) →
    EntriesOk M D
      (es.foldl (fun acc e => if (find e.key acc).isSome then acc else acc ++ [e]) acc) := by
  induction es with
  | nil => intro acc h _; exact h
  | cons e es ih =>
    intro acc h hn
    rw [List.foldl_cons]
    refine ih _ ?_ (fun e he => hn e (by simp [he]))
    cases he : find e.key acc with
    | some e' => exact h
    | none =>
      simp only [Option.isSome_none, Bool.false_eq_true, if_false]
      refine ⟨uniq_append_singleton h.uniq (find_none_iff.mp he), ?_, ?_⟩
      all_goals
        intro x hx
        rcases List.mem_append.mp hx with h1 | h1
      · exact h.keys x h1
      · rw [List.mem_singleton.mp h1]; exact (hn e (by simp)).key
      · exact h.deleted x h1
      · rw [List.mem_singleton.mp h1]; exact (hn e (by simp)).deleted

theorem find_mergeFrames_aux {k : Key} : ∀ (frames : List (Frame Ty)) (acc : List (Entry Ty)),
    find k (frames.foldl
      (fun es f => f.entries.foldl
        (fun es e => if (find e.key es).isSome then es else es ++ [e]) es) acc) =
      (find k acc).or (lookup frames k) := by
  intro frames
  induction frames with
  | nil => intro acc; simp [lookup]
  | cons f fs ih =>
    intro acc
    rw [List.foldl_cons, ih, find_addNew, lookup_cons]
    cases find k acc <;> simp

theorem find_mergeFrames {k : Key} (frames : List (Frame Ty)) :
    find k (mergeFrames frames).entries = lookup frames k := by
  unfold mergeFrames
  rw [find_mergeFrames_aux, find_nil]
  rfl

theorem mergeFrames_ok {frames : List (Frame Ty)}
    (h : ∀ f ∈ frames, EntriesOk M D f.entries) : EntriesOk M D (mergeFrames frames).entries := by
  unfold mergeFrames
  have key : ∀ (frames : List (Frame Ty)) (acc : List (Entry Ty)), EntriesOk M D acc →
      (∀ f ∈ frames, EntriesOk M D f.entries) →
      EntriesOk M D (frames.foldl
        (fun es f => f.entries.foldl
          (fun es e => if (find e.key es).isSome then es else es ++ [e]) es) acc) := by
    intro frames
    induction frames with
    | nil => intro acc h _; exact h
    | cons f fs ih =>
      intro acc h hf
      rw [List.foldl_cons]
      exact ih _ (addNew_ok _ h (fun e he => (hf f (by simp)).entry he))
        (fun g hg => hf g (by simp [hg]))
  exact key frames [] entriesOk_nil h

/-! ### `mergeAnd` with a frame of a condition -/

theorem entriesOk_mergeAnd {x y : Frame Ty} (hx : EntriesOk M D x.entries) (hy : GuardOk M y) :
    EntriesOk M D (mergeAnd O x y).entries := by
  unfold mergeAnd
  split
  · exact hx
  · split
    · exact hy.entriesOk
    · have key : ∀ (es : List (Entry Ty)), (∀ e ∈ es, e ∈ y.entries) → ∀ x : Frame Ty,
          EntriesOk M D x.entries → EntriesOk M D (es.foldl (andStep O) x).entries := by
        intro es
        induction es with
        | nil => intro _ x hx; exact hx
        | cons a as ih =>
          intro hs x hx
          have ha := hs a (by simp)
          refine ih (fun e he => hs e (by simp [he])) _ ?_
          have hn : EntryOk M D a := hy.entriesOk.entry ha
          have hup : ∀ g : Entry Ty → Option Ty,
              EntriesOk M D (upsert (fun e => { e with kind := g e }) a x.entries) := by
            intro g
            refine entriesOk_upsert hx hn (fun e he => he) ?_
            intro e he hk hd
            rw [← hk]; exact hx.deleted e he hd
          unfold andStep
          split
          · rename_i hf
            refine ⟨uniq_append_singleton hx.uniq (find_none_iff.mp hf), ?_, ?_⟩
            all_goals
              intro z hz
              rcases List.mem_append.mp hz with h1 | h1
            · exact hx.keys z h1
            · rw [List.mem_singleton.mp h1]; exact hn.key
            · exact hx.deleted z h1
            · rw [List.mem_singleton.mp h1]; exact hn.deleted
          · rw [if_neg (by simp [hy.mods a ha])]
            split
            · rename_i t _
              exact hup (fun _ => t)
            · exact hup (fun _ => some O.bottom)
      exact key _ (fun _ h => h) x hx

/-! ### Frames that are pushed -/

/-- A function on states that behaves like the analysis of a statement. -/
def Good (S : Sem Ty V P) (A M D : Key → Prop) (g : St Ty P → St Ty P) : Prop :=
  ∀ st, WF M D st → Step S A M D st (g st)

/-- A frame on top. -/
def push (f : Frame Ty) (st : St Ty P) : St Ty P := { st with frames := f :: st.frames }

theorem wf_push {st : St Ty P} {f : Frame Ty} (h : WF M D st) (hf : EntriesOk M D f.entries) :
    WF M D (push f st) := by
  refine ⟨by simp [push], ?_, hasD_cons h.hasD, h.tries, ?_, h.loop⟩
  · intro f' hf'
    rcases List.mem_cons.mp hf' with rfl | h1
    · exact hf
    · exact h.ok f' h1
  · intro l hl
    have := h.index l hl
    simp only [push, List.length_cons]
    omega

/-- What `withFrame` gives. -/
structure Framed (S : Sem Ty V P) (A M D : Key → Prop) (f : Frame Ty) (g : St Ty P → St Ty P)
    (st : St Ty P) (f' : Frame Ty) (st' : St Ty P) : Prop where
  eq : withFrame f g st = (f', st')
  inner : (g (push f st)).frames = f' :: st.frames
  st_eq : st' = { g (push f st) with frames := st.frames }
  ok : EntriesOk M D f'.entries
  wf : WF M D st'
  ext : Ext S A st st'

theorem Framed.frames {f f' : Frame Ty} {g : St Ty P → St Ty P} {st st' : St Ty P}
    (h : Framed S A M D f g st f' st') : st'.frames = st.frames := by rw [h.st_eq]

theorem framed {f : Frame Ty} {g : St Ty P → St Ty P} {st : St Ty P} (hg : Good S A M D g)
    (h : WF M D st) (hf : EntriesOk M D f.entries) : ∃ f' st', Framed S A M D f g st f' st' := by
  have hp := wf_push h hf
  have hs := hg _ hp
  obtain ⟨f', R, h1⟩ := hs.wf.cons
  have ht := hs.tail
  rw [h1] at ht
  have hR : R = st.frames := ht
  subst hR
  refine ⟨f', { g (push f st) with frames := st.frames }, ?_, h1, rfl, ?_, ?_, ?_⟩
  · unfold withFrame
    rw [show ({ st with frames := f :: st.frames } : St Ty P) = push f st from rfl]
    simp only [h1, List.headD_cons, List.tail_cons]
  · exact hs.wf.ok f' (by rw [h1]; simp)
  · refine ⟨h.ne, h.ok, h.hasD, hs.wf.tries, ?_, hs.wf.loop⟩
    intro l hl
    cases h0 : st.loop with
    | none =>
      have := hs.ext.noloop h0
      rw [show (g (push f st)).loop = some l from hl] at this
      cases this
    | some l0 =>
      obtain ⟨l', h2, h3, _⟩ := hs.ext.loop l0 h0
      rw [show (g (push f st)).loop = some l from hl] at h2
      cases h2
      rw [h3]
      exact h.index l0 h0
  · exact ⟨hs.ext.tries, hs.ext.log, hs.ext.loop, hs.ext.noloop⟩

/-- The state at the start of the body of a loop. -/
def pushLoop (f : Frame Ty) (st : St Ty P) : St Ty P :=
  { st with frames := f :: st.frames, loop := some ⟨[], [], st.frames.length⟩ }

theorem wf_pushLoop {st : St Ty P} {f : Frame Ty} (h : WF M D st)
    (hf : EntriesOk M D f.entries) : WF M D (pushLoop f st) := by
  refine ⟨by simp [pushLoop], ?_, hasD_cons h.hasD, h.tries, ?_, ?_⟩
  · intro f' hf'
    rcases List.mem_cons.mp hf' with rfl | h1
    · exact hf
    · exact h.ok f' h1
  · intro l hl
    have : l = ⟨[], [], st.frames.length⟩ := (Option.some.inj hl).symm
    subst this
    simp [pushLoop]
  · intro l hl f'
    have : l = ⟨[], [], st.frames.length⟩ := (Option.some.inj hl).symm
    subst this
    simp

/-- What `withLoopFrame` gives. -/
structure Looped (S : Sem Ty V P) (A M D : Key → Prop) (f : Frame Ty) (g : St Ty P → St Ty P)
    (st : St Ty P) (f' : Frame Ty) (l : LoopDetails Ty) (st' : St Ty P) : Prop where
  eq : withLoopFrame f g st = (f', l, st')
  inner : (g (pushLoop f st)).frames = f' :: st.frames
  details : (g (pushLoop f st)).loop = some l
  st_eq : st' = { g (pushLoop f st) with frames := st.frames, loop := st.loop }
  ok : EntriesOk M D f'.entries
  index : l.index = st.frames.length
  loop : ∀ f, f ∈ l.breaks ∨ f ∈ l.continues → EntriesOk M D f.entries
  wf : WF M D st'
  ext : Ext S A st st'

theorem Looped.frames {f f' : Frame Ty} {g : St Ty P → St Ty P} {st st' : St Ty P}
    {l : LoopDetails Ty} (h : Looped S A M D f g st f' l st') : st'.frames = st.frames := by
  rw [h.st_eq]

theorem looped {f : Frame Ty} {g : St Ty P → St Ty P} {st : St Ty P} (hg : Good S A M D g)
    (h : WF M D st) (hf : EntriesOk M D f.entries) :
    ∃ f' l st', Looped S A M D f g st f' l st' := by
  have hp := wf_pushLoop h hf
  have hs := hg _ hp
  obtain ⟨f', R, h1⟩ := hs.wf.cons
  have ht := hs.tail
  rw [h1] at ht
  have hR : R = st.frames := ht
  subst hR
  obtain ⟨l, h2, h3, _⟩ := hs.ext.loop ⟨[], [], st.frames.length⟩ rfl
  refine ⟨f', l, { g (pushLoop f st) with frames := st.frames, loop := st.loop },
    ?_, h1, h2, rfl, ?_, h3, hs.wf.loop l h2, ?_, ?_⟩
  · unfold withLoopFrame withFrame
    rw [show ({ ({ st with loop := some ⟨[], [], st.frames.length⟩ } : St Ty P) with
      frames := f :: ({ st with loop := some ⟨[], [], st.frames.length⟩ } : St Ty P).frames } :
        St Ty P) = pushLoop f st from rfl]
    simp only [h1, h2, List.headD_cons, List.tail_cons, Option.getD_some]
  · exact hs.wf.ok f' (by rw [h1]; simp)
  · exact ⟨h.ne, h.ok, h.hasD, hs.wf.tries, h.index, h.loop⟩
  · exact ⟨hs.ext.tries, hs.ext.log, fun l hl => ⟨l, hl, rfl, fun _ h => h⟩, fun h => h⟩

/-- The state at the start of a `try`. -/
def pushTry (st : St Ty P) : St Ty P :=
  { st with frames := Frame.conditional :: st.frames, tries := [] :: st.tries }

theorem wf_pushTry {st : St Ty P} (h : WF M D st) : WF M D (pushTry st) := by
  refine ⟨by simp [pushTry], ?_, hasD_cons h.hasD, ?_, ?_, h.loop⟩
  · intro f' hf'
    rcases List.mem_cons.mp hf' with rfl | h1
    · exact entriesOk_nil
    · exact h.ok f' h1
  · intro es hes
    rcases List.mem_cons.mp hes with rfl | h1
    · exact ⟨entriesOk_nil, by simp⟩
    · exact h.tries es h1
  · intro l hl
    have := h.index l hl
    simp only [pushTry, List.length_cons]
    omega

/-- What `withTryFrame` gives. -/
structure Tried (S : Sem Ty V P) (A M D : Key → Prop) (g : St Ty P → St Ty P)
    (st : St Ty P) (f' : Frame Ty) (es : List (Entry Ty)) (st' : St Ty P) : Prop where
  eq : withTryFrame g st = (f', ⟨es, false⟩, st')
  inner : (g (pushTry st)).frames = f' :: st.frames
  tries : ∃ tr, (g (pushTry st)).tries = es :: tr ∧
    st' = { g (pushTry st) with frames := st.frames, tries := tr, log :=
      (g (pushTry st)).log ++ [.tried st.frames es] }
  ok : EntriesOk M D f'.entries
  esok : EntriesOk M D es ∧ ∀ e ∈ es, e.mods = true
  wf : WF M D st'
  ext : Ext S A st st'

theorem Tried.frames {f' : Frame Ty} {g : St Ty P → St Ty P} {st st' : St Ty P}
    {es : List (Entry Ty)} (h : Tried S A M D g st f' es st') : st'.frames = st.frames := by
  obtain ⟨tr, _, h2⟩ := h.tries
  rw [h2]

theorem tried {g : St Ty P → St Ty P} {st : St Ty P} (hg : Good S A M D g) (h : WF M D st) :
    ∃ f' es st', Tried S A M D g st f' es st' := by
  have hp := wf_pushTry h
  have hs := hg _ hp
  obtain ⟨f', R, h1⟩ := hs.wf.cons
  have ht := hs.tail
  rw [h1] at ht
  have hR : R = st.frames := ht
  subst hR
  have htr := hs.ext.tries
  generalize htr' : (g (pushTry st)).tries = trs at htr
  simp only [pushTry] at htr
  cases htr with
  | @cons _ es _ tr he hr =>
    refine ⟨f', es, { g (pushTry st) with frames := st.frames, tries := tr, log :=
      (g (pushTry st)).log ++ [.tried st.frames es] }, ?_, h1, ⟨tr, htr', rfl⟩, ?_, ?_, ?_, ?_⟩
    · unfold withTryFrame withFrame
      rw [show ({ ({ st with tries := [] :: st.tries } : St Ty P) with
        frames := Frame.conditional :: ({ st with tries := [] :: st.tries } : St Ty P).frames } :
          St Ty P) = pushTry st from rfl]
      simp only [h1, htr', List.headD_cons, List.tail_cons]
    · exact hs.wf.ok f' (by rw [h1]; simp)
    · exact hs.wf.tries es (by rw [htr']; simp)
    · refine ⟨h.ne, h.ok, h.hasD, ?_, ?_, hs.wf.loop⟩
      · intro es' he'
        exact hs.wf.tries es' (by rw [htr']; exact List.mem_cons_of_mem _ he')
      · intro l hl
        cases h0 : st.loop with
        | none =>
          have := hs.ext.noloop h0
          rw [show (g (pushTry st)).loop = some l from hl] at this
          cases this
        | some l0 =>
          obtain ⟨l', h2, h3, _⟩ := hs.ext.loop l0 h0
          rw [show (g (pushTry st)).loop = some l from hl] at h2
          cases h2
          rw [h3]
          exact h.index l0 h0
    · refine ⟨hr, ?_, hs.ext.loop, hs.ext.noloop⟩
      intro ev hev
      exact List.mem_append_left _ (hs.ext.log ev hev)

/-! ### Statements -/

theorem good_whenReachable {g : St Ty P → St Ty P} (hg : Good S A M D g) :
    Good S A M D (whenReachable g) := by
  intro st h
  unfold whenReachable
  split
  · exact step_refl h
  · exact hg st h

theorem mergeOr_fold_ok {R : List (Frame Ty)} (fs : List (Frame Ty)) :
    ∀ (a : Frame Ty), EntriesOk M D a.entries → (∀ f ∈ fs, EntriesOk M D f.entries) →
    EntriesOk M D (fs.foldl (fun a c => mergeOr O R a c false) a).entries := by
  induction fs with
  | nil => intro a h _; exact h
  | cons f fs ih =>
    intro a h hf
    rw [List.foldl_cons]
    exact ih _ (mergeOr_ok h (hf f (by simp))) (fun g hg => hf g (by simp [hg]))

theorem step_of_frames {st st' : St Ty P} (hw : WF M D st') (he : Ext S A st st')
    (hf : st'.frames = st.frames) : Step S A M D st st' := ⟨hw, he, by rw [hf]⟩

/-- The frame after the body of a loop, before its `else`. -/
def afterBody (O : Ops Ty P) (cond : Bool) (frames : List (Frame Ty)) (falsey b : Frame Ty)
    (conts : List (Frame Ty)) : Frame Ty :=
  let after := conts.foldl (fun a c => mergeOr O frames a c false) b
  mergeOr O frames falsey (if cond then mergeAnd O after falsey else after) false

theorem afterBody_ok {cond : Bool} {frames : List (Frame Ty)} {falsey b : Frame Ty}
    {conts : List (Frame Ty)} (hf : GuardOk M falsey) (hb : EntriesOk M D b.entries)
    (hc : ∀ f ∈ conts, EntriesOk M D f.entries) :
    EntriesOk M D (afterBody O cond frames falsey b conts).entries := by
  unfold afterBody
  refine mergeOr_ok hf.entriesOk ?_
  split
  · exact entriesOk_mergeAnd (mergeOr_fold_ok _ _ hb hc) hf
  · exact mergeOr_fold_ok _ _ hb hc

/-- What `processLoop` does, in parts. -/
theorem processLoop_parts (L : Lawful O S) (ap : Apart A M D) {cond : Bool}
    {truthy falsey : Frame Ty} {body orelse : St Ty P → St Ty P} {st : St Ty P}
    (hb : Good S A M D body) (he : Good S A M D orelse) (h : WF M D st)
    (ht : GuardOk M truthy) (hf : GuardOk M falsey) :
    ∃ f1 l st1 f2 st2, Looped S A M D truthy body st f1 l st1 ∧
      Framed S A M D (afterBody O cond st.frames falsey f1 l.continues) orelse st1 f2 st2 ∧
      processLoop O cond truthy falsey body orelse st =
        mergeConditional O st2
          (l.breaks.foldl (fun a c => mergeOr O st.frames a c false) f2) Frame.dead ∧
      EntriesOk M D
        (l.breaks.foldl (fun a c => mergeOr O st.frames a c false) f2).entries ∧
      Step S A M D st (processLoop O cond truthy falsey body orelse st) := by
  obtain ⟨f1, l, st1, hl⟩ := looped hb h (ht.entriesOk (D := D))
  have hab := afterBody_ok (O := O) (cond := cond) (frames := st.frames) hf hl.ok
    (fun f hf => hl.loop f (Or.inr hf))
  obtain ⟨f2, st2, hfr⟩ := framed he hl.wf hab
  have heq : processLoop O cond truthy falsey body orelse st =
        mergeConditional O st2
          (l.breaks.foldl (fun a c => mergeOr O st.frames a c false) f2) Frame.dead := by
    have h2 := hfr.eq
    unfold afterBody at h2
    unfold processLoop
    simp only [hl.eq, hl.frames]
    simp only [h2, hfr.frames, hl.frames]
  have hok := mergeOr_fold_ok (O := O) (R := st.frames) l.breaks f2 hfr.ok
    (fun f hf => hl.loop f (Or.inl hf))
  refine ⟨f1, l, st1, f2, st2, hl, hfr, heq, hok, ?_⟩
  rw [heq]
  have h1 : Step S A M D st st1 := step_of_frames hl.wf hl.ext hl.frames
  have h2 : Step S A M D st1 st2 := step_of_frames hfr.wf hfr.ext hfr.frames
  have h3 := step_mergeConditional (O := O) (S := S) (A := A) L ap hfr.wf hok
    (f := Frame.dead) entriesOk_nil
  exact h1.trans (h2.trans h3)

theorem step_logged {st : St Ty P} (h : WF M D st) (evs : List (Event Ty P)) :
    Step S A M D st { st with log := st.log ++ evs } :=
  ⟨⟨h.ne, h.ok, h.hasD, h.tries, h.index, h.loop⟩,
    ⟨forall₂_tgrow_refl _, fun ev he => List.mem_append_left _ he,
      fun l hl => ⟨l, hl, rfl, fun _ h => h⟩, fun h => h⟩, rfl⟩

theorem mem_above {n : Nat} {frames : List (Frame Ty)} {f : Frame Ty} (h : f ∈ above n frames) :
    f ∈ frames := List.mem_of_mem_take h

theorem good_breakStmt : Good S A M D (breakStmt : St Ty P → St Ty P) := by
  intro st h
  unfold breakStmt
  cases hl : st.loop with
  | none => exact step_refl h
  | some l =>
    simp only
    have hs : Step S A M D st { st with
        loop := some { l with breaks := l.breaks ++ [mergeFrames (above l.index st.frames)] }
        log := st.log ++ [.brk (above l.index st.frames)] } := by
      refine ⟨⟨h.ne, h.ok, h.hasD, h.tries, ?_, ?_⟩, ⟨forall₂_tgrow_refl _,
        fun ev he => List.mem_append_left _ he, ?_, ?_⟩, rfl⟩
      · intro l' hl'
        cases hl'
        exact h.index l hl
      · intro l' hl' f hf
        cases hl'
        rcases hf with hf | hf
        · rcases List.mem_append.mp hf with h1 | h1
          · exact h.loop l hl f (Or.inl h1)
          · rw [List.mem_singleton.mp h1]
            exact mergeFrames_ok (fun g hg => h.ok g (mem_above hg))
        · exact h.loop l hl f (Or.inr hf)
      · intro l' hl'
        rw [hl] at hl'
        cases hl'
        exact ⟨_, rfl, rfl, fun f hf => List.mem_append_left _ hf⟩
      · intro hn; rw [hl] at hn; cases hn
    exact hs.trans (step_markUnreachable hs.wf)

theorem good_continueStmt : Good S A M D (continueStmt : St Ty P → St Ty P) := by
  intro st h
  unfold continueStmt
  cases hl : st.loop with
  | none => exact step_refl h
  | some l =>
    simp only
    have hs : Step S A M D st { st with
        loop := some { l with
          continues := l.continues ++ [mergeFrames (above l.index st.frames)] } } := by
      refine ⟨⟨h.ne, h.ok, h.hasD, h.tries, ?_, ?_⟩, ⟨forall₂_tgrow_refl _,
        fun ev he => he, ?_, ?_⟩, rfl⟩
      · intro l' hl'
        cases hl'
        exact h.index l hl
      · intro l' hl' f hf
        cases hl'
        rcases hf with hf | hf
        · exact h.loop l hl f (Or.inl hf)
        · rcases List.mem_append.mp hf with h1 | h1
          · exact h.loop l hl f (Or.inr h1)
          · rw [List.mem_singleton.mp h1]
            exact mergeFrames_ok (fun g hg => h.ok g (mem_above hg))
      · intro l' hl'
        rw [hl] at hl'
        cases hl'
        exact ⟨_, rfl, rfl, fun f hf => hf⟩
      · intro hn; rw [hl] at hn; cases hn
    exact hs.trans (step_markUnreachable hs.wf)

theorem step_saveNarrowed (L : Lawful O S) (ap : Apart A M D) {st : St Ty P} {k : Key} {t : Ty}
    (h : WF M D st) (hk : M k) : Step S A M D st (saveNarrowed O st k t) :=
  step_overwriteEntry L ap h ⟨hk, fun hd => by cases hd⟩ rfl

theorem step_overwriteFrame {st : St Ty P} (ap : Apart A M D) {new : Frame Ty} (h : WF M D st)
    (hn : EntriesOk M D new.entries) : Step S A M D st (overwriteFrame st new) :=
  step_onTop h (fun _ hf => overwriteEntries_ok hn hf)
    (fun _ _ hd => hasD_overwriteEntries ap hn hd)

theorem step_setReachable {st : St Ty P} (h : WF M D st) (b : Bool) :
    Step S A M D st (onTop (fun f => { f with unreachable := b }) st) :=
  step_onTop h (fun _ hf => hf) (fun _ _ hd => hd)

theorem step_tryEnd (L : Lawful O S) (ap : Apart A M D) {st : St Ty P} {ok exc : Frame Ty}
    {fin : St Ty P → St Ty P} (hfin : Good S A M D fin) (h : WF M D st)
    (h1 : EntriesOk M D ok.entries) (h2 : EntriesOk M D exc.entries) :
    Step S A M D st (tryEnd O ok exc fin st) := by
  unfold tryEnd
  have hm := step_mergeConditional (O := O) (S := S) (A := A) L ap h h1 h2
  simp only
  split
  · have ha := step_setReachable (S := S) (A := A) hm.wf false
    have hb := hfin _ ha.wf
    exact hm.trans (ha.trans (hb.trans (step_markUnreachable hb.wf)))
  · exact hm.trans (hfin _ hm.wf)

/-- The handlers of a `try`. -/
theorem handlers_step {start : Frame Ty} {ι : Type} {hs : ι → St Ty P → St Ty P}
    (hg : ∀ i, Good S A M D (hs i)) (hst : EntriesOk M D start.entries) (is : List ι) :
    ∀ (acc : Frame Ty × St Ty P), EntriesOk M D acc.1.entries → WF M D acc.2 →
    EntriesOk M D (is.foldl (fun acc i => handlerStep O start acc (hs i)) acc).1.entries ∧
    WF M D (is.foldl (fun acc i => handlerStep O start acc (hs i)) acc).2 ∧
    Ext S A acc.2 (is.foldl (fun acc i => handlerStep O start acc (hs i)) acc).2 ∧
    (is.foldl (fun acc i => handlerStep O start acc (hs i)) acc).2.frames = acc.2.frames := by
  induction is with
  | nil => intro acc h1 h2; exact ⟨h1, h2, ext_refl _, rfl⟩
  | cons i is ih =>
    intro acc h1 h2
    obtain ⟨f', st', hf⟩ := framed (hg i) h2 hst
    have heq : handlerStep O start acc (hs i) = (mergeOr O st'.frames f' acc.1 false, st') := by
      unfold handlerStep
      simp only [hf.eq]
    rw [List.foldl_cons, heq]
    obtain ⟨r1, r2, r3, r4⟩ := ih (mergeOr O st'.frames f' acc.1 false, st')
      (mergeOr_ok hf.ok h1) hf.wf
    exact ⟨r1, r2, hf.ext.trans r3, r4.trans hf.frames⟩

/-- The analysis of a plain statement. -/
theorem good_analyse (L : Lawful O S) (ap : Apart A M D) (s : Stmt Ty P) (hin : In A M D s)
    (hp : s.Plain) : Good S A M D (analyse O s) := by
  induction s with
  | skip => intro st h; exact step_refl h
  | read l k =>
    refine good_whenReachable (g := fun st =>
      { st with log := st.log ++ [.read l k (readClaim O st.frames k)] }) ?_
    intro st h
    exact step_logged h _
  | assign k e =>
    refine good_whenReachable (g := fun st => saveNarrowed O st k (exprType O st.frames e)) ?_
    intro st h
    exact step_saveNarrowed L ap h (hin.mentions k (Or.inl rfl))
  | untyped k => cases hp
  | del n =>
    refine good_whenReachable (g := fun st =>
      overwriteEntry O st ⟨.name n, some O.error, true, true⟩) ?_
    intro st h
    exact step_overwriteEntry L ap h ⟨hin.mentions _ rfl, fun _ => hin.deletes n rfl⟩ rfl
  | assert c =>
    refine good_whenReachable (g := fun st => overwriteFrame (guards O c st).1 (guards O c st).2.1) ?_
    intro st h
    have hst := guards_state (O := O) (c := c) hp st
    simp only [hst]
    exact step_overwriteFrame ap h (guardOk_guards hp hin.mentions st).1.entriesOk
  | leave => exact good_whenReachable (fun st h => step_markUnreachable h)
  | raise => exact good_whenReachable (fun st h => step_markUnreachable h)
  | brk => exact good_whenReachable good_breakStmt
  | cont => exact good_whenReachable good_continueStmt
  | seq a b iha ihb =>
    intro st h
    have ha := iha ⟨fun k hk => hin.assigns k (Or.inl hk), fun k hk => hin.mentions k (Or.inl hk),
      fun n hn => hin.deletes n (Or.inl hn)⟩ hp.1 st h
    have hb := ihb ⟨fun k hk => hin.assigns k (Or.inr hk), fun k hk => hin.mentions k (Or.inr hk),
      fun n hn => hin.deletes n (Or.inr hn)⟩ hp.2 _ ha.wf
    exact ha.trans hb
  | ite c a b iha ihb =>
    refine good_whenReachable (g := fun st =>
      mergeConditional O
        (withFrame (guards O c st).2.2 (analyse O b)
          (withFrame (guards O c st).2.1 (analyse O a) (guards O c st).1).2).2
        (withFrame (guards O c st).2.1 (analyse O a) (guards O c st).1).1
        (withFrame (guards O c st).2.2 (analyse O b)
          (withFrame (guards O c st).2.1 (analyse O a) (guards O c st).1).2).1) ?_
    intro st h
    simp only [guards_state hp.1]
    have hg := guardOk_guards (O := O) hp.1 (fun k hk => hin.mentions k (Or.inl hk)) st
    obtain ⟨f1, st1, h1⟩ := framed
      (iha ⟨fun k hk => hin.assigns k (Or.inr (Or.inl hk)),
        fun k hk => hin.mentions k (Or.inr (Or.inl hk)),
        fun n hn => hin.deletes n (Or.inl hn)⟩ hp.2.1) h (hg.1.entriesOk (D := D))
    obtain ⟨f2, st2, h2⟩ := framed
      (ihb ⟨fun k hk => hin.assigns k (Or.inr (Or.inr hk)),
        fun k hk => hin.mentions k (Or.inr (Or.inr hk)),
        fun n hn => hin.deletes n (Or.inr hn)⟩ hp.2.2) h1.wf (hg.2.entriesOk (D := D))
    simp only [h1.eq, h2.eq]
    have hm := step_mergeConditional (O := O) (S := S) (A := A) L ap h2.wf h1.ok h2.ok
    exact (step_of_frames h1.wf h1.ext h1.frames).trans
      ((step_of_frames h2.wf h2.ext h2.frames).trans hm)
  | whileS c b e ihb ihe =>
    refine good_whenReachable (g := fun st =>
      processLoop O true (guards O c st).2.1 (guards O c st).2.2 (analyse O b) (analyse O e)
        { (guards O c st).1 with
          log := (guards O c st).1.log ++ [.loop (guards O c st).1.frames b none] }) ?_
    intro st h
    simp only [guards_state hp.1]
    have hg := guardOk_guards (O := O) hp.1 (fun k hk => hin.mentions k (Or.inl hk)) st
    have hs := step_logged (S := S) (A := A) h [.loop st.frames b none]
    obtain ⟨_, _, _, _, _, _, _, _, _, h5⟩ := processLoop_parts (O := O) (S := S) (A := A) L ap
      (cond := true)
      (ihb ⟨fun k hk => hin.assigns k (Or.inr (Or.inl hk)),
        fun k hk => hin.mentions k (Or.inr (Or.inl hk)),
        fun n hn => hin.deletes n (Or.inl hn)⟩ hp.2.1)
      (ihe ⟨fun k hk => hin.assigns k (Or.inr (Or.inr hk)),
        fun k hk => hin.mentions k (Or.inr (Or.inr hk)),
        fun n hn => hin.deletes n (Or.inr hn)⟩ hp.2.2)
      hs.wf hg.1 hg.2
    exact hs.trans h5
  | forS k t b e ihb ihe =>
    refine good_whenReachable (g := fun st =>
      processLoop O false Frame.conditional Frame.conditional
        (fun s => analyse O b (saveNarrowed O s k t)) (analyse O e)
        { st with log := st.log ++ [.loop st.frames b (some k)] }) ?_
    intro st h
    have hs := step_logged (S := S) (A := A) h [.loop st.frames b (some k)]
    have hb : Good S A M D (fun s => analyse O b (saveNarrowed O s k t)) := by
      intro s hs
      have h1 := step_saveNarrowed (O := O) (S := S) (A := A) (t := t) L ap hs
        (hin.mentions k (Or.inl rfl))
      exact h1.trans (ihb ⟨fun k hk => hin.assigns k (Or.inr (Or.inl hk)),
        fun k hk => hin.mentions k (Or.inr (Or.inl hk)),
        fun n hn => hin.deletes n (Or.inl hn)⟩ hp.1 _ h1.wf)
    obtain ⟨_, _, _, _, _, _, _, _, _, h5⟩ := processLoop_parts (O := O) (S := S) (A := A) L ap
      (cond := false) hb
      (ihe ⟨fun k hk => hin.assigns k (Or.inr (Or.inr hk)),
        fun k hk => hin.mentions k (Or.inr (Or.inr hk)),
        fun n hn => hin.deletes n (Or.inr hn)⟩ hp.2)
      hs.wf guardOk_conditional guardOk_conditional
    exact hs.trans h5
  | guarded b ih =>
    refine good_whenReachable (g := fun st =>
      onTop (fun tos => { tos with
        entries := overwriteEntries (withTryFrame (analyse O b) st).2.1.entries false tos.entries })
        (withTryFrame (analyse O b) st).2.2) ?_
    intro st h
    obtain ⟨f', es, st', ht⟩ := tried
      (ih ⟨hin.assigns, hin.mentions, hin.deletes⟩ hp) h
    simp only [ht.eq]
    refine (step_of_frames ht.wf ht.ext ht.frames).trans ?_
    exact step_onTop ht.wf (fun _ hf => overwriteEntries_ok ht.esok.1 hf)
      (fun _ _ hd => hasD_overwriteEntries ap ht.esok.1 hd)
  | tryS b n hs he e f ihb ihs ihe ihf =>
    obtain ⟨hp1, hp2, hp3, hp4⟩ := hp
    subst hp3 hp4
    refine good_whenReachable (g := fun st =>
      tryEnd O
        (mergeOr O
          ((List.finRange n).foldl
            (fun acc i => handlerStep O (withTryFrame (analyse O b) st).2.1 acc (analyse O (hs i)))
            (Frame.dead, (withTryFrame (analyse O b) st).2.2)).2.frames
          (withTryFrame (analyse O b) st).1 Frame.dead false)
        ((List.finRange n).foldl
            (fun acc i => handlerStep O (withTryFrame (analyse O b) st).2.1 acc (analyse O (hs i)))
            (Frame.dead, (withTryFrame (analyse O b) st).2.2)).1
        (analyse O .skip)
        ((List.finRange n).foldl
            (fun acc i => handlerStep O (withTryFrame (analyse O b) st).2.1 acc (analyse O (hs i)))
            (Frame.dead, (withTryFrame (analyse O b) st).2.2)).2) ?_
    intro st h
    obtain ⟨f', es, st', ht⟩ := tried
      (ihb ⟨fun k hk => hin.assigns k (Or.inl hk), fun k hk => hin.mentions k (Or.inl hk),
        fun n hn => hin.deletes n (Or.inl hn)⟩ hp1) h
    simp only [ht.eq]
    obtain ⟨r1, r2, r3, r4⟩ := handlers_step (O := O) (S := S) (A := A) (start := ⟨es, false⟩)
      (hs := fun i => analyse O (hs i))
      (fun i => ihs i ⟨fun k hk => hin.assigns k (Or.inr (Or.inl ⟨i, hk⟩)),
        fun k hk => hin.mentions k (Or.inr (Or.inl ⟨i, hk⟩)),
        fun n hn => hin.deletes n (Or.inr (Or.inl ⟨i, hn⟩))⟩ (hp2 i))
      ht.esok.1 (List.finRange n) (Frame.dead, st') entriesOk_nil ht.wf
    refine (step_of_frames ht.wf ht.ext ht.frames).trans ?_
    refine (step_of_frames r2 r3 r4).trans ?_
    exact step_tryEnd L ap (fun st h => step_refl h) r2 (mergeOr_ok ht.ok entriesOk_nil) r1

end
end Verif.Flow
