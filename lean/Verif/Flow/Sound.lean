/-
What the analysis says about a program is true of its runs.
-/
import Verif.Flow.Steps

namespace Verif.Flow

section
variable {Ty P V : Type} {O : Ops Ty P} {S : Sem Ty V P} {A M D : Key → Prop}

/-! ### Sub statements -/

theorem In.seq_left {a b : Stmt Ty P} (h : In A M D (.seq a b)) : In A M D a :=
  ⟨fun k hk => h.assigns k (Or.inl hk), fun k hk => h.mentions k (Or.inl hk),
    fun n hn => h.deletes n (Or.inl hn)⟩

theorem In.seq_right {a b : Stmt Ty P} (h : In A M D (.seq a b)) : In A M D b :=
  ⟨fun k hk => h.assigns k (Or.inr hk), fun k hk => h.mentions k (Or.inr hk),
    fun n hn => h.deletes n (Or.inr hn)⟩

theorem In.ite_left {c : Cond Ty P} {a b : Stmt Ty P} (h : In A M D (.ite c a b)) : In A M D a :=
  ⟨fun k hk => h.assigns k (Or.inr (Or.inl hk)), fun k hk => h.mentions k (Or.inr (Or.inl hk)),
    fun n hn => h.deletes n (Or.inl hn)⟩

theorem In.ite_right {c : Cond Ty P} {a b : Stmt Ty P} (h : In A M D (.ite c a b)) : In A M D b :=
  ⟨fun k hk => h.assigns k (Or.inr (Or.inr hk)), fun k hk => h.mentions k (Or.inr (Or.inr hk)),
    fun n hn => h.deletes n (Or.inr hn)⟩

theorem In.while_body {c : Cond Ty P} {b e : Stmt Ty P} (h : In A M D (.whileS c b e)) :
    In A M D b :=
  ⟨fun k hk => h.assigns k (Or.inr (Or.inl hk)), fun k hk => h.mentions k (Or.inr (Or.inl hk)),
    fun n hn => h.deletes n (Or.inl hn)⟩

theorem In.while_else {c : Cond Ty P} {b e : Stmt Ty P} (h : In A M D (.whileS c b e)) :
    In A M D e :=
  ⟨fun k hk => h.assigns k (Or.inr (Or.inr hk)), fun k hk => h.mentions k (Or.inr (Or.inr hk)),
    fun n hn => h.deletes n (Or.inr hn)⟩

theorem In.for_body {k : Key} {t : Ty} {b e : Stmt Ty P} (h : In A M D (.forS k t b e)) :
    In A M D b :=
  ⟨fun k hk => h.assigns k (Or.inr (Or.inl hk)), fun k hk => h.mentions k (Or.inr (Or.inl hk)),
    fun n hn => h.deletes n (Or.inl hn)⟩

theorem In.for_else {k : Key} {t : Ty} {b e : Stmt Ty P} (h : In A M D (.forS k t b e)) :
    In A M D e :=
  ⟨fun k hk => h.assigns k (Or.inr (Or.inr hk)), fun k hk => h.mentions k (Or.inr (Or.inr hk)),
    fun n hn => h.deletes n (Or.inr hn)⟩

theorem In.guarded_body {b : Stmt Ty P} (h : In A M D (.guarded b)) : In A M D b :=
  ⟨h.assigns, h.mentions, h.deletes⟩

theorem In.try_body {b e f : Stmt Ty P} {n : Nat} {hs : Fin n → Stmt Ty P} {he : Bool}
    (h : In A M D (.tryS b n hs he e f)) : In A M D b :=
  ⟨fun k hk => h.assigns k (Or.inl hk), fun k hk => h.mentions k (Or.inl hk),
    fun n hn => h.deletes n (Or.inl hn)⟩

theorem In.try_handler {b e f : Stmt Ty P} {n : Nat} {hs : Fin n → Stmt Ty P} {he : Bool}
    (h : In A M D (.tryS b n hs he e f)) (i : Fin n) : In A M D (hs i) :=
  ⟨fun k hk => h.assigns k (Or.inr (Or.inl ⟨i, hk⟩)),
    fun k hk => h.mentions k (Or.inr (Or.inl ⟨i, hk⟩)),
    fun n hn => h.deletes n (Or.inr (Or.inl ⟨i, hn⟩))⟩

/-! ### What a run changes -/

theorem evalC_typed {c : Cond Ty P} {env env' : Env V} {b : Bool} (h : EvalC O S c env b env')
    (hw : WellTyped O S env) : WellTyped O S env' := by
  induction h with
  | expr => exact hw
  | test => exact hw
  | not _ ih => exact ih hw
  | and_short _ ih => exact ih hw
  | and_long _ _ ih1 ih2 => exact ih2 (ih1 hw)
  | or_short _ ih => exact ih hw
  | or_long _ _ ih1 ih2 => exact ih2 (ih1 hw)
  | walrus _ h => exact h.typed

theorem raiseC_typed {c : Cond Ty P} {env env' : Env V} (h : RaiseC O S c env env')
    (hw : WellTyped O S env) : WellTyped O S env' := by
  induction h with
  | now => exact hw
  | not _ ih => exact ih hw
  | and_left _ ih => exact ih hw
  | and_right h _ ih => exact ih (evalC_typed h hw)
  | or_left _ ih => exact ih hw
  | or_right h _ ih => exact ih (evalC_typed h hw)
  | walrus _ h => exact h.typed

/-- A run keeps the declared types. -/
theorem exec_typed {s : Stmt Ty P} {env env' : Env V} {o : Outcome} (h : Exec O S s env o env')
    (hw : WellTyped O S env) : WellTyped O S env' := by
  induction h with
  | halt => exact hw
  | skip => exact hw
  | look => exact hw
  | read _ => exact hw
  | assign _ h => exact h.typed
  | untyped h => exact h.typed
  | del h =>
    rename_i n env env'
    intro k v hv
    by_cases h1 : k = .name n
    · subst h1; rw [h.here] at hv; cases hv
    · by_cases h2 : k.isChildOf (.name n) = true
      · rw [h.below k h2] at hv; cases hv
      · rw [h.other k h1 (by simpa using h2)] at hv
        exact hw k v hv
  | assert_ok h => exact evalC_typed h hw
  | assert_fail h => exact evalC_typed h hw
  | assert_raise h => exact raiseC_typed h hw
  | leave => exact hw
  | raise => exact hw
  | brk => exact hw
  | cont => exact hw
  | seq _ _ ih1 ih2 => exact ih2 (ih1 hw)
  | seq_stop _ _ ih => exact ih hw
  | ite_true h _ ih => exact ih (evalC_typed h hw)
  | ite_false h _ ih => exact ih (evalC_typed h hw)
  | ite_raise h => exact raiseC_typed h hw
  | while_done h _ ih => exact ih (evalC_typed h hw)
  | while_next h _ _ _ ih1 ih2 => exact ih2 (ih1 (evalC_typed h hw))
  | while_break h _ ih => exact ih (evalC_typed h hw)
  | while_stop h _ _ ih => exact ih (evalC_typed h hw)
  | while_raise h => exact raiseC_typed h hw
  | for_done _ ih => exact ih hw
  | for_next _ h _ _ _ ih1 ih2 => exact ih2 (ih1 h.typed)
  | for_break _ h _ ih => exact ih h.typed
  | for_stop _ h _ _ ih => exact ih h.typed
  | guarded _ ih => exact ih hw
  | suppressed _ ih => exact ih hw
  | try_ok _ ih => exact ih hw
  | try_else _ _ ih1 ih2 => exact ih2 (ih1 hw)
  | try_stop _ _ ih => exact ih hw
  | try_handled _ _ _ ih1 ih2 => exact ih2 (ih1 hw)
  | try_look _ _ ih => exact ih hw
  | try_finally _ _ _ _ ih1 ih2 => exact ih2 (ih1 hw)

/-- A run of a plain statement leaves the keys alone that it does not assign. -/
theorem exec_frame (ap : Apart A M D) {s : Stmt Ty P} {env env' : Env V} {o : Outcome}
    (h : Exec O S s env o env') {k : Key} (hk : M k) :
    In A M D s → s.Plain → ¬ s.Assigns k → env' k = env k := by
  induction h with
  | halt => intro _ _ _; rfl
  | skip => intro _ _ _; rfl
  | look => intro _ _ _; rfl
  | read _ => intro _ _ _; rfl
  | @assign k' e env v env' _ h =>
    intro hin _ hn
    exact h.other k (fun hh => hn hh) (ap.below k' k (hin.assigns k' rfl) hk)
  | untyped h => intro _ hp _; cases hp
  | @del n env env' h =>
    intro hin _ hn
    exact h.other k (fun hh => hn hh) (ap.below _ k (hin.assigns _ rfl) hk)
  | assert_ok h => intro _ hp _; rw [evalC_env hp h]
  | assert_fail h => intro _ hp _; rw [evalC_env hp h]
  | assert_raise h => intro _ hp _; rw [raiseC_env hp h]
  | leave => intro _ _ _; rfl
  | raise => intro _ _ _; rfl
  | brk => intro _ _ _; rfl
  | cont => intro _ _ _; rfl
  | seq _ _ ih1 ih2 =>
    intro hin hp hn
    rw [ih2 hin.seq_right hp.2 (fun h => hn (Or.inr h)),
      ih1 hin.seq_left hp.1 (fun h => hn (Or.inl h))]
  | seq_stop _ _ ih =>
    intro hin hp hn
    exact ih hin.seq_left hp.1 (fun h => hn (Or.inl h))
  | ite_true h _ ih =>
    intro hin hp hn
    rw [ih hin.ite_left hp.2.1 (fun h => hn (Or.inr (Or.inl h))), evalC_env hp.1 h]
  | ite_false h _ ih =>
    intro hin hp hn
    rw [ih hin.ite_right hp.2.2 (fun h => hn (Or.inr (Or.inr h))), evalC_env hp.1 h]
  | ite_raise h => intro _ hp _; rw [raiseC_env hp.1 h]
  | while_done h _ ih =>
    intro hin hp hn
    rw [ih hin.while_else hp.2.2 (fun h => hn (Or.inr (Or.inr h))), evalC_env hp.1 h]
  | while_next h _ _ _ ih1 ih2 =>
    intro hin hp hn
    rw [ih2 hin hp hn, ih1 hin.while_body hp.2.1 (fun h => hn (Or.inr (Or.inl h))),
      evalC_env hp.1 h]
  | while_break h _ ih =>
    intro hin hp hn
    rw [ih hin.while_body hp.2.1 (fun h => hn (Or.inr (Or.inl h))), evalC_env hp.1 h]
  | while_stop h _ _ ih =>
    intro hin hp hn
    rw [ih hin.while_body hp.2.1 (fun h => hn (Or.inr (Or.inl h))), evalC_env hp.1 h]
  | while_raise h => intro _ hp _; rw [raiseC_env hp.1 h]
  | for_done _ ih =>
    intro hin hp hn
    exact ih hin.for_else hp.2 (fun h => hn (Or.inr (Or.inr h)))
  | @for_next k' t b e env v env' o' env'' o env''' _ h _ _ _ ih1 ih2 =>
    intro hin hp hn
    rw [ih2 hin hp hn, ih1 hin.for_body hp.1 (fun h => hn (Or.inr (Or.inl h)))]
    exact h.other k (fun hh => hn (Or.inl hh)) (ap.below k' k (hin.assigns k' (Or.inl rfl)) hk)
  | @for_break k' t b e env v env' env'' _ h _ ih =>
    intro hin hp hn
    rw [ih hin.for_body hp.1 (fun h => hn (Or.inr (Or.inl h)))]
    exact h.other k (fun hh => hn (Or.inl hh)) (ap.below k' k (hin.assigns k' (Or.inl rfl)) hk)
  | @for_stop k' t b e env v env' o env'' _ h _ _ ih =>
    intro hin hp hn
    rw [ih hin.for_body hp.1 (fun h => hn (Or.inr (Or.inl h)))]
    exact h.other k (fun hh => hn (Or.inl hh)) (ap.below k' k (hin.assigns k' (Or.inl rfl)) hk)
  | guarded _ ih => intro hin hp hn; exact ih hin.guarded_body hp hn
  | suppressed _ ih => intro hin hp hn; exact ih hin.guarded_body hp hn
  | try_ok _ ih =>
    intro hin hp hn
    exact ih hin.try_body hp.1 (fun h => hn (Or.inl h))
  | try_else _ _ ih1 ih2 =>
    intro hin hp hn
    exact absurd hp.2.2.1 (by simp)
  | try_stop _ _ ih =>
    intro hin hp hn
    exact ih hin.try_body hp.1 (fun h => hn (Or.inl h))
  | try_handled i _ _ ih1 ih2 =>
    intro hin hp hn
    rw [ih2 (hin.try_handler i) (hp.2.1 i) (fun h => hn (Or.inr (Or.inl ⟨i, h⟩))),
      ih1 hin.try_body hp.1 (fun h => hn (Or.inl h))]
  | try_look _ _ ih =>
    intro hin hp hn
    obtain ⟨h1, h2, h3, h4⟩ := hp
    subst h4
    exact ih hin ⟨h1, h2, h3, rfl⟩ hn
  | try_finally hf _ _ _ ih1 ih2 =>
    intro hin hp hn
    exact absurd hp.2.2.2 hf

/-! ### The claim -/

/-- What is noted meets the conditions of the theorems. -/
def EvOk (O : Ops Ty P) (S : Sem Ty V P) (ev : Event Ty P) : Prop :=
  LoopOk S O ev ∧ BreakOk ev ∧ TryOk S O ev

/-- The frames below an index counted from the bottom. -/
def base (n : Nat) (frames : List (Frame Ty)) : List (Frame Ty) :=
  frames.drop (frames.length - n)

theorem base_cons {n : Nat} {f : Frame Ty} {fs : List (Frame Ty)} (h : n ≤ fs.length) :
    base n (f :: fs) = base n fs := by
  unfold base
  rw [List.length_cons, show fs.length + 1 - n = fs.length - n + 1 from by omega]
  rfl

theorem base_all (fs : List (Frame Ty)) : base fs.length fs = fs := by
  unfold base; simp

/-- What holds of the state after the analysis when a run ends in `o`. -/
structure Post (O : Ops Ty P) (S : Sem Ty V P) (A M : Key → Prop) (o : Outcome)
    (env env' : Env V) (st : St Ty P) : Prop where
  changed : ∀ k, M k → env' k = env k ∨
    (A k ∧ ∀ v, env' k = some v → ∀ es ∈ st.tries, TryCov S k v es)
  normal : o = .normal → isUnreachable st = false ∧ Fits S A M st.frames env'
  brk : o = .brk → ∀ l, st.loop = some l → ∃ f ∈ l.breaks, f.unreachable = false ∧
    Fits S A M (f :: base l.index st.frames) env'
  probe : ∀ l k, o = .probe l k → ∀ v, M k → env' k = some v →
    ∃ t, Event.read l k (.typ t) ∈ st.log ∧ S.mem v t

theorem tryCov_grow {k : Key} {v : V} {tr tr' : List (List (Entry Ty))} (hk : A k)
    (h : List.Forall₂ (TGrow S A) tr tr') (hc : ∀ es ∈ tr, TryCov S k v es) :
    ∀ es ∈ tr', TryCov S k v es := by
  induction h with
  | nil => exact hc
  | cons h1 _ ih =>
    intro es he
    rcases List.mem_cons.mp he with rfl | h2
    · exact h1 k hk v (hc _ (by simp))
    · exact ih (fun es he => hc es (by simp [he])) es h2

/-- The part of the claim about what changed. -/
def Changed (S : Sem Ty V P) (A M : Key → Prop) (env env' : Env V)
    (tr : List (List (Entry Ty))) : Prop :=
  ∀ k, M k → env' k = env k ∨ (A k ∧ ∀ v, env' k = some v → ∀ es ∈ tr, TryCov S k v es)

theorem changed_refl {env : Env V} {tr : List (List (Entry Ty))} : Changed S A M env env tr :=
  fun _ _ => Or.inl rfl

theorem changed_trans {env env' env'' : Env V} {tr tr' : List (List (Entry Ty))}
    (h : Changed S A M env env' tr) (hg : List.Forall₂ (TGrow S A) tr tr')
    (h' : Changed S A M env' env'' tr') : Changed S A M env env'' tr' := by
  intro k hk
  rcases h' k hk with h1 | h1
  · rcases h k hk with h2 | ⟨h2, h3⟩
    · exact Or.inl (h1.trans h2)
    · refine Or.inr ⟨h2, ?_⟩
      intro v hv
      rw [h1] at hv
      exact tryCov_grow h2 hg (h3 v hv)
  · exact Or.inr h1

theorem changed_grow {env env' : Env V} {tr tr' : List (List (Entry Ty))}
    (h : Changed S A M env env' tr) (hg : List.Forall₂ (TGrow S A) tr tr') :
    Changed S A M env env' tr' := changed_trans h hg changed_refl

/-- A run that did not end normally: the rest of the analysis keeps the claim. -/
theorem Post.later {o : Outcome} {env env' : Env V} {st st' : St Ty P} (hw : WF M D st)
    (h : Post O S A M o env env' st) (hs : Step S A M D st st') (ho : o ≠ .normal) :
    Post O S A M o env env' st' := by
  refine ⟨changed_grow h.changed hs.ext.tries, fun hn => absurd hn ho, ?_, ?_⟩
  · intro hb l' hl'
    cases h0 : st.loop with
    | none => rw [hs.ext.noloop h0] at hl'; cases hl'
    | some l =>
      obtain ⟨l2, h1, h2, h3⟩ := hs.ext.loop l h0
      rw [hl'] at h1
      cases h1
      obtain ⟨f, h4, h5, h6⟩ := h.brk hb l h0
      refine ⟨f, h3 f h4, h5, ?_⟩
      have hbase : base l'.index st'.frames = base l.index st.frames := by
        obtain ⟨f1, R1, e1⟩ := hw.cons
        obtain ⟨f2, R2, e2⟩ := hs.wf.cons
        have ht := hs.tail
        have hi := hw.index l h0
        rw [e1, e2] at ht
        simp only [List.tail_cons] at ht
        subst ht
        rw [e1] at hi
        simp only [List.length_cons] at hi
        rw [e1, e2, h2, base_cons (by omega), base_cons (by omega)]
      rw [hbase]
      exact h6
  · intro l k hp v hm hv
    obtain ⟨t, h1, h2⟩ := h.probe l k hp v hm hv
    exact ⟨t, hs.ext.log _ h1, h2⟩

/-- Leaving a frame. -/
theorem Post.pop {o : Outcome} {env env' : Env V} {f f' : Frame Ty} {g : St Ty P → St Ty P}
    {st st' : St Ty P} (hf : Framed S A M D f g st f' st')
    (h : Post O S A M o env env' (g (push f st))) (ho : o ≠ .normal) :
    Post O S A M o env env' st' := by
  have heq := hf.st_eq
  have hwf := hf.wf
  subst heq
  refine ⟨h.changed, fun hn => absurd hn ho, ?_, h.probe⟩
  intro hb l hl
  obtain ⟨f1, h1, h2, h3⟩ := h.brk hb l hl
  refine ⟨f1, h1, h2, ?_⟩
  have hi := hwf.index l hl
  simp only at hi
  rw [hf.inner, base_cons (by omega)] at h3
  exact h3

/-- A frame that says the truth at the end of a block. -/
theorem post_top {env env' : Env V} {f f' : Frame Ty} {R : List (Frame Ty)} {st : St Ty P}
    (hf : st.frames = f' :: R) (h : Post O S A M .normal env env' st) :
    f'.unreachable = false ∧ Fits S A M (f' :: R) env' := by
  have := h.normal rfl
  unfold isUnreachable at this
  rw [hf] at this
  exact this

theorem fits_mergeOr_left (L : Lawful O S) {R : List (Frame Ty)} {x y : Frame Ty} {opt : Bool}
    {env : Env V} (ap : Apart A M D) (hd : HasD D R)
    (hx : EntriesOk M D x.entries) (hy : EntriesOk M D y.entries)
    (hxr : x.unreachable = false) (h : Fits S A M (x :: R) env) :
    Fits S A M (mergeOr O R x y opt :: R) env :=
  fun k v hk hv => says_mergeOr_left L ap hd hx hy hxr (h k v hk hv)

theorem fits_mergeOr_right (L : Lawful O S) {R : List (Frame Ty)} {x y : Frame Ty}
    {env : Env V} (ap : Apart A M D) (hd : HasD D R)
    (hx : EntriesOk M D x.entries) (hy : EntriesOk M D y.entries)
    (hyr : y.unreachable = false) (h : Fits S A M (y :: R) env) :
    Fits S A M (mergeOr O R x y false :: R) env :=
  fun k v hk hv => says_mergeOr_right L ap hd hx hy hyr (fun h => by cases h) (h k v hk hv)

theorem fits_fold_left (L : Lawful O S) {R : List (Frame Ty)} {env : Env V} (ap : Apart A M D)
    (hd : HasD D R) (fs : List (Frame Ty)) : ∀ (a : Frame Ty),
    EntriesOk M D a.entries → (∀ f ∈ fs, EntriesOk M D f.entries) → a.unreachable = false →
    Fits S A M (a :: R) env →
    (fs.foldl (fun a c => mergeOr O R a c false) a).unreachable = false ∧
      Fits S A M (fs.foldl (fun a c => mergeOr O R a c false) a :: R) env := by
  induction fs with
  | nil => intro a _ _ h1 h2; exact ⟨h1, h2⟩
  | cons f fs ih =>
    intro a ha hf h1 h2
    rw [List.foldl_cons]
    exact ih _ (mergeOr_ok ha (hf f (by simp))) (fun g hg => hf g (by simp [hg]))
      (mergeOr_reach_left h1) (fits_mergeOr_left L ap hd ha (hf f (by simp)) h1 h2)

theorem fits_fold_mem (L : Lawful O S) {R : List (Frame Ty)} {env : Env V} (ap : Apart A M D)
    (hd : HasD D R) {f0 : Frame Ty} (h1 : f0.unreachable = false) (h2 : Fits S A M (f0 :: R) env)
    (fs : List (Frame Ty)) : ∀ (a : Frame Ty),
    EntriesOk M D a.entries → (∀ f ∈ fs, EntriesOk M D f.entries) → f0 ∈ fs →
    (fs.foldl (fun a c => mergeOr O R a c false) a).unreachable = false ∧
      Fits S A M (fs.foldl (fun a c => mergeOr O R a c false) a :: R) env := by
  induction fs with
  | nil => intro a _ _ h; cases h
  | cons f fs ih =>
    intro a ha hf hm
    rw [List.foldl_cons]
    have hok := hf f (by simp)
    have hr : ∀ g ∈ fs, EntriesOk M D g.entries := fun g hg => hf g (by simp [hg])
    rcases List.mem_cons.mp hm with rfl | hm'
    · exact fits_fold_left L ap hd fs _ (mergeOr_ok ha hok) hr (mergeOr_reach_right h1)
        (fits_mergeOr_right L ap hd ha hok h1 h2)
    · exact ih _ (mergeOr_ok ha hok) hr hm'

theorem reach_of_frames {st st' : St Ty P} (h : st'.frames = st.frames) :
    isUnreachable st' = isUnreachable st := by unfold isUnreachable; rw [h]

/-- Merging a side that says the truth. -/
theorem fits_mergeConditional_left (L : Lawful O S) (ap : Apart A M D) {st : St Ty P}
    {t f : Frame Ty} {env : Env V} (hw : WF M D st) (ht : EntriesOk M D t.entries)
    (hf : EntriesOk M D f.entries) (hr : t.unreachable = false)
    (h : Fits S A M (t :: st.frames) env) :
    Fits S A M (mergeConditional O st t f).frames env :=
  fun k v hk hv => says_mergeConditional_left L ap hw ht hf hr (h k v hk hv)

theorem fits_mergeConditional_right (L : Lawful O S) (ap : Apart A M D) {st : St Ty P}
    {t f : Frame Ty} {env : Env V} (hw : WF M D st) (ht : EntriesOk M D t.entries)
    (hf : EntriesOk M D f.entries) (hr : f.unreachable = false)
    (h : Fits S A M (f :: st.frames) env) :
    Fits S A M (mergeConditional O st t f).frames env :=
  fun k v hk hv => says_mergeConditional_right L ap hw ht hf hr (h k v hk hv)

/-- All frames of a loop merged into one. -/
theorem fits_mergeFrames {F R : List (Frame Ty)} {env : Env V} (hu : ∀ f ∈ F, Uniq f.entries)
    (hb : F.Pairwise (fun f g => ∀ e ∈ f.entries, ∀ e' ∈ g.entries,
      e.key = e'.key → e'.mods = true → e.mods = true))
    (h : Fits S A M (F ++ R) env) : Fits S A M (mergeFrames F :: R) env := by
  intro k v hk hv
  have hs := h k v hk hv
  have key : ∀ F : List (Frame Ty), F.Pairwise (fun f g => ∀ e ∈ f.entries, ∀ e' ∈ g.entries,
      e.key = e'.key → e'.mods = true → e.mods = true) → Says S A k v (F ++ R) →
      (lookup F k = none ∧ Says S A k v R) ∨
      ∃ e, lookup F k = some e ∧ Covers S e v ∧ ((e.mods = true ∧ A k) ∨ Says S A k v R) := by
    intro F
    induction F with
    | nil => intro _ hs; exact Or.inl ⟨rfl, hs⟩
    | cons f fs ih =>
      intro hp hs
      have hp' := List.pairwise_cons.mp hp
      rw [lookup_cons]
      rw [List.cons_append] at hs
      cases hf : find k f.entries with
      | none => exact ih hp'.2 ((says_none hf).mp hs)
      | some e =>
        obtain ⟨h1, h2⟩ := (says_some hf).mp hs
        refine Or.inr ⟨e, rfl, h1, ?_⟩
        rcases h2 with h2 | h2
        · exact Or.inl h2
        · rcases ih hp'.2 h2 with h3 | ⟨e', h3, h4, h5⟩
          · exact Or.inr h3.2
          · rcases h5 with ⟨h5, h6⟩ | h5
            · refine Or.inl ⟨?_, h6⟩
              obtain ⟨g, hg, hg'⟩ := List.exists_of_findSome?_eq_some (show
                fs.findSome? (fun f => find k f.entries) = some e' from h3)
              exact hp'.1 g hg e (find_mem hf) e' (find_mem hg')
                ((find_key hf).trans (find_key hg').symm) h5
            · exact Or.inr h5
  have hfm := find_mergeFrames (k := k) F
  rcases key F hb hs with ⟨h1, h2⟩ | ⟨e, h1, h2, h3⟩
  · rw [says_none (by rw [hfm, h1])]; exact h2
  · rw [says_some (by rw [hfm, h1])]; exact ⟨h2, h3⟩

theorem above_base (n : Nat) (frames : List (Frame Ty)) :
    above n frames ++ base n frames = frames := List.take_append_drop _ _

/-- An assignment. -/
theorem assign_post (L : Lawful O S) (ap : Apart A M D) {st : St Ty P} {k : Key} {t : Ty}
    {env env' : Env V} {v : V} (hw : WF M D st) (hk : A k)
    (hf : Fits S A M st.frames env) (ht : S.mem v t) (ha : Assigned O S k v env env') :
    Changed S A M env env' (saveNarrowed O st k t).tries ∧
      Fits S A M (saveNarrowed O st k t).frames env' := by
  have hc : Covers S (⟨k, some t, true, false⟩ : Entry Ty) v :=
    ⟨rfl, fun s hs => by cases hs; exact ht⟩
  refine ⟨?_, ?_⟩
  · intro k' hk'
    by_cases hkk : k' = k
    · subst hkk
      refine Or.inr ⟨hk, ?_⟩
      intro v' hv' es hes
      rw [ha.here] at hv'
      cases hv'
      simp only [saveNarrowed, overwriteEntry, List.mem_map] at hes
      obtain ⟨es0, h1, rfl⟩ := hes
      exact tryAdd_new (n := ⟨k', some t, true, false⟩) L ap hk
        (fun e he => (hw.tries es0 h1).1.keys e he) hc
    · exact Or.inl (ha.other k' hkk (ap.below k k' hk hk'))
  · intro k' v' hk' hv'
    by_cases hkk : k' = k
    · subst hkk
      rw [ha.here] at hv'
      cases hv'
      exact says_overwriteEntry_here (n := ⟨k', some t, true, false⟩) hc
        (fun hn => absurd hk hn) rfl
    · rw [ha.other k' hkk (ap.below k k' hk hk')] at hv'
      exact says_overwriteEntry_other (n := ⟨k, some t, true, false⟩) ap (ap.mentioned k hk)
        (fun h => hkk h.symm) (hf k' v' hk' hv')

/-- The frame that the handlers of a `try` start with says the truth. -/
theorem tried_fits {b : Stmt Ty P} {st st' : St Ty P} {f' : Frame Ty} {es : List (Entry Ty)}
    {env env' : Env V} (ht : Tried S A M D (analyse O b) st f' es st')
    (hok : TryOk S O (Event.tried (P := P) st.frames es)) (hty : WellTyped O S env')
    (hc : Changed S A M env env' (analyse O b (pushTry st)).tries)
    (hf : Fits S A M st.frames env) : Fits S A M (⟨es, false⟩ :: st.frames) env' := by
  intro k v hk hv
  obtain ⟨tr, h1, _⟩ := ht.tries
  rcases hc k hk with h2 | ⟨h2, h3⟩
  · rw [h2] at hv
    have hs := hf k v hk hv
    cases he : find k es with
    | none => rw [says_none (f := ⟨es, false⟩) he]; exact hs
    | some e =>
      rw [says_some (f := ⟨es, false⟩) he]
      have hek := find_key he
      have hd := hty k v (by rw [h2]; exact hv)
      refine ⟨?_, Or.inr hs⟩
      exact hok e (find_mem he) v (by rw [hek]; exact hd) (by rw [hek]; exact says_allowed hs)
  · obtain ⟨e, h4, h5⟩ := h3 v hv es (by rw [h1]; simp)
    rw [says_some (f := ⟨es, false⟩) h4]
    exact ⟨h5, Or.inl ⟨ht.esok.2 e (find_mem h4), h2⟩⟩

theorem Tried.inner_log {b : Stmt Ty P} {st st' : St Ty P} {f' : Frame Ty} {es : List (Entry Ty)}
    (ht : Tried S A M D (analyse O b) st f' es st') :
    (∀ ev ∈ (analyse O b (pushTry st)).log, ev ∈ st'.log) ∧
      Event.tried st.frames es ∈ st'.log := by
  obtain ⟨tr, _, h⟩ := ht.tries
  rw [h]
  exact ⟨fun ev he => List.mem_append_left _ he, by simp⟩

/-- Leaving a `try`. -/
theorem Post.popTry {o : Outcome} {env env' : Env V} {b : Stmt Ty P} {st st' : St Ty P}
    {f' : Frame Ty} {es : List (Entry Ty)} (ht : Tried S A M D (analyse O b) st f' es st')
    (h : Post O S A M o env env' (analyse O b (pushTry st))) (ho : o ≠ .normal) :
    Post O S A M o env env' st' := by
  obtain ⟨tr, h1, h2⟩ := ht.tries
  have hwf := ht.wf
  have hlog := ht.inner_log.1
  subst h2
  refine ⟨?_, fun hn => absurd hn ho, ?_, ?_⟩
  · intro k hk
    rcases h.changed k hk with h3 | ⟨h3, h4⟩
    · exact Or.inl h3
    · exact Or.inr ⟨h3, fun v hv es he => h4 v hv es (by rw [h1]; exact List.mem_cons_of_mem _ he)⟩
  · intro hb l hl
    obtain ⟨f1, h3, h4, h5⟩ := h.brk hb l hl
    refine ⟨f1, h3, h4, ?_⟩
    have hi := hwf.index l hl
    simp only at hi
    rw [ht.inner, base_cons (by omega)] at h5
    exact h5
  · intro l k hp v hm hv
    obtain ⟨t, h3, h4⟩ := h.probe l k hp v hm hv
    exact ⟨t, hlog _ h3, h4⟩

theorem changed_popTry {env env' : Env V} {b : Stmt Ty P} {st st' : St Ty P}
    {f' : Frame Ty} {es : List (Entry Ty)} (ht : Tried S A M D (analyse O b) st f' es st')
    (h : Changed S A M env env' (analyse O b (pushTry st)).tries) :
    Changed S A M env env' st'.tries := by
  obtain ⟨tr, h1, h2⟩ := ht.tries
  subst h2
  intro k hk
  rcases h k hk with h3 | ⟨h3, h4⟩
  · exact Or.inl h3
  · exact Or.inr ⟨h3, fun v hv es he => h4 v hv es (by rw [h1]; exact List.mem_cons_of_mem _ he)⟩

/-- The handlers of a `try`, one of which is run. -/
theorem handlers_post (L : Lawful O S) (ap : Apart A M D) {R : List (Frame Ty)} {o : Outcome}
    {env env' : Env V} {start : Frame Ty} {n : Nat} {hs : Fin n → Stmt Ty P}
    (hg : ∀ i, Good S A M D (analyse O (hs i))) (hst : EntriesOk M D start.entries)
    (hd : HasD D R) {log : List (Event Ty P)} {i : Fin n}
    (hrun : ∀ st, WF M D st → st.frames = R →
      (∀ ev ∈ (analyse O (hs i) (push start st)).log, ev ∈ log) →
      Post O S A M o env env' (analyse O (hs i) (push start st)))
    (is : List (Fin n)) (hi : i ∈ is) :
    ∀ (acc : Frame Ty × St Ty P), EntriesOk M D acc.1.entries → WF M D acc.2 →
    acc.2.frames = R →
    (∀ ev ∈ (is.foldl (fun acc i => handlerStep O start acc (analyse O (hs i))) acc).2.log,
      ev ∈ log) →
    Changed S A M env env'
        (is.foldl (fun acc i => handlerStep O start acc (analyse O (hs i))) acc).2.tries ∧
      (o ≠ .normal → Post O S A M o env env'
        (is.foldl (fun acc i => handlerStep O start acc (analyse O (hs i))) acc).2) ∧
      (o = .normal →
        (is.foldl (fun acc i => handlerStep O start acc (analyse O (hs i))) acc).1.unreachable
          = false ∧
        Fits S A M ((is.foldl (fun acc i => handlerStep O start acc (analyse O (hs i))) acc).1
          :: R) env') := by
  have keep : ∀ (is : List (Fin n)) (acc : Frame Ty × St Ty P), EntriesOk M D acc.1.entries →
      WF M D acc.2 → acc.2.frames = R → acc.1.unreachable = false →
      Fits S A M (acc.1 :: R) env' →
      (is.foldl (fun acc i => handlerStep O start acc (analyse O (hs i))) acc).1.unreachable
          = false ∧
      Fits S A M ((is.foldl (fun acc i => handlerStep O start acc (analyse O (hs i))) acc).1
          :: R) env' := by
    intro is
    induction is with
    | nil => intro acc _ _ _ h1 h2; exact ⟨h1, h2⟩
    | cons j js ih =>
      intro acc h1 h2 h3 h4 h5
      obtain ⟨f', st', hf⟩ := framed (hg j) h2 hst
      have heq : handlerStep O start acc (analyse O (hs j)) =
          (mergeOr O st'.frames f' acc.1 false, st') := by
        unfold handlerStep
        simp only [hf.eq]
      have hfr : st'.frames = R := hf.frames.trans h3
      rw [List.foldl_cons, heq, hfr]
      exact ih _ (mergeOr_ok hf.ok h1) hf.wf hfr (mergeOr_reach_right h4)
        (fits_mergeOr_right L ap hd hf.ok h1 h4 h5)
  induction is with
  | nil => cases hi
  | cons j js ih =>
    intro acc h1 h2 h3 h4
    obtain ⟨f', st', hf⟩ := framed (hg j) h2 hst
    have heq : handlerStep O start acc (analyse O (hs j)) =
        (mergeOr O st'.frames f' acc.1 false, st') := by
      unfold handlerStep
      simp only [hf.eq]
    have hfr : st'.frames = R := hf.frames.trans h3
    rw [List.foldl_cons, heq, hfr] at h4 ⊢
    obtain ⟨r1, r2, r3, r4⟩ := handlers_step (O := O) (S := S) (A := A) (start := start)
      (hs := fun i => analyse O (hs i)) hg hst js (mergeOr O R f' acc.1 false, st')
      (mergeOr_ok hf.ok h1) hf.wf
    by_cases hij : j = i
    · subst hij
      have hlog : ∀ ev ∈ (analyse O (hs j) (push start acc.2)).log, ev ∈ log := by
        intro ev hev
        refine h4 ev (r3.log ev ?_)
        rw [hf.st_eq]
        exact hev
      have hpost := hrun acc.2 h2 h3 hlog
      have hch : Changed S A M env env' st'.tries := by
        rw [hf.st_eq]; exact hpost.changed
      refine ⟨changed_grow hch r3.tries, ?_, ?_⟩
      · intro ho
        exact (hpost.pop hf ho).later hf.wf (step_of_frames r2 r3 r4) ho
      · intro ho
        subst ho
        have hin := hf.inner
        rw [h3] at hin
        obtain ⟨h5, h6⟩ := post_top (f := start) hin hpost
        exact keep js _ (mergeOr_ok hf.ok h1) hf.wf hfr (mergeOr_reach_left h5)
          (fits_mergeOr_left L ap hd hf.ok h1 h5 h6)
    · have hi' : i ∈ js := by
        rcases List.mem_cons.mp hi with h | h
        · exact absurd h.symm hij
        · exact h
      exact ih hi' _ (mergeOr_ok hf.ok h1) hf.wf hfr h4

/-- When a loop is left by its condition or because there are no more items. -/
theorem loop_exit (L : Lawful O S) (ap : Apart A M D) {cond : Bool} {falsey f1 f2 : Frame Ty}
    {e : Stmt Ty P} {st st1 st2 : St Ty P} {l : LoopDetails Ty} {o : Outcome} {env env' : Env V}
    (hw : WF M D st) (h1w : WF M D st1) (h1f : st1.frames = st.frames)
    (hl : ∀ f, f ∈ l.breaks ∨ f ∈ l.continues → EntriesOk M D f.entries)
    (hfr : Framed S A M D (afterBody O cond st.frames falsey f1 l.continues) (analyse O e) st1 f2 st2)
    (hok : EntriesOk M D
      (l.breaks.foldl (fun a c => mergeOr O st.frames a c false) f2).entries)
    (hr : isUnreachable st = false)
    (hp : Post O S A M o env env'
      (analyse O e (push (afterBody O cond st.frames falsey f1 l.continues) st1))) :
    Post O S A M o env env' (mergeConditional O st2
      (l.breaks.foldl (fun a c => mergeOr O st.frames a c false) f2) Frame.dead) := by
  have hst2 : st2.frames = st.frames := hfr.frames.trans h1f
  have hm := step_mergeConditional (O := O) (S := S) (A := A) L ap hfr.wf hok
    (f := Frame.dead) entriesOk_nil
  by_cases ho : o = .normal
  · subst ho
    have hin := hfr.inner
    rw [h1f] at hin
    obtain ⟨h3, h4⟩ := post_top (f := f2) hin hp
    obtain ⟨h5, h6⟩ := fits_fold_left L ap hw.hasD l.breaks f2 hfr.ok
      (fun f hf => hl f (Or.inl hf)) h3 h4
    have hch : Changed S A M env env' st2.tries := by rw [hfr.st_eq]; exact hp.changed
    refine ⟨changed_grow hch hm.ext.tries, ?_, fun h => (by cases h), fun l k h => (by cases h)⟩
    intro _
    refine ⟨?_, ?_⟩
    · rw [unreachable_mergeConditional (Or.inl h5), reach_of_frames hst2]; exact hr
    · refine fits_mergeConditional_left L ap hfr.wf hok entriesOk_nil h5 ?_
      rw [hst2]; exact h6
  · exact (hp.pop hfr ho).later hfr.wf hm ho

/-- When a loop is left by `break`. -/
theorem loop_break (L : Lawful O S) (ap : Apart A M D) {f2 : Frame Ty}
    {st st2 : St Ty P} {l : LoopDetails Ty} {env env' : Env V} {tr : List (List (Entry Ty))}
    (hw : WF M D st) (h2w : WF M D st2) (h2f : st2.frames = st.frames)
    (hl : ∀ f, f ∈ l.breaks ∨ f ∈ l.continues → EntriesOk M D f.entries)
    (hf2 : EntriesOk M D f2.entries)
    (hok : EntriesOk M D
      (l.breaks.foldl (fun a c => mergeOr O st.frames a c false) f2).entries)
    (hr : isUnreachable st = false) (hch : Changed S A M env env' tr)
    (htr : List.Forall₂ (TGrow S A) tr st2.tries) {f : Frame Ty} (hf : f ∈ l.breaks)
    (hfr : f.unreachable = false) (hfit : Fits S A M (f :: st.frames) env') :
    Post O S A M .normal env env' (mergeConditional O st2
      (l.breaks.foldl (fun a c => mergeOr O st.frames a c false) f2) Frame.dead) := by
  have hm := step_mergeConditional (O := O) (S := S) (A := A) L ap h2w hok
    (f := Frame.dead) entriesOk_nil
  obtain ⟨h5, h6⟩ := fits_fold_mem L ap hw.hasD hfr hfit l.breaks f2 hf2
    (fun f hf => hl f (Or.inl hf)) hf
  refine ⟨changed_grow (changed_grow hch htr) hm.ext.tries, ?_, fun h => (by cases h),
    fun l k h => (by cases h)⟩
  intro _
  refine ⟨?_, ?_⟩
  · rw [unreachable_mergeConditional (Or.inl h5), reach_of_frames h2f]; exact hr
  · refine fits_mergeConditional_left L ap h2w hok entriesOk_nil h5 ?_
    rw [h2f]; exact h6

/-- When the body of a loop is left by `return` or by an exception. -/
theorem loop_stop {g : St Ty P → St Ty P} {f f1 : Frame Ty} {st st1 st' : St Ty P}
    {l : LoopDetails Ty} {o : Outcome} {env env' : Env V}
    (hl : Looped S A M D f g st f1 l st1) (hs : Step S A M D st1 st')
    (ho : o.leavesLoop = true) (hp : Post O S A M o env env' (g (pushLoop f st))) :
    Post O S A M o env env' st' := by
  have hn : o ≠ .normal := fun h => by rw [h] at ho; cases ho
  have hb : o ≠ .brk := fun h => by rw [h] at ho; cases ho
  have h1 : Post O S A M o env env' st1 := by
    have heq := hl.st_eq
    subst heq
    exact ⟨hp.changed, fun h => absurd h hn, fun h => absurd h hb, hp.probe⟩
  exact h1.later hl.wf hs hn

/-- The frame after the body of a loop when the loop ends without running it. -/
theorem afterBody_fits (L : Lawful O S) (ap : Apart A M D) {cond : Bool}
    {frames : List (Frame Ty)} {falsey b : Frame Ty} {conts : List (Frame Ty)} {env : Env V}
    (hd : HasD D frames) (hf : GuardOk M falsey) (hb : EntriesOk M D b.entries)
    (hc : ∀ f ∈ conts, EntriesOk M D f.entries) (hg : GuardFits S falsey env)
    (hfit : Fits S A M frames env) :
    (afterBody O cond frames falsey b conts).unreachable = false ∧
      Fits S A M (afterBody O cond frames falsey b conts :: frames) env := by
  unfold afterBody
  refine ⟨mergeOr_reach_left hg.reach, fits_mergeOr_left L ap hd hf.entriesOk ?_ hg.reach
    (fits_guard hg hfit)⟩
  split
  · exact entriesOk_mergeAnd (mergeOr_fold_ok _ _ hb hc) hf
  · exact mergeOr_fold_ok _ _ hb hc

/-- Back at the start of a loop. -/
theorem loop_back {b : Stmt Ty P} {target : Option Key} {st : St Ty P}
    {env env' : Env V} (hw : WF M D st)
    (hok : LoopOk S O (Event.loop st.frames b target))
    (hA : ∀ k, b.Assigns k ∨ target = some k → A k)
    (hsame : ∀ k, M k → ¬ (b.Assigns k ∨ target = some k) → env' k = env k)
    (hty : WellTyped O S env') (hf : Fits S A M st.frames env) : Fits S A M st.frames env' := by
  intro k v hk hv
  by_cases h : b.Assigns k ∨ target = some k
  · exact allowed_says (hA k h) (fun f hf => (hw.ok f hf).uniq) (hok k h v (hty k v hv))
  · rw [hsame k hk h] at hv
    exact hf k v hk hv

end
end Verif.Flow
