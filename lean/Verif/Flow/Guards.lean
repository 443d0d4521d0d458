/-
Reads of keys, and the frames of a condition without `:=`.
-/
import Verif.Flow.Overwrite

namespace Verif.Flow

section
variable {Ty P V : Type} {O : Ops Ty P} {S : Sem Ty V P} {A M D : Key → Prop}

/-- The frames say the truth about the values of the keys of the program. -/
def Fits (S : Sem Ty V P) (A M : Key → Prop) (frames : List (Frame Ty)) (env : Env V) : Prop :=
  ∀ k v, M k → env k = some v → Says S A k v frames

theorem primaryEntry_lookup {k : Key} {frames : List (Frame Ty)} {e : Entry Ty}
    (h : primaryEntry k frames = some e) : lookup frames k = some e := by
  induction frames with
  | nil => cases h
  | cons f fs ih =>
    rw [lookup_cons]
    unfold primaryEntry at h
    cases hf : find k f.entries with
    | some e' => rw [hf] at h; simpa using h
    | none =>
      rw [hf] at h
      simp only at h
      split at h
      · cases h
      · simpa using ih h

/-- A read says the truth when the frames do. -/
theorem read_sound {frames : List (Frame Ty)} {k : Key} {v : V}
    (hd : S.mem v (O.decl k)) (h : Says S A k v frames) :
    ∃ t, readClaim O frames k = .typ t ∧ S.mem v t := by
  cases k with
  | name n =>
    simp only [readClaim]
    cases hl : lookup frames (.name n) with
    | none => exact ⟨_, rfl, hd⟩
    | some e =>
      have hc := says_lookup h hl
      simp only [hc.1]
      refine ⟨_, rfl, ?_⟩
      cases hk : e.kind with
      | none => exact hd
      | some t => exact hc.2 t hk
  | sub b s =>
    simp only [readClaim]
    cases hl : primaryEntry (.sub b s) frames with
    | none => exact ⟨_, rfl, hd⟩
    | some e =>
      have hc := says_lookup h (primaryEntry_lookup hl)
      refine ⟨_, rfl, ?_⟩
      cases hk : e.kind with
      | none => exact hd
      | some t => exact hc.2 t hk

/-- The type of an expression is the type of its values. -/
theorem exprType_sound {frames : List (Frame Ty)} {env : Env V} {e : Expr Ty} {v : V}
    (hw : WellTyped O S env) (hf : Fits S A M frames env) (hm : ∀ k, e.Mentions k → M k)
    (h : EvalE S env v e) : S.mem v (exprType O frames e) := by
  cases e with
  | «opaque» t => exact h
  | key k =>
    obtain ⟨t, h1, h2⟩ := read_sound (O := O) (hw k v h) (hf k v (hm k rfl) h)
    simp only [exprType, h1]
    exact h2

/-- The frames of a condition: only entries that were tested. -/
structure GuardOk (M : Key → Prop) (f : Frame Ty) : Prop where
  uniq : Uniq f.entries
  keys : ∀ e ∈ f.entries, M e.key
  mods : ∀ e ∈ f.entries, e.mods = false
  deleted : ∀ e ∈ f.entries, e.deleted = false

theorem GuardOk.entriesOk {f : Frame Ty} (h : GuardOk M f) : EntriesOk M D f.entries :=
  ⟨h.uniq, h.keys, fun e he hd => by rw [h.deleted e he] at hd; cases hd⟩

theorem guardOk_conditional : GuardOk M (Frame.conditional : Frame Ty) :=
  ⟨uniq_nil, by simp [Frame.conditional], by simp [Frame.conditional], by simp [Frame.conditional]⟩

theorem guardOk_dead : GuardOk M (Frame.dead : Frame Ty) :=
  ⟨uniq_nil, by simp [Frame.dead], by simp [Frame.dead], by simp [Frame.dead]⟩

theorem guardOk_fromType {k : Key} {t : Ty} (hk : M k) : GuardOk M (fromType O k t) := by
  unfold fromType
  split
  · exact guardOk_dead
  · exact ⟨List.pairwise_singleton _ _, by simpa using hk, by simp, by simp⟩

theorem guardOk_fromTypeWithoutEntry {t : Ty} : GuardOk M (fromTypeWithoutEntry O t) := by
  unfold fromTypeWithoutEntry
  split
  · exact guardOk_dead
  · exact guardOk_conditional

theorem guardOk_exprGuards {frames : List (Frame Ty)} {e : Expr Ty} {p : P}
    (hm : ∀ k, e.Mentions k → M k) :
    GuardOk M (exprGuards O frames e p).1 ∧ GuardOk M (exprGuards O frames e p).2 := by
  unfold exprGuards
  split
  · exact ⟨guardOk_conditional, guardOk_conditional⟩
  · cases e with
    | «opaque» t => exact ⟨guardOk_fromTypeWithoutEntry, guardOk_fromTypeWithoutEntry⟩
    | key k => exact ⟨guardOk_fromType (hm k rfl), guardOk_fromType (hm k rfl)⟩

theorem guardOk_mergeOr {R : List (Frame Ty)} {x y : Frame Ty} {opt : Bool} (hx : GuardOk M x)
    (hy : GuardOk M y) : GuardOk M (mergeOr O R x y opt) := by
  cases hxr : x.unreachable with
  | true => unfold mergeOr; rw [if_pos hxr]; exact hy
  | false =>
    cases hyr : y.unreachable with
    | true => unfold mergeOr; rw [if_neg (by simp [hxr]), if_pos hyr]; exact hx
    | false =>
      have key : ∀ E ∈ (mergeOr O R x y opt).entries,
          ∃ xe ∈ x.entries, ∃ ye ∈ y.entries, xe.key = ye.key ∧ E = union O xe ye := by
        intro E hE
        rcases mergeOr_mem hx.uniq hy.uniq hxr hyr hE with h | ⟨xe, h1, h2, _⟩ | ⟨ye, h1, h2, _⟩
        · exact h
        · rw [hx.mods xe h1] at h2; cases h2
        · rw [hy.mods ye h1] at h2; cases h2
      refine ⟨mergeOr_uniq hx.uniq hy.uniq, ?_, ?_, ?_⟩
      · intro E hE
        obtain ⟨xe, h1, ye, _, _, rfl⟩ := key E hE
        exact hx.keys xe h1
      · intro E hE
        obtain ⟨xe, h1, ye, h2, _, rfl⟩ := key E hE
        simp [union, hx.mods xe h1, hy.mods ye h2]
      · intro E hE
        obtain ⟨xe, h1, ye, h2, _, rfl⟩ := key E hE
        simp [union, hx.deleted xe h1]

theorem guardOk_andStep {x : Frame Ty} {y : Entry Ty} (hx : GuardOk M x) (hk : M y.key)
    (hm : y.mods = false) (hd : y.deleted = false) : GuardOk M (andStep O x y) := by
  have hup : ∀ (g : Entry Ty → Option Ty) (u : Bool),
      GuardOk M (⟨upsert (fun e => { e with kind := g e }) y x.entries, u⟩ : Frame Ty) := by
    intro g u
    refine ⟨uniq_upsert (fun e he => he) hx.uniq, ?_, ?_, ?_⟩
    all_goals
      intro e he
      rcases mem_upsert he with rfl | h1 | ⟨e0, h1, h2, rfl⟩
    · exact hk
    · exact hx.keys e h1
    · exact hx.keys e0 h1
    · exact hm
    · exact hx.mods e h1
    · exact hx.mods e0 h1
    · exact hd
    · exact hx.deleted e h1
    · exact hx.deleted e0 h1
  unfold andStep
  split
  · rename_i hf
    refine ⟨uniq_append_singleton hx.uniq (find_none_iff.mp hf), ?_, ?_, ?_⟩
    all_goals
      intro e he
      rcases List.mem_append.mp he with h1 | h1
    · exact hx.keys e h1
    · rw [List.mem_singleton.mp h1]; exact hk
    · exact hx.mods e h1
    · rw [List.mem_singleton.mp h1]; exact hm
    · exact hx.deleted e h1
    · rw [List.mem_singleton.mp h1]; exact hd
  · rw [if_neg (by simp [hm])]
    split
    · rename_i t _
      exact hup (fun _ => t) x.unreachable
    · exact hup (fun _ => some O.bottom) true

theorem guardOk_mergeAnd {x y : Frame Ty} (hx : GuardOk M x) (hy : GuardOk M y) :
    GuardOk M (mergeAnd O x y) := by
  unfold mergeAnd
  split
  · exact hx
  · split
    · exact hy
    · have key : ∀ (es : List (Entry Ty)), (∀ e ∈ es, e ∈ y.entries) → ∀ x : Frame Ty,
          GuardOk M x → GuardOk M (es.foldl (andStep O) x) := by
        intro es
        induction es with
        | nil => intro _ x hx; exact hx
        | cons a as ih =>
          intro hs x hx
          have ha := hs a (by simp)
          exact ih (fun e he => hs e (by simp [he])) _
            (guardOk_andStep hx (hy.keys a ha) (hy.mods a ha) (hy.deleted a ha))
      exact key _ (fun _ h => h) x hx

/-- A condition without `:=` leaves the state alone. -/
theorem guards_state {c : Cond Ty P} (hp : c.Pure) : ∀ st : St Ty P, (guards O c st).1 = st := by
  induction c with
  | expr t p => intro st; rfl
  | test k p => intro st; rfl
  | not c ih => intro st; exact ih hp st
  | and c d ihc ihd =>
    intro st
    simp only [guards]
    split
    · exact ihc hp.1 st
    · simp only [ihd hp.2, ihc hp.1]
      rfl
  | or c d ihc ihd =>
    intro st
    simp only [guards]
    split
    · exact ihc hp.1 st
    · simp only [ihd hp.2, ihc hp.1]
      rfl
  | walrus n e p => cases hp

theorem guards_and {c d : Cond Ty P} (hc : c.Pure) (hd : d.Pure) (st : St Ty P) :
    (guards O (.and c d) st).2 =
      if (guards O c st).2.1.unreachable = true then
        (mergeAnd O (guards O c st).2.1 Frame.conditional,
          mergeOr O st.frames (guards O c st).2.2 Frame.conditional true)
      else
        (mergeAnd O (guards O c st).2.1
            (guards O d { st with frames := (guards O c st).2.1 :: st.frames }).2.1,
          mergeOr O st.frames (guards O c st).2.2
            (guards O d { st with frames := (guards O c st).2.1 :: st.frames }).2.2 true) := by
  rw [guards]
  simp only [guards_state hc, guards_state hd]
  split
  · rfl
  · rfl

theorem guards_or {c d : Cond Ty P} (hc : c.Pure) (hd : d.Pure) (st : St Ty P) :
    (guards O (.or c d) st).2 =
      if (guards O c st).2.2.unreachable = true then
        (mergeOr O st.frames (guards O c st).2.1 Frame.conditional true,
          mergeAnd O (guards O c st).2.2 Frame.conditional)
      else
        (mergeOr O st.frames (guards O c st).2.1
            (guards O d { st with frames := (guards O c st).2.2 :: st.frames }).2.1 true,
          mergeAnd O (guards O c st).2.2
            (guards O d { st with frames := (guards O c st).2.2 :: st.frames }).2.2) := by
  rw [guards]
  simp only [guards_state hc, guards_state hd]
  split
  · rfl
  · rfl

theorem guardOk_guards {c : Cond Ty P} (hp : c.Pure) (hm : ∀ k, c.Mentions k → M k) :
    ∀ st : St Ty P, GuardOk M (guards O c st).2.1 ∧ GuardOk M (guards O c st).2.2 := by
  induction c with
  | expr t p =>
    intro st
    exact guardOk_exprGuards (e := .opaque t) (fun k hk => by cases hk)
  | test k p =>
    intro st
    exact guardOk_exprGuards (e := .key k) hm
  | not c ih =>
    intro st
    exact (ih hp hm st).symm
  | and c d ihc ihd =>
    intro st
    rw [guards_and hp.1 hp.2]
    have h1 := ihc hp.1 (fun k hk => hm k (Or.inl hk)) st
    split
    · exact ⟨guardOk_mergeAnd h1.1 guardOk_conditional, guardOk_mergeOr h1.2 guardOk_conditional⟩
    · have h2 := ihd hp.2 (fun k hk => hm k (Or.inr hk))
        { st with frames := (guards O c st).2.1 :: st.frames }
      exact ⟨guardOk_mergeAnd h1.1 h2.1, guardOk_mergeOr h1.2 h2.2⟩
  | or c d ihc ihd =>
    intro st
    rw [guards_or hp.1 hp.2]
    have h1 := ihc hp.1 (fun k hk => hm k (Or.inl hk)) st
    split
    · exact ⟨guardOk_mergeOr h1.1 guardOk_conditional, guardOk_mergeAnd h1.2 guardOk_conditional⟩
    · have h2 := ihd hp.2 (fun k hk => hm k (Or.inr hk))
        { st with frames := (guards O c st).2.2 :: st.frames }
      exact ⟨guardOk_mergeOr h1.1 h2.1, guardOk_mergeAnd h1.2 h2.2⟩
  | walrus n e p => cases hp

/-! ### What the frames of a condition say -/

/-- A frame of a condition is right about the values of a run. -/
structure GuardFits (S : Sem Ty V P) (f : Frame Ty) (env : Env V) : Prop where
  reach : f.unreachable = false
  covers : ∀ e ∈ f.entries, ∃ v, env e.key = some v ∧ Covers S e v

theorem guardFits_conditional {env : Env V} :
    GuardFits S (Frame.conditional : Frame Ty) env :=
  ⟨rfl, by simp [Frame.conditional]⟩

theorem fits_guard {frames : List (Frame Ty)} {f : Frame Ty} {env : Env V}
    (hg : GuardFits S f env) (h : Fits S A M frames env) : Fits S A M (f :: frames) env := by
  intro k v hk hv
  cases hf : find k f.entries with
  | none => rw [says_none hf]; exact h k v hk hv
  | some e =>
    rw [says_some hf]
    obtain ⟨v', h1, h2⟩ := hg.covers e (find_mem hf)
    rw [find_key hf, hv] at h1
    cases h1
    exact ⟨h2, Or.inr (h k v hk hv)⟩

theorem guardFits_mergeOr_left (L : Lawful O S) {R : List (Frame Ty)} {x y : Frame Ty}
    {opt : Bool} {env : Env V} (hx : GuardOk M x) (hy : GuardOk M y) (h : GuardFits S x env) :
    GuardFits S (mergeOr O R x y opt) env := by
  refine ⟨mergeOr_reach_left h.reach, ?_⟩
  cases hyr : y.unreachable with
  | true => unfold mergeOr; rw [if_neg (by simp [h.reach]), if_pos hyr]; exact h.covers
  | false =>
    intro E hE
    rcases mergeOr_mem hx.uniq hy.uniq h.reach hyr hE with
      ⟨xe, h1, ye, _, _, rfl⟩ | ⟨xe, h1, h2, _⟩ | ⟨ye, h1, h2, _⟩
    · obtain ⟨v, h2, h3⟩ := h.covers xe h1
      exact ⟨v, h2, covers_union_left L h3⟩
    · rw [hx.mods xe h1] at h2; cases h2
    · rw [hy.mods ye h1] at h2; cases h2

theorem guardFits_mergeOr_right (L : Lawful O S) {R : List (Frame Ty)} {x y : Frame Ty}
    {opt : Bool} {env : Env V} (hx : GuardOk M x) (hy : GuardOk M y) (h : GuardFits S y env) :
    GuardFits S (mergeOr O R x y opt) env := by
  refine ⟨mergeOr_reach_right h.reach, ?_⟩
  cases hxr : x.unreachable with
  | true => unfold mergeOr; rw [if_pos hxr]; exact h.covers
  | false =>
    intro E hE
    rcases mergeOr_mem hx.uniq hy.uniq hxr h.reach hE with
      ⟨xe, h1, ye, h2, h3, rfl⟩ | ⟨xe, h1, h2, _⟩ | ⟨ye, h1, h2, _⟩
    · obtain ⟨v, h4, h5⟩ := h.covers ye h2
      exact ⟨v, by rw [union_key, h3]; exact h4, covers_union_right L h5⟩
    · rw [hx.mods xe h1] at h2; cases h2
    · rw [hy.mods ye h1] at h2; cases h2

theorem guardFits_andStep (L : Lawful O S) {x : Frame Ty} {y : Entry Ty} {env : Env V} {v : V}
    (hx : GuardFits S x env) (hm : y.mods = false) (hv : env y.key = some v)
    (hc : Covers S y v) : GuardFits S (andStep O x y) env := by
  unfold andStep
  split
  · refine ⟨hx.reach, ?_⟩
    intro e he
    rcases List.mem_append.mp he with h1 | h1
    · exact hx.covers e h1
    · rw [List.mem_singleton.mp h1]; exact ⟨v, hv, hc⟩
  · rename_i xe hf
    rw [if_neg (by simp [hm])]
    obtain ⟨v', h1, h2⟩ := hx.covers xe (find_mem hf)
    rw [find_key hf, hv] at h1
    cases h1
    have hcst : ∃ t, commonSubType O xe y = some t ∧ ∀ s, t = some s → S.mem v s := by
      unfold commonSubType
      cases hk : xe.kind with
      | none => exact ⟨y.kind, rfl, fun s hs => hc.2 s hs⟩
      | some s =>
        cases hk' : y.kind with
        | none => exact ⟨xe.kind, by simp [hk], fun s hs => h2.2 s hs⟩
        | some t =>
          obtain ⟨r, h3, h4⟩ := L.meet v s t (h2.2 s hk) (hc.2 t hk')
          refine ⟨some r, by simp [h3], ?_⟩
          intro s hs
          cases hs
          exact h4
    obtain ⟨t, h3, h4⟩ := hcst
    rw [h3]
    refine ⟨hx.reach, ?_⟩
    intro e he
    rcases mem_upsert he with rfl | h5 | ⟨e0, h5, h6, rfl⟩
    · exact ⟨v, hv, hc⟩
    · exact hx.covers e h5
    · obtain ⟨v'', h7, h8⟩ := hx.covers e0 h5
      refine ⟨v'', h7, h8.1, ?_⟩
      rw [h6, hv] at h7
      cases h7
      exact h4

theorem guardFits_mergeAnd (L : Lawful O S) {x y : Frame Ty} {env : Env V}
    (hy : GuardOk M y) (hx : GuardFits S x env) (hy' : GuardFits S y env) :
    GuardFits S (mergeAnd O x y) env := by
  unfold mergeAnd
  rw [if_neg (by simp [hx.reach]), if_neg (by simp [hy'.reach])]
  have key : ∀ (es : List (Entry Ty)), (∀ e ∈ es, e ∈ y.entries) → ∀ x : Frame Ty,
      GuardFits S x env → GuardFits S (es.foldl (andStep O) x) env := by
    intro es
    induction es with
    | nil => intro _ x hx; exact hx
    | cons a as ih =>
      intro hs x hx
      have ha := hs a (by simp)
      obtain ⟨v, h1, h2⟩ := hy'.covers a ha
      exact ih (fun e he => hs e (by simp [he])) _ (guardFits_andStep L hx (hy.mods a ha) h1 h2)
  exact key _ (fun _ h => h) x hx

theorem guardFits_fromType (L : Lawful O S) {k : Key} {t : Ty} {env : Env V} {v : V}
    (hv : env k = some v) (h : S.mem v t) : GuardFits S (fromType O k t) env := by
  unfold fromType
  split
  · rename_i hn
    exact absurd h (L.never v t hn)
  · refine ⟨rfl, ?_⟩
    intro e he
    rw [List.mem_singleton.mp he]
    refine ⟨v, hv, rfl, ?_⟩
    intro s hs
    cases hs
    exact h

theorem guardFits_fromTypeWithoutEntry (L : Lawful O S) {t : Ty} {env : Env V} {v : V}
    (h : S.mem v t) : GuardFits S (fromTypeWithoutEntry O t) env := by
  unfold fromTypeWithoutEntry
  split
  · rename_i hn
    exact absurd h (L.never v t hn)
  · exact guardFits_conditional

/-- The frame of the side that is taken. -/
def side (b : Bool) (g : Frame Ty × Frame Ty) : Frame Ty := if b then g.1 else g.2

theorem exprGuards_sound (L : Lawful O S) {frames : List (Frame Ty)} {env : Env V} {e : Expr Ty}
    {p : P} {v : V} (hw : WellTyped O S env) (hf : Fits S A M frames env)
    (hm : ∀ k, e.Mentions k → M k) (h : EvalE S env v e) :
    GuardFits S (side (S.holds p v) (exprGuards O frames e p)) env := by
  have ht := exprType_sound (O := O) hw hf hm h
  unfold exprGuards
  cases hs : O.split p (exprType O frames e) with
  | none =>
    simp only [side]
    split <;> exact guardFits_conditional
  | some ab =>
    obtain ⟨a, b⟩ := ab
    cases hh : S.holds p v with
    | true =>
      have := L.split_pos p _ a b v hs ht hh
      cases e with
      | «opaque» t => exact guardFits_fromTypeWithoutEntry L this
      | key k => exact guardFits_fromType L h this
    | false =>
      have := L.split_neg p _ a b v hs ht hh
      cases e with
      | «opaque» t => exact guardFits_fromTypeWithoutEntry L this
      | key k => exact guardFits_fromType L h this

/-- Conditions without `:=` do not change values. -/
theorem evalC_env {c : Cond Ty P} {env env' : Env V} {b : Bool} (hp : c.Pure)
    (h : EvalC O S c env b env') : env' = env := by
  induction h with
  | expr => rfl
  | test => rfl
  | not _ ih => exact ih hp
  | and_short _ ih => exact ih hp.1
  | and_long _ _ ih1 ih2 => exact (ih2 hp.2).trans (ih1 hp.1)
  | or_short _ ih => exact ih hp.1
  | or_long _ _ ih1 ih2 => exact (ih2 hp.2).trans (ih1 hp.1)
  | walrus => cases hp

theorem raiseC_env {c : Cond Ty P} {env env' : Env V} (hp : c.Pure)
    (h : RaiseC O S c env env') : env' = env := by
  induction h with
  | now => rfl
  | not _ ih => exact ih hp
  | and_left _ ih => exact ih hp.1
  | and_right h1 _ ih => exact (ih hp.2).trans (evalC_env hp.1 h1)
  | or_left _ ih => exact ih hp.1
  | or_right h1 _ ih => exact (ih hp.2).trans (evalC_env hp.1 h1)
  | walrus => cases hp

/-- The frame of the side a condition takes is right. -/
theorem guards_sound (L : Lawful O S) {c : Cond Ty P} {env env' : Env V} {b : Bool}
    (h : EvalC O S c env b env') (hp : c.Pure) (hm : ∀ k, c.Mentions k → M k)
    (hw : WellTyped O S env) : ∀ st : St Ty P, Fits S A M st.frames env →
    GuardFits S (side b (guards O c st).2) env := by
  induction h with
  | expr h =>
    intro st hf
    exact exprGuards_sound (e := .opaque _) L hw hf (fun k hk => by cases hk) h
  | test h =>
    intro st hf
    exact exprGuards_sound (e := .key _) L hw hf hm h
  | @not c env b env' _ ih =>
    intro st hf
    have := ih hp hm hw st hf
    cases b <;> exact this
  | @and_short c d env env' _ ih =>
    intro st hf
    have h1 : GuardFits S (guards O c st).2.2 env :=
      ih hp.1 (fun k hk => hm k (Or.inl hk)) hw st hf
    have o1 := guardOk_guards (O := O) hp.1 (fun k hk => hm k (Or.inl hk)) st
    have o2 := guardOk_guards (O := O) hp.2 (fun k hk => hm k (Or.inr hk))
      { st with frames := (guards O c st).2.1 :: st.frames }
    rw [guards_and hp.1 hp.2]
    by_cases hu : (guards O c st).2.1.unreachable = true
    · rw [if_pos hu]
      exact guardFits_mergeOr_left L o1.2 guardOk_conditional h1
    · rw [if_neg hu]
      exact guardFits_mergeOr_left L o1.2 o2.2 h1
  | @and_long c d env env' b env'' h1 _ ih1 ih2 =>
    intro st hf
    have he := evalC_env hp.1 h1
    subst he
    have h1 : GuardFits S (guards O c st).2.1 env' :=
      ih1 hp.1 (fun k hk => hm k (Or.inl hk)) hw st hf
    have o1 := guardOk_guards (O := O) hp.1 (fun k hk => hm k (Or.inl hk)) st
    have o2 := guardOk_guards (O := O) hp.2 (fun k hk => hm k (Or.inr hk))
      { st with frames := (guards O c st).2.1 :: st.frames }
    have h2 := ih2 hp.2 (fun k hk => hm k (Or.inr hk)) hw
      { st with frames := (guards O c st).2.1 :: st.frames } (fits_guard h1 hf)
    rw [guards_and hp.1 hp.2, if_neg (by simp [h1.reach])]
    cases b with
    | true => exact guardFits_mergeAnd L o2.1 h1 h2
    | false => exact guardFits_mergeOr_right L o1.2 o2.2 h2
  | @or_short c d env env' _ ih =>
    intro st hf
    have h1 : GuardFits S (guards O c st).2.1 env :=
      ih hp.1 (fun k hk => hm k (Or.inl hk)) hw st hf
    have o1 := guardOk_guards (O := O) hp.1 (fun k hk => hm k (Or.inl hk)) st
    have o2 := guardOk_guards (O := O) hp.2 (fun k hk => hm k (Or.inr hk))
      { st with frames := (guards O c st).2.2 :: st.frames }
    rw [guards_or hp.1 hp.2]
    by_cases hu : (guards O c st).2.2.unreachable = true
    · rw [if_pos hu]
      exact guardFits_mergeOr_left L o1.1 guardOk_conditional h1
    · rw [if_neg hu]
      exact guardFits_mergeOr_left L o1.1 o2.1 h1
  | @or_long c d env env' b env'' h1 _ ih1 ih2 =>
    intro st hf
    have he := evalC_env hp.1 h1
    subst he
    have h1 : GuardFits S (guards O c st).2.2 env' :=
      ih1 hp.1 (fun k hk => hm k (Or.inl hk)) hw st hf
    have o1 := guardOk_guards (O := O) hp.1 (fun k hk => hm k (Or.inl hk)) st
    have o2 := guardOk_guards (O := O) hp.2 (fun k hk => hm k (Or.inr hk))
      { st with frames := (guards O c st).2.2 :: st.frames }
    have h2 := ih2 hp.2 (fun k hk => hm k (Or.inr hk)) hw
      { st with frames := (guards O c st).2.2 :: st.frames } (fits_guard h1 hf)
    rw [guards_or hp.1 hp.2, if_neg (by simp [h1.reach])]
    cases b with
    | true => exact guardFits_mergeOr_right L o1.1 o2.1 h2
    | false => exact guardFits_mergeAnd L o2.2 h1 h2
  | walrus => cases hp

end
end Verif.Flow
