/-
For programs without loops and with conditions about values that have no name,
every value of a reported type occurs.
-/
import Verif.Flow.Exact

namespace Verif.Flow

section
variable {Ty P V : Type} {O : Ops Ty P} {S : Sem Ty V P} {A M : Key → Prop}

/-- The type the frames give a key. -/
def typeOf (O : Ops Ty P) (frames : List (Frame Ty)) (k : Key) : Ty :=
  match lookup frames k with
  | none => O.decl k
  | some e => e.kind.getD (O.decl k)

theorem typeOf_some {f : Frame Ty} {R : List (Frame Ty)} {k : Key} {e : Entry Ty}
    (h : find k f.entries = some e) : typeOf O (f :: R) k = e.kind.getD (O.decl k) := by
  unfold typeOf
  rw [lookup_cons, h]
  rfl

theorem typeOf_none {f : Frame Ty} {R : List (Frame Ty)} {k : Key}
    (h : find k f.entries = none) : typeOf O (f :: R) k = typeOf O R k := by
  unfold typeOf
  rw [lookup_cons, h]
  rfl

/-- Environments that respect the declarations and have all the keys. -/
structure Whole (O : Ops Ty P) (S : Sem Ty V P) (M : Key → Prop) (env : Env V) : Prop where
  typed : WellTyped O S env
  bound : ∀ k, M k → ∃ v, env k = some v

/-- Every value of the type of a key is its value in one of the environments. -/
def Att (O : Ops Ty P) (S : Sem Ty V P) (M : Key → Prop) (E : Env V → Prop)
    (frames : List (Frame Ty)) : Prop :=
  ∀ k v, M k → S.mem v (typeOf O frames k) → ∃ env, E env ∧ env k = some v

/-- What the analysis of something that runs like `X` gives: `f` is the frame
before and `f'` the one after it. -/
structure Res (O : Ops Ty P) (S : Sem Ty V P) (A M : Key → Prop)
    (X : Env V → Outcome → Env V → Prop) (f : Frame Ty) (R : List (Frame Ty)) (f' : Frame Ty)
    (log log' : List (Event Ty P)) : Prop where
  tidy : Tidy A f'.entries
  grow : ∀ k, M k → find k f'.entries = none → find k f.entries = none
  pass : f'.unreachable = false → ∀ env, Whole O S M env →
    ∃ env', X env .normal env' ∧ Whole O S M env' ∧
      ∀ k, M k → find k f'.entries = none → env' k = env k
  att : f'.unreachable = false → ∀ E : Env V → Prop, (∀ env, E env → Whole O S M env) →
    (∃ env, E env) → Att O S M E (f :: R) →
    Att O S M (fun env' => Whole O S M env' ∧ ∃ env, E env ∧ X env .normal env') (f' :: R)
  reads : ∀ E : Env V → Prop, (∀ env, E env → Whole O S M env) →
    (∃ env, E env) → Att O S M E (f :: R) →
    ∀ l k c, Event.read l k c ∈ log' → Event.read l k c ∈ log ∨
      ∃ t, c = .typ t ∧ ∀ v, S.mem v t →
        ∃ env env', E env ∧ X env (.probe l k) env' ∧ env' k = some v

theorem Res.mono {X Y : Env V → Outcome → Env V → Prop} {f f' : Frame Ty} {R : List (Frame Ty)}
    {log log' : List (Event Ty P)} (h : Res O S A M X f R f' log log')
    (hXY : ∀ env o env', X env o env' → Y env o env') : Res O S A M Y f R f' log log' :=
  ⟨h.tidy, h.grow,
    fun hu env hw => by
      obtain ⟨env', h1, h2, h3⟩ := h.pass hu env hw
      exact ⟨env', hXY _ _ _ h1, h2, h3⟩,
    fun hu E hE hs ha k v hk hv => by
      obtain ⟨env', ⟨h1, env, h2, h3⟩, h4⟩ := h.att hu E hE hs ha k v hk hv
      exact ⟨env', ⟨h1, env, h2, hXY _ _ _ h3⟩, h4⟩,
    fun E hE hs ha l k c hc => by
      rcases h.reads E hE hs ha l k c hc with h1 | ⟨t, h1, h2⟩
      · exact Or.inl h1
      · refine Or.inr ⟨t, h1, fun v hv => ?_⟩
        obtain ⟨env, env', g1, g2, g3⟩ := h2 v hv
        exact ⟨env, env', g1, hXY _ _ _ g2, g3⟩⟩

/-- Nothing happens and every environment is passed on. -/
theorem res_id {X : Env V → Outcome → Env V → Prop} {f : Frame Ty} {R : List (Frame Ty)}
    {log : List (Event Ty P)} (ht : Tidy A f.entries)
    (hX : f.unreachable = false → ∀ env, Whole O S M env → X env .normal env) :
    Res O S A M X f R f log log :=
  ⟨ht, fun _ _ h => h,
    fun hu env hw => ⟨env, hX hu env hw, hw, fun _ _ _ => rfl⟩,
    fun hu E hE hs ha k v hk hv => by
      obtain ⟨env, h1, h2⟩ := ha k v hk hv
      exact ⟨env, ⟨hE env h1, env, h1, hX hu env (hE env h1)⟩, h2⟩,
    fun _ _ _ _ _ _ _ hc => Or.inl hc⟩

/-- The frame at the top becomes unreachable. -/
theorem res_dead {X : Env V → Outcome → Env V → Prop} {f : Frame Ty} {R : List (Frame Ty)}
    {log : List (Event Ty P)} (ht : Tidy A f.entries) :
    Res O S A M X f R { f with unreachable := true } log log :=
  ⟨ht, fun _ _ h => h, fun hu => (by cases hu), fun hu => (by cases hu),
    fun _ _ _ _ _ _ _ hc => Or.inl hc⟩

theorem res_seq {X Y Z : Env V → Outcome → Env V → Prop} {f f' f'' : Frame Ty}
    {R : List (Frame Ty)} {log log' log'' : List (Event Ty P)}
    (hu : f'.unreachable = false)
    (h : Res O S A M X f R f' log log') (h' : Res O S A M Y f' R f'' log' log'')
    (hZ : ∀ env env' o env'', X env .normal env' → Y env' o env'' → Z env o env'')
    (hZ' : ∀ env l k env', X env (.probe l k) env' → Z env (.probe l k) env') :
    Res O S A M Z f R f'' log log'' := by
  have hsome : ∀ E : Env V → Prop, (∀ env, E env → Whole O S M env) → (∃ env, E env) →
      ∃ env', Whole O S M env' ∧ ∃ env, E env ∧ X env .normal env' := by
    intro E hE ⟨env, he⟩
    obtain ⟨env', h1, h2, _⟩ := h.pass hu env (hE env he)
    exact ⟨env', h2, env, he, h1⟩
  refine ⟨h'.tidy, fun k hk hn => h.grow k hk (h'.grow k hk hn), ?_, ?_, ?_⟩
  · intro hu' env hw
    obtain ⟨env', h1, h2, h3⟩ := h.pass hu env hw
    obtain ⟨env'', g1, g2, g3⟩ := h'.pass hu' env' h2
    exact ⟨env'', hZ _ _ _ _ h1 g1, g2, fun k hk hn =>
      (g3 k hk hn).trans (h3 k hk (h'.grow k hk hn))⟩
  · intro hu' E hE hs ha k v hk hv
    obtain ⟨env'', ⟨h1, env', ⟨h2, env, h3, h4⟩, h5⟩, h6⟩ :=
      h'.att hu' _ (fun env he => he.1) (hsome E hE hs) (h.att hu E hE hs ha) k v hk hv
    exact ⟨env'', ⟨h1, env, h3, hZ _ _ _ _ h4 h5⟩, h6⟩
  · intro E hE hs ha l k c hc
    rcases h'.reads _ (fun env he => he.1) (hsome E hE hs) (h.att hu E hE hs ha) l k c hc with h1 | ⟨t, h1, h2⟩
    · rcases h.reads E hE hs ha l k c h1 with h3 | ⟨t, h3, h4⟩
      · exact Or.inl h3
      · refine Or.inr ⟨t, h3, fun v hv => ?_⟩
        obtain ⟨env, env', g1, g2, g3⟩ := h4 v hv
        exact ⟨env, env', g1, hZ' _ _ _ _ g2, g3⟩
    · refine Or.inr ⟨t, h1, fun v hv => ?_⟩
      obtain ⟨env', env'', ⟨_, env, g1, g2⟩, g3, g4⟩ := h2 v hv
      exact ⟨env, env'', g1, hZ _ _ _ _ g2 g3, g4⟩

/-! ### Merging the frames of two branches -/

theorem att_blank {E : Env V → Prop} {x : Frame Ty} {R : List (Frame Ty)} (hx : x.entries = [])
    (h : Att O S M E R) : Att O S M E (x :: R) := by
  intro k v hk hv
  rw [typeOf_none (by rw [hx]; rfl)] at hv
  exact h k v hk hv

/-- The type of a key that has an entry in one branch and not in the other. -/
theorem mergeKey_mem (X : Exact S O) {R : List (Frame Ty)} {e : Entry Ty} {v : V}
    (hd : e.deleted = false) (hl : ∀ e0, lookup R e.key = some e0 → e0.deleted = false)
    (h : S.mem v ((mergeKey O R e).kind.getD (O.decl e.key))) :
    S.mem v (e.kind.getD (O.decl e.key)) ∨ S.mem v (typeOf O R e.key) := by
  unfold mergeKey at h
  unfold typeOf
  cases hlk : lookup R e.key with
  | none =>
    rw [hlk] at h
    exact Or.inr h
  | some e0 =>
    rw [hlk] at h
    simp only [union, hd, hl e0 hlk, simplifiedUnion] at h
    simp only
    cases hk0 : e0.kind with
    | none => rw [hk0] at h; exact Or.inr h
    | some s =>
      cases hk : e.kind with
      | none => rw [hk0, hk] at h; exact Or.inl h
      | some t =>
        rw [hk0, hk] at h
        exact (X.join v s t h).symm

theorem union_mem (X : Exact S O) {a b : Entry Ty} {d : Ty} {v : V} (ha : a.deleted = false)
    (hb : b.deleted = false) (h : S.mem v ((union O a b).kind.getD d)) :
    S.mem v (a.kind.getD d) ∨ S.mem v (b.kind.getD d) := by
  simp only [union, ha, hb, simplifiedUnion] at h
  cases hk0 : a.kind with
  | none => rw [hk0] at h; exact Or.inl h
  | some s =>
    cases hk : b.kind with
    | none => rw [hk0, hk] at h; exact Or.inr h
    | some t => rw [hk0, hk] at h; exact X.join v s t h

theorem lookup_tidy {R : List (Frame Ty)} (h : ∀ g ∈ R, Tidy A g.entries) {k : Key} {e : Entry Ty}
    (he : lookup R k = some e) : A e.key ∧ e.deleted = false := by
  unfold lookup at he
  obtain ⟨g, hg, h1⟩ := List.exists_of_findSome?_eq_some he
  exact ⟨(h g hg).keys e (find_mem h1), (h g hg).deleted e (find_mem h1)⟩

/-- Two branches that start with blank frames, merged. -/
theorem res_merge (X : Exact S O) (lv : Level A M)
    {Ea Eb Z : Env V → Outcome → Env V → Prop} {st : St Ty P} {f x x' y y' : Frame Ty}
    {R : List (Frame Ty)} {log log' log'' : List (Event Ty P)} (hf : st.frames = f :: R)
    (ht : ∀ g ∈ f :: R, Tidy A g.entries)
    (hx : x.entries = []) (hy : y.entries = [])
    (ha : Res O S A M Ea x (f :: R) x' log log')
    (hb : Res O S A M Eb y (f :: R) y' log' log'')
    (hZa : ∀ env o env', Ea env o env' → Z env o env')
    (hZb : ∀ env o env', Eb env o env' → Z env o env') :
    ∃ f', (mergeConditional O st x' y').frames = f' :: R ∧ Res O S A M Z f R f' log log'' := by
  have ha := ha.mono hZa
  have hb := hb.mono hZb
  have hreads : ∀ E : Env V → Prop, (∀ env, E env → Whole O S M env) →
    (∃ env, E env) → Att O S M E (f :: R) →
      ∀ l k c, Event.read l k c ∈ log'' → Event.read l k c ∈ log ∨
        ∃ t, c = .typ t ∧ ∀ v, S.mem v t →
          ∃ env env', E env ∧ Z env (.probe l k) env' ∧ env' k = some v := by
    intro E hE hs hA l k c hc
    rcases hb.reads E hE hs (att_blank hy hA) l k c hc with h1 | h1
    · exact ha.reads E hE hs (att_blank hx hA) l k c h1
    · exact Or.inr h1
  -- one branch is left
  have hone : ∀ (z z' : Frame Ty) (ow : Bool) (l l' : List (Event Ty P)), z.entries = [] →
      z'.unreachable = false → Res O S A M Z z (f :: R) z' l l' →
      Res O S A M Z f R { f with entries := overwriteEntries z'.entries ow f.entries }
        log log'' := by
    intro z z' ow l l' hz hzu hr
    have hfind := fun k (hk : M k) =>
      find_overwriteEntries lv (es := f.entries) (ow := ow) hr.tidy hk
    have hnone : ∀ k, M k → find k (overwriteEntries z'.entries ow f.entries) = none →
        find k z'.entries = none ∧ find k f.entries = none := by
      intro k hk h
      cases hc : find k z'.entries with
      | some n => rw [(hfind k hk).2 n hc] at h; cases h
      | none => rw [(hfind k hk).1 hc] at h; exact ⟨rfl, h⟩
    refine ⟨tidy_overwriteEntries hr.tidy (ht f (by simp)), fun k hk h => (hnone k hk h).2,
      ?_, ?_, hreads⟩
    · intro _ env hw
      obtain ⟨env', h1, h2, h3⟩ := hr.pass hzu env hw
      exact ⟨env', h1, h2, fun k hk h => h3 k hk (hnone k hk h).1⟩
    · intro _ E hE hs hA k v hk hv
      refine hr.att hzu E hE hs (att_blank hz hA) k v hk ?_
      cases hc : find k z'.entries with
      | some n =>
        rw [typeOf_some ((hfind k hk).2 n hc)] at hv
        rw [typeOf_some hc]
        exact hv
      | none =>
        rw [typeOf_none hc]
        have h := (hfind k hk).1 hc
        unfold typeOf at hv ⊢
        rw [lookup_cons] at hv ⊢
        rw [h] at hv
        exact hv
  by_cases hxu : x'.unreachable = true
  · by_cases hyu : y'.unreachable = true
    · refine ⟨{ f with unreachable := true }, ?_, ?_⟩
      · unfold mergeConditional
        simp [hxu, hyu, markUnreachable, onTop, mapTop, hf]
      · exact ⟨ht f (by simp), fun _ _ h => h, fun hu => (by cases hu), fun hu => (by cases hu),
          hreads⟩
    · simp only [Bool.not_eq_true] at hyu
      refine ⟨_, ?_, hone y y' (!x'.entries.isEmpty) _ _ hy hyu hb⟩
      unfold mergeConditional
      simp [hxu, hyu, onTop, mapTop, hf]
  · simp only [Bool.not_eq_true] at hxu
    by_cases hyu : y'.unreachable = true
    · refine ⟨_, ?_, hone x x' (!y'.entries.isEmpty) _ _ hx hxu ha⟩
      unfold mergeConditional
      simp [hxu, hyu, onTop, mapTop, hf]
    · simp only [Bool.not_eq_true] at hyu
      obtain ⟨f', h1, h2⟩ := find_mergeConditional (O := O) lv hf ha.tidy hb.tidy hxu hyu
      obtain ⟨f'', h3, h4⟩ := tidy_mergeConditional (O := O) (st := st) (x := x') (y := y') hf
        (ht f (by simp)) ha.tidy hb.tidy hxu hyu
      have hff : f'' = f' := by
        rw [h1] at h3
        exact (List.cons.inj h3).1.symm
      subst hff
      have hnone : ∀ k, M k → find k f''.entries = none →
          find k x'.entries = none ∧ find k y'.entries = none ∧ find k f.entries = none := by
        intro k hk h
        rw [h2 k hk] at h
        cases hcx : find k x'.entries with
        | some a =>
          rw [hcx] at h
          cases hcy : find k y'.entries with
          | some b => rw [hcy] at h; cases h
          | none => rw [hcy] at h; cases h
        | none =>
          rw [hcx] at h
          cases hcy : find k y'.entries with
          | some b => rw [hcy] at h; cases h
          | none => rw [hcy] at h; exact ⟨rfl, rfl, h⟩
      refine ⟨f'', h1, h4, fun k hk h => (hnone k hk h).2.2, ?_, ?_, hreads⟩
      · intro _ env hw
        obtain ⟨env', g1, g2, g3⟩ := ha.pass hxu env hw
        exact ⟨env', g1, g2, fun k hk h => g3 k hk (hnone k hk h).1⟩
      · intro _ E hE hs hA k v hk hv
        have hA' := ha.att hxu E hE hs (att_blank hx hA) k v hk
        have hB' := hb.att hyu E hE hs (att_blank hy hA) k v hk
        have hdel : ∀ e0, lookup (f :: R) k = some e0 → e0.deleted = false :=
          fun e0 h => (lookup_tidy ht h).2
        -- a value from before, through a branch that does not touch the key
        have hthru : ∀ (z z' : Frame Ty) (l l' : List (Event Ty P)),
            z'.unreachable = false → Res O S A M Z z (f :: R) z' l l' →
            find k z'.entries = none → S.mem v (typeOf O (f :: R) k) →
            ∃ env, (Whole O S M env ∧ ∃ env₀, E env₀ ∧ Z env₀ .normal env) ∧ env k = some v := by
          intro z z' l l' hzu hr hzn hm
          obtain ⟨env, e1, e2⟩ := hA k v hk hm
          obtain ⟨env', g1, g2, g3⟩ := hr.pass hzu env (hE env e1)
          exact ⟨env', ⟨g2, env, e1, g1⟩, (g3 k hk hzn).trans e2⟩
        have h2k := h2 k hk
        cases hcx : find k x'.entries with
        | some a =>
          have had := ha.tidy.deleted a (find_mem hcx)
          have hak := find_key hcx
          rw [typeOf_some hcx] at hA'
          cases hcy : find k y'.entries with
          | some b =>
            rw [typeOf_some hcy] at hB'
            rw [hcx, hcy] at h2k
            rw [typeOf_some h2k] at hv
            rcases union_mem X had (hb.tidy.deleted b (find_mem hcy)) hv with h | h
            · exact hA' h
            · exact hB' h
          | none =>
            rw [hcx, hcy] at h2k
            rw [typeOf_some h2k] at hv
            subst hak
            rcases mergeKey_mem X had hdel hv with h | h
            · exact hA' h
            · exact hthru y y' _ _ hyu hb hcy h
        | none =>
          cases hcy : find k y'.entries with
          | some b =>
            have hbk := find_key hcy
            rw [typeOf_some hcy] at hB'
            rw [hcx, hcy] at h2k
            rw [typeOf_some h2k] at hv
            subst hbk
            rcases mergeKey_mem X (hb.tidy.deleted b (find_mem hcy)) hdel hv with h | h
            · exact hB' h
            · exact hthru x x' _ _ hxu ha hcx h
          | none =>
            rw [hcx, hcy] at h2k
            refine hthru x x' _ _ hxu ha hcx ?_
            unfold typeOf at hv ⊢
            rw [lookup_cons] at hv ⊢
            rw [h2k] at hv
            exact hv

/-! ### Reading a key -/

theorem primaryEntry_tidy (lv : Level A M) {frames : List (Frame Ty)}
    (ht : ∀ g ∈ frames, Tidy A g.entries) {k : Key} (hk : M k) :
    primaryEntry k frames = lookup frames k := by
  induction frames with
  | nil => rfl
  | cons f R ih =>
    rw [lookup_cons]
    unfold primaryEntry
    cases hf : find k f.entries with
    | some e => rfl
    | none =>
      have : f.entries.any (fun e => e.mods && k.isChildOf e.key) = false := by
        rw [List.any_eq_false]
        intro e he
        rw [lv e.key k ((ht f (by simp)).keys e he) hk]
        simp
      simp only [this]
      exact ih (fun g hg => ht g (by simp [hg]))

theorem readClaim_tidy (lv : Level A M) {frames : List (Frame Ty)}
    (ht : ∀ g ∈ frames, Tidy A g.entries) {k : Key} (hk : M k) :
    readClaim O frames k = .typ (typeOf O frames k) := by
  unfold readClaim typeOf
  cases k with
  | name n =>
    simp only
    cases hl : lookup frames (.name n) with
    | none => rfl
    | some e => simp [(lookup_tidy ht hl).2]
  | sub b i =>
    simp only
    rw [primaryEntry_tidy lv ht hk]
    cases hl : lookup frames (.sub b i) with
    | none => rfl
    | some e => rfl

/-! ### Assignments -/

/-- The environment with another value for a key. -/
def Env.set (env : Env V) (k : Key) (v : V) : Env V := fun k' => if k' = k then some v else env k'

theorem set_assigned {env : Env V} {k : Key} {v : V} (h : WellTyped O S env)
    (hv : S.mem v (O.decl k)) : Assigned O S k v env (env.set k v) := by
  refine ⟨by simp [Env.set], fun k' hk _ => by simp [Env.set, hk], ?_⟩
  intro k' w hw
  unfold Env.set at hw
  split at hw
  · rename_i he
    cases hw
    rw [he]
    exact hv
  · exact h k' w hw

theorem set_whole {env : Env V} {k : Key} {v : V} (h : Whole O S M env)
    (hv : S.mem v (O.decl k)) : Whole O S M (env.set k v) := by
  refine ⟨(set_assigned h.typed hv).typed, fun k' hk => ?_⟩
  unfold Env.set
  split
  · exact ⟨v, rfl⟩
  · exact h.bound k' hk

theorem res_assign (lv : Level A M) {f : Frame Ty} {R : List (Frame Ty)} {k : Key} {e : Expr Ty}
    {t : Ty} {log : List (Event Ty P)} (hf : Tidy A f.entries) (hk : A k)
    (hval : ∀ env, Whole O S M env → ∃ v, EvalE S env v e)
    (hdecl : ∀ env v, Whole O S M env → EvalE S env v e → S.mem v (O.decl k))
    (hatt : ∀ (E : Env V → Prop), (∀ env, E env → Whole O S M env) → (∃ env, E env) →
      Att O S M E (f :: R) → ∀ v, S.mem v t → ∃ env, E env ∧ EvalE S env v e) :
    Res O S A M (fun env o env' => Exec O S (.assign k e) env o env') f R
      (overwriteTop ⟨k, some t, true, false⟩ f) log log := by
  have hfind : ∀ k', M k' → find k' (overwriteTop ⟨k, some t, true, false⟩ f).entries =
      if k = k' then some ⟨k, some t, true, false⟩ else find k' f.entries := by
    intro k' hk'
    rw [find_overwriteTop]
    simp only [lv k k' hk hk']
    rfl
  have hnone : ∀ k', M k' → find k' (overwriteTop ⟨k, some t, true, false⟩ f).entries = none →
      k' ≠ k ∧ find k' f.entries = none := by
    intro k' hk' h
    rw [hfind k' hk'] at h
    by_cases he : k = k'
    · rw [if_pos he] at h; cases h
    · rw [if_neg he] at h; exact ⟨Ne.symm he, h⟩
  refine ⟨tidy_overwriteTop hf hk rfl rfl, fun k' hk' h => (hnone k' hk' h).2, ?_, ?_,
    fun _ _ _ _ _ _ _ hc => Or.inl hc⟩
  · intro _ env hw
    obtain ⟨v, hv⟩ := hval env hw
    have hd := hdecl env v hw hv
    exact ⟨env.set k v, .assign hv (set_assigned hw.typed hd), set_whole hw hd,
      fun k' hk' h => by simp [Env.set, (hnone k' hk' h).1]⟩
  · intro _ E hE hs ha k' v hk' hv
    by_cases he : k = k'
    · subst he
      have hfk := hfind k hk'
      rw [if_pos rfl] at hfk
      rw [typeOf_some hfk] at hv
      obtain ⟨env, h1, h2⟩ := hatt E hE hs ha v hv
      have hd := hdecl env v (hE env h1) h2
      exact ⟨env.set k v, ⟨set_whole (hE env h1) hd, env, h1, .assign h2
        (set_assigned (hE env h1).typed hd)⟩, by simp [Env.set]⟩
    · have hfk := hfind k' hk'
      rw [if_neg he] at hfk
      have hv' : S.mem v (typeOf O (f :: R) k') := by
        unfold typeOf at hv ⊢
        rw [lookup_cons] at hv ⊢
        rw [hfk] at hv
        exact hv
      obtain ⟨env, h1, h2⟩ := ha k' v hk' hv'
      obtain ⟨w, hw⟩ := hval env (hE env h1)
      have hd := hdecl env w (hE env h1) hw
      exact ⟨env.set k w, ⟨set_whole (hE env h1) hd, env, h1, .assign hw
        (set_assigned (hE env h1).typed hd)⟩, by simp [Env.set, Ne.symm he, h2]⟩

/-! ### Statements -/

theorem analyse_dead : ∀ (s : Stmt Ty P) (st : St Ty P), isUnreachable st = true →
    analyse O s st = st
  | .skip, _, _ => rfl
  | .seq a b, st, h => by
    have h1 : analyse O (.seq a b) st = analyse O b (analyse O a st) := rfl
    rw [h1, analyse_dead a st h, analyse_dead b st h]
  | .read _ _, _, h | .assign _ _, _, h | .untyped _, _, h | .del _, _, h | .assert _, _, h
  | .leave, _, h | .raise, _, h | .brk, _, h | .cont, _, h | .ite _ _ _, _, h
  | .whileS _ _ _, _, h | .forS _ _ _ _, _, h | .guarded _, _, h | .tryS _ _ _ _ _ _, _, h => by
    simp only [analyse, whenReachable, h, if_true]

theorem overwriteFrame_blank {st : St Ty P} {x f : Frame Ty} {R : List (Frame Ty)}
    (hf : st.frames = f :: R) (hx : x.entries = []) (hu : f.unreachable = false) :
    (overwriteFrame st x).frames = { f with unreachable := x.unreachable } :: R := by
  simp [overwriteFrame, onTop, mapTop, hf, hx, hu, overwriteEntries]

theorem res_analyse (L : Lawful O S) (X : Exact S O) (lv : Level A M) :
    ∀ (s : Stmt Ty P), s.Opaque S O → (∀ k, s.Assigns k → A k) → (∀ k, s.Mentions k → M k) →
    ∀ (st : St Ty P) (f : Frame Ty) (R : List (Frame Ty)), st.frames = f :: R →
    (∀ g ∈ f :: R, Tidy A g.entries) → f.unreachable = false →
    ∃ f', (analyse O s st).frames = f' :: R ∧
      Res O S A M (fun env o env' => Exec O S s env o env') f R f' st.log (analyse O s st).log := by
  intro s
  induction s with
  | skip =>
    intro _ _ _ st f R hf ht hu
    exact ⟨f, hf, res_id (ht f (by simp)) (fun _ _ _ => .skip)⟩
  | read l k =>
    intro _ _ hM st f R hf ht hu
    have hk : M k := hM k rfl
    have hr : isUnreachable st = false := by simp [isUnreachable, hf, hu]
    have ha : analyse O (.read l k) st =
        { st with log := st.log ++ [.read l k (readClaim O st.frames k)] } := by
      simp only [analyse, whenReachable_eq hr]
    refine ⟨f, by rw [ha]; exact hf, ?_⟩
    have hid : Res O S A M (fun env o env' => Exec O S (.read l k) env o env') f R f
        st.log st.log := res_id (ht f (by simp)) (fun _ env hw => by
      obtain ⟨v, hv⟩ := hw.bound k hk
      exact .read hv)
    refine ⟨hid.tidy, hid.grow, hid.pass, hid.att, ?_⟩
    intro E hE hs hatt l' k' c hc
    rw [ha] at hc
    simp only [List.mem_append, List.mem_singleton] at hc
    rcases hc with hc | hc
    · exact Or.inl hc
    · right
      rw [hf, readClaim_tidy lv ht hk] at hc
      cases hc
      refine ⟨_, rfl, fun v hv => ?_⟩
      obtain ⟨env, h1, h2⟩ := hatt k v hk hv
      exact ⟨env, env, h1, .look, h2⟩
  | assign k e =>
    intro ho hA hM st f R hf ht hu
    have hr : isUnreachable st = false := by simp [isUnreachable, hf, hu]
    have ha : analyse O (.assign k e) st = saveNarrowed O st k (exprType O st.frames e) := by
      simp only [analyse, whenReachable_eq hr]
    refine ⟨_, by rw [ha]; exact overwriteEntry_frames _ hf, ?_⟩
    have hl : (analyse O (.assign k e) st).log = st.log := by rw [ha]; rfl
    rw [hl]
    cases e with
    | «opaque» t =>
      obtain ⟨⟨v0, hv0⟩, hd⟩ := ho
      refine res_assign lv (ht f (by simp)) (hA k rfl) (fun _ _ => ⟨v0, hv0⟩)
        (fun _ v _ hv => hd v hv) ?_
      intro E _ ⟨env, he⟩ _ v hv
      exact ⟨env, he, hv⟩
    | key k' =>
      have hk' : M k' := hM k' (Or.inr rfl)
      refine res_assign lv (ht f (by simp)) (hA k rfl) (fun env hw => hw.bound k' hk')
        (fun env v hw hv => ho v (hw.typed k' v hv)) ?_
      intro E hE hs hatt v hv
      rw [hf] at hv
      simp only [exprType, readClaim_tidy lv ht hk'] at hv
      exact hatt k' v hk' hv
  | untyped k => intro h; exact h.elim
  | del n => intro h; exact h.elim
  | assert c =>
    intro ho _ _ st f R hf ht hu
    have hr : isUnreachable st = false := by simp [isUnreachable, hf, hu]
    have hst := guards_state (O := O) (opaque_pure ho) st
    have hb := blank_guards L X c ho st
    have ha : analyse O (.assert c) st = overwriteFrame st (guards O c st).2.1 := by
      simp only [analyse, whenReachable_eq hr, hst]
    refine ⟨_, by rw [ha]; exact overwriteFrame_blank hf hb.left hu, ?_⟩
    have hl : (analyse O (.assert c) st).log = st.log := by rw [ha]; rfl
    rw [hl]
    cases hg : (guards O c st).2.1.unreachable with
    | true => exact res_dead (ht f (by simp))
    | false =>
      have : ({ f with unreachable := false } : Frame Ty) = f := by
        cases f; simp only at hu; rw [hu]
      rw [this]
      exact res_id (ht f (by simp)) (fun _ env _ => .assert_ok (hb.pos hg env))
  | leave =>
    intro _ _ _ st f R hf ht hu
    have hr : isUnreachable st = false := by simp [isUnreachable, hf, hu]
    have ha : analyse O .leave st = markUnreachable st := by
      simp only [analyse, whenReachable_eq hr]
    rw [ha]
    exact ⟨{ f with unreachable := true }, by simp [markUnreachable, onTop, mapTop, hf],
      res_dead (ht f (by simp))⟩
  | raise =>
    intro _ _ _ st f R hf ht hu
    have hr : isUnreachable st = false := by simp [isUnreachable, hf, hu]
    have ha : analyse O .raise st = markUnreachable st := by
      simp only [analyse, whenReachable_eq hr]
    rw [ha]
    exact ⟨{ f with unreachable := true }, by simp [markUnreachable, onTop, mapTop, hf],
      res_dead (ht f (by simp))⟩
  | brk => intro h; exact h.elim
  | cont => intro h; exact h.elim
  | seq a b iha ihb =>
    intro ho hA hM st f R hf ht hu
    obtain ⟨f1, h1, r1⟩ := iha ho.1 (fun k h => hA k (Or.inl h)) (fun k h => hM k (Or.inl h))
      st f R hf ht hu
    have heq : analyse O (.seq a b) st = analyse O b (analyse O a st) := rfl
    rw [heq]
    by_cases hu1 : f1.unreachable = true
    · rw [analyse_dead b _ (by simp [isUnreachable, h1, hu1])]
      refine ⟨f1, h1, r1.tidy, r1.grow, ?_, ?_, ?_⟩
      · intro h; rw [hu1] at h; cases h
      · intro h; rw [hu1] at h; cases h
      · intro E hE hs hatt l k c hc
        rcases r1.reads E hE hs hatt l k c hc with h | ⟨t, h2, h3⟩
        · exact Or.inl h
        · refine Or.inr ⟨t, h2, fun v hv => ?_⟩
          obtain ⟨env, env', g1, g2, g3⟩ := h3 v hv
          exact ⟨env, env', g1, .seq_stop g2 (by simp), g3⟩
    · simp only [Bool.not_eq_true] at hu1
      obtain ⟨f2, h2, r2⟩ := ihb ho.2 (fun k h => hA k (Or.inr h)) (fun k h => hM k (Or.inr h))
        (analyse O a st) f1 R h1 (by
          intro g hg
          rcases List.mem_cons.mp hg with rfl | hg
          · exact r1.tidy
          · exact ht g (by simp [hg])) hu1
      exact ⟨f2, h2, res_seq hu1 r1 r2 (fun _ _ _ _ h h' => .seq h h')
        (fun _ _ _ _ h => .seq_stop h (by simp))⟩
  | ite c a b iha ihb =>
    intro ho hA hM st f R hf ht hu
    have hr : isUnreachable st = false := by simp [isUnreachable, hf, hu]
    have hst := guards_state (O := O) (opaque_pure ho.1) st
    have hb := blank_guards L X c ho.1 st
    -- one branch
    have hbr : ∀ (s : Stmt Ty P) (g : Frame Ty) (bv : Bool) (st' : St Ty P),
        (∀ (st : St Ty P) (f : Frame Ty) (R : List (Frame Ty)), st.frames = f :: R →
          (∀ g ∈ f :: R, Tidy A g.entries) → f.unreachable = false →
          ∃ f', (analyse O s st).frames = f' :: R ∧
            Res O S A M (fun env o env' => Exec O S s env o env') f R f' st.log
              (analyse O s st).log) →
        g.entries = [] → (g.unreachable = false → ∀ env, EvalC O S c env bv env) →
        st'.frames = st.frames →
        (withFrame g (analyse O s) st').2.frames = st.frames ∧
        Res O S A M (fun env o env' => EvalC O S c env bv env ∧ Exec O S s env o env') g (f :: R)
          (withFrame g (analyse O s) st').1 st'.log (withFrame g (analyse O s) st').2.log := by
      intro s g bv st' ih hg he hs'
      refine ⟨(frames_withFrame (fun st => same_analyse s st) st').trans hs', ?_⟩
      by_cases hgu : g.unreachable = true
      · have hd := analyse_dead (O := O) s { st' with frames := g :: st'.frames }
          (by simp [isUnreachable, hgu])
        simp only [withFrame, hd, List.headD_cons]
        refine ⟨by rw [hg]; exact tidy_nil, fun _ _ h => h, ?_, ?_,
          fun _ _ _ _ _ _ _ hc => Or.inl hc⟩
        · intro h; rw [hgu] at h; cases h
        · intro h; rw [hgu] at h; cases h
      · simp only [Bool.not_eq_true] at hgu
        obtain ⟨f', h1, h2⟩ := ih { st' with frames := g :: st'.frames } g (f :: R)
          (by rw [← hf, ← hs']) (by
            intro g' hg'
            rcases List.mem_cons.mp hg' with rfl | hg'
            · rw [hg]; exact tidy_nil
            · exact ht g' hg') hgu
        simp only [withFrame, h1, List.headD_cons]
        exact h2.mono (fun env o env' h => ⟨he hgu env, h⟩)
    obtain ⟨a1, a2⟩ := hbr a (guards O c st).2.1 true st
      (iha ho.2.1 (fun k h => hA k (Or.inr (Or.inl h))) (fun k h => hM k (Or.inr (Or.inl h))))
      hb.left hb.pos rfl
    obtain ⟨b1, b2⟩ := hbr b (guards O c st).2.2 false
      (withFrame (guards O c st).2.1 (analyse O a) st).2
      (ihb ho.2.2 (fun k h => hA k (Or.inr (Or.inr h))) (fun k h => hM k (Or.inr (Or.inr h))))
      hb.right hb.neg a1
    have ha : analyse O (.ite c a b) st =
        mergeConditional O (withFrame (guards O c st).2.2 (analyse O b)
            (withFrame (guards O c st).2.1 (analyse O a) st).2).2
          (withFrame (guards O c st).2.1 (analyse O a) st).1
          (withFrame (guards O c st).2.2 (analyse O b)
            (withFrame (guards O c st).2.1 (analyse O a) st).2).1 := by
      simp only [analyse, whenReachable_eq hr, hst]
    rw [ha, log_mergeConditional]
    exact res_merge X lv (b1.trans hf) ht hb.left hb.right a2 b2
      (fun env o env' h => .ite_true h.1 h.2) (fun env o env' h => .ite_false h.1 h.2)
  | whileS c b e => intro h; exact h.elim
  | forS k t b e => intro h; exact h.elim
  | guarded b => intro h; exact h.elim
  | tryS b n hs he e f => intro h; exact h.elim

end
end Verif.Flow
