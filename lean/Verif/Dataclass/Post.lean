import Verif.Dataclass.Lemmas

/-! # The parameters of `__post_init__` -/

namespace Verif.Dataclass

/-- The names and types of the `InitVar`s. -/
def ivs (es : List Entry) : List (String × Nat) := (initVars es).map fun e => (e.name, e.ty)

/-- The relation of the results with `__post_init__`. -/
def RelPost (b : Option Bool × Inits) (c : PyClass) : Prop :=
  Rel b c ∧ b.2.postInit = ivs c.fields

theorem Rels.mono {R Q : Option Bool × Inits → PyClass → Prop} {bs cs} (h : Rels R bs cs)
    (hq : ∀ b c, R b c → Q b c) : Rels Q bs cs := by
  induction h with
  | nil => exact .nil
  | cons h _ ih => exact .cons (hq _ _ h) ih

/-- Entries of which those with the same name are the same `InitVar`, or none. -/
def Same (es : List Entry) : Prop :=
  ∀ a ∈ es, ∀ b ∈ es, a.name = b.name →
    (a.kind = .initVar ↔ b.kind = .initVar) ∧ (a.kind = .initVar → a.ty = b.ty)

theorem Same.mono {es fs : List Entry} (h : Same fs) (hs : ∀ e ∈ es, e ∈ fs) : Same es :=
  fun a ha b hb => h a (hs a ha) b (hs b hb)

theorem ivs_put_old {es : List Entry} {e : Entry} (h : Same (es ++ [e]))
    (hx : e.kind ≠ .initVar ∨ ∃ a ∈ es, a.name = e.name) : ivs (put es e) = ivs es := by
  induction es with
  | nil =>
    rcases hx with hx | ⟨a, ha, _⟩
    · simp [put, ivs, initVars, hx]
    · cases ha
  | cons a es ih =>
    rw [put]
    split
    · next hn =>
      obtain ⟨h1, h2⟩ := h a (by simp) e (by simp) hn
      by_cases ha : a.kind = .initVar
      · have := h1.mp ha
        simp [ivs, initVars, ha, this, hn, h2 ha]
      · have : e.kind ≠ .initVar := fun h => ha (h1.mpr h)
        simp [ivs, initVars, ha, this]
    · next hn =>
      have := ih (h.mono (by simp +contextual)) (by
        rcases hx with hx | ⟨b, hb, hbn⟩
        · exact .inl hx
        · rcases List.mem_cons.mp hb with rfl | hb
          · exact absurd hbn hn
          · exact .inr ⟨b, hb, hbn⟩)
      by_cases ha : a.kind = .initVar
      · simp only [ivs, initVars] at this ⊢
        simp [ha, this]
      · simp only [ivs, initVars] at this ⊢
        simp [ha, this]

theorem ivs_put_new {es : List Entry} {e : Entry} (he : e.kind = .initVar)
    (hn : ∀ a ∈ es, a.name ≠ e.name) : ivs (put es e) = ivs es ++ [(e.name, e.ty)] := by
  rw [put_names hn]
  simp [ivs, initVars, he]

theorem addParam_added {es : List Entry} {e : Entry} :
    (addParam (paramsOf es) (toParam e)).2 = true ↔
      ∀ a ∈ es, a.param = true → a.name ≠ e.name := by
  unfold addParam
  constructor
  · intro h a ha hp hn
    have : ∃ b ∈ positional es ++ keywordOnly es, b.name = e.name := by
      refine ⟨a, ?_, hn⟩
      cases hk : a.kwOnly
      · exact List.mem_append_left _ (mem_positional.mpr ⟨ha, hp, hk⟩)
      · exact List.mem_append_right _ (mem_keywordOnly.mpr ⟨ha, hp, hk⟩)
    have := replace_put [] this
    simp only [List.append_nil] at this
    rw [paramsOf, this] at h
    cases h
  · intro h
    rw [replace_none]
    intro p hp
    obtain ⟨a, ha, rfl⟩ := List.mem_map.mp hp
    rcases List.mem_append.mp ha with ha | ha
    · exact h a (mem_positional.mp ha).1 (mem_positional.mp ha).2.1
    · exact h a (mem_keywordOnly.mp ha).1 (mem_keywordOnly.mp ha).2.1

theorem inheritParams_post {b : Inits} {base : List Entry} (hb : b.postInit = ivs base)
    {qs : List Entry} (hq : ∀ e ∈ qs, e ∈ base ∧ e.param = true) {s : State} {es : List Entry}
    (hs : s.params = paramsOf es) (hp : s.postInit = ivs es) (ha : Agree (es ++ base))
    (hsame : Same (es ++ base)) :
    ((qs.map toParam).foldl (inheritParam b) s).postInit = ivs (qs.foldl put es) := by
  induction qs generalizing s es with
  | nil => exact hp
  | cons e qs ih =>
    obtain ⟨he, hpar⟩ := hq e (List.mem_cons_self ..)
    have hsub : ∀ x ∈ es ++ [e], x ∈ es ++ base := by
      intro x hx
      rcases List.mem_append.mp hx with hx | hx
      · simp [hx]
      · simp at hx; simp [hx, he]
    have ha' := ha.mono hsub
    have hs' := hsame.mono hsub
    have hput : ∀ x ∈ put es e ++ base, x ∈ es ++ base := by
      intro x hx
      rcases List.mem_append.mp hx with hx | hx
      · rcases mem_put hx with hx | hx
        · simp [hx, he]
        · simp [hx]
      · simp [hx]
    simp only [List.map_cons, List.foldl_cons]
    apply ih (fun x hx => hq x (List.mem_cons_of_mem _ hx)) _ _ (ha.mono hput) (hsame.mono hput)
    · show (addParam s.params (toParam e)).1 = _
      rw [hs]
      exact add_entry ha' hpar
    · show (if (addParam s.params (toParam e)).2 = true then
        s.postInit ++ (b.postInit.find? fun q => q.1 = (toParam e).name).toList else s.postInit) = _
      rw [hs, hp, hb]
      by_cases hadd : (addParam (paramsOf es) (toParam e)).2 = true
      · rw [if_pos hadd]
        have hnew : ∀ a ∈ es, a.name ≠ e.name := by
          intro a hae hn
          have := (ha' a (by simp [hae]) e (by simp) hn).1
          exact addParam_added.mp hadd a hae (by rw [this, hpar]) hn
        by_cases hi : e.kind = .initVar
        · rw [ivs_put_new hi hnew]
          congr 1
          have hmem : (e.name, e.ty) ∈ ivs base :=
            List.mem_map.mpr ⟨e, by simp [initVars, he, hi], rfl⟩
          cases hf : (ivs base).find? fun q => q.1 = (toParam e).name with
          | none =>
            have := List.find?_eq_none.mp hf _ hmem
            simp [toParam] at this
          | some q =>
            have h0 := List.find?_some hf
            have h1 : q.1 = e.name := of_decide_eq_true h0
            obtain ⟨x, hx, rfl⟩ := List.mem_map.mp (List.mem_of_find?_eq_some hf)
            have hx' : x ∈ base ∧ x.kind = .initVar := by simpa [initVars] using hx
            have := (hsame x (by simp [hx'.1]) e (by simp [he]) h1).2 hx'.2
            simp only [Option.toList_some, List.cons.injEq, and_true]
            exact Prod.ext h1 this
        · rw [ivs_put_old hs' (.inl hi)]
          have : ((ivs base).find? fun q => q.1 = (toParam e).name) = none := by
            apply List.find?_eq_none.mpr
            intro q hq hqn
            obtain ⟨x, hx, rfl⟩ := List.mem_map.mp hq
            have hx' : x ∈ base ∧ x.kind = .initVar := by simpa [initVars] using hx
            have h1 : x.name = e.name := of_decide_eq_true hqn
            exact hi ((hsame x (by simp [hx'.1]) e (by simp [he]) h1).1.mp hx'.2)
          rw [this]
          simp
      · rw [if_neg hadd]
        rw [ivs_put_old hs']
        refine .inr ?_
        false_or_by_contra
        rename_i hne
        exact hadd (addParam_added.mpr fun a hae _ hn => hne ⟨a, hae, hn⟩)

theorem initVars_in_order {base : List Entry}
    (h : ∀ e ∈ base, e.kind = .initVar → e.init = true ∧ e.kwOnly = false) :
    initVars (positional base ++ keywordOnly base) = initVars base := by
  unfold initVars positional keywordOnly
  rw [List.filter_append, List.filter_filter, List.filter_filter]
  have h1 : base.filter (fun a => decide (a.kind = .initVar) && (a.param && a.kwOnly)) = [] := by
    apply List.filter_eq_nil_iff.mpr
    intro a ha
    by_cases hk : a.kind = .initVar
    · simp [(h a ha hk).2]
    · simp [hk]
  rw [h1, List.append_nil]
  apply List.filter_congr
  intro a ha
  by_cases hk : a.kind = .initVar
  · simp [hk, Entry.param, (h a ha hk).1, (h a ha hk).2]
  · simp [hk]

theorem ivs_foldl {es bs : List Entry} (h : Same (es ++ bs)) :
    initVars (bs.foldl put es) = (initVars bs).foldl put (initVars es) :=
  filter_foldl_put fun a ha b hb hn => by
    have := (h a ha b hb hn).1
    exact decide_eq_decide.mpr this

theorem inheritBases_post {bases : List (Option Bool × Inits)} {mro : List PyClass}
    (hr : Rels RelPost bases mro) (f : Option Bool) (s : State) (es : List Entry)
    (hs : s.params = paramsOf es) (hp : s.postInit = ivs es)
    (h : Agree (es ++ inherited mro)) (hsame : Same (es ++ inherited mro))
    (hpos : ∀ e ∈ inherited mro, e.kind = .initVar → e.init = true ∧ e.kwOnly = false) :
    (bases.foldl (inheritBase f) s).postInit = ivs ((inherited mro).foldl put es) := by
  induction hr generalizing s es with
  | nil => exact hp
  | @cons b c bases mro hb hr ih =>
    have hcons : inherited (c :: mro) = c.fields ++ inherited mro := by simp [inherited]
    rw [hcons] at h hsame hpos ⊢
    have hsub : ∀ e ∈ es ++ c.fields, e ∈ es ++ (c.fields ++ inherited mro) := by
      intro e he
      rcases List.mem_append.mp he with he | he <;> simp [he]
    have hord : ∀ e ∈ positional c.fields ++ keywordOnly c.fields, e ∈ c.fields ∧ e.param = true := by
      intro e he
      rcases List.mem_append.mp he with he | he
      · exact ⟨(mem_positional.mp he).1, (mem_positional.mp he).2.1⟩
      · exact ⟨(mem_keywordOnly.mp he).1, (mem_keywordOnly.mp he).2.1⟩
    have hsub2 : ∀ e ∈ es ++ (positional c.fields ++ keywordOnly c.fields), e ∈ es ++ c.fields := by
      intro e he
      rcases List.mem_append.mp he with he | he
      · simp [he]
      · simp [(hord e he).1]
    have hstep1 : (inheritBase f s b).params = paramsOf (c.fields.foldl put es) := by
      rw [(inheritBase_parts f s b).1, hb.1.2, hs, ← put_in_order (h.mono hsub)]
      exact add_entries ((h.mono hsub).mono hsub2) fun e he => (hord e he).2
    have hstep2 : (inheritBase f s b).postInit = ivs (c.fields.foldl put es) := by
      have hgen : ∀ s0 : State, s0.params = paramsOf es → s0.postInit = ivs es →
          (b.2.params.foldl (inheritParam b.2) s0).postInit = ivs (c.fields.foldl put es) := by
        intro s0 h1 h2
        rw [hb.1.2]
        have := inheritParams_post hb.2 hord h1 h2 (h.mono hsub) (hsame.mono hsub)
        rw [paramsOf, this]
        unfold ivs
        rw [ivs_foldl ((hsame.mono hsub).mono hsub2), ivs_foldl (hsame.mono hsub),
          initVars_in_order fun e he => hpos e (by simp [he])]
      unfold inheritBase
      apply hgen
      · split <;> exact hs
      · split <;> exact hp
    simp only [List.foldl_cons, List.foldl_append]
    have hrest : ∀ e ∈ c.fields.foldl put es ++ inherited mro,
        e ∈ es ++ (c.fields ++ inherited mro) := by
      intro e he
      rcases List.mem_append.mp he with he | he
      · rcases mem_foldl_put he with he | he <;> simp [he]
      · simp [he]
    exact ih _ _ hstep1 hstep2 (h.mono hrest) (hsame.mono hrest) fun e he => hpos e (by simp [he])

theorem addFields_post (bodies : List (List Field)) (kw : Bool) (fs : List Field) (s : State)
    (es : List Entry) (hp : s.postInit = ivs es)
    (hnew : ∀ e ∈ entries bodies (kw || s.hadMarker) fs, ∀ b ∈ es, e.name = b.name →
      e.kind ≠ .initVar ∧ b.kind ≠ .initVar)
    (hd : ((entries bodies (kw || s.hadMarker) fs).map (·.name)).Nodup)
    (ha : ∀ f ∈ fs, f.alias = none) :
    (fs.foldl (addField kw) s).postInit =
      ivs ((entries bodies (kw || s.hadMarker) fs).foldl put es) := by
  induction fs generalizing s es with
  | nil => exact hp
  | cons f fs ih =>
    have ha' : ∀ g ∈ fs, g.alias = none := fun g hg => ha g (List.mem_cons_of_mem _ hg)
    have hal := ha f (List.mem_cons_self ..)
    simp only [List.foldl_cons]
    by_cases hm : f.kind = .marker
    · have he : entries bodies (kw || s.hadMarker) (f :: fs) = entries bodies true fs := by
        rw [entries, if_pos hm]
      rw [he] at hnew hd ⊢
      cases hh : s.hadMarker
      · have hstep : addField kw s f = { s with hadMarker := true } := by
          simp [addField, hm, hh]
        rw [hstep]
        have := ih { s with hadMarker := true } es hp (by simpa using hnew) (by simpa using hd) ha'
        simpa using this
      · have hstep : addField kw s f =
            { s with issues := s.issues ++ [.multipleKwOnly f.name] } := by
          simp [addField, hm, hh]
        rw [hstep]
        have := ih { s with issues := s.issues ++ [.multipleKwOnly f.name] } es hp
          (by simpa [hh] using hnew) (by simpa [hh] using hd) ha'
        simpa [hh] using this
    · have he : ∃ E : Entry, E.name = f.name ∧ E.kind = f.kind ∧ E.ty = f.ty ∧
          entries bodies (kw || s.hadMarker) (f :: fs) =
            E :: entries bodies (kw || s.hadMarker) fs := by
        refine ⟨⟨f.name, f.kind, f.init, f.kwOnly.getD (kw || s.hadMarker),
          decide (f.default ≠ .none) || inheritedValue bodies f.name, f.ty⟩, rfl, rfl, rfl, ?_⟩
        rw [entries, if_neg hm]
      obtain ⟨E, hn, hk, ht, he⟩ := he
      rw [he] at hnew hd ⊢
      have hname : f.paramName = ⟨f.name, true⟩ := by simp [Field.paramName, hal]
      have hput : ivs (put es E) = if E.kind = .initVar then
          ivs es ++ [(E.name, E.ty)] else ivs es := by
        split
        · next hi =>
          exact ivs_put_new hi fun a hae hn => (hnew E (by simp) a hae hn.symm).1 hi
        · next hi =>
          have := fun a hae hn => (hnew E (by simp) a hae hn).2
          clear ih hp hnew
          induction es with
          | nil => simp [put, ivs, initVars, hi]
          | cons a es ih2 =>
            rw [put]
            split
            · next hna => simp [ivs, initVars, hi, this a (by simp) hna.symm]
            · have := ih2 fun b hb => this b (by simp [hb])
              simp only [ivs, initVars] at this ⊢
              by_cases hka : a.kind = .initVar <;> simp [hka, this]
      have hstep : (addField kw s f).postInit = ivs (put es E) ∧
          (addField kw s f).hadMarker = s.hadMarker := by
        rw [hput, hk, hn, ht, ← hp]
        cases hkf : f.kind with
        | marker => exact absurd hkf hm
        | classVar => simp [addField, hkf]
        | plain => cases hi : f.init <;> simp [addField, hkf, hi]
        | initVar => cases hi : f.init <;> simp [addField, hkf, hi, hname]
      have := ih (addField kw s f) (put es E) hstep.1 (by
        rw [hstep.2]
        intro e hem b hb hnm
        rcases mem_put hb with rfl | hb
        · simp only [List.map_cons, List.nodup_cons, List.mem_map, not_exists, not_and] at hd
          exact absurd hnm (hd.1 e hem)
        · exact hnew e (by simp [hem]) b hb hnm)
        (by
          rw [hstep.2]
          simp only [List.map_cons, List.nodup_cons] at hd
          exact hd.2) ha'
      rw [hstep.2] at this
      exact this

theorem step_post (bases : List (Option Bool × Inits)) (mro : List PyClass) (d : Def)
    (hr : Rels RelPost bases mro) (h : (Steady mro d ∧ ¬ Raises mro d) ∧ PostFair mro d) :
    ∃ inits, calculate bases d = some (inits, []) ∧ RelPost (d.frozen, inits) (process mro d) := by
  obtain ⟨⟨hs, hnr⟩, hf⟩ := h
  obtain ⟨inits, issues, h1, hpost, h2, h3, _⟩ := calculate_right (hr.mono fun _ _ h => h.1) hs
  have := h2.mpr hnr
  subst this
  refine ⟨inits, h1, ⟨rfl, h3 ?_⟩, ?_⟩
  · cases hb : firstBad false (positional (process mro d).fields) with
    | none => rfl
    | some n => exact absurd (.order n hb) hnr
  · show inits.postInit = _
    rw [hpost]
    have hag : Agree (allEntries mro d) := hs.agree
    have hall : allEntries mro d = inherited mro ++ own mro d := rfl
    have hmark : (bases.foldl (inheritBase d.frozen) {}).hadMarker = false := by
      have : ∀ (bs : List (Option Bool × Inits)) (s : State),
          (bs.foldl (inheritBase d.frozen) s).hadMarker = s.hadMarker := by
        intro bs
        induction bs with
        | nil => intro s; rfl
        | cons b bs ih => intro s; rw [List.foldl_cons, ih, (inheritBase_parts d.frozen s b).2.1]
      rw [this]
    have hi := inheritBases_post hr d.frozen {} [] rfl rfl
      (hag.mono fun e he => by rw [hall]; simp at he; simp [he])
      (fun a ha b hb hn => by
        simp only [List.nil_append] at ha hb
        exact ⟨hf.kinds a ha b hb hn, hf.types a ha b hb hn⟩)
      (fun e he => hf.positional e (by rw [hall]; simp [he]))
    have := addFields_post (mro.map (·.body)) d.kwOnly d.fields _ _ hi (by
      rw [hmark]
      simp only [Bool.or_false]
      intro e he b hb hn
      rcases mem_foldl_put hb with hb | hb
      · cases hb
      · exact hf.new e he b hb hn)
      (by rw [hmark]; simp only [Bool.or_false]; exact hf.distinct) hs.alias
    rw [this, hmark]
    simp only [Bool.or_false, ← List.foldl_append]
    rfl

end Verif.Dataclass
