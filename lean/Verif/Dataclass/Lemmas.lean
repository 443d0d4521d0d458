import Verif.Dataclass.Spec

namespace Verif.Dataclass

/-- The parameter of an entry. -/
def toParam (e : Entry) : Param := ⟨e.name, e.kwOnly, e.hasDefault, e.ty, true⟩

theorem put_names {es : List Entry} {e : Entry} (h : ∀ a ∈ es, a.name ≠ e.name) :
    put es e = es ++ [e] := by
  induction es with
  | nil => rfl
  | cons a es ih =>
    rw [put, if_neg (h a (List.mem_cons_self ..)), ih fun b hb => h b (List.mem_cons_of_mem _ hb)]
    rfl

theorem mem_put {es : List Entry} {e x : Entry} (h : x ∈ put es e) : x = e ∨ x ∈ es := by
  induction es with
  | nil => simpa [put] using h
  | cons a es ih =>
    rw [put] at h
    split at h
    · rcases List.mem_cons.mp h with h | h
      · exact .inl h
      · exact .inr (List.mem_cons_of_mem _ h)
    · rcases List.mem_cons.mp h with h | h
      · exact .inr (h ▸ List.mem_cons_self ..)
      · rcases ih h with h | h
        · exact .inl h
        · exact .inr (List.mem_cons_of_mem _ h)

theorem mem_foldl_put {es bs : List Entry} {x : Entry} (h : x ∈ bs.foldl put es) :
    x ∈ es ∨ x ∈ bs := by
  induction bs generalizing es with
  | nil => exact .inl h
  | cons b bs ih =>
    rcases ih h with h | h
    · rcases mem_put h with h | h
      · exact .inr (h ▸ List.mem_cons_self ..)
      · exact .inl h
    · exact .inr (List.mem_cons_of_mem _ h)

/-! ## Filters of the dictionary -/

/-- A filter that does not change for entries of the same name. -/
def Even (q : Entry → Bool) (es : List Entry) : Prop :=
  ∀ a ∈ es, ∀ b ∈ es, a.name = b.name → q a = q b

theorem filter_put {q : Entry → Bool} {es : List Entry} {e : Entry}
    (h : ∀ a ∈ es, a.name = e.name → q a = q e) :
    (put es e).filter q = if q e then put (es.filter q) e else es.filter q := by
  induction es with
  | nil => cases hq : q e <;> simp [put, hq]
  | cons a es ih =>
    have ih := ih fun b hb => h b (List.mem_cons_of_mem _ hb)
    by_cases hn : a.name = e.name
    · have ha := h a (List.mem_cons_self ..) hn
      cases hq : q e
      · simp [put, hn, hq, ha]
      · simp [put, hn, hq, ha]
    · rw [put, if_neg hn, List.filter_cons, ih]
      cases hq : q e
      · simp [List.filter_cons]
      · cases hqa : q a
        · simp [List.filter_cons, hqa]
        · simp [List.filter_cons, hqa, put, hn]

theorem filter_foldl_put {q : Entry → Bool} {es bs : List Entry} (h : Even q (es ++ bs)) :
    (bs.foldl put es).filter q = (bs.filter q).foldl put (es.filter q) := by
  induction bs generalizing es with
  | nil => rfl
  | cons b bs ih =>
    have h1 : ∀ a ∈ es, a.name = b.name → q a = q b := fun a ha hn =>
      h a (by simp [ha]) b (by simp) hn
    have h2 : Even q (put es b ++ bs) := by
      intro x hx y hy hn
      apply h x ?_ y ?_ hn
      · rcases List.mem_append.mp hx with hx | hx
        · rcases mem_put hx with hx | hx <;> simp [hx]
        · simp [hx]
      · rcases List.mem_append.mp hy with hy | hy
        · rcases mem_put hy with hy | hy <;> simp [hy]
        · simp [hy]
    rw [List.foldl_cons, ih h2, filter_put h1]
    cases hq : q b <;> simp [List.filter_cons, hq]

/-! ## `add_param` -/

theorem replace_put {es : List Entry} {e : Entry} (rest : List Param) :
    (∃ a ∈ es, a.name = e.name) →
      replaceParam (toParam e) (es.map toParam ++ rest) = some ((put es e).map toParam ++ rest) := by
  intro h
  induction es with
  | nil => obtain ⟨a, ha, _⟩ := h; cases ha
  | cons a es ih =>
    by_cases hn : a.name = e.name
    · simp [put, replaceParam, toParam, hn]
    · have : ∃ a ∈ es, a.name = e.name := by
        obtain ⟨b, hb, hbn⟩ := h
        rcases List.mem_cons.mp hb with rfl | hb
        · exact absurd hbn hn
        · exact ⟨b, hb, hbn⟩
      rw [put, if_neg hn]
      simp only [List.map_cons, List.cons_append, replaceParam]
      rw [if_neg (by exact hn), ih this]
      rfl

theorem replace_none {ps : List Param} {new : Param} (h : ∀ p ∈ ps, p.name ≠ new.name) :
    replaceParam new ps = none := by
  induction ps with
  | nil => rfl
  | cons p ps ih =>
    rw [replaceParam, if_neg (h p (List.mem_cons_self ..)),
      ih fun q hq => h q (List.mem_cons_of_mem _ hq)]
    rfl

theorem replace_skip {ps rest : List Param} {new : Param} (h : ∀ p ∈ ps, p.name ≠ new.name) :
    replaceParam new (ps ++ rest) = (replaceParam new rest).map (ps ++ ·) := by
  induction ps with
  | nil => simp
  | cons p ps ih =>
    rw [List.cons_append, replaceParam, if_neg (h p (List.mem_cons_self ..)),
      ih fun q hq => h q (List.mem_cons_of_mem _ hq), Option.map_map]
    rfl

theorem insert_positional {P K : List Entry} {e : Entry} (hP : ∀ a ∈ P, a.kwOnly = false)
    (hK : ∀ a ∈ K, a.kwOnly = true) (he : e.kwOnly = false) :
    insertParam (toParam e) (P.map toParam ++ K.map toParam) =
      (P ++ [e]).map toParam ++ K.map toParam := by
  induction P with
  | nil =>
    cases K with
    | nil => rfl
    | cons k K =>
      have := hK k (List.mem_cons_self ..)
      simp [insertParam, toParam, this, he]
  | cons a P ih =>
    have := hP a (List.mem_cons_self ..)
    simp only [List.map_cons, List.cons_append, insertParam]
    rw [if_neg (by simp [toParam, this]), ih fun b hb => hP b (List.mem_cons_of_mem _ hb)]
    done

theorem insert_keyword {ps : List Param} {new : Param} (h : new.kwOnly = true) :
    insertParam new ps = ps ++ [new] := by
  induction ps with
  | nil => rfl
  | cons p ps ih => rw [insertParam, if_neg (by simp [h]), ih]; rfl

theorem add_positional {P K : List Entry} {e : Entry} (hP : ∀ a ∈ P, a.kwOnly = false)
    (hK : ∀ a ∈ K, a.kwOnly = true) (he : e.kwOnly = false) (hn : ∀ a ∈ K, a.name ≠ e.name) :
    (addParam ((P ++ K).map toParam) (toParam e)).1 = (put P e ++ K).map toParam := by
  rw [List.map_append, List.map_append, addParam]
  by_cases h : ∃ a ∈ P, a.name = e.name
  · rw [replace_put _ h]
  · have h' : ∀ a ∈ P, a.name ≠ e.name := fun a ha hn => h ⟨a, ha, hn⟩
    rw [replace_none, put_names h']
    · exact insert_positional hP hK he
    · intro p hp
      rcases List.mem_append.mp hp with hp | hp
      · obtain ⟨a, ha, rfl⟩ := List.mem_map.mp hp
        exact h' a ha
      · obtain ⟨a, ha, rfl⟩ := List.mem_map.mp hp
        exact hn a ha

theorem add_keyword {P K : List Entry} {e : Entry} (he : e.kwOnly = true)
    (hn : ∀ a ∈ P, a.name ≠ e.name) :
    (addParam ((P ++ K).map toParam) (toParam e)).1 = (P ++ put K e).map toParam := by
  rw [List.map_append, List.map_append, addParam]
  have hP : ∀ p ∈ P.map toParam, p.name ≠ (toParam e).name := by
    intro p hp
    obtain ⟨a, ha, rfl⟩ := List.mem_map.mp hp
    exact hn a ha
  rw [replace_skip hP]
  by_cases h : ∃ a ∈ K, a.name = e.name
  · have := replace_put [] h
    simp only [List.append_nil] at this
    rw [this]
    simp
  · have h' : ∀ a ∈ K, a.name ≠ e.name := fun a ha hn => h ⟨a, ha, hn⟩
    have h2 : replaceParam (toParam e) (K.map toParam) = none := by
      apply replace_none
      intro p hp
      obtain ⟨a, ha, rfl⟩ := List.mem_map.mp hp
      exact h' a ha
    rw [h2, put_names h']
    simp only [Option.map_none]
    rw [insert_keyword (by exact he)]
    simp

/-- Entries with the same name are parameters of the same kind. -/
def Agree (es : List Entry) : Prop :=
  ∀ a ∈ es, ∀ b ∈ es, a.name = b.name → a.param = b.param ∧ (a.param = true → a.kwOnly = b.kwOnly)

theorem Agree.mono {es fs : List Entry} (h : Agree fs) (hs : ∀ e ∈ es, e ∈ fs) : Agree es :=
  fun a ha b hb => h a (hs a ha) b (hs b hb)

theorem Agree.positional {es : List Entry} (h : Agree es) : Even (fun e => e.param && !e.kwOnly) es := by
  intro a ha b hb hn
  obtain ⟨h1, h2⟩ := h a ha b hb hn
  simp only [← h1]
  cases hp : a.param
  · rfl
  · simp [h2 hp]

theorem Agree.keyword {es : List Entry} (h : Agree es) : Even (fun e => e.param && e.kwOnly) es := by
  intro a ha b hb hn
  obtain ⟨h1, h2⟩ := h a ha b hb hn
  simp only [← h1]
  cases hp : a.param
  · rfl
  · simp [h2 hp]

theorem mem_positional {es : List Entry} {e : Entry} :
    e ∈ positional es ↔ e ∈ es ∧ e.param = true ∧ e.kwOnly = false := by
  simp [positional]

theorem mem_keywordOnly {es : List Entry} {e : Entry} :
    e ∈ keywordOnly es ↔ e ∈ es ∧ e.param = true ∧ e.kwOnly = true := by
  simp [keywordOnly]

/-- The parameters of these entries. -/
def paramsOf (es : List Entry) : List Param := (positional es ++ keywordOnly es).map toParam

/-- One more entry. -/
theorem add_entry {es : List Entry} {e : Entry} (h : Agree (es ++ [e])) (hp : e.param = true) :
    (addParam (paramsOf es) (toParam e)).1 = paramsOf (put es e) := by
  have h1 := h.positional
  have h2 := h.keyword
  have f1 := filter_put (q := fun e => e.param && !e.kwOnly) (es := es) (e := e)
    fun a ha hn => h1 a (by simp [ha]) e (by simp) hn
  have f2 := filter_put (q := fun e => e.param && e.kwOnly) (es := es) (e := e)
    fun a ha hn => h2 a (by simp [ha]) e (by simp) hn
  unfold paramsOf positional keywordOnly
  rw [f1, f2]
  cases hk : e.kwOnly
  · simp only [hp, hk, Bool.not_false, Bool.and_self, if_true, Bool.and_false, Bool.false_eq_true,
      if_false]
    apply add_positional
    · intro a ha; exact (mem_positional.mp ha).2.2
    · intro a ha; exact (mem_keywordOnly.mp ha).2.2
    · exact hk
    · intro a ha hn
      obtain ⟨g1, g2, g3⟩ := mem_keywordOnly.mp ha
      have := (h a (by simp [g1]) e (by simp) hn).2 g2
      rw [g3, hk] at this
      cases this
  · simp only [hp, hk, Bool.not_true, Bool.and_self, if_true, Bool.and_false, Bool.false_eq_true,
      if_false]
    apply add_keyword hk
    intro a ha hn
    obtain ⟨g1, g2, g3⟩ := mem_positional.mp ha
    have := (h a (by simp [g1]) e (by simp) hn).2 g2
    rw [g3, hk] at this
    cases this

theorem add_entries {es bs : List Entry} (h : Agree (es ++ bs)) (hp : ∀ b ∈ bs, b.param = true) :
    (bs.map toParam).foldl (fun ps p => (addParam ps p).1) (paramsOf es) =
      paramsOf (bs.foldl put es) := by
  induction bs generalizing es with
  | nil => rfl
  | cons b bs ih =>
    have h1 : Agree (es ++ [b]) := h.mono (by
      intro e he
      rcases List.mem_append.mp he with he | he
      · simp [he]
      · simp at he; simp [he])
    simp only [List.map_cons, List.foldl_cons]
    rw [add_entry h1 (hp b (List.mem_cons_self ..))]
    apply ih
    · apply h.mono
      intro e he
      rcases List.mem_append.mp he with he | he
      · rcases mem_put he with he | he <;> simp [he]
      · simp [he]
    · exact fun c hc => hp c (List.mem_cons_of_mem _ hc)

theorem paramsOf_congr {es fs : List Entry} (h1 : positional es = positional fs)
    (h2 : keywordOnly es = keywordOnly fs) : paramsOf es = paramsOf fs := by
  rw [paramsOf, paramsOf, h1, h2]

theorem positional_foldl {es bs : List Entry} (h : Agree (es ++ bs)) :
    positional (bs.foldl put es) = (positional bs).foldl put (positional es) :=
  filter_foldl_put h.positional

theorem keywordOnly_foldl {es bs : List Entry} (h : Agree (es ++ bs)) :
    keywordOnly (bs.foldl put es) = (keywordOnly bs).foldl put (keywordOnly es) :=
  filter_foldl_put h.keyword

theorem positional_both (bs : List Entry) :
    positional (positional bs ++ keywordOnly bs) = positional bs := by
  unfold positional keywordOnly
  rw [List.filter_append, List.filter_filter, List.filter_filter]
  have : (bs.filter fun a => (a.param && !a.kwOnly) && (a.param && a.kwOnly)) = [] := by
    apply List.filter_eq_nil_iff.mpr
    intro a _
    cases a.param <;> cases a.kwOnly <;> simp
  rw [this, List.append_nil]
  congr 1
  funext a
  simp

theorem keywordOnly_both (bs : List Entry) :
    keywordOnly (positional bs ++ keywordOnly bs) = keywordOnly bs := by
  unfold positional keywordOnly
  rw [List.filter_append, List.filter_filter, List.filter_filter]
  have : (bs.filter fun a => (a.param && a.kwOnly) && (a.param && !a.kwOnly)) = [] := by
    apply List.filter_eq_nil_iff.mpr
    intro a _
    cases a.param <;> cases a.kwOnly <;> simp
  rw [this, List.nil_append]
  congr 1
  funext a
  simp

/-- Putting the parameters in the order of `__init__` gives the same parameters as putting all fields
in the order of the dictionary. -/
theorem put_in_order {es bs : List Entry} (h : Agree (es ++ bs)) :
    paramsOf ((positional bs ++ keywordOnly bs).foldl put es) = paramsOf (bs.foldl put es) := by
  have hs : ∀ e ∈ es ++ (positional bs ++ keywordOnly bs), e ∈ es ++ bs := by
    intro e he
    rcases List.mem_append.mp he with he | he
    · simp [he]
    · rcases List.mem_append.mp he with he | he
      · simp [(mem_positional.mp he).1]
      · simp [(mem_keywordOnly.mp he).1]
  have h' := h.mono hs
  apply paramsOf_congr
  · rw [positional_foldl h, positional_foldl h', positional_both]
  · rw [keywordOnly_foldl h, keywordOnly_foldl h', keywordOnly_both]

theorem put_skips {es : List Entry} {e : Entry} (h : Agree (es ++ [e])) (hp : e.param = false) :
    paramsOf (put es e) = paramsOf es := by
  apply paramsOf_congr
  · unfold positional
    rw [filter_put (fun a ha hn => h.positional a (by simp [ha]) e (by simp) hn)]
    simp [hp]
  · unfold keywordOnly
    rw [filter_put (fun a ha hn => h.keyword a (by simp [ha]) e (by simp) hn)]
    simp [hp]

/-! ## The order of defaults -/

/-- The first parameter without default after one with default. -/
def firstGap : Bool → List Param → Option String
  | _, [] => none
  | seen, p :: ps =>
    if p.kwOnly then none
    else if p.hasDefault then firstGap true ps
    else if seen then some p.name
    else firstGap seen ps

theorem firstGap_map (es ks : List Entry) (seen : Bool) (h : ∀ e ∈ es, e.kwOnly = false)
    (hk : ∀ e ∈ ks, e.kwOnly = true) :
    firstGap seen ((es ++ ks).map toParam) = firstBad seen es := by
  induction es generalizing seen with
  | nil =>
    cases ks with
    | nil => rfl
    | cons k ks => simp [firstGap, firstBad, toParam, hk k (List.mem_cons_self ..)]
  | cons e es ih =>
    have ih := fun s => ih s fun a ha => h a (List.mem_cons_of_mem _ ha)
    have he := h e (List.mem_cons_self ..)
    simp only [List.cons_append, List.map_cons, firstGap, firstBad]
    rw [if_neg (by simp [toParam, he]), ih, ih]
    rfl

/-- No positional parameter after a keyword-only one. -/
def Sorted : List Param → Prop
  | [] => True
  | p :: ps => (p.kwOnly = true → ∀ q ∈ ps, q.kwOnly = true) ∧ Sorted ps

theorem sorted_map (es ks : List Entry) (h : ∀ e ∈ es, e.kwOnly = false)
    (hk : ∀ e ∈ ks, e.kwOnly = true) : Sorted ((es ++ ks).map toParam) := by
  induction es with
  | nil =>
    induction ks with
    | nil => trivial
    | cons k ks ih =>
      refine ⟨fun _ q hq => ?_, ih fun e he => hk e (List.mem_cons_of_mem _ he)⟩
      obtain ⟨e, he, rfl⟩ := List.mem_map.mp hq
      exact hk e (List.mem_cons_of_mem _ he)
  | cons e es ih =>
    refine ⟨fun h' => ?_, ih fun e he => h e (List.mem_cons_of_mem _ he)⟩
    have := h e (List.mem_cons_self ..)
    simp [toParam, this] at h'

theorem sorted_paramsOf (es : List Entry) : Sorted (paramsOf es) :=
  sorted_map _ _ (fun _ h => (mem_positional.mp h).2.2) fun _ h => (mem_keywordOnly.mp h).2.2

theorem gaps_keyword {ps : List Param} (i : Nat) (h : ∀ q ∈ ps, q.kwOnly = true) :
    gaps i ps = [] := by
  induction ps generalizing i with
  | nil => rfl
  | cons p ps ih =>
    cases ps with
    | nil => rfl
    | cons q ps =>
      rw [gaps, if_neg (by simp [h q (by simp)])]
      exact ih _ fun r hr => h r (List.mem_cons_of_mem _ hr)

/-- The first gap is the one that Python reports. -/
theorem gaps_head {p : Param} {ps : List Param} (i : Nat) (hs : Sorted (p :: ps))
    (hp : p.kwOnly = false) :
    ((gaps i (p :: ps)).head?.bind fun k => (ps[k - i - 1]?).map (·.name)) =
      firstGap p.hasDefault ps := by
  induction ps generalizing p i with
  | nil => rfl
  | cons q ps ih =>
    obtain ⟨_, hs⟩ := hs
    rw [gaps]
    cases hq : q.kwOnly
    · by_cases hg : (p.hasDefault && !q.hasDefault) = true
      · have : p.hasDefault = true ∧ q.hasDefault = false := by simpa using hg
        simp [hq, this.1, this.2, firstGap]
      · rw [if_neg (by simpa [hq] using hg)]
        have ih := ih (i + 1) hs hq
        have hshift : ((gaps (i + 1) (q :: ps)).head?.bind fun k => (ps[k - (i + 1) - 1]?).map (·.name)) =
            ((gaps (i + 1) (q :: ps)).head?.bind fun k => ((q :: ps)[k - i - 1]?).map (·.name)) := by
          cases hh : (gaps (i + 1) (q :: ps)).head? with
          | none => rfl
          | some k =>
            have hk : i + 1 < k := by
              have hm := List.mem_of_head? hh
              clear hh ih
              have aux : ∀ (xs : List Param) (j k : Nat), k ∈ gaps j xs → j < k := by
                intro xs
                induction xs with
                | nil => intro j k h; cases h
                | cons x xs ih =>
                  intro j k h
                  cases xs with
                  | nil => cases h
                  | cons y ys =>
                    rw [gaps] at h
                    split at h
                    · rcases List.mem_cons.mp h with rfl | h
                      · omega
                      · have := ih _ _ h; omega
                    · have := ih _ _ h; omega
              exact aux _ _ _ hm
            obtain ⟨m, hm⟩ : ∃ m, k - i - 1 = m + 1 := ⟨k - i - 2, by omega⟩
            simp only [Option.bind_some]
            rw [hm, List.getElem?_cons_succ, show k - (i + 1) - 1 = m from by omega]
        rw [← hshift, ih, firstGap, if_neg (by simp [hq])]
        cases hd : q.hasDefault
        · have : p.hasDefault = false := by
            cases hpd : p.hasDefault
            · rfl
            · simp [hpd, hd] at hg
          simp [this]
        · simp
    · rw [if_neg (by simp [hq]), gaps_keyword]
      · simp [firstGap, hq]
      · intro r hr
        rcases List.mem_cons.mp hr with rfl | hr
        · exact hq
        · exact hs.1 hq r hr

theorem gaps_lt (xs : List Param) : ∀ j k : Nat, k ∈ gaps j xs → j < k ∧ k < j + xs.length := by
  induction xs with
  | nil => intro j k h; cases h
  | cons x xs ih =>
    intro j k h
    cases xs with
    | nil => cases h
    | cons y ys =>
      rw [gaps] at h
      split at h
      · rcases List.mem_cons.mp h with rfl | h
        · simp
        · have := ih _ _ h; simp at this ⊢; omega
      · have := ih _ _ h; simp at this ⊢; omega

/-- The check of the defaults against the loop of Python. -/
theorem checkDefaults_right {ps : List Param} (hs : Sorted ps) (hl : ∀ p ∈ ps, p.slice = true) :
    match firstGap false ps with
    | none => checkDefaults ps = some (ps, [])
    | some n => ∃ ps', checkDefaults ps = some (ps', [.noDefaultAfterDefault n]) := by
  cases ps with
  | nil => rfl
  | cons p ps =>
    cases hp : p.kwOnly
    · have h := gaps_head 0 hs hp
      have hf : firstGap false (p :: ps) = firstGap p.hasDefault ps := by
        simp only [firstGap, hp, Bool.false_eq_true, if_false]
        cases p.hasDefault <;> rfl
      rw [hf]
      cases hg : gaps 0 (p :: ps) with
      | nil =>
        rw [hg] at h
        simp only [List.head?_nil, Option.bind_none] at h
        rw [← h]
        simp [checkDefaults, hg]
      | cons k ks =>
        have hk := gaps_lt (p :: ps) 0 k (by rw [hg]; simp)
        obtain ⟨m, rfl⟩ : ∃ m, k = m + 1 := ⟨k - 1, by omega⟩
        have hm : m < ps.length := by simpa using hk.2
        rw [hg] at h
        simp only [List.head?_cons, Option.bind_some, Nat.sub_zero, Nat.add_sub_cancel,
          List.getElem?_eq_getElem hm, Option.map_some] at h
        rw [← h]
        have hsl := hl ps[m] (List.mem_cons_of_mem _ (List.getElem_mem hm))
        obtain ⟨l, hlast⟩ : ∃ l, (gaps 0 (p :: ps)).getLast? = some l := by
          rw [hg, List.getLast?_cons]; exact ⟨_, rfl⟩
        refine ⟨((p :: ps).take l).map (fun p => { p with hasDefault := false }) ++
          (p :: ps).drop l, ?_⟩
        · simp only [checkDefaults, hlast]
          rw [hg]
          simp only [List.head?_cons, List.getElem?_cons_succ, List.getElem?_eq_getElem hm, hsl,
            if_true]
    · have hk : gaps 0 (p :: ps) = [] := by
        apply gaps_keyword
        intro q hq
        rcases List.mem_cons.mp hq with rfl | hq
        · exact hp
        · exact hs.1 hp q hq
      simp [firstGap, hp, checkDefaults, hk]

/-! ## The class itself -/

theorem inheritParams_params (b : Inits) (ps : List Param) (s : State) :
    (ps.foldl (inheritParam b) s).params = ps.foldl (fun ps p => (addParam ps p).1) s.params ∧
    (ps.foldl (inheritParam b) s).hadMarker = s.hadMarker ∧
    (ps.foldl (inheritParam b) s).issues = s.issues := by
  induction ps generalizing s with
  | nil => exact ⟨rfl, rfl, rfl⟩
  | cons p ps ih => exact ih _

/-- The errors for frozen classes. -/
def frozenIssue (d c : Option Bool) : List Issue :=
  match d, c with
  | some false, some true => [.nonFrozenFromFrozen]
  | some true, some false => [.frozenFromNonFrozen]
  | _, _ => []

theorem inheritBase_parts (f : Option Bool) (s : State) (b : Option Bool × Inits) :
    (inheritBase f s b).params = b.2.params.foldl (fun ps p => (addParam ps p).1) s.params ∧
    (inheritBase f s b).hadMarker = s.hadMarker ∧
    (inheritBase f s b).issues = s.issues ++ frozenIssue f b.1 := by
  unfold inheritBase frozenIssue
  obtain ⟨h1, h2, h3⟩ := inheritParams_params b.2 b.2.params
    (match f, b.1 with
    | some false, some true => { s with issues := s.issues ++ [.nonFrozenFromFrozen] }
    | some true, some false => { s with issues := s.issues ++ [.frozenFromNonFrozen] }
    | _, _ => s)
  refine ⟨h1.trans ?_, h2.trans ?_, h3.trans ?_⟩ <;> split <;> simp

/-- The result for a class belongs to what Python makes of it. -/
def Rel (b : Option Bool × Inits) (c : PyClass) : Prop :=
  b.1 = c.frozen ∧ b.2.params = paramsOf c.fields

/-- The same for all classes of the MRO. -/
inductive Rels (R : Option Bool × Inits → PyClass → Prop) :
    List (Option Bool × Inits) → List PyClass → Prop where
  | nil : Rels R [] []
  | cons {b c bs cs} : R b c → Rels R bs cs → Rels R (b :: bs) (c :: cs)

theorem inheritBases_right {bases : List (Option Bool × Inits)} {mro : List PyClass}
    (hr : Rels Rel bases mro) (f : Option Bool) (s : State) (es : List Entry)
    (hs : s.params = paramsOf es) (h : Agree (es ++ (mro.map (·.fields)).flatten)) :
    (bases.foldl (inheritBase f) s).params =
      paramsOf ((mro.map (·.fields)).flatten.foldl put es) ∧
    (bases.foldl (inheritBase f) s).hadMarker = s.hadMarker ∧
    (bases.foldl (inheritBase f) s).issues =
      s.issues ++ (mro.map fun c => frozenIssue f c.frozen).flatten := by
  induction hr generalizing s es with
  | nil => exact ⟨by simpa using hs, rfl, by simp⟩
  | @cons b c bases mro hb hr ih =>
    obtain ⟨g1, g2, g3⟩ := inheritBase_parts f s b
    simp only [List.map_cons, List.flatten_cons] at h
    have hsub : Agree (es ++ c.fields) := h.mono (by
      intro e he
      rcases List.mem_append.mp he with he | he <;> simp [he])
    have hstep : (inheritBase f s b).params = paramsOf (c.fields.foldl put es) := by
      rw [g1, hb.2, hs, ← put_in_order hsub]
      apply add_entries
      · apply hsub.mono
        intro e he
        rcases List.mem_append.mp he with he | he
        · simp [he]
        · rcases List.mem_append.mp he with he | he
          · simp [(mem_positional.mp he).1]
          · simp [(mem_keywordOnly.mp he).1]
      · intro e he
        rcases List.mem_append.mp he with he | he
        · exact (mem_positional.mp he).2.1
        · exact (mem_keywordOnly.mp he).2.1
    obtain ⟨i1, i2, i3⟩ := ih (inheritBase f s b) (c.fields.foldl put es) hstep (by
      apply h.mono
      intro e he
      rcases List.mem_append.mp he with he | he
      · rcases mem_foldl_put he with he | he <;> simp [he]
      · simp [he])
    simp only [List.foldl_cons, List.map_cons, List.flatten_cons, List.foldl_append]
    refine ⟨i1, by rw [i2, g2], ?_⟩
    rw [i3, g3, hb.1]
    simp

/-- The errors for `KW_ONLY`. -/
def markerIssues : Bool → List Field → List Issue
  | _, [] => []
  | had, f :: fs =>
    if f.kind = .marker then
      if had then .multipleKwOnly f.name :: markerIssues true fs else markerIssues true fs
    else markerIssues had fs

theorem addFields_right (bodies : List (List Field)) (kw : Bool) (fs : List Field) (s : State)
    (es : List Entry) (hs : s.params = paramsOf es)
    (h : Agree (es ++ entries bodies (kw || s.hadMarker) fs))
    (hv : ∀ f ∈ fs, inheritedValue bodies f.name → f.default ≠ .none)
    (ha : ∀ f ∈ fs, f.alias = none) :
    (fs.foldl (addField kw) s).params =
      paramsOf ((entries bodies (kw || s.hadMarker) fs).foldl put es) ∧
    (fs.foldl (addField kw) s).issues = s.issues ++ markerIssues s.hadMarker fs := by
  induction fs generalizing s es with
  | nil => exact ⟨by simpa [entries] using hs, by simp [markerIssues]⟩
  | cons f fs ih =>
    have hv' : ∀ g ∈ fs, inheritedValue bodies g.name → g.default ≠ .none :=
      fun g hg => hv g (List.mem_cons_of_mem _ hg)
    have ha' : ∀ g ∈ fs, g.alias = none := fun g hg => ha g (List.mem_cons_of_mem _ hg)
    have hal := ha f (List.mem_cons_self ..)
    have hdef : (decide (f.default ≠ .none) || inheritedValue bodies f.name) =
        decide (f.default ≠ .none) := by
      cases hi : inheritedValue bodies f.name
      · simp
      · simp [hv f (List.mem_cons_self ..) hi]
    simp only [List.foldl_cons]
    by_cases hm : f.kind = .marker
    · have he : entries bodies (kw || s.hadMarker) (f :: fs) = entries bodies true fs := by
        rw [entries, if_pos hm]
      rw [he] at h ⊢
      cases hh : s.hadMarker
      · have hstep : addField kw s f = { s with hadMarker := true } := by
          simp [addField, hm, hh]
        have := ih { s with hadMarker := true } es hs (by simpa using h) hv' ha'
        rw [hstep]
        refine ⟨by simpa using this.1, ?_⟩
        rw [this.2]
        simp [markerIssues, hm]
      · have hstep : addField kw s f =
            { s with issues := s.issues ++ [.multipleKwOnly f.name] } := by
          simp [addField, hm, hh]
        have := ih { s with issues := s.issues ++ [.multipleKwOnly f.name] } es hs
          (by simpa [hh] using h) hv' ha'
        rw [hstep]
        refine ⟨by simpa [hh] using this.1, ?_⟩
        rw [this.2]
        simp [markerIssues, hm, hh]
    · have he : entries bodies (kw || s.hadMarker) (f :: fs) =
          ⟨f.name, f.kind, f.init, f.kwOnly.getD (kw || s.hadMarker), decide (f.default ≠ .none),
            f.ty⟩ :: entries bodies (kw || s.hadMarker) fs := by
        rw [entries, if_neg hm, hdef]
      rw [he] at h ⊢
      generalize hE : (⟨f.name, f.kind, f.init, f.kwOnly.getD (kw || s.hadMarker),
        decide (f.default ≠ .none), f.ty⟩ : Entry) = E at h ⊢
      have hsub : Agree (es ++ [E]) := h.mono (by
        intro e he
        rcases List.mem_append.mp he with he | he
        · simp [he]
        · simp at he; simp [he])
      have hstep : (addField kw s f).params = paramsOf (put es E) ∧
          (addField kw s f).hadMarker = s.hadMarker ∧ (addField kw s f).issues = s.issues := by
        have hname : f.paramName = ⟨f.name, true⟩ := by simp [Field.paramName, hal]
        cases hk : f.kind with
        | marker => exact absurd hk hm
        | classVar =>
          refine ⟨?_, by simp [addField, hk], by simp [addField, hk]⟩
          rw [put_skips hsub (by subst hE; simp [Entry.param, hk])]
          simpa [addField, hk] using hs
        | plain =>
          cases hi : f.init
          · refine ⟨?_, by simp [addField, hk, hi], by simp [addField, hk, hi]⟩
            rw [put_skips hsub (by subst hE; simp [Entry.param, hi])]
            simpa [addField, hk, hi] using hs
          · refine ⟨?_, by simp [addField, hk, hi], by simp [addField, hk, hi]⟩
            rw [← add_entry hsub (by subst hE; simp [Entry.param, hk, hi])]
            subst hE
            simp [addField, hk, hi, hs, toParam, hname]
        | initVar =>
          cases hi : f.init
          · refine ⟨?_, by simp [addField, hk, hi], by simp [addField, hk, hi]⟩
            rw [put_skips hsub (by subst hE; simp [Entry.param, hi])]
            simpa [addField, hk, hi] using hs
          · refine ⟨?_, by simp [addField, hk, hi], by simp [addField, hk, hi]⟩
            rw [← add_entry hsub (by subst hE; simp [Entry.param, hk, hi])]
            subst hE
            simp [addField, hk, hi, hs, toParam, hname]
      have := ih (addField kw s f) (put es E) hstep.1 (by
        rw [hstep.2.1]
        apply h.mono
        intro e he
        rcases List.mem_append.mp he with he | he
        · rcases mem_put he with he | he <;> simp [he]
        · simp [he]) hv' ha'
      rw [hstep.2.1] at this
      refine ⟨this.1, ?_⟩
      rw [this.2, hstep.2.2]
      simp [markerIssues, hm]

theorem markerIssues_nil {fs : List Field} (had : Bool) : markerIssues had fs = [] ↔
    (fs.filter fun f => f.kind = .marker).length < if had then 1 else 2 := by
  induction fs generalizing had with
  | nil => cases had <;> simp [markerIssues]
  | cons f fs ih =>
    by_cases hm : f.kind = .marker
    · cases had
      · simp only [markerIssues, hm, if_true, Bool.false_eq_true, if_false, ih]
        rw [List.filter_cons, if_pos (by simp [hm]), List.length_cons]
        omega
      · simp [markerIssues, hm]
    · simp only [markerIssues, hm, if_false, ih]
      simp [List.filter_cons, hm]

theorem frozenIssue_nil {d c : Option Bool} : frozenIssue d c = [] ↔
    ¬ ∃ x y, c = some x ∧ d = some y ∧ x ≠ y := by
  rcases d with _ | _ | _ <;> rcases c with _ | _ | _ <;> simp [frozenIssue]

theorem slices_paramsOf (es : List Entry) : ∀ p ∈ paramsOf es, p.slice = true := by
  intro p hp
  obtain ⟨e, _, rfl⟩ := List.mem_map.mp hp
  rfl

theorem firstGap_paramsOf (es : List Entry) :
    firstGap false (paramsOf es) = firstBad false (positional es) :=
  firstGap_map _ _ _ (fun _ h => (mem_positional.mp h).2.2) fun _ h => (mem_keywordOnly.mp h).2.2

/-- One class: the errors are those of Python, and without errors the parameters too. -/
theorem calculate_right {bases : List (Option Bool × Inits)} {mro : List PyClass} {d : Def}
    (hr : Rels Rel bases mro) (hs : Steady mro d) :
    ∃ inits issues, calculate bases d = some (inits, issues) ∧
      inits.postInit = (d.fields.foldl (addField d.kwOnly)
        (bases.foldl (inheritBase d.frozen) {})).postInit ∧
      (issues = [] ↔ ¬ Raises mro d) ∧
      (firstBad false (positional (process mro d).fields) = none →
        inits.params = paramsOf (process mro d).fields) ∧
      (∀ n, .noDefaultAfterDefault n ∈ issues ↔
        firstBad false (positional (process mro d).fields) = some n) ∧
      ∃ is, checkDefaults (paramsOf (process mro d).fields) = some (inits.params, is) := by
  have hag : Agree (allEntries mro d) := hs.agree
  have hA : Agree ([] ++ (mro.map (·.fields)).flatten) := hag.mono (by
    intro e he
    simp only [List.nil_append] at he
    simp only [allEntries, List.mem_append]
    exact .inl he)
  obtain ⟨i1, i2, i3⟩ := inheritBases_right hr d.frozen {} [] rfl hA
  obtain ⟨j1, j2⟩ := addFields_right (mro.map (·.body)) d.kwOnly d.fields
    (bases.foldl (inheritBase d.frozen) {}) _ i1 (by
      rw [i2]
      apply hag.mono
      intro e he
      simp only [Bool.or_false] at he
      rcases List.mem_append.mp he with he | he
      · rcases mem_foldl_put he with he | he
        · cases he
        · exact List.mem_append_left _ he
      · exact List.mem_append_right _ he) hs.value hs.alias
  rw [i2] at j1 j2
  rw [i3] at j2
  simp only [Bool.or_false, ← List.foldl_append] at j1
  have hproc : (process mro d).fields = (allEntries mro d).foldl put [] := rfl
  change _ = paramsOf ((allEntries mro d).foldl put []) at j1
  rw [← hproc] at j1
  have hcheck := checkDefaults_right (sorted_paramsOf (process mro d).fields) (slices_paramsOf _)
  rw [firstGap_paramsOf] at hcheck
  have hfm : ∀ n, Issue.noDefaultAfterDefault n ∉
      (mro.map fun c => frozenIssue d.frozen c.frozen).flatten ++ markerIssues false d.fields := by
    intro n hn
    rcases List.mem_append.mp hn with hn | hn
    · simp only [List.mem_flatten, List.mem_map] at hn
      obtain ⟨l, ⟨c, _, rfl⟩, hn⟩ := hn
      unfold frozenIssue at hn
      split at hn <;> simp at hn
    · revert hn
      generalize false = had
      induction d.fields generalizing had with
      | nil => simp [markerIssues]
      | cons f fs ih =>
        intro hn
        rw [markerIssues] at hn
        split at hn
        · split at hn
          · simp only [List.mem_cons, reduceCtorEq, false_or] at hn; exact ih _ hn
          · exact ih _ hn
        · exact ih _ hn
  have hnil : ((mro.map fun c => frozenIssue d.frozen c.frozen).flatten ++
      markerIssues false d.fields = []) ↔
      (¬ ∃ b ∈ mro, ∃ x y, b.frozen = some x ∧ d.frozen = some y ∧ x ≠ y) ∧
      ¬ 2 ≤ (d.fields.filter fun f => f.kind = .marker).length := by
    rw [List.append_eq_nil_iff, markerIssues_nil]
    simp only [List.flatten_eq_nil_iff, List.mem_map, forall_exists_index, and_imp,
      forall_apply_eq_imp_iff₂, frozenIssue_nil, Bool.false_eq_true, if_false]
    constructor
    · rintro ⟨h1, h2⟩
      exact ⟨fun ⟨b, hb, h⟩ => h1 b hb h, by omega⟩
    · rintro ⟨h1, h2⟩
      exact ⟨fun b hb h => h1 ⟨b, hb, h⟩, by omega⟩
  generalize hS : d.fields.foldl (addField d.kwOnly) (bases.foldl (inheritBase d.frozen) {}) = S
    at j1 j2
  cases hb : firstBad false (positional (process mro d).fields) with
  | none =>
    simp only [hb] at hcheck
    refine ⟨⟨S.params, S.postInit, S.nonInit⟩, S.issues ++ [], ?_, rfl, ?_, ?_, ?_, [], j1 ▸ hcheck⟩
    · simp only [calculate, hS, j1, hcheck, Option.map_some]
    · simp only [j2, List.append_nil, List.nil_append]
      rw [hnil]
      constructor
      · rintro ⟨h1, h2⟩ hr
        cases hr with
        | frozen b x y hb hx hy hne => exact h1 ⟨b, hb, x, y, hx, hy, hne⟩
        | marker h => exact h2 h
        | order n h => rw [hb] at h; cases h
      · intro h
        exact ⟨fun ⟨b, hb, x, y, hx, hy, hne⟩ => h (.frozen b x y hb hx hy hne), fun h' => h (.marker h')⟩
    · intro _; exact j1
    · intro n
      simp only [j2, List.append_nil, List.nil_append, reduceCtorEq, iff_false]
      exact hfm n
  | some m =>
    simp only [hb] at hcheck
    obtain ⟨ps', hcheck⟩ := hcheck
    refine ⟨⟨ps', S.postInit, S.nonInit⟩, S.issues ++ [.noDefaultAfterDefault m], ?_,
      rfl, ?_, ?_, ?_, _, hcheck⟩
    · simp only [calculate, hS, j1, hcheck, Option.map_some]
    · simp only [j2, List.nil_append, List.append_eq_nil_iff, reduceCtorEq, and_false, List.cons_ne_self,
        false_iff, Decidable.not_not]
      exact fun h => h (.order m hb)
    · intro h; cases h
    · intro n
      simp only [j2, List.nil_append]
      constructor
      · intro h
        rcases List.mem_append.mp h with h | h
        · exact absurd h (hfm n)
        · simp only [List.mem_singleton, Issue.noDefaultAfterDefault.injEq] at h
          rw [h]
      · intro h
        cases h
        simp

/-! ## Programs -/

/-- The results for the classes so far. -/
def Env (R : Option Bool × Inits → PyClass → Prop) (ks : List Known) (cs : List PyClass) : Prop :=
  ks.length = cs.length ∧ ∀ (i : Nat) k c, ks[i]? = some k → cs[i]? = some c →
    R (k.frozen, k.inits) c ∧ k.issues = []

theorem Env.rels {R : Option Bool × Inits → PyClass → Prop} {ks : List Known} {cs : List PyClass}
    (h : Env R ks cs) (is : List Nat) :
    Rels R (is.filterMap fun i => (ks[i]?).map fun k => (k.frozen, k.inits))
      (is.filterMap fun i => cs[i]?) := by
  induction is with
  | nil => exact .nil
  | cons i is ih =>
    simp only [List.filterMap_cons]
    by_cases hi : i < ks.length
    · have hi' : i < cs.length := h.1 ▸ hi
      rw [List.getElem?_eq_getElem hi, List.getElem?_eq_getElem hi']
      exact .cons (h.2 i _ _ (List.getElem?_eq_getElem hi) (List.getElem?_eq_getElem hi')).1 ih
    · have hi' : ¬ i < cs.length := h.1 ▸ hi
      rw [List.getElem?_eq_none (by omega), List.getElem?_eq_none (by omega)]
      exact ih

theorem Env.snoc {R : Option Bool × Inits → PyClass → Prop} {ks : List Known} {cs : List PyClass}
    (h : Env R ks cs) {k : Known} {c : PyClass} (hr : R (k.frozen, k.inits) c) (hi : k.issues = []) :
    Env R (ks ++ [k]) (cs ++ [c]) := by
  refine ⟨by simp [h.1], fun i k' c' hk hc => ?_⟩
  by_cases hl : i < ks.length
  · rw [List.getElem?_append_left hl] at hk
    rw [List.getElem?_append_left (h.1 ▸ hl)] at hc
    exact h.2 i _ _ hk hc
  · rw [List.getElem?_append_right (by omega)] at hk
    rw [List.getElem?_append_right (by rw [← h.1]; omega), ← h.1] at hc
    cases hj : i - ks.length with
    | zero =>
      rw [hj] at hk hc
      simp only [List.getElem?_cons_zero, Option.some.injEq] at hk hc
      subst hk hc
      exact ⟨hr, hi⟩
    | succ j => rw [hj] at hk; simp at hk

/-- All classes, for a condition that implies the relation for one more class. -/
theorem program_right {R : Option Bool × Inits → PyClass → Prop}
    {P : List PyClass → Def → Prop}
    (step : ∀ bases mro d, Rels R bases mro → P mro d → ∃ inits, calculate bases d = some (inits, []) ∧
      R (d.frozen, inits) (process mro d))
    {W : List PyClass → List Def → Prop}
    (hW : ∀ cs d ds, W cs (d :: ds) → P (mroOf cs d) d ∧ W (cs ++ [process (mroOf cs d) d]) ds)
    {ds : List Def} {ks : List Known} {cs : List PyClass} (he : Env R ks cs) (h : W cs ds) :
    ∃ ks', calculateAll ks ds = some ks' ∧ Env R ks' (pyClasses cs ds) := by
  induction ds generalizing ks cs with
  | nil => exact ⟨ks, rfl, he⟩
  | cons d ds ih =>
    obtain ⟨hp, hw⟩ := hW cs d ds h
    obtain ⟨inits, hc, hr⟩ := step _ _ d (he.rels d.bases) hp
    simp only [calculateAll, hc, Option.bind_eq_bind, Option.bind_some, pyClasses]
    exact ih (he.snoc hr rfl) hw

theorem step_right (bases : List (Option Bool × Inits)) (mro : List PyClass) (d : Def)
    (hr : Rels Rel bases mro) (h : Steady mro d ∧ ¬ Raises mro d) :
    ∃ inits, calculate bases d = some (inits, []) ∧ Rel (d.frozen, inits) (process mro d) := by
  obtain ⟨inits, issues, h1, _, h2, h3, _⟩ := calculate_right hr h.1
  have := h2.mpr h.2
  subst this
  refine ⟨inits, h1, rfl, h3 ?_⟩
  cases hf : firstBad false (positional (process mro d).fields) with
  | none => rfl
  | some n => exact absurd (.order n hf) h.2

theorem Works.step (cs : List PyClass) (d : Def) (ds : List Def) (h : Works cs (d :: ds)) :
    (Steady (mroOf cs d) d ∧ ¬ Raises (mroOf cs d) d) ∧
      Works (cs ++ [process (mroOf cs d) d]) ds := ⟨⟨h.1, h.2.1⟩, h.2.2⟩

theorem calculateAll_append (ks : List Known) (ds es : List Def) :
    calculateAll ks (ds ++ es) = (calculateAll ks ds).bind fun ks => calculateAll ks es := by
  induction ds generalizing ks with
  | nil => rfl
  | cons d ds ih =>
    simp only [List.cons_append, calculateAll, Option.bind_eq_bind]
    cases calculate _ d with
    | none => rfl
    | some r => simp only [Option.bind_some]; exact ih _

end Verif.Dataclass
