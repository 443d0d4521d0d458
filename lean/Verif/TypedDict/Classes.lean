import Verif.TypedDict.Lemmas

/-! # Classes, joins and meets -/

namespace Verif.TypedDict

variable {T V : Type}

theorem above_usable {o : Ops T} {has : T → V → Prop} (ho : Means o has) {b c : TD T}
    (hb : Distinct b) (hc : Distinct c) (h : ∀ k, Above (tdSlot has b k) (tdSlot has c k)) :
    UsableAs o has c b where
  fits d hd := (fits_iff hb).mpr fun k => (h k).fits ((fits_iff hc).mp hd k)
  stays d x d' hd ha hf hr := by
    refine (fits_iff hc).mpr fun k => ?_
    rcases act_changes ho (a := .td b) hb ha hf hr k with e | ⟨h1, h2⟩
    · rw [e]; exact (fits_iff hc).mp hd k
    · exact (h k).back h1 h2

/-! ## Members -/

theorem replaceMember_names (m : Member T) (ms : List (Member T)) :
    (replaceMember m ms).map (·.name) = ms.map (·.name) := by
  induction ms with
  | nil => rfl
  | cons a ms ih =>
    rw [replaceMember]
    split
    · next h => simp [h]
    · simp [ih]

theorem nodup_snoc {α : Type} {l : List α} {a : α} (h : l.Nodup) (ha : a ∉ l) : (l ++ [a]).Nodup := by
  rw [List.nodup_append]
  exact ⟨h, by simp, fun x hx y hy => by
    rw [List.mem_singleton] at hy
    rintro rfl
    exact ha (hy ▸ hx)⟩

theorem mergeMember_distinct {g : Gatherer T} {m : Member T} (h : (g.members.map (·.name)).Nodup) :
    ((mergeMember g m).members.map (·.name)).Nodup := by
  unfold mergeMember
  split
  · rw [replaceMember_names]; exact h
  · next hn =>
    simp only [List.map_append, List.map_cons, List.map_nil]
    refine nodup_snoc h ?_
    intro hm
    obtain ⟨c, hc, he⟩ := List.mem_map.mp hm
    exact hn (List.any_eq_true.mpr ⟨c, hc, by simpa using he⟩)

theorem merge_distinct (ms : List (Member T)) {g : Gatherer T} (h : (g.members.map (·.name)).Nodup) :
    ((merge g ms).members.map (·.name)).Nodup := by
  show ((ms.foldl mergeMember g).members.map (·.name)).Nodup
  induction ms generalizing g with
  | nil => exact h
  | cons m ms ih => exact ih (mergeMember_distinct h)

theorem addMember_distinct {o : Ops T} {e : Option (Extra T)} {g : Gatherer T} {m : Member T}
    (h : (g.members.map (·.name)).Nodup) : ((addMember o e g m).members.map (·.name)).Nodup := by
  unfold addMember
  split
  · split
    · exact h
    · split
      · rw [replaceMember_names]; exact h
      · exact h
  · next hn =>
    simp only [List.map_append, List.map_cons, List.map_nil]
    refine nodup_snoc h ?_
    intro hm
    obtain ⟨c, hc, he⟩ := List.mem_map.mp hm
    have := List.findIdx?_eq_none_iff.mp hn c hc
    simp [he] at this

theorem init_distinct (o : Ops T) (c : ClassDef T) : Distinct (initMembers o c).1 := by
  show (((c.members.foldl _ _ : Gatherer T)).members.map (·.name)).Nodup
  have h1 : ∀ (bs : List (TD T)) (g : Gatherer T), (g.members.map (·.name)).Nodup →
      ((bs.foldl (fun g b => merge g b.named) g).members.map (·.name)).Nodup := by
    intro bs
    induction bs with
    | nil => intro g h; exact h
    | cons b bs ih => intro g h; exact ih _ (merge_distinct _ h)
  have h2 : ∀ (e : Option (Extra T)) (ms : List (Member T)) (g : Gatherer T),
      (g.members.map (·.name)).Nodup → ((ms.foldl (addMember o e) g).members.map (·.name)).Nodup := by
    intro e ms
    induction ms with
    | nil => intro g h; exact h
    | cons m ms ih => intro g h; exact ih _ (addMember_distinct h)
  exact h2 _ _ _ (h1 _ _ (by simp))

/-! ## Merging -/

theorem mergeMember_clean {g : Gatherer T} {m : Member T} (h : (mergeMember g m).issues = []) :
    g.issues = [] ∧ (mergeMember g m).members = g.members ++ [m] := by
  unfold mergeMember at h ⊢
  split at h
  · simp at h
  · next hn => rw [if_neg hn]; exact ⟨h, rfl⟩

theorem mergeMembers_clean {ms : List (Member T)} {g : Gatherer T}
    (h : (ms.foldl mergeMember g).issues = []) :
    g.issues = [] ∧ (ms.foldl mergeMember g).members = g.members ++ ms := by
  induction ms generalizing g with
  | nil => exact ⟨h, by simp⟩
  | cons m ms ih =>
    obtain ⟨h1, h2⟩ := ih h
    obtain ⟨h3, h4⟩ := mergeMember_clean h1
    exact ⟨h3, by rw [List.foldl_cons, h2, h4]; simp⟩

theorem merges_clean {bs : List (TD T)} {g : Gatherer T}
    (h : (bs.foldl (fun g b => merge g b.named) g).issues = []) :
    g.issues = [] ∧ (bs.foldl (fun g b => merge g b.named) g).members =
      g.members ++ (bs.map (·.named)).flatten := by
  induction bs generalizing g with
  | nil => exact ⟨h, by simp⟩
  | cons b bs ih =>
    obtain ⟨h1, h2⟩ := ih h
    obtain ⟨h3, h4⟩ := mergeMembers_clean (g := g) (ms := b.named) h1
    refine ⟨h3, ?_⟩
    rw [List.foldl_cons, h2]
    show (b.named.foldl mergeMember g).members ++ _ = _
    rw [h4]
    simp

theorem addMember_issues {o : Ops T} {e : Option (Extra T)} {g : Gatherer T} {m : Member T}
    (h : (addMember o e g m).issues = []) : g.issues = [] := by
  unfold addMember at h
  split at h
  · split at h
    · simp at h
    · split at h
      · simp only [List.append_eq_nil_iff] at h; exact h.1
      · exact h
  · simp only [List.append_eq_nil_iff] at h; exact h.1

theorem find_replace (m : Member T) (ms : List (Member T)) (k : String) (hk : k ≠ m.name) :
    (replaceMember m ms).find? (fun c => c.name = k) = ms.find? fun c => c.name = k := by
  induction ms with
  | nil => rfl
  | cons a ms ih =>
    rw [replaceMember]
    split
    · next h =>
      rw [List.find?_cons, List.find?_cons]
      simp [h, Ne.symm hk]
    · rw [List.find?_cons, List.find?_cons, ih]

theorem find_replaced (m : Member T) (ms : List (Member T)) (h : ∃ c ∈ ms, c.name = m.name) :
    (replaceMember m ms).find? (fun c => c.name = m.name) = some m := by
  induction ms with
  | nil => obtain ⟨_, h, _⟩ := h; cases h
  | cons a ms ih =>
    rw [replaceMember]
    split
    · simp
    · next ha =>
      rw [List.find?_cons]
      simp only [ha, decide_false]
      obtain ⟨c, hc, he⟩ := h
      rcases List.mem_cons.mp hc with rfl | hc
      · exact absurd he ha
      · exact ih ⟨c, hc, he⟩

theorem findIdx_find {α : Type} {p : α → Bool} {l : List α} {i : Nat} (h : l.findIdx? p = some i) :
    ∃ a, l[i]? = some a ∧ l.find? p = some a := by
  induction l generalizing i with
  | nil => cases h
  | cons a l ih =>
    rw [List.findIdx?_cons] at h
    split at h
    · next hp => cases h; exact ⟨a, rfl, by simp [hp]⟩
    · next hp =>
      simp only [Option.map_eq_some_iff] at h
      obtain ⟨j, hj, rfl⟩ := h
      obtain ⟨b, h1, h2⟩ := ih hj
      exact ⟨b, by simpa using h1, by rw [List.find?_cons]; simp [hp, h2]⟩

/-- What `add` does if there is no issue. -/
theorem addMember_clean {o : Ops T} {e : Option (Extra T)} {g : Gatherer T} {m : Member T}
    (h : (addMember o e g m).issues = []) :
    (∃ old, g.members.find? (fun c => c.name = m.name) = some old ∧
      (addMember o e g m).members = replaceMember m g.members ∧
      old.readOnly = true ∧ (old.required = true → m.required = true) ∧ o.sub old.ty m.ty = true) ∨
    (g.members.find? (fun c => c.name = m.name) = none ∧
      (addMember o e g m).members = g.members ++ [m] ∧ checkAgainstExtra o e m = []) := by
  unfold addMember at h ⊢
  split at h
  · next i hi =>
    obtain ⟨old, h1, h2⟩ := findIdx_find hi
    left
    refine ⟨old, h2, ?_⟩
    split at h
    · simp at h
    · next hlt =>
      rw [if_neg hlt]
      simp only [h1] at h ⊢
      simp only [List.append_eq_nil_iff] at h
      split at h
      · next hc =>
        simp only [Bool.and_eq_true, Bool.not_eq_true', Bool.and_eq_false_iff] at hc
        refine ⟨trivial, hc.1.1, fun hr => ?_, hc.2⟩
        rcases hc.1.2 with hx | hx
        · rw [hr] at hx; cases hx
        · simpa using hx
      · simp at h
  · next hn =>
    right
    simp only [List.append_eq_nil_iff] at h
    refine ⟨?_, rfl, h.2⟩
    apply find_none.mpr
    intro c hc he
    have := List.findIdx?_eq_none_iff.mp hn c hc
    simp [he] at this

theorem addMember_above {o : Ops T} {has : T → V → Prop} (ho : Means o has) {e : Option (Extra T)}
    {g : Gatherer T} {m : Member T} (h : (addMember o e g m).issues = []) (k : String) :
    Above (tdSlot has { named := g.members, extra := e } k)
      (tdSlot has { named := (addMember o e g m).members, extra := e } k) := by
  rcases addMember_clean h with ⟨old, h1, h2, h3, h4, h5⟩ | ⟨h1, h2, h3⟩
  · rw [h2]
    by_cases hk : k = m.name
    · subst hk
      obtain ⟨hm, hn⟩ := find_spec h1
      rw [tdSlot_named (td := { named := g.members, extra := e }) h1,
        tdSlot_named (td := { named := replaceMember m g.members, extra := e })
          (find_replaced m _ ⟨old, hm, hn⟩)]
      simp only [Above, h3, if_true]
      exact ⟨h4, fun v hv => ho.sub h5 hv⟩
    · have : tdSlot has { named := replaceMember m g.members, extra := e } k =
          tdSlot has { named := g.members, extra := e } k := by
        unfold tdSlot
        simp only [find_replace m _ k hk]
      rw [this]
      exact .refl _
  · rw [h2]
    by_cases hk : k = m.name
    · subst hk
      have hnew : (g.members ++ [m]).find? (fun c => c.name = m.name) = some m := by
        rw [List.find?_append, h1]
        simp
      rw [tdSlot_named (td := { named := g.members ++ [m], extra := e }) hnew]
      unfold checkAgainstExtra at h3
      cases e with
      | none =>
        rw [tdSlot_open (td := { named := g.members, extra := none }) h1 rfl]
        simp [Above]
      | some e =>
        rw [tdSlot_extra (td := { named := g.members, extra := some e }) h1 rfl]
        simp only at h3
        unfold Above
        cases hr : e.readOnly <;> cases hq : m.required <;> cases hmr : m.readOnly <;>
          simp [hr, hq, hmr] at h3 ⊢
        all_goals first
          | exact fun v => ho.same h3
          | exact fun v hv => ho.sub h3 hv
    · have : tdSlot has { named := g.members ++ [m], extra := e } k =
          tdSlot has { named := g.members, extra := e } k := by
        unfold tdSlot
        have : (g.members ++ [m]).find? (fun c => c.name = k) =
            g.members.find? fun c => c.name = k := by
          rw [List.find?_append]
          simp [Ne.symm hk]
        simp only [this]
      rw [this]
      exact .refl _

theorem addMembers_above {o : Ops T} {has : T → V → Prop} (ho : Means o has) {e : Option (Extra T)}
    {ms : List (Member T)} {g : Gatherer T} (h : (ms.foldl (addMember o e) g).issues = []) :
    g.issues = [] ∧ ∀ k, Above (tdSlot has { named := g.members, extra := e } k)
      (tdSlot has { named := (ms.foldl (addMember o e) g).members, extra := e } k) := by
  induction ms generalizing g with
  | nil => exact ⟨h, fun k => .refl _⟩
  | cons m ms ih =>
    obtain ⟨h1, h2⟩ := ih h
    exact ⟨addMember_issues h1, fun k => (addMember_above ho h1 k).trans (h2 k)⟩

theorem slot_extra_congr {has : T → V → Prop} {ms : List (Member T)} {e f : Option (Extra T)}
    (h : ms.find? (fun c => c.name = k) = none → Above
      (tdSlot has { named := ms, extra := e } k) (tdSlot has { named := ms, extra := f } k)) :
    Above (tdSlot has { named := ms, extra := e } k) (tdSlot has { named := ms, extra := f } k) := by
  cases hm : ms.find? fun c => c.name = k with
  | none => exact h hm
  | some m =>
    rw [tdSlot_named (td := { named := ms, extra := e }) hm,
      tdSlot_named (td := { named := ms, extra := f }) hm]
    exact .refl _

theorem extra_above {o : Ops T} {has : T → V → Prop} (ho : Means o has) {c : ClassDef T}
    {ms : List (Member T)} {old : Option (Extra T)} (h1 : closedIssues o c old = [])
    (h2 : extraIssues o c old = []) (hc : c.closed = some true → c.extraItems = none) (k : String) :
    Above (tdSlot has { named := ms, extra := old } k)
      (tdSlot has { named := ms, extra := (calcExtra o c).or old } k) := by
  apply slot_extra_congr
  intro hm
  cases old with
  | none =>
    rw [tdSlot_open (td := { named := ms, extra := none }) hm rfl]
    simp [Above]
  | some e =>
    cases hn : calcExtra o c with
    | none => exact .refl _
    | some new =>
      rw [tdSlot_extra (td := { named := ms, extra := some e }) hm rfl]
      rw [show (some new).or (some e) = some new from rfl]
      rw [tdSlot_extra (td := { named := ms, extra := some new }) hm rfl]
      unfold closedIssues at h1
      unfold extraIssues at h2
      simp only [hn] at h2
      cases hcl : c.closed with
      | none =>
        simp only [hcl, Option.isNone_none, if_true] at h2
        unfold Above
        split at h2
        · next hr =>
          simp only [hr, if_true]
          split at h2
          · next hs => exact ⟨nofun, fun v hv => ho.sub hs hv⟩
          · cases h2
        · cases h2
      | some b =>
        cases b with
        | false =>
          simp only [hcl] at h1
          split at h1 <;> cases h1
        | true =>
          simp only [hcl] at h1
          have hx := hc hcl
          unfold calcExtra at hn
          simp only [hx, hcl, if_true, Option.some.injEq] at hn
          subst hn
          unfold Above
          cases hr : e.readOnly
          · simp only [hr, Bool.not_false, Bool.true_and, Bool.not_eq_true'] at h1
            simp only [Bool.false_eq_true, if_false, true_and]
            cases hnv : o.isNever e.ty
            · simp [hnv] at h1
            · exact fun v => ⟨fun hv => absurd hv (ho.never hnv), fun hv => absurd hv ho.bottom⟩
          · simp only [if_true]
            exact ⟨nofun, fun v hv => absurd hv ho.bottom⟩

theorem foldl_or_single (bs : List (TD T)) : ∀ e : Option (Extra T),
    (∀ b ∈ bs, b.extra = none) → bs.foldl (fun e b => b.extra.or e) e = e := by
  induction bs with
  | nil => intro e _; rfl
  | cons b bs ih =>
    intro e h
    rw [List.foldl_cons, h b (List.mem_cons_self ..)]
    exact ih e fun c hc => h c (List.mem_cons_of_mem _ hc)

theorem class_above {o : Ops T} {has : T → V → Prop} (ho : Means o has) {c : ClassDef T} {b : TD T}
    (hb : b ∈ c.bases) (h : (initMembers o c).2 = []) (hx : b.extra = none ∨ c.bases = [b])
    (hc : c.closed = some true → c.extraItems = none) (k : String) :
    Above (tdSlot has b k) (tdSlot has (initMembers o c).1 k) := by
  have hi := h
  simp only [initMembers, List.append_eq_nil_iff] at hi
  obtain ⟨⟨h1, h2⟩, h3⟩ := hi
  obtain ⟨h4, h5⟩ := addMembers_above ho h1
  obtain ⟨_, h6⟩ := merges_clean h4
  have hdist : ((c.bases.foldl (fun g b => merge g b.named) ({} : Gatherer T)).members.map
      (·.name)).Nodup := by
    have : ∀ (bs : List (TD T)) (g : Gatherer T), (g.members.map (·.name)).Nodup →
        ((bs.foldl (fun g b => merge g b.named) g).members.map (·.name)).Nodup := by
      intro bs
      induction bs with
      | nil => intro g h; exact h
      | cons b bs ih => intro g h; exact ih _ (merge_distinct _ h)
    exact this _ _ (by simp)
  refine Above.trans ?_ ((h5 k).trans (extra_above ho h2 h3 hc k))
  cases hf : b.named.find? fun m => m.name = k with
  | some m =>
    obtain ⟨hm, rfl⟩ := find_spec hf
    rw [tdSlot_named hf]
    have hmem : m ∈ (c.bases.foldl (fun g b => merge g b.named) ({} : Gatherer T)).members := by
      rw [h6]
      exact List.mem_append_right _ (List.mem_flatten.mpr ⟨b.named, List.mem_map.mpr ⟨b, hb, rfl⟩, hm⟩)
    rw [tdSlot_named (td := { named := _, extra := _ }) (find_of_mem hdist hmem)]
    exact .refl _
  | none =>
    rcases hx with hx | hx
    · rw [tdSlot_open hf hx]
      simp [Above]
    · have h7 : (c.bases.foldl (fun g b => merge g b.named) ({} : Gatherer T)).members = b.named := by
        rw [h6, hx]
        simp
      have h8 : c.bases.foldl (fun e b => b.extra.or e) none = b.extra := by
        rw [hx]
        simp
      rw [h7, h8]
      exact .refl _

/-- What is kept of a member of a base class. -/
theorem addMembers_keep {o : Ops T}
    (htrans : ∀ a b c, o.sub a b = true → o.sub b c = true → o.sub a c = true)
    {e : Option (Extra T)} {ms : List (Member T)} {g : Gatherer T}
    (h : (ms.foldl (addMember o e) g).issues = []) {k : String} {m : Member T}
    (hm : g.members.find? (fun c => c.name = k) = some m) :
    ∃ n, (ms.foldl (addMember o e) g).members.find? (fun c => c.name = k) = some n ∧
      (n = m ∨ m.readOnly = true ∧ (m.required = true → n.required = true) ∧
        o.sub m.ty n.ty = true) := by
  induction ms generalizing g m with
  | nil => exact ⟨m, hm, .inl rfl⟩
  | cons a ms ih =>
    have hi : (addMember o e g a).issues = [] := by
      have : ∀ (ms : List (Member T)) (g : Gatherer T), (ms.foldl (addMember o e) g).issues = [] →
          g.issues = [] := by
        intro ms
        induction ms with
        | nil => intro g h; exact h
        | cons b ms ih => intro g h; exact addMember_issues (ih _ h)
      exact this ms _ h
    rcases addMember_clean hi with ⟨old, h1, h2, h3, h4, h5⟩ | ⟨h1, h2, h3⟩
    · by_cases hk : k = a.name
      · subst hk
        rw [hm] at h1
        cases h1
        obtain ⟨n, hn, hx⟩ := ih h (m := a) (by
          rw [h2]
          exact find_replaced a _ ⟨m, (find_spec hm).1, (find_spec hm).2⟩)
        refine ⟨n, hn, .inr ?_⟩
        rcases hx with rfl | ⟨x1, x2, x3⟩
        · exact ⟨h3, h4, h5⟩
        · exact ⟨h3, fun h => x2 (h4 h), htrans _ _ _ h5 x3⟩
      · exact ih h (by rw [h2, find_replace a _ k hk]; exact hm)
    · exact ih h (by rw [h2, List.find?_append, hm]; rfl)

/-! ## Joins -/

theorem mem_join {o : Ops T} {a b : TD T} {m : Member T} (h : m ∈ (join o a b).named) :
    ∃ m1 ∈ a.named, ∃ m2 ∈ b.named, m1.name = m2.name ∧ m1.required = m2.required ∧
      o.same m1.ty m2.ty = true ∧ m = { m1 with readOnly := m1.readOnly || m2.readOnly } := by
  simp only [join, List.mem_flatten, List.mem_map] at h
  obtain ⟨l, ⟨m1, h1, rfl⟩, h⟩ := h
  simp only [List.mem_map, List.mem_filter, Bool.and_eq_true, decide_eq_true_eq, beq_iff_eq] at h
  obtain ⟨m2, ⟨h2, ⟨h3, h4⟩, h5⟩, rfl⟩ := h
  exact ⟨m1, h1, m2, h2, h3, h4, h5, rfl⟩

theorem join_distinct {o : Ops T} {a b : TD T} (ha : Distinct a) (hb : Distinct b) :
    Distinct (join o a b) := by
  unfold Distinct join
  simp only
  unfold Distinct at ha
  generalize a.named = as at ha
  induction as with
  | nil => simp
  | cons m1 as ih =>
    rw [List.map_cons, List.nodup_cons] at ha
    rw [List.map_cons, List.flatten_cons, List.map_append, List.nodup_append]
    refine ⟨?_, ih ha.2, ?_⟩
    · have : ∀ bs : List (Member T), (bs.map (·.name)).Nodup →
          (((bs.filter fun m2 => decide (m1.name = m2.name) && (m1.required == m2.required) &&
            o.same m1.ty m2.ty).map fun m2 =>
              ({ m1 with readOnly := m1.readOnly || m2.readOnly } : Member T)).map (·.name)).Nodup := by
        intro bs hbs
        induction bs with
        | nil => simp
        | cons m2 bs ih2 =>
          rw [List.map_cons, List.nodup_cons] at hbs
          rw [List.filter_cons]
          split
          · next hc =>
            simp only [Bool.and_eq_true, decide_eq_true_eq] at hc
            have : (bs.filter fun m2 => decide (m1.name = m2.name) && (m1.required == m2.required) &&
                o.same m1.ty m2.ty) = [] := by
              apply List.filter_eq_nil_iff.mpr
              intro x hx hxc
              simp only [Bool.and_eq_true, decide_eq_true_eq] at hxc
              exact hbs.1 (List.mem_map.mpr ⟨x, hx, by rw [← hxc.1.1, hc.1.1]⟩)
            rw [this]
            simp
          · exact ih2 hbs.2
      exact this b.named hb
    · intro x hx y hy hxy
      subst hxy
      simp only [List.mem_map, List.mem_filter] at hx
      obtain ⟨_, ⟨m2, _, rfl⟩, rfl⟩ := hx
      simp only [List.mem_map, List.mem_flatten] at hy
      obtain ⟨n, ⟨l, ⟨m1', h1', rfl⟩, hn⟩, he⟩ := hy
      simp only [List.mem_map] at hn
      obtain ⟨m2', _, rfl⟩ := hn
      exact ha.1 (List.mem_map.mpr ⟨m1', h1', he⟩)

theorem join_above {o : Ops T} {has : T → V → Prop} (ho : Means o has) {a b : TD T}
    (ha : Distinct a) (hb : Distinct b) (hx : (join o a b).extra = none) (k : String) :
    Above (tdSlot has (join o a b) k) (tdSlot has a k) ∧
      Above (tdSlot has (join o a b) k) (tdSlot has b k) := by
  cases hf : (join o a b).named.find? fun m => m.name = k with
  | none =>
    rw [tdSlot_open hf hx]
    simp [Above]
  | some m =>
    obtain ⟨hm, hk⟩ := find_spec hf
    obtain ⟨m1, h1, m2, h2, h3, h4, h5, rfl⟩ := mem_join hm
    simp only at hk
    subst hk
    rw [tdSlot_named hf, tdSlot_named (find_of_mem ha h1),
      tdSlot_named (by rw [h3]; exact find_of_mem hb h2)]
    unfold Above
    cases hr1 : m1.readOnly <;> cases hr2 : m2.readOnly <;> simp [h4]
    all_goals first
      | exact fun v => ho.same h5
      | exact fun v hv => (ho.same h5).mpr hv

/-! ## Meets -/

theorem meet_go {o : Ops T} {bs ms rs : List (Member T)} (h : meet.go o ms bs = some rs)
    (hd : (ms.map (·.name)).Nodup) :
    (rs.map (·.name)).Nodup ∧ (∀ m ∈ ms, m ∈ rs) ∧ ∀ m2 ∈ bs, ∃ m1 ∈ rs, m1.name = m2.name ∧
      m1.required = m2.required ∧ m1.readOnly = m2.readOnly ∧
      (m1 = m2 ∨ o.same m1.ty m2.ty = true) := by
  induction bs generalizing ms with
  | nil =>
    rw [meet.go] at h
    cases h
    exact ⟨hd, fun _ h => h, nofun⟩
  | cons b bs ih =>
    rw [meet.go] at h
    split at h
    · next m1 hm1 =>
      split at h
      · cases h
      · next hc =>
        simp only [Bool.or_eq_true, bne_iff_ne, ne_eq, Bool.not_eq_true', not_or, Decidable.not_not,
          Bool.not_eq_false] at hc
        obtain ⟨r1, r2, r3⟩ := ih h hd
        refine ⟨r1, r2, fun m2 hm2 => ?_⟩
        rcases List.mem_cons.mp hm2 with rfl | hm2
        · obtain ⟨hmem, hn⟩ := find_spec hm1
          exact ⟨m1, r2 m1 hmem, hn, hc.1.1, hc.1.2, .inr hc.2⟩
        · exact r3 m2 hm2
    · next hn =>
      obtain ⟨r1, r2, r3⟩ := ih h (by
        rw [List.map_append]
        refine nodup_snoc hd ?_
        intro hm
        obtain ⟨c, hc, he⟩ := List.mem_map.mp hm
        exact find_none.mp hn c hc he)
      refine ⟨r1, fun m hm => r2 m (List.mem_append_left _ hm), fun m2 hm2 => ?_⟩
      rcases List.mem_cons.mp hm2 with rfl | hm2
      · exact ⟨m2, r2 m2 (by simp), rfl, rfl, rfl, .inl rfl⟩
      · exact r3 m2 hm2

theorem meet_above {o : Ops T} {has : T → V → Prop} (ho : Means o has) {a b c : TD T}
    (h : meet o a b = some c) (ha : Distinct a) (hax : a.extra = none) (hbx : b.extra = none)
    (k : String) :
    Distinct c ∧ Above (tdSlot has a k) (tdSlot has c k) ∧ Above (tdSlot has b k) (tdSlot has c k) := by
  unfold meet at h
  simp only [Option.map_eq_some_iff] at h
  obtain ⟨rs, h, rfl⟩ := h
  obtain ⟨r1, r2, r3⟩ := meet_go h ha
  refine ⟨r1, ?_, ?_⟩
  · cases hf : a.named.find? fun m => m.name = k with
    | none => rw [tdSlot_open hf hax]; simp [Above]
    | some m =>
      obtain ⟨hm, rfl⟩ := find_spec hf
      rw [tdSlot_named hf, tdSlot_named (td := { named := rs, definedAt := a.definedAt })
        (find_of_mem r1 (r2 m hm))]
      exact .refl _
  · cases hf : b.named.find? fun m => m.name = k with
    | none => rw [tdSlot_open hf hbx]; simp [Above]
    | some m =>
      obtain ⟨hm, rfl⟩ := find_spec hf
      obtain ⟨m1, h1, h2, h3, h4, h5⟩ := r3 m hm
      rw [tdSlot_named hf, tdSlot_named (td := { named := rs, definedAt := a.definedAt })
        (by rw [← h2]; exact find_of_mem r1 h1)]
      rcases h5 with rfl | h5
      · exact .refl _
      · unfold Above
        cases hr : m.readOnly <;> simp [h3, h4, hr]
        · exact fun v => (ho.same h5).symm
        · exact fun v hv => (ho.same h5).mp hv

end Verif.TypedDict
