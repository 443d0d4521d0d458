import Verif.Enums.Spec

/-! # Lemmas about enums -/

namespace Verif.Enums

/-! ## Names -/

theorem skipped_iff {n : Name} : skipped n = true ↔
    ['_'] <+: n ∧ (['_'] <:+ n ∨ ['_', '_'] <+: n) := by
  simp only [skipped, Bool.and_eq_true, Bool.or_eq_true, List.isPrefixOf_iff_prefix,
    List.isSuffixOf_iff_suffix]

theorem prefix_iff {p n : Name} : p <+: n ↔ ∃ (x : Name), n = p ++ x :=
  ⟨fun ⟨x, h⟩ => ⟨x, h.symm⟩, fun ⟨x, h⟩ => ⟨x, h.symm⟩⟩

theorem suffix_iff {p n : Name} : p <:+ n ↔ ∃ (x : Name), n = x ++ p :=
  ⟨fun ⟨x, h⟩ => ⟨x, h.symm⟩, fun ⟨x, h⟩ => ⟨x, h.symm⟩⟩

theorem ends_iff {n : Name} : EndsDunder n ↔ ['_', '_'] <:+ n := suffix_iff.symm

theorem dunder_ends {n : Name} (h : IsDunder n) : EndsDunder n := by
  obtain ⟨x, rfl, _⟩ := h
  exact ⟨_, rfl⟩

theorem sunder_not_ends {n : Name} (h : IsSunder n) : ¬ EndsDunder n := by
  obtain ⟨x, rfl, hne, _, hl⟩ := h
  rintro ⟨y, hy⟩
  have : ['_'] ++ x = y ++ ['_'] := by
    have : (['_'] ++ x) ++ ['_'] = (y ++ ['_']) ++ ['_'] := by simpa using hy
    exact List.append_cancel_right this
  have h2 := congrArg List.getLast? this
  rw [List.getLast?_append, List.getLast?_append] at h2
  cases hx : x.getLast? with
  | none => exact hne (List.getLast?_eq_none_iff.mp hx)
  | some c =>
    rw [hx] at h2 hl
    simp at h2
    exact hl (by rw [h2])

theorem sunder_not_starts {n : Name} (h : IsSunder n) : ¬ ['_', '_'] <+: n := by
  obtain ⟨x, rfl, hne, hh, _⟩ := h
  rintro ⟨y, hy⟩
  cases x with
  | nil => exact hne rfl
  | cons c x =>
    simp at hy
    exact hh (by simp [← hy.1])

theorem append_ends {a n : Name} (hn : 2 ≤ n.length) : EndsDunder (a ++ n) ↔ EndsDunder n := by
  rw [ends_iff, ends_iff]
  constructor
  · intro h
    exact List.suffix_of_suffix_length_le h (List.suffix_append a n) (by simpa using hn)
  · exact fun h => h.trans (List.suffix_append a n)

theorem drop_cls {cls : Name} (h : cls.head? ≠ some '_') : cls.dropWhile (· = '_') = cls := by
  cases cls with
  | nil => rfl
  | cons c cs =>
    have : c ≠ '_' := fun he => h (by simp [he])
    simp [List.dropWhile, this]

theorem skipped_reserved {cls n : Name} (hcls : cls.head? ≠ some '_') (ho : ¬ Odd cls n)
    (h : skipped n = true) : Reserved cls n := by
  obtain ⟨hu, hs⟩ := skipped_iff.mp h
  by_cases he : EndsDunder n
  · have hd : IsDunder n := Classical.byContradiction fun hd => ho (.inr (.inl ⟨hu, he, hd⟩))
    exact ⟨n, .plain fun _ => he, .inr (.inr hd)⟩
  · by_cases hp : ['_', '_'] <+: n
    · obtain ⟨x, rfl⟩ := prefix_iff.mp hp
      have hx : x ≠ [] := by rintro rfl; exact he ⟨[], rfl⟩
      refine ⟨_, .mangle rfl he, .inl ⟨⟨x, ?_, hx⟩, ?_⟩⟩
      · rw [drop_cls hcls]; simp
      · rw [append_ends (by simp)]; exact he
    · rcases hs with hs | hs
      · obtain ⟨m, rfl⟩ := prefix_iff.mp hu
        obtain ⟨y, hy⟩ := suffix_iff.mp hs
        cases y with
        | nil => exact absurd (.inl hy) ho
        | cons c y =>
          simp at hy
          obtain ⟨rfl, rfl⟩ := hy
          refine ⟨_, .plain fun ⟨x, hx⟩ => absurd ⟨x, hx.symm⟩ hp, .inr (.inl ⟨y, by simp, ?_⟩)⟩
          refine ⟨?_, ?_, ?_⟩
          · rintro rfl; exact he ⟨[], rfl⟩
          · intro hh
            cases y with
            | nil => cases hh
            | cons d y =>
              simp at hh
              subst hh
              exact hp ⟨y ++ ['_'], by simp⟩
          · intro hl
            obtain ⟨z, rfl⟩ : ∃ (z : Name), y = z ++ ['_'] :=
              List.getLast?_eq_some_iff.mp hl
            exact he ⟨'_' :: z, by simp⟩
      · exact absurd hs hp

theorem reserved_skipped {cls n : Name} (ho : ¬ Odd cls n) (h : Reserved cls n) :
    skipped n = true := by
  obtain ⟨k, hm, hk⟩ := h
  rw [skipped_iff]
  cases hm with
  | mangle hn he =>
    subst hn
    exact ⟨⟨_, rfl⟩, .inr ⟨_, rfl⟩⟩
  | plain hp =>
    rcases hk with ⟨⟨x, hx⟩, he⟩ | ⟨x, rfl, _⟩ | ⟨x, rfl, _⟩
    · refine ⟨prefix_iff.mpr ⟨cls ++ ['_', '_'] ++ x, by rw [hx.1]; simp⟩, .inl ?_⟩
      exact Decidable.byContradiction fun hs => ho (.inr (.inr ⟨⟨x, hx⟩, hs⟩))
    · exact ⟨prefix_iff.mpr ⟨x ++ ['_'], by simp⟩, .inl ⟨_, rfl⟩⟩
    · exact ⟨prefix_iff.mpr ⟨'_' :: (x ++ ['_', '_']), by simp⟩,
        .inr (prefix_iff.mpr ⟨x ++ ['_', '_'], by simp⟩)⟩

theorem odd_disagrees {cls n : Name} (hcls : cls.head? ≠ some '_') (hne : cls ≠ [])
    (ho : Odd cls n) : (skipped n = true ∧ ¬ Reserved cls n) ∨ (skipped n = false ∧ Reserved cls n) := by
  rcases ho with rfl | ⟨hu, he, hd⟩ | ⟨⟨x, rfl, hx⟩, hs⟩
  · refine .inl ⟨rfl, ?_⟩
    rintro ⟨k, hm, hk⟩
    cases hm with
    | mangle hn => simp at hn
    | plain hp =>
      rcases hk with ⟨⟨x, hx, _⟩, _⟩ | ⟨x, hx, hne, _⟩ | ⟨x, hx, _⟩
      · have := congrArg List.length hx; simp at this
      · have := congrArg List.length hx
        simp at this
      · have := congrArg List.length hx; simp at this
  · refine .inl ⟨skipped_iff.mpr ⟨hu, .inl ?_⟩, ?_⟩
    · obtain ⟨y, rfl⟩ := he
      exact ⟨y ++ ['_'], by simp⟩
    · rintro ⟨k, hm, hk⟩
      cases hm with
      | mangle hn h => exact h he
      | plain hp =>
        rcases hk with ⟨_, h⟩ | h | h
        · exact h he
        · exact sunder_not_ends h he
        · exact hd h
  · have hp : ¬ ['_', '_'] <+: ['_'] ++ cls ++ ['_', '_'] ++ x := by
      rintro ⟨y, hy⟩
      cases cls with
      | nil => exact hne rfl
      | cons c cs =>
        simp at hy
        exact hcls (by simp [← hy.1])
    refine .inr ⟨?_, _, .plain fun ⟨y, hy⟩ => absurd ⟨y, hy.symm⟩ hp, .inl ⟨⟨x, rfl, hx⟩, ?_⟩⟩
    · rw [Bool.eq_false_iff]
      intro h
      rcases (skipped_iff.mp h).2 with h | h
      · exact hs h
      · exact hp h
    · rintro ⟨y, hy⟩
      exact hs ⟨y ++ ['_'], by rw [hy]; simp⟩

/-! ## Decorators -/

theorem decorate_member {decs : List Dec} {id : Nat} {o : Obj}
    (h : Decorate decs (.descriptor id) o) :
    if decorated .member decs then ∃ (o' : Obj), o = .member o'
    else (∃ (o' : Obj), o = .nonmember o') ∨ ∃ (id' : Nat), o = .descriptor id' := by
  generalize hb : Obj.descriptor id = b at h
  induction h with
  | nil => subst hb; exact .inr ⟨_, rfl⟩
  | @cons d ds o o' r h hr ih =>
    cases d with
    | member => exact ⟨_, hr⟩
    | nonmember => exact .inl ⟨_, hr⟩
    | cls => exact .inr hr
    | func =>
      have hr : r = o' := hr
      subst hr
      exact ih hb

theorem decorate_nonmember {decs : List Dec} {id : Nat} {o : Obj}
    (h : Decorate decs (.cls id) o) :
    decorated .nonmember decs = true ↔ ∃ (o' : Obj), o = .nonmember o' := by
  generalize hb : Obj.cls id = b at h
  induction h with
  | nil => subst hb; simp [decorated]
  | @cons d ds o o' r h hr ih =>
    cases d with
    | member =>
      have hr : r = .member o' := hr
      subst hr; simp [decorated]
    | nonmember =>
      have hr : r = .nonmember o' := hr
      subst hr; simp [decorated]
    | cls =>
      obtain ⟨_, rfl⟩ := hr
      simp [decorated]
    | func =>
      have hr : r = o' := hr
      subst hr
      exact ih hb

/-! ## The loop of the code -/

theorem collect_append (minor : Nat) (as bs : List Entry) :
    collect minor (as ++ bs) =
      ⟨(collect minor as).members ++ (collect minor bs).members,
        (collect minor as).aliases ++ (collect minor bs).aliases⟩ := by
  induction as with
  | nil => rfl
  | cons a as ih =>
    simp only [List.cons_append, collect, ih]
    cases verdict minor a.stmt <;> rfl

/-- What the code collects of the definitions in the order of the text. -/
def seen (minor : Nat) (es : List Entry) : Enum :=
  collect minor (es.filter fun e => !skipped e.name)

theorem seen_snoc {minor : Nat} {es : List Entry} {e : Entry} :
    seen minor (es ++ [e]) =
      if skipped e.name then seen minor es
      else match verdict minor e.stmt with
        | .skip => seen minor es
        | .member => ⟨(seen minor es).members ++ [e.name], (seen minor es).aliases⟩
        | .alias n => ⟨(seen minor es).members, (seen minor es).aliases ++ [(e.name, n)]⟩ := by
  unfold seen
  rw [List.filter_append, collect_append]
  by_cases h : skipped e.name = true
  · simp [h, collect]
  · simp only [h, Bool.not_false, List.filter_cons, List.filter_nil, if_true,
      Bool.false_eq_true, if_false]
    simp only [collect]
    cases verdict minor e.stmt <;> simp

theorem seen_names {minor : Nat} {es : List Entry} :
    (∀ n ∈ (seen minor es).members, ∃ e ∈ es, e.name = n) ∧
    (∀ p ∈ (seen minor es).aliases, ∃ e ∈ es, e.name = p.1) := by
  unfold seen
  induction es with
  | nil => constructor <;> (intro _ h; cases h)
  | cons e es ih =>
    have up : ∀ {n : Name}, (∃ e' ∈ es, e'.name = n) → ∃ e' ∈ e :: es, e'.name = n :=
      fun ⟨e', h, h'⟩ => ⟨e', by simp [h], h'⟩
    rw [List.filter_cons]
    split
    · simp only [collect]
      cases verdict minor e.stmt with
      | skip => exact ⟨fun n h => up (ih.1 n h), fun n h => up (ih.2 n h)⟩
      | member =>
        refine ⟨fun n h => ?_, fun n h => up (ih.2 n h)⟩
        rcases List.mem_cons.mp h with rfl | h
        · exact ⟨e, by simp, rfl⟩
        · exact up (ih.1 n h)
      | alias m =>
        refine ⟨fun n h => up (ih.1 n h), fun n h => ?_⟩
        rcases List.mem_cons.mp h with rfl | h
        · exact ⟨e, by simp, rfl⟩
        · exact up (ih.2 n h)
    · exact ⟨fun n h => up (ih.1 n h), fun n h => up (ih.2 n h)⟩

/-! ## Both together -/

/-- What holds after each definition. -/
structure Inv (minor : Nat) (es : List Entry) (d : Dict) : Prop where
  noIgnore : d.ignore = []
  names : ∀ p ∈ d.items, ∃ e ∈ es, e.name = p.1
  memberNames : ∀ n ∈ d.memberNames, ∃ e ∈ es, e.name = n
  bound : ∀ n ∈ d.memberNames, d.get n ≠ none
  canonical : Canonical d d.memberNames (seen minor es).members
  found : ∀ n ∈ d.memberNames, ∃ c ∈ (seen minor es).members, d.get c = d.get n ∧
    (c = n ∨ (n, c) ∈ (seen minor es).aliases)
  alias : ∀ p ∈ (seen minor es).aliases,
    (p.1 ∈ d.memberNames ∧ p.2 ∈ (seen minor es).members ∧ d.get p.2 = d.get p.1) ∨
    (p.2 ∉ (seen minor es).members ∧ ∃ e ∈ es, e.name = p.2)
  once : ∀ p ∈ (seen minor es).aliases, ∀ q ∈ (seen minor es).aliases, p.1 = q.1 → p = q
  direct : ∀ e ∈ es, e.name ∈ d.memberNames → ¬ IsRef e.stmt → e.name ∈ (seen minor es).members

theorem canonical_sub {d : Dict} {ns cs : List Name} (h : Canonical d ns cs) : ∀ c ∈ cs, c ∈ ns := by
  induction h with
  | nil => intro _ h; cases h
  | new _ _ ih =>
    intro c hc
    rcases List.mem_append.mp hc with hc | hc
    · exact List.mem_append.mpr (.inl (ih c hc))
    · exact List.mem_append.mpr (.inr hc)
  | alias _ _ _ ih => exact fun c hc => List.mem_append.mpr (.inl (ih c hc))

theorem canonical_congr {d d' : Dict} {ns cs : List Name} (h : Canonical d ns cs)
    (hd : ∀ n ∈ ns, d'.get n = d.get n) : Canonical d' ns cs := by
  induction h with
  | nil => exact .nil
  | @new ns cs n h hne ih =>
    refine .new (ih fun n hn => hd n (by simp [hn])) fun c hc => ?_
    rw [hd c (by simp [canonical_sub h c hc]), hd n (by simp)]
    exact hne c hc
  | @alias ns cs n c h hc he ih =>
    refine .alias (ih fun n hn => hd n (by simp [hn])) hc ?_
    rw [hd c (by simp [canonical_sub h c hc]), hd n (by simp)]
    exact he

theorem canonical_inj {d : Dict} {ns cs : List Name} (h : Canonical d ns cs) :
    ∀ (i j : Nat) (a b : Name), cs[i]? = some a → cs[j]? = some b → d.get a = d.get b → i = j := by
  induction h with
  | nil => intro i j a b h; simp at h
  | @new ns cs n _ hne ih =>
    intro i j a b hi hj hab
    rw [List.getElem?_append] at hi hj
    split at hi <;> split at hj
    · exact ih i j a b hi hj hab
    · have hb : n = b := by
        have := List.mem_of_getElem? hj
        exact (by simpa using this : b = n).symm
      subst hb
      exact absurd hab (hne a (List.mem_of_getElem? hi))
    · have ha : n = a := by
        have := List.mem_of_getElem? hi
        exact (by simpa using this : a = n).symm
      subst ha
      exact absurd hab.symm (hne b (List.mem_of_getElem? hj))
    · have h1 := (List.getElem?_eq_some_iff.mp hi).1
      have h2 := (List.getElem?_eq_some_iff.mp hj).1
      simp at h1 h2
      omega
  | alias _ _ _ ih => exact ih

theorem get_cons {d : Dict} {n m : Name} {o : Obj} {ms ig : List Name} (h : m ≠ n) :
    Dict.get ⟨(n, o) :: d.items, ms, ig⟩ m = d.get m := by
  simp only [Dict.get, List.lookup_cons]
  have : (m == n) = false := by simpa using h
  rw [this]

theorem get_self {d : Dict} {n : Name} {o : Obj} {ms ig : List Name} :
    Dict.get ⟨(n, o) :: d.items, ms, ig⟩ n = some o := by
  simp [Dict.get]

theorem get_none {d : Dict} {es : List Entry} {n : Name} (hn : ∀ p ∈ d.items, ∃ e ∈ es, e.name = p.1)
    (hf : ∀ e ∈ es, e.name ≠ n) : d.get n = none := by
  unfold Dict.get
  rw [List.lookup_eq_none_iff]
  intro p hp
  obtain ⟨e, he, h⟩ := hn p hp
  have := hf e he
  rw [h] at this
  simpa using fun h => this h.symm

theorem once_snoc {minor : Nat} {es : List Entry} {e : Entry} {t : Name}
    (h : ∀ p ∈ (seen minor es).aliases, ∀ q ∈ (seen minor es).aliases, p.1 = q.1 → p = q)
    (hf : ∀ e' ∈ es, e'.name ≠ e.name) :
    ∀ p ∈ (seen minor es).aliases ++ [(e.name, t)],
      ∀ q ∈ (seen minor es).aliases ++ [(e.name, t)], p.1 = q.1 → p = q := by
  have hno : ∀ p ∈ (seen minor es).aliases, p.1 ≠ e.name := by
    intro p hp
    obtain ⟨e', he', hn⟩ := seen_names.2 p hp
    rw [← hn]; exact hf e' he'
  intro p hp q hq hpq
  rcases List.mem_append.mp hp with hp | hp <;> rcases List.mem_append.mp hq with hq | hq
  · exact h p hp q hq hpq
  · have hq : q = (e.name, t) := by simpa using hq
    subst hq
    exact absurd hpq (hno p hp)
  · have hp : p = (e.name, t) := by simpa using hp
    subst hp
    exact absurd hpq.symm (hno q hq)
  · have hp : p = (e.name, t) := by simpa using hp
    have hq : q = (e.name, t) := by simpa using hq
    rw [hp, hq]

/-- The definition is no member for the code and for Python. -/
theorem inv_skip {minor : Nat} {es : List Entry} {d : Dict} {e : Entry} {o : Obj}
    (inv : Inv minor es d) (hf : ∀ e' ∈ es, e'.name ≠ e.name)
    (hs : seen minor (es ++ [e]) = seen minor es) :
    Inv minor (es ++ [e]) { d with items := (e.name, o) :: d.items } := by
  have hget : ∀ (n : Name), (∃ e' ∈ es, e'.name = n) →
      Dict.get { d with items := (e.name, o) :: d.items } n = d.get n := by
    rintro n ⟨e', he', rfl⟩
    exact get_cons (hf e' he')
  have up : ∀ {n : Name}, (∃ e' ∈ es, e'.name = n) → ∃ e' ∈ es ++ [e], e'.name = n :=
    fun ⟨e', h, h'⟩ => ⟨e', by simp [h], h'⟩
  have hm := fun n hn => hget n (inv.memberNames n hn)
  refine ⟨inv.noIgnore, ?_, fun n hn => up (inv.memberNames n hn), ?_, ?_, ?_, ?_, ?_, ?_⟩
  · intro p hp
    rcases List.mem_cons.mp hp with rfl | hp
    · exact ⟨e, by simp, rfl⟩
    · exact up (inv.names p hp)
  · intro n hn
    rw [hm n hn]; exact inv.bound n hn
  · rw [hs]; exact canonical_congr inv.canonical hm
  · intro n hn
    obtain ⟨c, hc, hcn, h⟩ := inv.found n hn
    refine ⟨c, by rw [hs]; exact hc, ?_, by rw [hs]; exact h⟩
    rw [hget c (seen_names.1 c hc), hm n hn]; exact hcn
  · rw [hs]
    intro p hp
    rcases inv.alias p hp with ⟨h1, h2, h3⟩ | ⟨h1, h2⟩
    · refine .inl ⟨h1, h2, ?_⟩
      rw [hget _ (seen_names.1 _ h2), hm _ h1]; exact h3
    · exact .inr ⟨h1, up h2⟩
  · rw [hs]; exact inv.once
  · intro e' he' hn hr
    rw [hs]
    rcases List.mem_append.mp he' with he' | he'
    · exact inv.direct e' he' hn hr
    · have he' : e' = e := by simpa using he'
      subst he'
      obtain ⟨e'', he'', h⟩ := inv.memberNames _ hn
      exact absurd h (hf e'' he'')

/-- A new member. -/
theorem inv_member {minor : Nat} {es : List Entry} {d : Dict} {e : Entry} {o : Obj}
    (inv : Inv minor es d) (hf : ∀ e' ∈ es, e'.name ≠ e.name)
    (hs : seen minor (es ++ [e]) = ⟨(seen minor es).members ++ [e.name], (seen minor es).aliases⟩)
    (hd : ∀ m ∈ d.memberNames, d.get m ≠ some o) :
    Inv minor (es ++ [e]) { d with items := (e.name, o) :: d.items,
                                   memberNames := d.memberNames ++ [e.name] } := by
  have hget : ∀ (n : Name), (∃ e' ∈ es, e'.name = n) →
      Dict.get { d with items := (e.name, o) :: d.items,
                        memberNames := d.memberNames ++ [e.name] } n = d.get n := by
    rintro n ⟨e', he', rfl⟩
    exact get_cons (hf e' he')
  have up : ∀ {n : Name}, (∃ e' ∈ es, e'.name = n) → ∃ e' ∈ es ++ [e], e'.name = n :=
    fun ⟨e', h, h'⟩ => ⟨e', by simp [h], h'⟩
  have hm := fun n hn => hget n (inv.memberNames n hn)
  refine ⟨inv.noIgnore, ?_, ?_, ?_, ?_, ?_, ?_, ?_, ?_⟩
  · intro p hp
    rcases List.mem_cons.mp hp with rfl | hp
    · exact ⟨e, by simp, rfl⟩
    · exact up (inv.names p hp)
  · intro n hn
    rcases List.mem_append.mp hn with hn | hn
    · exact up (inv.memberNames n hn)
    · have hn : n = e.name := by simpa using hn
      exact ⟨e, by simp, hn.symm⟩
  · intro n hn
    rcases List.mem_append.mp hn with hn | hn
    · rw [hm n hn]; exact inv.bound n hn
    · have hn : n = e.name := by simpa using hn
      subst hn
      rw [get_self]; simp
  · rw [hs]
    refine .new (canonical_congr inv.canonical hm) fun c hc => ?_
    have hc' := canonical_sub inv.canonical c hc
    rw [hm c hc', get_self]
    exact hd c hc'
  · intro n hn
    rw [hs]
    rcases List.mem_append.mp hn with hn | hn
    · obtain ⟨c, hc, hcn, h⟩ := inv.found n hn
      refine ⟨c, List.mem_append.mpr (.inl hc), ?_, h⟩
      rw [hget c (seen_names.1 c hc), hm n hn]; exact hcn
    · have hn : n = e.name := by simpa using hn
      subst hn
      exact ⟨_, List.mem_append.mpr (.inr (by simp)), rfl, .inl rfl⟩
  · rw [hs]
    intro p hp
    rcases inv.alias p hp with ⟨h1, h2, h3⟩ | ⟨h1, h2⟩
    · refine .inl ⟨List.mem_append.mpr (.inl h1), List.mem_append.mpr (.inl h2), ?_⟩
      rw [hget _ (seen_names.1 _ h2), hm _ h1]; exact h3
    · refine .inr ⟨?_, up h2⟩
      intro h
      rcases List.mem_append.mp h with h | h
      · exact h1 h
      · obtain ⟨e', he', hn⟩ := h2
        have h : p.2 = e.name := by simpa using h
        exact hf e' he' (hn.trans h)
  · rw [hs]; exact inv.once
  · intro e' he' hn hr
    rw [hs]
    rcases List.mem_append.mp he' with he' | he'
    · rcases List.mem_append.mp hn with hn | hn
      · exact List.mem_append.mpr (.inl (inv.direct e' he' hn hr))
      · exact absurd (by simpa using hn) (hf e' he')
    · have he' : e' = e := by simpa using he'
      subst he'
      exact List.mem_append.mpr (.inr (by simp))

/-- An alias of a member. -/
theorem inv_alias {minor : Nat} {es : List Entry} {d : Dict} {e : Entry} {o : Obj} {t : Name}
    (inv : Inv minor es d) (hf : ∀ e' ∈ es, e'.name ≠ e.name)
    (hs : seen minor (es ++ [e]) = ⟨(seen minor es).members, (seen minor es).aliases ++ [(e.name, t)]⟩)
    (hr : IsRef e.stmt) (ht : t ∈ (seen minor es).members) (ho : d.get t = some o) :
    Inv minor (es ++ [e]) { d with items := (e.name, o) :: d.items,
                                   memberNames := d.memberNames ++ [e.name] } := by
  have hget : ∀ (n : Name), (∃ e' ∈ es, e'.name = n) →
      Dict.get { d with items := (e.name, o) :: d.items,
                        memberNames := d.memberNames ++ [e.name] } n = d.get n := by
    rintro n ⟨e', he', rfl⟩
    exact get_cons (hf e' he')
  have up : ∀ {n : Name}, (∃ e' ∈ es, e'.name = n) → ∃ e' ∈ es ++ [e], e'.name = n :=
    fun ⟨e', h, h'⟩ => ⟨e', by simp [h], h'⟩
  have hm := fun n hn => hget n (inv.memberNames n hn)
  have htt := hget t (seen_names.1 t ht)
  refine ⟨inv.noIgnore, ?_, ?_, ?_, ?_, ?_, ?_, ?_, ?_⟩
  · intro p hp
    rcases List.mem_cons.mp hp with rfl | hp
    · exact ⟨e, by simp, rfl⟩
    · exact up (inv.names p hp)
  · intro n hn
    rcases List.mem_append.mp hn with hn | hn
    · exact up (inv.memberNames n hn)
    · have hn : n = e.name := by simpa using hn
      exact ⟨e, by simp, hn.symm⟩
  · intro n hn
    rcases List.mem_append.mp hn with hn | hn
    · rw [hm n hn]; exact inv.bound n hn
    · have hn : n = e.name := by simpa using hn
      subst hn
      rw [get_self]; simp
  · rw [hs]
    refine .alias (canonical_congr inv.canonical hm) ht ?_
    rw [htt, get_self, ho]
  · intro n hn
    rw [hs]
    rcases List.mem_append.mp hn with hn | hn
    · obtain ⟨c, hc, hcn, h⟩ := inv.found n hn
      refine ⟨c, hc, ?_, h.imp id fun h => List.mem_append.mpr (.inl h)⟩
      rw [hget c (seen_names.1 c hc), hm n hn]; exact hcn
    · have hn : n = e.name := by simpa using hn
      subst hn
      refine ⟨t, ht, ?_, .inr (List.mem_append.mpr (.inr (by simp)))⟩
      rw [htt, get_self, ho]
  · rw [hs]
    intro p hp
    rcases List.mem_append.mp hp with hp | hp
    · rcases inv.alias p hp with ⟨h1, h2, h3⟩ | ⟨h1, h2⟩
      · refine .inl ⟨List.mem_append.mpr (.inl h1), h2, ?_⟩
        rw [hget _ (seen_names.1 _ h2), hm _ h1]; exact h3
      · exact .inr ⟨h1, up h2⟩
    · have hp : p = (e.name, t) := by simpa using hp
      subst hp
      refine .inl ⟨List.mem_append.mpr (.inr (by simp)), ht, ?_⟩
      rw [htt, get_self, ho]
  · rw [hs]
    exact once_snoc inv.once hf
  · intro e' he' hn hr'
    rw [hs]
    rcases List.mem_append.mp he' with he' | he'
    · rcases List.mem_append.mp hn with hn | hn
      · exact inv.direct e' he' hn hr'
      · exact absurd (by simpa using hn) (hf e' he')
    · have he' : e' = e := by simpa using he'
      subst he'
      exact absurd hr hr'

/-- An alias of something that is not a member. -/
theorem inv_dead {minor : Nat} {es : List Entry} {d : Dict} {e : Entry} {o : Obj} {t : Name}
    (inv : Inv minor es d) (hf : ∀ e' ∈ es, e'.name ≠ e.name)
    (hs : seen minor (es ++ [e]) = ⟨(seen minor es).members, (seen minor es).aliases ++ [(e.name, t)]⟩)
    (ht : t ∉ d.memberNames) (hb : ∃ e' ∈ es, e'.name = t) :
    Inv minor (es ++ [e]) { d with items := (e.name, o) :: d.items } := by
  have hget : ∀ (n : Name), (∃ e' ∈ es, e'.name = n) →
      Dict.get { d with items := (e.name, o) :: d.items } n = d.get n := by
    rintro n ⟨e', he', rfl⟩
    exact get_cons (hf e' he')
  have up : ∀ {n : Name}, (∃ e' ∈ es, e'.name = n) → ∃ e' ∈ es ++ [e], e'.name = n :=
    fun ⟨e', h, h'⟩ => ⟨e', by simp [h], h'⟩
  have hm := fun n hn => hget n (inv.memberNames n hn)
  refine ⟨inv.noIgnore, ?_, fun n hn => up (inv.memberNames n hn), ?_, ?_, ?_, ?_, ?_, ?_⟩
  · intro p hp
    rcases List.mem_cons.mp hp with rfl | hp
    · exact ⟨e, by simp, rfl⟩
    · exact up (inv.names p hp)
  · intro n hn
    rw [hm n hn]; exact inv.bound n hn
  · rw [hs]; exact canonical_congr inv.canonical hm
  · intro n hn
    obtain ⟨c, hc, hcn, h⟩ := inv.found n hn
    refine ⟨c, by rw [hs]; exact hc, ?_, by
      rw [hs]; exact h.imp id fun h => List.mem_append.mpr (.inl h)⟩
    rw [hget c (seen_names.1 c hc), hm n hn]; exact hcn
  · rw [hs]
    intro p hp
    rcases List.mem_append.mp hp with hp | hp
    · rcases inv.alias p hp with ⟨h1, h2, h3⟩ | ⟨h1, h2⟩
      · refine .inl ⟨h1, h2, ?_⟩
        rw [hget _ (seen_names.1 _ h2), hm _ h1]; exact h3
      · exact .inr ⟨h1, up h2⟩
    · have hp : p = (e.name, t) := by simpa using hp
      subst hp
      exact .inr ⟨fun h => ht (canonical_sub inv.canonical _ h), up hb⟩
  · rw [hs]
    exact once_snoc inv.once hf
  · intro e' he' hn hr
    rw [hs]
    rcases List.mem_append.mp he' with he' | he'
    · exact inv.direct e' he' hn hr
    · have he' : e' = e := by simpa using he'
      subst he'
      obtain ⟨e'', he'', h⟩ := inv.memberNames _ hn
      exact absurd h (hf e'' he'')

/-- What Python does with a definition whose name is not reserved: it becomes a member, or it does
not. -/
theorem setItem_cases {minor : Nat} {reserved : Name → Prop} {d d' : Dict} {n : Name} {o : Obj}
    (h : SetItem minor reserved d n o d') (hr : ¬ reserved n) (hi : n ≠ "_ignore_".toList)
    (hig : d.ignore = []) :
    (IsMemberValue minor o → d' = { d with items := (n, unwrapMember o) :: d.items,
                                           memberNames := d.memberNames ++ [n] }) ∧
    (¬ IsMemberValue minor o → ∃ (o' : Obj), d' = { d with items := (n, o') :: d.items }) := by
  cases h with
  | ignore => exact absurd rfl hi
  | reserved h => exact absurd h hr
  | ignored _ _ h => rw [hig] at h; cases h
  | nonmember => exact ⟨fun h => h.elim, fun _ => ⟨_, rfl⟩⟩
  | other _ _ _ _ h => exact ⟨fun h' => absurd h' h, fun _ => ⟨_, rfl⟩⟩
  | member _ _ _ h => exact ⟨fun _ => rfl, fun h' => absurd h h'⟩

theorem setItem_reserved {minor : Nat} {reserved : Name → Prop} {d d' : Dict} {n : Name} {o : Obj}
    (h : SetItem minor reserved d n o d') (hr : reserved n) (hi : n ≠ "_ignore_".toList) :
    d' = { d with items := (n, o) :: d.items } := by
  cases h with
  | ignore => exact absurd rfl hi
  | reserved => rfl
  | ignored h => exact absurd hr h
  | nonmember h => exact absurd hr h
  | other h => exact absurd hr h
  | member h => exact absurd hr h

theorem runs_inv {minor : Nat} (h11 : 11 ≤ minor) {cls : Name} (hcls : cls.head? ≠ some '_')
    {es : List Entry} {d : Dict}
    (h : Runs minor (Reserved cls) (Supported minor cls) es d) : Inv minor es d := by
  induction h with
  | nil =>
    refine ⟨rfl, ?_, ?_, ?_, .nil, ?_, ?_, ?_, ?_⟩ <;> intro _ h <;> cases h
  | @annotation es d e _ hst hf ih =>
    have hs : seen minor (es ++ [e]) = seen minor es := by
      rw [seen_snoc, hst]; simp [verdict, assignment]
    have up : ∀ {n : Name}, (∃ e' ∈ es, e'.name = n) → ∃ e' ∈ es ++ [e], e'.name = n :=
      fun ⟨e', h, h'⟩ => ⟨e', by simp [h], h'⟩
    refine ⟨ih.noIgnore, fun p hp => up (ih.names p hp), fun n hn => up (ih.memberNames n hn),
      ih.bound, by rw [hs]; exact ih.canonical, by rw [hs]; exact ih.found, ?_,
      by rw [hs]; exact ih.once, ?_⟩
    · rw [hs]
      intro p hp
      exact (ih.alias p hp).imp id fun h => ⟨h.1, up h.2⟩
    · rw [hs]
      intro e' he' hn hr
      rcases List.mem_append.mp he' with he' | he'
      · exact ih.direct e' he' hn hr
      · have he' : e' = e := by simpa using he'
        subst he'
        obtain ⟨e'', he'', h⟩ := ih.memberNames _ hn
        exact absurd h (hf e'' he'')
  | @step es d d' e o _ hb hf hsup hset ih =>
    by_cases hk : skipped e.name = true
    · have := setItem_reserved hset (skipped_reserved hcls hsup.name hk) hsup.noIgnore
      subst this
      exact inv_skip ih hf (by rw [seen_snoc, if_pos hk])
    · have hset := setItem_cases hset (fun h => hk (reserved_skipped hsup.name h)) hsup.noIgnore
        ih.noIgnore
      have hsn := @seen_snoc minor es e
      rw [if_neg hk] at hsn
      -- members of both
      have isMember : verdict minor e.stmt = .member → ¬ IsRef e.stmt → IsMemberValue minor o →
          Inv minor (es ++ [e]) d' := by
        intro hv hr hm
        have hset := hset.1 hm
        subst hset
        rw [hv] at hsn
        exact inv_member ih hf hsn (hsup.distinct hr)
      have isSkip : verdict minor e.stmt = .skip → ¬ IsMemberValue minor o →
          Inv minor (es ++ [e]) d' := by
        intro hv hm
        obtain ⟨o', rfl⟩ := hset.2 hm
        rw [hv] at hsn
        exact inv_skip ih hf hsn
      cases hst : e.stmt with
      | bind =>
        exact isMember (by rw [hst]; rfl) (by rw [hst]; rintro ⟨_, h⟩; cases h)
          (hsup.value (.inr (.inr (.inl hst))))
      | func decs =>
        rw [hst] at hb
        obtain ⟨id, hdec⟩ := hb
        have := decorate_member hdec
        by_cases hd : decorated .member decs = true
        · rw [if_pos hd] at this
          obtain ⟨o', rfl⟩ := this
          exact isMember (by rw [hst]; simp [verdict, h11, hd])
            (by rw [hst]; rintro ⟨_, h⟩; cases h) trivial
        · rw [if_neg hd] at this
          refine isSkip (by rw [hst]; simp [verdict, hd]) ?_
          rcases this with ⟨_, rfl⟩ | ⟨_, rfl⟩ <;> exact fun h => h
      | cls decs =>
        rw [hst] at hb
        obtain ⟨id, hdec⟩ := hb
        have := decorate_nonmember hdec
        by_cases hd : decorated .nonmember decs = true
        · obtain ⟨o', rfl⟩ := this.mp hd
          exact isSkip (by rw [hst]; simp [verdict, h11, hd]) fun h => h
        · refine isMember (by rw [hst]; simp [verdict, hd]) (by rw [hst]; rintro ⟨_, h⟩; cases h) ?_
          rcases hsup.nested ⟨decs, hst⟩ with h | h
          · exact absurd (this.mpr h) hd
          · exact h
      | assign rhs =>
        rw [hst] at hb
        have noRef : (∀ (n : Name), rhs ≠ some (.ref n true)) → ¬ IsRef e.stmt := by
          rw [hst]
          rintro h ⟨n, hn⟩
          injection hn with hn
          exact h n hn
        rcases rhs with _ | (_ | c | ⟨n, b⟩ | _)
        · cases hb
        · obtain ⟨id, rfl⟩ := hb
          exact isSkip (by rw [hst]; rfl) fun h => h
        · cases c with
          | nonmember =>
            obtain ⟨o', rfl⟩ := hb
            exact isSkip (by rw [hst]; simp [verdict, assignment, h11]) fun h => h
          | member =>
            obtain ⟨o', rfl⟩ := hb
            exact isMember (by rw [hst]; simp [verdict, assignment, h11])
              (noRef fun _ h => by cases h) trivial
          | classMethod =>
            obtain ⟨o', rfl⟩ := hb
            exact isSkip (by rw [hst]; simp [verdict, assignment, h11]) fun h => h
          | staticMethod =>
            obtain ⟨o', rfl⟩ := hb
            exact isSkip (by rw [hst]; simp [verdict, assignment, h11]) fun h => h
          | other =>
            exact isMember (by rw [hst]; simp [verdict, assignment])
              (noRef fun _ h => by cases h) (hsup.value (.inl hst))
        · cases b with
          | false =>
            exact isMember (by rw [hst]; rfl) (noRef fun _ h => by cases h)
              (hsup.value (.inr (.inr (.inr ⟨n, hst⟩))))
          | true =>
            have hb : d.get n = some o := hb
            have hv : verdict minor e.stmt = .alias n := by rw [hst]; rfl
            rw [hv] at hsn
            rcases hsup.ref n hst with ⟨hn, id, rfl⟩ | ⟨hn, ⟨e', he', rfl, hr⟩, hm, hnm⟩
            · obtain ⟨o', rfl⟩ := hset.2 fun h => h
              refine inv_dead ih hf hsn hn ?_
              refine Classical.byContradiction fun hno => ?_
              have := get_none (n := n) ih.names fun e' he' h => hno ⟨e', he', h⟩
              rw [this] at hb; cases hb
            · have hset := hset.1 hm
              have : unwrapMember o = o := by
                cases o with
                | member o' => exact absurd rfl (hnm o')
                | _ => rfl
              rw [this] at hset
              subst hset
              exact inv_alias ih hf hsn ⟨_, hst⟩ (ih.direct e' he' hn hr) hb
        · exact isMember (by rw [hst]; rfl) (noRef fun _ h => by cases h)
            (hsup.value (.inr (.inl hst)))

/-! ## Lookups -/

theorem lookup_some {e : Enum} {n : Name} {i : Nat} (h : e.lookup n = some i) :
    e.members[i]? = some n := by
  unfold Enum.lookup at h
  rw [List.findIdx?_eq_some_iff_getElem] at h
  obtain ⟨hi, hp, _⟩ := h
  have : e.members[i] = n := by simpa using hp
  rw [← this]
  exact List.getElem?_eq_getElem hi

theorem lookup_mem {e : Enum} {n : Name} (h : n ∈ e.members) : ∃ (i : Nat), e.lookup n = some i := by
  unfold Enum.lookup
  cases h' : e.members.findIdx? (· == n) with
  | some i => exact ⟨i, rfl⟩
  | none =>
    rw [List.findIdx?_eq_none_iff] at h'
    have := h' n h
    simp at this

theorem findSome_of {α : Type} {f : α → Option Nat} {l : List α} {i : Nat}
    (h : ∃ p ∈ l, f p = some i) (ha : ∀ p ∈ l, f p = none ∨ f p = some i) :
    l.findSome? f = some i := by
  induction l with
  | nil => obtain ⟨p, hp, _⟩ := h; cases hp
  | cons q l ih =>
    rw [List.findSome?_cons]
    rcases ha q (by simp) with hq | hq
    · rw [hq]
      refine ih ?_ fun p hp => ha p (by simp [hp])
      obtain ⟨p, hp, hpi⟩ := h
      rcases List.mem_cons.mp hp with rfl | hp
      · rw [hq] at hpi; cases hpi
      · exact ⟨p, hp, hpi⟩
    · rw [hq]

theorem find_iff {minor : Nat} {es : List Entry} {d : Dict} (inv : Inv minor es d) {n : Name}
    {i : Nat} : (seen minor es).find n = some i ↔ IsAttribute d (seen minor es).members n i := by
  have inj := canonical_inj inv.canonical
  constructor
  · intro h
    unfold Enum.find at h
    cases hl : (seen minor es).lookup n with
    | some j =>
      rw [hl] at h
      have h : some j = some i := h
      injection h with h
      subst h
      have := lookup_some hl
      exact ⟨canonical_sub inv.canonical n (List.mem_of_getElem? this), n, this, rfl⟩
    | none =>
      rw [hl, Option.none_or, List.findSome?_eq_some_iff] at h
      obtain ⟨as, p, bs, hp, hf, _⟩ := h
      obtain ⟨a, t⟩ := p
      simp only at hf
      split at hf
      · rename_i ha
        subst ha
        have ht := lookup_some hf
        rcases inv.alias (a, t) (by rw [hp]; simp) with ⟨h1, _, h3⟩ | ⟨h1, _⟩
        · exact ⟨h1, t, ht, h3⟩
        · exact absurd (List.mem_of_getElem? ht) h1
      · cases hf
  · rintro ⟨hn, c, hc, hcn⟩
    obtain ⟨c', hc', hcn', h⟩ := inv.found n hn
    obtain ⟨j, hj⟩ := lookup_mem hc'
    have : j = i := inj j i c' c (lookup_some hj) hc (by rw [hcn', hcn])
    subst this
    unfold Enum.find
    cases hl : (seen minor es).lookup n with
    | some k =>
      have : k = j := by
        refine inj k j n c' (lookup_some hl) (lookup_some hj) hcn'.symm
      subst this
      rfl
    | none =>
      rcases h with rfl | h
      · rw [hl] at hj; cases hj
      · rw [Option.none_or]
        refine findSome_of ⟨(n, c'), h, by simp [hj]⟩ ?_
        intro p hp
        obtain ⟨a, t⟩ := p
        simp only
        split
        · rename_i ha
          subst ha
          have := inv.once (a, t) hp (a, c') h rfl
          injection this with _ ht
          subst ht
          exact .inr hj
        · exact .inl rfl

/-! ## The order of the symbol table -/

theorem sort_table {minor : Nat} {table es : List Entry} (hp : table.Perm es)
    (hs : es.Pairwise fun a b => a.index < b.index) : enumMembers minor table = seen minor es := by
  unfold enumMembers seen
  congr 1
  have hsf : (es.filter fun e => !skipped e.name).Pairwise fun a b => a.index < b.index :=
    hs.sublist List.filter_sublist
  refine List.Perm.eq_of_pairwise (le := fun a b => a.index ≤ b.index) ?_ ?_ ?_ ?_
  · intro a b ha hb h1 h2
    have ha : a ∈ es.filter fun e => !skipped e.name :=
      (hp.filter _).mem_iff.mp (List.mem_mergeSort.mp ha)
    have h1 : a.index ≤ b.index := h1
    have h2 : b.index ≤ a.index := h2
    generalize (es.filter fun e => !skipped e.name) = l at hsf ha hb
    induction hsf with
    | nil => cases ha
    | @cons c l hc _ ih =>
      rcases List.mem_cons.mp ha with ha' | ha' <;> rcases List.mem_cons.mp hb with hb' | hb'
      · rw [ha', hb']
      · have := hc b hb'; rw [← ha'] at this; omega
      · have := hc a ha'; rw [← hb'] at this; omega
      · exact ih ha' hb'
  · have := List.pairwise_mergeSort (le := fun (a b : Entry) => decide (a.index ≤ b.index))
      (by intro a b c h1 h2; simp at *; omega) (by intro a b; simp; omega)
      (table.filter fun e => !skipped e.name)
    exact this.imp fun h => of_decide_eq_true h
  · exact hsf.imp fun h => Nat.le_of_lt h
  · exact (List.mergeSort_perm _ _).trans (hp.filter _)

/-! ## Texts with names -/

theorem split_append {n rest : List Char} (hn : ∀ c ∈ n, ¬ (c = ',' ∨ c = ' '))
    {p : List Char} {ps : List (List Char)} (h : split rest = p :: ps) :
    split (n ++ rest) = (n ++ p) :: ps := by
  induction n with
  | nil => exact h
  | cons c n ih =>
    have := ih fun d hd => hn d (by simp [hd])
    simp only [List.cons_append, split]
    rw [if_neg (hn c (by simp)), this]

theorem split_sep {c : Char} {cs : List Char} (h : c = ',' ∨ c = ' ') :
    split (c :: cs) = [] :: split cs := by
  simp only [split, if_pos h]

theorem split_cases (s : List Char) : ∃ (part rest : List Char),
    (∀ c ∈ part, ¬ (c = ',' ∨ c = ' ')) ∧ s = part ++ rest ∧
    ((rest = [] ∧ split s = [part]) ∨ ∃ (c : Char) (rest' : List Char), (c = ',' ∨ c = ' ') ∧
      rest = c :: rest' ∧ split s = part :: split rest') := by
  induction s with
  | nil => exact ⟨[], [], by simp, rfl, .inl ⟨rfl, rfl⟩⟩
  | cons c s ih =>
    by_cases hc : c = ',' ∨ c = ' '
    · exact ⟨[], c :: s, by simp, rfl, .inr ⟨c, s, hc, rfl, split_sep hc⟩⟩
    · obtain ⟨part, rest, hp, rfl, h⟩ := ih
      have hp' : ∀ d ∈ c :: part, ¬ (d = ',' ∨ d = ' ') := by
        intro d hd
        rcases List.mem_cons.mp hd with rfl | hd
        · exact hc
        · exact hp d hd
      refine ⟨c :: part, rest, hp', rfl, ?_⟩
      rcases h with ⟨hr, hs⟩ | ⟨d, rest', hd, hr, hs⟩
      · exact .inl ⟨hr, split_append (n := [c]) (by simpa using hc) hs⟩
      · exact .inr ⟨d, rest', hd, hr, split_append (n := [c]) (by simpa using hc) hs⟩

theorem bytes_append (a b : List Char) : bytes (a ++ b) = bytes a + bytes b := by
  simp [bytes]

theorem bytes_sep {c : Char} (h : c = ',' ∨ c = ' ') (cs : List Char) :
    bytes (c :: cs) = 1 + bytes cs := by
  rcases h with rfl | rfl <;> simp [bytes] <;> decide

theorem slices_split (m : Nat) : ∀ (s : List Char), s.length ≤ m → ∀ (k : Nat),
    ∀ p ∈ slices k (split s), p.2 ≠ [] ∧ (∀ c ∈ p.2, ¬ (c = ',' ∨ c = ' ')) ∧
      ∃ (before after : List Char), s = before ++ p.2 ++ after ∧ p.1 = k + bytes before := by
  induction m with
  | zero =>
    intro s hs k p hp
    have : s = [] := List.length_eq_zero_iff.mp (Nat.le_zero.mp hs)
    subst this
    simp [split, slices] at hp
  | succ m ih =>
    intro s hs k p hp
    obtain ⟨part, rest, hpart, rfl, h⟩ := split_cases s
    have step : ∀ (c : Char) (rest' : List Char), (c = ',' ∨ c = ' ') → rest = c :: rest' →
        p ∈ slices (k + bytes part + 1) (split rest') → p.2 ≠ [] ∧
          (∀ c ∈ p.2, ¬ (c = ',' ∨ c = ' ')) ∧ ∃ (before after : List Char),
          part ++ rest = before ++ p.2 ++ after ∧ p.1 = k + bytes before := by
      rintro c rest' hc rfl hp
      simp at hs
      obtain ⟨h1, h2, b, a, hb, hk⟩ := ih rest' (by omega) _ p hp
      refine ⟨h1, h2, part ++ c :: b, a, by rw [hb]; simp, ?_⟩
      rw [hk, bytes_append, bytes_sep hc]; omega
    rcases h with ⟨rfl, hsp⟩ | ⟨c, rest', hc, hr, hsp⟩
    · rw [hsp] at hp
      simp only [slices] at hp
      split at hp
      · cases hp
      · rename_i hne
        have hp : p = (k, part) := by simpa using hp
        subst hp
        exact ⟨hne, hpart, [], [], by simp, by simp [bytes]⟩
    · rw [hsp] at hp
      simp only [slices] at hp
      split at hp
      · rename_i he
        subst he
        exact step c rest' hc hr (by simpa [bytes] using hp)
      · rename_i hne
        rcases List.mem_cons.mp hp with rfl | hp
        · exact ⟨hne, hpart, [], rest, by simp, by simp [bytes]⟩
        · exact step c rest' hc hr hp

theorem slices_start (ps : List (List Char)) : ∀ (j k : Nat),
    (slices j ps).map (·.2) = (slices k ps).map (·.2) := by
  induction ps with
  | nil => intro _ _; rfl
  | cons p ps ih =>
    intro j k
    simp only [slices]
    split
    · exact ih _ _
    · simp only [List.map_cons]; rw [ih]

theorem split_python {space : Char → Prop} {s : List Char} {ns : List Name}
    (h : PySplit space s ns) (hs : ∀ c ∈ s, space c ↔ c = ' ') (k : Nat) :
    (slices k (split s)).map (·.2) = ns := by
  induction h generalizing k with
  | nil => rfl
  | @skip c cs ns hc _ ih =>
    have hc : c = ',' ∨ c = ' ' := by
      rcases hc with hc | hc
      · exact .inr ((hs c (by simp)).mp hc)
      · exact .inl hc
    rw [split_sep hc]
    simp only [slices]
    exact ih (fun d hd => hs d (by simp [hd])) _
  | @name n rest ns hne hn hr h ih =>
    have hn' : ∀ c ∈ n, ¬ (c = ',' ∨ c = ' ') := by
      rintro c hc (h | h)
      · exact (hn c hc).2 h
      · exact (hn c hc).1 ((hs c (by simp [hc])).mpr h)
    have ih := ih fun c hc => hs c (by simp [hc])
    cases rest with
    | nil =>
      rw [split_append hn' (p := []) (ps := []) rfl]
      have : [] = ns := ih 0
      simp [slices, hne, ← this]
    | cons c cs =>
      have hc : c = ',' ∨ c = ' ' := by
        rcases hr c rfl with h | h
        · exact .inr ((hs c (by simp)).mp h)
        · exact .inl h
      have hsp := split_sep (cs := cs) hc
      rw [split_append hn' hsp]
      have ih := ih 0
      rw [hsp] at ih
      simp only [slices, if_true] at ih
      simp only [List.append_nil, slices, if_neg hne, List.map_cons]
      rw [slices_start _ _ (0 + 1), ih]

theorem addMembers_spec (ns : List Name) : ∀ (ms : List Name), ms.Nodup →
    (addMembers ms ns).1.Nodup ∧ (∀ (n : Name), n ∈ (addMembers ms ns).1 ↔ n ∈ ms ∨ n ∈ ns) ∧
    ((addMembers ms ns).2 = [] ↔ (ms ++ ns).Nodup) ∧
    ((addMembers ms ns).2 = [] → (addMembers ms ns).1 = ms ++ ns) := by
  induction ns with
  | nil => intro ms h; simp [addMembers, h]
  | cons n ns ih =>
    intro ms h
    simp only [addMembers]
    by_cases hn : n ∈ ms
    · rw [if_pos hn]
      obtain ⟨h1, h2, _, _⟩ := ih ms h
      refine ⟨h1, ?_, ?_, ?_⟩
      · intro m
        rw [h2]
        constructor
        · rintro (h | h)
          · exact .inl h
          · exact .inr (by simp [h])
        · rintro (h | h)
          · exact .inl h
          · rcases List.mem_cons.mp h with rfl | h
            · exact .inl hn
            · exact .inr h
      · constructor
        · intro h; cases h
        · intro h
          rw [List.nodup_append] at h
          exact absurd rfl (h.2.2 n hn n (by simp))
      · intro h; cases h
    · rw [if_neg hn]
      have hnd : (ms ++ [n]).Nodup := by
        rw [List.nodup_append]
        refine ⟨h, by simp, ?_⟩
        intro a ha b hb hab
        have : b = n := by simpa using hb
        subst this; subst hab
        exact hn ha
      obtain ⟨h1, h2, h3, h4⟩ := ih _ hnd
      refine ⟨h1, ?_, ?_, ?_⟩
      · intro m; rw [h2]; simp [or_assoc]
      · rw [h3]; simp
      · intro h; rw [h4 h]; simp

end Verif.Enums
