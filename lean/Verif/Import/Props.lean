import Verif.Import.Named
import Verif.Import.Stubs

/-!
# Imports of dotted names: what is proved
-/

namespace Verif.Import

variable {w : World}

/-! ## Python (C180) -/

/-- Without stubs, what Python finds is found.

Missing: entries that are named like stubs. -/
theorem python_found_partial (hs : NoStubs w) (hsite : ∀ r, w.site r = true → w.follow = true) {ns : List Name}
    {m : Module} (f : Loc) (h : Imports w ns m) : dotted w f none ns = .got (some m.result) :=
  h.dotted hs hsite f

theorem python_only_partial (hs : NoStubs w) (hsite : ∀ r, w.site r = true → w.follow = true)
    (ht : ∀ r ∈ w.roots, w.typeshed r = false) (he : w.explicit = true) (hb : ∀ n, w.binary n = false) (f : Loc) :
    ∀ (ns : List Name), ns ≠ [] → (∀ n ∈ ns, Ordinary n) → ∀ r, dotted w f none ns = .got (some r) →
      ∃ m, Imports w ns m ∧ r = m.result := by
  refine snoc_induct ?_ ?_
  · intro n hord r h
    simp only [dotted, follow, List.foldl_nil] at h
    injection h with h
    unfold globalOrBinary at h
    rw [global_noStubs hs, he, hb, roots_eq] at h
    simp only [if_true, Option.or_none, Bool.false_eq_true, if_false] at h
    rcases finds_total (w := w) (w.roots.map fun r => (⟨r, []⟩ : Loc)) n with ⟨m, hm⟩ | hn
    · rw [Finds.search hs _ (fun d _ hd => hsite _ hd) hm] at h
      exact ⟨m, .first hm, by injection h with h; exact h.symm⟩
    · rw [search_none hs _ hn] at h; cases h
  · intro ns n hne ih hord r h
    obtain ⟨r0, h1, h2⟩ := dotted_last hne h
    have hord' : ∀ n ∈ ns, Ordinary n := fun n hn => hord n (by simp [hn])
    obtain ⟨m0, hm0, rfl⟩ := ih hord' r0 h1
    cases m0 with
    | module p =>
      exfalso
      have hp : ∃ (d : Loc) (k : Name), Ordinary k ∧ p = d.sub (.py k) := by
        generalize hk : Module.module p = m0 at hm0
        have key : ∀ {ds : List Loc} {k : Name}, Finds w ds k m0 → Ordinary k →
            ∃ (d : Loc) (k : Name), Ordinary k ∧ p = d.sub (.py k) := by
          intro ds k hf ho
          subst hk
          cases hf with
          | module => exact ⟨_, _, ho, rfl⟩
        cases hm0 with
        | first hf => exact key hf (hord' _ (by simp))
        | package _ hf => exact key hf (hord' _ (by simp))
        | portions _ hf => exact key hf (hord' _ (by simp))
      obtain ⟨d, k, ⟨s, rfl, hs'⟩, rfl⟩ := hp
      injection h2 with h2
      obtain ⟨⟨e, he', heq⟩, _⟩ := subModule_cases h2
      rw [parent_sub] at heq
      have hee : Entry.py (.plain s) = e := by
        have := congrArg Loc.path heq
        simpa [sub_path] using this
      subst hee
      rcases he' with h | h
      · injection h with h
        injection h with h
        exact hs' h
      · cases h
    | package d =>
      have h3 : subModule w (d.sub (.py initName)) n = some r := by injection h2
      rw [subModule_eq (.inl rfl) (hm0.nonroot.1 _ rfl)] at h3
      obtain ⟨m, hm, hr⟩ := pythonImport_finds hs h3
      exact ⟨m, .package hm0 hm, hr⟩
    | portions ds =>
      cases hp : pythonImport w ds n with
      | some r' =>
        obtain ⟨m, hm, hr⟩ := pythonImport_finds hs hp
        refine ⟨m, .portions hm0 hm, ?_⟩
        have h3 : namespaceImport w f ds n = .got (some r) := h2
        rw [namespace_finds hs hsite (hm0.nonroot.2 _ rfl) hm] at h3
        injection h3 with h3
        injection h3 with h3
        exact h3.symm
      | none =>
        exfalso
        have hu : unchecked w f ds n = .got none := by
          unfold unchecked
          rw [hp]
          refine firstNonStub_none fun d hd => ?_
          rw [hm0.path.2 _ rfl d hd]
          rcases hm0.nonStub hs ht f hord' n with h4 | h4
          · exact h4
          · rw [h4]
            show notItself f (.got (pythonImport w ds n)) = _
            rw [hp]; rfl
        have h3 : namespaceImport w f ds n = .got (some r) := h2
        rw [namespaceImport_other (by rw [hu]; nofun), hu] at h3
        cases h3

/-- Without stubs, exactly what Python finds is found, if the search path is complete.

Missing: entries that are named like stubs, and the name `__init__`. -/
theorem python_partial (hs : NoStubs w) (hsite : ∀ r, w.site r = true → w.follow = true)
    (ht : ∀ r ∈ w.roots, w.typeshed r = false) (he : w.explicit = true) (hb : ∀ n, w.binary n = false) (f : Loc)
    {ns : List Name} (hne : ns ≠ []) (hord : ∀ n ∈ ns, Ordinary n) (r : Result) :
    dotted w f none ns = .got (some r) ↔ ∃ m, Imports w ns m ∧ r = m.result := by
  constructor
  · exact python_only_partial hs hsite ht he hb f ns hne hord r
  · rintro ⟨m, hm, rfl⟩
    exact hm.dotted hs hsite f

/-! ## Names (C181) -/

/-- Whatever stubs there are, the file that is found has the name of the import.

Missing: the name `__init__`. -/
theorem named_partial {f : Loc} : ∀ (ns : List Name), ns ≠ [] → (∀ n ∈ ns, Ordinary n) → ∀ r,
    dotted w f none ns = .got (some r) →
      (∀ p, r = .file p ∨ r = .untyped p → IsModule ns p) ∧ ∀ ds, r = .portions ds → ∀ d ∈ ds, Ends ns d := by
  have main : ∀ (ns : List Name), ns ≠ [] → (∀ n ∈ ns, Ordinary n) → ∀ r,
      dotted w f none ns = .got (some r) → NamedOk ns r := by
    refine snoc_induct ?_ ?_
    · intro n hord r h
      simp only [dotted, follow, List.foldl_nil] at h
      injection h with h
      unfold globalOrBinary at h
      cases hg : globalImport w f n with
      | some r' =>
        rw [hg, Option.some_or] at h
        cases h
        exact globalImport_named hg
      | none =>
        rw [hg, Option.none_or] at h
        split at h
        · cases h; trivial
        · cases h
    · intro ns n hne ih hord r h
      obtain ⟨r0, h1, h2⟩ := dotted_last hne h
      have hord' : ∀ n ∈ ns, Ordinary n := fun n hn => hord n (by simp [hn])
      have h0 := ih hord' r0 h1
      rcases List.eq_nil_or_concat ns with rfl | ⟨L, k, rfl⟩
      · exact absurd rfl hne
      · rw [List.concat_eq_append] at *
        exact inferName_named hord' h0 h2
  intro ns hne hord r h
  have := main ns hne hord r h
  refine ⟨fun p hp => ?_, fun ds hds d hd => ?_⟩
  · rcases hp with rfl | rfl <;> exact this
  · subst hds; exact this d hd

/-! ## The marker `py.typed` (C182) -/

/-- A file of the installed packages is only used as typed if it is below a marker or in a directory
with stubs, or if untyped packages are followed.

Missing: single files that are named like stubs, imports from installed packages themselves. -/
theorem typed_partial {f : Loc} (hf : w.site f.root = false)
    (hst : ∀ r n, w.site r = true → w.kind ⟨r, [.py (.stubs n)]⟩ ≠ some .file ∧ w.kind ⟨r, [.pyi (.stubs n)]⟩ ≠ some .file) :
    ∀ (ns : List Name), ns ≠ [] → ∀ p, dotted w f none ns = .got (some (.file p)) → w.site p.root = true →
      w.follow = true ∨ Typed w p := by
  have main : ∀ (ns : List Name), ns ≠ [] → ∀ r, dotted w f none ns = .got (some r) → ∀ p, r = .file p →
      w.site p.root = true → w.follow = true ∨ Typed w p := by
    refine snoc_induct ?_ ?_
    · intro n r h p hp hsite
      subst hp
      simp only [dotted, follow, List.foldl_nil] at h
      injection h with h
      unfold globalOrBinary at h
      have hg : globalImport w f n = some (.file p) := by
        cases hg : globalImport w f n with
        | some r' => rw [hg, Option.some_or] at h; exact h
        | none =>
          rw [hg, Option.none_or] at h
          split at h <;> cases h
      unfold globalImport at hg
      cases h1 : pythonImport w (w.roots.map .ofRoot) (.stubs n) with
      | some r1 =>
        rw [h1, Option.some_or] at hg
        cases hg
        rcases pythonImport_cases h1 with ⟨d, hd, p', hf', he⟩ | ⟨ps, he, _⟩
        · cases he
          obtain ⟨r, _, rfl⟩ := List.mem_map.1 hd
          right
          cases hf' with
          | initPyi hk _ =>
            exact ⟨(Loc.ofRoot r).sub (.bare (.stubs n)), [.pyi initName], rfl, by simp [sub_path], by simp, rfl,
              .inr ⟨n, by simp [sub_path]⟩⟩
          | initPy hk _ =>
            exact ⟨(Loc.ofRoot r).sub (.bare (.stubs n)), [.py initName], rfl, by simp [sub_path], by simp, rfl,
              .inr ⟨n, by simp [sub_path]⟩⟩
          | pyi hk => exact absurd hk (hst r n hsite).2
          | py hk => exact absurd hk (hst r n hsite).1
        · cases he
      | none =>
        rw [h1, Option.none_or] at hg
        cases h2 : search w true n (w.roots.map fun r => (.ofRoot r, w.site r)) [] with
        | some r2 =>
          rw [h2, Option.some_or] at hg
          cases hg
          rcases search_cases _ _ h2 with ⟨d, needs, p', hm, hf', hr⟩ | ⟨ps, he, _⟩
          · obtain ⟨r, _, he⟩ := List.mem_map.1 hm
            injection he with he1 he2
            subst he1 he2
            rcases hr with ⟨he, hr⟩ | ⟨_, he⟩
            · cases he
              have hroot := hf'.path.1
              rw [hroot] at hsite
              rcases hr hsite with h3 | ⟨h3, h4⟩
              · exact .inl h3
              · right
                obtain ⟨e, he⟩ := hf'.last
                refine ⟨p.parent, [e], rfl, by rw [h4]; simp [sub_path], by simp, he, .inl ?_⟩
                rw [h4]; exact h3
            · cases he
          · cases he
        | none =>
          rw [h2, Option.none_or] at hg
          split at hg
          · cases hg
          · obtain ⟨d, h3, h4⟩ := Option.bind_eq_some_iff.1 hg
            exfalso
            have hroot : d.root = f.root := by
              generalize f.parent.path.reverse = es at h3
              induction es with
              | nil => cases h3
              | cons e es ih =>
                unfold outer at h3
                split at h3
                · injection h3 with h3
                  rw [← h3]
                · exact ih h3
            rcases pythonImport_cases h4 with ⟨d', hd, p', hf', he⟩ | ⟨ps, he, _⟩
            · cases he
              rw [List.mem_singleton.1 hd] at hf'
              rw [hf'.path.1, hroot, hf] at hsite; cases hsite
            · cases he
    · intro ns n hne ih r h p hp hsite
      subst hp
      obtain ⟨r0, h1, h2⟩ := dotted_last hne h
      cases r0 with
      | file q =>
        injection h2 with h2
        obtain ⟨⟨e, _, hq⟩, h3⟩ := subModule_cases h2
        rcases pythonImport_cases h3 with ⟨d, hd, p', hf', he⟩ | ⟨ps, he, _⟩
        · cases he
          rw [List.mem_singleton.1 hd] at hf'
          obtain ⟨hr, x, xs, hpath⟩ := hf'.path
          have hr' : p.root = q.root := hr
          rw [hr'] at hsite
          rcases ih _ h1 q rfl hsite with h4 | h4
          · exact .inl h4
          · exact .inr (h4.below hq hr' hpath)
        · cases he
      | portions ds =>
        rcases namespaceImport_some h2 with ⟨q, h3, h4⟩ | ⟨qs, _, he⟩
        · rcases h4 with ⟨he, h4⟩ | he
          · cases he
            rcases h4 with h4 | h4
            · rcases marked_cases h4 with h5 | ⟨pre, rest, h5, h6, h7⟩
              · exact .inl h5
              · right
                rw [List.reverse_reverse] at h6
                have hne' : p.path ≠ [] := by
                  intro hh
                  rw [show p.parent.path = p.path.dropLast from rfl, hh] at h6
                  simp only [List.dropLast_nil] at h6
                  cases pre with
                  | nil => exact h5 rfl
                  | cons a as => cases h6
                have hlast : p.path = p.parent.path ++ [p.path.getLast hne'] := (List.dropLast_concat_getLast hne').symm
                refine ⟨⟨p.root, pre⟩, rest ++ [p.path.getLast hne'], rfl, h5, by simp, ?_, h7⟩
                show p.path = pre ++ (rest ++ _)
                rw [← List.append_assoc, ← h6]
                exact hlast
            · rw [hsite] at h4; cases h4
          · cases he
        · cases he
      | untyped q =>
        exfalso
        unfold inferName at h2
        dsimp only at h2
        split at h2 <;> cases h2
      | binary => cases h2
  intro ns hne p h hsite
  exact main ns hne _ h p rfl hsite

/-! ## Relative imports (C183) -/

theorem climb_drop (f : Loc) (es : List Entry) (k : Nat) (h : k < es.length) : climb w f es k =
    .found (match loadInit w ⟨f.root, (es.drop k).reverse⟩ with
      | some p => .file p
      | none => .portions [⟨f.root, (es.drop k).reverse⟩]) := by
  induction es generalizing k with
  | nil => simp at h
  | cons e es ih =>
    cases k with
    | zero => rfl
    | succ k => rw [climb, ih k (by simpa using h)]; rfl

theorem climb_beyond (f : Loc) (es : List Entry) (k : Nat) (h : es.length ≤ k) : climb w f es k =
    invalidAncestor w f (k - es.length) := by
  induction es generalizing k with
  | nil => simp [climb]
  | cons e es ih =>
    cases k with
    | zero => simp at h
    | succ k =>
      rw [climb, ih k (by simpa using h)]
      simp

theorem above_unique {f d : Loc} {level : Nat} (hl : 1 ≤ level) (h : Above f level d) :
    level - 1 < f.parent.path.reverse.length ∧ d = ⟨f.root, (f.parent.path.reverse.drop (level - 1)).reverse⟩ := by
  obtain ⟨h1, h2, rest, h3, h4⟩ := h
  have hr : rest ≠ [] := by intro hh; subst hh; simp at h4; omega
  have h5 : f.parent.path = d.path ++ rest.dropLast := by
    show f.path.dropLast = _
    rw [h3, List.dropLast_append_of_ne_nil hr]
  have h6 : rest.dropLast.length = level - 1 := by simp [h4]
  have h7 : d.path.length ≠ 0 := fun hh => h2 (List.length_eq_zero_iff.1 hh)
  constructor
  · rw [h5]; simp [h4]; omega
  · cases d with | mk r q =>
    simp only at h1 h5
    subst h1
    congr 1
    rw [h5, List.reverse_append, List.drop_append_of_le_length (by simp [h4]),
      List.drop_of_length_le (by simp [h4])]
    simp

/-- The dots lead to the directory of the package: its `__init__` file, or the directory alone. -/
theorem relative {f d : Loc} {level : Nat} (hl : 1 ≤ level) (h : Above f level d) :
    (∃ e, (e = .pyi initName ∨ e = .py initName) ∧ w.kind (d.sub e) = some .file ∧
      importFrom w f level [] = (false, .got (some (.file (d.sub e))))) ∨
    w.kind (d.sub (.pyi initName)) ≠ some .file ∧ w.kind (d.sub (.py initName)) ≠ some .file ∧
      importFrom w f level [] = (false, .got (some (.portions [d]))) := by
  obtain ⟨h1, h2⟩ := above_unique hl h
  have h3 : importFrom w f level [] = (false, .got (some (match loadInit w d with
      | some p => .file p
      | none => .portions [d]))) := by
    unfold importFrom findAncestor
    rw [if_neg (by omega), climb_drop f _ _ h1, ← h2]
    rfl
  cases h4 : loadInit w d with
  | some p =>
    left
    obtain ⟨h5, h6⟩ := loadInit_some h4
    rw [h4] at h3
    rcases h5 with rfl | rfl
    · exact ⟨_, .inl rfl, h6, h3⟩
    · exact ⟨_, .inr rfl, h6, h3⟩
  | none =>
    right
    rw [h4] at h3
    unfold loadInit at h4
    split at h4
    · cases h4
    · next h5 =>
      split at h4
      · cases h4
      · next h6 => exact ⟨fun hh => h5 (isFile_iff.2 hh), fun hh => h6 (isFile_iff.2 hh), h3⟩

/-- Too many dots are an error, and only those. -/
theorem relative_error (he : w.explicit = true) {f : Loc} {level : Nat} (hl : 1 ≤ level) (ns : List Name) :
    (importFrom w f level ns).1 = true ↔ ¬ ∃ d, Above f level d := by
  constructor
  · rintro h ⟨d, hd⟩
    obtain ⟨h1, h2⟩ := above_unique hl hd
    unfold importFrom findAncestor at h
    rw [if_neg (by omega), climb_drop f _ _ h1] at h
    cases h
  · intro h
    have hlen : f.parent.path.reverse.length ≤ level - 1 := by
      apply Classical.byContradiction
      intro hh
      apply h
      have hp : f.parent.path = f.path.dropLast := rfl
      rw [hp] at hh
      simp only [List.length_reverse, List.length_dropLast] at hh
      refine ⟨⟨f.root, f.path.take (f.path.length - level)⟩, rfl, ?_, f.path.drop (f.path.length - level),
        by simp, by simp; omega⟩
      intro h0
      have := congrArg List.length h0
      simp only [List.length_take, List.length_nil] at this
      omega
    unfold importFrom findAncestor
    rw [if_neg (by omega), climb_beyond f _ _ hlen]
    unfold invalidAncestor
    rw [he]
    by_cases hz : level - 1 - f.parent.path.reverse.length = 0
    · rw [if_pos hz]; rfl
    · rw [if_neg hz]

/-- A relative import of a package finds what the absolute import finds in Python.

Missing: namespaces that are spread over the search path, stubs. -/
theorem relative_python_partial (hs : NoStubs w) (hsite : ∀ r, w.site r = true → w.follow = true) {f d : Loc}
    {level : Nat} (hl : 1 ≤ level) (ha : Above f level d) {pk ns : List Name} {m : Module}
    (hp : Imports w pk (.package d)) (hm : Imports w (pk ++ ns) m) :
    importFrom w f level ns = (false, .got (some m.result)) := by
  obtain ⟨h1, h2⟩ := above_unique hl ha
  have h3 := hp.dotted hs hsite f
  have h4 := hm.dotted hs hsite f
  rw [dotted_none f hp.ne, h3] at h4
  have hk : w.kind (d.sub (.py initName)) = some .file := by
    generalize hq : Module.package d = q at hp
    have key : ∀ {ds : List Loc} {n : Name}, Finds w ds n q → w.kind (d.sub (.py initName)) = some .file := by
      intro ds n hf
      subst hq
      cases hf with
      | package _ hh => exact hh.2
    cases hp with
    | first hf => exact key hf
    | package _ hf => exact key hf
    | portions _ hf => exact key hf
  have h5 : loadInit w d = some (d.sub (.py initName)) := by
    rw [loadInit_noStubs hs, if_pos (isFile_iff.2 hk)]
  unfold importFrom findAncestor
  rw [if_neg (by omega), climb_drop f _ _ h1, ← h2, h5]
  show (false, dotted w f (some (.file (d.sub (.py initName)))) ns) = _
  rw [dotted_some]
  exact congrArg _ h4

/-! ## No panic (C184) -/

/-- No import statement panics. -/
theorem no_panic (f : Loc) (level : Nat) (ns : List Name) : (importFrom w f level ns).2 ≠ .panic := by
  have base : ∀ b, dotted w f b ns ≠ .panic := by
    intro b
    cases b with
    | some r => rw [dotted_some]; exact follow_no_panic f ns _ nofun
    | none =>
      cases ns with
      | nil => nofun
      | cons n ns => exact follow_no_panic f ns _ nofun
  unfold importFrom
  split
  · exact base _
  · split
    · exact base _
    · exact base _
    · nofun

/-- Neither does the lookup of a module in a package. -/
theorem lookup_no_panic (p : Loc) (n : Name) : subModuleLookup w p n ≠ .panic := by
  unfold subModuleLookup
  split
  · next h => rcases subModule_fine h with ⟨_, h⟩ | ⟨_, h⟩ <;> cases h
  · next h => rcases subModule_fine h with ⟨_, h⟩ | ⟨_, h⟩ <;> cases h
  · nofun

/-- Imports of the strings of a program do not panic if there is nothing untyped.

Missing: installed packages without a marker. -/
theorem strings_no_panic_partial (hs : ∀ r ∈ w.roots, w.site r = true → w.follow = true)
    (f : Loc) (ns : List Name) : importStrings w f ns ≠ .panic := by
  have hfold : ∀ (ns : List Name) (o : Out), o.Good → (ns.foldl (fun o n => o.andThen fun r => step w r n) o).Good := by
    intro ns
    induction ns with
    | nil => intro o h; exact h
    | cons n ns ih => intro o h; exact ih _ (andThen_good h fun r hr => step_good hr)
  cases ns with
  | nil => nofun
  | cons n ns =>
    refine (hfold ns _ (good_got fun r hr => ?_)).1
    unfold globalImport at hr
    cases h1 : pythonImport w (w.roots.map .ofRoot) (.stubs n) with
    | some r1 => rw [h1, Option.some_or] at hr; cases hr; exact pythonImport_fine h1
    | none =>
      rw [h1, Option.none_or] at hr
      cases h2 : search w true n (w.roots.map fun r => (.ofRoot r, w.site r)) [] with
      | some r2 =>
        rw [h2, Option.some_or] at hr
        cases hr
        refine search_fine _ _ ?_ h2
        intro x hx hn
        obtain ⟨r', hr', rfl⟩ := List.mem_map.1 hx
        exact hs r' hr' hn
      | none =>
        rw [h2, Option.none_or] at hr
        split at hr
        · cases hr
        · obtain ⟨d, _, h3⟩ := Option.bind_eq_some_iff.1 hr
          exact pythonImport_fine h3

/-! ## Stubs (C185) -/

/-- No import finds a module if there is a stub beside it. -/
theorem stub_beside (f : Loc) : ∀ (ns : List Name), ns ≠ [] → ∀ p,
    dotted w f none ns = .got (some (.file p)) ∨ dotted w f none ns = .got (some (.untyped p)) → NoStubBeside w p := by
  have main : ∀ (ns : List Name), ns ≠ [] → ∀ r, dotted w f none ns = .got (some r) → r.Best w := by
    refine snoc_induct ?_ ?_
    · intro n r h
      simp only [dotted, follow, List.foldl_nil] at h
      injection h with h
      exact global_best f n h
    · intro ns n hne _ r h
      obtain ⟨r0, _, h2⟩ := dotted_last hne h
      exact inferName_best r h2
  rintro ns hne p (h | h)
  · exact main ns hne _ h p (.inl rfl)
  · exact main ns hne _ h p (.inr rfl)

/-- The first stub package is used, wherever the package itself is. -/
theorem stub_package (f : Loc) {pre post : List Nat} {r : Nat} {n : Name} (hr : w.roots = pre ++ r :: post)
    (hpre : ∀ q ∈ pre, NoStubPackage w q n) {ms : List Name} {d : Loc} (h : StubPackage w r n ms d) :
    dotted w f none (n :: ms) = .got (some (.file (d.sub (.pyi (.plain "__init__"))))) := by
  induction h with
  | top h1 h2 =>
    have hs : pythonImport w (w.roots.map .ofRoot) (.stubs n) =
        some (.file (((Loc.ofRoot r).sub (.bare (.stubs n))).sub (.pyi initName))) := by
      unfold pythonImport
      rw [hr]
      simp only [List.map_append, List.map_map, List.map_cons]
      rw [search_skip]
      · exact search_stub_package h1 h2
      · intro e he
        obtain ⟨q, hq, rfl⟩ := List.mem_map.1 he
        exact hpre q hq
    simp only [dotted, follow, List.foldl_nil, globalOrBinary, globalImport, hs, Option.some_or]
    rfl
  | sub hd h1 h2 ih =>
    rw [show ∀ (ms : List Name) (k : Name), n :: (ms ++ [k]) = (n :: ms) ++ [k] from fun _ _ => rfl,
      dotted_none f (by simp), ih, follow_one]
    show Out.got (subModule w (Loc.sub _ (.pyi initName)) _) = _
    rw [subModule_eq (.inr rfl) hd.path]
    exact congrArg Out.got (search_stub_package h1 h2)

/-- So are the modules in it. -/
theorem stub_module (f : Loc) {pre post : List Nat} {r : Nat} {n : Name} (hr : w.roots = pre ++ r :: post)
    (hpre : ∀ q ∈ pre, NoStubPackage w q n) {ms : List Name} {d : Loc} (h : StubPackage w r n ms d) {k : Name}
    (hk : w.kind (d.sub (.bare k)) ≠ some .dir) (hf : w.kind (d.sub (.pyi k)) = some .file) :
    dotted w f none (n :: ms ++ [k]) = .got (some (.file (d.sub (.pyi k)))) := by
  rw [dotted_none f (by simp), stub_package f hr hpre h, follow_one]
  show Out.got (subModule w (Loc.sub _ (.pyi initName)) _) = _
  rw [subModule_eq (.inr rfl) h.path]
  exact congrArg Out.got (search_stub_file hk hf)

/-! ## Where the results are wrong -/

def lookup (fs : List (Loc × Kind)) (p : Loc) : Option Kind := (fs.find? fun x => x.1 = p).map (·.2)

/-- Workspace `9` has the installed packages. -/
def world (fs : List (Loc × Kind)) (roots : List Nat) (explicit : Bool) : World where
  kind := lookup fs
  roots := roots
  site := fun r => r == 9
  typeshed := fun _ => false
  explicit := explicit
  follow := false
  binary := fun _ => false

theorem lookup_mem {fs : List (Loc × Kind)} {p : Loc} {k : Kind} (h : lookup fs p = some k) : (p, k) ∈ fs := by
  unfold lookup at h
  obtain ⟨x, h1, h2⟩ := Option.map_eq_some_iff.1 h
  have h3 := List.find?_some h1
  have h4 := List.mem_of_find?_eq_some h1
  simp only [decide_eq_true_eq] at h3
  rw [← h3, ← h2]
  exact h4

def plainEntry (p : Loc) : Bool :=
  match p.path.getLast? with
  | some (.pyi _) | some (.bare (.stubs _)) | some (.py (.stubs _)) => false
  | _ => true

theorem world_noStubs {fs : List (Loc × Kind)} {roots : List Nat} {b : Bool}
    (h : (fs.all fun x => plainEntry x.1) = true) : NoStubs (world fs roots b) := by
  rw [List.all_eq_true] at h
  refine ⟨fun d n hk => ?_, fun r n hk => ?_, fun r n hk => ?_⟩
  · have := h _ (lookup_mem hk)
    simp [plainEntry, sub_path] at this
  · have := h _ (lookup_mem hk)
    simp [plainEntry] at this
  · have := h _ (lookup_mem hk)
    simp [plainEntry] at this

/-- No directory has the marker. -/
theorem no_marker {fs : List (Loc × Kind)} {roots : List Nat} {b : Bool} {p : Loc}
    (h : (fs.all fun x => x.1.path.getLast? != some .typed) = true)
    (hp : ∀ e ∈ p.path.dropLast, e.isStubs = false) : ¬ Typed (world fs roots b) p := by
  rw [List.all_eq_true] at h
  rintro ⟨d, rest, h1, h2, h3, h4, h5 | ⟨n, h5⟩⟩
  · have := h _ (lookup_mem h5)
    simp [sub_path] at this
  · have hm : Entry.bare (.stubs n) ∈ p.path.dropLast := by
      rw [h4, List.dropLast_append_of_ne_nil h3]
      exact List.mem_append_left _ (List.mem_of_getLast? h5)
    have := hp _ hm
    simp [Entry.isStubs] at this

abbrev nm (s : String) : Name := .plain s
abbrev dr (s : String) : Entry := .bare (.plain s)
abbrev ini : Entry := .py initName

/-- Next to `foo.py` there is a script `foo-stubs.py`: it is imported instead of `foo`, although it is
neither a directory nor a stub. -/
theorem stub_file_violation :
    let w := world [(⟨0, [.py (nm "foo")]⟩, .file), (⟨0, [.py (.stubs (nm "foo"))]⟩, .file)] [0] true
    Imports w [nm "foo"] (.module ⟨0, [.py (nm "foo")]⟩) ∧
    dotted w ⟨0, [.py (nm "main")]⟩ none [nm "foo"] = .got (some (.file ⟨0, [.py (.stubs (nm "foo"))]⟩)) := by
  intro w
  refine ⟨.first (Finds.module (w := w) (pre := []) (post := []) (d := ⟨0, []⟩) (by simp) ?_ ?_), by decide +kernel⟩
  · intro h
    have := h.1
    revert this
    decide +kernel
  · show w.kind _ = _
    decide +kernel

/-- The same in the installed packages: the script is used as if it was typed. -/
theorem typed_stub_file_violation :
    let w := world [(⟨9, [.py (.stubs (nm "foo"))]⟩, .file)] [0, 9] true
    dotted w ⟨0, [.py (nm "main")]⟩ none [nm "foo"] = .got (some (.file ⟨9, [.py (.stubs (nm "foo"))]⟩)) ∧
    w.follow = false ∧ ¬ Typed w ⟨9, [.py (.stubs (nm "foo"))]⟩ :=
  ⟨by decide +kernel, rfl, no_marker (by decide +kernel) (by decide +kernel)⟩

/-- An installed module without a marker imports its neighbour: the neighbour is used as if it was
typed, because the directory without an `__init__` file counts as a part of the search path. -/
theorem typed_neighbour_violation :
    let w := world [(⟨9, [dr "d"]⟩, .dir), (⟨9, [dr "d", .py (nm "a")]⟩, .file), (⟨9, [dr "d", .py (nm "b")]⟩, .file)]
      [0, 9] false
    dotted w ⟨9, [dr "d", .py (nm "a")]⟩ none [nm "b"] = .got (some (.file ⟨9, [dr "d", .py (nm "b")]⟩)) ∧
    w.follow = false ∧ ¬ Typed w ⟨9, [dr "d", .py (nm "b")]⟩ :=
  ⟨by decide +kernel, rfl, no_marker (by decide +kernel) (by decide +kernel)⟩

/-- A plugin of pytest in a namespace of the installed packages has no marker. An import statement
knows that it is untyped, but the import of the string does not. -/
theorem typed_strings_violation :
    let w := world [(⟨9, [dr "ns"]⟩, .dir), (⟨9, [dr "ns", .py (nm "plugin")]⟩, .file)] [0, 9] true
    dotted w ⟨0, [.py (nm "conftest")]⟩ none [nm "ns", nm "plugin"] =
      .got (some (.untyped ⟨9, [dr "ns", .py (nm "plugin")]⟩)) ∧
    importStrings w ⟨0, [.py (nm "conftest")]⟩ [nm "ns", nm "plugin"] =
      .got (some (.file ⟨9, [dr "ns", .py (nm "plugin")]⟩)) := by
  decide +kernel

/-- `pytest_plugins = ["foo.plugin"]` in a `conftest.py`, for an installed package `foo` without a
marker, is a panic. -/
theorem strings_panic_violation :
    importStrings (world [(⟨9, [dr "foo"]⟩, .dir), (⟨9, [dr "foo", ini]⟩, .file),
      (⟨9, [dr "foo", .py (nm "plugin")]⟩, .file)] [0, 9] false) ⟨0, [.py (nm "conftest")]⟩
      [nm "foo", nm "plugin"] = .panic := by
  decide +kernel

/-- `import p.__init__.a` finds `p/a.py`; in Python `p.__init__` is not a package. -/
theorem named_violation :
    let w := world [(⟨0, [dr "p"]⟩, .dir), (⟨0, [dr "p", ini]⟩, .file), (⟨0, [dr "p", .py (nm "a")]⟩, .file)] [0] true
    dotted w ⟨0, [.py (nm "main")]⟩ none [nm "p", initName, nm "a"] = .got (some (.file ⟨0, [dr "p", .py (nm "a")]⟩)) ∧
    ¬ IsModule [nm "p", initName, nm "a"] ⟨0, [dr "p", .py (nm "a")]⟩ := by
  refine ⟨by decide +kernel, ?_⟩
  have len : ∀ {us : List Entry} {ns : List Name}, Sames us ns → us.length = ns.length := by
    intro us ns h
    induction h with
    | nil => rfl
    | cons _ _ ih => simp [ih]
  have key : ∀ {ns : List Name} {d : Loc}, Ends ns d → ns.length ≤ d.path.length := by
    rintro ns d ⟨pre, us, h1, h2⟩
    rw [h1, List.length_append, len h2]; omega
  intro h
  generalize hk : [nm "p", initName, nm "a"] = ks at h
  generalize hq : (⟨0, [dr "p", .py (nm "a")]⟩ : Loc) = q at h
  have hl := congrArg List.length hk
  have hl' := congrArg (fun l : Loc => l.path.length) hq
  cases h with
  | file hd _ =>
    have := key hd
    simp [sub_path] at hl hl'
    omega
  | init hd _ =>
    have := key hd
    simp [sub_path] at hl hl'
    omega

/-- A namespace is spread over two workspaces and both have a module `b`. `from .b import x` in the
second finds the `b` beside it, although `import ns.b` and Python find the first. -/
theorem relative_namespace_violation :
    let w := world [(⟨0, [dr "ns"]⟩, .dir), (⟨0, [dr "ns", .py (nm "b")]⟩, .file), (⟨1, [dr "ns"]⟩, .dir),
      (⟨1, [dr "ns", .py (nm "a")]⟩, .file), (⟨1, [dr "ns", .py (nm "b")]⟩, .file)] [0, 1] true
    let f : Loc := ⟨1, [dr "ns", .py (nm "a")]⟩
    Above f 1 ⟨1, [dr "ns"]⟩ ∧ Imports w [nm "ns", nm "a"] (.module f) ∧
    Imports w [nm "ns", nm "b"] (.module ⟨0, [dr "ns", .py (nm "b")]⟩) ∧
    dotted w f none [nm "ns", nm "b"] = .got (some (.file ⟨0, [dr "ns", .py (nm "b")]⟩)) ∧
    importFrom w f 1 [nm "b"] = (false, .got (some (.file ⟨1, [dr "ns", .py (nm "b")]⟩))) := by
  intro w f
  have h1 : Imports w [nm "ns"] (.portions [⟨0, [dr "ns"]⟩, ⟨1, [dr "ns"]⟩]) := by
    refine .first (Finds.portions (w := w) (ds := [⟨0, []⟩, ⟨1, []⟩]) (n := nm "ns") ?_ ?_)
    · intro e he
      simp only [List.mem_cons, List.not_mem_nil, or_false] at he
      rcases he with rfl | rfl
      · exact ⟨fun h => absurd h.2 (by decide +kernel), fun h => absurd (show w.kind _ = _ from h) (by decide +kernel)⟩
      · exact ⟨fun h => absurd h.2 (by decide +kernel), fun h => absurd (show w.kind _ = _ from h) (by decide +kernel)⟩
    · decide +kernel
  refine ⟨⟨rfl, nofun, [.py (nm "a")], rfl, rfl⟩, ?_, ?_, by decide +kernel, by decide +kernel⟩
  · refine .portions (ns := [nm "ns"]) h1 (Finds.module (w := w) (pre := [⟨0, [dr "ns"]⟩]) (post := [])
      (d := ⟨1, [dr "ns"]⟩) (n := nm "a") ?_ ?_ ?_)
    · intro e he
      rw [List.mem_singleton.1 he]
      exact ⟨fun h => absurd h.2 (by decide +kernel), fun h => absurd (show w.kind _ = _ from h) (by decide +kernel)⟩
    · exact fun h => absurd h.2 (by decide +kernel)
    · show w.kind _ = _
      decide +kernel
  · refine .portions (ns := [nm "ns"]) h1 (Finds.module (w := w) (pre := []) (post := [⟨1, [dr "ns"]⟩])
      (d := ⟨0, [dr "ns"]⟩) (n := nm "b") (by simp) ?_ ?_)
    · exact fun h => absurd h.2 (by decide +kernel)
    · show w.kind _ = _
      decide +kernel

/-! ## Examples -/

/-- A package `p` with a module `a`, a package `q` in it, and a namespace `ns` in two workspaces. -/
def sample : World := world [(⟨0, [dr "p"]⟩, .dir), (⟨0, [dr "p", ini]⟩, .file), (⟨0, [dr "p", .py (nm "a")]⟩, .file),
  (⟨0, [dr "p", dr "q"]⟩, .dir), (⟨0, [dr "p", dr "q", ini]⟩, .file), (⟨0, [dr "ns"]⟩, .dir), (⟨1, [dr "ns"]⟩, .dir),
  (⟨1, [dr "ns", .py (nm "b")]⟩, .file), (⟨1, [.py (nm "p")]⟩, .file)] [0, 1] true

theorem sample_noStubs : NoStubs sample := world_noStubs (by decide +kernel)

theorem sample_package : Imports sample [nm "p"] (.package ⟨0, [dr "p"]⟩) :=
  .first (Finds.package (w := sample) (pre := []) (post := [⟨1, []⟩]) (d := ⟨0, []⟩) (by simp)
    ⟨by decide +kernel, by decide +kernel⟩)

theorem sample_module : Imports sample [nm "p", nm "a"] (.module ⟨0, [dr "p", .py (nm "a")]⟩) :=
  .package (ns := [nm "p"]) sample_package (Finds.module (w := sample) (pre := []) (post := []) (d := ⟨0, [dr "p"]⟩)
    (by simp) (fun h => absurd h.2 (by decide +kernel)) (show sample.kind _ = _ by decide +kernel))

/-- The same with `follow_untyped_imports`. -/
def typedSample : World := { sample with follow := true }

theorem typedSample_noStubs : NoStubs typedSample :=
  ⟨fun d n h => sample_noStubs.pyi d n h, fun r n h => sample_noStubs.dir r n h, fun r n h => sample_noStubs.file r n h⟩

theorem typedSample_module : Imports typedSample [nm "p", nm "a"] (.module ⟨0, [dr "p", .py (nm "a")]⟩) :=
  .package (ns := [nm "p"])
    (.first (Finds.package (w := typedSample) (pre := []) (post := [⟨1, []⟩]) (d := ⟨0, []⟩) (by simp)
      ⟨by decide +kernel, by decide +kernel⟩))
    (Finds.module (w := typedSample) (pre := []) (post := []) (d := ⟨0, [dr "p"]⟩)
      (by simp) (fun h => absurd h.2 (by decide +kernel)) (show typedSample.kind _ = _ by decide +kernel))

/-- The workspace `9` is not in the search path. -/
example : dotted { sample with site := fun _ => false } ⟨0, [.py (nm "main")]⟩ none [nm "p", nm "a"] =
    .got (some (.file ⟨0, [dr "p", .py (nm "a")]⟩)) := by decide +kernel

/-- `from ..a import x` in `p/q/__init__.py`. -/
example : importFrom typedSample ⟨0, [dr "p", dr "q", ini]⟩ 2 [nm "a"] =
    (false, .got (some (.file ⟨0, [dr "p", .py (nm "a")]⟩))) :=
  relative_python_partial (w := typedSample) (f := ⟨0, [dr "p", dr "q", ini]⟩) (level := 2) (d := ⟨0, [dr "p"]⟩) (pk := [nm "p"]) (ns := [nm "a"])
    (m := .module ⟨0, [dr "p", .py (nm "a")]⟩) typedSample_noStubs (fun _ _ => rfl) (by decide)
    ⟨rfl, nofun, [dr "q", ini], rfl, rfl⟩
    (.first (Finds.package (w := typedSample) (pre := []) (post := [⟨1, []⟩]) (d := ⟨0, []⟩) (by simp)
      ⟨by decide +kernel, by decide +kernel⟩))
    typedSample_module

/-- Three dots are too many there. -/
example : (importFrom sample ⟨0, [dr "p", dr "q", ini]⟩ 3 [nm "a"]).1 = true := by decide +kernel

/-- A namespace over two workspaces. -/
example : dotted sample ⟨0, [.py (nm "main")]⟩ none [nm "ns", nm "b"] =
    .got (some (.file ⟨1, [dr "ns", .py (nm "b")]⟩)) := by decide +kernel

/-- `python_partial` applies. -/
example (r : Result) : dotted typedSample ⟨0, [.py (nm "main")]⟩ none [nm "p", nm "a"] = .got (some r) ↔
    ∃ m, Imports typedSample [nm "p", nm "a"] m ∧ r = m.result :=
  python_partial (w := typedSample) typedSample_noStubs (fun _ _ => rfl) (fun _ _ => rfl) rfl
    (fun _ => rfl) _ (by simp) (by
      intro n hn
      simp only [List.mem_cons, List.not_mem_nil, or_false] at hn
      rcases hn with rfl | rfl
      · exact ⟨_, rfl, by decide⟩
      · exact ⟨_, rfl, by decide⟩) r

/-- Stubs in a directory of their own, and a module that has no stub. -/
def stubbed : World := world [(⟨9, [.bare (.stubs (nm "foo"))]⟩, .dir),
  (⟨9, [.bare (.stubs (nm "foo")), .pyi (nm "a")]⟩, .file), (⟨9, [dr "foo"]⟩, .dir), (⟨9, [dr "foo", ini]⟩, .file),
  (⟨9, [dr "foo", .py (nm "b")]⟩, .file)] [0, 9] true

example : dotted stubbed ⟨0, [.py (nm "main")]⟩ none [nm "foo", nm "a"] =
    .got (some (.file ⟨9, [.bare (.stubs (nm "foo")), .pyi (nm "a")]⟩)) := by decide +kernel

example : dotted stubbed ⟨0, [.py (nm "main")]⟩ none [nm "foo", nm "b"] =
    .got (some (.untyped ⟨9, [dr "foo", .py (nm "b")]⟩)) := by decide +kernel

example : Typed stubbed ⟨9, [.bare (.stubs (nm "foo")), .pyi (nm "a")]⟩ := by
  refine (typed_partial (w := stubbed) (f := ⟨0, [.py (nm "main")]⟩) rfl ?_ [nm "foo", nm "a"] (by simp) _
    (by decide +kernel) rfl).resolve_left (by decide)
  intro r n _
  constructor
  · intro h
    have := lookup_mem h
    simp at this
  · intro h
    have := lookup_mem h
    simp at this

/-- A stub package with a package in it, and the package itself earlier in the search path. -/
def packaged : World := world [(⟨9, [.bare (.stubs (nm "foo"))]⟩, .dir),
  (⟨9, [.bare (.stubs (nm "foo")), .pyi (nm "__init__")]⟩, .file), (⟨9, [.bare (.stubs (nm "foo")), dr "q"]⟩, .dir),
  (⟨9, [.bare (.stubs (nm "foo")), dr "q", .pyi (nm "__init__")]⟩, .file),
  (⟨9, [.bare (.stubs (nm "foo")), dr "q", .pyi (nm "a")]⟩, .file),
  (⟨0, [dr "foo"]⟩, .dir), (⟨0, [dr "foo", ini]⟩, .file)] [0, 9] true

example : dotted packaged ⟨0, [.py (nm "main")]⟩ none [nm "foo", nm "q", nm "a"] =
    .got (some (.file ⟨9, [.bare (.stubs (nm "foo")), dr "q", .pyi (nm "a")]⟩)) :=
  stub_module (w := packaged) _ (pre := [0]) (post := []) (ms := [nm "q"]) rfl
    (by
      intro q hq
      rw [List.mem_singleton.1 hq]
      exact ⟨by decide +kernel, by decide +kernel, by decide +kernel⟩)
    (.sub (ms := []) (.top (by decide +kernel) (by decide +kernel)) (by decide +kernel) (by decide +kernel))
    (by decide +kernel) (by decide +kernel)

end Verif.Import
