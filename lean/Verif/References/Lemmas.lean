import Verif.References.Spec

/-! Helper lemmas about the search for references. -/
namespace Verif.References
open Spec

theorem uniquePosition_eq (n : Name) : uniquePosition n = (fileOf n, startOf n) := by
  cases n <;> rfl

theorem file_eq (n : Name) : n.file = fileOf n := by cases n <;> rfl

theorem reported_eq (n : Name) : reported n = [n] := by cases n <;> rfl

theorem flatMap_reported (l : List Name) : l.flatMap reported = l := by
  induction l with
  | nil => rfl
  | cons a l ih => simp [reported_eq, ih]

theorem mem_follow {w : World} {n m : Name} :
    m ∈ follow w n ↔ m = n ∨
      ∃ g t, n = .tree g t ∧ w.isFollowed g t = true ∧ m ∈ w.goto g t := by
  cases n with
  | tree g t =>
    by_cases hf : w.isFollowed g t = true
    · simp only [follow, hf, if_true, flatMap_reported, List.mem_append, List.mem_singleton]
      constructor
      · rintro (h | h)
        · exact .inr ⟨g, t, rfl, hf, h⟩
        · exact .inl h
      · rintro (h | ⟨g', t', he, _, h⟩)
        · exact .inr h
        · injection he with h1 h2
          subst h1; subst h2
          exact .inl h
    · simp only [follow, hf, List.mem_append, List.mem_singleton]
      constructor
      · rintro (h | h)
        · cases h
        · exact .inl h
      · rintro (h | ⟨g', t', he, hf', h⟩)
        · exact .inr h
        · injection he with h1 h2
          subst h1; subst h2
          exact absurd hf' hf
  | module f => simp [follow]
  | node f s => simp [follow]

theorem mem_targets {w : World} {f s : Nat} {m : Name} :
    m ∈ targets w f s ↔ Near w f s m := by
  simp only [targets, List.mem_flatMap, mem_follow]
  constructor
  · rintro ⟨n, hn, rfl | ⟨g, t, rfl, hf, h⟩⟩
    · exact .step hn
    · exact .through hn hf h
  · intro h
    cases h with
    | step h => exact ⟨m, h, .inl rfl⟩
    | through h1 h2 h3 => exact ⟨_, h1, .inr ⟨_, _, rfl, h2, h3⟩⟩

theorem head_of_symbol {w : World} {f s : Nat} {n : Name} (h : Symbol w f s n) :
    (targets w f s).head? = some n := by
  cases h with
  | direct h1 h2 =>
    simp only [targets, h1, List.flatMap_cons]
    cases n with
    | tree g t =>
      rcases h2 g t rfl with h | h
      · simp [follow, h]
      · cases hf : w.isFollowed g t <;> simp [follow, h, hf]
    | module _ => simp [follow]
    | node _ _ => simp [follow]
  | imported h1 h2 h3 =>
    simp [targets, h1, follow, h2, h3, reported_eq]

theorem symbol_of_head {w : World} {f s : Nat} {n : Name}
    (h : (targets w f s).head? = some n) : Symbol w f s n := by
  cases hg : w.goto f s with
  | nil => simp [targets, hg] at h
  | cons a rest =>
    simp only [targets, hg, List.flatMap_cons] at h
    cases a with
    | tree g t =>
      cases hf : w.isFollowed g t with
      | false =>
        simp [follow, hf] at h
        subst h
        refine .direct hg ?_
        intro g' t' he
        injection he with h1 h2
        subst h1; subst h2
        exact .inl hf
      | true =>
        cases hg' : w.goto g t with
        | nil =>
          simp [follow, hf, hg'] at h
          subst h
          refine .direct hg ?_
          intro g' t' he
          injection he with h1 h2
          subst h1; subst h2
          exact .inr hg'
        | cons b rest' =>
          simp [follow, hf, hg', reported_eq] at h
          subst h
          exact .imported hg hf hg'
    | module g =>
      simp [follow] at h
      subst h
      exact .direct hg (by intro _ _ h; cases h)
    | node g t =>
      simp [follow] at h
      subst h
      exact .direct hg (by intro _ _ h; cases h)

theorem mem_withOthers {w : World} {n d : Name} :
    d ∈ withOthers w n ↔ d = n ∨ ∃ f s t, n = .tree f s ∧ t ∈ w.others f s ∧ d = .tree f t := by
  cases n with
  | tree f s =>
    simp only [withOthers, List.mem_cons, List.mem_map]
    constructor
    · rintro (h | ⟨t, ht, rfl⟩)
      · exact .inl h
      · exact .inr ⟨f, s, t, rfl, ht, rfl⟩
    · rintro (h | ⟨f', s', t, he, ht, rfl⟩)
      · exact .inl h
      · injection he with h1 h2
        subst h1; subst h2
        exact .inr ⟨t, ht, rfl⟩
  | module f => simp [withOthers]
  | node f s => simp [withOthers]

theorem mem_declarationsOf {w : World} {n d : Name} :
    d ∈ declarationsOf w n ↔ DeclarationOf w n d := by
  simp only [declarationsOf, List.mem_append]
  constructor
  · rintro (h | h)
    · cases hc : w.counterpart n with
      | none => rw [hc] at h; cases h
      | some o =>
        rw [hc] at h
        rcases mem_withOthers.1 h with rfl | ⟨f, s, t, rfl, ht, rfl⟩
        · exact .counterpart hc
        · exact .counterpartOther hc ht
    · rcases mem_withOthers.1 h with rfl | ⟨f, s, t, rfl, ht, rfl⟩
      · exact .itself
      · exact .other rfl ht
  · intro h
    cases h with
    | itself => exact .inr (mem_withOthers.2 (.inl rfl))
    | other h1 h2 => exact .inr (mem_withOthers.2 (.inr ⟨_, _, _, h1, h2, rfl⟩))
    | counterpart h => left; rw [h]; exact mem_withOthers.2 (.inl rfl)
    | counterpartOther h h2 =>
      left; rw [h]; exact mem_withOthers.2 (.inr ⟨_, _, _, rfl, h2, rfl⟩)

theorem symbol_mentioned {w : World} {f s : Nat} {n : Name} (h : Symbol w f s n) :
    Mentioned w n := by
  cases h with
  | direct h _ => exact .goto (by rw [h]; exact List.mem_cons_self)
  | imported _ _ h => exact .goto (by rw [h]; exact List.mem_cons_self)

theorem near_mentioned {w : World} {f s : Nat} {n : Name} (h : Near w f s n) :
    Mentioned w n := by
  cases h with
  | step h => exact .goto h
  | through _ _ h => exact .goto h

/-- With `Apart`, being at the position of a declaration is being one. -/
theorem position_mem {w : World} (ha : Apart w) {n m : Name} (hn : Mentioned w n)
    (hm : Mentioned w m) :
    uniquePosition m ∈ uniquePosition n :: (declarationsOf w n).map uniquePosition ↔
      DeclarationOf w n m := by
  simp only [List.mem_cons, List.mem_map]
  constructor
  · rintro (h | ⟨d, hd, h⟩)
    · rw [uniquePosition_eq, uniquePosition_eq] at h
      injection h with h1 h2
      rw [ha m n hm hn h1 h2]
      exact .itself
    · have hd' := mem_declarationsOf.1 hd
      rw [uniquePosition_eq, uniquePosition_eq] at h
      injection h with h1 h2
      rw [← ha d m (.declaration hn hd') hm h1 h2]
      exact hd'
  · intro h
    exact .inr ⟨m, mem_declarationsOf.2 h, rfl⟩

theorem mem_referencesInFile {w : World} {positions : List (Nat × Nat)} {name : String}
    {file : Nat} {m : Name} :
    m ∈ referencesInFile w positions name file ↔ ∃ t, m = .tree file t ∧
      (t, name) ∈ w.names file ∧ (∃ d, Near w file t d ∧ uniquePosition d ∈ positions) ∧
      uniquePosition m ∉ positions := by
  simp only [referencesInFile, List.mem_filterMap]
  constructor
  · rintro ⟨⟨t, c⟩, hmem, h⟩
    dsimp only at h
    split at h
    · rename_i hc
      split at h
      · rename_i hany
        split at h
        · rename_i hnot
          injection h with h
          subst h
          obtain ⟨d, hd, hp⟩ := List.any_eq_true.1 hany
          refine ⟨t, rfl, ?_, ⟨d, mem_targets.1 hd, by simpa using hp⟩, by simpa using hnot⟩
          rw [← eq_of_beq hc]; exact hmem
        · cases h
      · cases h
    · cases h
  · rintro ⟨t, rfl, hmem, ⟨d, hd, hp⟩, hnot⟩
    refine ⟨(t, name), hmem, ?_⟩
    dsimp only
    have hany : (targets w file t).any (fun n => positions.contains (uniquePosition n)) = true :=
      List.any_eq_true.2 ⟨d, mem_targets.2 hd, by simpa using hp⟩
    rw [if_pos (beq_self_eq_true name), if_pos hany, if_pos (by simpa using hnot)]

theorem mem_search {w : World} {d : Definitions} {n : Name} (hr : d.reachable = globallyReachable w n)
    {goal : Goal} {f : Nat} {name : String} {m : Name} :
    m ∈ search w d goal f name ↔
      ∃ g, Searched w goal f n name g ∧ m ∈ referencesInFile w d.positions name g := by
  have loc : globallyReachable w n = false ↔ ∃ g t, n = .tree g t ∧ w.inFunction g t = true := by
    cases n with
    | tree g t =>
      simp only [globallyReachable]
      constructor
      · intro h
        exact ⟨g, t, rfl, by simpa using h⟩
      · rintro ⟨g', t', he, h⟩
        injection he with h1 h2
        subst h1; subst h2
        simp [h]
    | module _ => simp [globallyReachable]
    | node _ _ => simp [globallyReachable]
  have glob : globallyReachable w n = true ↔
      ∀ g t, n = .tree g t → w.inFunction g t = false := by
    cases n with
    | tree g t =>
      simp only [globallyReachable]
      constructor
      · intro h g' t' he
        injection he with h1 h2
        subst h1; subst h2
        simpa using h
      · intro h
        simpa using h g t rfl
    | module _ => simp [globallyReachable]
    | node _ _ => simp [globallyReachable]
  have not_both : ∀ {P : Prop}, globallyReachable w n = false →
      (∀ g t, n = .tree g t → w.inFunction g t = false) → P := by
    intro P h1 h2
    rw [glob.2 h2] at h1
    cases h1
  unfold search
  rw [hr]
  cases hg : globallyReachable w n with
  | false =>
    simp only [Bool.not_false, if_true]
    constructor
    · intro h
      exact ⟨f, .current (.inl (loc.1 hg)), h⟩
    · rintro ⟨g, hs, h⟩
      cases hs with
      | current _ => exact h
      | checked h1 _ _ _ => exact not_both hg h1
      | all h1 _ _ _ => exact not_both hg h1
  | true =>
    have hno : ∀ {P : Prop}, (∃ g t, n = .tree g t ∧ w.inFunction g t = true) → P := by
      rintro P ⟨g, t, rfl, h⟩
      rw [glob.1 hg g t rfl] at h
      cases h
    simp only [Bool.not_true]
    rw [if_neg (by simp)]
    cases goal with
    | onlyCurrentFile =>
      constructor
      · intro h
        exact ⟨f, .current (.inr rfl), h⟩
      · rintro ⟨g, hs, h⟩
        cases hs with
        | current _ => exact h
        | checked _ h1 _ _ => cases h1
        | all _ h1 _ _ => cases h1
    | onlyTypeCheckedWorkspaces =>
      simp only [referencesInFiles, List.mem_flatMap, List.mem_filter]
      constructor
      · rintro ⟨g, ⟨h1, h2⟩, h⟩
        exact ⟨g, .checked (glob.1 hg) rfl h1 h2, h⟩
      · rintro ⟨g, hs, h⟩
        cases hs with
        | current h1 => exact h1.elim (fun h => hno h) (fun h => by cases h)
        | checked _ _ h1 h2 => exact ⟨g, ⟨h1, h2⟩, h⟩
        | all _ h1 _ _ => cases h1
    | allFilesIncludingDependencies =>
      simp only [referencesInFiles, List.mem_flatMap, List.mem_filter]
      constructor
      · rintro ⟨g, ⟨h1, h2⟩, h⟩
        exact ⟨g, .all (glob.1 hg) rfl h1 h2, h⟩
      · rintro ⟨g, hs, h⟩
        cases hs with
        | current h1 => exact h1.elim (fun h => hno h) (fun h => by cases h)
        | checked _ h1 _ _ => cases h1
        | all _ _ h1 h2 => exact ⟨g, ⟨h1, h2⟩, h⟩

theorem references_of_symbol {w : World} {goal : Goal} {incl : Bool} {f s : Nat} {name : String}
    {n : Name} (h : Symbol w f s n) :
    ∃ d : Definitions, findDefinitions w goal incl f s = some d ∧
      d.positions = uniquePosition n :: (declarationsOf w n).map uniquePosition ∧
      d.results = (declarationsOf w n).filter (shouldAdd goal incl f) ∧
      d.reachable = globallyReachable w n ∧
      references w goal incl f s name = search w d goal f name ++ d.results := by
  refine ⟨{ positions := uniquePosition n :: (declarationsOf w n).map uniquePosition
            results := (declarationsOf w n).filter (shouldAdd goal incl f)
            reachable := globallyReachable w n }, ?_, rfl, rfl, rfl, ?_⟩
  · unfold findDefinitions
    rw [head_of_symbol h]
  · unfold references findDefinitions
    rw [head_of_symbol h]

theorem mem_references {w : World} (ha : Apart w) {goal : Goal} {incl : Bool} {f s : Nat}
    {name : String} {n : Name} (h : Symbol w f s n) {m : Name} :
    m ∈ references w goal incl f s name ↔
      (∃ g t, m = .tree g t ∧ Searched w goal f n name g ∧ (t, name) ∈ w.names g ∧
        ¬ DeclarationOf w n m ∧ ∃ d, DeclarationOf w n d ∧ Near w g t d) ∨
      (incl = true ∧ DeclarationOf w n m ∧ (goal = .onlyCurrentFile → fileOf m = f)) := by
  obtain ⟨d, _, hp, hres, hr, heq⟩ := references_of_symbol (goal := goal) (incl := incl)
    (name := name) h
  have hn := symbol_mentioned h
  rw [heq, List.mem_append, mem_search hr, hp]
  constructor
  · rintro (⟨g, hs, hm⟩ | hm)
    · obtain ⟨t, rfl, hc, ⟨x, hx, hxp⟩, hnot⟩ := mem_referencesInFile.1 hm
      refine .inl ⟨g, t, rfl, hs, hc, ?_, x, (position_mem ha hn (near_mentioned hx)).1 hxp, hx⟩
      intro hd
      exact hnot ((position_mem ha hn (.name hc)).2 hd)
    · rw [hres, List.mem_filter, mem_declarationsOf] at hm
      obtain ⟨hd, hsa⟩ := hm
      cases incl <;> cases goal <;> simp [shouldAdd, file_eq] at hsa ⊢ <;>
        first | exact .inr ⟨hd, hsa⟩ | exact .inr hd | (exact absurd hsa (by decide))
  · rintro (⟨g, t, rfl, hs, hc, hnd, x, hx, hnear⟩ | ⟨hi, hd, hg⟩)
    · refine .inl ⟨g, hs, mem_referencesInFile.2 ⟨t, rfl, hc, ⟨x, hnear, ?_⟩, ?_⟩⟩
      · exact (position_mem ha hn (near_mentioned hnear)).2 hx
      · intro hpos
        exact hnd ((position_mem ha hn (.name hc)).1 hpos)
    · right
      rw [hres, List.mem_filter, mem_declarationsOf]
      refine ⟨hd, ?_⟩
      subst hi
      cases goal <;> simp [shouldAdd, file_eq] at hg ⊢
      exact hg

/-! ### No repetitions -/

theorem nodup_referencesInFile {w : World} (hw : WellFormed w) {positions : List (Nat × Nat)}
    {name : String} {file : Nat} : (referencesInFile w positions name file).Nodup := by
  have gen : ∀ l : List (Nat × String), (l.map (·.1)).Nodup →
      (l.filterMap fun (s, code) =>
        if code == name then
          if (targets w file s).any (fun n => positions.contains (uniquePosition n)) then
            if !positions.contains (uniquePosition (.tree file s)) then some (Name.tree file s)
            else none
          else none
        else none).Nodup := by
    intro l
    induction l with
    | nil => intro _; simp
    | cons a l ih =>
      intro hl
      rw [List.map_cons, List.nodup_cons] at hl
      obtain ⟨h1, h2⟩ := hl
      rw [List.filterMap_cons]
      split
      · exact ih h2
      · rename_i b hb
        rw [List.nodup_cons]
        refine ⟨?_, ih h2⟩
        have hb' : b = .tree file a.1 := by
          dsimp only at hb
          split at hb
          · split at hb
            · split at hb
              · injection hb with hb; exact hb.symm
              · cases hb
            · cases hb
          · cases hb
        intro hmem
        obtain ⟨⟨t, c⟩, hx, hxb⟩ := List.mem_filterMap.1 hmem
        dsimp only at hxb
        have : b = .tree file t := by
          split at hxb
          · split at hxb
            · split at hxb
              · injection hxb with hxb; exact hxb.symm
              · cases hxb
            · cases hxb
          · cases hxb
        rw [hb'] at this
        injection this with _ this
        exact h1 (List.mem_map.2 ⟨(t, c), hx, this.symm⟩)
  exact gen _ (hw.names file)

theorem file_of_mem_referencesInFile {w : World} {positions : List (Nat × Nat)}
    {name : String} {file : Nat} {m : Name} (h : m ∈ referencesInFile w positions name file) :
    fileOf m = file := by
  obtain ⟨t, rfl, _⟩ := mem_referencesInFile.1 h
  rfl

theorem nodup_referencesInFiles {w : World} (hw : WellFormed w) {positions : List (Nat × Nat)}
    {name : String} {files : List Nat} (hf : files.Nodup) :
    (referencesInFiles w positions name files).Nodup := by
  unfold referencesInFiles
  have h : (files.filter (w.mentions · name)).Nodup := hf.filter _
  revert h
  generalize files.filter (w.mentions · name) = l
  intro h
  induction l with
  | nil => simp
  | cons a l ih =>
    rw [List.nodup_cons] at h
    rw [List.flatMap_cons, List.nodup_append]
    refine ⟨nodup_referencesInFile hw, ih h.2, ?_⟩
    intro x hx y hy hxy
    subst hxy
    obtain ⟨b, hb, hxb⟩ := List.mem_flatMap.1 hy
    have h1 := file_of_mem_referencesInFile hx
    have h2 := file_of_mem_referencesInFile hxb
    rw [h1] at h2
    rw [h2] at h
    exact h.1 hb

theorem nodup_withOthers {w : World} (hw : WellFormed w) (n : Name) : (withOthers w n).Nodup := by
  cases n with
  | tree f s =>
    have h := hw.others f s
    rw [List.nodup_cons] at h
    simp only [withOthers]
    rw [List.nodup_cons]
    refine ⟨?_, ?_⟩
    · intro hm
      obtain ⟨t, ht, he⟩ := List.mem_map.1 hm
      injection he with _ he
      subst he
      exact h.1 ht
    · have h2 := h.2
      revert h2
      generalize w.others f s = l
      intro h2
      induction l with
      | nil => simp
      | cons a l ih =>
        rw [List.nodup_cons] at h2
        rw [List.map_cons, List.nodup_cons]
        refine ⟨?_, ih h2.2⟩
        intro hm
        obtain ⟨t, ht, he⟩ := List.mem_map.1 hm
        injection he with _ he
        subst he
        exact h2.1 ht
  | module f => simp [withOthers]
  | node f s => simp [withOthers]

theorem file_of_mem_withOthers {w : World} {n d : Name} (h : d ∈ withOthers w n) :
    fileOf d = fileOf n := by
  rcases mem_withOthers.1 h with rfl | ⟨f, s, t, rfl, _, rfl⟩ <;> rfl

theorem nodup_declarationsOf {w : World} (hw : WellFormed w) (n : Name) :
    (declarationsOf w n).Nodup := by
  unfold declarationsOf
  rw [List.nodup_append]
  cases hc : w.counterpart n with
  | none => exact ⟨by simp, nodup_withOthers hw n, by intro a ha; cases ha⟩
  | some o =>
    refine ⟨nodup_withOthers hw o, nodup_withOthers hw n, ?_⟩
    intro a ha b hb hab
    subst hab
    have h1 := file_of_mem_withOthers ha
    have h2 := file_of_mem_withOthers hb
    exact hw.counterpart n o hc (h1.symm.trans h2)

theorem nodup_search {w : World} (hw : WellFormed w) {d : Definitions} {goal : Goal} {f : Nat}
    {name : String} : (search w d goal f name).Nodup := by
  unfold search
  split
  · exact nodup_referencesInFile hw
  · cases goal with
    | onlyCurrentFile => exact nodup_referencesInFile hw
    | onlyTypeCheckedWorkspaces => exact nodup_referencesInFiles hw hw.checked
    | allFilesIncludingDependencies => exact nodup_referencesInFiles hw hw.all

theorem not_position_of_mem_search {w : World} {d : Definitions} {goal : Goal} {f : Nat}
    {name : String} {m : Name} (h : m ∈ search w d goal f name) :
    uniquePosition m ∉ d.positions := by
  have inFile : ∀ {g}, m ∈ referencesInFile w d.positions name g →
      uniquePosition m ∉ d.positions := by
    intro g hm
    obtain ⟨_, _, _, _, h⟩ := mem_referencesInFile.1 hm
    exact h
  have inFiles : ∀ {fs}, m ∈ referencesInFiles w d.positions name fs →
      uniquePosition m ∉ d.positions := by
    intro fs hm
    obtain ⟨g, _, hm⟩ := List.mem_flatMap.1 hm
    exact inFile hm
  unfold search at h
  split at h
  · exact inFile h
  · cases goal with
    | onlyCurrentFile => exact inFile h
    | onlyTypeCheckedWorkspaces => exact inFiles h
    | allFilesIncludingDependencies => exact inFiles h

/-! ### Recording the changes of a rename -/

theorem changed_pushChange {c : List (Nat × List Nat)} {f s g t : Nat} :
    (∃ l, (g, l) ∈ pushChange c f s ∧ t ∈ l) ↔
      (∃ l, (g, l) ∈ c ∧ t ∈ l) ∨ (g = f ∧ t = s) := by
  induction c with
  | nil =>
    simp only [pushChange, List.mem_singleton, Prod.mk.injEq]
    constructor
    · rintro ⟨l, ⟨h1, rfl⟩, h⟩
      exact .inr ⟨h1, by simpa using h⟩
    · rintro (⟨l, h, _⟩ | ⟨h1, h2⟩)
      · cases h
      · exact ⟨[s], ⟨h1, rfl⟩, by simpa using h2⟩
  | cons a c ih =>
    obtain ⟨k, v⟩ := a
    simp only [pushChange]
    split
    · rename_i hk
      have hk' : k = f := eq_of_beq hk
      subst hk'
      constructor
      · rintro ⟨l, hl, ht⟩
        rcases List.mem_cons.1 hl with h | h
        · injection h with h1 h2
          subst h1; subst h2
          rcases List.mem_append.1 ht with ht | ht
          · exact .inl ⟨v, List.mem_cons_self, ht⟩
          · exact .inr ⟨rfl, by simpa using ht⟩
        · exact .inl ⟨l, List.mem_cons_of_mem _ h, ht⟩
      · rintro (⟨l, hl, ht⟩ | ⟨rfl, rfl⟩)
        · rcases List.mem_cons.1 hl with h | h
          · injection h with h1 h2
            subst h1; subst h2
            exact ⟨_, List.mem_cons_self, List.mem_append_left _ ht⟩
          · exact ⟨l, List.mem_cons_of_mem _ h, ht⟩
        · exact ⟨_, List.mem_cons_self, List.mem_append_right _ (by simp)⟩
    · constructor
      · rintro ⟨l, hl, ht⟩
        rcases List.mem_cons.1 hl with h | h
        · exact .inl ⟨l, by rw [h]; exact List.mem_cons_self, ht⟩
        · rcases ih.1 ⟨l, h, ht⟩ with ⟨l', h', ht'⟩ | h'
          · exact .inl ⟨l', List.mem_cons_of_mem _ h', ht'⟩
          · exact .inr h'
      · rintro (⟨l, hl, ht⟩ | h)
        · rcases List.mem_cons.1 hl with h | h
          · exact ⟨l, by rw [h]; exact List.mem_cons_self, ht⟩
          · obtain ⟨l', h', ht'⟩ := ih.2 (.inl ⟨l, h, ht⟩)
            exact ⟨l', List.mem_cons_of_mem _ h', ht'⟩
        · obtain ⟨l', h', ht'⟩ := ih.2 (.inr h)
          exact ⟨l', List.mem_cons_of_mem _ h', ht'⟩

theorem keys_pushChange {c : List (Nat × List Nat)} {f s k : Nat} :
    k ∈ (pushChange c f s).map (·.1) ↔ k ∈ c.map (·.1) ∨ k = f := by
  induction c with
  | nil => simp [pushChange]
  | cons a c ih =>
    obtain ⟨k', v⟩ := a
    simp only [pushChange]
    split
    · rename_i hk
      have hk' : k' = f := eq_of_beq hk
      subst hk'
      simp only [List.map_cons, List.mem_cons]
      constructor
      · rintro (h | h)
        · exact .inr h
        · exact .inl (.inr h)
      · rintro ((h | h) | h)
        · exact .inl h
        · exact .inr h
        · exact .inl h
    · simp only [List.map_cons, List.mem_cons, ih]
      constructor
      · rintro (h | h | h)
        · exact .inl (.inl h)
        · exact .inl (.inr h)
        · exact .inr h
      · rintro ((h | h) | h)
        · exact .inl h
        · exact .inr (.inl h)
        · exact .inr (.inr h)

theorem nodup_keys_pushChange {c : List (Nat × List Nat)} {f s : Nat}
    (h : (c.map (·.1)).Nodup) : ((pushChange c f s).map (·.1)).Nodup := by
  induction c with
  | nil => simp [pushChange]
  | cons a c ih =>
    obtain ⟨k', v⟩ := a
    rw [List.map_cons, List.nodup_cons] at h
    simp only [pushChange]
    split
    · rw [List.map_cons, List.nodup_cons]
      exact h
    · rename_i hk
      rw [List.map_cons, List.nodup_cons]
      refine ⟨?_, ih h.2⟩
      intro hm
      rcases keys_pushChange.1 hm with hm | hm
      · exact h.1 hm
      · exact hk (by simpa using hm)

theorem nodup_pushChange {c : List (Nat × List Nat)} {f s : Nat}
    (hk : (c.map (·.1)).Nodup) (h : ∀ g l, (g, l) ∈ c → l.Nodup)
    (hnew : ∀ l, (f, l) ∈ c → s ∉ l) : ∀ g l, (g, l) ∈ pushChange c f s → l.Nodup := by
  induction c with
  | nil =>
    intro g l hm
    simp only [pushChange, List.mem_singleton, Prod.mk.injEq] at hm
    rw [hm.2]; simp
  | cons a c ih =>
    obtain ⟨k', v⟩ := a
    rw [List.map_cons, List.nodup_cons] at hk
    intro g l hm
    simp only [pushChange] at hm
    split at hm
    · rename_i hkf
      have hk' : k' = f := eq_of_beq hkf
      subst hk'
      rcases List.mem_cons.1 hm with hm | hm
      · injection hm with h1 h2
        rw [h2, List.nodup_append]
        refine ⟨h k' v List.mem_cons_self, by simp, ?_⟩
        intro x hx y hy hxy
        rw [List.mem_singleton] at hy
        rw [hxy, hy] at hx
        exact hnew v List.mem_cons_self hx
      · exact h g l (List.mem_cons_of_mem _ hm)
    · rcases List.mem_cons.1 hm with hm | hm
      · injection hm with h1 h2
        subst h1; subst h2
        exact h _ _ List.mem_cons_self
      · exact ih hk.2 (fun g l hm => h g l (List.mem_cons_of_mem _ hm))
          (fun l hm => hnew l (List.mem_cons_of_mem _ hm)) g l hm

theorem changed_foldl {refs : List Name} {c : RenameChanges} {g t : Nat} :
    Changed (refs.foldl record c) g t ↔ Changed c g t ∨ Name.tree g t ∈ refs := by
  induction refs generalizing c with
  | nil => simp
  | cons a refs ih =>
    rw [List.foldl_cons, ih]
    have : Changed (record c a) g t ↔ Changed c g t ∨ Name.tree g t = a := by
      cases a with
      | tree f s =>
        unfold Changed record
        rw [changed_pushChange]
        simp only [Name.tree.injEq]
      | module f => simp [Changed, record]
      | node f s => simp [Changed, record]
    rw [this, List.mem_cons, or_assoc]

theorem fileRenames_foldl {refs : List Name} {c : RenameChanges} {g : Nat} :
    g ∈ (refs.foldl record c).fileRenames ↔ g ∈ c.fileRenames ∨ Name.module g ∈ refs := by
  induction refs generalizing c with
  | nil => simp
  | cons a refs ih =>
    rw [List.foldl_cons, ih]
    cases a with
    | tree f s => simp [record]
    | module f => simp [record, or_assoc]
    | node f s => simp [record]

theorem keys_foldl {refs : List Name} {c : RenameChanges} (h : (c.changes.map (·.1)).Nodup) :
    ((refs.foldl record c).changes.map (·.1)).Nodup := by
  induction refs generalizing c with
  | nil => exact h
  | cons a refs ih =>
    rw [List.foldl_cons]
    apply ih
    cases a with
    | tree f s => exact nodup_keys_pushChange h
    | module f => exact h
    | node f s => exact h

theorem nodup_foldl {refs : List Name} {c : RenameChanges} (hk : (c.changes.map (·.1)).Nodup)
    (h : ∀ g l, (g, l) ∈ c.changes → l.Nodup) (hr : refs.Nodup)
    (hnew : ∀ g t, Name.tree g t ∈ refs → ¬ Changed c g t) :
    ∀ g l, (g, l) ∈ (refs.foldl record c).changes → l.Nodup := by
  induction refs generalizing c with
  | nil => exact h
  | cons a refs ih =>
    rw [List.nodup_cons] at hr
    rw [List.foldl_cons]
    have key : ∀ g t, Name.tree g t ∈ refs → ¬ Changed (record c a) g t := by
      intro g t hm hch
      cases a with
      | tree f s =>
        unfold Changed record at hch
        rw [changed_pushChange] at hch
        rcases hch with hch | ⟨rfl, rfl⟩
        · exact hnew g t (List.mem_cons_of_mem _ hm) hch
        · exact hr.1 hm
      | module f => exact hnew g t (List.mem_cons_of_mem _ hm) hch
      | node f s => exact hnew g t (List.mem_cons_of_mem _ hm) hch
    refine ih ?_ ?_ hr.2 key
    · cases a with
      | tree f s => exact nodup_keys_pushChange hk
      | module f => exact hk
      | node f s => exact hk
    · cases a with
      | tree f s =>
        exact nodup_pushChange hk h
          (fun l hl hs => hnew f s List.mem_cons_self ⟨l, hl, hs⟩)
      | module f => exact h
      | node f s => exact h

end Verif.References
