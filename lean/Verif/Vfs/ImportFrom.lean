import Verif.Vfs.ImportLemmas

/-! # Import resolution: the search -/

namespace Verif.Vfs

/-- What is known about an import after the search in `dirs`. -/
structure Searched (docs : Docs) (d : Disk) (i : Nat) (follow stubs : Bool) (name : String) (dirs : List (Path × Bool)) (ns : List Path)
    (r : Option Resolution) (s' : Vfs) : Prop where
  file : ∀ f, r = some (.file f) ∨ r = some (.untyped f) → FirstFile docs d ((dirs.map (·.1)).flatMap (candidates stubs name)) f
  other : (∀ f, r ≠ some (.file f) ∧ r ≠ some (.untyped f)) →
    (∀ x ∈ (dirs.map (·.1)).flatMap (candidates stubs name), ¬ HasFile docs d x) ∧
    ∃ l, l = ((dirs.map (·.1)).map (· ++ [name])).filter (fun p => diskGet d p == some .dir) ∧
      r = (if (ns ++ l).isEmpty then none else some (.namespace (ns ++ l))) ∧
      ((∀ p ∈ dirs.map (·.1), PlainDir docs d stubs name p) → NotedNs s' i stubs name (dirs.map (·.1)) l)
  noted : (∀ p ∈ dirs.map (·.1), PlainDir docs d stubs name p) → ∀ f, r = some (.file f) → NotedFile s' i stubs name (dirs.map (·.1)) f
  typed : ∀ f, r = some (.untyped f) → follow = false ∧ ∃ p, (p, true) ∈ dirs

theorem findModule_cases (stubs : Bool) (name : String) (p : Path) (s : Vfs) :
    (findModule stubs name p s = some (p ++ [name ++ ".pyi"]) ∧ stubs = true ∧ isFile s (p ++ [name ++ ".pyi"]) = true) ∨
    (findModule stubs name p s = some (p ++ [name ++ ".py"]) ∧ (stubs = true → isFile s (p ++ [name ++ ".pyi"]) = false) ∧ isFile s (p ++ [name ++ ".py"]) = true) ∨
    (findModule stubs name p s = none ∧ (stubs = true → isFile s (p ++ [name ++ ".pyi"]) = false) ∧ isFile s (p ++ [name ++ ".py"]) = false) := by
  rw [findModule]
  cases stubs <;> cases h1 : isFile s (p ++ [name ++ ".pyi"]) <;> cases h2 : isFile s (p ++ [name ++ ".py"]) <;> simp

theorem searched_later {docs : Docs} {d : Disk} {i : Nat} {follow stubs : Bool} {name : String} {p : Path} {needs : Bool} {rest : List (Path × Bool)} {ns : List Path}
    {had : Bool} {r : Option Resolution} {s s' : Vfs} (hg : Going docs d i s s')
    (hno : ∀ x ∈ candidates stubs name p, ¬ HasFile docs d x) (hhad : had = true ↔ HasDir d (p ++ [name]))
    (hnoted : PlainDir docs d stubs name p → PassedModules s i stubs name p ∧
      (had = false → NotesMissing s i (p ++ [name])) ∧
      (had = true → NotesMissing s i (p ++ [name] ++ ["__init__.pyi"]) ∧ NotesMissing s i (p ++ [name] ++ ["__init__.py"])))
    (h : Searched docs d i follow stubs name rest (if had then ns ++ [p ++ [name]] else ns) r s') :
    Searched docs d i follow stubs name ((p, needs) :: rest) ns r s' := by
  have hnoted' : PlainDir docs d stubs name p → PassedModules s' i stubs name p ∧
      (had = false → NotesMissing s' i (p ++ [name])) ∧
      (had = true → NotesMissing s' i (p ++ [name] ++ ["__init__.pyi"]) ∧ NotesMissing s' i (p ++ [name] ++ ["__init__.py"])) := by
    intro hp
    obtain ⟨a, b, c⟩ := hnoted hp
    exact ⟨⟨hg.missing a.py, fun hs => hg.missing (a.pyi hs)⟩, fun hh => hg.missing (b hh), fun hh => ⟨hg.missing (c hh).1, hg.missing (c hh).2⟩⟩
  refine ⟨?_, ?_, ?_, ?_⟩
  · intro f hf
    obtain ⟨a, b, h1, h2, h3⟩ := h.file f hf
    refine ⟨candidates stubs name p ++ a, b, ?_, h2, ?_⟩
    · rw [List.map_cons, List.flatMap_cons, h1, List.append_assoc]
    · intro x hx
      rcases List.mem_append.mp hx with hx | hx
      · exact hno x hx
      · exact h3 x hx
  · intro hr
    obtain ⟨h1, l, h2, h3, h4⟩ := h.other hr
    refine ⟨?_, (if had then (p ++ [name]) :: l else l), ?_, ?_, ?_⟩
    · intro x hx
      rw [List.map_cons, List.flatMap_cons] at hx
      rcases List.mem_append.mp hx with hx | hx
      · exact hno x hx
      · exact h1 x hx
    · rw [List.map_cons, List.map_cons, List.filter_cons]
      cases had with
      | true =>
        have : diskGet d (p ++ [name]) = some .dir := hhad.mp rfl
        simp [this, h2]
      | false =>
        have : ¬ diskGet d (p ++ [name]) = some .dir := fun hd => by cases hhad.mpr hd
        simp [this, h2]
    · rw [h3]
      cases had <;> simp
    · intro hp
      obtain ⟨a, b, c⟩ := hnoted' (hp p (by simp))
      have hrest := h4 (fun q hq => hp q (by rw [List.map_cons]; exact List.mem_cons_of_mem _ hq))
      cases had with
      | true => exact .dir a (c rfl).1 (c rfl).2 hrest
      | false => exact .skip a (b rfl) hrest
  · intro hp f hf
    obtain ⟨a, b, c⟩ := hnoted' (hp p (by simp))
    have hrest := h.noted (fun q hq => hp q (by rw [List.map_cons]; exact List.mem_cons_of_mem _ hq)) f hf
    cases had with
    | true => exact .dir a (c rfl).1 (c rfl).2 hrest
    | false => exact .skip a (b rfl) hrest
  · intro f hf
    obtain ⟨h1, q, h2⟩ := h.typed f hf
    exact ⟨h1, q, List.mem_cons_of_mem _ h2⟩

/-- A file was found in the first directory. -/
theorem searched_here {docs : Docs} {d : Disk} {i : Nat} {follow stubs : Bool} {name : String} {p f : Path} {needs : Bool} {rest : List (Path × Bool)} {ns : List Path}
    {r : Resolution} {s' : Vfs} (hr : r = .file f ∨ r = .untyped f ∧ follow = false ∧ needs = true) (hf : FirstFile docs d (candidates stubs name p) f)
    (hn : PlainDir docs d stubs name p → r = .file f → NotedFile s' i stubs name (p :: rest.map (·.1)) f) :
    Searched docs d i follow stubs name ((p, needs) :: rest) ns (some r) s' := by
  refine ⟨?_, ?_, ?_, ?_⟩
  · intro g hg
    have : g = f := by
      rcases hr with rfl | ⟨rfl, _⟩ <;> rcases hg with hg | hg <;> cases hg <;> rfl
    subst this
    obtain ⟨a, b, h1, h2, h3⟩ := hf
    refine ⟨a, b ++ (rest.map (·.1)).flatMap (candidates stubs name), ?_, h2, h3⟩
    rw [List.map_cons, List.flatMap_cons, h1]; simp
  · intro hno
    rcases hr with rfl | ⟨rfl, _⟩
    · exact absurd rfl (hno f).1
    · exact absurd rfl (hno f).2
  · intro hp g hg
    rcases hr with rfl | ⟨rfl, _⟩ <;> cases hg
    exact hn (hp p (by simp)) rfl
  · intro g hg
    rcases hr with rfl | ⟨rfl, h2, h3⟩ <;> cases hg
    subst h3
    exact ⟨h2, p, by simp⟩

theorem Going.node {docs : Docs} {d : Disk} {i : Nat} {s s' : Vfs} (g : Going docs d i s s') (h : Neat docs d s) {p : Path}
    (hp : p = [] ∨ ∃ b, treeGet s.tree p = some (.dir b)) : p = [] ∨ ∃ b, treeGet s'.tree p = some (.dir b) := by
  rcases hp with hp | ⟨b, hb⟩
  · exact .inl hp
  · refine .inr (g.neat.mirror.dir p (h.inv.base.closed p _ hb).1 ?_ (h.mirror.dirBack _ b hb))
    intro q h1 h2 h3
    exact g.dirs q ((h.inv.base.closed p _ hb).2 q h1 h2 h3)

/-- A directory entry without a file of the package. -/
def afterInit (d : Disk) (i : Nat) (follow stubs : Bool) (name : String) (p : Path) (needs : Bool) (rest : List (Path × Bool)) (ns : List Path) (isDir : Bool) (s1 : Vfs) :
    Option Resolution × Vfs :=
  match findModule stubs name p s1 with
  | some f =>
    if needs && !follow then (some (.untyped f), reserve d f s1)
    else (some (.file f), takeFile d i f s1)
  | none =>
    importFrom d i follow stubs name rest (if isDir then ns ++ [p ++ [name]] else ns) (noteDirectory i stubs name p isDir s1)

theorem importFrom_plain {d : Disk} {i : Nat} {follow stubs : Bool} {name : String} {p : Path} {needs : Bool} {rest : List (Path × Bool)} {ns : List Path} {s : Vfs}
    (h : ∀ b, treeGet (entriesOf d p s).tree (p ++ [name]) ≠ some (.dir b)) :
    importFrom d i follow stubs name ((p, needs) :: rest) ns s = afterInit d i follow stubs name p needs rest ns false (entriesOf d p s) := by
  rw [importFrom]
  cases hg : treeGet (entriesOf d p s).tree (p ++ [name]) with
  | none => rfl
  | some n =>
    cases n with
    | dir b => exact absurd hg (h b)
    | file e => rfl
    | missing l => rfl

theorem importFrom_dir {d : Disk} {i : Nat} {follow stubs : Bool} {name : String} {p : Path} {needs : Bool} {rest : List (Path × Bool)} {ns : List Path} {s : Vfs} {b : Bool}
    (h : treeGet (entriesOf d p s).tree (p ++ [name]) = some (.dir b)) (o : Option Path) (s1 : Vfs) (hi : loadInit d i (p ++ [name]) (entriesOf d p s) = (o, s1)) :
    importFrom d i follow stubs name ((p, needs) :: rest) ns s =
      match o with
      | some f => (some (if needs && !follow && !hasTyped s1 (p ++ [name]) then .untyped f else .file f), s1)
      | none => afterInit d i follow stubs name p needs rest ns true s1 := by
  rw [importFrom, h]
  simp only [if_true, hi]
  cases o <;> rfl

theorem first_py {docs : Docs} {d : Disk} {stubs : Bool} {name : String} {p : Path} (h1 : ¬ HasFile docs d (p ++ [name] ++ ["__init__.pyi"]))
    (h2 : ¬ HasFile docs d (p ++ [name] ++ ["__init__.py"])) (h3 : stubs = true → ¬ HasFile docs d (p ++ [name ++ ".pyi"])) (h4 : HasFile docs d (p ++ [name ++ ".py"])) :
    FirstFile docs d (candidates stubs name p) (p ++ [name ++ ".py"]) := by
  refine ⟨[p ++ [name, "__init__.pyi"], p ++ [name, "__init__.py"]] ++ (if stubs then [p ++ [name ++ ".pyi"]] else []), [], rfl, h4, ?_⟩
  rw [List.append_assoc] at h1 h2
  intro x hx
  cases stubs with
  | true =>
    simp only [if_true, List.cons_append, List.nil_append, List.mem_cons, List.not_mem_nil, or_false] at hx
    rcases hx with rfl | rfl | rfl
    · exact h1
    · exact h2
    · exact h3 rfl
  | false =>
    simp only [Bool.false_eq_true, if_false, List.append_nil, List.mem_cons, List.not_mem_nil, or_false] at hx
    rcases hx with rfl | rfl
    · exact h1
    · exact h2

theorem first_pyi {docs : Docs} {d : Disk} {name : String} {p : Path} (h1 : ¬ HasFile docs d (p ++ [name] ++ ["__init__.pyi"]))
    (h2 : ¬ HasFile docs d (p ++ [name] ++ ["__init__.py"])) (h4 : HasFile docs d (p ++ [name ++ ".pyi"])) :
    FirstFile docs d (candidates true name p) (p ++ [name ++ ".pyi"]) := by
  refine ⟨[p ++ [name, "__init__.pyi"], p ++ [name, "__init__.py"]], [p ++ [name ++ ".py"]], rfl, h4, ?_⟩
  rw [List.append_assoc] at h1 h2
  intro x hx
  simp only [List.mem_cons, List.not_mem_nil, or_false] at hx
  rcases hx with rfl | rfl
  · exact h1
  · exact h2

theorem first_init {docs : Docs} {d : Disk} {stubs : Bool} {name : String} {p : Path} (h1 : ¬ HasFile docs d (p ++ [name] ++ ["__init__.pyi"]))
    (h2 : HasFile docs d (p ++ [name] ++ ["__init__.py"])) : FirstFile docs d (candidates stubs name p) (p ++ [name] ++ ["__init__.py"]) := by
  refine ⟨[p ++ [name, "__init__.pyi"]], (if stubs then [p ++ [name ++ ".pyi"]] else []) ++ [p ++ [name ++ ".py"]], ?_, h2, ?_⟩
  · simp [candidates]
  · rw [List.append_assoc] at h1
    intro x hx
    simp only [List.mem_cons, List.not_mem_nil, or_false] at hx
    subst hx; exact h1

theorem first_stub {docs : Docs} {d : Disk} {stubs : Bool} {name : String} {p : Path}
    (h2 : HasFile docs d (p ++ [name] ++ ["__init__.pyi"])) : FirstFile docs d (candidates stubs name p) (p ++ [name] ++ ["__init__.pyi"]) := by
  refine ⟨[], [p ++ [name, "__init__.py"]] ++ (if stubs then [p ++ [name ++ ".pyi"]] else []) ++ [p ++ [name ++ ".py"]], ?_, h2, ?_⟩
  · simp [candidates]
  · intro x hx; cases hx

/-- A file in a directory is in a directory. -/
theorem dir_above {docs : Docs} {d : Disk} (hd : DiskOk d) (hh : Housed docs d) {p : Path} {a b : String} (h : HasFile docs d (p ++ [a] ++ [b])) : HasDir d (p ++ [a]) := by
  have hne : p ++ [a] ≠ p ++ [a] ++ [b] := by
    intro h
    have := congrArg List.length h
    simp at this
  rcases h with ⟨t, h⟩ | ⟨t, h⟩
  · exact (hh _ t h).2 _ (by simp) (List.prefix_append _ _) hne
  · exact hd _ _ h _ (by simp) (List.prefix_append _ _) hne

theorem importFrom_spec {docs : Docs} {d : Disk} {i : Nat} {follow stubs : Bool} {name : String} (hl : Listed d) (hd : DiskOk d) (hh : Housed docs d) :
    ∀ (dirs : List (Path × Bool)) (ns : List Path) (s : Vfs), Neat docs d s → i < s.files.length →
    (∀ x ∈ dirs, x.1 = [] ∨ ∃ b, treeGet s.tree x.1 = some (.dir b)) →
    ∀ r s', importFrom d i follow stubs name dirs ns s = (r, s') → Going docs d i s s' ∧ Searched docs d i follow stubs name dirs ns r s' := by
  intro dirs
  induction dirs with
  | nil =>
    intro ns s h hi _ r s' hr
    rw [importFrom] at hr
    cases hr
    refine ⟨.refl h hi, ?_, ?_, ?_, ?_⟩
    · intro f hf
      exfalso
      rcases hf with hf | hf <;> split at hf <;> cases hf
    · intro _
      exact ⟨by simp, [], rfl, by simp, fun _ => .nil⟩
    · intro _ f hf
      exfalso
      split at hf <;> cases hf
    · intro f hf
      exfalso
      split at hf <;> cases hf
  | cons x rest ih =>
    obtain ⟨p, needs⟩ := x
    intro ns s h hi hdirs r s' hr
    obtain ⟨g0, g0'⟩ := entriesOf_going (i := i) p h hl hi
    have hp0 : p = [] ∨ treeGet (entriesOf d p s).tree p = some (.dir true) := by
      rcases hdirs (p, needs) (by simp) with hp | hp
      · exact .inl hp
      · exact .inr (g0' hp)
    -- the part after the package
    have after : ∀ (had : Bool) (s1 : Vfs), Going docs d i (entriesOf d p s) s1 → (had = true ↔ HasDir d (p ++ [name])) →
        ¬ HasFile docs d (p ++ [name] ++ ["__init__.pyi"]) → ¬ HasFile docs d (p ++ [name] ++ ["__init__.py"]) →
        (PlainDir docs d stubs name p → had = true → NotesMissing s1 i (p ++ [name] ++ ["__init__.pyi"]) ∧ NotesMissing s1 i (p ++ [name] ++ ["__init__.py"])) →
        afterInit d i follow stubs name p needs rest ns had s1 = (r, s') →
        Going docs d i s s' ∧ Searched docs d i follow stubs name ((p, needs) :: rest) ns r s' := by
      intro had s1 g1 hhad hn1 hn2 hinit hr
      have hp1 : p = [] ∨ treeGet s1.tree p = some (.dir true) := hp0.imp_right (g1.dirs p)
      have found : ∀ f, findModule stubs name p s1 = some f → isFile s1 f = true → FirstFile docs d (candidates stubs name p) f →
          (f = p ++ [name ++ ".pyi"] ∧ stubs = true ∨ f = p ++ [name ++ ".py"]) →
          Going docs d i s s' ∧ Searched docs d i follow stubs name ((p, needs) :: rest) ns r s' := by
        intro f hf hff hfirst hform
        rw [afterInit, hf] at hr
        dsimp only at hr
        cases hc : needs && !follow with
        | true =>
          rw [hc] at hr
          rw [if_pos rfl] at hr
          cases hr
          simp only [Bool.and_eq_true, Bool.not_eq_true'] at hc
          exact ⟨g0.trans (g1.trans (reserve_going f g1.neat hl g1.lt)), searched_here (.inr ⟨rfl, hc.2, hc.1⟩) hfirst (by intro _ h; cases h)⟩
        | false =>
          rw [hc, if_neg (by simp)] at hr
          cases hr
          refine ⟨g0.trans (g1.trans (takeFile_going f g1.neat hl g1.lt)), searched_here (.inl rfl) hfirst (fun _ _ => .module ?_ hform)⟩
          exact takeFile_notes g1.neat hl g1.lt hff
      rcases findModule_cases stubs name p s1 with ⟨hf, hs, hff⟩ | ⟨hf, hs, hff⟩ | ⟨hf, hs, hff⟩
      · subst hs
        exact found _ hf hff (first_pyi hn1 hn2 ((isFile_there g1.neat hp1 _).mp hff)) (.inl ⟨rfl, rfl⟩)
      · refine found _ hf hff (first_py hn1 hn2 ?_ ((isFile_there g1.neat hp1 _).mp hff)) (.inr rfl)
        intro hst hfile
        have := (isFile_there g1.neat hp1 _).mpr hfile
        rw [hs hst] at this; cases this
      · have hno : ∀ x ∈ candidates stubs name p, ¬ HasFile docs d x := by
          have n3 : stubs = true → ¬ HasFile docs d (p ++ [name ++ ".pyi"]) := by
            intro hst hfile
            have := (isFile_there g1.neat hp1 _).mpr hfile
            rw [hs hst] at this; cases this
          have n4 : ¬ HasFile docs d (p ++ [name ++ ".py"]) := by
            intro hfile
            have := (isFile_there g1.neat hp1 _).mpr hfile
            rw [hff] at this; cases this
          rw [List.append_assoc] at hn1 hn2
          intro x hx
          cases hst : stubs with
          | true =>
            rw [hst] at hx
            simp only [candidates, if_true, List.cons_append, List.nil_append, List.mem_cons, List.not_mem_nil, or_false] at hx
            rcases hx with rfl | rfl | rfl | rfl
            · exact hn1
            · exact hn2
            · exact n3 hst
            · exact n4
          | false =>
            rw [hst] at hx
            simp only [candidates, Bool.false_eq_true, if_false, List.append_nil, List.cons_append, List.nil_append, List.mem_cons, List.not_mem_nil, or_false] at hx
            rcases hx with rfl | rfl | rfl
            · exact hn1
            · exact hn2
            · exact n4
        rw [afterInit, hf] at hr
        dsimp only at hr
        obtain ⟨g2, m1, m2⟩ := noteDirectory_spec (stubs := stubs) (name := name) (had := had) g1.neat g1.lt hp1
        have g02 := g0.trans (g1.trans g2)
        obtain ⟨g3, hS⟩ := ih _ _ g2.neat g2.lt (fun x hx => g02.node h (hdirs x (List.mem_cons_of_mem _ hx))) r s' hr
        refine ⟨g02.trans g3, searched_later g3 hno hhad ?_ hS⟩
        intro hp
        refine ⟨m1 (fun x hx => nothing_of (hno x hx) (hp.1 x hx)), ?_, ?_⟩
        · intro hf
          refine m2 hf (nothing_of hp.2 ?_)
          intro hdir
          rw [hf] at hhad
          cases hhad.mpr hdir
        · intro hf
          exact ⟨g2.missing (hinit hp hf).1, g2.missing (hinit hp hf).2⟩
    by_cases hdir : ∃ b, treeGet (entriesOf d p s).tree (p ++ [name]) = some (.dir b)
    · obtain ⟨b, hb⟩ := hdir
      have hD := (dir_there g0.neat hp0 name).mp ⟨b, hb⟩
      cases hli : loadInit d i (p ++ [name]) (entriesOf d p s) with
      | mk o s1 =>
        obtain ⟨g1, n1, n2⟩ := loadInit_spec g0.neat hl g0.lt ⟨b, hb⟩ o s1 hli
        rw [importFrom_dir hb o s1 hli] at hr
        cases o with
        | some f =>
          dsimp only at hr
          cases hr
          obtain ⟨k1, k2, k3⟩ := n2 f rfl
          refine ⟨g0.trans g1, searched_here (f := f) ?_ ?_ ?_⟩
          · cases hc : needs && !follow && !hasTyped s' (p ++ [name]) with
            | true =>
              rw [if_pos rfl]
              simp only [Bool.and_eq_true, Bool.not_eq_true'] at hc
              exact .inr ⟨rfl, hc.1.2, hc.1.1⟩
            | false => exact .inl (if_neg (by simp))
          · rcases k3 with rfl | ⟨rfl, k4, _⟩
            · exact first_stub k1
            · exact first_init k4 k1
          · intro hp _
            rcases k3 with rfl | ⟨rfl, k4, k5⟩
            · exact .stub k2
            · refine .init k2 (k5 (fun hdd => hp.1 _ ?_ hdd))
              simp [candidates]
        | none =>
          dsimp only at hr
          obtain ⟨k1, k2, k3, k4⟩ := n1 rfl
          refine after true s1 g1 (by simp [hD]) k1 k2 ?_ hr
          intro hp _
          exact ⟨k3 (fun hdd => hp.1 _ (by simp [candidates]) hdd), k4 (fun hdd => hp.1 _ (by simp [candidates]) hdd)⟩
    · have hnd : ¬ HasDir d (p ++ [name]) := fun hD => hdir ((dir_there g0.neat hp0 name).mpr hD)
      rw [importFrom_plain (fun b hb => hdir ⟨b, hb⟩)] at hr
      exact after false _ (.refl g0.neat g0.lt) (by simp [hnd]) (fun hf => hnd (dir_above hd hh hf)) (fun hf => hnd (dir_above hd hh hf)) (by intro _ h; cases h) hr

end Verif.Vfs
