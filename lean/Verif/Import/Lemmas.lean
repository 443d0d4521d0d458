import Verif.Import.Spec

namespace Verif.Import

variable {w : World}

theorem isFile_iff {p : Loc} : w.isFile p = true ↔ w.kind p = some .file := by
  simp [World.isFile]

theorem isDir_iff {p : Loc} : w.isDir p = true ↔ w.kind p = some .dir := by
  simp [World.isDir]

theorem isFile_false {p : Loc} (h : w.kind p ≠ some .file) : w.isFile p = false := by
  cases hb : w.isFile p with
  | true => exact absurd (isFile_iff.1 hb) h
  | false => rfl

theorem parent_sub (d : Loc) (e : Entry) : (d.sub e).parent = d := by
  simp [Loc.sub, Loc.parent]

theorem sub_root (d : Loc) (e : Entry) : (d.sub e).root = d.root := rfl

theorem sub_path (d : Loc) (e : Entry) : (d.sub e).path = d.path ++ [e] := rfl

/-! ## What `search` can find -/

/-- The file that is found for a name in a directory. -/
inductive FileOf (w : World) (n : Name) (d : Loc) : Loc → Prop
  | initPyi : w.kind (d.sub (.bare n)) = some .dir → w.kind ((d.sub (.bare n)).sub (.pyi initName)) = some .file →
    FileOf w n d ((d.sub (.bare n)).sub (.pyi initName))
  | initPy : w.kind (d.sub (.bare n)) = some .dir → w.kind ((d.sub (.bare n)).sub (.py initName)) = some .file →
    FileOf w n d ((d.sub (.bare n)).sub (.py initName))
  | pyi : w.kind (d.sub (.pyi n)) = some .file → FileOf w n d (d.sub (.pyi n))
  | py : w.kind (d.sub (.py n)) = some .file → FileOf w n d (d.sub (.py n))

theorem loadInit_some {d f : Loc} (h : loadInit w d = some f) :
    (f = d.sub (.pyi initName) ∨ f = d.sub (.py initName)) ∧ w.kind f = some .file := by
  unfold loadInit at h
  split at h
  · next h1 => cases h; exact ⟨.inl rfl, isFile_iff.1 h1⟩
  · split at h
    · next h1 => cases h; exact ⟨.inr rfl, isFile_iff.1 h1⟩
    · cases h

theorem findFile_some {b : Bool} {n : Name} {d f : Loc} (h : findFile w b n d = some f) :
    (f = d.sub (.pyi n) ∨ f = d.sub (.py n)) ∧ w.kind f = some .file := by
  unfold findFile at h
  split at h
  · next h1 =>
    cases h
    simp only [Bool.and_eq_true] at h1
    exact ⟨.inl rfl, isFile_iff.1 h1.2⟩
  · split at h
    · next h1 => cases h; exact ⟨.inr rfl, isFile_iff.1 h1⟩
    · cases h

/-- The cases of a search. -/
theorem search_cases {b : Bool} {n : Name} (ds : List (Loc × Bool)) (ns : List Loc) {r : Result}
    (h : search w b n ds ns = some r) :
    (∃ d needs f, (d, needs) ∈ ds ∧ FileOf w n d f ∧ (r = .file f ∧
        (needs = true → w.follow = true ∨
          w.kind ((d.sub (.bare n)).sub .typed) = some .file ∧ f.parent = d.sub (.bare n)) ∨
        needs = true ∧ r = .untyped f)) ∨
    ∃ ps, r = .portions (ns ++ ps) ∧ ∀ p ∈ ps, ∃ d needs, (d, needs) ∈ ds ∧ p = d.sub (.bare n) ∧
      w.kind p = some .dir := by
  induction ds generalizing ns with
  | nil =>
    unfold search at h
    split at h
    · cases h
    · cases h
      exact .inr ⟨[], by simp, by simp⟩
  | cons x ds ih =>
    obtain ⟨d, needs⟩ := x
    unfold search at h
    dsimp only at h
    split at h
    · next f hf =>
      left
      split at hf
      · next hd =>
        obtain ⟨hf1, hf2⟩ := loadInit_some hf
        have hfo : FileOf w n d f := by
          rcases hf1 with rfl | rfl
          · exact .initPyi (isDir_iff.1 hd) hf2
          · exact .initPy (isDir_iff.1 hd) hf2
        have hpar : f.parent = d.sub (.bare n) := by rcases hf1 with rfl | rfl <;> exact parent_sub _ _
        split at h
        · next hc =>
          cases h
          simp only [Bool.and_eq_true] at hc
          exact ⟨d, needs, f, List.mem_cons_self, hfo, .inr ⟨hc.1.1, rfl⟩⟩
        · next hc =>
          cases h
          refine ⟨d, needs, f, List.mem_cons_self, hfo, .inl ⟨rfl, ?_⟩⟩
          intro hn
          subst hn
          cases hfol : w.follow with
          | true => exact .inl rfl
          | false =>
            right
            refine ⟨?_, hpar⟩
            apply isFile_iff.1
            cases hb : w.isFile ((d.sub (.bare n)).sub .typed) with
            | true => rfl
            | false => simp [hfol, hb] at hc
      · cases hf
    · split at h
      · next f hf =>
        left
        obtain ⟨hf1, hf2⟩ := findFile_some hf
        have hfo : FileOf w n d f := by
          rcases hf1 with rfl | rfl
          · exact .pyi hf2
          · exact .py hf2
        split at h
        · next hc =>
          cases h
          simp only [Bool.and_eq_true] at hc
          exact ⟨d, needs, f, List.mem_cons_self, hfo, .inr ⟨hc.1, rfl⟩⟩
        · next hc =>
          cases h
          refine ⟨d, needs, f, List.mem_cons_self, hfo, .inl ⟨rfl, ?_⟩⟩
          intro hn
          subst hn
          left
          simpa using hc
      · rcases ih _ h with ⟨d', needs', f, hm, rest⟩ | ⟨ps, rfl, hps⟩
        · exact .inl ⟨d', needs', f, List.mem_cons_of_mem _ hm, rest⟩
        · right
          by_cases hd : w.isDir (d.sub (.bare n)) = true
          · refine ⟨d.sub (.bare n) :: ps, by simp [hd], ?_⟩
            intro p hp
            rcases List.mem_cons.1 hp with rfl | hp
            · exact ⟨d, needs, List.mem_cons_self, rfl, isDir_iff.1 hd⟩
            · obtain ⟨d', n', h1, h2⟩ := hps p hp
              exact ⟨d', n', List.mem_cons_of_mem _ h1, h2⟩
          · refine ⟨ps, by simp [hd], ?_⟩
            intro p hp
            obtain ⟨d', n', h1, h2⟩ := hps p hp
            exact ⟨d', n', List.mem_cons_of_mem _ h1, h2⟩

/-- Without the need for a marker. -/
theorem pythonImport_cases {ds : List Loc} {n : Name} {r : Result} (h : pythonImport w ds n = some r) :
    (∃ d ∈ ds, ∃ f, FileOf w n d f ∧ r = .file f) ∨
    ∃ ps, r = .portions ps ∧ ∀ p ∈ ps, ∃ d ∈ ds, p = d.sub (.bare n) ∧ w.kind p = some .dir := by
  unfold pythonImport at h
  rcases search_cases _ _ h with ⟨d, needs, f, hm, hf, hr⟩ | ⟨ps, rfl, hps⟩
  · left
    obtain ⟨d', hd', he⟩ := List.mem_map.1 hm
    injection he with h1 h2
    subst h1 h2
    refine ⟨d', hd', f, hf, ?_⟩
    rcases hr with ⟨hr, _⟩ | ⟨hn, _⟩
    · exact hr
    · cases hn
  · right
    refine ⟨ps, by simp, ?_⟩
    intro p hp
    obtain ⟨d, needs, hm, hr⟩ := hps p hp
    obtain ⟨d', hd', he⟩ := List.mem_map.1 hm
    injection he with h1 h2
    subst h1 h2
    exact ⟨d', hd', hr⟩

theorem isPackage_iff {p : Loc} : isPackage p = true ↔
    ∃ e, (e = .py initName ∨ e = .pyi initName) ∧ p = p.parent.sub e := by
  unfold isPackage
  rcases List.eq_nil_or_concat p.path with h | ⟨L, e, h⟩
  · simp only [h, List.getLast?_nil]
    constructor
    · intro hh; simp at hh
    · rintro ⟨e, _, he⟩
      have := congrArg Loc.path he
      simp [h, Loc.sub] at this
  · rw [List.concat_eq_append] at h
    have hp : p = p.parent.sub e := by
      cases p with | mk r q => simp only at h; subst h; simp [Loc.sub, Loc.parent]
    simp only [h, List.getLast?_append, List.getLast?_singleton, Option.some_or]
    constructor
    · intro hh
      refine ⟨e, ?_, hp⟩
      simpa using hh
    · rintro ⟨e', he', heq⟩
      have : e = e' := by
        have h1 := congrArg Loc.path (hp.symm.trans heq)
        simp [Loc.sub] at h1
        exact h1
      subst this
      rcases he' with rfl | rfl <;> simp

theorem subModule_cases {p : Loc} {n : Name} {r : Result} (h : subModule w p n = some r) :
    (∃ e, (e = .py initName ∨ e = .pyi initName) ∧ p = p.parent.sub e) ∧
      pythonImport w [p.parent] n = some r := by
  unfold subModule at h
  split at h
  · cases h
  · next hp =>
    refine ⟨isPackage_iff.1 (by simpa using hp), ?_⟩
    split at h
    · split at h
      · cases h
      · exact h
    · exact h

/-- A package with a directory. -/
theorem subModule_eq {d : Loc} {e : Entry} {n : Name} (he : e = .py initName ∨ e = .pyi initName)
    (hd : d.path ≠ []) : subModule w (d.sub e) n = pythonImport w [d] n := by
  unfold subModule
  have h1 : isPackage (d.sub e) = true := isPackage_iff.2 ⟨e, he, by rw [parent_sub]⟩
  have h2 : ¬ (d.sub e).path.length ≤ 1 := by
    rw [sub_path]
    cases hp : d.path with
    | nil => exact absurd hp hd
    | cons x xs => simp
  rw [if_neg (by simp [h1]), if_neg h2, parent_sub]

/-! ## Python's order -/

theorem loadInit_noStubs (hs : NoStubs w) (d : Loc) : loadInit w d =
    if w.isFile (d.sub (.py initName)) then some (d.sub (.py initName)) else none := by
  unfold loadInit
  rw [if_neg (by rw [isFile_false (hs.pyi d initName)]; simp)]

theorem findFile_noStubs (hs : NoStubs w) (b : Bool) (n : Name) (d : Loc) : findFile w b n d =
    if w.isFile (d.sub (.py n)) then some (d.sub (.py n)) else none := by
  unfold findFile
  rw [if_neg (by rw [isFile_false (hs.pyi d n)]; simp)]

theorem search_miss (hs : NoStubs w) {b needs : Bool} {n : Name} {d : Loc} {rest : List (Loc × Bool)} {ns : List Loc}
    (h : Misses w d n) : search w b n ((d, needs) :: rest) ns =
      search w b n rest (if w.isDir (d.sub (.bare n)) then ns ++ [d.sub (.bare n)] else ns) := by
  rw [search]
  have h1 : (if w.isDir (d.sub (.bare n)) = true then loadInit w (d.sub (.bare n)) else none) = none := by
    split
    · next hd =>
      rw [loadInit_noStubs hs, if_neg]
      intro hf
      exact h.1 ⟨isDir_iff.1 hd, isFile_iff.1 hf⟩
    · rfl
  have h2 : findFile w b n d = none := by
    rw [findFile_noStubs hs, if_neg]
    intro hf
    exact h.2 (isFile_iff.1 hf)
  rw [h1, h2]

theorem search_misses (hs : NoStubs w) {b : Bool} {n : Name} {pre rest : List (Loc × Bool)} {ns : List Loc}
    (h : ∀ e ∈ pre, Misses w e.1 n) : search w b n (pre ++ rest) ns =
      search w b n rest (ns ++ (((pre.map (·.1)).filter fun d => w.kind (d.sub (.bare n)) = some .dir).map
        fun d => d.sub (.bare n))) := by
  induction pre generalizing ns with
  | nil => simp
  | cons x pre ih =>
    obtain ⟨d, needs⟩ := x
    rw [List.cons_append, search_miss hs (h _ List.mem_cons_self), ih fun e he => h e (List.mem_cons_of_mem _ he)]
    by_cases hd : w.kind (d.sub (.bare n)) = some .dir
    · simp [hd, isDir_iff.2 hd]
    · have : w.isDir (d.sub (.bare n)) = false := by
        cases hb : w.isDir (d.sub (.bare n)) with
        | true => exact absurd (isDir_iff.1 hb) hd
        | false => rfl
      simp [hd, this]

theorem search_package (hs : NoStubs w) {b needs : Bool} {n : Name} {d : Loc} {rest : List (Loc × Bool)} {ns : List Loc}
    (hn : needs = true → w.follow = true) (h : HasPackage w d n) : search w b n ((d, needs) :: rest) ns =
      some (.file ((d.sub (.bare n)).sub (.py initName))) := by
  rw [search]
  rw [if_pos (isDir_iff.2 h.1), loadInit_noStubs hs,
    if_pos (show w.isFile ((d.sub (.bare n)).sub (.py initName)) = true from isFile_iff.2 h.2)]
  dsimp only
  rw [if_neg]
  cases needs with
  | true => simp [hn rfl]
  | false => simp

theorem search_module (hs : NoStubs w) {b needs : Bool} {n : Name} {d : Loc} {rest : List (Loc × Bool)} {ns : List Loc}
    (hn : needs = true → w.follow = true) (h : ¬ HasPackage w d n) (hm : HasModule w d n) :
    search w b n ((d, needs) :: rest) ns = some (.file (d.sub (.py n))) := by
  rw [search]
  have h1 : (if w.isDir (d.sub (.bare n)) = true then loadInit w (d.sub (.bare n)) else none) = none := by
    split
    · next hd =>
      rw [loadInit_noStubs hs, if_neg]
      intro hf
      exact h ⟨isDir_iff.1 hd, isFile_iff.1 hf⟩
    · rfl
  rw [h1, findFile_noStubs hs, if_pos (isFile_iff.2 hm)]
  dsimp only
  rw [if_neg]
  cases needs with
  | true => simp [hn rfl]
  | false => simp

/-- A search gives what Python finds. -/
theorem Finds.search (hs : NoStubs w) {b : Bool} {n : Name} {ds : List Loc} {m : Module} (g : Loc → Bool)
    (hg : ∀ d ∈ ds, g d = true → w.follow = true) (h : Finds w ds n m) :
    search w b n (ds.map fun d => (d, g d)) [] = some m.result := by
  cases h with
  | package hp hk =>
    rw [List.map_append, List.map_cons, search_misses hs, search_package hs (hg _ (by simp)) hk]
    · rfl
    · intro e he
      obtain ⟨d, hd, rfl⟩ := List.mem_map.1 he
      exact hp d hd
  | module hp hn hk =>
    rw [List.map_append, List.map_cons, search_misses hs, search_module hs (hg _ (by simp)) hn hk]
    · rfl
    · intro e he
      obtain ⟨d, hd, rfl⟩ := List.mem_map.1 he
      exact hp d hd
  | portions hp hk =>
    rw [← List.append_nil (ds.map fun d => (d, g d)), search_misses hs, Import.search]
    · simp only [List.nil_append, List.map_map]
      have : (ds.map ((fun x : Loc × Bool => x.1) ∘ fun d => (d, g d))) = ds := by
        simp [Function.comp_def]
      rw [this, if_neg]
      · rfl
      · simpa using hk
    · intro e he
      obtain ⟨d, hd, rfl⟩ := List.mem_map.1 he
      exact hp d hd

theorem Finds.pythonImport (hs : NoStubs w) {n : Name} {ds : List Loc} {m : Module} (h : Finds w ds n m) :
    pythonImport w ds n = some m.result :=
  Finds.search hs (fun _ => false) (fun _ _ h => nomatch h) h

/-- If there is no result, Python does not find anything. -/
theorem finds_total (ds : List Loc) (n : Name) : (∃ m, Finds w ds n m) ∨
    (∀ d ∈ ds, Misses w d n) ∧ (ds.filter fun d => w.kind (d.sub (.bare n)) = some .dir) = [] := by
  classical
  by_cases h : ∀ d ∈ ds, Misses w d n
  · by_cases hk : (ds.filter fun d => w.kind (d.sub (.bare n)) = some .dir) = []
    · exact .inr ⟨h, hk⟩
    · exact .inl ⟨_, .portions h hk⟩
  · left
    have key : ∀ ds : List Loc, (¬ ∀ d ∈ ds, Misses w d n) →
        ∃ pre d post, ds = pre ++ d :: post ∧ (∀ e ∈ pre, Misses w e n) ∧ ¬ Misses w d n := by
      intro ds
      induction ds with
      | nil => intro h; exact absurd (fun d hd => by simp at hd) h
      | cons x xs ih =>
        intro h
        by_cases hx : Misses w x n
        · obtain ⟨pre, d, post, h1, h2, h3⟩ := ih fun hh => h fun d hd => by
            rcases List.mem_cons.1 hd with rfl | hd
            · exact hx
            · exact hh d hd
          refine ⟨x :: pre, d, post, by simp [h1], ?_, h3⟩
          intro e he
          rcases List.mem_cons.1 he with rfl | he
          · exact hx
          · exact h2 e he
        · exact ⟨[], x, xs, rfl, by simp, hx⟩
    obtain ⟨pre, d, post, rfl, h2, h3⟩ := key ds h
    by_cases hp : HasPackage w d n
    · exact ⟨_, .package h2 hp⟩
    · have hm : HasModule w d n := by
        apply Classical.byContradiction
        intro hm
        exact h3 ⟨hp, hm⟩
      exact ⟨_, .module h2 hp hm⟩

theorem search_none (hs : NoStubs w) {b : Bool} {n : Name} {ds : List Loc} (g : Loc → Bool)
    (h : (∀ d ∈ ds, Misses w d n) ∧ (ds.filter fun d => w.kind (d.sub (.bare n)) = some .dir) = []) :
    Import.search w b n (ds.map fun d => (d, g d)) [] = none := by
  rw [← List.append_nil (ds.map fun d => (d, g d)), search_misses hs, Import.search]
  · simp only [List.nil_append, List.map_map]
    have : (ds.map ((fun x : Loc × Bool => x.1) ∘ fun d => (d, g d))) = ds := by
      simp [Function.comp_def]
    rw [this, h.2]
    rfl
  · intro e he
    obtain ⟨d, hd, rfl⟩ := List.mem_map.1 he
    exact h.1 d hd

theorem stubs_none (hs : NoStubs w) (n : Name) : pythonImport w (w.roots.map .ofRoot) (.stubs n) = none := by
  cases h : pythonImport w (w.roots.map .ofRoot) (.stubs n) with
  | none => rfl
  | some r =>
    exfalso
    have root : ∀ d ∈ w.roots.map Loc.ofRoot, ∃ r, d = ⟨r, []⟩ := by
      intro d hd
      obtain ⟨r, _, rfl⟩ := List.mem_map.1 hd
      exact ⟨r, rfl⟩
    have nodir : ∀ d ∈ w.roots.map Loc.ofRoot, w.kind (d.sub (.bare (.stubs n))) ≠ some .dir := by
      intro d hd
      obtain ⟨r, rfl⟩ := root d hd
      exact hs.dir r n
    rcases pythonImport_cases h with ⟨d, hd, f, hf, _⟩ | ⟨ps, rfl, hps⟩
    · cases hf with
      | initPyi h1 _ => exact nodir d hd h1
      | initPy h1 _ => exact nodir d hd h1
      | pyi h1 => exact hs.pyi _ _ h1
      | py h1 =>
        obtain ⟨r, rfl⟩ := root d hd
        exact hs.file r n h1
    · cases ps with
      | nil =>
        unfold pythonImport at h
        have hz := h
        -- a namespace has at least one directory
        clear h
        have key : ∀ (b : Bool) (n : Name) (ds : List (Loc × Bool)) (ns : List Loc),
            search w b n ds ns ≠ some (.portions []) := by
          intro b n ds
          induction ds with
          | nil =>
            intro ns hh
            unfold search at hh
            split at hh
            · cases hh
            · next he => injection hh with hh; injection hh with hh; subst hh; simp at he
          | cons x ds ih =>
            intro ns hh
            obtain ⟨d, needs⟩ := x
            unfold search at hh
            dsimp only at hh
            split at hh
            · split at hh <;> cases hh
            · split at hh
              · split at hh <;> cases hh
              · exact ih _ hh
        exact key _ _ _ _ hz
      | cons p ps =>
        obtain ⟨d, hd, rfl, hk⟩ := hps p List.mem_cons_self
        exact nodir d hd hk

end Verif.Import
