import Verif.Import.Steps

/-! Stubs come before modules. -/

namespace Verif.Import

variable {w : World}

/-- No result has a stub beside it. -/
def Result.Best (w : World) (r : Result) : Prop := ∀ p, r = .file p ∨ r = .untyped p → NoStubBeside w p

def Out.Best (w : World) (o : Out) : Prop := ∀ r, o = .got (some r) → r.Best w

theorem sub_inj {d e : Loc} {x y : Entry} (h : d.sub x = e.sub y) : d = e ∧ x = y := by
  have h1 := congrArg Loc.parent h
  rw [parent_sub, parent_sub] at h1
  have h2 := congrArg Loc.path h
  rw [sub_path, sub_path, h1] at h2
  exact ⟨h1, by simpa using h2⟩

theorem loadInit_best {d f : Loc} (h : loadInit w d = some f) : NoStubBeside w f := by
  intro e n he
  unfold loadInit at h
  split at h
  · cases h
    cases (sub_inj he).2
  · next h1 =>
    split at h
    · cases h
      obtain ⟨rfl, h2⟩ := sub_inj he
      injection h2 with h2
      subst h2
      exact fun hh => h1 (isFile_iff.2 hh)
    · cases h

theorem findFile_best {n : Name} {d f : Loc} (h : findFile w true n d = some f) : NoStubBeside w f := by
  intro e m he
  unfold findFile at h
  rw [Bool.true_and] at h
  split at h
  · cases h
    cases (sub_inj he).2
  · next h1 =>
    split at h
    · cases h
      obtain ⟨rfl, h2⟩ := sub_inj he
      injection h2 with h2
      subst h2
      exact fun hh => h1 (isFile_iff.2 hh)
    · cases h

theorem search_best {n : Name} (ds : List (Loc × Bool)) (ns : List Loc) {r : Result}
    (h : search w true n ds ns = some r) : r.Best w := by
  induction ds generalizing ns with
  | nil =>
    rw [search] at h
    split at h
    · cases h
    · cases h
      rintro p (hp | hp) <;> cases hp
  | cons x rest ih =>
    obtain ⟨d, needs⟩ := x
    rw [search] at h
    split at h
    · next f hf =>
      have hb : NoStubBeside w f := by
        split at hf
        · exact loadInit_best hf
        · cases hf
      split at h <;> cases h <;> rintro p (hp | hp) <;> cases hp <;> exact hb
    · split at h
      · next f hf =>
        have hb := findFile_best hf
        split at h <;> cases h <;> rintro p (hp | hp) <;> cases hp <;> exact hb
      · exact ih _ h

theorem pythonImport_best {n : Name} {ds : List Loc} {r : Result} (h : pythonImport w ds n = some r) : r.Best w :=
  search_best _ _ h

theorem subModule_best {p : Loc} {n : Name} {r : Result} (h : subModule w p n = some r) : r.Best w :=
  pythonImport_best (subModule_cases h).2

theorem got_best {o : Option Result} (h : ∀ r, o = some r → r.Best w) : (Out.got o).Best w :=
  fun r hr => h r (by injection hr)

theorem step_best (r : Result) (n : Name) : (step w r n).Best w := by
  cases r with
  | file p => exact got_best fun r h => subModule_best h
  | portions ds => exact got_best fun r h => pythonImport_best h
  | untyped p => intro r h; cases h
  | binary => intro r h; cases h

theorem notItself_best {f : Loc} {o : Out} (h : o.Best w) : (notItself f o).Best w := by
  rcases notItself_cases f o with h1 | h1 <;> rw [h1]
  · exact h
  · intro r hr; cases hr

theorem andThen_best {o : Out} {k : Result → Out} (hk : ∀ r, (k r).Best w) : (o.andThen k).Best w := by
  intro r h
  obtain ⟨r0, _, h2⟩ := andThen_some h
  exact hk r0 r h2

theorem nonStub_best (f : Loc) (es : List Entry) (n : Name) : (nonStub w f es n).Best w := by
  cases es with
  | nil => intro r h; rw [nonStub] at h; cases h
  | cons e es =>
    cases es with
    | nil => rw [nonStub_single]; exact andThen_best fun r => notItself_best (step_best r n)
    | cons x xs =>
      rw [nonStub_cons f e (by simp)]
      exact andThen_best fun r => notItself_best (step_best r n)

theorem firstNonStub_best (f : Loc) (n : Name) (ds : List Loc) : (firstNonStub w f n ds).Best w := by
  induction ds with
  | nil => intro r h; cases h
  | cons d ds ih =>
    unfold firstNonStub
    split
    · exact ih
    · exact nonStub_best _ _ _

theorem namespaceImport_best (f : Loc) (ds : List Loc) (n : Name) : (namespaceImport w f ds n).Best w := by
  have fin : ∀ o : Out, o.Best w → (match o with
      | .got (some (.file f)) =>
        .got (some (if marked w f.root f.parent.path.reverse then .file f
          else if w.site f.root then .untyped f else .file f))
      | o => o : Out).Best w := by
    intro o ho
    split
    · next g =>
      have hb : NoStubBeside w g := ho _ rfl _ (.inl rfl)
      apply got_best
      intro r hr
      injection hr with hr
      subst hr
      split
      · rintro p (hp | hp) <;> cases hp
        exact hb
      · split <;> rintro p (hp | hp) <;> cases hp <;> exact hb
    · exact ho
  refine fin _ ?_
  split
  · next r h => exact got_best fun r' hr' => by cases hr'; exact pythonImport_best h
  · exact firstNonStub_best _ _ _

theorem inferName_best {f : Loc} {r : Result} {n : Name} : (inferName w f r n).Best w := by
  cases r with
  | file p => exact got_best fun r h => subModule_best h
  | portions ds => exact namespaceImport_best _ _ _
  | untyped p =>
    unfold inferName
    dsimp only
    split
    · next g hg =>
      apply got_best
      intro r hr
      cases hr
      rintro p (hp | hp) <;> cases hp
      exact subModule_best hg _ (.inl rfl)
    · apply got_best
      intro r hr
      cases hr
      rintro p (hp | hp) <;> cases hp
  | binary =>
    apply got_best
    intro r hr
    cases hr
    rintro p (hp | hp) <;> cases hp

theorem global_best (f : Loc) (n : Name) {r : Result} (h : globalOrBinary w f n = some r) : r.Best w := by
  unfold globalOrBinary globalImport at h
  rw [Option.or_eq_some_iff] at h
  rcases h with h | ⟨_, h⟩
  · rw [Option.or_eq_some_iff] at h
    rcases h with h | ⟨_, h⟩
    · exact pythonImport_best h
    · rw [Option.or_eq_some_iff] at h
      rcases h with h | ⟨_, h⟩
      · exact search_best _ _ h
      · split at h
        · cases h
        · rw [Option.bind_eq_some_iff] at h
          obtain ⟨d, _, h⟩ := h
          exact pythonImport_best h
  · split at h
    · cases h
      rintro p (hp | hp) <;> cases hp
    · cases h

/-! ## Stub packages -/

theorem search_skip {b : Bool} {n : Name} {pre rest : List (Loc × Bool)} {ns : List Loc}
    (h : ∀ e ∈ pre, w.kind (e.1.sub (.bare n)) ≠ some .dir ∧ w.kind (e.1.sub (.py n)) ≠ some .file ∧
      w.kind (e.1.sub (.pyi n)) ≠ some .file) : search w b n (pre ++ rest) ns = search w b n rest ns := by
  induction pre with
  | nil => rfl
  | cons x pre ih =>
    obtain ⟨d, needs⟩ := x
    obtain ⟨h1, h2, h3⟩ := h (d, needs) (by simp)
    have h1' : w.isDir (d.sub (.bare n)) = false := by
      cases hb : w.isDir (d.sub (.bare n)) with
      | true => exact absurd (isDir_iff.1 hb) h1
      | false => rfl
    have h4 : findFile w b n d = none := by
      unfold findFile
      rw [isFile_false h2, isFile_false h3]
      simp
    rw [List.cons_append, search]
    simp only [h1', h4, Bool.false_eq_true, if_false]
    exact ih fun e he => h e (List.mem_cons_of_mem _ he)

theorem search_stub_package {n : Name} {d : Loc} {rest : List (Loc × Bool)} {ns : List Loc}
    (h1 : w.kind (d.sub (.bare n)) = some .dir) (h2 : w.kind ((d.sub (.bare n)).sub (.pyi initName)) = some .file) :
    search w true n ((d, false) :: rest) ns = some (.file ((d.sub (.bare n)).sub (.pyi initName))) := by
  have hl : loadInit w (d.sub (.bare n)) = some ((d.sub (.bare n)).sub (.pyi initName)) := by
    unfold loadInit
    rw [if_pos (isFile_iff.2 h2)]
  rw [search]
  simp [isDir_iff.2 h1, hl]

theorem search_stub_file {n : Name} {d : Loc} {rest : List (Loc × Bool)} {ns : List Loc}
    (h1 : w.kind (d.sub (.bare n)) ≠ some .dir) (h2 : w.kind (d.sub (.pyi n)) = some .file) :
    search w true n ((d, false) :: rest) ns = some (.file (d.sub (.pyi n))) := by
  have h1' : w.isDir (d.sub (.bare n)) = false := by
    cases hb : w.isDir (d.sub (.bare n)) with
    | true => exact absurd (isDir_iff.1 hb) h1
    | false => rfl
  have hl : findFile w true n d = some (d.sub (.pyi n)) := by
    unfold findFile
    rw [Bool.true_and, if_pos (isFile_iff.2 h2)]
  rw [search]
  simp [h1', hl]

theorem StubPackage.path {r : Nat} {n : Name} {ms : List Name} {d : Loc} (h : StubPackage w r n ms d) : d.path ≠ [] := by
  cases h with
  | top => simp
  | sub => simp [sub_path]

end Verif.Import
