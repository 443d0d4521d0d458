import Verif.Import.Steps

/-!
# Lemmas about names, markers and Python's imports
-/

namespace Verif.Import

variable {w : World}

/-! ## Names -/

theorem Stub.of_plain {s : String} {n : Name} (h : Stub (.plain s) n) : n = .plain s := by
  cases h; rfl

theorem Stub.stubs_inv {m : Name} {s : String} (h : Stub (.stubs m) (.plain s)) : Stub m (.plain s) := by
  cases h with | stubs h => exact h

theorem Stub.trans {a b c : Name} (h : Stub a b) (h2 : Stub b c) : Stub a c := by
  induction h with
  | refl => exact h2
  | stubs _ ih => exact .stubs (ih h2)

theorem Ends.nil (d : Loc) : Ends [] d := ⟨d.path, [], by simp, .nil⟩

theorem Sames.snoc {us : List Entry} {ns : List Name} {u : Entry} {n : Name} (h : Sames us ns) (hu : Same u n) :
    Sames (us ++ [u]) (ns ++ [n]) := by
  induction h with
  | nil => exact .cons hu .nil
  | cons h1 _ ih => exact .cons h1 ih

theorem Sames.snoc_inv {us : List Entry} {ns : List Name} {n : Name} (h : Sames us (ns ++ [n])) :
    ∃ us' u, us = us' ++ [u] ∧ Sames us' ns ∧ Same u n := by
  induction ns generalizing us with
  | nil =>
    cases h with | cons h1 h2 =>
    cases h2
    exact ⟨[], _, rfl, .nil, h1⟩
  | cons k ns ih =>
    cases h with | cons h1 h2 =>
    obtain ⟨us', u, rfl, h3, h4⟩ := ih h2
    exact ⟨_ :: us', u, rfl, .cons h1 h3, h4⟩

theorem Ends.snoc {ns : List Name} {d : Loc} {m n : Name} (h : Ends ns d) (hs : Stub m n) :
    Ends (ns ++ [n]) (d.sub (.bare m)) := by
  obtain ⟨pre, us, h1, h2⟩ := h
  exact ⟨pre, us ++ [.bare m], by rw [sub_path, h1, List.append_assoc], h2.snoc ⟨m, rfl, hs⟩⟩

/-- The result is named like the import. -/
def NamedOk (ns : List Name) : Result → Prop
  | .file f | .untyped f => IsModule ns f
  | .portions ds => ∀ d ∈ ds, Ends ns d
  | .binary => True

/-- The directories for the next name are named like the import. -/
def DirsEnd (ns : List Name) : Result → Prop
  | .file f | .untyped f => (∃ e, (e = .py initName ∨ e = .pyi initName) ∧ f = f.parent.sub e) → Ends ns f.parent
  | .portions ds => ∀ d ∈ ds, Ends ns d
  | .binary => True

theorem DirsEnd.nil (r : Result) : DirsEnd [] r := by
  cases r with
  | file f => exact fun _ => .nil _
  | untyped f => exact fun _ => .nil _
  | portions ds => exact fun d _ => .nil d
  | binary => trivial

theorem FileOf.named {ns : List Name} {m n : Name} {d f : Loc} (h : FileOf w m d f) (hd : Ends ns d)
    (hs : Stub m n) : IsModule (ns ++ [n]) f := by
  cases h with
  | initPyi => exact .init (hd.snoc hs) ⟨_, .inr rfl, .refl⟩
  | initPy => exact .init (hd.snoc hs) ⟨_, .inl rfl, .refl⟩
  | pyi => exact .file hd ⟨_, .inr rfl, hs⟩
  | py => exact .file hd ⟨_, .inl rfl, hs⟩

theorem module_parent {ns : List Name} {n : Name} {f : Loc} (ho : n ≠ initName) (h : IsModule (ns ++ [n]) f)
    (hp : ∃ e, (e = .py initName ∨ e = .pyi initName) ∧ f = f.parent.sub e) : Ends (ns ++ [n]) f.parent := by
  obtain ⟨e, he, heq⟩ := hp
  generalize hk : ns ++ [n] = ks at h
  cases h with
  | init hd hs => rw [parent_sub]; exact hd
  | file hd hs =>
    rename_i ns' n' d e'
    rw [parent_sub] at heq
    have hee : e' = e := by
      have := congrArg Loc.path heq
      simpa [sub_path] using this
    subst hee
    have hn : n = n' := by
      have := congrArg List.getLast? hk
      simpa using this
    subst hn
    obtain ⟨m, hm, hst⟩ := hs
    exfalso
    have : m = initName := by
      rcases he with rfl | rfl <;> rcases hm with h | h <;> first | (injection h with h; exact h.symm) | cases h
    subst this
    exact ho hst.of_plain

theorem NamedOk.dirs {ns : List Name} {n : Name} {r : Result} (ho : n ≠ initName) (h : NamedOk (ns ++ [n]) r) :
    DirsEnd (ns ++ [n]) r := by
  cases r with
  | file f => exact module_parent ho h
  | untyped f => exact module_parent ho h
  | portions ds => exact h
  | binary => trivial

theorem pythonImport_named {ns : List Name} {m n : Name} {ds : List Loc} {r : Result}
    (h : pythonImport w ds m = some r) (hd : ∀ d ∈ ds, Ends ns d) (hs : Stub m n) : NamedOk (ns ++ [n]) r := by
  rcases pythonImport_cases h with ⟨d, hm, f, hf, rfl⟩ | ⟨ps, rfl, hps⟩
  · exact hf.named (hd d hm) hs
  · intro p hp
    obtain ⟨d, hm, rfl, _⟩ := hps p hp
    exact (hd d hm).snoc hs

theorem search_named {b : Bool} {n : Name} {ds : List (Loc × Bool)} {r : Result}
    (h : search w b n ds [] = some r) : NamedOk [n] r := by
  rcases search_cases _ _ h with ⟨d, needs, f, hm, hf, hr⟩ | ⟨ps, rfl, hps⟩
  · rcases hr with ⟨rfl, _⟩ | ⟨_, rfl⟩
    · exact hf.named (ns := []) (.nil d) .refl
    · exact hf.named (ns := []) (.nil d) .refl
  · intro p hp
    obtain ⟨d, _, hm, rfl, _⟩ := hps p hp
    exact Ends.snoc (ns := []) (.nil d) .refl

theorem subModule_named {ns : List Name} {m n : Name} {p : Loc} {r : Result} (h : subModule w p m = some r)
    (hd : DirsEnd ns (.file p)) (hs : Stub m n) : NamedOk (ns ++ [n]) r := by
  obtain ⟨h1, h2⟩ := subModule_cases h
  exact pythonImport_named h2 (fun d hm => by rw [List.mem_singleton.1 hm]; exact hd h1) hs

theorem step_named {ns : List Name} {m n : Name} {r0 r : Result} (h : step w r0 m = .got (some r))
    (hd : DirsEnd ns r0) (hs : Stub m n) : NamedOk (ns ++ [n]) r := by
  cases r0 with
  | file p => injection h with h; exact subModule_named h hd hs
  | portions ds => injection h with h; exact pythonImport_named h hd hs
  | untyped p => cases h
  | binary => cases h

theorem notItself_some {f : Loc} {o : Out} {r : Result} (h : notItself f o = .got (some r)) : o = .got (some r) := by
  rcases notItself_cases f o with h1 | h1
  · rw [h1] at h; exact h
  · rw [h1] at h; cases h

theorem nonStubBase_named {e : Entry} {n : Name} {r : Result} (hn : Ordinary n) (he : Same e n)
    (h : nonStubBase w e = some r) : NamedOk [n] r := by
  obtain ⟨s, rfl, _⟩ := hn
  obtain ⟨m, rfl, hs⟩ := he
  cases m with
  | plain t =>
    cases hs.of_plain
    exact search_named h
  | stubs m => exact pythonImport_named (ns := []) h (fun d _ => .nil d) hs.stubs_inv

theorem nonStub_named {f : Loc} (es : List Entry) : ∀ {m n : Name} {r : Result} {pre us : List Entry} {ns : List Name},
    nonStub w f es m = .got (some r) → es.reverse = pre ++ us → Sames us ns → (∀ n ∈ ns, Ordinary n) →
    Stub m n → NamedOk (ns ++ [n]) r := by
  induction es with
  | nil => intro m n r pre us ns h; cases h
  | cons e es ih =>
    intro m n r pre us ns h hp hus hns hs
    by_cases he : es = []
    · subst he
      rw [nonStub_single] at h
      obtain ⟨r0, h1, h2⟩ := andThen_some h
      have h1 := notItself_some h1
      have h2 := notItself_some h2
      refine step_named h2 ?_ hs
      cases hus with
      | nil => exact .nil _
      | cons hu hus =>
        simp only [List.reverse_cons, List.reverse_nil, List.nil_append] at hp
        have hlen := congrArg List.length hp
        simp only [List.length_append, List.length_cons, List.length_nil] at hlen
        rename_i u us' n' ns'
        have hpre : pre = [] := List.length_eq_zero_iff.1 (by omega)
        have hus' : us' = [] := List.length_eq_zero_iff.1 (by omega)
        subst hpre hus'
        cases hus
        simp only [List.nil_append, List.cons.injEq, and_true] at hp
        subst hp
        have hord := hns n' List.mem_cons_self
        obtain ⟨s, rfl, hne⟩ := hord
        exact NamedOk.dirs (ns := []) (by intro hh; exact hne (by injection hh))
          (nonStubBase_named ⟨s, rfl, hne⟩ hu (by injection h1))
    · rw [nonStub_cons f e he] at h
      obtain ⟨r0, h1, h2⟩ := andThen_some h
      have h2 := notItself_some h2
      refine step_named h2 ?_ hs
      rcases List.eq_nil_or_concat ns with rfl | ⟨ns', n', rfl⟩
      · exact .nil _
      · rw [List.concat_eq_append] at hus hns ⊢
        obtain ⟨us', u, rfl, h3, h4⟩ := hus.snoc_inv
        rw [List.reverse_cons, ← List.append_assoc] at hp
        obtain ⟨hp1, hp2⟩ := List.append_inj' hp rfl
        injection hp2 with hp2
        subst hp2
        obtain ⟨s, rfl, hne⟩ := hns n' (by simp)
        obtain ⟨q, rfl, hq⟩ := h4
        exact NamedOk.dirs (by intro hh; exact hne (by injection hh))
          (ih (n := .plain s) h1 hp1 h3 (fun n hn => hns n (by simp [hn])) hq)

theorem unchecked_named {f : Loc} {ds : List Loc} {ns : List Name} {n : Name} {r : Result}
    (hns : ∀ n ∈ ns, Ordinary n) (hd : ∀ d ∈ ds, Ends ns d) (h : unchecked w f ds n = .got (some r)) :
    NamedOk (ns ++ [n]) r := by
  unfold unchecked at h
  split at h
  · next r' h1 =>
    injection h with h
    injection h with h
    subst h
    exact pythonImport_named h1 hd .refl
  · obtain ⟨d, hm, h1⟩ := firstNonStub_some h
    obtain ⟨pre, us, h2, h3⟩ := hd d hm
    exact nonStub_named _ h1 (by rw [List.reverse_reverse]; exact h2) h3 hns .refl

theorem inferName_named {f : Loc} {ns : List Name} {n k : Name} {r0 r : Result}
    (hns : ∀ n ∈ ns ++ [k], Ordinary n) (h0 : NamedOk (ns ++ [k]) r0) (h : inferName w f r0 n = .got (some r)) :
    NamedOk (ns ++ [k] ++ [n]) r := by
  obtain ⟨s, rfl, hne⟩ := hns k (by simp)
  have hd := NamedOk.dirs (n := .plain s) (by intro hh; exact hne (by injection hh)) h0
  cases r0 with
  | file p => injection h with h; exact subModule_named h hd .refl
  | portions ds =>
    rcases namespaceImport_some h with ⟨p, h1, h2⟩ | ⟨qs, h1, rfl⟩
    · have := unchecked_named hns h0 h1
      rcases h2 with ⟨rfl, _⟩ | rfl
      · exact this
      · exact this
    · exact unchecked_named hns h0 h1
  | untyped p =>
    unfold inferName at h
    dsimp only at h
    split at h
    · next f' h1 =>
      injection h with h
      injection h with h
      subst h
      exact (subModule_named (p := p) h1 hd .refl : NamedOk _ (.file f'))
    · injection h with h
      injection h with h
      subst h
      trivial
  | binary =>
    injection h with h
    injection h with h
    subst h
    trivial

theorem globalImport_named {f : Loc} {n : Name} {r : Result} (h : globalImport w f n = some r) : NamedOk [n] r := by
  unfold globalImport at h
  cases h1 : pythonImport w (w.roots.map .ofRoot) (.stubs n) with
  | some r1 =>
    rw [h1, Option.some_or] at h
    cases h
    exact pythonImport_named (ns := []) h1 (fun d _ => .nil d) (.stubs .refl)
  | none =>
    rw [h1, Option.none_or] at h
    cases h2 : search w true n (w.roots.map fun r => (.ofRoot r, w.site r)) [] with
    | some r2 =>
      rw [h2, Option.some_or] at h
      cases h
      exact search_named h2
    | none =>
      rw [h2, Option.none_or] at h
      split at h
      · cases h
      · obtain ⟨d, _, h3⟩ := Option.bind_eq_some_iff.1 h
        exact pythonImport_named (ns := []) h3 (fun d _ => .nil d) .refl

/-! ## The marker -/

theorem marked_cases {r : Nat} {es : List Entry} (h : marked w r es = true) : w.follow = true ∨
    ∃ (pre rest : List Entry), pre ≠ [] ∧ es.reverse = pre ++ rest ∧
      (w.kind (Loc.sub ⟨r, pre⟩ .typed) = some .file ∨ ∃ n, pre.getLast? = some (.bare (.stubs n))) := by
  induction es with
  | nil => cases h
  | cons e es ih =>
    unfold marked at h
    simp only [Bool.or_eq_true] at h
    rcases h with ((h | h) | h) | h
    · exact .inl h
    · exact .inr ⟨(e :: es).reverse, [], by simp, by simp, .inl (isFile_iff.1 h)⟩
    · refine .inr ⟨(e :: es).reverse, [], by simp, by simp, .inr ?_⟩
      unfold Entry.isStubs at h
      split at h
      · next n => exact ⟨n, by simp⟩
      · cases h
    · rcases ih h with h | ⟨pre, rest, h1, h2, h3⟩
      · exact .inl h
      · exact .inr ⟨pre, rest ++ [e], h1, by rw [List.reverse_cons, h2, List.append_assoc], h3⟩

theorem FileOf.path {n : Name} {d f : Loc} (h : FileOf w n d f) :
    f.root = d.root ∧ ∃ e es, f.path = d.path ++ e :: es := by
  cases h with
  | initPyi => exact ⟨rfl, .bare n, [.pyi initName], by simp [sub_path]⟩
  | initPy => exact ⟨rfl, .bare n, [.py initName], by simp [sub_path]⟩
  | pyi => exact ⟨rfl, .pyi n, [], by simp [sub_path]⟩
  | py => exact ⟨rfl, .py n, [], by simp [sub_path]⟩

theorem FileOf.last {n : Name} {d f : Loc} (h : FileOf w n d f) : ∃ e, f.path = f.parent.path ++ [e] := by
  cases h with
  | initPyi => exact ⟨_, by rw [parent_sub]; rfl⟩
  | initPy => exact ⟨_, by rw [parent_sub]; rfl⟩
  | pyi => exact ⟨_, by rw [parent_sub]; rfl⟩
  | py => exact ⟨_, by rw [parent_sub]; rfl⟩

/-- The marker holds for everything below. -/
theorem Typed.below {p f : Loc} {e : Entry} {x : Entry} {xs : List Entry} (h : Typed w p) (hp : p = p.parent.sub e)
    (hr : f.root = p.root) (hf : f.path = p.parent.path ++ x :: xs) : Typed w f := by
  obtain ⟨d, rest, h1, h2, h3, h4, h5⟩ := h
  have h6 : p.path = p.parent.path ++ [e] := by rw [← sub_path, ← hp]
  rcases List.eq_nil_or_concat rest with rfl | ⟨L, y, rfl⟩
  · exact absurd rfl h3
  · rw [List.concat_eq_append, ← List.append_assoc] at h4
    rw [h4] at h6
    obtain ⟨h7, _⟩ := List.append_inj' h6 rfl
    refine ⟨d, L ++ x :: xs, by rw [h1, hr], h2, by simp, ?_, h5⟩
    rw [hf, ← h7, List.append_assoc]

/-! ## Python -/

theorem Finds.nonroot {ds : List Loc} {n : Name} {m : Module} (h : Finds w ds n m) :
    (∀ d, m = .package d → d.path ≠ []) ∧ ∀ ps, m = .portions ps → ∀ d ∈ ps, d.path ≠ [] := by
  cases h with
  | package => exact ⟨fun d hd => by injection hd with hd; subst hd; simp [sub_path], fun _ hd => nomatch hd⟩
  | module => exact ⟨(fun d hd => nomatch hd), fun _ hd => nomatch hd⟩
  | portions =>
    refine ⟨(fun d hd => nomatch hd), fun ps hps d hd => ?_⟩
    injection hps with hps
    subst hps
    obtain ⟨d', _, rfl⟩ := List.mem_map.1 hd
    simp [sub_path]

theorem Imports.nonroot {ns : List Name} {m : Module} (h : Imports w ns m) :
    (∀ d, m = .package d → d.path ≠ []) ∧ ∀ ps, m = .portions ps → ∀ d ∈ ps, d.path ≠ [] := by
  cases h with
  | first h => exact h.nonroot
  | package _ h => exact h.nonroot
  | portions _ h => exact h.nonroot

theorem Imports.ne {ns : List Name} {m : Module} (h : Imports w ns m) : ns ≠ [] := by
  cases h <;> simp

/-- The first name. -/
theorem global_noStubs (hs : NoStubs w) (f : Loc) (n : Name) : globalImport w f n =
    (search w true n (w.roots.map fun r => (.ofRoot r, w.site r)) []).or
      (if w.explicit then none
      else (outer w f.root f.parent.path.reverse).bind fun d => pythonImport w [d] n) := by
  unfold globalImport
  rw [stubs_none hs, Option.none_or]

theorem roots_eq : (w.roots.map fun r => (Loc.ofRoot r, w.site r)) =
    ((w.roots.map fun r => (⟨r, []⟩ : Loc)).map fun d => (d, w.site d.root)) := by
  rw [List.map_map]; rfl

/-- The file of a package or a module in a directory that is not a workspace. -/
theorem Finds.file_parent {ds : List Loc} {n : Name} {m : Module} {f : Loc} (h : Finds w ds n m)
    (hd : ∀ d ∈ ds, d.path ≠ []) (hf : m.result = .file f) : f.parent.path ≠ [] := by
  cases h with
  | package =>
    injection hf with hf
    subst hf
    rw [parent_sub]; simp [sub_path]
  | module =>
    injection hf with hf
    subst hf
    rw [parent_sub]; exact hd _ (by simp)
  | portions => cases hf

theorem marked_follow {r : Nat} {es : List Entry} (hf : w.follow = true) (h : es ≠ []) : marked w r es = true := by
  cases es with
  | nil => exact absurd rfl h
  | cons e es => simp [marked, hf]

theorem namespace_finds (hs : NoStubs w) (hsite : ∀ r, w.site r = true → w.follow = true) {f : Loc} {ds : List Loc}
    {n : Name} {m : Module} (hd : ∀ d ∈ ds, d.path ≠ []) (h : Finds w ds n m) :
    namespaceImport w f ds n = .got (some m.result) := by
  have hu : unchecked w f ds n = .got (some m.result) := by
    unfold unchecked; rw [h.pythonImport hs]
  by_cases hp : ∃ p, m.result = .file p
  · obtain ⟨p, hp⟩ := hp
    rw [hp] at hu
    rw [namespaceImport_file hu, hp]
    have hne := h.file_parent hd hp
    cases hb : w.site p.root with
    | false => simp
    | true => rw [if_pos (marked_follow (hsite _ hb) (by simpa using hne))]
  · rw [namespaceImport_other, hu]
    intro p hh
    rw [hu] at hh
    injection hh with hh
    injection hh with hh
    exact hp ⟨p, hh⟩

theorem Imports.dotted (hs : NoStubs w) (hsite : ∀ r, w.site r = true → w.follow = true) {ns : List Name} {m : Module}
    (f : Loc) (h : Imports w ns m) : dotted w f none ns = .got (some m.result) := by
  induction h with
  | first h =>
    simp only [Import.dotted, follow, List.foldl_nil]
    unfold globalOrBinary
    rw [global_noStubs hs, roots_eq, Finds.search hs _ (fun d _ hd => hsite _ hd) h]
    rfl
  | package h1 h2 ih =>
    rw [dotted_none f h1.ne, ih, follow_one]
    show Out.got (subModule w (Loc.sub _ (.py initName)) _) = _
    rw [subModule_eq (.inl rfl) (h1.nonroot.1 _ rfl), h2.pythonImport hs]
  | portions h1 h2 ih =>
    rw [dotted_none f h1.ne, ih, follow_one]
    exact namespace_finds hs hsite (h1.nonroot.2 _ rfl) h2

/-! ## And nothing else -/

theorem Imports.path {ns : List Name} {m : Module} (h : Imports w ns m) :
    (∀ d, m = .package d → d.path = ns.map .bare) ∧ ∀ ps, m = .portions ps → ∀ d ∈ ps, d.path = ns.map .bare := by
  have key : ∀ {ds : List Loc} {ns : List Name} {n : Name} {m : Module}, (∀ d ∈ ds, d.path = ns.map .bare) → Finds w ds n m →
      (∀ d, m = .package d → d.path = (ns ++ [n]).map .bare) ∧
      ∀ ps, m = .portions ps → ∀ d ∈ ps, d.path = (ns ++ [n]).map .bare := by
    intro ds ns n m hd h
    cases h with
    | package =>
      refine ⟨fun d he => ?_, fun _ he => nomatch he⟩
      injection he with he
      subst he
      rw [sub_path, hd _ (by simp), List.map_append]; rfl
    | module => exact ⟨(fun d he => nomatch he), fun _ he => nomatch he⟩
    | portions =>
      refine ⟨(fun d he => nomatch he), fun ps he d hm => ?_⟩
      injection he with he
      subst he
      obtain ⟨d', h1, rfl⟩ := List.mem_map.1 hm
      rw [sub_path, hd _ ((List.mem_filter.1 h1).1), List.map_append]; rfl
  induction h with
  | first h =>
    refine key (ns := []) ?_ h
    intro d hd
    obtain ⟨r, _, rfl⟩ := List.mem_map.1 hd
    rfl
  | package h1 h2 ih => exact key (fun d hd => by rw [List.mem_singleton.1 hd]; exact ih.1 _ rfl) h2
  | portions h1 h2 ih => exact key (ih.2 _ rfl) h2

theorem Imports.nonStub (hs : NoStubs w) (ht : ∀ r ∈ w.roots, w.typeshed r = false) (f : Loc) {ns : List Name} {m : Module}
    (h : Imports w ns m) : (∀ n ∈ ns, Ordinary n) → ∀ k,
      Import.nonStub w f (ns.map .bare).reverse k = .got none ∨
      Import.nonStub w f (ns.map .bare).reverse k = notItself f (Import.step w m.result k) := by
  have snoc : ∀ {ns : List Name} {n : Name} {m0 m : Module}, ns ≠ [] →
      (∀ k, Import.nonStub w f (ns.map .bare).reverse k = .got none ∨
        Import.nonStub w f (ns.map .bare).reverse k = notItself f (Import.step w m0.result k)) →
      Import.step w m0.result n = .got (some m.result) → ∀ k,
      Import.nonStub w f ((ns ++ [n]).map .bare).reverse k = .got none ∨
      Import.nonStub w f ((ns ++ [n]).map .bare).reverse k = notItself f (Import.step w m.result k) := by
    intro ns n m0 m hne ih hst k
    rw [List.map_append, List.reverse_append]
    show Import.nonStub w f (.bare n :: (ns.map .bare).reverse) k = _ ∨ _
    rw [show ([n].map Entry.bare).reverse ++ (ns.map Entry.bare).reverse = .bare n :: (ns.map Entry.bare).reverse from rfl,
      nonStub_cons f _ (by simpa using hne)]
    rcases ih n with h1 | h1
    · left
      rw [show (Entry.bare n).name = n from rfl, h1]; rfl
    · rw [show (Entry.bare n).name = n from rfl, h1, hst]
      rcases notItself_cases f (.got (some m.result)) with h2 | h2
      · right; rw [h2]; rfl
      · left; rw [h2]; rfl
  induction h with
  | @first n m h =>
    intro hord k
    obtain ⟨s, rfl, _⟩ := hord n (by simp)
    show Import.nonStub w f [.bare (.plain s)] k = _ ∨ _
    rw [show ([Name.plain s].map Entry.bare).reverse = [.bare (.plain s)] from rfl, nonStub_single]
    have hb : nonStubBase w (.bare (.plain s)) = some m.result := by
      show search w false (.plain s) _ [] = _
      rw [List.filter_eq_self.2 (fun r hr => by simp [ht r hr])]
      have := Finds.search (b := false) hs (fun _ => false) (fun _ _ h => nomatch h) h
      rw [List.map_map] at this
      exact this
    rw [hb]
    rcases notItself_cases f (.got (some m.result)) with h2 | h2
    · right; rw [h2]; rfl
    · left; rw [h2]; rfl
  | package h1 h2 ih =>
    intro hord
    refine snoc h1.ne (ih fun n hn => hord n (by simp [hn])) ?_
    show Out.got (subModule w (Loc.sub _ (.py initName)) _) = _
    rw [subModule_eq (.inl rfl) (h1.nonroot.1 _ rfl), h2.pythonImport hs]
  | portions h1 h2 ih =>
    intro hord
    refine snoc h1.ne (ih fun n hn => hord n (by simp [hn])) ?_
    show Out.got (pythonImport w _ _) = _
    rw [h2.pythonImport hs]

theorem pythonImport_finds (hs : NoStubs w) {ds : List Loc} {n : Name} {r : Result}
    (h : pythonImport w ds n = some r) : ∃ m, Finds w ds n m ∧ r = m.result := by
  rcases finds_total (w := w) ds n with ⟨m, hm⟩ | hn
  · rw [hm.pythonImport hs] at h
    exact ⟨m, hm, by injection h with h; exact h.symm⟩
  · unfold pythonImport at h
    rw [search_none hs (fun _ => false) hn] at h; cases h

end Verif.Import
