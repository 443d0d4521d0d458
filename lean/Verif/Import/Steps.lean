import Verif.Import.Lemmas

namespace Verif.Import

variable {w : World}

/-! ## Folding over the names -/

theorem follow_append (f : Loc) (o : Out) (ns ks : List Name) :
    follow w f o (ns ++ ks) = follow w f (follow w f o ns) ks := by
  unfold follow; rw [List.foldl_append]

theorem follow_panic_none (f : Loc) (ns : List Name) : follow w f (.got none) ns = .got none := by
  induction ns with
  | nil => rfl
  | cons n ns ih => exact ih

theorem dotted_some (f : Loc) (r : Result) (ns : List Name) :
    dotted w f (some r) ns = follow w f (.got (some r)) ns := by
  cases ns <;> rfl

theorem dotted_none (f : Loc) {ns ks : List Name} (h : ns ≠ []) :
    dotted w f none (ns ++ ks) = follow w f (dotted w f none ns) ks := by
  cases ns with
  | nil => exact absurd rfl h
  | cons n ns =>
    simp only [List.cons_append, dotted]
    exact follow_append f _ ns ks

theorem follow_one (f : Loc) (r : Result) (n : Name) :
    follow w f (.got (some r)) [n] = inferName w f r n := rfl

/-- The last name. -/
theorem dotted_last {f : Loc} {ns : List Name} {n : Name} {r : Result} (hn : ns ≠ [])
    (h : dotted w f none (ns ++ [n]) = .got (some r)) :
    ∃ r0, dotted w f none ns = .got (some r0) ∧ inferName w f r0 n = .got (some r) := by
  rw [dotted_none f hn] at h
  cases ho : dotted w f none ns with
  | panic => rw [ho] at h; cases h
  | got o =>
    cases o with
    | none => rw [ho, follow_panic_none] at h; cases h
    | some r0 => rw [ho] at h; exact ⟨r0, rfl, h⟩

theorem snoc_induct {P : List Name → Prop} (one : ∀ n, P [n]) (snoc : ∀ ns n, ns ≠ [] → P ns → P (ns ++ [n])) :
    ∀ ns, ns ≠ [] → P ns := by
  have key : ∀ k (ns : List Name), ns.length = k → ns ≠ [] → P ns := by
    intro k
    induction k with
    | zero => intro ns h hn; exact absurd (List.length_eq_zero_iff.1 h) hn
    | succ k ih =>
      intro ns h hn
      rcases List.eq_nil_or_concat ns with rfl | ⟨L, e, rfl⟩
      · exact absurd rfl hn
      · rw [List.concat_eq_append] at h ⊢
        by_cases hL : L = []
        · subst hL; exact one e
        · exact snoc L e hL (ih L (by simpa using h) hL)
  intro ns hn
  exact key _ ns rfl hn

/-! ## No panic -/

/-- A file or a namespace. -/
def Fine (r : Result) : Prop := (∃ p, r = .file p) ∨ ∃ ds, r = .portions ds

theorem pythonImport_fine {ds : List Loc} {n : Name} {r : Result} (h : pythonImport w ds n = some r) : Fine r := by
  rcases pythonImport_cases h with ⟨_, _, f, _, rfl⟩ | ⟨ps, rfl, _⟩
  · exact .inl ⟨_, rfl⟩
  · exact .inr ⟨_, rfl⟩

theorem search_fine {b : Bool} {n : Name} (ds : List (Loc × Bool)) (ns : List Loc) {r : Result}
    (hd : ∀ x ∈ ds, x.2 = true → w.follow = true) (h : search w b n ds ns = some r) : Fine r := by
  induction ds generalizing ns with
  | nil =>
    unfold search at h
    split at h
    · cases h
    · cases h; exact .inr ⟨_, rfl⟩
  | cons x ds ih =>
    obtain ⟨d, needs⟩ := x
    have hx : (needs && !w.follow) = false := by
      cases needs with
      | false => rfl
      | true => rw [hd _ List.mem_cons_self rfl]; rfl
    unfold search at h
    dsimp only at h
    rw [hx] at h
    split at h
    · simp only [Bool.false_and, Bool.false_eq_true, if_false] at h
      cases h; exact .inl ⟨_, rfl⟩
    · split at h
      · simp only [Bool.false_eq_true, if_false] at h
        cases h; exact .inl ⟨_, rfl⟩
      · exact ih _ (fun x hx => hd x (List.mem_cons_of_mem _ hx)) h

theorem subModule_fine {p : Loc} {n : Name} {r : Result} (h : subModule w p n = some r) : Fine r :=
  pythonImport_fine (subModule_cases h).2

/-- Not a panic, and no result that leads to one. -/
def Out.Good (o : Out) : Prop := o ≠ .panic ∧ ∀ r, o = .got (some r) → Fine r

theorem good_got {o : Option Result} (h : ∀ r, o = some r → Fine r) : (Out.got o).Good :=
  ⟨nofun, fun r hr => h r (by injection hr)⟩

theorem step_good {r : Result} {n : Name} (h : Fine r) : (step w r n).Good := by
  rcases h with ⟨p, rfl⟩ | ⟨ds, rfl⟩
  · exact good_got fun r hr => subModule_fine hr
  · exact good_got fun r hr => pythonImport_fine hr

theorem notItself_cases (f : Loc) (o : Out) : notItself f o = o ∨ notItself f o = .got none := by
  unfold notItself
  split
  · split
    · exact .inr rfl
    · exact .inl rfl
  · exact .inl rfl

theorem notItself_good {f : Loc} {o : Out} (h : o.Good) : (notItself f o).Good := by
  rcases notItself_cases f o with h1 | h1 <;> rw [h1]
  · exact h
  · exact good_got (fun r hr => nomatch hr)

theorem nonStubBase_fine {e : Entry} {r : Result} (h : nonStubBase w e = some r) : Fine r := by
  unfold nonStubBase at h
  split at h
  · exact pythonImport_fine h
  · rcases search_cases _ _ h with ⟨d, needs, f, hm, hf, hr⟩ | ⟨ps, rfl, hps⟩
    · rcases hr with ⟨rfl, _⟩ | ⟨hn, _⟩
      · exact .inl ⟨_, rfl⟩
      · obtain ⟨d', _, he⟩ := List.mem_map.1 hm
        injection he with h1 h2
        rw [← h2] at hn; cases hn
    · exact .inr ⟨_, rfl⟩
  · cases h

theorem nonStub_single (f : Loc) (e : Entry) (n : Name) : nonStub w f [e] n =
    (notItself f (.got (nonStubBase w e))).andThen fun r => notItself f (step w r n) := by
  rw [nonStub]

theorem nonStub_cons (f : Loc) (e : Entry) {es : List Entry} (h : es ≠ []) (n : Name) :
    nonStub w f (e :: es) n = (nonStub w f es e.name).andThen fun r => notItself f (step w r n) := by
  cases es with
  | nil => exact absurd rfl h
  | cons x xs => rw [nonStub]; simp

theorem andThen_some {o : Out} {k : Result → Out} {r : Result} (h : o.andThen k = .got (some r)) :
    ∃ r0, o = .got (some r0) ∧ k r0 = .got (some r) := by
  match o, h with
  | .got (some r0), h => exact ⟨r0, rfl, h⟩

theorem andThen_good {o : Out} {k : Result → Out} (h : o.Good) (hk : ∀ r, Fine r → (k r).Good) :
    (o.andThen k).Good := by
  match o, h with
  | .got (some r), h => exact hk r (h.2 r rfl)
  | .got none, h => exact h
  | .panic, h => exact h

theorem nonStub_good (f : Loc) (es : List Entry) (n : Name) : (nonStub w f es n).Good := by
  induction es generalizing n with
  | nil => exact good_got (fun r hr => nomatch hr)
  | cons e es ih =>
    by_cases he : es = []
    · subst he
      rw [nonStub_single]
      exact andThen_good (notItself_good (good_got fun r hr => nonStubBase_fine hr))
        fun r hr => notItself_good (step_good hr)
    · rw [nonStub_cons f e he]
      exact andThen_good (ih _) fun r hr => notItself_good (step_good hr)

theorem firstNonStub_good (f : Loc) (n : Name) (ds : List Loc) : (firstNonStub w f n ds).Good := by
  induction ds with
  | nil => exact good_got (fun r hr => nomatch hr)
  | cons d ds ih =>
    unfold firstNonStub
    split
    · exact ih
    · exact nonStub_good _ _ _

/-- The files for a name in a namespace, before it is asked whether they are typed. -/
def unchecked (w : World) (f : Loc) (ds : List Loc) (n : Name) : Out :=
  match pythonImport w ds n with
  | some r => .got (some r)
  | none => firstNonStub w f n ds

theorem unchecked_good (f : Loc) (ds : List Loc) (n : Name) : (unchecked w f ds n).Good := by
  unfold unchecked
  split
  · next r h => exact good_got fun r' hr => by injection hr with hr; subst hr; exact pythonImport_fine h
  · exact firstNonStub_good f n ds

theorem namespaceImport_file {f : Loc} {ds : List Loc} {n : Name} {p : Loc}
    (h : unchecked w f ds n = .got (some (.file p))) : namespaceImport w f ds n =
      .got (some (if marked w p.root p.parent.path.reverse then .file p
      else if w.site p.root then .untyped p else .file p)) := by
  show (match unchecked w f ds n with
    | .got (some (.file f)) =>
      Out.got (some (if marked w f.root f.parent.path.reverse then .file f
        else if w.site f.root then .untyped f else .file f))
    | o => o) = _
  rw [h]

theorem namespaceImport_other {f : Loc} {ds : List Loc} {n : Name}
    (h : ∀ p, unchecked w f ds n ≠ .got (some (.file p))) : namespaceImport w f ds n = unchecked w f ds n := by
  show (match unchecked w f ds n with
    | .got (some (.file f)) =>
      Out.got (some (if marked w f.root f.parent.path.reverse then .file f
        else if w.site f.root then .untyped f else .file f))
    | o => o) = _
  split
  · next p hp => exact absurd hp (h p)
  · rfl

/-- A file in the result of a namespace import. -/
theorem namespaceImport_some {f : Loc} {ds : List Loc} {n : Name} {r : Result}
    (h : namespaceImport w f ds n = .got (some r)) :
    (∃ p, unchecked w f ds n = .got (some (.file p)) ∧ (r = .file p ∧
        (marked w p.root p.parent.path.reverse = true ∨ w.site p.root = false) ∨ r = .untyped p)) ∨
      ∃ qs, unchecked w f ds n = .got (some (.portions qs)) ∧ r = .portions qs := by
  by_cases hp : ∃ p, unchecked w f ds n = .got (some (.file p))
  · obtain ⟨p, hp⟩ := hp
    rw [namespaceImport_file hp] at h
    left
    refine ⟨p, hp, ?_⟩
    injection h with h
    injection h with h
    split at h
    · next hm => exact .inl ⟨h.symm, .inl hm⟩
    · split at h
      · exact .inr h.symm
      · next hs => exact .inl ⟨h.symm, .inr (by simpa using hs)⟩
  · rw [namespaceImport_other fun p hh => hp ⟨p, hh⟩] at h
    right
    rcases (unchecked_good f ds n).2 r h with ⟨p, rfl⟩ | ⟨qs, rfl⟩
    · exact absurd ⟨p, h⟩ hp
    · exact ⟨qs, h, rfl⟩

theorem namespaceImport_no_panic (f : Loc) (ds : List Loc) (n : Name) : namespaceImport w f ds n ≠ .panic := by
  by_cases hp : ∃ p, unchecked w f ds n = .got (some (.file p))
  · obtain ⟨p, hp⟩ := hp
    rw [namespaceImport_file hp]; nofun
  · rw [namespaceImport_other fun p hh => hp ⟨p, hh⟩]
    exact (unchecked_good f ds n).1

theorem firstNonStub_some {f : Loc} {n : Name} {ds : List Loc} {r : Result}
    (h : firstNonStub w f n ds = .got (some r)) : ∃ d ∈ ds, nonStub w f d.path.reverse n = .got (some r) := by
  induction ds with
  | nil => cases h
  | cons d ds ih =>
    unfold firstNonStub at h
    split at h
    · obtain ⟨d', h1, h2⟩ := ih h
      exact ⟨d', List.mem_cons_of_mem _ h1, h2⟩
    · exact ⟨d, List.mem_cons_self, h⟩

theorem firstNonStub_none {f : Loc} {n : Name} {ds : List Loc}
    (h : ∀ d ∈ ds, nonStub w f d.path.reverse n = .got none) : firstNonStub w f n ds = .got none := by
  induction ds with
  | nil => rfl
  | cons d ds ih =>
    unfold firstNonStub
    rw [h d List.mem_cons_self]
    exact ih fun d hd => h d (List.mem_cons_of_mem _ hd)

theorem inferName_no_panic (f : Loc) (r : Result) (n : Name) : inferName w f r n ≠ .panic := by
  unfold inferName
  split
  · nofun
  · exact namespaceImport_no_panic f _ n
  · split <;> nofun
  · nofun

theorem follow_no_panic (f : Loc) (ns : List Name) : ∀ o : Out, o ≠ .panic → follow w f o ns ≠ .panic := by
  induction ns with
  | nil => intro o h; exact h
  | cons n ns ih =>
    intro o h
    refine ih _ ?_
    match o, h with
    | .got none, _ => exact nofun
    | .got (some r), _ => exact inferName_no_panic f r n

end Verif.Import
