import Verif.Scope.Lemmas

/-! # Scopes inside of scopes -/

namespace Verif.Scope

variable {q : Bool} {S : Scope} {rest : Ctx} {C : Ctx}

/-- Contexts: the module is the outermost scope, and classes are only visible from themselves. -/
inductive Wf : Ctx → Prop where
  | module {S : Scope} : S.kind = .global → Wf [S]
  | cons {S : Scope} {C : Ctx} : S.kind ≠ .global → S.kind ≠ .cls → Wf C → Wf (S :: C)

/-- The context of a scope that is walked over. -/
def WfTop (S : Scope) (rest : Ctx) : Prop :=
  (S.kind = .global ∧ rest = []) ∨ (S.kind ≠ .global ∧ Wf rest)

theorem WfTop.visible (h : WfTop S rest) : Wf (visible (S :: rest)) := by
  rcases h with ⟨h, rfl⟩ | ⟨h, h'⟩
  · simp only [Verif.Scope.visible, h]; exact .module h
  · simp only [Verif.Scope.visible]
    split
    · exact h'
    · next hc => exact .cons h hc h'

theorem Wf.visible (h : Wf C) : visible C = C := by
  cases h with
  | module h => simp [Verif.Scope.visible, h]
  | cons _ h _ => simp [Verif.Scope.visible, h]

theorem Wf.visible_cls (h : Wf C) (hk : S.kind ≠ .global) :
    Verif.Scope.visible (S :: C) = if S.kind = .cls then C else S :: C := by
  simp [Verif.Scope.visible]

theorem WfTop.push (h : WfTop S rest) {T : Scope} (ht : T.kind ≠ .global) :
    WfTop T (Verif.Scope.visible (S :: rest)) := .inr ⟨ht, h.visible⟩

/-! ## Generator expressions in classes -/

mutual

theorem Expr.uses_class (h : S.kind = .cls) (hw : Wf rest) :
    ∀ e : Expr, (∀ x ∈ e.direct, x ∉ S.names) → e.uses (S :: rest) = e.uses rest
  | .empty, _ | .bind _ _, _ => by simp [Expr.uses]
  | .ref id x, hx => by simp [Expr.uses, meaning_cons_not (hx x (.head _))]
  | .walrus _ _ e, hx => by
    simp only [Expr.uses]; exact Expr.uses_class h hw e hx
  | .both a b, hx => by
    simp only [Expr.uses]
    rw [Expr.uses_class h hw a fun x h => hx x (List.mem_append_left _ h),
      Expr.uses_class h hw b fun x h => hx x (List.mem_append_right _ h)]
  | .lambda d ps b, hx => by
    simp only [Expr.uses]
    rw [Expr.uses_class h hw d hx, hw.visible]
    simp [visible, h]
  | .comp g c, hx => by
    simp only [Expr.uses]; exact Comp.uses_class h hw c hx

theorem Comp.uses_class (h : S.kind = .cls) (hw : Wf rest) :
    ∀ c : Comp, (∀ x ∈ c.direct, x ∉ S.names) → c.uses (S :: rest) = c.uses rest
  | .elt e, hx => by simp only [Comp.uses]; exact Expr.uses_class h hw e hx
  | .clause iter target ifs r, hx => by
    simp only [Comp.uses]
    rw [Expr.uses_class h hw iter hx, hw.visible]
    simp [visible, h]

end

/-! ## Everything is tame where all names are bound above -/

mutual

theorem Expr.tame_full (hk : S.kind ≠ .cls) :
    ∀ (e : Expr) (above above' : List Name) (soon' : Option (List Name)),
      Expr.Tame q nowhere true above' soon' e → (∀ x ∈ S.names, x ∈ above) →
      Expr.Tame q S true above none e
  | .empty, _, _, _, _, _ | .bind _ _, _, _, _, _, _ => by simp [Expr.Tame]
  | .ref id x, above, _, _, _, ha => by
    simp only [Expr.Tame, MayUse]
    intro _ hx
    split <;> exact ha x hx
  | .walrus _ _ e, above, a', s', h, ha => by
    simp only [Expr.Tame] at h ⊢; exact Expr.tame_full hk e above a' s' h ha
  | .both a b, above, a', s', h, ha => by
    simp only [Expr.Tame] at h ⊢
    exact ⟨Expr.tame_full hk a above _ _ h.1 ha, Expr.tame_full hk b _ _ _ h.2 fun x hx =>
      List.mem_append_left _ (ha x hx)⟩
  | .lambda d ps b, above, a', s', h, ha => by
    simp only [Expr.Tame] at h ⊢
    exact ⟨Expr.tame_full hk d above _ _ h.1 ha, h.2⟩
  | .comp false c, above, a', s', h, ha => by
    simp only [Expr.Tame] at h ⊢; exact Comp.tame_full hk c above a' s' h ha
  | .comp true c, above, a', s', h, ha => by
    simp only [Expr.Tame] at h ⊢
    exact ⟨h.1, h.2.1, fun hc => absurd hc hk, h.2.2.2⟩

theorem Comp.tame_full (hk : S.kind ≠ .cls) :
    ∀ (c : Comp) (above above' : List Name) (soon' : Option (List Name)),
      Comp.Tame q nowhere above' soon' c → (∀ x ∈ S.names, x ∈ above) → Comp.Tame q S above none c
  | .elt e, above, a', s', h, ha => by
    simp only [Comp.Tame] at h ⊢; exact Expr.tame_full hk e above a' s' h ha
  | .clause iter target ifs r, above, a', s', h, ha => by
    simp only [Comp.Tame] at h ⊢
    exact ⟨Expr.tame_full hk iter above a' s' h.1 ha, h.2⟩

end

/-! ## The end of a nested scope -/

/-- A nested scope that is complete. -/
structure Closed (T : Scope) (F : Frame) : Prop where
  unordered : F.unordered = []
  unresolved : T.kind ≠ .cls → F.unresolved = []

/-- What is taken over from a nested scope. -/
theorem merge_fields (s i : St) :
    (merge s i).events = i.events ∧ (merge s i).frame.kind = s.frame.kind ∧
    (merge s i).frame.unordered = s.frame.unordered ∧
    (merge s i).frame.toParent = s.frame.toParent ∧
    (merge s i).frame.unresolved = s.frame.unresolved ++
      i.frame.toParent.map (fun r => .name r.1 r.2) ++ i.frame.unresolved ∧
    (s.frame.kind = .comp → (merge s i).frame.table = s.frame.table ∧
      (merge s i).frame.walruses = s.frame.walruses ++ i.frame.walruses) ∧
    (s.frame.kind ≠ .comp → (merge s i).frame.walruses = s.frame.walruses ∧
      (∀ y, y ∈ names (merge s i).frame.table ↔
        y ∈ names s.frame.table ∨ y ∈ names i.frame.walruses) ∧
      ∀ p ∈ (merge s i).frame.table, p ∈ s.frame.table ∨ p ∈ i.frame.walruses) := by
  unfold merge
  by_cases hk : s.frame.kind = .comp
  · rw [defineWalruses_comp _ _ (by exact hk)]
    exact ⟨rfl, rfl, rfl, rfl, rfl, fun _ => ⟨rfl, rfl⟩, fun h => absurd hk h⟩
  · rw [defineWalruses_ne _ _ (by exact hk)]
    obtain ⟨h1, h2, ⟨a, b, c, d, e⟩, h4⟩ := defineAll_spec i.frame.walruses
      { frame := { s.frame with
          unresolved := s.frame.unresolved ++ i.frame.toParent.map (fun r => .name r.1 r.2) ++
            i.frame.unresolved }
        events := i.events }
    exact ⟨h4, a.symm, b.symm, d.symm, c.symm, fun h => absurd h hk, fun _ => ⟨e.symm, h1, h2⟩⟩

/-- The uses of a nested scope become work of the scope around it. -/
theorem merge_step {T : Scope} {s i : St} {new : List Use}
    (hc : Closed T i.frame)
    (hs : Step q (T :: visible (S :: rest)) (enter T.kind s) i new) :
    Step q (S :: rest) s (merge s i) new := by
  obtain ⟨h1, h2, h3, h4, h5, -⟩ := merge_fields s i
  obtain ⟨e, d, a, b, c, f⟩ := hs
  refine ⟨e, d, by rw [h1, a]; rfl, b, c, fun u => ?_⟩
  have hu := f u
  have hpe : pend (T :: visible (S :: rest)) (enter T.kind s).frame = [] := rfl
  rw [hpe] at hu
  have key : u ∈ pend (S :: rest) (merge s i).frame ↔
      u ∈ pend (S :: rest) s.frame ∨ u ∈ pend (T :: visible (S :: rest)) i.frame := by
    unfold pend
    rw [h3, h4, h5, hc.unordered]
    simp only [List.flatMap_append, List.mem_append, List.map_nil, List.nil_append,
      List.drop_succ_cons, List.drop_zero]
    have e1 : u ∈ (i.frame.toParent.map fun r => Unresolved.name r.1 r.2).flatMap
        (owed (S :: rest)) ↔ u ∈ i.frame.toParent.map
          fun r => Use.ref r.1 r.2 (meaning (visible (S :: rest)) r.2) := by
      simp only [List.mem_flatMap, List.mem_map]
      constructor
      · rintro ⟨v, ⟨r, hr, rfl⟩, hv⟩
        simp only [owed, List.mem_singleton] at hv
        exact ⟨r, hr, hv.symm⟩
      · rintro ⟨r, hr, rfl⟩
        exact ⟨_, ⟨r, hr, rfl⟩, .head _⟩
    have e2 : u ∈ i.frame.unresolved.flatMap (owed (S :: rest)) ↔
        u ∈ i.frame.unresolved.flatMap (owed (T :: visible (S :: rest))) := by
      by_cases hk : T.kind = .cls
      · have : owed (S :: rest) = owed (T :: visible (S :: rest)) := by
          funext v
          cases v <;> simp [owed, Verif.Scope.visible, hk]
        rw [this]
      · rw [hc.unresolved hk]; simp
    rw [e1, e2]
    grind
  rw [key]
  simp only [List.not_mem_nil, or_false] at hu
  grind

/-- The invariant after a nested scope. -/
theorem merge_inv {T : Scope} {s i : St} {above : List Name} {soon : Option (List Name)}
    (h : Inv q S above soon s.frame) (ht : ∀ u ∈ i.frame.unresolved, u.Tame q)
    (hf : ∀ u ∈ i.frame.unresolved, u.isFunc = true → S.kind.holds)
    (hw : S.kind ≠ .comp → ∀ p ∈ i.frame.walruses, p ∈ S.binders) :
    Inv q S (above ++ if S.kind = .comp then [] else names i.frame.walruses) soon
      (merge s i).frame := by
  obtain ⟨h1, h2, h3, h4, h5, h6, h7⟩ := merge_fields s i
  refine ⟨h2.trans h.kind, ?_, ?_, h3 ▸ h.pending, ?_, ?_⟩
  · intro p hp
    by_cases hk : S.kind = .comp
    · rw [(h6 (h.kind.trans hk)).1] at hp; exact h.table p hp
    · rcases (h7 (by rw [h.kind]; exact hk)).2.2 p hp with hp | hp
      · exact h.table p hp
      · exact hw hk p hp
  · intro x
    by_cases hk : S.kind = .comp
    · rw [(h6 (h.kind.trans hk)).1, h.names]; simp [hk]
    · rw [(h7 (by rw [h.kind]; exact hk)).2.1, h.names]; simp [hk]
  · intro u hu
    rw [h5] at hu
    simp only [List.mem_append] at hu
    rcases hu with (hu | hu) | hu
    · exact h.tame u hu
    · obtain ⟨r, -, rfl⟩ := List.mem_map.mp hu; trivial
    · exact ht u hu
  · intro u hu
    rw [h5] at hu
    simp only [List.mem_append] at hu
    rcases hu with (hu | hu) | hu
    · exact h.funcs u hu
    · obtain ⟨r, -, rfl⟩ := List.mem_map.mp hu; intro h; cases h
    · exact hf u hu

/-! ## `global` and `nonlocal` -/

/-- The scopes around a function are complete. -/
inductive Aligned : List Frame → Ctx → Prop where
  | module {F : Frame} {S : Scope} : F.kind = S.kind → S.kind = .global → (∀ p ∈ F.table, p ∈ S.binders) →
      (∀ x ∈ S.names, x ∈ names F.table) → Aligned [F] [S]
  | cons {F : Frame} {S : Scope} {Fs : List Frame} {C : Ctx} : F.kind = S.kind → S.kind = .function → (∀ p ∈ F.table, p ∈ S.binders) →
      (∀ x ∈ S.names, x ∈ names F.table) → Aligned Fs C → Aligned (F :: Fs) (S :: C)

theorem lookup_aligned {F : Frame} (ht : ∀ p ∈ F.table, p ∈ S.binders)
    (hn : ∀ x ∈ S.names, x ∈ names F.table) (x : Name) :
    (x ∉ S.names ∧ lookup x F.table = none) ∨
      (x ∈ S.names ∧ ∃ d, lookup x F.table = some d ∧ (x, d) ∈ S.binders) := by
  cases h : lookup x F.table with
  | none =>
    exact .inl ⟨fun hx => (lookup_none.mp h) (hn x hx), rfl⟩
  | some d =>
    exact .inr ⟨mem_names.mpr ⟨d, ht _ (lookup_mem h)⟩, d, rfl, ht _ (lookup_mem h)⟩

theorem lookupGlobal_right {Fs : List Frame} (h : Aligned Fs C) (id : Node) (x : Name) :
    Right (.global id x (globalMeaning C x)) (.declare id (lookupGlobal x Fs)) := by
  induction h with
  | @module F S hk hg ht hn =>
    simp only [globalMeaning, lookupGlobal, hg, decide_true, List.filter_cons_of_pos, List.filter_nil,
      List.find?_cons, List.find?_nil]
    rcases lookup_aligned ht hn x with ⟨h1, h2⟩ | ⟨h1, d, h2, h3⟩
    · simp only [h1, h2, decide_false]; exact .globalNone
    · simp only [h1, h2, decide_true]; exact .global h3
  | @cons F S Fs C hk hf ht hn ha ih =>
    have e1 : globalMeaning (S :: C) x = globalMeaning C x := by
      simp [globalMeaning, hf]
    have e2 : lookupGlobal x (F :: Fs) = lookupGlobal x Fs := by
      cases ha <;> rfl
    rw [e1, e2]
    exact ih

theorem lookupNonlocal_right {Fs : List Frame} (h : Aligned Fs C) (id : Node) (x : Name) :
    Right (.nonlocal id x (nonlocalMeaning C x)) (.declare id (lookupNonlocal x Fs)) := by
  induction h with
  | @module F S hk hg ht hn =>
    have e1 : nonlocalMeaning [S] x = none := by simp [nonlocalMeaning, hg]
    have e2 : lookupNonlocal x [F] = none := by simp [lookupNonlocal, hk, hg]
    rw [e1, e2]
    exact .nonlocalNone
  | @cons F S Fs C hk hf ht hn ha ih =>
    simp only [lookupNonlocal, hk, hf, ne_eq, not_true_eq_false, if_false]
    have e1 : nonlocalMeaning (S :: C) x =
        if x ∈ S.names then some S else nonlocalMeaning C x := by
      simp only [nonlocalMeaning, hf, decide_true, List.filter_cons_of_pos, List.find?_cons]
      by_cases hx : x ∈ S.names <;> simp [hx]
    rw [e1]
    rcases lookup_aligned ht hn x with ⟨h1, h2⟩ | ⟨h1, d, h2, h3⟩
    · simp only [h1, h2, if_false]; exact ih
    · simp only [h1, h2, if_true]; exact .nonlocal h3

/-- A declaration is written down. -/
theorem declared_step {s : St} {u : Use} {id : Node} {evs : List Event}
    {d : Option Node} (hr : Right u (.declare id d))
    (he : (evs = [.declare id d] ∧ ∀ id x, u ≠ .nonlocal id x none) ∨
      (evs = [.issue id, .declare id d] ∧ ∃ x, u = .nonlocal id x none)) :
    Step q (S :: rest) s { s with events := s.events ++ evs } [u] := by
  refine ⟨evs, [u], rfl, ?_, ⟨?_, ?_⟩, fun u => by simp⟩
  · intro e h
    rcases he with ⟨rfl, -⟩ | ⟨rfl, -⟩
    · simp only [List.mem_singleton] at h
      subst h
      exact .inl ⟨_, .head _, hr⟩
    · simp only [List.mem_cons, List.not_mem_nil, or_false] at h
      rcases h with rfl | rfl
      · exact .inr (.inr ⟨_, rfl⟩)
      · exact .inl ⟨_, .head _, hr⟩
  · intro u hu
    simp only [List.mem_singleton] at hu
    subst hu
    refine ⟨.declare id d, ?_, hr⟩
    rcases he with ⟨rfl, -⟩ | ⟨rfl, -⟩ <;> simp
  · intro i
    rcases he with ⟨rfl, h⟩ | ⟨rfl, x, rfl⟩
    · simp only [List.mem_singleton, reduceCtorEq, false_iff, not_exists]
      exact fun x hx => h _ _ hx.symm
    · simp

theorem declareGlobal_step {parents : List Frame} {s : St} {above : List Name}
    {soon : Option (List Name)} (h : Inv q S above soon s.frame) (hk : S.kind = .function)
    (ha : Aligned parents rest) {id : Node} {x : Name} (hx : x ∉ above)
    (hm : (x, id) ∈ S.binders) :
    Inv q S (above ++ [x]) soon (declareGlobal parents id x s).frame ∧
      Step q (S :: rest) s (declareGlobal parents id x s)
        [.global id x (globalMeaning (S :: rest) x)] ∧
      (declareGlobal parents id x s).frame.walruses = s.frame.walruses := by
  have hl : lookup x s.frame.table = none := by rw [lookup_none, h.names]; exact hx
  simp only [declareGlobal, hl]
  have e1 : globalMeaning (S :: rest) x = globalMeaning rest x := by simp [globalMeaning, hk]
  have e2 : lookupGlobal x (s.frame :: parents) = lookupGlobal x parents := by
    cases ha <;> rfl
  rw [e1, e2]
  refine ⟨by apply Inv.define _ hm; exact h, ?_, ?_⟩
  · exact (declared_step (lookupGlobal_right ha id x) (.inl ⟨rfl, by simp⟩)).trans (define_step _ _ _)
  · exact (define_same id x { s with events := _ }).1.2.2.2.2.symm

theorem declareNonlocal_step {parents : List Frame} {s : St} {above : List Name}
    {soon : Option (List Name)} (h : Inv q S above soon s.frame)
    (ha : Aligned parents rest) {id : Node} {x : Name} (hx : x ∉ above)
    (hm : (x, id) ∈ S.binders) :
    Inv q S (above ++ [x]) soon (declareNonlocal parents id x s).frame ∧
      Step q (S :: rest) s (declareNonlocal parents id x s)
        [.nonlocal id x (nonlocalMeaning rest x)] ∧
      (declareNonlocal parents id x s).frame.walruses = s.frame.walruses := by
  have hl : lookup x s.frame.table = none := by rw [lookup_none, h.names]; exact hx
  have hr := lookupNonlocal_right ha id x
  unfold declareNonlocal
  cases hp : lookupNonlocal x parents with
  | some d =>
    simp only [hl]
    rw [hp] at hr
    refine ⟨by apply Inv.define _ hm; exact h, ?_, ?_⟩
    · refine (declared_step hr (.inl ⟨rfl, ?_⟩)).trans (define_step _ _ _)
      intro i y h
      rw [h] at hr
      cases hr
    · exact (define_same id x { s with events := _ }).1.2.2.2.2.symm
  | none =>
    simp only []
    rw [hp] at hr
    refine ⟨by apply Inv.define _ hm; exact h, ?_, ?_⟩
    · refine (declared_step hr (.inr ⟨rfl, x, ?_⟩)).trans (define_step _ _ _)
      cases hm : nonlocalMeaning rest x with
      | none => rfl
      | some T => rw [hm] at hr; cases hr
    · exact (define_same id x { s with events := _ }).1.2.2.2.2.symm

end Verif.Scope
