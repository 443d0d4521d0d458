import Verif.Scope.Context

/-! # Every use of a name is dealt with once -/

namespace Verif.Scope

variable {q : Bool} {S : Scope} {rest : Ctx}

/-- The scopes around a scope that may have functions in it. -/
def Around (S : Scope) (parents : List Frame) (rest : Ctx) : Prop :=
  (S.kind = .function → Aligned parents rest) ∧ (S.kind = .global → parents = [])

def ExprOk (n : Nat) : Prop :=
  ∀ {q : Bool} {S : Scope} {rest : Ctx} {parents : List Frame} {ordered : Bool}
    {above : List Name} {soon : Option (List Name)} {e : Expr} {s s' : St},
    indexExpr n parents ordered e s = some s' → WfTop S rest → Inv q S above soon s.frame →
    e.Tame q S ordered above soon → (soon = none → ordered = true) →
    (∀ p ∈ e.binds S.kind, p ∈ S.binders) →
    Inv q S (above ++ names (e.binds S.kind)) soon s'.frame ∧
      Step q (S :: rest) s s' (e.uses (S :: rest)) ∧
      s'.frame.walruses = s.frame.walruses ++ if S.kind = .comp then e.walruses else []

def CompOk (n : Nat) : Prop :=
  ∀ {q : Bool} {S : Scope} {rest : Ctx} {parents : List Frame}
    {above : List Name} {soon : Option (List Name)} {c : Comp} {s s' : St},
    indexComp n parents c s = some s' → WfTop S rest → Inv q S above soon s.frame →
    c.Tame q S above soon →
    (∀ p ∈ c.binds S.kind, p ∈ S.binders) →
    Inv q S (above ++ names (c.binds S.kind)) soon s'.frame ∧
      Step q (S :: rest) s s' (c.uses (S :: rest)) ∧
      s'.frame.walruses = s.frame.walruses ++ if S.kind = .comp then c.walruses else []

def BlockOk (n : Nat) : Prop :=
  ∀ {q : Bool} {S : Scope} {rest : Ctx} {parents : List Frame}
    {above : List Name} {soon : Option (List Name)} {b : Block} {s s' : St},
    indexBlock n parents soon.isNone b s = some s' → WfTop S rest → S.kind.holds →
    Inv q S above soon s.frame → b.Tame q S above soon →
    (∀ p ∈ b.binds, p ∈ S.binders) → (b.loops = true → S.loops = true) →
    (S.kind = .function → Aligned parents rest) →
    Inv q S (above ++ names b.binds) soon s'.frame ∧
      Step q (S :: rest) s s' (b.uses (S :: rest)) ∧
      s'.frame.walruses = s.frame.walruses

def CloseOk (n : Nat) : Prop :=
  ∀ {q : Bool} {S : Scope} {rest : Ctx} {parents : List Frame} {above : List Name} {s s' : St},
    close n parents s = some s' → WfTop S rest → Inv q S above none s.frame →
    (∀ x ∈ S.names, x ∈ above) → Around S parents rest →
    Closed S s'.frame ∧ Step q (S :: rest) s s' [] ∧ s'.frame.walruses = s.frame.walruses ∧
      ∀ u ∈ s'.frame.unresolved, u ∈ s.frame.unresolved

def WorkOk (n : Nat) : Prop :=
  ∀ {q : Bool} {S : Scope} {rest : Ctx} {parents : List Frame} {above : List Name}
    {us : List Unresolved} {s s' : St},
    work n parents us s = some s' → WfTop S rest → S.kind ≠ .cls → Inv q S above none s.frame →
    s.frame.unresolved = [] → (∀ x ∈ S.names, x ∈ above) → Around S parents rest →
    (∀ u ∈ us, u.Tame q) → (∀ u ∈ us, u.isFunc = true → S.kind.holds) →
    Inv q S above none s'.frame ∧ s'.frame.unresolved = [] ∧
      Step q (S :: rest) s s' (us.flatMap (owed (S :: rest))) ∧
      s'.frame.walruses = s.frame.walruses

def ResolveOk (n : Nat) : Prop :=
  ∀ {q : Bool} {S : Scope} {rest : Ctx} {parents : List Frame} {above : List Name}
    {u : Unresolved} {s s' : St},
    resolve n parents u s = some s' → WfTop S rest → S.kind ≠ .cls →
    Inv q S above none s.frame →
    (∀ x ∈ S.names, x ∈ above) → Around S parents rest →
    u.Tame q → (u.isFunc = true → S.kind.holds) →
    Inv q S above none s'.frame ∧
      Step q (S :: rest) s s' (owed (S :: rest) u) ∧
      s'.frame.walruses = s.frame.walruses

theorem Inv.enter {T : Scope} (s : St) : Inv q T [] none (enter T.kind s).frame := by
  refine ⟨rfl, ?_, ?_, ?_, ?_, ?_⟩ <;> simp [Verif.Scope.enter]

theorem Inv.postpone {above : List Name} {soon : Option (List Name)} {s : St} {u : Unresolved}
    (h : Inv q S above soon s.frame) (ht : u.Tame q) (hf : u.isFunc = true → S.kind.holds) :
    Inv q S above soon (postpone u s).frame := by
  refine { h with tame := ?_, funcs := ?_ }
  · intro v hv
    simp only [Verif.Scope.postpone, List.mem_append, List.mem_singleton] at hv
    rcases hv with hv | rfl
    · exact h.tame v hv
    · exact ht
  · intro v hv
    simp only [Verif.Scope.postpone, List.mem_append, List.mem_singleton] at hv
    rcases hv with hv | rfl
    · exact h.funcs v hv
    · exact hf

theorem postpone_step {C : Ctx} (u : Unresolved) (s : St) :
    Step q C s (postpone u s) (owed C u) := by
  refine Step.quiet rfl fun v => ?_
  simp only [pend, postpone, List.flatMap_append, List.mem_append, List.flatMap_cons,
    List.flatMap_nil, List.append_nil]
  grind

theorem binds_ne {k : Kind} (h : k ≠ .comp) (e : Expr) : e.binds k = e.binds .function := by
  unfold Expr.binds
  cases k <;> first | rfl | exact absurd rfl h

theorem holds_ne {k : Kind} (h : k.holds) : k ≠ .comp := by
  rintro rfl; rcases h with h | h | h <;> cases h

theorem binds_sub {k : Kind} {e : Expr} {p : Name × Node} (h : p ∈ e.targets) : p ∈ e.binds k := by
  unfold Expr.binds
  split
  · exact h
  · exact List.mem_append_left _ h

theorem expr_succ {n : Nat} (he : ExprOk n) (hc : CompOk n) : ExprOk (n + 1) := by
  intro q S rest parents ordered above soon e s s' h hw hi ht ho hb
  cases e with
  | empty =>
    simp only [indexExpr, Option.some.injEq] at h
    subst h
    refine ⟨hi.congr fun x => ?_, Step.quiet rfl fun u => by simp [Expr.uses], ?_⟩
    · unfold Expr.binds; split <;> simp [Expr.targets, Expr.walruses]
    · simp [Expr.walruses]
  | ref id x =>
    simp only [indexExpr, Option.some.injEq] at h
    subst h
    obtain ⟨h1, h2, h3⟩ := addReference_step (rest := rest) (id := id) hi ht ho
    refine ⟨h1.congr fun x => ?_, h2, ?_⟩
    · unfold Expr.binds; split <;> simp [Expr.targets, Expr.walruses]
    · rw [h3]; simp [Expr.walruses]
  | bind id x =>
    simp only [indexExpr, Option.some.injEq] at h
    subst h
    refine ⟨(hi.define (hb _ (binds_sub (.head _)))).congr fun y => ?_, define_step _ _ _, ?_⟩
    · unfold Expr.binds; split <;> simp [Expr.targets, Expr.walruses]
    · rw [← (define_same id x s).1.2.2.2.2]; simp [Expr.walruses]
  | walrus id x e =>
    simp only [indexExpr, Option.map_eq_some_iff] at h
    obtain ⟨s1, h, rfl⟩ := h
    by_cases hk : S.kind = .comp
    · obtain ⟨h1, h2, h3⟩ := he h hw hi ht ho (by
        intro p hp; exact hb p (by rw [hk] at hp ⊢; exact hp))
      have e1 : defineWalrus id x s1 = { s1 with frame := { s1.frame with
          walruses := s1.frame.walruses ++ [(x, id)] } } := by
        unfold defineWalrus
        rw [h1.kind, hk]
      refine ⟨?_, ?_, ?_⟩
      · rw [e1]
        refine Inv.congr (above := above ++ names (e.binds S.kind)) ⟨h1.kind, h1.table, h1.names,
          h1.pending, h1.tame, h1.funcs⟩ fun y => ?_
        rw [hk]; rfl
      · rw [e1]
        have : Step q (S :: rest) s1 { s1 with frame := { s1.frame with
          walruses := s1.frame.walruses ++ [(x, id)] } } [] := Step.quiet rfl fun u => by simp [pend]
        simpa [Expr.uses] using h2.trans this
      · rw [e1, h3]; simp [hk, Expr.walruses]
    · have hm : ∀ p ∈ e.binds S.kind, p ∈ S.binders := by
        intro p hp
        refine hb p ?_
        rw [binds_ne hk] at hp ⊢
        simp only [Expr.binds, Expr.targets, Expr.walruses, List.mem_append] at hp ⊢
        grind
      obtain ⟨h1, h2, h3⟩ := he h hw hi ht ho hm
      have e1 : defineWalrus id x s1 = define id x s1 := by
        unfold defineWalrus
        rw [h1.kind]
        split
        · next h' => exact absurd h' hk
        · rfl
      rw [e1]
      refine ⟨(h1.define (hb _ ?_)).congr fun y => ?_, ?_, ?_⟩
      · rw [binds_ne hk]; simp [Expr.binds, Expr.walruses]
      · rw [binds_ne hk, binds_ne hk]
        simp [Expr.binds, Expr.targets, Expr.walruses]
      · simpa [Expr.uses] using h2.trans (define_step id x s1)
      · rw [← (define_same id x s1).1.2.2.2.2, h3]; simp [hk]
  | both a b =>
    simp only [indexExpr, Option.bind_eq_some_iff] at h
    obtain ⟨s1, ha, hb'⟩ := h
    simp only [Expr.Tame] at ht
    obtain ⟨h1, h2, h3⟩ := he ha hw hi ht.1 ho (by
      intro p hp
      refine hb p ?_
      unfold Expr.binds at hp ⊢
      split at hp <;> simp only [Expr.targets, Expr.walruses, List.mem_append] at hp ⊢ <;> grind)
    obtain ⟨g1, g2, g3⟩ := he hb' hw h1 ht.2 ho (by
      intro p hp
      refine hb p ?_
      unfold Expr.binds at hp ⊢
      split at hp <;> simp only [Expr.targets, Expr.walruses, List.mem_append] at hp ⊢ <;> grind)
    refine ⟨g1.congr fun x => ?_, ?_, ?_⟩
    · unfold Expr.binds
      split <;> simp only [Expr.targets, Expr.walruses, List.mem_append, names_append] <;> grind
    · simp only [Expr.uses]; exact h2.trans g2
    · rw [g3, h3]; split <;> simp [Expr.walruses]
  | lambda d ps b =>
    simp only [indexExpr, Option.map_eq_some_iff] at h
    obtain ⟨s1, h, rfl⟩ := h
    simp only [Expr.Tame] at ht
    obtain ⟨h1, h2, h3⟩ := he h hw hi ht.1 ho (by
      intro p hp
      refine hb p ?_
      unfold Expr.binds at hp ⊢
      split at hp <;> simpa only [Expr.targets, Expr.walruses, List.mem_append] using hp)
    refine ⟨?_, ?_, ?_⟩
    · refine (h1.postpone (u := .lambda ps b) ht.2 (by intro h; cases h)).congr fun x => ?_
      unfold Expr.binds
      split <;> simp [Expr.targets, Expr.walruses]
    · simp only [Expr.uses]; exact h2.trans (postpone_step _ _)
    · simp only [postpone, h3, Expr.walruses]
  | comp g c =>
    cases g with
    | true =>
      simp only [indexExpr, Option.some.injEq] at h
      subst h
      simp only [Expr.Tame] at ht
      obtain ⟨t1, t2, t3, t4⟩ := ht
      refine ⟨?_, ?_, ?_⟩
      · refine (hi.postpone (u := .comp c) ⟨t1, t2, t4⟩ (by intro h; cases h)).congr fun x => ?_
        unfold Expr.binds
        split <;> simp [Expr.targets, Expr.walruses, t1, t2]
      · refine (postpone_step _ _).congr fun u => ?_
        simp only [owed, Expr.uses]
        by_cases hk : S.kind = .cls
        · have hwf : Wf rest := by
            rcases hw with ⟨h, -⟩ | ⟨-, h⟩
            · rw [hk] at h; cases h
            · exact h
          rw [Comp.uses_class hk hwf c (t3 hk)]
          simp [visible, hk]
        · simp [visible, hk]
      · simp [postpone, Expr.walruses, t1]
    | false =>
      simp only [indexExpr] at h
      simp only [Expr.Tame] at ht
      obtain ⟨h1, h2, h3⟩ := hc h hw hi ht (by
        intro p hp
        refine hb p ?_
        unfold Comp.binds at hp
        unfold Expr.binds
        split at hp <;> simpa only [Expr.targets, Expr.walruses] using hp)
      refine ⟨h1.congr fun x => ?_, h2, h3⟩
      unfold Comp.binds Expr.binds
      split <;> simp [Expr.targets, Expr.walruses]

theorem comp_succ {n : Nat} (he : ExprOk n) (hc : CompOk n) (hcl : CloseOk n) :
    CompOk (n + 1) := by
  intro q S rest parents above soon c s s' h hw hi ht hb
  cases c with
  | elt e =>
    simp only [indexComp] at h
    simp only [Comp.Tame] at ht
    obtain ⟨h1, h2, h3⟩ := he h hw hi ht (fun _ => rfl) (by
      intro p hp
      refine hb p ?_
      unfold Expr.binds at hp
      unfold Comp.binds
      split at hp <;> simpa only [Comp.outer, Comp.walruses] using hp)
    refine ⟨h1.congr fun x => ?_, h2, h3⟩
    unfold Comp.binds Expr.binds
    split <;> simp [Comp.outer, Comp.walruses]
  | clause iter target ifs r =>
    simp only [indexComp, Option.bind_eq_bind, Option.bind_eq_some_iff, Option.some.injEq] at h
    obtain ⟨s1, a1, i1, a2, i2, a3, i3, a4, i4, a5, rfl⟩ := h
    simp only [Comp.Tame] at ht
    obtain ⟨t1, t2, t3, t4⟩ := ht
    have hne : (clauseScope target ifs r).kind ≠ .global := by simp [clauseScope]
    have hw' := hw.push hne
    obtain ⟨b1, b2, b3⟩ := he a1 hw hi t1 (fun _ => rfl) (by
      intro p hp
      refine hb p ?_
      unfold Expr.binds at hp
      unfold Comp.binds
      split at hp <;> simp only [Comp.outer, Comp.walruses, List.mem_append] at hp ⊢ <;> grind)
    obtain ⟨c1, c2, c3⟩ := he a2 hw' (Inv.enter (T := clauseScope target ifs r) s1) t2
      (fun _ => rfl) (by intro p hp; simp only [clauseScope, List.mem_append]; exact .inl (.inl hp))
    obtain ⟨d1, d2, d3⟩ := he a3 hw' c1 (by simpa [clauseScope] using t3)
      (fun _ => rfl) (by intro p hp; simp only [clauseScope, List.mem_append]; exact .inl (.inr hp))
    obtain ⟨f1, f2, f3⟩ := hc a4 hw' d1 (by simpa [clauseScope] using t4)
      (by intro p hp; simp only [clauseScope, List.mem_append]; exact .inr hp)
    obtain ⟨g1, g2, g3, g4⟩ := hcl a5 hw' f1 (by
      intro x hx
      simp only [Scope.names_eq, clauseScope, names_append, List.nil_append, List.mem_append]
        at hx ⊢
      exact hx)
      ⟨(by intro h; cases h), (by intro h; cases h)⟩
    have hs := ((c2.trans d2).trans f2).trans g2
    have hu : i4.frame.unresolved = [] := g1.unresolved (by simp [clauseScope])
    have hwal : i4.frame.walruses = target.walruses ++ ifs.walruses ++ r.walruses := by
      rw [g3, f3, d3, c3]; simp [clauseScope, enter]
    refine ⟨?_, ?_, ?_⟩
    · refine (merge_inv (i := i4) (T := clauseScope target ifs r) b1 (by simp [hu])
        (by simp [hu]) ?_).congr fun x => ?_
      · intro hk p hp
        refine hb p ?_
        rw [hwal] at hp
        unfold Comp.binds
        split
        · exact absurd (by assumption) hk
        · simp only [Comp.outer, Comp.walruses, List.mem_append] at hp ⊢; grind
      · rw [hwal]
        by_cases hk : S.kind = .comp
        · simp [hk, Comp.binds, Expr.binds, Comp.outer]
        · rw [binds_ne hk]
          have : (Comp.clause iter target ifs r).binds S.kind =
              (Comp.clause iter target ifs r).outer ++ (Comp.clause iter target ifs r).walruses := by
            unfold Comp.binds
            split
            · next h' => exact absurd h' hk
            · rfl
          rw [this]
          simp only [hk, if_false, Expr.binds, Comp.outer, Comp.walruses, names_append,
            List.mem_append]
          grind
    · refine (b2.trans (merge_step g1 hs)).congr fun u => ?_
      simp only [Comp.uses, List.mem_append, List.not_mem_nil, or_false]
      grind
    · obtain ⟨-, -, -, -, -, m1, m2⟩ := merge_fields s1 i4
      by_cases hk : S.kind = .comp
      · rw [(m1 (b1.kind.trans hk)).2, hwal, b3]
        simp [hk, Comp.walruses]
      · rw [(m2 (by rw [b1.kind]; exact hk)).1, b3]
        simp [hk]

theorem block_binds_ne {k : Kind} (h : k.holds) (e : Expr) : e.binds k = e.binds .function :=
  binds_ne (holds_ne h) e

theorem block_succ {n : Nat} (he : ExprOk n) (hbk : BlockOk n) (hcl : CloseOk n) :
    BlockOk (n + 1) := by
  intro q S rest parents above soon b s s' h hw hk hi ht hb hl ha
  have hso : soon = none → soon.isNone = true := by rintro rfl; rfl
  cases b with
  | done =>
    simp only [indexBlock, Option.some.injEq] at h
    subst h
    exact ⟨hi.congr fun x => by simp [Block.binds], Step.quiet rfl fun u => by simp [Block.uses],
      rfl⟩
  | stop r =>
    simp only [Block.Tame] at ht
    subst ht
    simp only [indexBlock, Option.bind_eq_bind, Option.bind_eq_some_iff, Option.some.injEq] at h
    obtain ⟨i1, a1, i2, a2, rfl⟩ := h
    let T : Scope := ⟨.function, [], false⟩
    have e1 : i1 = enter s.frame.kind s := by
      cases n with
      | zero => cases a1
      | succ n => simp only [indexBlock, Option.some.injEq] at a1; exact a1.symm
    subst e1
    have e2 : i2 = enter s.frame.kind s := by
      cases n with
      | zero => cases a2
      | succ n =>
        simp only [close] at a2
        split at a2
        · simp only [Option.some.injEq] at a2; rw [← a2]; rfl
        · simp only [Option.map_eq_some_iff] at a2
          obtain ⟨w, hw', rfl⟩ := a2
          cases n with
          | zero => cases hw'
          | succ n =>
            simp only [enter, work, Option.some.injEq] at hw'
            rw [← hw']; rfl
    subst e2
    have e3 : merge s (enter s.frame.kind s) = s := by
      simp [merge, enter, defineWalruses]
    rw [e3]
    exact ⟨hi.congr fun x => by simp [Block.binds], Step.quiet rfl fun u => by simp [Block.uses],
      rfl⟩
  | expr e r =>
    simp only [indexBlock, Option.bind_eq_bind, Option.bind_eq_some_iff] at h
    obtain ⟨s1, a1, a2⟩ := h
    simp only [Block.Tame] at ht
    obtain ⟨b1, b2, b3⟩ := he a1 hw hi ht.1 hso (by
      intro p hp; rw [block_binds_ne hk] at hp
      exact hb p (List.mem_append_left _ hp))
    rw [block_binds_ne hk] at b1
    obtain ⟨c1, c2, c3⟩ := hbk a2 hw hk b1 ht.2
      (fun p hp => hb p (List.mem_append_right _ hp)) hl ha
    refine ⟨c1.congr fun x => by simp [Block.binds], b2.trans c2, ?_⟩
    rw [c3, b3]; simp [holds_ne hk]
  | global id x r =>
    simp only [indexBlock] at h
    simp only [Block.Tame] at ht
    obtain ⟨t1, t2, t3⟩ := ht
    obtain ⟨b1, b2, b3⟩ := declareGlobal_step hi t1 (ha t1) t2 (hb _ (.head _))
    obtain ⟨c1, c2, c3⟩ := hbk h hw hk b1 t3 (fun p hp => hb p (.tail _ hp)) hl ha
    exact ⟨c1.congr fun x => by simp [Block.binds], b2.trans c2, c3.trans b3⟩
  | nonlocal id x r =>
    simp only [indexBlock] at h
    simp only [Block.Tame] at ht
    obtain ⟨t1, t2, t3⟩ := ht
    obtain ⟨b1, b2, b3⟩ := declareNonlocal_step hi (ha t1) t2 (hb _ (.head _))
    obtain ⟨c1, c2, c3⟩ := hbk h hw hk b1 t3 (fun p hp => hb p (.tail _ hp)) hl ha
    exact ⟨c1.congr fun x => by simp [Block.binds], b2.trans c2, c3.trans b3⟩
  | func id x d ps body r =>
    simp only [indexBlock, Option.bind_eq_bind, Option.bind_eq_some_iff] at h
    obtain ⟨s1, a1, a2⟩ := h
    simp only [Block.Tame] at ht
    obtain ⟨t1, t2, t3⟩ := ht
    obtain ⟨b1, b2, b3⟩ := he a1 hw hi t1 hso (by
      intro p hp; rw [block_binds_ne hk] at hp
      exact hb p (List.mem_append_left _ hp))
    rw [block_binds_ne hk] at b1
    have c1 := (b1.postpone (u := .func ps body) t2 fun _ => hk).define (id := id) (x := x)
      (hb _ (List.mem_append_right _ (.head _)))
    have c2 := (b2.trans (postpone_step (.func ps body) s1)).trans
      (define_step id x (postpone (.func ps body) s1))
    obtain ⟨d1, d2, d3⟩ := hbk a2 hw hk c1 t3
      (fun p hp => hb p (List.mem_append_right _ (.tail _ hp))) hl ha
    refine ⟨d1.congr fun x => by simp [Block.binds], (c2.trans d2).congr fun u => ?_, ?_⟩
    · simp [Block.uses, owed]
    · rw [d3, ← (define_same id x _).1.2.2.2.2]
      show s1.frame.walruses = _
      rw [b3]; simp [holds_ne hk]
  | cls id x args body r =>
    simp only [indexBlock, Option.bind_eq_bind, Option.bind_eq_some_iff] at h
    obtain ⟨s1, a1, i1, a2, i2, a3, a4⟩ := h
    simp only [Block.Tame] at ht
    obtain ⟨t1, t2, t3⟩ := ht
    obtain ⟨b1, b2, b3⟩ := he a1 hw hi t1 (fun _ => rfl) (by
      intro p hp; rw [block_binds_ne hk] at hp
      exact hb p (List.mem_append_left _ hp))
    rw [block_binds_ne hk] at b1
    have hne : (classScope body).kind ≠ .global := by simp [classScope]
    have hw' := hw.push hne
    obtain ⟨c1, c2, c3⟩ := hbk (soon := none) a2 hw' (.inr (.inr rfl))
      (Inv.enter (T := classScope body) s1) t2 (fun p hp => hp) (fun h => h) (by intro h; cases h)
    obtain ⟨d1, d2, d3, d4⟩ := hcl a3 hw' c1 (by
      intro x hx; simpa [Scope.names_eq, classScope] using hx)
      ⟨(by intro h; cases h), (by intro h; cases h)⟩
    have hwal : i2.frame.walruses = [] := by rw [d3, c3]; rfl
    have g1 := merge_inv (i := i2) (T := classScope body) b1 (fun u hu => c1.tame u (d4 u hu))
      (fun u hu _ => hk) (by intro _ p hp; rw [hwal] at hp; cases hp)
    have g1' : Inv q S (above ++ names (args.binds .function)) soon (merge s1 i2).frame :=
      g1.congr fun y => by rw [hwal]; simp
    have g2 := merge_step (S := S) (rest := rest) d1 (c2.trans d2)
    have k1 := g1'.define (id := id) (x := x) (hb _ (List.mem_append_right _ (.head _)))
    obtain ⟨f1, f2, f3⟩ := hbk a4 hw hk k1 t3
      (fun p hp => hb p (List.mem_append_right _ (.tail _ hp))) hl ha
    refine ⟨f1.congr fun x => by simp [Block.binds],
      (((b2.trans g2).trans (define_step id x _)).trans f2).congr fun u => ?_, ?_⟩
    · simp only [Block.uses, List.mem_append, List.not_mem_nil, or_false]
    · rw [f3, ← (define_same id x _).1.2.2.2.2]
      obtain ⟨-, -, -, -, -, -, m2⟩ := merge_fields s1 i2
      rw [(m2 (by rw [b1.kind]; exact holds_ne hk)).1, b3]
      simp [holds_ne hk]
  | loop head body els r =>
    simp only [indexBlock, Option.bind_eq_bind, Option.bind_eq_some_iff] at h
    obtain ⟨s1, a1, s2, a2, s3, a3, a4⟩ := h
    simp only [Block.Tame] at ht
    obtain ⟨t1, t2, t3, t4⟩ := ht
    have hbs : ∀ p, (p ∈ head.binds .function ∨ p ∈ body.binds ∨ p ∈ els.binds ∨ p ∈ r.binds) →
        p ∈ S.binders := by
      intro p hp
      refine hb p ?_
      simp only [Block.binds, List.mem_append]; grind
    have hloops : S.loops = true := hl rfl
    obtain ⟨b1, b2, b3⟩ := he a1 hw hi t1 hso (by
      intro p hp; rw [block_binds_ne hk] at hp
      exact hbs p (.inl hp))
    rw [block_binds_ne hk] at b1
    have hi1 : Inv q S (above ++ names (head.binds .function))
        (some (soon.getD (above ++ names (head.binds .function) ++ names body.binds)))
        s1.frame := by
      refine { b1 with pending := ?_ }
      intro hs r hr hn
      obtain ⟨⟨L, hL, hm⟩, h2⟩ := b1.pending hs r hr hn
      subst hL
      exact ⟨⟨L, rfl, hm⟩, h2⟩
    obtain ⟨c1, c2, c3⟩ := hbk a2 hw hk hi1 t2 (fun p hp => hbs p (.inr (.inl hp)))
      (fun _ => hloops) ha
    have key : ∃ s2', s2' = (if soon.isNone = true then flush s2 else s2) ∧
        Inv q S (above ++ names (head.binds .function) ++ names body.binds) soon s2'.frame ∧
        Step q (S :: rest) s2 s2' [] ∧ s2'.frame.walruses = s2.frame.walruses := by
      cases soon with
      | none =>
        refine ⟨_, rfl, ?_⟩
        simp only [Option.isNone_none, if_true]
        have hp := c1.pending (.inr (.inr hloops))
        obtain ⟨g1, g2, g3, g4, g5, g6⟩ := flush_step (q := q) (rest := rest) (S := S) (s := s2)
          c1.table (by
            intro r hr hn
            obtain ⟨⟨L, hL, hm⟩, -⟩ := hp r hr hn
            simp only [Option.getD_none, Option.some.injEq] at hL
            rw [c1.names]
            rw [← hL] at hm
            exact hm)
          (by
            intro hq r hr ho hn
            exact (hp r hr hn).2 ⟨ho, hq⟩)
        refine ⟨⟨g2.trans c1.kind, g3 ▸ c1.table, g3 ▸ c1.names, ?_, g5 ▸ c1.tame, g5 ▸ c1.funcs⟩,
          g1, g6⟩
        intro _ r hr
        rw [g4] at hr; cases hr
      | some L =>
        exact ⟨s2, by simp, c1, Step.quiet rfl fun u => by simp, rfl⟩
    obtain ⟨s2', e2, k1, k2, k3⟩ := key
    rw [← e2] at a3
    obtain ⟨d1, d2, d3⟩ := hbk a3 hw hk k1 t3 (fun p hp => hbs p (.inr (.inr (.inl hp))))
      (fun _ => hloops) ha
    obtain ⟨f1, f2, f3⟩ := hbk a4 hw hk d1 t4 (fun p hp => hbs p (.inr (.inr (.inr hp))))
      (fun _ => hloops) ha
    refine ⟨f1.congr fun x => by simp [Block.binds], ?_, ?_⟩
    · have := (((b2.trans c2).trans k2).trans d2).trans f2
      refine this.congr fun u => ?_
      simp [Block.uses]
    · rw [f3, d3, k3, c3, b3]; simp [holds_ne hk]
  | group b r =>
    simp only [indexBlock, Option.bind_eq_bind, Option.bind_eq_some_iff] at h
    obtain ⟨s1, a1, a2⟩ := h
    simp only [Block.Tame] at ht
    obtain ⟨b1, b2, b3⟩ := hbk a1 hw hk hi ht.1 (fun p hp => hb p (List.mem_append_left _ hp))
      (fun h => hl (by simp [Block.loops, h])) ha
    obtain ⟨c1, c2, c3⟩ := hbk a2 hw hk b1 ht.2 (fun p hp => hb p (List.mem_append_right _ hp))
      (fun h => hl (by simp [Block.loops, h])) ha
    exact ⟨c1.congr fun x => by simp [Block.binds], b2.trans c2, c3.trans b3⟩

theorem close_succ {n : Nat} (hwk : WorkOk n) : CloseOk (n + 1) := by
  intro q S rest parents above s s' h hw hi hf ha
  simp only [close] at h
  have hfl : ∀ {t : St}, Inv q S above none t.frame →
      Step q (S :: rest) t (flush t) [] ∧
      (flush t).frame.kind = t.frame.kind ∧ (flush t).frame.table = t.frame.table ∧
      (flush t).frame.unordered = [] ∧
      (flush t).frame.unresolved = t.frame.unresolved ∧
      (flush t).frame.walruses = t.frame.walruses := by
    intro t hi
    refine flush_step hi.table (fun r hr hn => (hi.names _).mpr (hf _ hn)) ?_
    intro hq r hr ho hn
    exact (hi.pending (.inl hq) r hr hn).2 ⟨ho, hq⟩
  split at h
  · next hc =>
    simp only [Option.some.injEq] at h
    subst h
    obtain ⟨g1, g2, g3, g4, g5, g6⟩ := hfl hi
    exact ⟨⟨g4, fun h => absurd (hi.kind.symm.trans hc) h⟩, g1, g6, fun u hu => by rwa [g5] at hu⟩
  · next hc =>
    simp only [Option.map_eq_some_iff] at h
    obtain ⟨t, h, rfl⟩ := h
    have hi' : Inv q S above none (idle s).frame :=
      ⟨hi.kind, hi.table, hi.names, hi.pending, (by intro u hu; cases hu), (by intro u hu; cases hu)⟩
    have hk : S.kind ≠ .cls := by rw [← hi.kind]; exact hc
    obtain ⟨k1, k2, k3, k4⟩ := hwk h hw hk hi' rfl hf ha hi.tame hi.funcs
    obtain ⟨g1, g2, g3, g4, g5, g6⟩ := hfl k1
    refine ⟨⟨g4, fun _ => by rw [g5, k2]⟩, ?_, by rw [g6, k4]; rfl, ?_⟩
    · obtain ⟨e, d, x1, x2, x3, x4⟩ := k3.trans g1
      refine ⟨e, d, x1, x2, x3, fun u => ?_⟩
      rw [x4 u]
      simp only [pend, idle, List.flatMap_nil, List.append_nil, List.mem_append, List.not_mem_nil,
        or_false, false_or]
      grind
    · intro u hu
      rw [g5, k2] at hu; cases hu

theorem work_succ {n : Nat} (hr : ResolveOk n) (hwk : WorkOk n) : WorkOk (n + 1) := by
  intro q S rest parents above us s s' h hw hk hi hu hf ha ht hfu
  cases us with
  | nil =>
    simp only [work, Option.some.injEq] at h
    subst h
    exact ⟨hi, hu, Step.quiet rfl fun u => by simp, rfl⟩
  | cons u us =>
    simp only [work, Option.bind_eq_bind, Option.bind_eq_some_iff] at h
    obtain ⟨s1, a1, a2⟩ := h
    obtain ⟨b1, b2, b3⟩ := hr a1 hw hk hi hf ha (ht u (.head _)) (hfu u (.head _))
    have hi' : Inv q S above none (idle s1).frame :=
      ⟨b1.kind, b1.table, b1.names, b1.pending, (by intro u hu; cases hu), (by intro u hu; cases hu)⟩
    obtain ⟨c1, c2, c3, c4⟩ := hwk a2 hw hk hi' rfl hf ha
      (by
        intro v hv
        rcases List.mem_append.mp hv with hv | hv
        · exact b1.tame v (List.mem_reverse.mp hv)
        · exact ht v (.tail _ hv))
      (by
        intro v hv
        rcases List.mem_append.mp hv with hv | hv
        · exact b1.funcs v (List.mem_reverse.mp hv)
        · exact hfu v (.tail _ hv))
    refine ⟨c1, c2, ?_, by rw [c4]; exact b3⟩
    have hidle : Step q (S :: rest) s1 s' (us.flatMap (owed (S :: rest))) := by
      obtain ⟨e, d, x1, x2, x3, x4⟩ := c3
      refine ⟨e, d, x1, x2, x3, fun v => ?_⟩
      rw [x4 v]
      simp only [pend, idle, List.flatMap_nil, List.append_nil, List.mem_append,
        List.flatMap_append, List.mem_flatMap, List.mem_reverse]
      grind
    simpa using b2.trans hidle

theorem resolve_succ {n : Nat} (he : ExprOk n) (hc : CompOk n) (hb : BlockOk n)
    (hcl : CloseOk n) : ResolveOk (n + 1) := by
  intro q S rest parents above u s s' h hw hk hi hf ha ht hfu
  have hvis : visible (S :: rest) = S :: rest := by simp [visible, hk]
  cases u with
  | name id x =>
    simp only [resolve] at h
    simp only [owed, hvis]
    split at h
    · next d hl =>
      simp only [Option.some.injEq] at h
      subst h
      exact ⟨hi, found_step hi.table hl, rfl⟩
    · next hl =>
      simp only [Option.some.injEq] at h
      subst h
      have hl := lookup_none.mp hl
      rw [hi.names] at hl
      exact ⟨{ hi with }, passed_step fun hn => hl (hf x hn), rfl⟩
  | func ps body =>
    simp only [resolve, Option.bind_eq_bind, Option.bind_eq_some_iff, Option.some.injEq] at h
    obtain ⟨i1, a1, i2, a2, rfl⟩ := h
    have hne : (funcScope ps body).kind ≠ .global := by simp [funcScope]
    have hw' := hw.push hne
    have hal : Aligned (s.frame :: parents) (S :: rest) := by
      have hn : ∀ x ∈ S.names, x ∈ names s.frame.table := fun x hx => (hi.names x).mpr (hf x hx)
      rcases hfu rfl with h | h | h
      · have hp := ha.2 h
        have hr : rest = [] := by
          rcases hw with ⟨-, h'⟩ | ⟨h', -⟩
          · exact h'
          · exact absurd h h'
        subst hp hr
        exact .module hi.kind h hi.table hn
      · exact .cons hi.kind h hi.table hn (ha.1 h)
      · exact absurd h hk
    have b1 : Inv q (funcScope ps body) (names ps) none
        (defineAll ps (enter (funcScope ps body).kind s)).frame := by
      have := (Inv.enter (q := q) (T := funcScope ps body) s).defineAll (ds := ps)
        (fun p hp => List.mem_append_left _ hp)
      simpa using this
    obtain ⟨c1, c2, c3⟩ := hb (soon := none) a1 hw' (.inr (.inl rfl)) b1 ht
      (fun p hp => List.mem_append_right _ hp) id (fun _ => by rw [hvis]; exact hal)
    obtain ⟨d1, d2, d3, d4⟩ := hcl a2 hw' c1 (by
      intro x hx; simpa [Scope.names_eq, funcScope] using hx)
      ⟨fun _ => by rw [hvis]; exact hal, by intro h; cases h⟩
    have hwal : i2.frame.walruses = [] := by
      rw [d3, c3, ← (defineAll_spec ps (enter .function s)).2.2.1.2.2.2.2]; rfl
    have hu : i2.frame.unresolved = [] := d1.unresolved (by simp [funcScope])
    refine ⟨?_, ?_, ?_⟩
    · refine (merge_inv (i := i2) (T := funcScope ps body) hi (by simp [hu])
        (by simp [hu]) (by intro _ p hp; rw [hwal] at hp; cases hp)).congr fun x => ?_
      rw [hwal]; simp
    · have := ((defineAll_step (q := q) (C := funcScope ps body :: visible (S :: rest)) ps
        (enter (funcScope ps body).kind s)).trans c2).trans d2
      have := merge_step (S := S) (rest := rest) d1 this
      simpa [owed] using this
    · obtain ⟨-, -, -, -, -, m1, m2⟩ := merge_fields s i2
      by_cases hc : s.frame.kind = .comp
      · rw [(m1 hc).2, hwal]; simp
      · rw [(m2 hc).1]
  | lambda ps body =>
    simp only [resolve, Option.bind_eq_bind, Option.bind_eq_some_iff, Option.some.injEq] at h
    obtain ⟨i1, a1, i2, a2, rfl⟩ := h
    have hne : (lambdaScope ps body).kind ≠ .global := by simp [lambdaScope]
    have hw' := hw.push hne
    have b1 : Inv q (lambdaScope ps body) (names ps) none
        (defineAll ps (enter (lambdaScope ps body).kind s)).frame := by
      have := (Inv.enter (q := q) (T := lambdaScope ps body) s).defineAll (ds := ps)
        (fun p hp => List.mem_append_left _ hp)
      simpa using this
    obtain ⟨c1, c2, c3⟩ := he a1 hw' b1 ht (fun _ => rfl)
      (fun p hp => List.mem_append_right _ hp)
    obtain ⟨d1, d2, d3, d4⟩ := hcl a2 hw' c1 (by
      intro x hx; simpa [Scope.names_eq, lambdaScope] using hx)
      ⟨(by intro h; cases h), (by intro h; cases h)⟩
    have hwal : i2.frame.walruses = [] := by
      rw [d3, c3]
      show (defineAll ps (enter .lambda s)).frame.walruses ++ _ = _
      rw [← (defineAll_spec ps (enter .lambda s)).2.2.1.2.2.2.2]
      simp [lambdaScope, enter]
    have hu : i2.frame.unresolved = [] := d1.unresolved (by simp [lambdaScope])
    refine ⟨?_, ?_, ?_⟩
    · refine (merge_inv (i := i2) (T := lambdaScope ps body) hi (by simp [hu])
        (by simp [hu]) (by intro _ p hp; rw [hwal] at hp; cases hp)).congr fun x => ?_
      rw [hwal]; simp
    · have := ((defineAll_step (q := q) (C := lambdaScope ps body :: visible (S :: rest)) ps
        (enter (lambdaScope ps body).kind s)).trans c2).trans d2
      have := merge_step (S := S) (rest := rest) d1 this
      simpa [owed] using this
    · obtain ⟨-, -, -, -, -, m1, m2⟩ := merge_fields s i2
      by_cases hc : s.frame.kind = .comp
      · rw [(m1 hc).2, hwal]; simp
      · rw [(m2 hc).1]
  | comp c =>
    simp only [resolve] at h
    obtain ⟨t1, t2, t3⟩ := ht
    have hbn : c.binds S.kind = [] := by unfold Comp.binds; split <;> simp [t1, t2]
    obtain ⟨b1, b2, b3⟩ := hc h hw hi (Comp.tame_full hk c above [] none t3 hf)
      (by rw [hbn]; simp)
    rw [hbn] at b1
    refine ⟨by simpa using b1, ?_, ?_⟩
    · simp only [owed, hvis]; exact b2
    · rw [b3, t1]; simp

theorem all_ok (n : Nat) :
    ExprOk n ∧ CompOk n ∧ BlockOk n ∧ CloseOk n ∧ WorkOk n ∧ ResolveOk n := by
  induction n with
  | zero =>
    refine ⟨?_, ?_, ?_, ?_, ?_, ?_⟩
    · intro _ _ _ _ _ _ _ _ _ _ h; cases h
    · intro _ _ _ _ _ _ _ _ _ h; cases h
    · intro _ _ _ _ _ _ _ _ _ h; cases h
    · intro _ _ _ _ _ _ _ h; cases h
    · intro _ _ _ _ _ _ _ _ h; cases h
    · intro _ _ _ _ _ _ _ _ h; cases h
  | succ n ih =>
    obtain ⟨h1, h2, h3, h4, h5, h6⟩ := ih
    exact ⟨expr_succ h1 h2, comp_succ h1 h2 h4, block_succ h1 h3 h4, close_succ h5,
      work_succ h6 h5, resolve_succ h1 h2 h3 h4⟩

end Verif.Scope
