import Verif.Scope.Lemmas

/-! # The name binder ends -/

namespace Verif.Scope

/-! ## More fuel changes nothing -/

theorem more (n : Nat) :
    (∀ {P o e s s'}, indexExpr n P o e s = some s' → indexExpr (n + 1) P o e s = some s') ∧
    (∀ {P c s s'}, indexComp n P c s = some s' → indexComp (n + 1) P c s = some s') ∧
    (∀ {P o b s s'}, indexBlock n P o b s = some s' → indexBlock (n + 1) P o b s = some s') ∧
    (∀ {P s s'}, close n P s = some s' → close (n + 1) P s = some s') ∧
    (∀ {P us s s'}, work n P us s = some s' → work (n + 1) P us s = some s') ∧
    (∀ {P u s s'}, resolve n P u s = some s' → resolve (n + 1) P u s = some s') := by
  induction n with
  | zero =>
    refine ⟨?_, ?_, ?_, ?_, ?_, ?_⟩
    · intro _ _ _ _ _ h; cases h
    · intro _ _ _ _ h; cases h
    · intro _ _ _ _ _ h; cases h
    · intro _ _ _ h; cases h
    · intro _ _ _ _ h; cases h
    · intro _ _ _ _ h; cases h
  | succ n ih =>
    obtain ⟨h1, h2, h3, h4, h5, h6⟩ := ih
    refine ⟨?_, ?_, ?_, ?_, ?_, ?_⟩
    · intro P o e s s' h
      cases e with
      | empty | ref | bind => exact h
      | walrus id x e =>
        simp only [indexExpr, Option.map_eq_some_iff] at h
        obtain ⟨a, ha, rfl⟩ := h
        rw [indexExpr, h1 ha]; rfl
      | both a b =>
        simp only [indexExpr, Option.bind_eq_some_iff] at h
        obtain ⟨t, ha, hb⟩ := h
        rw [indexExpr, h1 ha]; exact h1 hb
      | lambda d ps b =>
        simp only [indexExpr, Option.map_eq_some_iff] at h
        obtain ⟨a, ha, rfl⟩ := h
        rw [indexExpr, h1 ha]; rfl
      | comp g c =>
        cases g with
        | true => exact h
        | false => exact h2 h
    · intro P c s s' h
      cases c with
      | elt e => exact h1 h
      | clause iter target ifs r =>
        simp only [indexComp, Option.bind_eq_bind, Option.bind_eq_some_iff] at h ⊢
        obtain ⟨s1, a1, i1, a2, i2, a3, i3, a4, i4, a5, e⟩ := h
        exact ⟨s1, h1 a1, i1, h1 a2, i2, h1 a3, i3, h2 a4, i4, h4 a5, e⟩
    · intro P o b s s' h
      cases b with
      | done => exact h
      | stop r =>
        simp only [indexBlock, Option.bind_eq_bind, Option.bind_eq_some_iff] at h ⊢
        obtain ⟨i1, a1, i2, a2, e⟩ := h
        exact ⟨i1, h3 a1, i2, h4 a2, e⟩
      | expr e r =>
        simp only [indexBlock, Option.bind_eq_bind, Option.bind_eq_some_iff] at h ⊢
        obtain ⟨i1, a1, a2⟩ := h
        exact ⟨i1, h1 a1, h3 a2⟩
      | global id x r => exact h3 h
      | nonlocal id x r => exact h3 h
      | func id x d ps body r =>
        simp only [indexBlock, Option.bind_eq_bind, Option.bind_eq_some_iff] at h ⊢
        obtain ⟨i1, a1, a2⟩ := h
        exact ⟨i1, h1 a1, h3 a2⟩
      | cls id x args body r =>
        simp only [indexBlock, Option.bind_eq_bind, Option.bind_eq_some_iff] at h ⊢
        obtain ⟨s1, a1, i1, a2, i2, a3, a4⟩ := h
        exact ⟨s1, h1 a1, i1, h3 a2, i2, h4 a3, h3 a4⟩
      | loop head body els r =>
        simp only [indexBlock, Option.bind_eq_bind, Option.bind_eq_some_iff] at h ⊢
        obtain ⟨s1, a1, s2, a2, s3, a3, a4⟩ := h
        exact ⟨s1, h1 a1, s2, h3 a2, s3, h3 a3, h3 a4⟩
      | group b r =>
        simp only [indexBlock, Option.bind_eq_bind, Option.bind_eq_some_iff] at h ⊢
        obtain ⟨i1, a1, a2⟩ := h
        exact ⟨i1, h3 a1, h3 a2⟩
    · intro P s s' h
      rw [close] at h ⊢
      split at h
      · exact h
      · simp only [Option.map_eq_some_iff] at h
        obtain ⟨a, ha, rfl⟩ := h
        rw [h5 ha]; rfl
    · intro P us s s' h
      cases us with
      | nil => exact h
      | cons u us =>
        simp only [work, Option.bind_eq_bind, Option.bind_eq_some_iff] at h ⊢
        obtain ⟨i1, a1, a2⟩ := h
        exact ⟨i1, h6 a1, h5 a2⟩
    · intro P u s s' h
      cases u with
      | name id x => exact h
      | func ps body =>
        simp only [resolve, Option.bind_eq_bind, Option.bind_eq_some_iff] at h ⊢
        obtain ⟨i1, a1, i2, a2, e⟩ := h
        exact ⟨i1, h3 a1, i2, h4 a2, e⟩
      | lambda ps body =>
        simp only [resolve, Option.bind_eq_bind, Option.bind_eq_some_iff] at h ⊢
        obtain ⟨i1, a1, i2, a2, e⟩ := h
        exact ⟨i1, h1 a1, i2, h4 a2, e⟩
      | comp c => exact h2 h

theorem lift {α : Type} {f : Nat → Option α} (hf : ∀ n a, f n = some a → f (n + 1) = some a)
    {n N : Nat} {a : α} (h : f n = some a) (hle : n ≤ N) : f N = some a := by
  induction hle with
  | refl => exact h
  | step _ ih => exact hf _ _ ih

variable {n N : Nat} {P : List Frame} {s s' : St}

theorem indexExpr_le {o e} (h : indexExpr n P o e s = some s') (hle : n ≤ N) :
    indexExpr N P o e s = some s' :=
  lift (f := fun n => indexExpr n P o e s) (fun n _ h => (more n).1 h) h hle
theorem indexComp_le {c} (h : indexComp n P c s = some s') (hle : n ≤ N) :
    indexComp N P c s = some s' :=
  lift (f := fun n => indexComp n P c s) (fun n _ h => (more n).2.1 h) h hle
theorem indexBlock_le {o b} (h : indexBlock n P o b s = some s') (hle : n ≤ N) :
    indexBlock N P o b s = some s' :=
  lift (f := fun n => indexBlock n P o b s) (fun n _ h => (more n).2.2.1 h) h hle
theorem close_le (h : close n P s = some s') (hle : n ≤ N) : close N P s = some s' :=
  lift (f := fun n => close n P s) (fun n _ h => (more n).2.2.2.1 h) h hle
theorem work_le {us} (h : work n P us s = some s') (hle : n ≤ N) : work N P us s = some s' :=
  lift (f := fun n => work n P us s) (fun n _ h => (more n).2.2.2.2.1 h) h hle
theorem resolve_le {u} (h : resolve n P u s = some s') (hle : n ≤ N) :
    resolve N P u s = some s' :=
  lift (f := fun n => resolve n P u s) (fun n _ h => (more n).2.2.2.2.2 h) h hle

/-! ## There is enough -/

mutual

def Expr.size : Expr → Nat
  | .empty | .ref _ _ | .bind _ _ => 1
  | .walrus _ _ e => e.size + 1
  | .both a b => a.size + b.size + 1
  | .lambda d _ b => d.size + b.size + 2
  | .comp _ c => c.size + 1

def Comp.size : Comp → Nat
  | .elt e => e.size + 1
  | .clause iter target ifs rest => iter.size + target.size + ifs.size + rest.size + 1

end

def Block.size : Block → Nat
  | .done => 1
  | .stop rest => rest.size + 1
  | .expr e rest => e.size + rest.size + 1
  | .global _ _ rest | .nonlocal _ _ rest => rest.size + 1
  | .func _ _ d _ body rest => d.size + body.size + rest.size + 2
  | .cls _ _ args body rest => args.size + body.size + rest.size + 1
  | .loop head body els rest => head.size + body.size + els.size + rest.size + 1
  | .group b rest => b.size + rest.size + 1

def Unresolved.size : Unresolved → Nat
  | .func _ body => body.size + 1
  | .lambda _ body => body.size + 1
  | .comp c => c.size + 1
  | .name _ _ => 0

/-- The size of the work that is left. -/
def weight (us : List Unresolved) : Nat := (us.map Unresolved.size).sum

theorem weight_append (a b : List Unresolved) : weight (a ++ b) = weight a + weight b := by
  simp [weight]

theorem weight_reverse (a : List Unresolved) : weight a.reverse = weight a := by
  induction a with
  | nil => rfl
  | cons u a ih => rw [List.reverse_cons, weight_append, ih]; simp [weight]; omega

theorem weight_names (l : List (Node × Name)) :
    weight (l.map fun r => Unresolved.name r.1 r.2) = 0 := by
  induction l with
  | nil => rfl
  | cons r l ih => simpa [weight, Unresolved.size] using ih

theorem define_unresolved (id : Node) (x : Name) (s : St) :
    (define id x s).frame.unresolved = s.frame.unresolved := (define_same id x s).1.2.2.1.symm

theorem defineAll_unresolved (ds : List (Name × Node)) (s : St) :
    (defineAll ds s).frame.unresolved = s.frame.unresolved :=
  (defineAll_spec ds s).2.2.1.2.2.1.symm

theorem defineWalrus_unresolved (id : Node) (x : Name) (s : St) :
    (defineWalrus id x s).frame.unresolved = s.frame.unresolved := by
  unfold defineWalrus
  split
  · rfl
  · exact define_unresolved id x s

theorem defineWalruses_unresolved (ds : List (Name × Node)) (s : St) :
    (defineWalruses ds s).frame.unresolved = s.frame.unresolved := by
  induction ds generalizing s with
  | nil => rfl
  | cons d ds ih => obtain ⟨x, id⟩ := d; rw [defineWalruses, ih, defineWalrus_unresolved]

theorem flushAll_unresolved (us : List (Node × Name × Bool)) (s : St) :
    (flushAll us s).frame.unresolved = s.frame.unresolved := by
  induction us generalizing s with
  | nil => rfl
  | cons r us ih =>
    obtain ⟨id, x, o⟩ := r
    simp only [flushAll]
    split <;> rw [ih]

theorem flush_unresolved (s : St) : (flush s).frame.unresolved = s.frame.unresolved := by
  rw [flush, flushAll_unresolved]

theorem addReference_unresolved (id : Node) (x : Name) (o : Bool) (s : St) :
    (addReference id x o s).frame.unresolved = s.frame.unresolved := by
  unfold addReference
  split
  · rfl
  · split <;> rfl

theorem declareGlobal_unresolved (P : List Frame) (id : Node) (x : Name) (s : St) :
    (declareGlobal P id x s).frame.unresolved = s.frame.unresolved := by
  unfold declareGlobal
  split
  · rfl
  · rw [define_unresolved]

theorem declareNonlocal_unresolved (P : List Frame) (id : Node) (x : Name) (s : St) :
    (declareNonlocal P id x s).frame.unresolved = s.frame.unresolved := by
  unfold declareNonlocal
  split
  · split
    · rfl
    · rw [define_unresolved]
  · rw [define_unresolved]

theorem merge_weight (s i : St) : weight (merge s i).frame.unresolved =
    weight s.frame.unresolved + weight i.frame.unresolved := by
  rw [merge, defineWalruses_unresolved]
  simp only [weight_append, weight_names]
  omega

theorem postpone_weight (u : Unresolved) (s : St) : weight (postpone u s).frame.unresolved =
    weight s.frame.unresolved + u.size := by
  rw [postpone, weight_append]
  simp [weight]

structure Ends (m : Nat) : Prop where
  expr : ∀ P o e s, e.size ≤ m → ∃ n s', indexExpr n P o e s = some s' ∧
    weight s'.frame.unresolved ≤ weight s.frame.unresolved + e.size
  comp : ∀ P c s, c.size ≤ m → ∃ n s', indexComp n P c s = some s' ∧
    weight s'.frame.unresolved ≤ weight s.frame.unresolved + c.size
  block : ∀ P o b s, b.size ≤ m → ∃ n s', indexBlock n P o b s = some s' ∧
    weight s'.frame.unresolved ≤ weight s.frame.unresolved + b.size
  close : ∀ P s, weight s.frame.unresolved ≤ m → ∃ n s', close n P s = some s' ∧
    weight s'.frame.unresolved ≤ weight s.frame.unresolved
  work : ∀ P us s, weight us ≤ m → s.frame.unresolved = [] →
    ∃ n s', work n P us s = some s' ∧ s'.frame.unresolved = []

theorem enter_weight (k : Kind) (s : St) : weight (enter k s).frame.unresolved = 0 := rfl

theorem resolve_ends {m : Nat} (ih : ∀ k, k < m → Ends k) (P : List Frame) (u : Unresolved) (s : St)
    (hu : u.size ≤ m) (hs : s.frame.unresolved = []) :
    ∃ n s', resolve n P u s = some s' ∧ (weight s'.frame.unresolved < u.size ∨
      (u.size = 0 ∧ s'.frame.unresolved = [])) := by
  cases u with
  | name id x =>
    cases h : lookup x s.frame.table with
    | none =>
      exact ⟨1, { s with frame := { s.frame with toParent := s.frame.toParent ++ [(id, x)] } },
        by simp only [resolve, h], .inr ⟨rfl, hs⟩⟩
    | some d =>
      exact ⟨1, { s with events := s.events ++ [.redirect id d] },
        by simp only [resolve, h], .inr ⟨rfl, hs⟩⟩
  | func ps body =>
    simp only [Unresolved.size] at hu ⊢
    obtain ⟨n1, i1, a1, w1⟩ := (ih body.size (by omega)).block (s.frame :: P) true body
      (defineAll ps (enter .function s)) (Nat.le_refl _)
    rw [defineAll_unresolved, enter_weight] at w1
    obtain ⟨n2, i2, a2, w2⟩ := (ih body.size (by omega)).close (s.frame :: P) i1 (by omega)
    refine ⟨max n1 n2 + 1, merge s i2, ?_, ?_⟩
    · rw [resolve, indexBlock_le a1 (by omega : n1 ≤ max n1 n2)]
      simp only [Option.bind_eq_bind, Option.bind_some]
      rw [close_le a2 (by omega : n2 ≤ max n1 n2)]; rfl
    · rw [merge_weight, hs]
      left
      simp only [weight, List.map_nil, List.sum_nil] at *
      omega
  | lambda ps body =>
    simp only [Unresolved.size] at hu ⊢
    obtain ⟨n1, i1, a1, w1⟩ := (ih body.size (by omega)).expr (s.frame :: P) true body
      (defineAll ps (enter .lambda s)) (Nat.le_refl _)
    rw [defineAll_unresolved, enter_weight] at w1
    obtain ⟨n2, i2, a2, w2⟩ := (ih body.size (by omega)).close (s.frame :: P) i1 (by omega)
    refine ⟨max n1 n2 + 1, merge s i2, ?_, ?_⟩
    · rw [resolve, indexExpr_le a1 (by omega : n1 ≤ max n1 n2)]
      simp only [Option.bind_eq_bind, Option.bind_some]
      rw [close_le a2 (by omega : n2 ≤ max n1 n2)]; rfl
    · rw [merge_weight, hs]
      left
      simp only [weight, List.map_nil, List.sum_nil] at *
      omega
  | comp c =>
    simp only [Unresolved.size] at hu ⊢
    obtain ⟨n1, i1, a1, w1⟩ := (ih c.size (by omega)).comp P c s (Nat.le_refl _)
    refine ⟨n1 + 1, i1, a1, ?_⟩
    rw [hs] at w1
    simp only [weight, List.map_nil, List.sum_nil] at *
    omega

theorem work_ends {m : Nat} (ih : ∀ k, k < m → Ends k) (P : List Frame) (us : List Unresolved)
    (s : St) (hu : weight us ≤ m) (hs : s.frame.unresolved = []) :
    ∃ n s', work n P us s = some s' ∧ s'.frame.unresolved = [] := by
  induction us generalizing s with
  | nil => exact ⟨1, s, rfl, hs⟩
  | cons u us ihu =>
    have hw : weight (u :: us) = u.size + weight us := by simp [weight]
    obtain ⟨n1, s1, a1, w1⟩ := resolve_ends ih P u s (by omega) hs
    have : ∃ n s', work n P (s1.frame.unresolved.reverse ++ us) (idle s1) = some s' ∧
        s'.frame.unresolved = [] := by
      rcases w1 with w1 | ⟨-, w1⟩
      · refine (ih (m - 1) (by omega)).work P _ (idle s1) ?_ rfl
        rw [weight_append, weight_reverse]
        omega
      · rw [w1]
        exact ihu (idle s1) (by omega) rfl
    obtain ⟨n2, s2, a2, w2⟩ := this
    refine ⟨max n1 n2 + 1, s2, ?_, w2⟩
    rw [work, resolve_le a1 (by omega : n1 ≤ max n1 n2)]
    simp only [Option.bind_eq_bind, Option.bind_some]
    exact work_le a2 (by omega)

theorem close_ends {m : Nat} (ih : ∀ k, k < m → Ends k) (P : List Frame)
    (s : St) (hu : weight s.frame.unresolved ≤ m) :
    ∃ n s', close n P s = some s' ∧
      weight s'.frame.unresolved ≤ weight s.frame.unresolved := by
  obtain ⟨n, s', h, w⟩ := work_ends ih P s.frame.unresolved (idle s) hu rfl
  by_cases hk : s.frame.kind = .cls
  · refine ⟨1, flush s, by simp only [close, hk], ?_⟩
    rw [flush_unresolved]; exact Nat.le_refl _
  · refine ⟨n + 1, flush s', ?_, ?_⟩
    · rw [close]
      split
      · next h' => exact absurd h' hk
      · rw [h]; rfl
    · rw [flush_unresolved, w]; exact Nat.zero_le _

theorem ends (m : Nat) : Ends m := by
  induction m using Nat.strongRecOn with
  | _ m ih =>
  refine ⟨?_, ?_, ?_, close_ends ih, work_ends ih⟩
  · intro P o e s hm
    cases e with
    | empty => exact ⟨1, s, rfl, by omega⟩
    | ref id x =>
      exact ⟨1, _, rfl, by rw [addReference_unresolved]; omega⟩
    | bind id x => exact ⟨1, _, rfl, by rw [define_unresolved]; omega⟩
    | walrus id x e =>
      simp only [Expr.size] at hm ⊢
      obtain ⟨n1, s1, a1, w1⟩ := (ih e.size (by omega)).expr P o e s (Nat.le_refl _)
      refine ⟨n1 + 1, defineWalrus id x s1, by rw [indexExpr, a1]; rfl, ?_⟩
      rw [defineWalrus_unresolved]; omega
    | both a b =>
      simp only [Expr.size] at hm ⊢
      obtain ⟨n1, s1, a1, w1⟩ := (ih a.size (by omega)).expr P o a s (Nat.le_refl _)
      obtain ⟨n2, s2, a2, w2⟩ := (ih b.size (by omega)).expr P o b s1 (Nat.le_refl _)
      refine ⟨max n1 n2 + 1, s2, ?_, by omega⟩
      rw [indexExpr, indexExpr_le a1 (by omega : n1 ≤ max n1 n2)]
      exact indexExpr_le a2 (by omega)
    | lambda d ps b =>
      simp only [Expr.size] at hm ⊢
      obtain ⟨n1, s1, a1, w1⟩ := (ih d.size (by omega)).expr P o d s (Nat.le_refl _)
      refine ⟨n1 + 1, postpone (.lambda ps b) s1, by rw [indexExpr, a1]; rfl, ?_⟩
      rw [postpone_weight]; simp only [Unresolved.size]; omega
    | comp g c =>
      simp only [Expr.size] at hm ⊢
      cases g with
      | true =>
        refine ⟨1, _, rfl, ?_⟩
        rw [postpone_weight]; simp only [Unresolved.size]; omega
      | false =>
        obtain ⟨n1, s1, a1, w1⟩ := (ih c.size (by omega)).comp P c s (Nat.le_refl _)
        exact ⟨n1 + 1, s1, a1, by omega⟩
  · intro P c s hm
    cases c with
    | elt e =>
      simp only [Comp.size] at hm ⊢
      obtain ⟨n1, s1, a1, w1⟩ := (ih e.size (by omega)).expr P true e s (Nat.le_refl _)
      exact ⟨n1 + 1, s1, a1, by omega⟩
    | clause iter target ifs r =>
      simp only [Comp.size] at hm ⊢
      obtain ⟨n1, s1, a1, w1⟩ := (ih iter.size (by omega)).expr P true iter s (Nat.le_refl _)
      obtain ⟨n2, i1, a2, w2⟩ := (ih target.size (by omega)).expr (s1.frame :: P) true target
        (enter .comp s1) (Nat.le_refl _)
      obtain ⟨n3, i2, a3, w3⟩ := (ih ifs.size (by omega)).expr (s1.frame :: P) true ifs i1
        (Nat.le_refl _)
      obtain ⟨n4, i3, a4, w4⟩ := (ih r.size (by omega)).comp (s1.frame :: P) r i2 (Nat.le_refl _)
      rw [enter_weight] at w2
      obtain ⟨n5, i4, a5, w5⟩ := (ih (target.size + ifs.size + r.size) (by omega)).close
        (s1.frame :: P) i3 (by omega)
      refine ⟨n1 + n2 + n3 + n4 + n5 + 1, merge s1 i4, ?_, ?_⟩
      · simp only [indexComp, Option.bind_eq_bind, Option.bind_eq_some_iff]
        exact ⟨s1, indexExpr_le a1 (by omega), i1, indexExpr_le a2 (by omega), i2,
          indexExpr_le a3 (by omega), i3, indexComp_le a4 (by omega), i4,
          close_le a5 (by omega), rfl⟩
      · rw [merge_weight]; omega
  · intro P o b s hm
    cases b with
    | done => exact ⟨1, s, rfl, by omega⟩
    | stop r =>
      simp only [Block.size] at hm ⊢
      obtain ⟨n1, i1, a1, w1⟩ := (ih r.size (by omega)).block (s.frame :: P) o r
        (enter s.frame.kind s) (Nat.le_refl _)
      rw [enter_weight] at w1
      obtain ⟨n2, i2, a2, w2⟩ := (ih r.size (by omega)).close (s.frame :: P) i1 (by omega)
      refine ⟨n1 + n2 + 1, merge s i2, ?_, ?_⟩
      · simp only [indexBlock, Option.bind_eq_bind, Option.bind_eq_some_iff]
        exact ⟨i1, indexBlock_le a1 (by omega), i2, close_le a2 (by omega), rfl⟩
      · rw [merge_weight]; omega
    | expr e r =>
      simp only [Block.size] at hm ⊢
      obtain ⟨n1, s1, a1, w1⟩ := (ih e.size (by omega)).expr P o e s (Nat.le_refl _)
      obtain ⟨n2, s2, a2, w2⟩ := (ih r.size (by omega)).block P o r s1 (Nat.le_refl _)
      refine ⟨n1 + n2 + 1, s2, ?_, by omega⟩
      simp only [indexBlock, Option.bind_eq_bind, Option.bind_eq_some_iff]
      exact ⟨s1, indexExpr_le a1 (by omega), indexBlock_le a2 (by omega)⟩
    | global id x r =>
      simp only [Block.size] at hm ⊢
      obtain ⟨n2, s2, a2, w2⟩ := (ih r.size (by omega)).block P o r (declareGlobal P id x s)
        (Nat.le_refl _)
      rw [declareGlobal_unresolved] at w2
      exact ⟨n2 + 1, s2, a2, by omega⟩
    | nonlocal id x r =>
      simp only [Block.size] at hm ⊢
      obtain ⟨n2, s2, a2, w2⟩ := (ih r.size (by omega)).block P o r (declareNonlocal P id x s)
        (Nat.le_refl _)
      rw [declareNonlocal_unresolved] at w2
      exact ⟨n2 + 1, s2, a2, by omega⟩
    | func id x d ps body r =>
      simp only [Block.size] at hm ⊢
      obtain ⟨n1, s1, a1, w1⟩ := (ih d.size (by omega)).expr P o d s (Nat.le_refl _)
      obtain ⟨n2, s2, a2, w2⟩ := (ih r.size (by omega)).block P o r
        (define id x (postpone (.func ps body) s1)) (Nat.le_refl _)
      rw [define_unresolved, postpone_weight] at w2
      simp only [Unresolved.size] at w2
      refine ⟨n1 + n2 + 1, s2, ?_, by omega⟩
      simp only [indexBlock, Option.bind_eq_bind, Option.bind_eq_some_iff]
      exact ⟨s1, indexExpr_le a1 (by omega), indexBlock_le a2 (by omega)⟩
    | cls id x args body r =>
      simp only [Block.size] at hm ⊢
      obtain ⟨n1, s1, a1, w1⟩ := (ih args.size (by omega)).expr P true args s (Nat.le_refl _)
      obtain ⟨n2, i1, a2, w2⟩ := (ih body.size (by omega)).block (s1.frame :: P) true body
        (enter .cls s1) (Nat.le_refl _)
      rw [enter_weight] at w2
      obtain ⟨n3, i2, a3, w3⟩ := (ih body.size (by omega)).close (s1.frame :: P) i1 (by omega)
      obtain ⟨n4, s2, a4, w4⟩ := (ih r.size (by omega)).block P o r
        (define id x (merge s1 i2)) (Nat.le_refl _)
      rw [define_unresolved, merge_weight] at w4
      refine ⟨n1 + n2 + n3 + n4 + 1, s2, ?_, by omega⟩
      simp only [indexBlock, Option.bind_eq_bind, Option.bind_eq_some_iff]
      exact ⟨s1, indexExpr_le a1 (by omega), i1, indexBlock_le a2 (by omega), i2,
        close_le a3 (by omega), indexBlock_le a4 (by omega)⟩
    | loop head body els r =>
      simp only [Block.size] at hm ⊢
      obtain ⟨n1, s1, a1, w1⟩ := (ih head.size (by omega)).expr P o head s (Nat.le_refl _)
      obtain ⟨n2, s2, a2, w2⟩ := (ih body.size (by omega)).block P false body s1 (Nat.le_refl _)
      obtain ⟨n3, s3, a3, w3⟩ := (ih els.size (by omega)).block P o els
        (if o = true then flush s2 else s2) (Nat.le_refl _)
      have hfl : (if o = true then flush s2 else s2).frame.unresolved = s2.frame.unresolved := by
        split
        · exact flush_unresolved s2
        · rfl
      rw [hfl] at w3
      obtain ⟨n4, s4, a4, w4⟩ := (ih r.size (by omega)).block P o r s3 (Nat.le_refl _)
      refine ⟨n1 + n2 + n3 + n4 + 1, s4, ?_, by omega⟩
      simp only [indexBlock, Option.bind_eq_bind, Option.bind_eq_some_iff]
      exact ⟨s1, indexExpr_le a1 (by omega), s2, indexBlock_le a2 (by omega), s3,
        indexBlock_le a3 (by omega), indexBlock_le a4 (by omega)⟩
    | group b r =>
      simp only [Block.size] at hm ⊢
      obtain ⟨n1, s1, a1, w1⟩ := (ih b.size (by omega)).block P o b s (Nat.le_refl _)
      obtain ⟨n2, s2, a2, w2⟩ := (ih r.size (by omega)).block P o r s1 (Nat.le_refl _)
      refine ⟨n1 + n2 + 1, s2, ?_, by omega⟩
      simp only [indexBlock, Option.bind_eq_bind, Option.bind_eq_some_iff]
      exact ⟨s1, indexBlock_le a1 (by omega), indexBlock_le a2 (by omega)⟩

/-- With enough fuel, a file is finished, and more fuel changes nothing. -/
theorem bindFile_ends (b : Block) : ∃ n s, ∀ N, n ≤ N → bindFile N b = some s := by
  obtain ⟨n1, s1, a1, -⟩ := (ends b.size).block [] true b { frame := { kind := .global } }
    (Nat.le_refl _)
  obtain ⟨n2, s2, a2, -⟩ := (ends _).close [] s1 (Nat.le_refl _)
  refine ⟨max n1 n2, s2, fun N hN => ?_⟩
  rw [bindFile, indexBlock_le a1 (by omega : n1 ≤ N)]
  exact close_le a2 (by omega)

theorem bindFile_same {b : Block} {n N : Nat} {s t : St} (h : bindFile n b = some s)
    (h' : bindFile N b = some t) : s = t := by
  have key : ∀ {n N : Nat} {s : St}, n ≤ N → bindFile n b = some s → bindFile N b = some s := by
    intro n N s hle h
    simp only [bindFile, Option.bind_eq_bind, Option.bind_eq_some_iff] at h ⊢
    obtain ⟨s1, a1, a2⟩ := h
    exact ⟨s1, indexBlock_le a1 hle, close_le a2 hle⟩
  have h1 := key (Nat.le_max_left n N) h
  have h2 := key (Nat.le_max_right n N) h'
  rw [h1] at h2
  exact Option.some.inj h2

end Verif.Scope
