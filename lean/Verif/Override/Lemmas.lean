import Verif.Override.Spec

/-!
# Lemmas for overriding
-/

namespace Verif.Override

variable {Ty : Type} [DecidableEq Ty] {w : World Ty}

theorem isFinal_iff {e : Entry Ty} : e.kind.isFinal = true ↔ Sealed e := by
  unfold Sealed
  cases e.kind <;> simp [Kind.isFinal]

theorem isDef_iff {e : Entry Ty} : e.kind.isDef = true ↔ IsDef e := by
  unfold IsDef
  cases e.kind <;> simp [Kind.isDef]

theorem writable_iff {e : Entry Ty} : e.kind.writable = true ↔ Writable e := by
  unfold Writable
  cases e.kind with
  | prop s f => cases s <;> simp [Kind.writable]
  | _ => simp [Kind.writable]

theorem cached_iff {e : Entry Ty} : e.kind.cached = true ↔ Cached e := by
  unfold Cached
  cases e.kind with
  | prop s f => cases s <;> simp [Kind.cached]
  | _ => simp [Kind.cached]

theorem setType_getD (e : Entry Ty) : SetType e (e.kind.setterType.getD e.ty) := by
  unfold SetType
  cases e.kind with
  | prop s f => cases s <;> simp [Kind.setterType]
  | _ => simp [Kind.setterType]

theorem setType_unique {e : Entry Ty} {a : Ty} (h : SetType e a) :
    a = e.kind.setterType.getD e.ty := by
  unfold SetType at h
  cases hk : e.kind with
  | prop s f => cases s <;> simp_all [Kind.setterType]
  | _ => simp_all [Kind.setterType]

theorem setterType_isSome {e : Entry Ty} :
    e.kind.setterType.isSome = true ↔ ∃ t f, e.kind = .prop (.other t) f := by
  cases e.kind with
  | prop s f => cases s <;> simp [Kind.setterType]
  | _ => simp [Kind.setterType]

theorem setterIssues_nil {o e : Entry Ty} (ht : w.le e.ty o.ty = true) : setterIssues w o e = [] ↔
    ((∃ t f, o.kind = .prop (.other t) f ∨ e.kind = .prop (.other t) f) →
      ∀ a b, SetType o a → SetType e b → w.le a b = true) := by
  unfold setterIssues
  have hor : (o.kind.setterType.isSome || e.kind.setterType.isSome) = true ↔
      ∃ t f, o.kind = .prop (.other t) f ∨ e.kind = .prop (.other t) f := by
    rw [Bool.or_eq_true, setterType_isSome, setterType_isSome]
    constructor
    · rintro (⟨t, f, h⟩ | ⟨t, f, h⟩)
      · exact ⟨t, f, Or.inl h⟩
      · exact ⟨t, f, Or.inr h⟩
    · rintro ⟨t, f, h | h⟩
      · exact Or.inl ⟨t, f, h⟩
      · exact Or.inr ⟨t, f, h⟩
  by_cases hc : (o.kind.setterType.isSome || e.kind.setterType.isSome) = true
  · rw [if_pos hc]
    have h' := hor.1 hc
    dsimp only
    rw [ht, Bool.true_or, if_pos rfl]
    constructor
    · intro h _ a b ha hb
      rw [setType_unique ha, setType_unique hb]
      split at h
      · assumption
      · cases h
    · intro h
      rw [if_pos (h h' _ _ (setType_getD o) (setType_getD e))]
  · rw [if_neg hc]
    constructor
    · intro _ h'; exact absurd (hor.2 h') hc
    · intro _; rfl

theorem kindIssues_fst {frozen : Bool} {o e : Entry Ty} :
    (kindIssues w frozen o.kind e.kind).1 = [] ↔
      (Writable o → (∃ f, e.kind = .prop .none f) →
        (w.mypy = true ∧ Cached o) ∨ (frozen = true ∧ ∀ s f, o.kind ≠ .prop s f)) ∧
      (o.kind = .classVar → e.kind ≠ .annotated) ∧ (o.kind = .annotated → e.kind ≠ .classVar) := by
  unfold Writable Cached
  cases o.kind with
  | prop s f =>
    cases s <;> cases e.kind with
    | prop s' f' => cases s' <;> simp [kindIssues]
    | _ => simp [kindIssues]
  | _ =>
    cases e.kind with
    | prop s' f' => cases s' <;> simp [kindIssues]
    | _ => simp [kindIssues]

theorem kindIssues_snd {frozen : Bool} {o e : Entry Ty} :
    (kindIssues w frozen o.kind e.kind).2 = true ↔
      ((∃ f, o.kind = .classm f ∨ o.kind = .static f) → ∀ f, e.kind ≠ .method f) := by
  cases o.kind with
  | prop s f =>
    cases s <;> cases e.kind with
    | prop s' f' => cases s' <;> simp [kindIssues]
    | _ => simp [kindIssues]
  | _ =>
    cases e.kind with
    | prop s' f' => cases s' <;> simp [kindIssues]
    | _ => simp [kindIssues]

/-- The issues of an override. -/
theorem checkOverride_mem {frozen : Bool} {o e : Entry Ty} {i : Issue}
    (h : i ∈ checkOverride w frozen o e) : i = .setter ∨ i = .readOnly ∨ i = .instanceVariable ∨
      i = .classVariable ∨ i = .writableFinal ∨ i = .mismatch := by
  unfold checkOverride at h
  dsimp only at h
  rw [List.mem_append, List.mem_append] at h
  rcases h with (h | h) | h
  · unfold setterIssues at h
    dsimp only at h
    split at h
    · split at h
      · split at h <;> simp_all
      · cases h
    · cases h
  · unfold kindIssues at h
    grind
  · grind

/-! ## Orders -/

theorem member_unique {C name c d : Nat} {e o : Entry Ty} (h : Member w C name c e)
    (h' : Member w C name d o) : c = d ∧ e = o := by
  obtain ⟨l, r, hm, hc, hl⟩ := h
  obtain ⟨l', r', hm', hc', hl'⟩ := h'
  rw [hm] at hm'
  clear hm
  induction l generalizing l' with
  | nil =>
    cases l' with
    | nil =>
      injection hm' with h1 h2
      subst h1
      rw [hc] at hc'
      exact ⟨rfl, Option.some.inj hc'⟩
    | cons x l' =>
      injection hm' with h1 h2
      subst h1
      rw [hl' _ (by simp)] at hc; cases hc
  | cons x l ih =>
    cases l' with
    | nil =>
      injection hm' with h1 h2
      subst h1
      rw [hl _ (by simp)] at hc'; cases hc'
    | cons y l' =>
      injection hm' with h1 h2
      exact ih (fun x hx => hl x (by simp [hx])) l' h2 (fun x hx => hl' x (by simp [hx]))

theorem Member.mem {C name c : Nat} {e : Entry Ty} (h : Member w C name c e) :
    c ∈ (w.cls C).mro ∧ (w.cls c).attrs.lookup name = some e := by
  obtain ⟨l, r, hm, hc, hl⟩ := h
  exact ⟨by rw [hm]; simp, hc⟩

/-- The first class of a list that declares a name. -/
theorem first_of {cs : List Nat} {name c : Nat} {e : Entry Ty} (hc : c ∈ cs)
    (he : (w.cls c).attrs.lookup name = some e) :
    ∃ l d r o, cs = l ++ d :: r ∧ (w.cls d).attrs.lookup name = some o ∧
      ∀ x ∈ l, (w.cls x).attrs.lookup name = none := by
  induction cs with
  | nil => cases hc
  | cons x xs ih =>
    cases hx : (w.cls x).attrs.lookup name with
    | some o => exact ⟨[], x, xs, o, rfl, hx, by simp⟩
    | none =>
      rcases List.mem_cons.1 hc with rfl | h
      · rw [hx] at he; cases he
      · obtain ⟨l, d, r, o, h1, h2, h3⟩ := ih h
        refine ⟨x :: l, d, r, o, by rw [h1]; rfl, h2, ?_⟩
        intro y hy
        rcases List.mem_cons.1 hy with rfl | hy
        · exact hx
        · exact h3 y hy

theorem member_of {C name c : Nat} {e : Entry Ty} (hc : c ∈ (w.cls C).mro)
    (he : (w.cls c).attrs.lookup name = some e) : HasName w C name := by
  obtain ⟨l, d, r, o, h⟩ := first_of hc he
  exact ⟨d, o, l, r, h⟩

theorem mro_self (hl : Linear w) (C : Nat) : C ∈ (w.cls C).mro := by
  obtain ⟨t, h, -⟩ := hl C
  rw [h]; simp

theorem mro_trans (hl : Linear w) {C D : Nat} (h : D ∈ (w.cls C).mro) :
    ∀ x ∈ (w.cls D).mro, x ∈ (w.cls C).mro := by
  generalize hn : (w.cls C).mro.length = n
  induction n using Nat.strongRecOn generalizing C with
  | ind n ih =>
    obtain ⟨t, hm, -, -, hb, ht⟩ := hl C
    rw [hm] at h
    rcases List.mem_cons.1 h with rfl | h
    · intro x hx; exact hx
    · obtain ⟨B, hB, hD⟩ := ht D h
      intro x hx
      have := ih (w.cls B).mro.length (by
        rw [← hn, hm]
        exact Nat.lt_succ_of_le (hb B hB).length_le) hD rfl x hx
      rw [hm]
      exact List.mem_cons_of_mem _ ((hb B hB).subset this)

theorem pair_sublist {a b : Nat} {l r : List Nat} {t : List Nat} (h : t = l ++ a :: r)
    (hb : b ∈ r) : [a, b].Sublist t := by
  subst h
  exact (List.Sublist.cons_cons a (List.singleton_sublist.2 hb)).trans (List.sublist_append_right l _)

theorem not_both {a b : Nat} {t : List Nat} (hn : t.Nodup) (h1 : [a, b].Sublist t)
    (h2 : [b, a].Sublist t) : False := by
  induction t with
  | nil => cases h1
  | cons x t ih =>
    have hx := (List.nodup_cons.1 hn).1
    cases h1 with
    | cons _ h1 =>
      cases h2 with
      | cons _ h2 => exact ih (List.nodup_cons.1 hn).2 h1 h2
      | cons_cons _ h2 => exact hx (h1.subset (by simp))
    | cons_cons _ h1 =>
      cases h2 with
      | cons _ h2 => exact hx (h2.subset (by simp))
      | cons_cons _ h2 => exact hx (h1.subset (by simp))

theorem pairs_mem {a b : Nat} {l : List Nat} (h : [a, b].Sublist l) : (a, b) ∈ pairs l := by
  induction l with
  | nil => cases h
  | cons x l ih =>
    unfold pairs
    cases h with
    | cons _ h => exact List.mem_append_right _ (ih h)
    | cons_cons _ h =>
      exact List.mem_append_left _ (List.mem_map.2 ⟨b, List.singleton_sublist.1 h, rfl⟩)

theorem order_of {a b : Nat} {l : List Nat} (ha : a ∈ l) (hb : b ∈ l) (h : a ≠ b) :
    [a, b].Sublist l ∨ [b, a].Sublist l := by
  obtain ⟨l1, l2, rfl⟩ := List.append_of_mem ha
  rcases List.mem_append.1 hb with h' | h'
  · right
    obtain ⟨l3, l4, rfl⟩ := List.append_of_mem h'
    exact pair_sublist (l := l3) (r := l4 ++ a :: l2) (by simp) (by simp)
  · rcases List.mem_cons.1 h' with h' | h'
    · exact absurd h'.symm h
    · left; exact pair_sublist rfl h'

/-- The first declaration in an order is the first one in a part of it that has the class. -/
theorem first_sublist {s t l r : List Nat} {name c : Nat} {e : Entry Ty} (hs : s.Sublist t)
    (hn : t.Nodup) (ht : t = l ++ c :: r) (hc : (w.cls c).attrs.lookup name = some e)
    (hl : ∀ x ∈ l, (w.cls x).attrs.lookup name = none) (hm : c ∈ s) :
    ∃ l' r', s = l' ++ c :: r' ∧ ∀ x ∈ l', (w.cls x).attrs.lookup name = none := by
  obtain ⟨l', r', rfl⟩ := List.append_of_mem hm
  refine ⟨l', r', rfl, ?_⟩
  intro x hx
  have hxt : x ∈ t := hs.subset (by simp [hx])
  rw [ht] at hxt
  rcases List.mem_append.1 hxt with h | h
  · exact hl x h
  · exfalso
    have hxc : [x, c].Sublist t := by
      obtain ⟨l3, l4, rfl⟩ := List.append_of_mem hx
      exact (pair_sublist (l := l3) (r := l4 ++ c :: r') (by simp) (by simp)).trans hs
    rcases List.mem_cons.1 h with rfl | h
    · have := (hn.sublist hxc); simp at this
    · exact not_both hn hxc (pair_sublist ht h)

/-- A relation between what a class has and what its base classes have, if it is there for the
pairs of names that are compared. -/
theorem hierarchy {name : Nat} {R : Nat → Entry Ty → Nat → Entry Ty → Prop}
    (lin : Linear w) {special : Entry Ty → Prop} (apart : ApartBy w special name) {P : Nat → Prop}
    (refl : ∀ c e, (w.cls c).attrs.lookup name = some e → R c e c e)
    (trans : ∀ a e b o c p, (w.cls b).attrs.lookup name = some o →
      (w.cls c).attrs.lookup name = some p → R a e b o → R b o c p → R a e c p)
    (own : ∀ C t e, P C → (w.cls C).mro = C :: t → (w.cls C).attrs.lookup name = some e → special e →
      ∀ c ∈ t, ∀ o, (w.cls c).attrs.lookup name = some o → C ≠ c → R C e c o)
    (assign : ∀ C t e, P C → (w.cls C).mro = C :: t → (w.cls C).attrs.lookup name = some e →
      ¬ special e → ∀ l c r o, t = l ++ c :: r → (w.cls c).attrs.lookup name = some o →
      (∀ x ∈ l, (w.cls x).attrs.lookup name = none) → C ≠ c → R C e c o)
    (pair : ∀ C A B e c o, P C → [A, B].Sublist (w.cls C).bases → A ≠ B →
      (w.cls C).attrs.lookup name = none → (w.cls A).attrs.lookup name = some e →
      Member w B name c o → R A e c o)
    {C D c d : Nat} {e o : Entry Ty} (hP : ∀ x ∈ (w.cls C).mro, P x) (hD : D ∈ (w.cls C).mro)
    (hc : Member w C name c e) (hd : Member w D name d o) : R c e d o := by
  generalize hn : (w.cls C).mro.length = n
  induction n using Nat.strongRecOn generalizing C D c d e o with
  | ind n ih =>
    obtain ⟨t, hm, nd, hbs, hb, ht⟩ := lin C
    by_cases hDC : D = C
    · subst hDC
      obtain ⟨rfl, rfl⟩ := member_unique hc hd
      exact refl _ _ hc.mem.2
    have hDt : D ∈ t := by
      rw [hm] at hD
      exact (List.mem_cons.1 hD).resolve_left hDC
    have ihB : ∀ B ∈ (w.cls C).bases, D ∈ (w.cls B).mro → ∀ c' e', Member w B name c' e' →
        R c' e' d o := by
      intro B hB hDB c' e' hc'
      refine ih (w.cls B).mro.length ?_ ?_ hDB hc' hd rfl
      · rw [← hn, hm]; exact Nat.lt_succ_of_le (hb B hB).length_le
      · intro x hx
        apply hP
        rw [hm]
        exact List.mem_cons_of_mem _ ((hb B hB).subset hx)
    have hPC : P C := hP C (mro_self lin C)
    have hdt : d ∈ t := by
      obtain ⟨B, hB, hDB⟩ := ht D hDt
      exact (hb B hB).subset (mro_trans lin hDB d hd.mem.1)
    obtain ⟨B, hB, hDB⟩ := ht D hDt
    obtain ⟨c', e', hBm⟩ := member_of (mro_trans lin hDB d hd.mem.1) hd.mem.2
    have tnd : t.Nodup := (List.nodup_cons.1 nd).2
    have notIn : C ∉ t := (List.nodup_cons.1 nd).1
    cases hCe : (w.cls C).attrs.lookup name with
    | some e0 =>
      have : Member w C name C e0 := ⟨[], t, hm, hCe, by simp⟩
      obtain ⟨rfl, rfl⟩ := member_unique hc this
      by_cases hdef : special e
      · exact own c t e hPC hm hCe hdef d hdt o hd.mem.2 (fun h => notIn (h ▸ hdt))
      · obtain ⟨l, f, r, p, hf, hp, hl⟩ := first_of hdt hd.mem.2
        have hft : f ∈ t := by rw [hf]; simp
        have first := assign c t e hPC hm hCe hdef l f r p hf hp hl (fun h => notIn (h ▸ hft))
        obtain ⟨A, hA, hfA⟩ := ht f hft
        have hAf : Member w A name f p := by
          obtain ⟨l', r', h1, h2⟩ := first_sublist (hb A hA) tnd hf hp hl hfA
          exact ⟨l', r', h1, hp, h2⟩
        by_cases hAB : A = B
        · subst hAB
          exact trans _ _ _ _ _ _ hp hd.mem.2 first (ihB A hA hDB f p hAf)
        · obtain ⟨-, -, h⟩ := apart c A hA B hB hAB ⟨f, p, hAf⟩ ⟨c', e', hBm⟩
          exact absurd (h e hCe) hdef
    | none =>
      obtain ⟨l, r, hmc, hce, hlc⟩ := id hc
      have hC : c ∈ t ∧ ∃ l', t = l' ++ c :: r ∧ ∀ x ∈ l', (w.cls x).attrs.lookup name = none := by
        rw [hm] at hmc
        cases l with
        | nil =>
          injection hmc with h1 h2
          subst h1
          rw [hCe] at hce; cases hce
        | cons x l =>
          injection hmc with h1 h2
          exact ⟨by rw [h2]; simp, l, h2, fun y hy => hlc y (by simp [hy])⟩
      obtain ⟨hct, l', hl', hn'⟩ := hC
      obtain ⟨A, hA, hcA⟩ := ht c hct
      have hAc : Member w A name c e := by
        obtain ⟨l2, r2, h1, h2⟩ := first_sublist (hb A hA) tnd hl' hce hn' hcA
        exact ⟨l2, r2, h1, hce, h2⟩
      by_cases hAB : A = B
      · subst hAB
        exact ihB A hA hDB c e hAc
      · obtain ⟨⟨eA, hAe⟩, ⟨eB, hBe⟩, -⟩ := apart C A hA B hB hAB ⟨c, e, hAc⟩ ⟨c', e', hBm⟩
        -- the class that declares it first is the base class
        have selfA : Member w A name A eA := by
          obtain ⟨tA, hmA, -⟩ := lin A
          exact ⟨[], tA, hmA, hAe, by simp⟩
        obtain ⟨rfl, rfl⟩ := member_unique hAc selfA
        -- and it is the first one of the two
        have order : [c, B].Sublist (w.cls C).bases := by
          rcases order_of hA hB hAB with h | h
          · exact h
          · exfalso
            have hBt : B ∈ t := hbs.subset hB
            have h' := h.trans hbs
            rw [hl'] at hBt
            rcases List.mem_append.1 hBt with h2 | h2
            · rw [hn' B h2] at hBe; cases hBe
            · rcases List.mem_cons.1 h2 with h2 | h2
              · exact hAB h2.symm
              · exact not_both tnd h' (pair_sublist hl' h2)
        have hp := pair C c B e c' e' hPC order hAB hCe hAe hBm
        exact trans _ _ _ _ _ _ hBm.mem.2 hd.mem.2 hp (ihB B hB hDB c' e' hBm)

/-! ## What is compared -/

theorem ancestors_mem {name : Nat} {cs : List Nat} {c : Nat} {o : Entry Ty} :
    (c, o) ∈ ancestors w name cs ↔ c ∈ cs ∧ (w.cls c).attrs.lookup name = some o := by
  unfold ancestors
  rw [List.mem_filterMap]
  constructor
  · rintro ⟨x, hx, h⟩
    cases hl : (w.cls x).attrs.lookup name with
    | none => rw [hl] at h; cases h
    | some p =>
      rw [hl] at h
      injection h with h
      injection h with h1 h2
      subst h1 h2
      exact ⟨hx, hl⟩
  · rintro ⟨hc, h⟩
    exact ⟨c, hc, by rw [h]; rfl⟩

theorem ancestors_first {name : Nat} {l r : List Nat} {c : Nat} {o : Entry Ty}
    (h : (w.cls c).attrs.lookup name = some o)
    (hl : ∀ x ∈ l, (w.cls x).attrs.lookup name = none) :
    ∃ rest, ancestors w name (l ++ c :: r) = (c, o) :: rest := by
  unfold ancestors
  rw [List.filterMap_append]
  have : l.filterMap (fun c => ((w.cls c).attrs.lookup name).map (c, ·)) = [] := by
    rw [List.filterMap_eq_nil_iff]
    intro x hx; rw [hl x hx]; rfl
  rw [this, List.nil_append, List.filterMap_cons, h]
  exact ⟨_, rfl⟩

theorem ancestors_nil {name : Nat} {cs : List Nat} :
    ancestors w name cs = [] ↔ ∀ x ∈ cs, (w.cls x).attrs.lookup name = none := by
  unfold ancestors
  rw [List.filterMap_eq_nil_iff]
  constructor <;> intro h x hx
  · have := h x hx
    cases hl : (w.cls x).attrs.lookup name with
    | none => rfl
    | some p => rw [hl] at this; cases this
  · rw [h x hx]; rfl

theorem lookup_mem {name : Nat} {e : Entry Ty} {l : List (Nat × Entry Ty)}
    (h : l.lookup name = some e) : (name, e) ∈ l := by
  induction l with
  | nil => cases h
  | cons x l ih =>
    obtain ⟨n, e'⟩ := x
    rw [List.lookup_cons] at h
    by_cases hn : name == n
    · rw [hn] at h
      injection h with h
      subst h
      rw [eq_of_beq hn]; simp
    · simp [hn] at h
      exact List.mem_cons_of_mem _ (ih h)

/-- The name of a class without issues. -/
theorem clean_own {C name : Nat} {e : Entry Ty} (h : classIssues w C = [])
    (he : (w.cls C).attrs.lookup name = some e) :
    (if e.kind.isDef then checkFunction w C name e else checkAssign w C name e) = [] := by
  unfold classIssues at h
  have := (List.append_eq_nil_iff.1 h).2
  rw [List.flatMap_eq_nil_iff] at this
  exact this (name, e) (lookup_mem he)

theorem clean_def {C name : Nat} {t : List Nat} {e : Entry Ty} (hk : Checked w name)
    (h : classIssues w C = []) (hm : (w.cls C).mro = C :: t)
    (he : (w.cls C).attrs.lookup name = some e) (hd : IsDef e) :
    ∀ c ∈ t, ∀ o, (w.cls c).attrs.lookup name = some o →
      checkOverride w (w.cls c).frozen o e = [] := by
  intro c hc o ho
  have := clean_own h he
  rw [if_pos (isDef_iff.2 hd)] at this
  unfold checkFunction at this
  rw [if_neg (by simp [hk.shown]), if_neg (by simp [hk.noted, shouldCheck, hk.typed C e he])] at this
  unfold findAndCheck at this
  rw [hm, List.tail_cons] at this
  have mem : (c, o) ∈ ancestors w name t := ancestors_mem.2 ⟨hc, ho⟩
  cases ha : ancestors w name t with
  | nil => rw [ha] at mem; cases mem
  | cons p ps =>
    rw [ha] at this mem
    dsimp only at this
    have := (List.append_eq_nil_iff.1 this).2
    rw [List.flatMap_eq_nil_iff] at this
    exact this (c, o) mem

theorem clean_first {C name : Nat} {t : List Nat} {e : Entry Ty} (hk : Checked w name)
    (h : classIssues w C = []) (hm : (w.cls C).mro = C :: t)
    (he : (w.cls C).attrs.lookup name = some e) {l r : List Nat} {c : Nat} {o : Entry Ty}
    (ht : t = l ++ c :: r) (ho : (w.cls c).attrs.lookup name = some o)
    (hl : ∀ x ∈ l, (w.cls x).attrs.lookup name = none) :
    checkOverride w (w.cls c).frozen o e = [] ∧ o.kind.isFinal = false := by
  have := clean_own h he
  obtain ⟨rest, ha⟩ := ancestors_first (r := r) ho hl
  rw [← ht] at ha
  by_cases hd : e.kind.isDef = true
  · rw [if_pos hd] at this
    refine ⟨clean_def hk h hm he (isDef_iff.1 hd) c (by rw [ht]; simp) o ho, ?_⟩
    unfold checkFunction at this
    rw [if_neg (by simp [hk.shown]), if_neg (by simp [hk.noted, shouldCheck, hk.typed C e he])] at this
    unfold findAndCheck at this
    rw [hm, List.tail_cons, ha] at this
    dsimp only at this
    have := (List.append_eq_nil_iff.1 (List.append_eq_nil_iff.1 this).1).1
    cases hf : o.kind.isFinal with
    | false => rfl
    | true => rw [hf] at this; cases this
  · rw [if_neg hd] at this
    unfold checkAssign at this
    rw [if_neg (by simp [hk.shown]), hm, List.tail_cons, ha] at this
    dsimp only at this
    cases hf : o.kind.isFinal with
    | true => rw [hf] at this; cases this
    | false => rw [hf] at this; exact ⟨this, rfl⟩

theorem clean_pair {C A B name c : Nat} {e o : Entry Ty} (lin : Linear w) (hk : Checked w name)
    (h : classIssues w C = []) (hs : [A, B].Sublist (w.cls C).bases)
    (hC : (w.cls C).attrs.lookup name = none) (hA : (w.cls A).attrs.lookup name = some e)
    (hB : Member w B name c o) : checkPair w e o = [] := by
  unfold classIssues at h
  have h := (List.append_eq_nil_iff.1 h).1
  unfold checkBases at h
  rw [List.flatMap_eq_nil_iff] at h
  have h := h (A, B) (pairs_mem hs)
  rw [List.flatMap_eq_nil_iff] at h
  have h := h (name, e) (lookup_mem hA)
  rw [if_neg (by simp [hk.shown, hk.noted, hC])] at h
  obtain ⟨l, r, hm, ho, hl⟩ := hB
  obtain ⟨rest, ha⟩ := ancestors_first (r := r) ho hl
  obtain ⟨tA, hmA, -⟩ := lin A
  obtain ⟨rest', ha'⟩ := ancestors_first (l := []) (r := tA) hA (by simp)
  dsimp only at h
  rw [hm, ha, hmA, show A :: tA = [] ++ A :: tA from rfl, ha'] at h
  exact h

end Verif.Override
