import Verif.Sub.OverlapSpec
import Verif.Sub.EndProps

/-! # Lemmas about overlapping types -/

namespace Verif.Sub

open Verif.Match

variable {w : World} {b : Bool}

/-- What an accepted comparison of a type with an mro rests on. -/
theorem accepts_nominal {rev : Bool} {t s : Ty} (ht : t.nominal = true) (h : Accepts w rev t s) :
    ∃ n, (∃ y ∈ mro w s, Yes (internal w n .cov rev t y)) ∨
      (protocolMatch w t s).bool = true ∨ Yes (other w n .cov rev t s) ∨
      Yes (promotion w n rev t s) := by
  obtain ⟨n, m, h, hm⟩ := h
  cases n with
  | zero => simp [isSuper] at h
  | succ n =>
    refine ⟨n, ?_⟩
    unfold isSuper at h
    rw [if_pos ht] at h
    cases hr : mroM (fun b => internal w n .cov rev t b) (mro w s) with
    | none => rw [hr] at h; cases h
    | some r =>
      rw [hr] at h
      simp only [Option.bind_some] at h
      split at h
      · cases ho : orM (protocolMatch w t s) (fun _ => other w n .cov rev t s) with
        | none => rw [ho] at h; cases h
        | some r' =>
          rw [ho] at h
          simp only [Option.bind_some] at h
          rcases orM_true h hm with h1 | ⟨m', h1, h2⟩
          · rcases orM_true ho h1 with h3 | ⟨m'', h3, h4⟩
            · exact Or.inr (Or.inl h3)
            · exact Or.inr (Or.inr (Or.inl ⟨_, h3, h4⟩))
          · exact Or.inr (Or.inr (Or.inr ⟨_, h1, h2⟩))
      · cases h
        obtain ⟨y, hy, hf⟩ := mroM_true hr hm
        exact Or.inl ⟨y, hy, m, hf, hm⟩

theorem accepts_plain {rev : Bool} {t s : Ty} (ht : t.nominal = false) (h : Accepts w rev t s) :
    ∃ n, Yes (internal w n .cov rev t s) ∨ Yes (other w n .cov rev t s) := by
  obtain ⟨n, m, h, hm⟩ := h
  cases n with
  | zero => simp [isSuper] at h
  | succ n =>
    refine ⟨n, ?_⟩
    unfold isSuper at h
    rw [if_neg (by simp [ht])] at h
    cases hr : internal w n .cov rev t s with
    | none => rw [hr] at h; cases h
    | some r =>
      rw [hr] at h
      simp only [Option.bind_some] at h
      split at h
      · exact Or.inr ⟨m, h, hm⟩
      · cases h; exact Or.inl ⟨m, rfl, hm⟩

/-- Compared with `object`, a type with an mro is accepted or plainly refused. -/
theorem object_entry {t : Ty} (ht : t.nominal = true) (n : Nat) (rev : Bool) :
    internal w (n + 3) .cov rev t (.cls w.object []) = some .newFalse ∨
      Yes (internal w (n + 3) .cov rev t (.cls w.object [])) := by
  cases t <;> simp [Ty.nominal] at ht
  case cls c as =>
    simp only [internal, classVsType, matchesClass]
    split
    · exact Or.inl rfl
    · right
      split
      · exact ⟨_, rfl, rfl⟩
      · cases as <;> exact ⟨_, by simp only [zipV, Option.map_some]; rfl, rfl⟩
  all_goals exact Or.inl (by simp [internal])

/-- A type without bases is accepted if the other side accepts it. -/
theorem accepts_other {t s : Ty} {n : Nat} {rev : Bool} (hm : mro w s = [s, .cls w.object []])
    (hi : internal w (n + 3) .cov rev t s = some .newFalse ∨
      Yes (internal w (n + 3) .cov rev t s))
    (ho : Yes (other w (n + 3) .cov rev t s)) : Accepts w rev t s := by
  refine ⟨n + 4, ?_⟩
  show Yes _
  unfold isSuper
  by_cases ht : t.nominal = true
  · rw [if_pos ht, hm]
    simp only [mroM]
    rcases hi with h | ⟨m, h1, h2⟩
    · rw [h]
      simp only [Option.bind_some, if_true]
      rcases object_entry (w := w) ht n rev with h | ⟨m, h1, h2⟩
      · rw [h]
        simp only [Option.bind_some, if_true]
        exact yes_bind (yes_orM ho) (fun m hm => yes_orM_left hm)
      · rw [h1]
        simp only [Option.bind_some]
        rw [if_neg (Yes.ne h2)]
        simp only [Option.bind_some]
        rw [if_neg (Yes.ne h2)]
        exact ⟨m, rfl, h2⟩
    · rw [h1]
      simp only [Option.bind_some]
      rw [if_neg (Yes.ne h2)]
      simp only [Option.bind_some]
      rw [if_neg (Yes.ne h2)]
      exact ⟨m, rfl, h2⟩
  · rw [if_neg ht]
    rcases hi with h | ⟨m, h1, h2⟩
    · rw [h]
      simp only [Option.bind_some, if_true]
      exact ho
    · rw [h1]
      simp only [Option.bind_some]
      rw [if_neg (Yes.ne h2)]
      exact ⟨m, rfl, h2⟩

/-- What accepts the base of a `NewType` accepts the `NewType`. -/
theorem accepts_newType {t : Ty} {i : Nat} {rev : Bool} (ht : ∀ us, t ≠ .union us)
    (h : Accepts w rev t (w.newBase i)) : Accepts w rev t (.newType i) := by
  obtain ⟨n, hn⟩ := h
  refine accepts_other (n := n) rfl ?_ ?_
  · cases t with
    | union us => exact absurd rfl (ht us)
    | newType j =>
      simp only [internal]
      exact ofBool_cases _
    | any => exact Or.inr ⟨_, by simp only [internal]; rfl, rfl⟩
    | none =>
      simp only [internal]
      exact ofBool_cases _
    | never =>
      simp only [internal]
      exact ofBool_cases _
    | _ => exact Or.inl (by simp [internal, classVsType])
  · simp only [other, if_true, «matches»]
    obtain ⟨m, h1, h2⟩ := hn
    exact ⟨m, super_mono (by omega) _ _ _ _ h1, h2⟩

theorem fine_usual {t : Ty} (h : Fine w b t) : Usual t := by
  induction h with
  | any => exact .any
  | never => exact .never
  | none => exact .none
  | lit l => exact .lit l
  | newType k => exact .newType k
  | cls _ _ _ ih => exact .cls ih
  | data _ _ ih => exact .data ih
  | union _ _ _ ih => exact .union ih
  | fixed _ ih => exact .fixed ih
  | arb _ ih => exact .arb ih
  | type _ _ h _ _ ih => exact .type h ih

theorem accepts_own {t : Ty} (h : Fine w b t) (rev : Bool) : Accepts w rev t t := by
  obtain ⟨n, hn⟩ := own (w := w) (fine_usual h)
  exact ⟨n, (hn n (Nat.le_refl n) rev).1⟩

theorem Calm.litClass (hc : Calm w b) (l : Lit) : (w.cls (fallback w l)).params = [] := by
  cases l
  · exact hc.int
  · exact hc.str
  · exact hc.bytes
  · exact hc.bool

theorem Calm.fineFallback (hc : Calm w b) (l : Lit) : Fine w b (.cls (fallback w l) []) := by
  refine .cls (by simp [hc.litClass l]) (fun _ h => ?_) (by simp)
  obtain ⟨_, h1, h2, h3, h4⟩ := hc.bare
  cases l
  · exact h1 h.symm
  · exact h2 h.symm
  · exact h3 h.symm
  · exact h4 h.symm

theorem Calm.protocolLit (hc : Calm w b) {t : Ty} {l : Lit} (rev : Bool)
    (h : (w.structural t (.lit l)).bool = true) : Accepts w rev t (.cls (fallback w l) []) := by
  cases l
  · exact hc.protocolInt t _ rev h
  · exact hc.protocolStr t _ rev h
  · exact hc.protocolBytes t _ rev h
  · exact hc.protocolBool t _ rev h

theorem protocolMatch_true {t s : Ty} (h : (protocolMatch w t s).bool = true) :
    (∃ c as, t = .cls c as) ∧ (w.structural t s).bool = true := by
  unfold protocolMatch at h
  split at h
  · split at h
    · exact ⟨⟨_, _, rfl⟩, h⟩
    · cases h
  · cases h

/-- A class of a literal accepts the literal. -/
theorem fallback_accepts (hc : Calm w b) (l : Lit) (rev : Bool) :
    Accepts w rev (.cls (fallback w l) []) (.lit l) := by
  refine ⟨4, .newTrue, ?_, rfl⟩
  simp [isSuper, Ty.nominal, mro, mroM, internal, classVsType, matchesClass, hc.litClass l, Match.newTrue,
    Match.newFalse]

theorem boolLits_mem {ss : List Ty} (h : boolLits ss = 2) : ∃ x, .lit (.bool x) ∈ ss := by
  unfold boolLits at h
  match hf : ss.filter Ty.isBoolLit, h with
  | t :: _, _ =>
    have ht : t ∈ ss.filter Ty.isBoolLit := by rw [hf]; simp
    obtain ⟨h1, h2⟩ := List.mem_filter.mp ht
    unfold Ty.isBoolLit at h2
    split at h2
    · exact ⟨_, h1⟩
    · cases h2

theorem Yes.not_false : ¬ Yes (some Match.newFalse) := by
  rintro ⟨m, h1, h2⟩; cases h1; cases h2

theorem Yes.ofBool {x : Bool} (h : Yes (some (ofBool x))) : x = true := by
  obtain ⟨m, h1, h2⟩ := h
  cases h1
  exact ofBool_true.mp h2

theorem Fine.noArgs {c : Nat} {as : List Ty} (h : (w.cls c).params = [])
    (hf : Fine w b (.cls c as)) : as = [] := by
  cases hf with
  | cls h1 => rw [h] at h1; exact List.length_eq_zero_iff.mp h1

/-- The part of `check_other_side` for unions. -/
theorem other_union {n : Nat} {v : Variance} {rev : Bool} {t : Ty} {ss : List Ty} (hs : ss ≠ [])
    (h : Yes (other w n v rev t (.union ss))) : ∃ u ∈ ss, Accepts w rev t u := by
  cases n with
  | zero => obtain ⟨m, h1, _⟩ := h; simp [other] at h1
  | succ n =>
    simp only [other] at h
    split at h
    · exact absurd h Yes.not_false
    · obtain ⟨m, h1, h2⟩ := h
      cases hr : allM (fun u => isSuper w n rev t u) .newTrue ss with
      | none => rw [hr] at h1; cases h1
      | some r =>
        rw [hr] at h1
        simp only [Option.bind_some] at h1
        have hrt : r.bool = true := by
          split at h1
          · cases hx : isSuper w n (!rev) (.union ss) t with
            | none => rw [hx] at h1; cases h1
            | some r' =>
              rw [hx] at h1
              simp only [Option.map_some, Option.some.injEq] at h1
              subst h1
              exact (and_true.mp h2).1
          · cases h1; exact h2
        match ss, hs with
        | u :: us, _ =>
          obtain ⟨m', e1, e2⟩ := (allM_true hr hrt).2 u (by simp)
          exact ⟨u, by simp, n, m', e1, e2⟩

theorem internal_cls_union {n : Nat} {v : Variance} {rev : Bool} {c : Nat} {as ss : List Ty}
    (h : Yes (internal w n v rev (.cls c as) (.union ss))) :
    c = w.bool ∧ boolLits ss = 2 := by
  match n with
  | 0 => obtain ⟨m, h1, _⟩ := h; simp [internal] at h1
  | 1 => obtain ⟨m, h1, _⟩ := h; simp [internal, classVsType] at h1
  | n + 2 =>
    simp only [internal, classVsType] at h
    have := h.ofBool
    simp only [Bool.and_eq_true, beq_iff_eq] at this
    exact this.1

/-- What accepts a union accepts one of its members. -/
theorem accepts_union (hc : Calm w b) {t : Ty} {ss : List Ty} {rev : Bool} (ht : Fine w b t)
    (hu : ∀ us, t ≠ .union us) (hs : ss ≠ []) (h : Accepts w rev t (.union ss)) :
    ∃ u ∈ ss, Accepts w rev t u := by
  by_cases hn : t.nominal = true
  · obtain ⟨n, ⟨y, hy, hi⟩ | h | h | h⟩ := accepts_nominal hn h
    · simp only [mro, List.mem_cons, List.not_mem_nil, or_false] at hy
      rcases hy with rfl | rfl
      · cases n with
        | zero => obtain ⟨m, h1, _⟩ := hi; simp [internal] at h1
        | succ n =>
          cases ht with
          | cls h1 h2 h3 =>
            obtain ⟨rfl, hb⟩ := internal_cls_union hi
            obtain ⟨x, hx⟩ := boolLits_mem hb
            have := Fine.noArgs hc.bool (Fine.cls h1 h2 h3)
            subst this
            exact ⟨_, hx, fallback_accepts hc (.bool x) rev⟩
          | data | fixed | arb =>
            simp only [internal] at hi
            exact absurd hi Yes.not_false
          | _ => simp [Ty.nominal] at hn
      · have hto : t = .cls w.object [] := by
          match n with
          | 0 => obtain ⟨m, h1, _⟩ := hi; simp [internal] at h1
          | n + 1 =>
            cases ht with
            | @cls c as h1 h2 h3 =>
              simp only [internal] at hi
              match n with
              | 0 => obtain ⟨m, h1, _⟩ := hi; simp [classVsType] at h1
              | 1 => obtain ⟨m, h1, _⟩ := hi; simp [classVsType, matchesClass] at h1
              | n + 2 =>
                simp only [classVsType, matchesClass] at hi
                split at hi
                · exact absurd hi Yes.not_false
                · rename_i hne
                  simp only [ne_eq, Decidable.not_not] at hne
                  subst hne
                  rw [Fine.noArgs hc.object (Fine.cls h1 h2 h3)]
            | data | fixed | arb =>
              simp only [internal] at hi
              exact absurd hi Yes.not_false
            | _ => simp [Ty.nominal] at hn
        subst hto
        match ss, hs with
        | u :: us, _ => exact ⟨u, by simp, object_accepts_all hc.object hc.objectPlain
            hc.bases.nominal rev u⟩
    · exact hc.protocolUnion t ss rev (protocolMatch_true h).2
    · exact other_union hs h
    · obtain ⟨m, h1, h2⟩ := h
      cases n with
      | zero => simp [promotion] at h1
      | succ n =>
        simp only [promotion, Option.some.injEq] at h1
        subst h1; cases h2
  · obtain ⟨n, h | h⟩ := accepts_plain (by simpa using hn) h
    · cases n with
      | zero => obtain ⟨m, h1, _⟩ := h; simp [internal] at h1
      | succ n =>
        cases ht with
        | any =>
          match ss, hs with
          | u :: us, _ => exact ⟨u, by simp, (any_never_accepted w rev u).2.2.1⟩
        | union => exact absurd rfl (hu _)
        | never | none =>
          simp only [internal, Ty.isNever, Ty.isNone, hc.strict] at h
          exact absurd h.ofBool (by simp)
        | type =>
          simp only [internal] at h
          exact absurd h Yes.not_false
        | lit | newType =>
          simp only [internal] at h
          exact absurd h Yes.not_false
        | _ => simp [Ty.nominal] at hn
    · exact other_union hs h

/-- A member of a union, or a type that is not a union. -/
def Part (s u : Ty) : Prop :=
  (s = u ∧ ∀ us, s ≠ .union us) ∨ ∃ ss, s = .union ss ∧ u ∈ ss

/-- One of the types accepts the type; or it is `bool` and one of the types is `True` or
`False`. -/
def Member (w : World) (rev : Bool) (ts : List Ty) (u : Ty) : Prop :=
  (∃ g ∈ ts, Accepts w rev g u) ∨
    ∃ x, .lit (.bool x) ∈ ts ∧ Accepts w rev (.cls w.bool []) u ∧
      (u = .cls w.bool [] ∨ ∃ i, u = .newType i)

theorem unionSuper_leaf (hc : Calm w b) {n : Nat} {rev : Bool} {ts : List Ty} {s : Ty}
    (ht : ts ≠ []) (hu : ∀ us, s ≠ .union us) (hu2 : ∀ us, s ≠ .type (.union us))
    (h : Yes (unionSuper w n rev ts s)) :
    (s = .cls w.bool [] ∧ Accepts w rev (.cls w.bool []) s ∧ ∃ x, .lit (.bool x) ∈ ts) ∨
      ∃ g ∈ ts, Accepts w rev g s := by
  cases n with
  | zero => obtain ⟨m, h1, _⟩ := h; simp [unionSuper] at h1
  | succ n =>
    unfold unionSuper at h
    split at h
    · exact absurd rfl (hu _)
    · exact absurd rfl (hu2 _)
    · split at h
      · rename_i hb
        simp only [Bool.and_eq_true, beq_iff_eq] at hb
        have := Ty.beq_eq hb.1
        subst this
        refine Or.inl ⟨rfl, ?_, boolLits_mem hb.2⟩
        exact accepts_own (hc.fineFallback (.bool true)) rev
      · obtain ⟨m, h1, h2⟩ := h
        obtain ⟨g, hg, m', e1, e2⟩ := anyM_true h1 h2 (Or.inl ht)
        exact Or.inr ⟨g, hg, n, m', e1, e2⟩

theorem fine_noTypeUnion {s : Ty} (h : Fine w b s) : ∀ us, s ≠ .type (.union us) := by
  rintro us rfl
  cases h with
  | type _ h => exact h us rfl

theorem leaf_member {rev : Bool} {ts : List Ty} {s : Ty}
    (h : (s = .cls w.bool [] ∧ Accepts w rev (.cls w.bool []) s ∧ ∃ x, .lit (.bool x) ∈ ts) ∨
      ∃ g ∈ ts, Accepts w rev g s) : Member w rev ts s := by
  rcases h with ⟨h1, h2, x, h3⟩ | h
  · exact Or.inr ⟨x, h3, h2, Or.inl h1⟩
  · exact Or.inl h

theorem unionSuper_part (hc : Calm w b) {n : Nat} {rev : Bool} {ts : List Ty} {s : Ty}
    (ht : Fine w b (.union ts)) (hs : Fine w b s) (h : Yes (unionSuper w n rev ts s)) :
    ∃ u, Part s u ∧ Member w rev ts u := by
  have hne : ts ≠ [] := by cases ht; assumption
  by_cases hu : ∃ ss, s = .union ss
  · obtain ⟨ss, rfl⟩ := hu
    cases n with
    | zero => obtain ⟨m, h1, _⟩ := h; simp [unionSuper] at h1
    | succ n =>
      cases hs with
      | union h1 h2 h3 =>
        simp only [unionSuper] at h
        split at h
        · rename_i hb
          rw [← beqs_eq hb] at h1 h2 h3 ⊢
          match ts, h1 with
          | u :: us, _ => exact ⟨u, Or.inr ⟨_, rfl, by simp⟩, Or.inl ⟨u, by simp,
              accepts_own (h3 u (by simp)) rev⟩⟩
        · obtain ⟨m, e1, e2⟩ := h
          match ss, h1 with
          | u :: us, _ =>
            obtain ⟨m', e3, e4⟩ := (allM_true e1 e2).2 u (by simp)
            exact ⟨u, Or.inr ⟨_, rfl, by simp⟩, leaf_member (unionSuper_leaf hc hne
              (h2 u (by simp)) (fine_noTypeUnion (h3 u (by simp))) ⟨m', e3, e4⟩)⟩
  · have hu' : ∀ us, s ≠ .union us := fun us h => hu ⟨us, h⟩
    exact ⟨s, Or.inl ⟨rfl, hu'⟩, leaf_member (unionSuper_leaf hc hne hu' (fine_noTypeUnion hs) h)⟩

/-- A union that accepts a type has a member that accepts it or one of its members. -/
theorem union_accepts (hc : Calm w b) {rev : Bool} {ts : List Ty} {s : Ty}
    (ht : Fine w b (.union ts)) (hs : Fine w b s) (h : Accepts w rev (.union ts) s) :
    ∃ u, Part s u ∧ Member w rev ts u := by
  have hne : ts ≠ [] := by cases ht; assumption
  have hnu : ∀ t ∈ ts, ∀ us, t ≠ .union us := by cases ht; assumption
  have low : ∀ {n s}, Yes (internal w n .cov rev (.union ts) s) →
      ∃ n, Yes (unionSuper w n rev ts s) := by
    intro n s h
    cases n with
    | zero => obtain ⟨m, h1, _⟩ := h; simp [internal] at h1
    | succ n =>
      simp only [internal] at h
      rw [if_neg (by simp)] at h
      exact ⟨n, h⟩
  obtain ⟨n, h | h⟩ := accepts_plain rfl h
  · obtain ⟨n, h⟩ := low h
    exact unionSuper_part hc ht hs h
  · cases n with
    | zero => obtain ⟨m, h1, _⟩ := h; simp [other] at h1
    | succ n =>
      cases hs with
      | any =>
        match ts, hne with
        | g :: gs, _ => exact ⟨_, Or.inl ⟨rfl, by simp⟩, Or.inl ⟨g, by simp,
            (any_never_accepted w rev g).1⟩⟩
      | never =>
        match ts, hne with
        | g :: gs, _ => exact ⟨_, Or.inl ⟨rfl, by simp⟩, Or.inl ⟨g, by simp,
            (any_never_accepted w rev g).2.1⟩⟩
      | none =>
        simp only [other, hc.strict] at h
        exact absurd h.ofBool (by simp)
      | newType i =>
        simp only [other, if_true] at h
        refine ⟨_, Or.inl ⟨rfl, by simp⟩, ?_⟩
        have ha : Accepts w rev (.union ts) (w.newBase i) := by
          cases n with
          | zero => obtain ⟨m, h1, _⟩ := h; simp [«matches»] at h1
          | succ n =>
            simp only [«matches»] at h
            exact ⟨n, h⟩
        have hnom := (hc.newBase i).1
        obtain ⟨n, h | h⟩ := accepts_plain rfl ha
        · obtain ⟨n, h⟩ := low h
          rcases unionSuper_leaf hc hne (by rintro us h; rw [h] at hnom; cases hnom)
            (by rintro us h; rw [h] at hnom; cases hnom) h with ⟨h1, h2, x, h3⟩ | ⟨g, h1, h2⟩
          · exact Or.inr ⟨x, h3, accepts_newType (by simp) h2, Or.inr ⟨i, rfl⟩⟩
          · exact Or.inl ⟨g, h1, accepts_newType (hnu g h1) h2⟩
        · cases n with
          | zero => obtain ⟨m, h1, _⟩ := h; simp [other] at h1
          | succ n =>
            cases hb : w.newBase i <;> rw [hb] at hnom <;> simp [Ty.nominal] at hnom <;>
              rw [hb] at h <;> simp only [other] at h <;> exact absurd h Yes.not_false
      | union =>
        simp only [other, Ty.unionLike, if_true] at h
        exact absurd h Yes.not_false
      | _ =>
        simp only [other] at h
        exact absurd h Yes.not_false

/-- What accepts a literal accepts its class, except literals and unions. -/
theorem accepts_lit (hc : Calm w b) {rev : Bool} {t : Ty} {l : Lit}
    (ht : Fine w b t) (hu : ∀ us, t ≠ .union us) (hl : ∀ l', t ≠ .lit l')
    (h : Accepts w rev t (.lit l)) : Accepts w rev t (.cls (fallback w l) []) := by
  by_cases hn : t.nominal = true
  · obtain ⟨n, m, h, hm⟩ := h
    cases n with
    | zero => simp [isSuper] at h
    | succ n =>
      unfold isSuper at h
      rw [if_pos hn] at h
      have hmro : mro w (.lit l) = .lit l :: mro w (.cls (fallback w l) []) := rfl
      rw [hmro] at h
      simp only [mroM] at h
      cases hi : internal w n .cov rev t (.lit l) with
      | none => rw [hi] at h; cases h
      | some r =>
        rw [hi] at h
        simp only [Option.bind_some] at h
        by_cases hr : r = .newFalse
        · rw [if_pos hr] at h
          cases hq : mroM (fun b => internal w n .cov rev t b) (mro w (.cls (fallback w l) [])) with
          | none => rw [hq] at h; cases h
          | some r' =>
            rw [hq] at h
            simp only [Option.bind_some] at h
            by_cases hr' : r' = .newFalse
            · rw [if_pos hr'] at h
              cases ho : orM (protocolMatch w t (.lit l)) (fun _ => other w n .cov rev t (.lit l)) with
              | none => rw [ho] at h; cases h
              | some r2 =>
                rw [ho] at h
                simp only [Option.bind_some] at h
                rcases orM_true h hm with h1 | ⟨m', h1, h2⟩
                · rcases orM_true ho h1 with h3 | ⟨m'', h3, h4⟩
                  · exact hc.protocolLit rev (protocolMatch_true h3).2
                  · exfalso
                    cases n with
                    | zero => simp [other] at h3
                    | succ n =>
                      simp only [other, Option.some.injEq] at h3
                      subst h3; cases h4
                · refine ⟨n + 1, ?_⟩
                  show Yes _
                  unfold isSuper
                  rw [if_pos hn, hq]
                  simp only [Option.bind_some]
                  rw [if_pos hr']
                  cases n with
                  | zero => simp [promotion] at h1
                  | succ n =>
                    have ho' : other w (n + 1) .cov rev t (.cls (fallback w l) []) =
                        some .newFalse := by simp [other]
                    have hp : promotion w (n + 1) rev t (.cls (fallback w l) []) = some m' := by
                      simp only [promotion] at h1 ⊢
                      rw [if_neg (by simp [hc.complete])]
                      exact h1
                    rw [ho', hp]
                    have : ∃ x, orM (protocolMatch w t (.cls (fallback w l) []))
                        (fun _ => some Match.newFalse) = some x := by
                      unfold orM; split <;> exact ⟨_, rfl⟩
                    obtain ⟨x, hx⟩ := this
                    rw [hx]
                    simp only [Option.bind_some]
                    exact yes_orM ⟨m', rfl, h2⟩
            · rw [if_neg hr'] at h
              cases h
              refine ⟨n + 1, m, ?_, hm⟩
              unfold isSuper
              rw [if_pos hn, hq]
              simp only [Option.bind_some]
              rw [if_neg hr']
        · rw [if_neg hr] at h
          simp only [Option.bind_some] at h
          rw [if_neg hr] at h
          cases h
          refine ⟨n + 1, m, ?_, hm⟩
          have hi' : internal w n .cov rev t (.cls (fallback w l) []) = some m := by
            cases n with
            | zero => simp [internal] at hi
            | succ n =>
              cases t <;> simp [Ty.nominal] at hn
              case cls c as =>
                simp only [internal] at hi ⊢
                cases n with
                | zero => simp [classVsType] at hi
                | succ n =>
                  simp only [classVsType, if_true] at hi ⊢
                  exact hi
              all_goals
                simp only [internal, Option.some.injEq] at hi
                exact absurd hi.symm hr
          unfold isSuper
          rw [if_pos hn]
          simp only [mro, List.cons_append, mroM, hi', Option.bind_some]
          rw [if_neg hr]
          simp only [Option.bind_some]
          rw [if_neg hr]
  · obtain ⟨n, h | h⟩ := accepts_plain (by simpa using hn) h
    · cases n with
      | zero => obtain ⟨m, h1, _⟩ := h; simp [internal] at h1
      | succ n =>
        cases ht with
        | any => exact (any_never_accepted w rev _).2.2.1
        | union => exact absurd rfl (hu _)
        | lit l' => exact absurd rfl (hl _)
        | never | none =>
          simp only [internal, Ty.isNever, Ty.isNone, hc.strict] at h
          exact absurd h.ofBool (by simp)
        | type | newType =>
          simp only [internal] at h
          exact absurd h Yes.not_false
        | _ => simp [Ty.nominal] at hn
    · cases n with
      | zero => obtain ⟨m, h1, _⟩ := h; simp [other] at h1
      | succ n =>
        simp only [other] at h
        exact absurd h Yes.not_false

/-- The class of a literal accepts what the literal accepts. -/
theorem lit_accepts (hc : Calm w b) {rev : Bool} {t : Ty} {l : Lit}
    (ht : Fine w b t) (hu : ∀ us, t ≠ .union us)
    (h : Accepts w rev (.lit l) t) : Accepts w rev (.cls (fallback w l) []) t := by
  obtain ⟨n, h | h⟩ := accepts_plain rfl h
  · cases n with
    | zero => obtain ⟨m, h1, _⟩ := h; simp [internal] at h1
    | succ n =>
      cases ht with
      | lit l' =>
        simp only [internal] at h
        have := h.ofBool
        simp only [decide_eq_true_eq] at this
        subst this
        exact fallback_accepts hc l rev
      | _ =>
        simp only [internal] at h
        exact absurd h Yes.not_false
  · cases n with
    | zero => obtain ⟨m, h1, _⟩ := h; simp [other] at h1
    | succ n =>
      cases ht with
      | any => exact (any_never_accepted w rev _).1
      | never => exact (any_never_accepted w rev _).2.1
      | none =>
        simp only [other, hc.strict] at h
        exact absurd h.ofBool (by simp)
      | union => exact absurd rfl (hu _)
      | newType i =>
        simp only [other, if_true] at h
        exfalso
        have hnom := (hc.newBase i).1
        have ha : Accepts w rev (.lit l) (w.newBase i) := by
          cases n with
          | zero => obtain ⟨m, h1, _⟩ := h; simp [«matches»] at h1
          | succ n =>
            simp only [«matches»] at h
            exact ⟨n, h⟩
        obtain ⟨n, h | h⟩ := accepts_plain rfl ha
        all_goals
          cases n with
          | zero => obtain ⟨m, h1, _⟩ := h; simp [other, internal] at h1
          | succ n =>
            cases hb : w.newBase i <;> rw [hb] at hnom <;> simp [Ty.nominal] at hnom <;>
              rw [hb] at h <;> simp only [other, internal] at h <;> exact absurd h Yes.not_false
      | _ =>
        simp only [other] at h
        exact absurd h Yes.not_false

end Verif.Sub
