import Verif.Sub.OverlapSound

/-! # Tuples that do not overlap, and the induction -/

namespace Verif.Sub

open Verif.Match

variable {w : World} {b : Bool} {allow : Nat → Bool}

/-- A tuple without `*tuple[..]`. -/
def Ty.plainTuple : Ty → Bool
  | .fixed _ => true
  | .arb _ => true
  | _ => false

theorem internal_tuple {n : Nat} {v : Variance} {rev : Bool} {t s : Ty} (ht : t.plainTuple = true)
    (h : Yes (internal w n v rev t s)) : ∃ n, Yes (matchTuple w n v rev t s) := by
  cases n with
  | zero => obtain ⟨m, h1, _⟩ := h; simp [internal] at h1
  | succ n =>
    refine ⟨n, ?_⟩
    cases t <;> simp [Ty.plainTuple] at ht <;> cases s <;> simp only [internal] at h <;> first
      | exact absurd h Yes.not_false
      | (obtain ⟨m, h1, h2⟩ := h
         simp only [Option.map_eq_some_iff] at h1
         obtain ⟨r, h3, h4⟩ := h1
         subst h4
         rw [similar_true] at h2
         exact ⟨r, h3, h2⟩)

theorem matchTuple_cls {n : Nat} {v : Variance} {rev : Bool} {t : Ty} {c : Nat} {as : List Ty}
    (ht : t.plainTuple = true) : ¬ Yes (matchTuple w n v rev t (.cls c as)) := by
  intro h
  cases n with
  | zero => obtain ⟨m, h1, _⟩ := h; simp [matchTuple] at h1
  | succ n =>
    cases t <;> simp [Ty.plainTuple] at ht <;> simp only [matchTuple] at h <;>
      exact absurd h Yes.not_false

theorem accepts_tuple (hc : Calm w b) {rev : Bool} {t s : Ty} (ht : t.plainTuple = true)
    (hs : s.plainTuple = true) (h : Accepts w rev t s) : ∃ n, Yes (matchTuple w n .cov rev t s) := by
  have hn : t.nominal = true := by cases t <;> simp [Ty.plainTuple] at ht <;> rfl
  obtain ⟨n, ⟨y, hy, hi⟩ | h | h | h⟩ := accepts_nominal hn h
  · obtain ⟨n, hi⟩ := internal_tuple ht hi
    have : y = s ∨ ∃ c as, y = .cls c as := by
      have base : ∀ ts, y ∈ bases w w.tuple ts → ∃ c as, y = .cls c as := by
        intro ts h
        obtain ⟨x, h1, h2⟩ := List.mem_map.mp h
        obtain ⟨c, as, rfl⟩ := hc.bases.tuple x h1
        exact ⟨c, substs ts as, by rw [← h2]; simp only [Ty.subst]⟩
      cases s <;> simp [Ty.plainTuple] at hs <;>
        simp only [mro, List.cons_append, List.mem_cons, List.mem_append, List.not_mem_nil,
          or_false] at hy <;>
        rcases hy with rfl | hy | rfl
      · exact Or.inl rfl
      · exact Or.inr (base _ hy)
      · exact Or.inr ⟨_, _, rfl⟩
      · exact Or.inl rfl
      · exact Or.inr (base _ hy)
      · exact Or.inr ⟨_, _, rfl⟩
    rcases this with rfl | ⟨c, as, rfl⟩
    · exact ⟨n, hi⟩
    · exact absurd hi (matchTuple_cls ht)
  · obtain ⟨⟨c, as, e⟩, -⟩ := protocolMatch_true h
    subst e; cases ht
  · cases n with
    | zero => obtain ⟨m, h1, _⟩ := h; simp [other] at h1
    | succ n =>
      cases s <;> simp [Ty.plainTuple] at hs <;> simp only [other] at h <;>
        exact absurd h Yes.not_false
  · cases n with
    | zero => obtain ⟨m, h1, _⟩ := h; simp [promotion] at h1
    | succ n =>
      cases s <;> simp [Ty.plainTuple] at hs <;> simp only [promotion] at h <;>
        exact absurd h Yes.not_false

theorem tuple_of (hc : Calm w b) {t s : Ty} (ht : t.plainTuple = true) (hs : s.plainTuple = true)
    (h1 : ∀ n v, ¬ Yes (matchTuple w n v false t s)) (h2 : ∀ n, ¬ Yes (matchTuple w n .cov true s t)) :
    Apart w t s := by
  refine apart_of hc (fun ha => ?_) (fun ha => ?_) fun k hk => ?_
  · obtain ⟨n, hn⟩ := accepts_tuple hc ht hs ha
    exact h1 n _ hn
  · obtain ⟨n, hn⟩ := accepts_tuple hc hs ht ha
    exact h2 n hn
  · obtain ⟨n, hn⟩ := internal_tuple ht hk
    exact h1 n _ hn

theorem matchTuple_fixed {n : Nat} {v : Variance} {rev : Bool} {ts ss : List Ty}
    (h : Yes (matchTuple w n v rev (.fixed ts) (.fixed ss))) :
    ts.length = ss.length ∧ ∃ j, ∀ (k : Nat) a x, ts[k]? = some a → ss[k]? = some x →
      Yes («matches» w j v rev a x) := by
  cases n with
  | zero => obtain ⟨m, h1, _⟩ := h; simp [matchTuple] at h1
  | succ n =>
    simp only [matchTuple] at h
    split at h
    · obtain ⟨m, h1, h2⟩ := h
      exact ⟨‹_›, n, (zipM_true h1 h2).2⟩
    · exact absurd h Yes.not_false

theorem matchTuple_arb_fixed {n : Nat} {v : Variance} {rev : Bool} {a : Ty} {ss : List Ty}
    (h : Yes (matchTuple w n v rev (.arb a) (.fixed ss))) :
    a = .any ∨ ∃ j, ∀ x ∈ ss, Yes («matches» w j v rev a x) := by
  cases n with
  | zero => obtain ⟨m, h1, _⟩ := h; simp [matchTuple] at h1
  | succ n =>
    simp only [matchTuple] at h
    split at h
    · left
      have := h.ofBool
      cases a <;> first | rfl | simp [Ty.isAny] at this
    · right
      obtain ⟨m, h1, h2⟩ := h
      simp only [Option.map_eq_some_iff] at h1
      obtain ⟨r, h3, h4⟩ := h1
      subst h4
      rw [ofBool_true] at h2
      subst h2
      exact ⟨n, allB_true h3⟩

theorem matchTuple_fixed_arb {n : Nat} {v : Variance} {rev : Bool} {a : Ty} {ss : List Ty}
    (h : Yes (matchTuple w n v rev (.fixed ss) (.arb a))) : a = .any := by
  cases n with
  | zero => obtain ⟨m, h1, _⟩ := h; simp [matchTuple] at h1
  | succ n =>
    simp only [matchTuple] at h
    obtain ⟨m, h1, h2⟩ := h
    cases h1
    rw [ofBoolAny_true] at h2
    cases a <;> first | rfl | simp [Ty.isAny] at h2

theorem tuple_apart (hc : Calm w b) {n : Nat} {t s : Ty} (ih : Smaller w allow b n)
    (ht : t.plainTuple = true) (hs : s.plainTuple = true) (ft : Fine w b t) (fs : Fine w b s)
    (h : overlapsTuple w allow n t s = some false) : Apart w t s := by
  cases n with
  | zero => cases h
  | succ n =>
    cases ft <;> simp [Ty.plainTuple] at ht <;> cases fs <;> simp [Ty.plainTuple] at hs <;>
      simp only [overlapsTuple] at h
    case fixed.fixed ts ft ss fs =>
      rcases zipAndO_false h with h | ⟨k, a, x, ha, hx, hf⟩
      · have hne : ts.length ≠ ss.length := by simpa using h
        exact tuple_of hc rfl rfl (fun n v h => hne (matchTuple_fixed h).1)
          (fun n h => hne (matchTuple_fixed h).1.symm)
      · have hap := ih a x (ft a (List.mem_of_getElem? ha)) (fs x (List.mem_of_getElem? hx)) n
          (by omega) hf
        refine tuple_of hc rfl rfl (fun n v h => ?_) (fun n h => ?_)
        · obtain ⟨-, j, hj⟩ := matchTuple_fixed h
          exact hap.args _ _ (hj k a x ha hx)
        · obtain ⟨-, j, hj⟩ := matchTuple_fixed h
          exact hap.back _ (hj k x a hx ha)
    case fixed.arb ts ft x fx =>
      obtain ⟨a, ha, hf⟩ := allO_false h
      have hap := ih a x (ft a ha) fx n (by omega) hf
      refine tuple_of hc rfl rfl (fun n v h => ?_) (fun n h => ?_)
      · have := matchTuple_fixed_arb h
        subst this
        exact hap.sup (any_never_accepted w false _).1
      · rcases matchTuple_arb_fixed h with rfl | ⟨j, hj⟩
        · exact hap.sup (any_never_accepted w false _).1
        · exact hap.back _ (hj a ha)
    case arb.fixed a fa ss fs =>
      obtain ⟨x, hx, hf⟩ := allO_false h
      have hap := ih a x fa (fs x hx) n (by omega) hf
      refine tuple_of hc rfl rfl (fun n v h => ?_) (fun n h => ?_)
      · rcases matchTuple_arb_fixed h with rfl | ⟨j, hj⟩
        · exact hap.sup (any_never_accepted w false _).2.2.1
        · exact hap.args _ _ (hj x hx)
      · have := matchTuple_fixed_arb h
        subst this
        exact hap.sup (any_never_accepted w false _).2.2.1
    case arb.arb a fa x fx =>
      have hap := ih a x fa fx n (by omega) h
      refine tuple_of hc rfl rfl (fun n v h => ?_) (fun n h => ?_)
      all_goals
        cases n with
        | zero => obtain ⟨m, h1, _⟩ := h; simp [matchTuple] at h1
        | succ n =>
          simp only [matchTuple] at h
          first
            | exact hap.args _ _ h
            | exact hap.back _ h

/-- The left side, overlaps.rs 94-131. -/
theorem left_apart (hc : Calm w b) {n : Nat} {t s : Ty} (ih : Smaller w allow b n)
    (ft : Fine w b t) (fs : Fine w b s) (htu : ∀ us, t ≠ .union us) (hsu : ∀ us, s ≠ .union us)
    (hsl : ∀ l, s ≠ .lit l) (hsa : s ≠ .any)
    (hst : ∀ u, s = .type u → overlapsType w allow n u t = some false)
    (h : overlapsLeft w allow n t s = some false) : Apart w t s := by
  have ih' : ∀ {k}, k ≤ n → Smaller w allow b k := fun hk t s h1 h2 j hj => ih t s h1 h2 j (by omega)
  cases n with
  | zero => cases h
  | succ n =>
    cases ft with
    | any =>
      simp only [overlapsLeft] at h
      exact related_apart hc h (fun _ _ => (any_never_accepted w false s).2.2.1)
    | never =>
      simp only [overlapsLeft] at h
      refine related_apart hc h (fun k hk => ?_)
      cases k with
      | zero => obtain ⟨m, h1, _⟩ := hk; simp [internal] at h1
      | succ k =>
        refine accepts_internal (n := k + 1) ?_
        simpa only [internal] using hk
    | none =>
      simp only [overlapsLeft] at h
      refine related_apart hc h (fun k hk => ?_)
      cases k with
      | zero => obtain ⟨m, h1, _⟩ := hk; simp [internal] at h1
      | succ k =>
        refine accepts_internal (n := k + 1) ?_
        simpa only [internal, hc.strict, Bool.not_true, Bool.false_and] using hk
    | newType i =>
      simp only [overlapsLeft] at h
      refine related_apart hc h (fun k hk => ?_)
      cases k with
      | zero => obtain ⟨m, h1, _⟩ := hk; simp [internal] at h1
      | succ k =>
        refine accepts_internal (n := k + 1) ?_
        cases s <;> simpa only [internal] using hk
    | data =>
      simp only [overlapsLeft] at h
      refine related_apart hc h (fun k hk => ?_)
      cases k with
      | zero => obtain ⟨m, h1, _⟩ := hk; simp [internal] at h1
      | succ k =>
        refine accepts_internal (n := k + 1) ?_
        cases s <;> simpa only [internal] using hk
    | union => exact absurd rfl (htu _)
    | lit l =>
      simp only [overlapsLeft] at h
      exact lit_left_apart hc fs hsu hsl (ih _ _ (hc.fineFallback l) fs n (by omega) h)
    | fixed ht =>
      cases s <;> simp only [overlapsLeft] at h
      case fixed => exact tuple_apart hc (ih' (by omega)) rfl rfl (.fixed ht) fs h
      case arb => exact tuple_apart hc (ih' (by omega)) rfl rfl (.fixed ht) fs h
      case unpack => cases fs
      all_goals
        refine related_apart hc h (fun k hk => ?_)
        cases k with
        | zero => obtain ⟨m, h1, _⟩ := hk; simp [internal] at h1
        | succ k =>
          simp only [internal] at hk
          exact absurd hk Yes.not_false
    | arb ht =>
      cases s <;> simp only [overlapsLeft] at h
      case fixed => exact tuple_apart hc (ih' (by omega)) rfl rfl (.arb ht) fs h
      case arb => exact tuple_apart hc (ih' (by omega)) rfl rfl (.arb ht) fs h
      case unpack => cases fs
      all_goals
        refine related_apart hc h (fun k hk => ?_)
        cases k with
        | zero => obtain ⟨m, h1, _⟩ := hk; simp [internal] at h1
        | succ k =>
          simp only [internal] at hk
          exact absurd hk Yes.not_false
    | @type t1 h1 h2 h3 h4 h5 =>
      simp only [overlapsLeft] at h
      have ft : Fine w b (.type t1) := .type h1 h2 h3 h4 h5
      by_cases hst : ∃ u, s = .type u
      · obtain ⟨u, rfl⟩ := hst
        cases n with
        | zero => cases h
        | succ n =>
          simp only [overlapsType] at h
          cases fs with
          | type _ _ g3 _ g5 => exact types_apart hc h3 g3 (ih _ _ h5 g5 n (by omega) h)
      · by_cases hsc : ∃ c as, s = .cls c as
        · obtain ⟨c, as, rfl⟩ := hsc
          exact type_class_apart hc (ih' (by omega)) ft fs h
        · refine type_leaf_apart hc fs (fun c as e => hsc ⟨c, as, e⟩) (fun u e => hst ⟨u, e⟩) hsa ?_
            hsu hsl
          rintro rfl
          cases fs with
          | never hb => rw [h1] at hb; cases hb
    | @cls c as h1 h2 h3 =>
      have ft : Fine w b (.cls c as) := .cls h1 h2 h3
      by_cases hsc : ∃ d bs, s = .cls d bs
      · obtain ⟨d, bs, rfl⟩ := hsc
        simp only [overlapsLeft] at h
        cases hr : overlapsClass w allow n c as d bs with
        | none => rw [hr] at h; cases h
        | some r =>
          rw [hr] at h
          simp only [Option.bind_some] at h
          cases r with
          | some r =>
            simp only [Option.some.injEq] at h
            subst h
            exact class_apart hc (ih' (by omega)) ft fs hr
          | none =>
            refine related_apart hc h (fun k hk => ?_)
            obtain ⟨ys, e, -⟩ := internal_cls (w := w) rfl hk
            cases e
            exact absurd rfl (class_unrelated hr)
      · have hrel : related w allow n (.cls c as) s = some false := by
          cases s <;> first
            | exact absurd ⟨_, _, rfl⟩ hsc
            | simpa only [overlapsLeft] using h
        by_cases hs : ∃ u, s = .type u
        · obtain ⟨u, rfl⟩ := hs
          have hu := hst u rfl
          have hb : b = false := by cases fs; assumption
          subst hb
          have hbare : c ≠ w.bare := h2 rfl
          refine related_apart hc hrel (fun k hk => ?_)
          match k with
          | 0 => obtain ⟨m, h1, _⟩ := hk; simp [internal] at h1
          | 1 => obtain ⟨m, h1, _⟩ := hk; simp [internal, classVsType] at h1
          | k + 2 =>
            have nb : ¬ Yes (some (ofBool (c == w.bare))) := by
              intro hy
              exact hbare (by simpa using hy.ofBool)
            exfalso
            simp only [internal] at hk
            cases u with
            | cls d bs =>
              simp only [classVsType] at hk
              simp only [overlapsType] at hu
              cases hm : (w.cls d).metaclass with
              | none =>
                rw [hm] at hk
                exact nb hk
              | some m =>
                rw [hm] at hk hu
                simp only at hk hu
                split at hk
                · exact absurd hk Yes.not_false
                · obtain ⟨m', h1, h2⟩ := hk
                  cases hr : «matches» w k .inv false (.cls c as) (.cls m []) with
                  | none => rw [hr] at h1; cases h1
                  | some r =>
                    rw [hr] at h1
                    simp only [Option.bind_some] at h1
                    rcases orM_true h1 h2 with h3 | h3
                    · obtain ⟨e1, e2⟩ := hc.metaclass d m hm
                      have hap := ih (.cls m []) (.cls c as)
                        (.cls (by simp [e1]) (fun _ => e2) (by simp)) ft n (by omega) hu
                      have hcm : c = m := by
                        cases k with
                        | zero => simp [«matches»] at hr
                        | succ k =>
                          simp only [«matches»] at hr
                          cases k with
                          | zero => simp [isSame] at hr
                          | succ k =>
                            unfold isSame at hr
                            cases hi : internal w k .inv false (.cls c as) (.cls m []) with
                            | none => rw [hi] at hr; cases hr
                            | some ri =>
                              rw [hi] at hr
                              simp only [Option.bind_some] at hr
                              rcases orM_true hr h3 with h5 | ⟨m'', h5, h6⟩
                              · obtain ⟨ys, e, -⟩ := internal_cls (w := w) rfl ⟨ri, hi, h5⟩
                                cases e
                                rfl
                              · exact absurd ⟨m'', h5, h6⟩ other_cls
                      subst hcm
                      have := Fine.noArgs e1 ft
                      subst this
                      exact hap.sup (accepts_own ft false)
                    · exact nb h3
            | _ =>
              simp only [classVsType] at hk
              exact nb hk
        · refine related_apart hc hrel (fun k hk => ?_)
          match k with
          | 0 => obtain ⟨m, h1, _⟩ := hk; simp [internal] at h1
          | 1 => obtain ⟨m, h1, _⟩ := hk; simp [internal, classVsType] at h1
          | k + 2 =>
            exfalso
            simp only [internal] at hk
            cases s with
            | cls d bs => exact hsc ⟨d, bs, rfl⟩
            | type u => exact hs ⟨u, rfl⟩
            | union us => exact hsu us rfl
            | lit l => exact hsl l rfl
            | _ =>
              simp only [classVsType] at hk
              exact absurd hk Yes.not_false

/-- Types that are found not to overlap are apart. -/
theorem overlaps_apart (hc : Calm w b) : ∀ n, Smaller w allow b n
  | 0, t, s, _, _, k, hk, h => by
    obtain rfl : k = 0 := by omega
    cases h
  | n + 1, t, s, ft, fs, k, hk, h => by
    have ih := overlaps_apart hc n
    by_cases hk' : k ≤ n
    · exact ih t s ft fs k hk' h
    · obtain rfl : k = n + 1 := by omega
      by_cases hu : (∃ us, t = .union us) ∨ ∃ us, s = .union us
      · exact union_apart hc ih ft fs hu h
      · have htu : ∀ us, t ≠ .union us := fun us e => hu (Or.inl ⟨us, e⟩)
        have hsu : ∀ us, s ≠ .union us := fun us e => hu (Or.inr ⟨us, e⟩)
        by_cases hsl : ∃ l, s = .lit l
        · obtain ⟨l, rfl⟩ := hsl
          by_cases htl : ∃ l', t = .lit l'
          · obtain ⟨l', rfl⟩ := htl
            simp only [overlaps, Option.some.injEq, decide_eq_false_iff_not] at h
            exact lits_apart hc h
          · have : overlaps w allow n t (.cls (fallback w l) []) = some false := by
              cases t <;> first
                | exact absurd rfl (htu _)
                | exact absurd ⟨_, rfl⟩ htl
                | simpa only [overlaps] using h
            exact lit_right_apart hc ft htu (fun l' e => htl ⟨l', e⟩)
              (ih _ _ ft (hc.fineFallback l) n (by omega) this)
        · by_cases hsa : s = .any
          · subst hsa
            exfalso
            cases t <;> first
              | exact absurd rfl (htu _)
              | simp [overlaps] at h
          · have hleft : overlapsLeft w allow n t s = some false ∧
                ∀ u, s = .type u → overlapsType w allow n u t = some false := by
              cases s with
              | type u =>
                have h' : orO (overlapsType w allow n u t)
                    (fun _ => overlapsLeft w allow n t (.type u)) = some false := by
                  cases t <;> first
                    | exact absurd rfl (htu _)
                    | simpa only [overlaps] using h
                obtain ⟨h1, h2⟩ := orO_false h'
                exact ⟨h2, fun v e => by cases e; exact h1⟩
              | union us => exact absurd rfl (hsu us)
              | lit l => exact absurd ⟨l, rfl⟩ hsl
              | any => exact absurd rfl hsa
              | _ =>
                refine ⟨?_, by simp⟩
                cases t <;> first
                  | exact absurd rfl (htu _)
                  | simpa only [overlaps] using h
            exact left_apart hc ih ft fs htu hsu (fun l e => hsl ⟨l, e⟩) hsa hleft.2 hleft.1

end Verif.Sub
