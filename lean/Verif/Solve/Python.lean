import Verif.Solve.Kinds
import Verif.Sub.JoinProps

/-! # Solving type variables with the types of `Verif.Sub` -/

namespace Verif.Solve

open Verif.Match Verif.Sub

/-- The types of Python.  With `joins`, the common base type is that of the option
`use_joins`, otherwise it is the union `su`, bound.rs 270-280. -/
def python (w : World) (su : Ty → Ty → Ty) (joins : Bool) (n : Nat) : Lang Ty where
  cmp v t s := (Verif.Sub.matches w n v false t s).getD .newFalse
  base t s := if joins then commonBase w su n [] t s else some (su t s)
  sub t s := (commonSub w n t s).getD none
  maybeAny t := if t = .any then some false else none
  hasAny := go
  isNone t := decide (t = .none)
  any := .any
  never := .never
  constraints _ := none
where
  /-- Whether there is an `Any` in a type. -/
  go : Ty → Bool
    | .any => true
    | .cls _ as => goList as
    | .data _ as => goList as
    | .union ts => goList ts
    | .fixed ts => goList ts
    | .arb t => go t
    | .unpack a b c => goList a || go b || goList c
    | .type t => go t
    | _ => false
  goList : List Ty → Bool
    | [] => false
    | t :: ts => go t || goList ts

/-- What is expected of the union of two types. -/
structure Unites {V : Type} (w : World) (M : Meaning V) (p q : Nat) (su : Ty → Ty → Ty) : Prop where
  mem : ∀ a b v, Good w p q true a → Good w p q true b →
    (M.mem v (su a b) ↔ M.mem v a ∨ M.mem v b)
  good : ∀ a b, Good w p q true a → Good w p q true b → Good w p q true (su a b)

variable {V : Type} {w : World} {M : Meaning V} {p q : Nat}

theorem unites_plainUnion (hl : Lawful w M) : Unites w M p q plainUnion where
  mem := fun _ _ _ _ _ => plainUnion_mem hl
  good := fun _ _ ga gb => plainUnion_good ga gb

theorem subUnion_good {f : Ty → Option (Option Ty)} {ts : List Ty} {r : Option Ty} {u : Ty}
    (hf : ∀ t ∈ ts, ∀ u, f t = some (some u) → Good w p q true u)
    (hr : ∀ u, r = some u → Good w p q true u) (h : subUnion f r ts = some (some u)) :
    Good w p q true u := by
  induction ts generalizing r with
  | nil => cases h; exact hr _ rfl
  | cons t ts ih =>
    simp only [subUnion, Option.bind_eq_some_iff] at h
    obtain ⟨x, hx, h⟩ := h
    have ih := fun {r} => ih (r := r) fun t ht => hf t (.tail _ ht)
    split at h
    · exact ih hr h
    · next u' => exact ih (by rintro _ ⟨⟩; exact hf t (.head _) _ hx) h
    · next u' r' =>
      exact ih (by rintro _ ⟨⟩; exact plainUnion_good (hr _ rfl) (hf t (.head _) _ hx)) h

theorem subZip_good {f : Ty → Ty → Option (Option Ty)} {ts ss us : List Ty}
    (hf : ∀ t ∈ ts, ∀ s ∈ ss, ∀ u, f t s = some (some u) → Good w p q true u)
    (h : subZip f ts ss = some (some us)) : ∀ u ∈ us, Good w p q true u := by
  induction ts generalizing ss us with
  | nil => cases h; simp
  | cons t ts ih =>
    cases ss with
    | nil => cases h; simp
    | cons s ss =>
      simp only [subZip, Option.bind_eq_some_iff] at h
      obtain ⟨x, hx, h⟩ := h
      cases x with
      | none => cases h
      | some x =>
        simp only [Option.map_eq_some_iff] at h
        obtain ⟨y, hy, rest, rfl, rfl⟩ := h
        intro u hu
        cases hu with
        | head => exact hf t (.head _) s (.head _) _ hx
        | tail _ hu =>
          exact ih (fun t ht s hs => hf t (.tail _ ht) s (.tail _ hs)) hy u hu

theorem commonSub_good : ∀ n, ∀ k ≤ n, ∀ t s r, Good w p q true t → Good w p q true s →
    commonSub w k t s = some (some r) → Good w p q true r
  | 0, k, hk => by
    obtain rfl : k = 0 := by omega
    intro t s r _ _ h
    simp [commonSub] at h
  | n + 1, k, hk => by
    have ih := commonSub_good n
    by_cases hk' : k ≤ n
    · exact ih k hk'
    obtain rfl : k = n + 1 := by omega
    intro t s r gt gs h
    have hn := ih n (Nat.le_refl _)
    unfold commonSub at h
    split at h
    · cases gt with
      | union _ _ g => exact subUnion_good (fun u hu x hx => hn u s x (g u hu) gs hx) (by simp) h
    · cases gs with
      | union _ _ g => exact subUnion_good (fun u hu x hx => hn u t x (g u hu) gt hx) (by simp) h
    · cases gt
    · cases gs
    · cases gt
    · split at h
      · next x hx =>
        cases n with
        | zero =>
          simp only [tupleSub, Option.some.injEq] at hx
          subst hx; cases h
        | succ n =>
          have hn := ih n (by omega)
          unfold tupleSub at hx
          split at hx
          · next ts ss =>
            cases gt with
            | fixed gt => cases gs with
              | fixed gs =>
                cases hx
                split at h
                · cases h
                · simp only [Option.map_eq_some_iff] at h
                  obtain ⟨y, hy, us, rfl, rfl⟩ := h
                  exact .fixed (subZip_good (fun t ht s hs u hu => hn t s u (gt t ht) (gs s hs) hu) hy)
          · next a b =>
            cases gt with
            | arb gt => cases gs with
              | arb gs =>
                cases hx
                simp only [Option.map_eq_some_iff] at h
                obtain ⟨y, hy, us, rfl, rfl⟩ := h
                exact .arb (hn _ _ us gt gs hy)
          · next b ts =>
            cases gt with
            | arb gt => cases gs with
              | fixed gs =>
                cases hx
                simp only [Option.map_eq_some_iff] at h
                obtain ⟨y, hy, us, rfl, rfl⟩ := h
                refine .fixed (subZip_good (fun t ht s hs u hu => ?_) hy)
                simp only [List.mem_map] at hs
                obtain ⟨_, _, rfl⟩ := hs
                exact hn t _ u (gs t ht) gt hu
          · next ts b =>
            cases gs with
            | arb gs => cases gt with
              | fixed gt =>
                cases hx
                simp only [Option.map_eq_some_iff] at h
                obtain ⟨y, hy, us, rfl, rfl⟩ := h
                refine .fixed (subZip_good (fun t ht s hs u hu => ?_) hy)
                simp only [List.mem_map] at hs
                obtain ⟨_, _, rfl⟩ := hs
                exact hn t _ u (gt t ht) gs hu
          · cases gs
          · cases gt
          · cases gt
          · cases gs
          · cases gt
          · cases hx
      · simp only [Option.bind_eq_some_iff] at h
        obtain ⟨m, -, h⟩ := h
        split at h
        · cases h; exact gt
        · simp only [Option.map_eq_some_iff] at h
          obtain ⟨m', -, h⟩ := h
          split at h
          · cases h; exact gs
          · cases h

theorem good_noAny {i : Bool} {t : Ty} (h : Good w p q i t) : python.go t = false := by
  have list : ∀ ts : List Ty, (∀ t ∈ ts, python.go t = false) → python.goList ts = false := by
    intro ts h
    induction ts with
    | nil => rfl
    | cons t ts ih =>
      simp only [python.goList, h t (.head _), ih fun t ht => h t (.tail _ ht), Bool.or_self]
  induction h with
  | never => rfl
  | none => rfl
  | lit _ => rfl
  | newType _ => rfl
  | @cls i c as hlen _ ih =>
    refine list _ fun t ht => ?_
    obtain ⟨k, hk⟩ := List.mem_iff_getElem?.mp ht
    have : k < (w.cls c).params.length := by
      have := (List.getElem?_eq_some_iff.mp hk).1; omega
    exact ih k t _ hk (List.getElem?_eq_getElem this)
  | @data i c as hlen _ _ ih =>
    refine list _ fun t ht => ?_
    obtain ⟨k, hk⟩ := List.mem_iff_getElem?.mp ht
    have : k < (w.cls c).params.length := by
      have := (List.getElem?_eq_some_iff.mp hk).1; omega
    exact ih k t _ hk (List.getElem?_eq_getElem this)
  | union _ _ _ ih => exact list _ ih
  | fixed _ ih => exact list _ ih
  | arb _ ih => exact ih
  | unpack _ _ _ _ _ _ ih1 ih2 ih3 => simp [python.go, list _ ih1, ih2, list _ ih3]
  | type _ ih => exact ih

theorem clear_python {su : Ty → Ty → Ty} {joins : Bool} {n : Nat} :
    Clear (python w su joins n) (Good w p q true) := fun k hk =>
  ⟨by
    have : k ≠ .any := by rintro rfl; cases hk
    simp [python, this], good_noAny hk⟩

theorem cmp_python {su : Ty → Ty → Ty} {joins : Bool} {n : Nat} {v : Variance} {t s : Ty}
    (h : ((python w su joins n).cmp v t s).bool = true) :
    ∃ m, Verif.Sub.matches w n v false t s = some m ∧ m.bool = true := by
  simp only [python] at h
  cases hm : Verif.Sub.matches w n v false t s with
  | none => rw [hm] at h; cases h
  | some m => rw [hm] at h; exact ⟨m, rfl, h⟩

/-- Without `use_joins`, the operations are right. -/
theorem right_python (hl : Lawful w M) (ht : Tame w p q) {su : Ty → Ty → Ty}
    (hu : Unites w M p q su) (n : Nat) :
    Right (python w su false n) M.mem (Good w p q true) where
  super := by
    intro a b ga gb h
    obtain ⟨m, hm, hb⟩ := cmp_python h
    cases n with
    | zero => simp [Verif.Sub.matches] at hm
    | succ n => exact (sound hl ht n).super false a b m ga.weaken gb.weaken (by simpa [Verif.Sub.matches] using hm) hb
  same := by
    intro a b ga gb h
    obtain ⟨m, hm, hb⟩ := cmp_python h
    cases n with
    | zero => simp [Verif.Sub.matches] at hm
    | succ n => exact (sound hl ht n).same false a b m ga gb (by simpa [Verif.Sub.matches] using hm) hb
  under := by
    intro a b ga gb h
    obtain ⟨m, hm, hb⟩ := cmp_python h
    cases n with
    | zero => simp [Verif.Sub.matches] at hm
    | succ n => exact (sound hl ht n).super true b a m gb.weaken ga.weaken (by simpa [Verif.Sub.matches] using hm) hb
  base := by
    intro a b r ga gb h
    cases h
    exact ⟨hu.good a b ga gb, fun v hv => (hu.mem a b v ga gb).mpr (.inl hv),
      fun v hv => (hu.mem a b v ga gb).mpr (.inr hv)⟩
  sub := by
    intro a b r ga gb h
    have h : commonSub w n a b = some (some r) := by
      simp only [python] at h
      cases hc : commonSub w n a b with
      | none => rw [hc] at h; cases h
      | some x => rw [hc] at h; exact congrArg some h
    have lo := common_sub_lower_partial hl ht ga.weaken gb.weaken h
    exact ⟨commonSub_good n n (Nat.le_refl _) a b r ga gb h, lo.1, lo.2⟩

theorem least_python {su : Ty → Ty → Ty} (hu : Unites w M p q su) (n : Nat) :
    Least (python w su false n) M.mem (Good w p q true) := by
  intro a b r c ga gb _ h h1 h2 v hv
  cases h
  exact ((hu.mem a b v ga gb).mp hv).elim (h1 v) (h2 v)

end Verif.Solve
