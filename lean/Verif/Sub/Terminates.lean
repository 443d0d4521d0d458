import Verif.Sub.Ends

/-! # The comparison ends in layered worlds: induction over the heights -/

namespace Verif.Sub

open Verif.Match

variable {w : World} {h : Heights} {r : Nat → Nat}

/-- All comparisons of types that are together lower than `N` end. -/
def Below (w : World) (h : Heights) (N : Nat) : Prop := ∀ t s, h.ty w t + h.ty w s < N → ∀ rev,
  Ends (fun k => isSuper w k rev t s) ∧ Ends (fun k => isSame w k rev t s)

theorem Below.matches {N : Nat} (ih : Below w h N) {t s : Ty} (hts : h.ty w t + h.ty w s < N)
    (v : Variance) (rev : Bool) : Ends (fun k => Verif.Sub.matches w k v rev t s) := by
  refine .succ ?_
  cases v <;> simp only [Verif.Sub.matches]
  · exact (ih t s hts rev).1
  · exact (ih s t (by omega) (!rev)).1
  · exact (ih t s hts rev).2

theorem ends_matchesClass {N : Nat} (ih : Below w h N) {c d : Nat} {as bs : List Ty}
    (hab : ∀ a ∈ as, ∀ b ∈ bs, h.ty w a + h.ty w b < N) (v : Variance) (rev : Bool) :
    Ends (fun k => matchesClass w k v rev c as d bs) := by
  refine .succ ?_
  simp only [matchesClass]
  exact .ite (.now _) (.ite (.now _) (.map (ends_zipV
    (f := fun k p a b => argMatches (fun v rev a b => «matches» w k v rev a b) rev
      (argVariance v p) a b)
    (fun p a ha b hb => .ite (ih.matches (by have := hab a ha b hb; omega) _ _)
      (ih.matches (hab a ha b hb) _ _)) _)))

theorem ends_matchUnpack {N : Nat} (ih : Below w h N) {a : List Ty} {b : Ty} {c : List Ty} {s : Ty}
    (hab : ∀ x ∈ (Ty.unpack a b c).parts, ∀ y ∈ s.parts, h.ty w x + h.ty w y < N) (v : Variance)
    (rev : Bool) : Ends (fun k => matchUnpack w k v rev a b c s) := by
  refine .succ ?_
  have hm : ∀ x ∈ (Ty.unpack a b c).parts, ∀ y ∈ s.parts,
      Ends (fun k => «matches» w k v rev x y) := fun x hx y hy => ih.matches (hab x hx y hy) _ _
  unfold matchUnpack
  cases s with
  | fixed ss =>
    simp only
    refine .bind (ends_zipM (f := fun k a b => «matches» w k v rev a b)
      (fun x hx y hy => hm x (by simp [Ty.parts, hx]) y hy) _) (fun _ => ?_)
    refine .bind (ends_zipM (f := fun k a b => «matches» w k v rev a b)
      (fun x hx y hy => hm x ?_ y ?_) _) (fun _ => ?_)
    · simp only [List.mem_reverse] at hx; simp [Ty.parts, hx]
    · simp only [List.mem_reverse] at hy; exact List.mem_of_mem_drop hy
    · exact .ite (.now _) (ends_foldM (f := fun k y => «matches» w k v rev b y)
        (fun y hy => hm b (by simp [Ty.parts]) y
          (List.mem_of_mem_drop (List.mem_of_mem_take hy))) _)
  | unpack a2 b2 c2 =>
    simp only
    refine .bind (ends_zipM (f := fun k a b => «matches» w k v rev a b)
      (fun x hx y hy => hm x (by simp [Ty.parts, hx]) y (by simp [Ty.parts, hy])) _) (fun _ => ?_)
    refine .bind (ends_zipM (f := fun k a b => «matches» w k v rev a b)
      (fun x hx y hy => hm x ?_ y ?_) _) (fun _ => ?_)
    · simp only [List.mem_reverse] at hx; simp [Ty.parts, hx]
    · simp only [List.mem_reverse] at hy; simp [Ty.parts, hy]
    · refine ends_foldM (f := fun k y => «matches» w k v rev b y) (fun y hy =>
        hm b (by simp [Ty.parts]) y ?_) _
      simp only [List.mem_append, List.mem_singleton] at hy
      rcases hy with (hy | hy) | rfl
      · have := List.mem_of_mem_drop hy; simp [Ty.parts, this]
      · have := List.mem_of_mem_take hy; simp [Ty.parts, this]
      · simp [Ty.parts]
  | arb b => exact .ite (.now _) (.now _)
  | _ => exact .now _

theorem ends_matchTuple {N : Nat} (ih : Below w h N) {t s : Ty}
    (hab : ∀ x ∈ t.parts, ∀ y ∈ s.parts, h.ty w x + h.ty w y < N) (v : Variance)
    (rev : Bool) : Ends (fun k => matchTuple w k v rev t s) := by
  refine .succ ?_
  have hm : ∀ x ∈ t.parts, ∀ y ∈ s.parts,
      Ends (fun k => «matches» w k v rev x y) := fun x hx y hy => ih.matches (hab x hx y hy) _ _
  unfold matchTuple
  split
  · exact .ite (ends_zipM (f := fun k a b => «matches» w k v rev a b) hm _) (.now _)
  · exact hm _ (by simp [Ty.parts]) _ (by simp [Ty.parts])
  · exact ends_matchUnpack ih hab v rev
  · exact ends_foldM (f := fun k y => «matches» w k v rev _ y)
      (fun y hy => hm _ (by simp [Ty.parts]) y hy) _
  · exact .now _
  · exact .ite (.now _) (.map (ends_allB (f := fun k y => «matches» w k v rev _ y)
      (fun y hy => hm _ (by simp [Ty.parts]) y hy)))
  · exact .now _

/-- Two types with classes. -/
theorem ends_internal_nominal {N : Nat} (ih : Below w h N) {t s : Ty} (ht : t.nominal = true)
    (hs : s.nominal = true) (hab : ∀ x ∈ t.parts, ∀ y ∈ s.parts, h.ty w x + h.ty w y < N)
    (v : Variance) (rev : Bool) : Ends (fun k => internal w k v rev t s) := by
  refine .succ ?_
  cases t <;> simp [Ty.nominal] at ht <;> unfold internal <;> (try simp only)
  case cls c as =>
    refine .succ ?_
    cases s <;> simp [Ty.nominal] at hs <;> simp only [classVsType]
    case cls d bs => exact ends_matchesClass ih hab v rev
    all_goals exact .now _
  case data c as =>
    cases s <;> simp [Ty.nominal] at hs <;> simp only
    case data d bs => exact ends_matchesClass ih hab .cov rev
    all_goals exact .now _
  all_goals
    cases s <;> simp [Ty.nominal] at hs <;> simp only
    case fixed => exact .map (ends_matchTuple ih hab v rev)
    case arb => exact .map (ends_matchTuple ih hab v rev)
    case unpack => exact .map (ends_matchTuple ih hab v rev)
    all_goals exact .now _

theorem ends_promoted (hw : Layered w h r) {t : Ty} (ht : t.nominal = true) (rev : Bool) :
    ∀ n c, r c ≤ n → Ends (fun k => promoted w k rev t c)
  | n, c, hc => by
    refine .succ ?_
    simp only [promoted]
    split
    · rename_i d hd
      have hr := hw.promote c d hd
      refine .bind ?_ (fun m => ends_orM ?_)
      · refine .succ ?_
        simp only [isSame]
        refine .bind (ends_internal_nominal (h := h) (N := 0) (fun _ _ h0 => by omega) ht rfl
          (by simp [Ty.parts]) _ _) (fun m => ends_orM ?_)
        refine .succ ?_
        simp only [other]
        exact .now _
      · match n, hc with
        | 0, hc => omega
        | n + 1, hc => exact ends_promoted hw ht rev n d (by omega)
    · exact .now _

theorem ends_unionSuper {N : Nat} (ih : Below w h N) {us : List Ty} (rev : Bool) : ∀ (n : Nat) (s : Ty),
    h.ty w s ≤ n → (∀ g ∈ us, h.ty w g + n < N) → Ends (fun k => unionSuper w k rev us s)
  | n, s, hn, hg => by
    have leaf : ∀ s, h.ty w s ≤ n →
        Ends (fun k => if s.beq (.cls w.bool []) && boolLits us == 2 then some Match.newTrue
          else anyM (fun g => isSuper w k rev g s) .newTrue us) := by
      intro s hs
      exact .ite (.now _) (ends_anyM (f := fun k g => isSuper w k rev g s)
        (fun g hgm => (ih g s (by have := hg g hgm; omega) rev).1) _)
    refine .succ ?_
    unfold unionSuper
    split
    · rename_i us2
      refine .ite (.now _) (ends_allM (f := fun k u => unionSuper w k rev us u) (fun u hu => ?_) _)
      have hl := parts_lower (w := w) (h := h) (t := .union us2) (a := u) hu
      match n, hn, hg with
      | 0, hn, _ => omega
      | n + 1, hn, hg =>
        exact ends_unionSuper ih rev n u (by omega) (fun g hgm => by have := hg g hgm; omega)
    · rename_i ts
      refine .succ ?_
      unfold unionSuper
      refine .ite (.now _) (ends_allM (f := fun k u => unionSuper w k rev us u) (fun u hu => ?_) _)
      obtain ⟨u', hu', rfl⟩ := List.mem_map.mp hu
      have hl := parts_lower (w := w) (h := h) (t := .union ts) (a := u') hu'
      simp only [Heights.ty] at hn hl
      match n, hn, hg with
      | 0, hn, _ => omega
      | n + 1, hn, hg =>
        exact ends_unionSuper ih rev n (.type u') (by simp only [Heights.ty]; omega) (fun g hgm => by have := hg g hgm; omega)
    · exact leaf s hn

theorem ends_other {N : Nat} (hw : Layered w h r) (ih : Below w h N) {t s : Ty}
    (hts : h.ty w t + h.ty w s ≤ N) (v : Variance) (rev : Bool)
    (hback : v = .inv → Ends (fun k => isSuper w k (!rev) s t)) :
    Ends (fun k => other w k v rev t s) := by
  refine .succ ?_
  unfold other
  split
  · exact .now _
  · exact .now _
  · rename_i us
    refine .ite (.now _) (.bind (ends_allM (f := fun k u => isSuper w k rev t u) (fun u hu => ?_) _)
      (fun m => ?_))
    · have hl := parts_lower (w := w) (h := h) (t := .union us) (a := u) hu
      exact (ih t u (by omega) rev).1
    · by_cases hv : v = .inv
      · simp only [if_pos hv]
        exact .map (hback hv)
      · simp only [if_neg hv]
        exact .now _
  · rename_i i
    have hl := hw.newBase i
    simp only [Heights.ty] at hts
    exact .ite (ih.matches (by omega) _ _) (.now _)
  · exact .now _
  · exact .now _

/-- The class of a comparison with a type that may have none. -/
theorem ends_classVsType {N : Nat} (hw : Layered w h r) (ih : Below w h N) {c : Nat} {as : List Ty}
    {s : Ty} (hts : h.ty w (.cls c as) + h.ty w s ≤ N) (v : Variance) (rev : Bool) :
    Ends (fun k => classVsType w k v rev c as s) := by
  refine .succ ?_
  unfold classVsType
  split
  · rename_i d bs
    refine ends_matchesClass ih (fun a ha b hb => ?_) v rev
    have := parts_lower (w := w) (h := h) (t := .cls c as) (a := a) ha
    have := parts_lower (w := w) (h := h) (t := .cls d bs) (a := b) hb
    omega
  · split
    · rename_i d ds
      split
      · rename_i m hm
        have hl := hw.metaclass d m hm
        have := tys_pos (w := w) (h := h) ds
        have hlow : h.ty w (.cls c as) + h.ty w (.cls m []) < N := by
          simp only [Heights.ty, Heights.tys] at hts ⊢; omega
        exact .ite (.now _) (.bind (ih.matches hlow v rev) (fun _ => ends_orM (.now _)))
      · exact .now _
    · exact .now _
  · exact .ite (ends_matchesClass ih (by simp) v rev) (.now _)
  · exact .now _
  · exact .now _

theorem tys_type_map : ∀ us : List Ty, h.tys w (us.map .type) ≤ h.tys w us + 1
  | [] => by simp [Heights.tys]
  | u :: us => by
    have := tys_type_map us
    simp only [List.map_cons, Heights.tys, Heights.ty]; omega

/-- A type with itself, for a type with a class. -/
theorem ends_internal_first {N : Nat} (hw : Layered w h r) (ih : Below w h N) {t s : Ty}
    (ht : t.nominal = true) (hts : h.ty w t + h.ty w s ≤ N) (v : Variance) (rev : Bool) :
    Ends (fun k => internal w k v rev t s) := by
  by_cases hs : s.nominal = true
  · refine ends_internal_nominal ih ht hs (fun x hx y hy => ?_) v rev
    have := parts_lower (w := w) (h := h) hx
    have := parts_lower (w := w) (h := h) hy
    omega
  · refine .succ ?_
    cases t <;> simp [Ty.nominal] at ht <;> unfold internal <;> (try simp only)
    case cls c as => exact ends_classVsType hw ih hts v rev
    all_goals
      cases s <;> simp [Ty.nominal] at hs
      all_goals exact .now _

/-- Covariantly, for a type without a class. -/
theorem ends_internal_cov {N : Nat} (ih : Below w h N) {t s : Ty}
    (ht : t.nominal = false) (hts : h.ty w t + h.ty w s ≤ N) (rev : Bool) :
    Ends (fun k => internal w k .cov rev t s) := by
  refine .succ ?_
  cases t <;> simp [Ty.nominal] at ht
  case union us =>
    unfold internal
    try simp only
    rw [show (fun k => if (Variance.cov = .inv) then (isSuper w k rev (.union us) s).bind fun m =>
      (isSuper w k (!rev) s (.union us)).map (Match.and m) else unionSuper w k rev us s) =
      (fun k => unionSuper w k rev us s) from by funext k; rw [if_neg (by simp)]]
    refine ends_unionSuper ih rev (h.ty w s) s (Nat.le_refl _) (fun g hg => ?_)
    have := parts_lower (w := w) (h := h) (t := .union us) (a := g) hg
    omega
  case type t1 =>
    unfold internal
    try simp only
    split
    · rename_i t2
      simp only [Heights.ty] at hts
      exact .ite (.now _) (.map (ih.matches (by omega) _ _))
    · rename_i us2
      split
      · rename_i us
        refine .succ ?_
        unfold internal
        try simp only
        rw [show (fun k => if (Variance.cov = .inv) then
          (isSuper w k rev (.union (us.map .type)) (.union us2)).bind fun m =>
          (isSuper w k (!rev) (.union us2) (.union (us.map .type))).map (Match.and m)
          else unionSuper w k rev (us.map .type) (.union us2)) =
          (fun k => unionSuper w k rev (us.map .type) (.union us2)) from by
            funext k; rw [if_neg (by simp)]]
        refine ends_unionSuper ih rev (h.ty w (.union us2)) _ (Nat.le_refl _) (fun g hg => ?_)
        obtain ⟨u, hu, rfl⟩ := List.mem_map.mp hg
        have := parts_lower (w := w) (h := h) (t := .union us) (a := u) hu
        simp only [Heights.ty] at hts this ⊢
        omega
      · exact .now _
    · exact .now _
    · exact .now _
  case lit l =>
    unfold internal
    try simp only
    split <;> exact .now _
  case newType l =>
    unfold internal
    try simp only
    split <;> exact .now _
  all_goals
    unfold internal
    try simp only
    exact .now _

theorem ends_super {N : Nat} (hw : Layered w h r) (ih : Below w h N) {t s : Ty}
    (hts : h.ty w t + h.ty w s ≤ N) (rev : Bool) : Ends (fun k => isSuper w k rev t s) := by
  have hother : Ends (fun k => other w k .cov rev t s) :=
    ends_other hw ih hts .cov rev (by simp)
  refine .succ ?_
  simp only [isSuper]
  by_cases ht : t.nominal = true
  · simp only [if_pos ht]
    refine .bind (ends_mroM (f := fun k b => internal w k .cov rev t b) (fun b hb => ?_))
      (fun m => .ite (.bind (ends_orM hother) (fun m' => ends_orM ?_)) (.now _))
    · rcases mro_parts hw hb with rfl | ⟨h1, h2⟩
      · exact ends_internal_first hw ih ht hts .cov rev
      · refine ends_internal_nominal ih ht h1 (fun x hx y hy => ?_) .cov rev
        have := parts_lower (w := w) (h := h) hx
        have := h2 y hy
        omega
    · refine .succ ?_
      unfold promotion
      split
      · exact .ite (.now _) (ends_promoted hw ht rev _ _ (Nat.le_refl _))
      · exact ends_promoted hw ht rev _ _ (Nat.le_refl _)
      · exact .now _
  · simp only [if_neg ht]
    exact .bind (ends_internal_cov ih (by simpa using ht) hts rev)
      (fun m => .ite hother (.now _))

theorem ends_same {N : Nat} (hw : Layered w h r) (ih : Below w h N) {t s : Ty}
    (hts : h.ty w t + h.ty w s ≤ N) (rev : Bool) : Ends (fun k => isSame w k rev t s) := by
  refine .succ ?_
  simp only [isSame]
  refine .bind ?_ (fun m => ends_orM
    (ends_other hw ih hts .inv rev (fun _ => ends_super hw ih (by omega) (!rev))))
  have un : ∀ (us : List Ty), h.ty w (.union us) + h.ty w s ≤ N →
      Ends (fun k => internal w k .inv rev (.union us) s) := by
    intro us hle
    refine .succ ?_
    simp only [internal, if_true]
    exact .bind (ends_super hw ih hle rev)
      (fun m => .map (ends_super hw ih (by omega) (!rev)))
  by_cases ht : t.nominal = true
  · exact ends_internal_first hw ih ht hts .inv rev
  · cases t <;> simp [Ty.nominal] at ht
    case union us => exact un us hts
    case type t1 =>
      refine .succ ?_
      unfold internal
      try simp only
      split
      · rename_i t2
        simp only [Heights.ty] at hts
        exact .ite (.now _) (.map (ih.matches (by omega) _ _))
      · rename_i us2
        split
        · rename_i us
          refine un _ ?_
          have := tys_type_map (w := w) (h := h) us
          simp only [Heights.ty] at hts ⊢
          omega
        · exact .now _
      · exact .now _
      · exact .now _
    case lit l =>
      refine .succ ?_
      unfold internal
      try simp only
      split <;> exact .now _
    case newType l =>
      refine .succ ?_
      unfold internal
      try simp only
      split <;> exact .now _
    all_goals
      refine .succ ?_
      unfold internal
      try simp only
      exact .now _

theorem all_below (hw : Layered w h r) : ∀ N, Below w h N
  | 0 => fun _ _ hlt => by omega
  | N + 1 => fun t s hlt rev =>
    ⟨ends_super hw (all_below hw N) (by omega) rev, ends_same hw (all_below hw N) (by omega) rev⟩

end Verif.Sub
