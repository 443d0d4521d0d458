import Verif.Sub.Spec

/-! # Lemmas about the loops -/

namespace Verif.Sub

open Verif.Match

theorem and_true {a b : Match} : (a.and b).bool = true ↔ a.bool = true ∧ b.bool = true := by
  rcases a with ⟨(_ | _), r⟩ | (_ | _) <;> rcases b with ⟨(_ | _), r'⟩ | (_ | _) <;>
    simp [Match.and, Match.bool]

theorem similar_true {a : Match} : a.similarIfFalse.bool = a.bool := by
  rcases a with ⟨(_ | _), r⟩ | (_ | _) <;> rfl

theorem or_true {a b : Match} : (a.or b).bool = true → a.bool = true ∨ b.bool = true := by
  unfold Match.or
  intro h
  split at h
  · exact Or.inl ‹_›
  · split at h
    · exact Or.inr h
    · exact Or.inl h

theorem ofBool_true {b : Bool} : (ofBool b).bool = true ↔ b = true := by
  cases b <;> simp [ofBool, Match.bool, Match.newTrue, Match.newFalse]

theorem ofBoolAny_true {b : Bool} : (ofBoolAny b).bool = true ↔ b = true := by
  cases b <;> simp [ofBoolAny, Match.bool, Match.newFalse]

theorem newFalse_bool : Match.newFalse.bool = false := rfl

theorem newTrue_bool : Match.newTrue.bool = true := rfl

theorem orM_true {m r : Match} {g : Unit → Option Match} (h : orM m g = some r)
    (hr : r.bool = true) : m.bool = true ∨ ∃ m', g () = some m' ∧ m'.bool = true := by
  unfold orM at h
  split at h
  · exact Or.inl ‹_›
  · cases hg : g () with
    | none => rw [hg] at h; cases h
    | some m' =>
      rw [hg] at h
      simp only [Option.map_some, Option.some.injEq] at h
      subst h
      rcases or_true hr with h | h
      · exact Or.inl h
      · exact Or.inr ⟨m', rfl, h⟩

theorem allM_true {f : Ty → Option Match} : ∀ {ts : List Ty} {r m : Match},
    allM f r ts = some m → m.bool = true →
    r.bool = true ∧ ∀ t ∈ ts, ∃ m', f t = some m' ∧ m'.bool = true
  | [], r, m, h, hm => by
    simp only [allM, Option.some.injEq] at h
    subst h
    exact ⟨hm, fun t ht => absurd ht (by simp)⟩
  | t :: ts, r, m, h, hm => by
    simp only [allM] at h
    cases hf : f t with
    | none => rw [hf] at h; cases h
    | some m' =>
      rw [hf] at h
      simp only [Option.bind_some] at h
      split at h
      · obtain ⟨h1, h2⟩ := allM_true h hm
        obtain ⟨h3, h4⟩ := and_true.mp h1
        refine ⟨h3, fun t' ht' => ?_⟩
        rcases List.mem_cons.mp ht' with rfl | ht'
        · exact ⟨m', hf, h4⟩
        · exact h2 t' ht'
      · cases h; cases hm

theorem anyM_true {f : Ty → Option Match} : ∀ {ts : List Ty} {r m : Match},
    anyM f r ts = some m → m.bool = true → ts ≠ [] ∨ r.bool = false →
    ∃ t ∈ ts, ∃ m', f t = some m' ∧ m'.bool = true
  | [], r, m, h, hm, hn => by
    simp only [anyM, Option.some.injEq] at h
    subst h
    rcases hn with hn | hn
    · exact absurd rfl hn
    · rw [hm] at hn; cases hn
  | t :: ts, r, m, h, hm, hn => by
    simp only [anyM] at h
    cases hf : f t with
    | none => rw [hf] at h; cases h
    | some m' =>
      rw [hf] at h
      simp only [Option.bind_some] at h
      split at h
      · exact ⟨t, by simp, m', hf, ‹_›⟩
      · rename_i hb
        simp only [Bool.not_eq_true] at hb
        obtain ⟨t', h1, h2⟩ := anyM_true h hm (Or.inr (by
          split
          · rename_i hs
            rcases r with ⟨(_ | _), r⟩ | _ <;> simp_all [Match.isSimilar, Match.bool]
          · exact hb))
        exact ⟨t', by simp [h1], h2⟩

theorem zipM_true {f : Ty → Ty → Option Match} : ∀ {as bs : List Ty} {r m : Match},
    zipM f r as bs = some m → m.bool = true →
    r.bool = true ∧ ∀ (k : Nat) a b, as[k]? = some a → bs[k]? = some b →
      ∃ m', f a b = some m' ∧ m'.bool = true
  | [], bs, r, m, h, hm => by
    simp only [zipM, Option.some.injEq] at h
    subst h
    exact ⟨hm, fun k a b ha => by simp at ha⟩
  | a :: as, [], r, m, h, hm => by
    simp only [zipM, Option.some.injEq] at h
    subst h
    exact ⟨hm, fun k a b _ hb => by simp at hb⟩
  | a :: as, b :: bs, r, m, h, hm => by
    simp only [zipM] at h
    cases hf : f a b with
    | none => rw [hf] at h; cases h
    | some m' =>
      rw [hf] at h
      simp only [Option.bind_some] at h
      obtain ⟨h1, h2⟩ := zipM_true h hm
      obtain ⟨h3, h4⟩ := and_true.mp h1
      refine ⟨h3, fun k a' b' ha hb => ?_⟩
      cases k with
      | zero =>
        simp only [List.getElem?_cons_zero, Option.some.injEq] at ha hb
        subst ha; subst hb
        exact ⟨m', hf, h4⟩
      | succ k =>
        simp only [List.getElem?_cons_succ] at ha hb
        exact h2 k a' b' ha hb

theorem foldM_true {f : Ty → Option Match} : ∀ {as : List Ty} {r m : Match},
    foldM f r as = some m → m.bool = true →
    r.bool = true ∧ ∀ a ∈ as, ∃ m', f a = some m' ∧ m'.bool = true
  | [], r, m, h, hm => by
    simp only [foldM, Option.some.injEq] at h
    subst h
    exact ⟨hm, fun t ht => absurd ht (by simp)⟩
  | a :: as, r, m, h, hm => by
    simp only [foldM] at h
    cases hf : f a with
    | none => rw [hf] at h; cases h
    | some m' =>
      rw [hf] at h
      simp only [Option.bind_some] at h
      obtain ⟨h1, h2⟩ := foldM_true h hm
      obtain ⟨h3, h4⟩ := and_true.mp h1
      refine ⟨h3, fun t' ht' => ?_⟩
      rcases List.mem_cons.mp ht' with rfl | ht'
      · exact ⟨m', hf, h4⟩
      · exact h2 t' ht'

theorem zipV_true {f : Variance → Ty → Ty → Option Match} :
    ∀ {as bs : List Ty} {vs : List Variance} {r m : Match},
    zipV f r as bs vs = some m → m.bool = true →
    r.bool = true ∧ ∀ (k : Nat) v a b, vs[k]? = some v → as[k]? = some a → bs[k]? = some b →
      ∃ m', f v a b = some m' ∧ m'.bool = true
  | [], bs, vs, r, m, h, hm => by
    simp only [zipV, Option.some.injEq] at h
    subst h
    exact ⟨hm, fun k v a b _ ha => by simp at ha⟩
  | a :: as, [], vs, r, m, h, hm => by
    simp only [zipV, Option.some.injEq] at h
    subst h
    exact ⟨hm, fun k v a b _ _ hb => by simp at hb⟩
  | a :: as, b :: bs, [], r, m, h, hm => by
    simp only [zipV, Option.some.injEq] at h
    subst h
    exact ⟨hm, fun k v a b hv => by simp at hv⟩
  | a :: as, b :: bs, v :: vs, r, m, h, hm => by
    simp only [zipV] at h
    cases hf : f v a b with
    | none => rw [hf] at h; cases h
    | some m' =>
      rw [hf] at h
      simp only [Option.bind_some] at h
      obtain ⟨h1, h2⟩ := zipV_true h hm
      obtain ⟨h3, h4⟩ := and_true.mp h1
      refine ⟨h3, fun k v' a' b' hv ha hb => ?_⟩
      cases k with
      | zero =>
        simp only [List.getElem?_cons_zero, Option.some.injEq] at ha hb hv
        subst ha; subst hb; subst hv
        exact ⟨m', hf, h4⟩
      | succ k =>
        simp only [List.getElem?_cons_succ] at ha hb hv
        exact h2 k v' a' b' hv ha hb

theorem allB_true {f : Ty → Option Match} : ∀ {ts : List Ty},
    allB f ts = some true → ∀ t ∈ ts, ∃ m', f t = some m' ∧ m'.bool = true
  | [], _, t, ht => absurd ht (by simp)
  | t :: ts, h, t', ht' => by
    simp only [allB] at h
    cases hf : f t with
    | none => rw [hf] at h; cases h
    | some m' =>
      rw [hf] at h
      simp only [Option.bind_some] at h
      split at h
      · rcases List.mem_cons.mp ht' with rfl | ht'
        · exact ⟨m', hf, ‹_›⟩
        · exact allB_true h t' ht'
      · cases h

theorem mroM_true {f : Ty → Option Match} : ∀ {ts : List Ty} {m : Match},
    mroM f ts = some m → m.bool = true → ∃ t ∈ ts, f t = some m
  | [], m, h, hm => by
    simp only [mroM, Option.some.injEq] at h
    subst h; cases hm
  | t :: ts, m, h, hm => by
    simp only [mroM] at h
    cases hf : f t with
    | none => rw [hf] at h; cases h
    | some m' =>
      rw [hf] at h
      simp only [Option.bind_some] at h
      split at h
      · obtain ⟨t', h1, h2⟩ := mroM_true h hm
        exact ⟨t', by simp [h1], h2⟩
      · cases h
        exact ⟨t, by simp, hf⟩

mutual
theorem Ty.beq_eq : ∀ {a b : Ty}, Ty.beq a b = true → a = b
  | .any, b => by cases b <;> simp [Ty.beq]
  | .never, b => by cases b <;> simp [Ty.beq]
  | .none, b => by cases b <;> simp [Ty.beq]
  | .cls c as, b => by
    cases b <;> simp only [Ty.beq, Bool.false_eq_true, false_implies, Bool.and_eq_true, beq_iff_eq]
    rintro ⟨rfl, h⟩
    rw [beqs_eq h]
  | .data c as, b => by
    cases b <;> simp only [Ty.beq, Bool.false_eq_true, false_implies, Bool.and_eq_true, beq_iff_eq]
    rintro ⟨rfl, h⟩
    rw [beqs_eq h]
  | .lit l, b => by cases b <;> simp [Ty.beq]
  | .union as, b => by
    cases b <;> simp only [Ty.beq, Bool.false_eq_true, false_implies]
    intro h
    rw [beqs_eq h]
  | .fixed as, b => by
    cases b <;> simp only [Ty.beq, Bool.false_eq_true, false_implies]
    intro h
    rw [beqs_eq h]
  | .arb a, b => by
    cases b <;> simp only [Ty.beq, Bool.false_eq_true, false_implies]
    intro h
    rw [Ty.beq_eq h]
  | .unpack a b c, d => by
    cases d <;> simp only [Ty.beq, Bool.false_eq_true, false_implies, Bool.and_eq_true]
    rintro ⟨⟨h1, h2⟩, h3⟩
    rw [beqs_eq h1, Ty.beq_eq h2, beqs_eq h3]
  | .type a, b => by
    cases b <;> simp only [Ty.beq, Bool.false_eq_true, false_implies]
    intro h
    rw [Ty.beq_eq h]
  | .newType i, b => by cases b <;> simp [Ty.beq]
  | .var n, b => by cases b <;> simp [Ty.beq]

theorem beqs_eq : ∀ {as bs : List Ty}, beqs as bs = true → as = bs
  | [], [] => fun _ => rfl
  | [], b :: bs => by simp [beqs]
  | a :: as, [] => by simp [beqs]
  | a :: as, b :: bs => by
    simp only [beqs, Bool.and_eq_true]
    rintro ⟨h1, h2⟩
    rw [Ty.beq_eq h1, beqs_eq h2]
end

mutual
theorem Ty.beq_refl : ∀ a : Ty, Ty.beq a a = true
  | .any | .never | .none => rfl
  | .cls c as | .data c as => by simp [Ty.beq, beqs_refl as]
  | .lit l => by simp [Ty.beq]
  | .union as | .fixed as => by simp [Ty.beq, beqs_refl as]
  | .arb a | .type a => by simp [Ty.beq, Ty.beq_refl a]
  | .unpack a b c => by simp [Ty.beq, beqs_refl a, Ty.beq_refl b, beqs_refl c]
  | .newType i => by simp [Ty.beq]
  | .var n => by simp [Ty.beq]

theorem beqs_refl : ∀ as : List Ty, beqs as as = true
  | [] => rfl
  | a :: as => by simp [beqs, Ty.beq_refl a, beqs_refl as]
end

instance : DecidableEq Ty := fun a b =>
  if h : Ty.beq a b = true then .isTrue (Ty.beq_eq h)
  else .isFalse (fun e => h (e ▸ Ty.beq_refl a))

end Verif.Sub
