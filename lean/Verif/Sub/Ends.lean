import Verif.Sub.AnyNever

/-! # The comparison ends in layered worlds -/

namespace Verif.Sub

open Verif.Match

/-- From some fuel on there is a result, and it stays the same. -/
def Ends {α : Type} (f : Nat → Option α) : Prop := ∃ n x, ∀ k, n ≤ k → f k = some x

section
variable {α β : Type}

theorem Ends.now (x : α) : Ends (fun _ => some x) := ⟨0, x, fun _ _ => rfl⟩

theorem Ends.succ {f : Nat → Option α} (h : Ends (fun k => f (k + 1))) : Ends f := by
  obtain ⟨n, x, h⟩ := h
  refine ⟨n + 1, x, fun k hk => ?_⟩
  obtain ⟨j, rfl⟩ : ∃ j, k = j + 1 := ⟨k - 1, by omega⟩
  exact h j (by omega)

theorem Ends.bind {f : Nat → Option α} {g : α → Nat → Option β} (hf : Ends f)
    (hg : ∀ x, Ends (g x)) : Ends (fun k => (f k).bind (fun x => g x k)) := by
  obtain ⟨n, x, h⟩ := hf
  obtain ⟨n', y, h'⟩ := hg x
  refine ⟨max n n', y, fun k hk => ?_⟩
  simp only [h k (by omega), Option.bind_some]
  exact h' k (by omega)

theorem Ends.map {f : Nat → Option α} {g : α → β} (hf : Ends f) :
    Ends (fun k => (f k).map g) := by
  obtain ⟨n, x, h⟩ := hf
  exact ⟨n, g x, fun k hk => by simp only [h k hk, Option.map_some]⟩

theorem Ends.ite {c : Prop} [Decidable c] {f g : Nat → Option α} (hf : Ends f) (hg : Ends g) :
    Ends (fun k => if c then f k else g k) := by
  by_cases h : c
  · simp only [if_pos h]; exact hf
  · simp only [if_neg h]; exact hg
end

theorem ends_orM {m : Match} {g : Nat → Option Match} (h : Ends g) :
    Ends (fun k => orM m (fun _ => g k)) := by
  unfold orM
  exact .ite (.now m) (.map h)

section
variable {f : Nat → Ty → Option Match}

theorem ends_allM : ∀ {ts : List Ty}, (∀ t ∈ ts, Ends (fun k => f k t)) → ∀ r,
    Ends (fun k => allM (f k) r ts)
  | [], _, r => .now r
  | t :: ts, h, r => .bind (h t (by simp)) (fun m =>
      .ite (ends_allM (fun t ht => h t (by simp [ht])) _) (.now _))

theorem ends_anyM : ∀ {ts : List Ty}, (∀ t ∈ ts, Ends (fun k => f k t)) → ∀ r,
    Ends (fun k => anyM (f k) r ts)
  | [], _, r => .now r
  | t :: ts, h, r => .bind (h t (by simp)) (fun m =>
      .ite (.now _) (ends_anyM (fun t ht => h t (by simp [ht])) _))

theorem ends_foldM : ∀ {ts : List Ty}, (∀ t ∈ ts, Ends (fun k => f k t)) → ∀ r,
    Ends (fun k => foldM (f k) r ts)
  | [], _, r => .now r
  | t :: ts, h, r => .bind (h t (by simp)) (fun m => ends_foldM (fun t ht => h t (by simp [ht])) _)

theorem ends_allB : ∀ {ts : List Ty}, (∀ t ∈ ts, Ends (fun k => f k t)) →
    Ends (fun k => allB (f k) ts)
  | [], _ => .now _
  | t :: ts, h => .bind (h t (by simp)) (fun m =>
      .ite (ends_allB (fun t ht => h t (by simp [ht]))) (.now _))

theorem ends_mroM : ∀ {ts : List Ty}, (∀ t ∈ ts, Ends (fun k => f k t)) →
    Ends (fun k => mroM (f k) ts)
  | [], _ => .now _
  | t :: ts, h => .bind (h t (by simp)) (fun m =>
      .ite (ends_mroM (fun t ht => h t (by simp [ht]))) (.now _))
end

theorem ends_zipM {f : Nat → Ty → Ty → Option Match} : ∀ {as bs : List Ty},
    (∀ a ∈ as, ∀ b ∈ bs, Ends (fun k => f k a b)) → ∀ r, Ends (fun k => zipM (f k) r as bs)
  | [], _, _, r => by simp only [zipM]; exact .now r
  | _ :: _, [], _, r => by simp only [zipM]; exact .now r
  | a :: as, b :: bs, h, r => .bind (h a (by simp) b (by simp)) (fun m =>
      ends_zipM (fun a ha b hb => h a (by simp [ha]) b (by simp [hb])) _)

theorem ends_zipV {f : Nat → Variance → Ty → Ty → Option Match} :
    ∀ {as bs : List Ty} {vs : List Variance},
    (∀ v, ∀ a ∈ as, ∀ b ∈ bs, Ends (fun k => f k v a b)) → ∀ r,
      Ends (fun k => zipV (f k) r as bs vs)
  | [], _, _, _, r => by simp only [zipV]; exact .now r
  | _ :: _, [], _, _, r => by simp only [zipV]; exact .now r
  | _ :: _, _ :: _, [], _, r => by simp only [zipV]; exact .now r
  | a :: as, b :: bs, v :: vs, h, r => .bind (h v a (by simp) b (by simp)) (fun m =>
      ends_zipV (fun v a ha b hb => h v a (by simp [ha]) b (by simp [hb])) _)

/-! ## Heights -/

section
variable {w : World} {h : Heights} {r : Nat → Nat}

theorem tys_pos : ∀ ts, 1 ≤ h.tys w ts
  | [] => by simp [Heights.tys]
  | t :: ts => by simp only [Heights.tys]; have := tys_pos ts; omega

theorem tys_mem : ∀ {ts : List Ty} {t : Ty}, t ∈ ts → h.ty w t + 1 ≤ h.tys w ts
  | [], t, ht => absurd ht (by simp)
  | a :: ts, t, ht => by
    simp only [Heights.tys]
    rcases List.mem_cons.mp ht with rfl | ht
    · omega
    · have := tys_mem ht; omega

theorem parts_lower {t a : Ty} (ha : a ∈ t.parts) : h.ty w a < h.ty w t := by
  cases t with
  | cls c as => have := tys_mem (w := w) (h := h) ha; simp only [Heights.ty, Ty.parts] at *; omega
  | data c as => have := tys_mem (w := w) (h := h) ha; simp only [Heights.ty, Ty.parts] at *; omega
  | union ts => have := tys_mem (w := w) (h := h) ha; simp only [Heights.ty, Ty.parts] at *; omega
  | fixed ts => have := tys_mem (w := w) (h := h) ha; simp only [Heights.ty, Ty.parts] at *; omega
  | arb t =>
    simp only [Ty.parts, List.mem_singleton] at ha
    subst ha; simp only [Heights.ty]; omega
  | type t =>
    simp only [Ty.parts, List.mem_singleton] at ha
    subst ha; simp only [Heights.ty]; omega
  | unpack x y z =>
    simp only [Ty.parts, List.mem_append, List.mem_cons] at ha
    simp only [Heights.ty]
    rcases ha with ha | rfl | ha
    · have := tys_mem (w := w) (h := h) ha; omega
    · omega
    · have := tys_mem (w := w) (h := h) ha; omega
  | _ => simp [Ty.parts] at ha

mutual
theorem ty_subst (as : List Ty) : ∀ t : Ty, h.ty w (t.subst as) + 1 ≤ h.ty w t + h.tys w as
  | .any | .never | .none => by
    have := tys_pos (w := w) (h := h) as
    simp only [Ty.subst, Heights.ty]; omega
  | .lit l => by
    have := tys_pos (w := w) (h := h) as
    cases l <;> simp only [Ty.subst, Heights.ty] <;> omega
  | .newType i => by
    have := tys_pos (w := w) (h := h) as
    simp only [Ty.subst]; omega
  | .cls c bs | .data c bs => by
    have := tys_substs as bs
    simp only [Ty.subst, Heights.ty]; omega
  | .union ts => by
    have := tys_substs as ts
    simp only [Ty.subst, Heights.ty]; omega
  | .fixed ts => by
    have := tys_substs as ts
    simp only [Ty.subst, Heights.ty]; omega
  | .arb t => by
    have := ty_subst as t
    have := tys_pos (w := w) (h := h) as
    simp only [Ty.subst, Heights.ty]; omega
  | .unpack a b c => by
    have := tys_substs as a
    have := ty_subst as b
    have := tys_substs as c
    simp only [Ty.subst, Heights.ty]; omega
  | .type t => by
    have := ty_subst as t
    simp only [Ty.subst, Heights.ty]; omega
  | .var n => by
    have h1 := tys_pos (w := w) (h := h) as
    simp only [Ty.subst, Heights.ty, List.getD_eq_getElem?_getD]
    cases hn : as[n]? with
    | none => simp only [Option.getD_none, Heights.ty]; omega
    | some a =>
      have := tys_mem (w := w) (h := h) (List.mem_of_getElem? hn)
      simp only [Option.getD_some]; omega

theorem tys_substs (as : List Ty) : ∀ ts : List Ty,
    h.tys w (substs as ts) + 1 ≤ h.tys w ts + h.tys w as
  | [] => by
    have := tys_pos (w := w) (h := h) as
    simp only [substs, Heights.tys]; omega
  | t :: ts => by
    have := ty_subst as t
    have := tys_substs as ts
    simp only [substs, Heights.tys]; omega
end

theorem substs_map (as : List Ty) : ∀ ts, substs as ts = ts.map (Ty.subst as)
  | [] => rfl
  | t :: ts => by simp [substs, substs_map as ts]

theorem parts_subst {b : Ty} (hb : b.nominal = true) (as : List Ty) :
    (b.subst as).parts = b.parts.map (Ty.subst as) := by
  cases b <;> simp [Ty.nominal] at hb <;> simp [Ty.subst, Ty.parts, substs_map]

theorem bases_parts (hw : Layered w h r) {c : Nat} {as : List Ty} {b : Ty}
    (hb : b ∈ bases w c as) : b.nominal = true ∧ ∀ x ∈ b.parts, h.ty w x ≤ h.cls c + h.tys w as := by
  obtain ⟨b', h1, rfl⟩ := List.mem_map.mp hb
  have hn := hw.nominal c b' h1
  refine ⟨subst_nominal as hn, fun x hx => ?_⟩
  rw [parts_subst hn as] at hx
  obtain ⟨x', h2, rfl⟩ := List.mem_map.mp hx
  have := hw.args c b' h1 x' h2
  have := ty_subst (w := w) (h := h) as x'
  omega

/-- The other types of the mro. -/
theorem mro_parts (hw : Layered w h r) {s b : Ty} (hb : b ∈ mro w s) :
    b = s ∨ (b.nominal = true ∧ ∀ x ∈ b.parts, h.ty w x ≤ h.ty w s) := by
  have obj : (Ty.cls w.object []).nominal = true ∧
      ∀ x ∈ (Ty.cls w.object []).parts, h.ty w x ≤ h.ty w s := ⟨rfl, by simp [Ty.parts]⟩
  have of : ∀ {c : Nat} {as : List Ty}, h.cls c + h.tys w as ≤ h.ty w s → b ∈ bases w c as →
      (b.nominal = true ∧ ∀ x ∈ b.parts, h.ty w x ≤ h.ty w s) := by
    intro c as hle hb
    obtain ⟨h1, h2⟩ := bases_parts hw hb
    exact ⟨h1, fun x hx => Nat.le_trans (h2 x hx) hle⟩
  cases s with
  | cls c as =>
    simp only [mro, List.cons_append, List.mem_cons, List.mem_append, List.not_mem_nil,
      or_false] at hb
    rcases hb with rfl | hb | rfl
    · exact Or.inl rfl
    · exact Or.inr (of (by simp [Heights.ty]) hb)
    · exact Or.inr obj
  | data c as =>
    simp only [mro, List.cons_append, List.mem_cons, List.mem_append, List.not_mem_nil,
      or_false] at hb
    rcases hb with rfl | hb | rfl
    · exact Or.inl rfl
    · exact Or.inr (of (by simp [Heights.ty]) hb)
    · exact Or.inr obj
  | lit l =>
    simp only [mro, List.cons_append, List.mem_cons, List.mem_append, List.not_mem_nil,
      or_false] at hb
    rcases hb with rfl | rfl | hb | rfl
    · exact Or.inl rfl
    · exact Or.inr ⟨rfl, by simp [Ty.parts]⟩
    · exact Or.inr (of (by cases l <;> simp [Heights.ty, fallback, Heights.tys]) hb)
    · exact Or.inr obj
  | fixed ts =>
    simp only [mro, List.cons_append, List.mem_cons, List.mem_append, List.not_mem_nil,
      or_false] at hb
    rcases hb with rfl | hb | rfl
    · exact Or.inl rfl
    · have := hw.join ts
      have := tys_pos (w := w) (h := h) ts
      exact Or.inr (of (by simp only [Heights.ty, Heights.tys]; omega) hb)
    · exact Or.inr obj
  | arb t =>
    simp only [mro, List.cons_append, List.mem_cons, List.mem_append, List.not_mem_nil,
      or_false] at hb
    rcases hb with rfl | hb | rfl
    · exact Or.inl rfl
    · have := hw.join [t]
      simp only [Heights.tys] at this
      exact Or.inr (of (by simp only [Heights.ty, Heights.tys]; omega) hb)
    · exact Or.inr obj
  | unpack x y z =>
    simp only [mro, List.cons_append, List.mem_cons, List.mem_append, List.not_mem_nil,
      or_false] at hb
    rcases hb with rfl | hb | rfl
    · exact Or.inl rfl
    · have h1 := hw.join (x ++ y :: z)
      have h2 : ∀ x, h.tys w (x ++ y :: z) ≤
          max (h.tys w x) (max (h.ty w y + 1) (h.tys w z)) := by
        intro x
        induction x with
        | nil => simp only [List.nil_append, Heights.tys]; omega
        | cons a x ih => simp only [List.cons_append, Heights.tys]; omega
      have := h2 x
      have := tys_pos (w := w) (h := h) x
      exact Or.inr (of (by simp only [Heights.ty, Heights.tys]; omega) hb)
    · exact Or.inr obj
  | any | never | none | newType _ | union _ | type _ | var _ =>
    simp only [mro, List.mem_cons, List.not_mem_nil, or_false] at hb
    rcases hb with rfl | rfl
    · exact Or.inl rfl
    · exact Or.inr obj

end

end Verif.Sub
