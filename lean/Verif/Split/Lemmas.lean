import Verif.Split.Spec

/-! # Lemmas about the narrowing by `isinstance` -/

namespace Verif.Split

variable {A V : Type} {w : World A} {mem inst : V → A → Prop} {num : V → Option Num}

theorem in_add (h : Sound w mem inst num) {v : V} {l r : List A} :
    In mem v (w.add l r) ↔ In mem v l ∨ In mem v r := by
  rw [World.add, h.simplify]
  simp only [In, List.mem_append]
  constructor
  · rintro ⟨t, h1 | h1, h2⟩
    · exact .inl ⟨t, h1, h2⟩
    · exact .inr ⟨t, h1, h2⟩
  · rintro (⟨t, h1, h2⟩ | ⟨t, h1, h2⟩)
    · exact ⟨t, .inl h1, h2⟩
    · exact ⟨t, .inr h1, h2⟩

theorem in_one {v : V} {t : A} : In mem v [t] ↔ mem v t := by simp [In]

theorem in_mem (h : Sound w mem inst num) {v : V} {ts : List A} (hv : In inst v ts) : In mem v ts :=
  let ⟨t, h1, h2⟩ := hv
  ⟨t, h1, h.instance_ v t h2⟩

/-! ## One type against all classes -/

/-- What one class does. -/
theorem look_keep (h : Sound w mem inst num) {v : V} {t i : A} {s : Found A}
    (hv : In mem v s.truthy) : In mem v (look w t s i).truthy := by
  unfold look
  split
  · exact hv
  · split
    · exact hv
    · split
      · exact hv
      · exact hv
      · split
        · exact (in_add h).mpr (.inl hv)
        · exact hv

theorem look_any {t i : A} {s : Found A} (hs : ∀ a, s.hadAny = some a → w.isAny a = true) :
    ∀ a, (look w t s i).hadAny = some a → w.isAny a = true := by
  unfold look
  split
  · exact hs
  · split
    · rename_i h; intro a ha; cases ha; exact h
    · split
      · exact hs
      · exact hs
      · split
        · exact hs
        · exact hs

theorem look_grows {t i : A} {s : Found A} :
    (s.matched = true → (look w t s i).matched = true) ∧
    (s.hadAny.isSome = true → (look w t s i).hadAny.isSome = true) := by
  unfold look
  split
  · exact ⟨fun _ => rfl, id⟩
  · split
    · exact ⟨id, fun _ => rfl⟩
    · split
      · exact ⟨fun _ => rfl, id⟩
      · exact ⟨fun _ => rfl, id⟩
      · split
        · exact ⟨id, id⟩
        · exact ⟨id, id⟩

/-- What is known after some classes. -/
def Settled (w : World A) (mem : V → A → Prop) (v : V) (s : Found A) : Prop :=
  s.matched = true ∨ s.hadAny.isSome = true ∨ In mem v s.truthy

theorem look_settled (h : Sound w mem inst num) {v : V} {t i : A} {s : Found A}
    (hs : Settled w mem v s) : Settled w mem v (look w t s i) := by
  rcases hs with h1 | h1 | h1
  · exact .inl (look_grows.1 h1)
  · exact .inr (.inl (look_grows.2 h1))
  · exact .inr (.inr (look_keep h h1))

theorem look_hit (h : Sound w mem inst num) {v : V} {t i : A} {s : Found A}
    (hv : mem v i) (hr : Related w t i) : Settled w mem v (look w t s i) := by
  unfold look
  split
  · exact .inl rfl
  · split
    · exact .inr (.inl rfl)
    · split
      · exact .inl rfl
      · exact .inl rfl
      · rename_i h1 h2 _ h3
        split
        · exact .inr (.inr ((in_add h).mpr (.inr (in_one.mpr hv))))
        · rename_i h4
          rcases hr with hr | hr | hr | hr
          · exact absurd h3 hr
          · exact absurd hr h4
          · exact absurd hr h1
          · exact absurd hr h2

theorem foldl_settled (h : Sound w mem inst num) {v : V} {t : A} :
    ∀ (is : List A) (s : Found A), Settled w mem v s → Settled w mem v (is.foldl (look w t) s)
  | [], _, hs => hs
  | _ :: is, _, hs => foldl_settled h is _ (look_settled h hs)

theorem foldl_hit (h : Sound w mem inst num) {v : V} {t i : A} (hv : mem v i) (hr : Related w t i) :
    ∀ (is : List A) (s : Found A), i ∈ is → Settled w mem v (is.foldl (look w t) s)
  | [], _, hi => by simp at hi
  | j :: is, s, hi => by
    rcases List.mem_cons.mp hi with rfl | hi
    · exact foldl_settled h is _ (look_hit h hv hr)
    · exact foldl_hit h hv hr is _ hi

theorem foldl_keep (h : Sound w mem inst num) {v : V} {t : A} :
    ∀ (is : List A) (s : Found A), In mem v s.truthy → In mem v (is.foldl (look w t) s).truthy
  | [], _, hs => hs
  | _ :: is, _, hs => foldl_keep h is _ (look_keep h hs)

theorem foldl_any {t : A} : ∀ (is : List A) (s : Found A),
    (∀ a, s.hadAny = some a → w.isAny a = true) →
    ∀ a, (is.foldl (look w t) s).hadAny = some a → w.isAny a = true
  | [], _, hs => hs
  | _ :: is, _, hs => foldl_any is _ (look_any hs)

/-- All values of the type are instances of the class, at least without promotions. -/
def Inside (w : World A) (t i : A) : Prop := w.typedDict t i = true ∨ w.compare i t = .yes false

theorem look_inside {t i : A} {s : Found A} (hs : (look w t s i).withAny = false) :
    s.withAny = false ∨ Inside w t i := by
  unfold look at hs
  split at hs
  · exact .inr (.inl ‹_›)
  · split at hs
    · exact .inl hs
    · split at hs
      · exact .inl hs
      · exact .inr (.inr ‹_›)
      · split at hs
        · exact .inl hs
        · exact .inl hs

theorem foldl_inside {t : A} : ∀ (is : List A) (s : Found A),
    (is.foldl (look w t) s).withAny = false → s.withAny = false ∨ ∃ i ∈ is, Inside w t i
  | [], _, hs => .inl hs
  | i :: is, s, hs => by
    rcases foldl_inside is _ hs with h1 | ⟨j, h1, h2⟩
    · exact (look_inside h1).imp id (fun h2 => ⟨i, by simp, h2⟩)
    · exact .inr ⟨j, by simp [h1], h2⟩

theorem foldl_unrelated {t : A} : ∀ (is : List A) (s : Found A),
    (∀ i ∈ is, ¬ Related w t i) → is.foldl (look w t) s = s
  | [], _, _ => rfl
  | i :: is, s, hs => by
    have h0 := hs i (by simp)
    simp only [Related, not_or, ne_eq, Decidable.not_not, Bool.not_eq_true] at h0
    have : look w t s i = s := by simp [look, h0.1, h0.2.1, h0.2.2.1, h0.2.2.2]
    rw [List.foldl_cons, this]
    exact foldl_unrelated is s (fun i hi => hs i (by simp [hi]))

/-! ## One type -/

theorem split_truthy (h : Sound w mem inst num) {v : V} {t : A} {ts : List A} {s : State A}
    (hv : Settled w mem v (ts.foldl (look w t) { truthy := s.truthy }))
    (ht : mem v t) (hi : In inst v ts) : In mem v (split w ts s t).truthy := by
  have ha := foldl_any (w := w) (t := t) ts { truthy := s.truthy } (fun a ha => by cases ha)
  unfold split
  simp only
  generalize ts.foldl (look w t) { truthy := s.truthy } = f at hv ha ⊢
  split
  · rename_i a h1
    exact (h.union ..).mpr (.inr (in_one.mpr (h.any v a (ha a h1))))
  · rename_i h1
    split
    · split
      · exact (in_add h).mpr (.inr (in_mem h hi))
      · exact (in_add h).mpr (.inr (in_one.mpr ht))
    · rename_i h2
      rcases hv with hv | hv | hv
      · exact absurd hv h2
      · rw [h1] at hv; cases hv
      · exact hv

theorem split_hit (h : Sound w mem inst num) {v : V} {t i : A} {ts : List A} {s : State A}
    (ht : mem v t) (hm : i ∈ ts) (hi : inst v i) (hr : Related w t i) :
    In mem v (split w ts s t).truthy :=
  split_truthy h (foldl_hit h (h.instance_ v i hi) hr ts _ hm) ht ⟨i, hm, hi⟩

theorem split_keep (h : Sound w mem inst num) {v : V} {t : A} {ts : List A} {s : State A}
    (hv : In mem v s.truthy) : In mem v (split w ts s t).truthy := by
  have hk := foldl_keep h (t := t) ts { truthy := s.truthy } hv
  unfold split
  simp only
  generalize ts.foldl (look w t) { truthy := s.truthy } = f at hk ⊢
  split
  · refine (h.union ..).mpr (.inl ?_)
    split
    · split <;> exact (in_add h).mpr (.inl hk)
    · exact hk
  · split
    · split <;> exact (in_add h).mpr (.inl hk)
    · exact hk

theorem split_eq {t : A} {ts : List A} {s : State A} :
    (split w ts s t).varSplit = s.varSplit ∧
    (split w ts s t).other =
      if (ts.foldl (look w t) { truthy := s.truthy }).matched = true ∧
        (ts.foldl (look w t) { truthy := s.truthy }).withAny = false then s.other
      else w.union s.other [t] := by
  unfold split
  simp only
  generalize ts.foldl (look w t) { truthy := s.truthy } = f
  obtain ⟨m, a, o, tr⟩ := f
  cases m <;> cases a <;> cases o <;> exact ⟨rfl, rfl⟩

theorem split_other (h : Sound w mem inst num) {v : V} {t : A} {ts : List A} {s : State A}
    (hv : In mem v s.other) : In mem v (split w ts s t).other := by
  rw [split_eq.2]
  split
  · exact hv
  · exact (h.union ..).mpr (.inl hv)

theorem split_other_hit (h : Sound w mem inst num) {v : V} {t : A} {ts : List A} {s : State A}
    (hv : mem v t) : In mem v (split w ts s t).other ∨ ∃ i ∈ ts, Inside w t i := by
  rw [split_eq.2]
  split
  · rename_i h1
    exact .inr ((foldl_inside ts _ h1.2).resolve_left (by simp))
  · exact .inl ((h.union ..).mpr (.inr (in_one.mpr hv)))

theorem split_varSplit {t : A} {ts : List A} {s : State A} :
    (split w ts s t).varSplit = s.varSplit := split_eq.1

theorem split_unrelated {t : A} {ts : List A} {s : State A} (h : ∀ i ∈ ts, ¬ Related w t i) :
    (split w ts s t).truthy = s.truthy := by
  unfold split
  simp [foldl_unrelated ts _ h]

theorem split_inside {t i : A} {s : State A} (h1 : w.typedDict t i = false) (h2 : w.isAny i = false)
    (h3 : w.compare i t = .yes false) : (split w [i] s t).other = s.other := by
  simp [split, look, h1, h2, h3]

/-! ## One member -/

theorem pieces_foldl_keep (h : Sound w mem inst num) {v : V} {ts : List A} :
    ∀ (ps : List A) (s : State A), In mem v s.truthy → In mem v (ps.foldl (split w ts) s).truthy
  | [], _, hs => hs
  | _ :: ps, _, hs => pieces_foldl_keep h ps _ (split_keep h hs)

theorem pieces_foldl_hit (h : Sound w mem inst num) {v : V} {ts : List A} (hi : In inst v ts) :
    ∀ (ps : List A) (s : State A), (∃ u ∈ ps, mem v u) →
    (∀ u ∈ ps, ∀ i ∈ ts, mem v u → inst v i → Related w u i) →
    In mem v (ps.foldl (split w ts) s).truthy
  | [], _, hu, _ => by obtain ⟨u, hu, _⟩ := hu; simp at hu
  | p :: ps, s, hu, hr => by
    obtain ⟨u, hu, hv⟩ := hu
    rw [List.foldl_cons]
    rcases List.mem_cons.mp hu with rfl | hu
    · obtain ⟨i, h1, h2⟩ := hi
      exact pieces_foldl_keep h ps _ (split_hit h hv h1 h2 (hr u (by simp) i h1 hv h2))
    · exact pieces_foldl_hit h hi ps _ ⟨u, hu, hv⟩ (fun u hu => hr u (by simp [hu]))

theorem pieces_foldl_other (h : Sound w mem inst num) {v : V} {ts : List A} :
    ∀ (ps : List A) (s : State A), In mem v s.other → In mem v (ps.foldl (split w ts) s).other
  | [], _, hs => hs
  | _ :: ps, _, hs => pieces_foldl_other h ps _ (split_other h hs)

theorem pieces_foldl_other_hit (h : Sound w mem inst num) {v : V} {ts : List A} :
    ∀ (ps : List A) (s : State A), (∃ u ∈ ps, mem v u) →
    In mem v (ps.foldl (split w ts) s).other ∨ ∃ u ∈ ps, mem v u ∧ ∃ i ∈ ts, Inside w u i
  | [], _, hu => by obtain ⟨u, hu, _⟩ := hu; simp at hu
  | p :: ps, s, hu => by
    obtain ⟨u, hu, hv⟩ := hu
    rw [List.foldl_cons]
    rcases List.mem_cons.mp hu with rfl | hu
    · rcases split_other_hit h (ts := ts) (s := s) hv with h1 | h1
      · exact .inl (pieces_foldl_other h ps _ h1)
      · exact .inr ⟨u, by simp, hv, h1⟩
    · rcases pieces_foldl_other_hit h (ts := ts) ps (split w ts s p) ⟨u, hu, hv⟩ with h1 | ⟨u', h1, h2⟩
      · exact .inl h1
      · exact .inr ⟨u', by simp [h1], h2⟩

theorem pieces_foldl_varSplit {ts : List A} :
    ∀ (ps : List A) (s : State A), (ps.foldl (split w ts) s).varSplit = s.varSplit
  | [], _ => rfl
  | p :: ps, s => (pieces_foldl_varSplit ps _).trans split_varSplit

theorem pieces_foldl_unrelated {ts : List A} : ∀ (ps : List A) (s : State A),
    (∀ u ∈ ps, ∀ i ∈ ts, ¬ Related w u i) → (ps.foldl (split w ts) s).truthy = s.truthy
  | [], _, _ => rfl
  | p :: ps, s, h =>
    (pieces_foldl_unrelated ps _ (fun u hu => h u (by simp [hu]))).trans
      (split_unrelated (h p (by simp)))

theorem pieces_foldl_inside {i : A} : ∀ (ps : List A) (s : State A), w.isAny i = false →
    (∀ u ∈ ps, w.typedDict u i = false ∧ w.compare i u = .yes false) →
    (ps.foldl (split w [i]) s).other = s.other
  | [], _, _, _ => rfl
  | p :: ps, s, h0, h =>
    (pieces_foldl_inside ps _ h0 (fun u hu => h u (by simp [hu]))).trans
      (split_inside (h p (by simp)).1 h0 (h p (by simp)).2)

/-- The pieces of one member. -/
theorem pieces_mem {original : List A} {t u : A} (ht : t ∈ original)
    (h1 : w.isAny t ≠ true) (h2 : w.freeVar t ≠ true) (hu : u ∈ w.parts t) : u ∈ pieces w original := by
  rw [pieces, List.mem_flatMap]
  exact ⟨t, ht, by rw [if_neg (by simp [h1, h2])]; exact hu⟩

theorem pieces_var {original : List A} {t : A} (ht : t ∈ original) (h : w.freeVar t = true) :
    t ∈ pieces w original := by
  rw [pieces, List.mem_flatMap]
  exact ⟨t, ht, by rw [if_pos (.inr h)]; simp⟩

/-- The type where `isinstance` is true has the values of a member. -/
theorem member_hit (h : Sound w mem inst num) {v : V} {ts original : List A} {s : State A} {t : A}
    (ht : t ∈ original) (hv : mem v t) (hi : In inst v ts)
    (hr : ∀ u ∈ pieces w original, ∀ i ∈ ts, mem v u → inst v i → Related w u i) :
    In mem v (member w ts s t).truthy := by
  unfold member
  split
  · exact in_mem h hi
  · split
    · rename_i h2
      split
      · exact h.intersect v t ts _ ‹_› hv hi
      · obtain ⟨i, h3, h4⟩ := hi
        exact split_hit h hv h3 h4 (hr t (pieces_var ht h2) i h3 hv h4)
    · rename_i h1 h2
      exact pieces_foldl_hit h hi _ _ ((h.parts v t).mpr hv)
        (fun u hu => hr u (pieces_mem ht h1 h2 hu))

theorem member_keep (h : Sound w mem inst num) {v : V} {ts : List A} {s : State A} {t : A}
    (hf : w.freeVar t ≠ true) (hi : In inst v ts) (hv : In mem v s.truthy) :
    In mem v (member w ts s t).truthy := by
  unfold member
  rw [if_neg hf]
  split
  · exact in_mem h hi
  · exact pieces_foldl_keep h _ _ hv

theorem member_other (h : Sound w mem inst num) {v : V} {ts : List A} {s : State A} {t : A}
    (hv : In mem v s.other) : In mem v (member w ts s t).other := by
  unfold member
  split
  · exact (h.union ..).mpr (.inl hv)
  · split
    · split
      · exact (h.union ..).mpr (.inl hv)
      · exact split_other h hv
    · exact pieces_foldl_other h _ _ hv

theorem member_other_hit (h : Sound w mem inst num) {v : V} {ts original : List A} {s : State A}
    {t : A} (ht : t ∈ original) (hv : mem v t) :
    In mem v (member w ts s t).other ∨
      ∃ u ∈ pieces w original, mem v u ∧ ∃ i ∈ ts, Inside w u i := by
  have done : In mem v (w.union s.other [t]) := (h.union ..).mpr (.inr (in_one.mpr hv))
  unfold member
  split
  · exact .inl done
  · split
    · rename_i h2
      split
      · exact .inl done
      · exact (split_other_hit h hv).imp id (fun h3 => ⟨t, pieces_var ht h2, hv, h3⟩)
    · rename_i h1 h2
      exact (pieces_foldl_other_hit h _ _ ((h.parts v t).mpr hv)).imp id
        (fun ⟨u, h3, h4⟩ => ⟨u, pieces_mem ht h1 h2 h3, h4⟩)

theorem member_varSplit {ts : List A} {s : State A} {t : A} (h : w.freeVar t ≠ true) :
    (member w ts s t).varSplit = s.varSplit := by
  unfold member
  rw [if_neg h]
  split
  · rfl
  · exact pieces_foldl_varSplit _ _

/-! ## All members -/

theorem members_keep (h : Sound w mem inst num) {v : V} {ts : List A} (hi : In inst v ts) :
    ∀ (ms : List A) (s : State A), (∀ t ∈ ms, w.freeVar t ≠ true) → In mem v s.truthy →
    In mem v (ms.foldl (member w ts) s).truthy
  | [], _, _, hv => hv
  | t :: ms, _, hf, hv => members_keep h hi ms _ (fun t ht => hf t (by simp [ht]))
      (member_keep h (hf t (by simp)) hi hv)

theorem members_hit (h : Sound w mem inst num) {v : V} {ts original : List A} (hi : In inst v ts)
    (hr : ∀ u ∈ pieces w original, ∀ i ∈ ts, mem v u → inst v i → Related w u i) :
    ∀ (ms : List A) (s : State A), (∀ t ∈ ms, t ∈ original) → (∀ t ∈ ms, w.freeVar t ≠ true) →
    In mem v ms → In mem v (ms.foldl (member w ts) s).truthy
  | [], _, _, _, hv => by obtain ⟨u, hu, _⟩ := hv; simp at hu
  | t :: ms, s, hs, hf, hv => by
    obtain ⟨u, hu, hv⟩ := hv
    rw [List.foldl_cons]
    rcases List.mem_cons.mp hu with rfl | hu
    · exact members_keep h hi ms _ (fun t ht => hf t (by simp [ht]))
        (member_hit h (hs u (by simp)) hv hi hr)
    · exact members_hit h hi hr ms _ (fun t ht => hs t (by simp [ht]))
        (fun t ht => hf t (by simp [ht])) ⟨u, hu, hv⟩

/-- If nothing is related, nothing is found, except by `Any`. -/
theorem members_unrelated (h : Sound w mem inst num) {v : V} {ts original : List A}
    (hi : In inst v ts) (hr : ∀ u ∈ pieces w original, ∀ i ∈ ts, ¬ Related w u i) :
    ∀ (ms : List A) (s : State A), (∀ t ∈ ms, t ∈ original) → (∀ t ∈ ms, w.freeVar t ≠ true) →
    s.truthy = [] ∨ In mem v s.truthy → (ms.foldl (member w ts) s).truthy = [] ∨
      In mem v (ms.foldl (member w ts) s).truthy
  | [], _, _, _, hv => hv
  | t :: ms, s, hs, hf, hv => by
    rw [List.foldl_cons]
    refine members_unrelated h hi hr ms _ (fun t ht => hs t (by simp [ht]))
      (fun t ht => hf t (by simp [ht])) ?_
    rcases hv with hv | hv
    · unfold member
      split
      · exact .inr (in_mem h hi)
      · rw [if_neg (hf t (by simp))]
        rename_i h1
        rw [pieces_foldl_unrelated _ _ (fun u hu =>
          hr u (pieces_mem (hs t (by simp)) h1 (hf t (by simp)) hu))]
        exact .inl hv
    · exact .inr (member_keep h (hf t (by simp)) hi hv)

theorem members_other (h : Sound w mem inst num) {v : V} {ts : List A} :
    ∀ (ms : List A) (s : State A), In mem v s.other → In mem v (ms.foldl (member w ts) s).other
  | [], _, hv => hv
  | _ :: ms, _, hv => members_other h ms _ (member_other h hv)

theorem members_other_hit (h : Sound w mem inst num) {v : V} {ts original : List A} :
    ∀ (ms : List A) (s : State A), (∀ t ∈ ms, t ∈ original) → In mem v ms →
    In mem v (ms.foldl (member w ts) s).other ∨
      ∃ u ∈ pieces w original, mem v u ∧ ∃ i ∈ ts, Inside w u i
  | [], _, _, hv => by obtain ⟨u, hu, _⟩ := hv; simp at hu
  | t :: ms, s, hs, hv => by
    obtain ⟨u, hu, hv⟩ := hv
    rw [List.foldl_cons]
    rcases List.mem_cons.mp hu with rfl | hu
    · rcases member_other_hit h (ts := ts) (s := s) (hs u (by simp)) hv with h1 | h1
      · exact .inl (members_other h ms _ h1)
      · exact .inr h1
    · exact members_other_hit h ms _ (fun t ht => hs t (by simp [ht])) ⟨u, hu, hv⟩

theorem members_varSplit {ts : List A} : ∀ (ms : List A) (s : State A),
    (∀ t ∈ ms, w.freeVar t ≠ true) → (ms.foldl (member w ts) s).varSplit = s.varSplit
  | [], _, _ => rfl
  | t :: ms, _, hf => (members_varSplit ms _ (fun t ht => hf t (by simp [ht]))).trans
      (member_varSplit (hf t (by simp)))

theorem members_inside {i : A} (hi : w.isAny i = false) : ∀ (ms : List A) (s : State A),
    (∀ t ∈ ms, w.isAny t = false ∧ w.freeVar t = false ∧
      ∀ u ∈ w.parts t, w.typedDict u i = false ∧ w.compare i u = .yes false) →
    (ms.foldl (member w [i]) s).other = s.other
  | [], _, _ => rfl
  | t :: ms, s, h => by
    rw [List.foldl_cons, members_inside hi ms _ (fun t ht => h t (by simp [ht]))]
    obtain ⟨h1, h2, h3⟩ := h t (by simp)
    unfold member
    rw [if_neg (by simp [h1]), if_neg (by simp [h2])]
    exact pieces_foldl_inside _ _ hi h3

/-! ## The fallback and the promotions -/

theorem fallback_keep {v : V} {original ts truthy : List A}
    (hv : In mem v truthy) : In mem v (fallback w original ts truthy) := by
  unfold fallback
  rw [if_neg (by
    intro h
    rw [List.isEmpty_iff] at h
    subst h
    obtain ⟨u, hu, _⟩ := hv
    simp at hu)]
  exact hv

theorem fallback_empty (h : Sound w mem inst num) {v : V} {original ts : List A}
    (hv : In mem v original) (hi : In inst v ts) : In mem v (fallback w original ts []) := by
  unfold fallback
  rw [if_pos (by rfl)]
  split
  · exact in_mem h hi
  · have keep : ∀ (ms r : List A), In mem v r → In mem v (ms.foldl (meet w ts) r) := by
      intro ms
      induction ms with
      | nil => exact fun r hr => hr
      | cons t ms ih =>
        intro r hr
        refine ih _ ?_
        unfold meet
        split
        · exact (in_add h).mpr (.inl hr)
        · split
          · exact (in_add h).mpr (.inl hr)
          · exact hr
    have hit : ∀ (ms r : List A), In mem v ms → In mem v (ms.foldl (meet w ts) r) := by
      intro ms
      induction ms with
      | nil => intro r hr; obtain ⟨u, hu, _⟩ := hr; simp at hu
      | cons t ms ih =>
        intro r hr
        obtain ⟨u, hu, hv⟩ := hr
        rcases List.mem_cons.mp hu with rfl | hu
        · refine keep ms _ ?_
          unfold meet
          split
          · exact (in_add h).mpr (.inr (h.intersect v u ts _ ‹_› hv hi))
          · split
            · exact (in_add h).mpr (.inr (in_one.mpr hv))
            · rename_i h1 h2
              exact absurd hi (h.disjoint v u ts h1 (by simpa using h2) hv)
        · exact ih _ ⟨u, hu, hv⟩
    exact hit original [] hv

/-- A number that is in a class of numbers. -/
theorem number_mem (h : Sound w mem inst num) {v : V} {t : A} {n : Num} (hv : mem v t)
    (hk : (w.kind t).map Prod.fst = some n) : ∃ m, num v = some m ∧ m.le n := by
  obtain ⟨⟨n', b⟩, h1, h2⟩ := Option.map_eq_some_iff.mp hk
  subst h2
  cases b with
  | true => exact (h.promoted v t n' h1).mp hv
  | false => exact ⟨n', (h.exact v t n' h1).mp hv, by cases n' <;> trivial⟩

theorem replaceOne_mem (h : Sound w mem inst num) {v : V} {r : Num} {t : A} {new : List A}
    (hv : mem v t) (hn : num v ≠ some r) (hs : replaceOne w r t = some new) :
    In mem v new ∨ r = .float ∧ num v = some .int := by
  unfold replaceOne at hs
  split at hs
  · rename_i hk
    cases hs
    obtain ⟨m, h1, h2⟩ := number_mem h hv hk
    left
    rw [in_one, h.exact v _ _ h.exactFloat]
    cases m
    · exact absurd h1 hn
    · exact h1
    · cases h2
  · rename_i hk
    cases hs
    obtain ⟨m, h1, h2⟩ := number_mem h hv hk
    left
    rw [h.union, in_one, in_one, h.exact v _ _ h.exactFloat, h.exact v _ _ h.exactComplex]
    cases m
    · exact absurd h1 hn
    · exact .inl h1
    · exact .inr h1
  · rename_i hk
    cases hs
    obtain ⟨m, h1, h2⟩ := number_mem h hv hk
    rw [in_one, h.exact v _ _ h.exactComplex]
    cases m
    · exact .inr ⟨rfl, h1⟩
    · exact absurd h1 hn
    · exact .inl h1
  · cases hs

theorem replace_mem (h : Sound w mem inst num) {v : V} {r : Num} {ts new : List A}
    (hv : In mem v ts) (hn : num v ≠ some r) (hs : replace w r ts = some new) :
    In mem v new ∨ r = .float ∧ num v = some .int := by
  unfold replace at hs
  split at hs
  · exact replaceOne_mem h (in_one.mp hv) hn hs
  · split at hs
    · cases hs
      obtain ⟨t, ht, hv⟩ := hv
      rw [h.simplify]
      cases hr : replaceOne w r t with
      | none => exact .inl ⟨t, List.mem_flatMap.mpr ⟨t, ht, by simp [hr]⟩, hv⟩
      | some us =>
        rcases replaceOne_mem h hv hn hr with ⟨u, h1, h2⟩ | h1
        · exact .inl ⟨u, List.mem_flatMap.mpr ⟨t, ht, by simp [hr, h1]⟩, h2⟩
        · exact .inr h1
    · cases hs

theorem int_mem (h : Sound w mem inst num) {v : V} (hv : num v = some .int) : mem v w.int :=
  h.instance_ v _ ((h.number v _ _ h.int).mpr hv)

/-- The promotions lose nothing that is not an instance. -/
theorem promotions_keep (h : Sound w mem inst num) {v : V} {original ts : List A} {s : State A}
    (hv : In mem v s.other) (hi : ¬ In inst v ts) : In mem v (promotions w original ts s) := by
  unfold promotions
  split
  · rename_i c
    have hn : ∀ n, (w.kind c).map Prod.fst = some n → num v ≠ some n := fun n hk he =>
      hi ⟨c, by simp, (h.number v c n hk).mpr he⟩
    split
    · rename_i hk
      split
      · exact hv
      · split
        · rename_i new hr
          rcases replace_mem h hv (hn _ hk) hr with h1 | h1
          · exact (h.union ..).mpr (.inl h1)
          · exact (h.union ..).mpr (.inr (in_one.mpr (int_mem h h1.2)))
        · split
          · exact (h.union ..).mpr (.inl hv)
          · exact hv
    · rename_i hk
      cases hr : replace w .int s.other with
      | none => exact hv
      | some new =>
        rcases replace_mem h hv (hn _ hk) hr with h1 | h1
        · exact h1
        · cases h1.1
    · split
      · rename_i h1
        simp only [Bool.and_eq_true, List.isEmpty_iff] at h1
        rw [h1.1] at hv
        obtain ⟨u, hu, _⟩ := hv
        simp at hu
      · exact hv
    · exact hv
  · exact hv

/-! ## Nothing is added -/

theorem split_other_mem (hu : ∀ ts us t, t ∈ w.union ts us → t ∈ ts ∨ t ∈ us) {t u : A}
    {ts : List A} {s : State A} (h : u ∈ (split w ts s t).other) : u ∈ s.other ∨ u = t := by
  rw [split_eq.2] at h
  split at h
  · exact .inl h
  · simpa using hu _ _ _ h

theorem pieces_foldl_other_mem (hu : ∀ ts us t, t ∈ w.union ts us → t ∈ ts ∨ t ∈ us) {u : A}
    {ts : List A} : ∀ (ps : List A) (s : State A), u ∈ (ps.foldl (split w ts) s).other →
    u ∈ s.other ∨ u ∈ ps
  | [], _, h => .inl h
  | p :: ps, s, h => by
    rcases pieces_foldl_other_mem hu ps _ h with h1 | h1
    · rcases split_other_mem hu h1 with h2 | h2
      · exact .inl h2
      · exact .inr (by simp [h2])
    · exact .inr (by simp [h1])

theorem member_other_mem (hu : ∀ ts us t, t ∈ w.union ts us → t ∈ ts ∨ t ∈ us) {t u : A}
    {ts original : List A} {s : State A} (ht : t ∈ original)
    (h : u ∈ (member w ts s t).other) : u ∈ s.other ∨ u ∈ pieces w original := by
  unfold member at h
  split at h
  · rename_i h1
    refine (hu _ _ _ h).imp id (fun h2 => ?_)
    rw [List.mem_singleton] at h2
    subst h2
    exact List.mem_flatMap.mpr ⟨u, ht, by rw [if_pos (.inl h1)]; simp⟩
  · split at h
    · rename_i h1 h2
      split at h
      · refine (hu _ _ _ h).imp id (fun h3 => ?_)
        rw [List.mem_singleton] at h3
        subst h3
        exact pieces_var ht h2
      · refine (split_other_mem hu h).imp id (fun h3 => ?_)
        subst h3
        exact pieces_var ht h2
    · rename_i h1 h2
      exact (pieces_foldl_other_mem hu _ _ h).imp id (fun h3 => pieces_mem ht h1 h2 h3)

theorem members_other_mem (hu : ∀ ts us t, t ∈ w.union ts us → t ∈ ts ∨ t ∈ us) {u : A}
    {ts original : List A} : ∀ (ms : List A) (s : State A), (∀ t ∈ ms, t ∈ original) →
    u ∈ (ms.foldl (member w ts) s).other → u ∈ s.other ∨ u ∈ pieces w original
  | [], _, _, h => .inl h
  | t :: ms, s, hs, h => by
    rcases members_other_mem hu ms _ (fun t ht => hs t (by simp [ht])) h with h1 | h1
    · exact member_other_mem hu (hs t (by simp)) h1
    · exact .inr h1

theorem pieces_in (h : Sound w mem inst num) {v : V} {original : List A}
    (hv : In mem v (pieces w original)) : In mem v original := by
  obtain ⟨u, hu, hv⟩ := hv
  obtain ⟨t, ht, hu⟩ := List.mem_flatMap.mp hu
  refine ⟨t, ht, ?_⟩
  split at hu
  · rw [List.mem_singleton] at hu
    subst hu
    exact hv
  · exact (h.parts v t).mp ⟨u, hu, hv⟩

theorem number_in (h : Sound w mem inst num) {v : V} {t : A} {n m : Num}
    (hk : (w.kind t).map Prod.fst = some n) (hb : w.kind t ≠ some (n, false)) (hn : num v = some m)
    (hm : m.le n) : mem v t := by
  obtain ⟨⟨n', b⟩, h1, h2⟩ := Option.map_eq_some_iff.mp hk
  subst h2
  cases b with
  | true => exact (h.promoted v t n' h1).mpr ⟨m, hn, hm⟩
  | false => exact absurd h1 hb

theorem replaceOne_sub (h : Sound w mem inst num) {v : V} {t : A} {new : List A}
    (hb : w.kind t ≠ some (.complex, false)) (hs : replaceOne w .int t = some new)
    (hv : In mem v new) : mem v t := by
  unfold replaceOne at hs
  split at hs
  · rename_i _ _ hk
    cases hs
    rw [in_one, h.exact v _ _ h.exactFloat] at hv
    obtain ⟨⟨n', b⟩, h1, h2⟩ := Option.map_eq_some_iff.mp hk
    cases h2
    cases b with
    | true => exact (h.promoted v t _ h1).mpr ⟨_, hv, trivial⟩
    | false => exact (h.exact v t _ h1).mpr hv
  · rename_i _ _ hk
    cases hs
    rw [h.union, in_one, in_one, h.exact v _ _ h.exactFloat, h.exact v _ _ h.exactComplex] at hv
    rcases hv with hv | hv
    · exact number_in h hk hb hv trivial
    · exact number_in h hk hb hv trivial
  · contradiction
  · cases hs

theorem replace_sub (h : Sound w mem inst num) {v : V} {ts new : List A}
    (hb : ∀ t ∈ ts, w.kind t ≠ some (.complex, false)) (hs : replace w .int ts = some new)
    (hv : In mem v new) : In mem v ts := by
  unfold replace at hs
  split at hs
  · exact in_one.mpr (replaceOne_sub h (hb _ (by simp)) hs hv)
  · split at hs
    · cases hs
      rw [h.simplify] at hv
      obtain ⟨u, hu, hv⟩ := hv
      obtain ⟨t, ht, hu⟩ := List.mem_flatMap.mp hu
      refine ⟨t, ht, ?_⟩
      cases hr : replaceOne w .int t with
      | none =>
        rw [hr] at hu
        simp only [Option.getD_none, List.mem_singleton] at hu
        subst hu; exact hv
      | some us =>
        rw [hr] at hu
        exact replaceOne_sub h (hb t ht) hr ⟨u, hu, hv⟩
    · cases hs

theorem inside_in (h : Sound w mem inst num) {v : V} {t i : A} (hv : mem v t)
    (hi : Inside w t i) (hb : ∀ n, w.kind i ≠ some (n, false)) : mem v i := by
  rcases hi with hi | hi
  · exact h.instance_ v i (h.typedDict v t i hi hv)
  · rcases h.compare i t hi with h1 | ⟨n, b, h1, h2⟩
    · exact h.instance_ v i (h1 v hv)
    · obtain ⟨m, h3, h4⟩ := number_mem h hv (by rw [h2]; rfl)
      exact number_in h h1 (hb n) h3 h4

theorem look_in (h : Sound w mem inst num) {v : V} {t i : A} {ts : List A} {s : Found A}
    (hi : i ∈ ts) (hs : In mem v s.truthy → In mem v ts) (hv : In mem v (look w t s i).truthy) :
    In mem v ts := by
  unfold look at hv
  split at hv
  · exact hs hv
  · split at hv
    · exact hs hv
    · split at hv
      · exact hs hv
      · exact hs hv
      · split at hv
        · rcases (in_add h).mp hv with h1 | h1
          · exact hs h1
          · exact ⟨i, hi, in_one.mp h1⟩
        · exact hs hv

theorem foldl_in (h : Sound w mem inst num) {v : V} {t : A} {ts : List A} :
    ∀ (is : List A) (s : Found A), (∀ i ∈ is, i ∈ ts) → (In mem v s.truthy → In mem v ts) →
    In mem v (is.foldl (look w t) s).truthy → In mem v ts
  | [], _, _, hs, hv => hs hv
  | i :: is, _, hi, hs, hv => foldl_in h is _ (fun i h => hi i (by simp [h]))
      (look_in h (hi i (by simp)) hs) hv

theorem foldl_any_mem {t : A} {ts : List A} : ∀ (is : List A) (s : Found A), (∀ i ∈ is, i ∈ ts) →
    (∀ a, s.hadAny = some a → a ∈ ts) →
    ∀ a, (is.foldl (look w t) s).hadAny = some a → a ∈ ts
  | [], _, _, hs => hs
  | i :: is, s, hi, hs => by
    refine foldl_any_mem is _ (fun i h => hi i (by simp [h])) ?_
    unfold look
    split
    · exact hs
    · split
      · intro a ha; cases ha; exact hi _ (by simp)
      · split
        · exact hs
        · exact hs
        · split
          · exact hs
          · exact hs

theorem split_in (h : Sound w mem inst num) {v : V} {t : A} {ts : List A} {s : State A}
    (hb : ∀ i ∈ ts, ∀ n, w.kind i ≠ some (n, false)) (hs : In mem v s.truthy → In mem v ts)
    (hv : In mem v (split w ts s t).truthy) : In mem v ts := by
  have h1 := foldl_in h (v := v) (t := t) ts { truthy := s.truthy } (fun _ h => h) hs
  have h2 := foldl_any_mem (w := w) (t := t) ts { truthy := s.truthy } (fun _ h => h)
    (fun a ha => by cases ha)
  have h3 := foldl_inside (w := w) (t := t) ts { truthy := s.truthy }
  unfold split at hv
  simp only at hv
  generalize ts.foldl (look w t) { truthy := s.truthy } = f at h1 h2 h3 hv
  obtain ⟨m, a, o, tr⟩ := f
  have key : a = false → mem v t → In mem v ts := fun ha hv => by
    obtain ⟨i, hi, h4⟩ := (h3 ha).resolve_left (by simp)
    exact ⟨i, hi, inside_in h hv h4 (hb i hi)⟩
  have any : ∀ x, o = some x → mem v x → In mem v ts := fun x hx hv => ⟨x, h2 x hx, hv⟩
  have rest : ∀ l, (In mem v l → In mem v ts) →
      In mem v (match o with | some x => w.union l [x] | none => l) → In mem v ts := by
    intro l hl hv
    cases o with
    | none => exact hl hv
    | some x =>
      rcases (h.union ..).mp hv with h4 | h4
      · exact hl h4
      · exact any x rfl (in_one.mp h4)
  cases m
  · refine rest tr h1 ?_
    cases o <;> exact hv
  · cases a
    · refine rest (w.add tr [t]) (fun h4 => ?_) ?_
      · rcases (in_add h).mp h4 with h4 | h4
        · exact h1 h4
        · exact key rfl (in_one.mp h4)
      · cases o <;> exact hv
    · refine rest (w.add tr ts) (fun h4 => ?_) ?_
      · rcases (in_add h).mp h4 with h4 | h4
        · exact h1 h4
        · exact h4
      · cases o <;> exact hv

theorem member_in (h : Sound w mem inst num) {v : V} {t : A} {ts : List A} {s : State A}
    (hb : ∀ i ∈ ts, ∀ n, w.kind i ≠ some (n, false))
    (hm : ∀ t r, w.intersect t ts = some r → In mem v r → In mem v ts)
    (hs : In mem v s.truthy → In mem v ts)
    (hv : In mem v (member w ts s t).truthy) : In mem v ts := by
  have fold : ∀ (ps : List A) (s : State A), (In mem v s.truthy → In mem v ts) →
      In mem v (ps.foldl (split w ts) s).truthy → In mem v ts := by
    intro ps
    induction ps with
    | nil => exact fun s hs hv => hs hv
    | cons p ps ih => exact fun s hs hv => ih _ (split_in h hb hs) hv
  unfold member at hv
  split at hv
  · exact hv
  · split at hv
    · split at hv
      · exact hm _ _ ‹_› hv
      · exact split_in h hb hs hv
    · exact fold _ _ hs hv

theorem members_in (h : Sound w mem inst num) {v : V} {ts : List A}
    (hb : ∀ i ∈ ts, ∀ n, w.kind i ≠ some (n, false))
    (hm : ∀ t r, w.intersect t ts = some r → In mem v r → In mem v ts) :
    ∀ (ms : List A) (s : State A), (In mem v s.truthy → In mem v ts) →
    In mem v (ms.foldl (member w ts) s).truthy → In mem v ts
  | [], _, hs, hv => hs hv
  | _ :: ms, _, hs, hv => members_in h hb hm ms _ (member_in h hb hm hs) hv

theorem fallback_in (h : Sound w mem inst num) {v : V} {original ts truthy : List A}
    (hm : ∀ t r, w.intersect t ts = some r → In mem v r → In mem v ts)
    (hp : w.protocol ts = false) (hs : In mem v truthy → In mem v ts)
    (hv : In mem v (fallback w original ts truthy)) : In mem v ts := by
  unfold fallback at hv
  split at hv
  · split at hv
    · exact hv
    · have : ∀ (ms r : List A), (In mem v r → In mem v ts) →
          In mem v (ms.foldl (meet w ts) r) → In mem v ts := by
        intro ms
        induction ms with
        | nil => exact fun r hr hv => hr hv
        | cons t ms ih =>
          refine fun r hr hv => ih _ (fun h1 => ?_) hv
          unfold meet at h1
          rw [hp] at h1
          split at h1
          · rcases (in_add h).mp h1 with h1 | h1
            · exact hr h1
            · exact hm t _ ‹_› h1
          · exact hr h1
      exact this original truthy hs hv
  · exact hs hv

end Verif.Split
