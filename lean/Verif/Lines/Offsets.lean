import Verif.Lines.Sync

namespace Verif.Lines

open Spec

/-- Every character boundary lies in exactly one line (terminator included). -/
theorem boundary_line (code pre post : List Char) (h : code = pre ++ post) :
    ∃ A p l t B r, splitLines code = A ++ (l, t) :: B ∧ pre = textOf A ++ p ∧ l ++ t = p ++ r ∧ (r ≠ [] ∨ B = []) := by
  induction hn : code.length using Nat.strongRecOn generalizing code pre with
  | _ n ih =>
    rcases splitLines_cases code with ⟨_, hs⟩ | ⟨l, t, X, rfl, hl, ht, hs⟩
    · exact ⟨[], pre, code, [], [], post, by simpa using hs, by simp [textOf], by simpa using h, .inr rfl⟩
    · by_cases hlt : size pre < size (l ++ t)
      · obtain ⟨m, h1, h2⟩ := prefix_of_size_le h.symm (by omega)
        refine ⟨[], pre, l, t, splitLines X, m, by simpa using hs, by simp [textOf], h1, .inl ?_⟩
        intro hm; subst hm; simp at h1; rw [← h1] at hlt; omega
      · obtain ⟨m, h1, h2⟩ := prefix_of_size_le h (by omega)
        subst h1
        have := ht.length_pos
        obtain ⟨A, p, l', t', B, r, g1, g2, g3, g4⟩ := ih X.length (by simp at hn; omega) X m h2 rfl
        refine ⟨(l, t) :: A, p, l', t', B, r, by rw [hs, g1]; rfl, by rw [textOf_cons, g2]; simp, g3, g4⟩

theorem takeWhile_length (T : List Nat) (b n : Nat) (h1 : ∀ i, i < n → ∃ x, T[i]? = some x ∧ x ≤ b)
    (h2 : ∀ x, T[n]? = some x → b < x) : (T.takeWhile (· ≤ b)).length = n := by
  induction n generalizing T with
  | zero =>
    cases T with
    | nil => rfl
    | cons x T =>
      have := h2 x (by simp)
      simp [List.takeWhile_cons]; omega
  | succ n ih =>
    cases T with
    | nil => obtain ⟨x, hx, _⟩ := h1 0 (by omega); simp at hx
    | cons x T =>
      obtain ⟨y, hy, hyb⟩ := h1 0 (by omega)
      simp at hy; subst hy
      rw [List.takeWhile_cons, if_pos (by simpa using hyb), List.length_cons, ih T]
      · intro i hi
        simpa using h1 (i + 1) (by omega)
      · intro y hy
        exact h2 y (by simpa using hy)

/-- `position_infos` finds the line of the offset. -/
theorem positionInfos_eq (code : List Char) (A) (p l t : List Char) (B) (r : List Char)
    (hs : splitLines code = A ++ (l, t) :: B) (hr : l ++ t = p ++ r) (hB : r ≠ [] ∨ B = []) :
    positionInfos code (size (textOf A ++ p)) = (A.length, size (textOf A)) := by
  have hline : ((lineEnds 0 code).takeWhile (· ≤ size (textOf A ++ p))).length = A.length := by
    apply takeWhile_length
    · intro i hi
      obtain ⟨A1, ⟨l1, t1⟩, A2, rfl, hA1⟩ := splitAt_line A i hi
      have := lineEnds_getElem? 0 code A1 l1 t1 (A2 ++ (l, t) :: B) (by rw [hs]; simp)
      rw [if_neg (by simp)] at this
      refine ⟨_, by rw [← hA1]; exact this.2.1, ?_⟩
      rw [textOf_append, textOf_cons]
      simp only [size_append]; omega
    · intro x hx
      have := lineEnds_getElem? 0 code A l t B hs
      split at this
      · rename_i hB'
        rw [List.getElem?_eq_none (by omega)] at hx; simp at hx
      · rename_i hB'
        rw [this.2.1] at hx
        simp only [Option.some.injEq] at hx
        subst hx
        have hrne : r ≠ [] := by
          rcases hB with h | h
          · exact h
          · exact absurd h hB'
        have := size_pos hrne
        have e := congrArg size hr
        simp only [size_append] at e ⊢
        omega
  unfold positionInfos
  simp only [hline]
  have := (lineEnds_getElem? 0 code A l t B hs).1
  rcases this with rfl | h
  · simp [textOf, size]
  · have hA : A.length ≠ 0 ∨ A = [] := by cases A <;> simp
    rcases hA with hA | rfl
    · rw [if_neg hA, h]; simp
    · simp [textOf, size]

theorem lineEnds_gt (off : Nat) (s : List Char) : ∀ x ∈ lineEnds off s, off < x := by
  induction hn : s.length using Nat.strongRecOn generalizing s off with
  | _ n ih =>
    rcases splitLines_cases s with ⟨hc, h⟩ | ⟨l, t, X, rfl, hl, ht, h⟩
    · have := lineEnds_clean off s [] hc
      rw [List.append_nil] at this
      rw [this]; simp [lineEnds]
    · have h1 := ht.length_pos
      have h2 := size_pos ht.ne_nil
      rw [lineEnds_term _ _ _ _ hl ht]
      intro x hx
      simp only [List.mem_cons] at hx
      rcases hx with rfl | hx
      · omega
      · have := ih X.length (by simp at hn; omega) _ X rfl x hx
        omega

/-- The line table is strictly increasing, so that `partition_point` is meaningful. -/
theorem lineEnds_sorted (off : Nat) (s : List Char) : (lineEnds off s).Pairwise (· < ·) := by
  induction hn : s.length using Nat.strongRecOn generalizing s off with
  | _ n ih =>
    rcases splitLines_cases s with ⟨hc, h⟩ | ⟨l, t, X, rfl, hl, ht, h⟩
    · have := lineEnds_clean off s [] hc
      rw [List.append_nil] at this
      rw [this]; simp [lineEnds]
    · have h1 := ht.length_pos
      rw [lineEnds_term _ _ _ _ hl ht, List.pairwise_cons]
      exact ⟨lineEnds_gt _ X, ih X.length (by simp at hn; omega) _ X rfl⟩

/-- Appending newlines to a text that does not end in `\r` keeps every position. -/
theorem posAt_append_newlines (enc : Enc) (c : List Char) (pos : Pos) (pre : List Char) (h : PosAt enc c pos pre)
    (hcr : ¬ ['\r'] <:+ c) (j : Nat) : PosAt enc (c ++ List.replicate j '\n') pos pre := by
  cases j with
  | zero => simpa using h
  | succ j =>
    rw [List.replicate_succ]
    generalize List.replicate j '\n' = Y
    -- the last line of `c`
    obtain ⟨A, ⟨l, t⟩, hlast⟩ : ∃ A a, splitLines c = A ++ [a] := by
      rcases List.eq_nil_or_concat (splitLines c) with h | ⟨A, a, h⟩
      · exact absurd h (splitLines_ne_nil c)
      · exact ⟨A, a, by simpa using h⟩
    obtain ⟨hcl, ht, -⟩ := splitLines_wf c A l t [] hlast
    have ht := ht rfl
    subst ht
    have hc : c = textOf A ++ l := by
      rw [← textOf_splitLines c, hlast, textOf_append, textOf_cons]; simp [textOf]
    have hnew : splitLines (c ++ '\n' :: Y) = A ++ (l, ['\n']) :: splitLines Y := by
      rcases splitLines_prefix c A [(l, [])] (by simp) hlast (l ++ '\n' :: Y) with h | ⟨A0, l0, Y', hA0, hY, h⟩
      · rw [hc, List.append_assoc, h]
        have := splitLines_term l ['\n'] Y hcl (.inl rfl)
        rw [← this]; simp
      · exfalso
        apply hcr
        cases l with
        | nil =>
          rw [hc, hA0, textOf_append, textOf_cons]
          exact ⟨textOf A0 ++ l0, by simp [textOf]⟩
        | cons x l =>
          simp only [List.cons_append, List.cons.injEq] at hY
          exact absurd hY.1 (hcl x (by simp)).1
    obtain ⟨A', p, q, t, B, hs, hA', hw, rfl⟩ := h
    rw [hlast] at hs
    rcases List.eq_nil_or_concat B with rfl | ⟨B0, b, rfl⟩
    · obtain ⟨rfl, e⟩ := List.append_inj' hs rfl
      simp only [List.cons.injEq, Prod.mk.injEq, and_true] at e
      obtain ⟨rfl, -⟩ := e
      exact ⟨A, p, q, ['\n'], splitLines Y, hnew, hA', hw, rfl⟩
    · have : A = A' ++ (p ++ q, t) :: B0 := by
        have hs' : A ++ [(l, [])] = (A' ++ (p ++ q, t) :: B0) ++ [b] := by simpa using hs
        exact (List.append_inj' hs' rfl).1
      subst this
      exact ⟨A', p, q, t, B0 ++ (l, ['\n']) :: splitLines Y, by rw [hnew]; simp, hA', hw, rfl⟩

theorem pad_eq (c : List Char) : ∃ j, pad c = c ++ List.replicate j '\n' := by
  unfold pad
  simp only
  split
  · split
    · exact ⟨1, by simp⟩
    · exact ⟨0, by simp⟩
  · split
    · exact ⟨2, by simp [List.replicate]⟩
    · exact ⟨1, by simp⟩

end Verif.Lines
