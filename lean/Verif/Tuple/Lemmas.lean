import Verif.Tuple.Spec

namespace Verif.Tuple

open Spec

variable {V T α : Type}

theorem stepBy_getElem? (k : Nat) (hk : 1 ≤ k) (xs : List α) (i : Nat) :
    (stepBy k xs)[i]? = xs[i * k]? := by
  induction xs using stepBy.induct (k := k) generalizing i with
  | case1 => simp [stepBy]
  | case2 x xs ih =>
    rw [stepBy]
    cases i with
    | zero => simp
    | succ i =>
      simp only [List.getElem?_cons_succ]
      rw [ih, List.getElem?_drop]
      have : (i + 1) * k = (k - 1 + i * k) + 1 := by
        rw [Nat.add_mul]; omega
      rw [this, List.getElem?_cons_succ]

theorem toUsize_of_le {i : Int} (h0 : 0 ≤ i) (h1 : i ≤ usizeMax) : toUsize i = some i.toNat := by
  simp [toUsize, h0, h1]

theorem stepBy_toUsize (s : Int) (hs : 0 < s) (xs : List α) (hx : xs.length ≤ usizeMax) (i : Nat) :
    (stepBy ((toUsize s).getD usizeMax) xs)[i]? = xs[i * s.toNat]? := by
  by_cases h : s ≤ usizeMax
  · rw [toUsize_of_le (by omega) h]
    exact stepBy_getElem? _ (by simp; omega) _ _
  · have : toUsize s = none := by simp [toUsize]; omega
    rw [this, Option.getD_none, stepBy_getElem? _ (by decide)]
    cases i with
    | zero => simp
    | succ i =>
      have h1 : usizeMax ≤ (i + 1) * usizeMax := Nat.le_mul_of_pos_left _ (by omega)
      have h2 : usizeMax ≤ (i + 1) * s.toNat := by
        have : usizeMax ≤ s.toNat := by omega
        exact le_trans this (Nat.le_mul_of_pos_left _ (by omega))
      rw [List.getElem?_eq_none (by omega), List.getElem?_eq_none (by omega)]

theorem stepBy_length_le (k : Nat) (xs : List α) : (stepBy k xs).length ≤ xs.length := by
  induction xs using stepBy.induct (k := k) with
  | case1 => simp [stepBy]
  | case2 x xs ih =>
    rw [stepBy]
    simp at ih ⊢
    omega

/-- Effective number of skipped elements. -/
theorem min_asSkip (i : Option Int) (n : Nat) (hn : n ≤ usizeMax) :
    ((min (asSkip i) n : Nat) : Int) = match i with
      | none => 0
      | some i => min (max i 0) n := by
  cases i with
  | none => simp [asSkip]
  | some i =>
    simp only [asSkip]
    by_cases h : max i 0 ≤ (usizeMax : Int)
    · rw [toUsize_of_le (by omega) h]; simp
    · have : toUsize (max i 0) = none := by simp [toUsize]; omega
      rw [this]; simp; omega

theorem fwd_getElem? (ts : List α) (A B : Nat) (s e : Int)
    (hs : s = (min A ts.length : Nat)) (he : e = ts.length - (min B ts.length : Nat)) (j : Nat) :
    (((ts.drop A).reverse.drop B).reverse)[j]? =
      if s + j < e then ts[(s + j).toNat]? else none := by
  rw [List.reverse_drop]
  simp only [List.reverse_reverse, List.length_reverse, List.length_drop]
  rw [List.getElem?_take]
  split
  · rename_i h
    rw [List.getElem?_drop, if_pos (by omega)]
    congr 1; omega
  · rename_i h
    split
    · rw [eq_comm, List.getElem?_eq_none]; omega
    · rfl

theorem bwd_getElem? (ts : List α) (A B : Nat) (s e : Int)
    (hs : s = ts.length - 1 - (min B ts.length : Nat)) (he : e = (min A ts.length : Nat) - 1) (j : Nat) :
    (((ts.drop A).reverse.drop B))[j]? =
      if e < s - j then ts[(s - j).toNat]? else none := by
  rw [List.getElem?_drop]
  by_cases h : B + j < (ts.drop A).length
  · rw [List.getElem?_reverse h, List.getElem?_drop]
    simp only [List.length_drop] at h ⊢
    rw [if_pos (by omega)]
    congr 1; omega
  · rw [List.getElem?_eq_none (by simpa using Nat.le_of_not_lt h)]
    simp only [List.length_drop] at h
    rw [if_neg (by omega)]

theorem lt_sliceLen_pos (s e step : Int) (hstep : 0 < step) (i : Nat) :
    i < sliceLen s e step ↔ s + i * step < e := by
  have hi : (0:Int) ≤ i * step := by positivity
  simp only [sliceLen, if_neg (not_lt.mpr hstep.le)]
  split
  · rename_i h
    have h0 : 0 ≤ (e - s - 1) / step := Int.ediv_nonneg (by omega) hstep.le
    have h1 := Int.le_ediv_iff_mul_le (a := (i : Int)) (b := e - s - 1) hstep
    omega
  · rename_i h
    constructor
    · omega
    · intro h; omega

theorem lt_sliceLen_neg (s e step : Int) (hstep : step < 0) (i : Nat) :
    i < sliceLen s e step ↔ e < s + i * step := by
  have hi : (i : Int) * step ≤ 0 := by nlinarith
  simp only [sliceLen, if_pos hstep]
  split
  · rename_i h
    have h0 : 0 ≤ (s - e - 1) / (-step) := Int.ediv_nonneg (by omega) (by omega)
    have h1 := Int.le_ediv_iff_mul_le (a := (i : Int)) (b := s - e - 1) (c := -step) (by omega)
    have h2 : (i : Int) * -step = -(i * step) := by ring
    omega
  · rename_i h
    constructor
    · omega
    · intro h; omega

theorem pySlice_getElem? (vs : List V) (start stop : Option Int) (step : Int) (i : Nat) :
    (pySlice vs start stop step)[i]? =
      if i < sliceLen (sliceStart vs.length step start) (sliceStop vs.length step stop) step then
        some (if 0 ≤ sliceStart vs.length step start + i * step then
          vs[(sliceStart vs.length step start + i * step).toNat]? else none)
      else none := by
  simp only [pySlice, List.getElem?_map]
  split
  · rename_i h
    rw [List.getElem?_range h]; rfl
  · rename_i h
    rw [List.getElem?_eq_none (by simpa using h)]; rfl

/-- Python's bounds lie inside the tuple. -/
theorem sliceStart_pos_range (len : Nat) (step : Int) (h : 0 < step) (i : Option Int) :
    0 ≤ sliceStart len step i ∧ sliceStart len step i ≤ len := by
  unfold sliceStart adjust
  have := not_lt.mpr h.le
  cases i <;> simp only [this, if_false] <;> (repeat' split) <;> omega

theorem sliceStop_pos_range (len : Nat) (step : Int) (h : 0 < step) (i : Option Int) :
    0 ≤ sliceStop len step i ∧ sliceStop len step i ≤ len := by
  unfold sliceStop adjust
  have := not_lt.mpr h.le
  cases i <;> simp only [this, if_false] <;> (repeat' split) <;> omega

theorem sliceStart_neg_range (len : Nat) (step : Int) (h : step < 0) (i : Option Int) :
    -1 ≤ sliceStart len step i ∧ sliceStart len step i ≤ len - 1 := by
  unfold sliceStart adjust
  cases i <;> simp only [h, if_true] <;> (repeat' split) <;> omega

theorem sliceStop_neg_range (len : Nat) (step : Int) (h : step < 0) (i : Option Int) :
    -1 ≤ sliceStop len step i ∧ sliceStop len step i ≤ len - 1 := by
  unfold sliceStop adjust
  cases i <;> simp only [h, if_true] <;> (repeat' split) <;> omega

theorem asFixed_eq_pySlice (ts : List α) (start stop : Option Int) (step : Int) (hstep : step ≠ 0)
    (hlen : ts.length ≤ usizeMax) :
    (asFixedLenTuple ts start stop step).map some = pySlice ts start stop step := by
  apply List.ext_getElem?
  intro i
  rw [pySlice_getElem?, List.getElem?_map]
  by_cases hneg : step < 0
  · rw [asFixedLenTuple]
    simp only [if_pos hneg]
    rw [stepBy_toUsize (-step) (by omega) _ (by simp; omega)]
    have hA := min_asSkip ((removeNegative ts.length stop).map (· + 1)) ts.length hlen
    have hB := min_asSkip ((removeNegative ts.length start).map ((ts.length : Int) - · - 1)) ts.length hlen
    rw [bwd_getElem? ts _ _ (sliceStart ts.length step start) (sliceStop ts.length step stop)]
    · have hc : ((i * (-step).toNat : Nat) : Int) = -(i * step) := by
        push_cast; rw [Int.toNat_of_nonneg (by omega)]; ring
      rw [hc]
      have e1 : sliceStart ts.length step start - -(↑i * step) = sliceStart ts.length step start + i * step := by
        ring
      rw [e1]
      have hr := sliceStop_neg_range ts.length step hneg stop
      have hr2 := sliceStart_neg_range ts.length step hneg start
      have hi : (i : Int) * step ≤ 0 := by nlinarith
      by_cases hlt : sliceStop ts.length step stop < sliceStart ts.length step start + i * step
      · rw [if_pos hlt, if_pos ((lt_sliceLen_neg _ _ _ hneg i).mpr hlt), if_pos (by omega)]
        rw [List.getElem?_eq_getElem (by omega)]; rfl
      · rw [if_neg hlt, if_neg (fun h => hlt ((lt_sliceLen_neg _ _ _ hneg i).mp h))]; rfl
    · rw [hB]
      cases start with
      | none => simp [removeNegative, sliceStart, hneg]
      | some s => simp only [removeNegative, sliceStart, adjust, Option.map, hneg, if_true]; (repeat' split) <;> omega
    · rw [hA]
      cases stop with
      | none => simp [removeNegative, sliceStop, hneg]
      | some s => simp only [removeNegative, sliceStop, adjust, Option.map, hneg, if_true]; (repeat' split) <;> omega
  · have hpos : 0 < step := by omega
    rw [asFixedLenTuple]
    simp only [if_neg hneg]
    rw [stepBy_toUsize step hpos _ (by simp; omega)]
    have hA := min_asSkip (removeNegative ts.length start) ts.length hlen
    have hB := min_asSkip ((removeNegative ts.length stop).map ((ts.length : Int) - ·)) ts.length hlen
    rw [fwd_getElem? ts _ _ (sliceStart ts.length step start) (sliceStop ts.length step stop)]
    · have hc : ((i * step.toNat : Nat) : Int) = i * step := by
        push_cast; rw [Int.toNat_of_nonneg (by omega)]
      rw [hc]
      have hr := sliceStop_pos_range ts.length step hpos stop
      have hr2 := sliceStart_pos_range ts.length step hpos start
      have hi : (0 : Int) ≤ (i : Int) * step := by positivity
      by_cases hlt : sliceStart ts.length step start + i * step < sliceStop ts.length step stop
      · rw [if_pos hlt, if_pos ((lt_sliceLen_pos _ _ _ hpos i).mpr hlt), if_pos (by omega)]
        rw [List.getElem?_eq_getElem (by omega)]; rfl
      · rw [if_neg hlt, if_neg (fun h => hlt ((lt_sliceLen_pos _ _ _ hpos i).mp h))]; rfl
    · rw [hA]
      cases start with
      | none => simp [removeNegative, sliceStart, hneg]
      | some s => simp only [removeNegative, sliceStart, adjust, Option.map, hneg, if_false]; (repeat' split) <;> omega
    · rw [hB]
      cases stop with
      | none => simp [removeNegative, sliceStop, hneg]
      | some s => simp only [removeNegative, sliceStop, adjust, Option.map, hneg, if_false]; (repeat' split) <;> omega

end Verif.Tuple
