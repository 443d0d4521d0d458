import Verif.Tuple.Lemmas

namespace Verif.Tuple

open Spec

variable {V T α : Type}

/-! ### Parametricity -/

theorem forall₂_reverse {R : V → T → Prop} {vs : List V} {ts : List T} (h : List.Forall₂ R vs ts) :
    List.Forall₂ R vs.reverse ts.reverse := List.forall₂_reverse_iff.mpr h

theorem forall₂_drop {R : V → T → Prop} {vs : List V} {ts : List T} (n : Nat)
    (h : List.Forall₂ R vs ts) : List.Forall₂ R (vs.drop n) (ts.drop n) := by
  induction n generalizing vs ts with
  | zero => simpa
  | succ n ih => cases h with
    | nil => simp
    | cons _ h => simpa using ih h

theorem forall₂_take {R : V → T → Prop} {vs : List V} {ts : List T} (n : Nat)
    (h : List.Forall₂ R vs ts) : List.Forall₂ R (vs.take n) (ts.take n) := by
  induction n generalizing vs ts with
  | zero => simp
  | succ n ih => cases h with
    | nil => simp
    | cons h1 h => simpa using ⟨h1, ih h⟩

theorem forall₂_stepBy {R : V → T → Prop} (k : Nat) {vs : List V} {ts : List T}
    (h : List.Forall₂ R vs ts) : List.Forall₂ R (stepBy k vs) (stepBy k ts) := by
  induction vs using stepBy.induct (k := k) generalizing ts with
  | case1 => cases h; simp [stepBy]
  | case2 x xs ih =>
    cases h with
    | cons h1 h =>
      rw [stepBy, stepBy]
      exact .cons h1 (ih (forall₂_drop _ h))

theorem forall₂_asFixed {R : V → T → Prop} {vs : List V} {ts : List T} (h : List.Forall₂ R vs ts)
    (start stop : Option Int) (step : Int) :
    List.Forall₂ R (asFixedLenTuple vs start stop step) (asFixedLenTuple ts start stop step) := by
  unfold asFixedLenTuple
  have hl : vs.length = ts.length := h.length_eq
  simp only [hl]
  split
  · exact forall₂_stepBy _ (forall₂_drop _ (forall₂_reverse (forall₂_drop _ h)))
  · exact forall₂_stepBy _ (forall₂_reverse (forall₂_drop _ (forall₂_reverse (forall₂_drop _ h))))

theorem forall₂_getElem? {R : V → T → Prop} {vs : List V} {ts : List T} (h : List.Forall₂ R vs ts)
    {i : Nat} {v : V} (hv : vs[i]? = some v) : ∃ t, ts[i]? = some t ∧ R v t := by
  induction h generalizing i with
  | nil => simp at hv
  | cons h1 _ ih =>
    cases i with
    | zero => simp at hv ⊢; subst hv; exact h1
    | succ i => simpa using ih (by simpa using hv)

/-! ### Slices of a concatenation -/

theorem pySlice_pos_getElem? (vs : List V) (start stop : Option Int) (step : Int) (h : 0 < step) (i : Nat) :
    (pySlice vs start stop step)[i]? =
      if sliceStart vs.length step start + i * step < sliceStop vs.length step stop then
        some (vs[(sliceStart vs.length step start + i * step).toNat]?)
      else none := by
  rw [pySlice_getElem?]
  simp only [lt_sliceLen_pos _ _ _ h]
  have := sliceStart_pos_range vs.length step h start
  have hi : (0 : Int) ≤ (i : Int) * step := by positivity
  rw [if_pos (by omega : 0 ≤ sliceStart vs.length step start + i * step)]

theorem pySlice_neg_getElem? (vs : List V) (start stop : Option Int) (step : Int) (h : step < 0) (i : Nat) :
    (pySlice vs start stop step)[i]? =
      if sliceStop vs.length step stop < sliceStart vs.length step start + i * step then
        some (vs[(sliceStart vs.length step start + i * step).toNat]?)
      else none := by
  rw [pySlice_getElem?]
  simp only [lt_sliceLen_neg _ _ _ h]
  have := sliceStop_neg_range vs.length step h stop
  split
  · rw [if_pos (by omega)]
  · rfl

theorem pySlice_prefix_pos (v w : List V) (start : Option Int) (e step : Int) (h : 0 < step)
    (he0 : 0 ≤ e) (he : e ≤ v.length) (hs : ∀ s, start = some s → 0 ≤ s) :
    pySlice (v ++ w) start (some e) step = pySlice v start (some e) step := by
  apply List.ext_getElem?
  intro i
  rw [pySlice_pos_getElem? _ _ _ _ h, pySlice_pos_getElem? _ _ _ _ h]
  have hi : (0 : Int) ≤ (i : Int) * step := by positivity
  generalize (i : Int) * step = m at hi
  have hneg := not_lt.mpr h.le
  have e1 : sliceStop ((v ++ w).length : Nat) step (some e) = e := by
    simp [sliceStop, adjust, hneg]; omega
  have e2 : sliceStop (v.length : Nat) step (some e) = e := by
    simp [sliceStop, adjust, hneg]; omega
  rw [e1, e2]
  cases start with
  | none =>
    simp only [sliceStart, hneg, if_false]
    split
    · rw [List.getElem?_append_left (by omega)]
    · rfl
  | some s =>
    have hs := hs s rfl
    have hs' : ¬ s < 0 := by omega
    simp only [sliceStart, adjust, hneg, if_false, hs', List.length_append]
    by_cases c : s + m < e
    · rw [if_neg (show ¬ s ≥ ((v.length + w.length : Nat) : Int) by omega),
        if_neg (show ¬ s ≥ (v.length : Int) by omega), if_pos c, if_pos c,
        List.getElem?_append_left (by omega)]
    · rw [if_neg, if_neg] <;> split <;> omega

theorem pySlice_prefix_neg (v w : List V) (stop : Option Int) (s step : Int) (h : step < 0)
    (hs0 : 0 ≤ s) (hs : s < v.length) (he : ∀ e, stop = some e → 0 ≤ e) :
    pySlice (v ++ w) (some s) stop step = pySlice v (some s) stop step := by
  apply List.ext_getElem?
  intro i
  rw [pySlice_neg_getElem? _ _ _ _ h, pySlice_neg_getElem? _ _ _ _ h]
  have hi : (i : Int) * step ≤ 0 := by nlinarith
  generalize (i : Int) * step = m at hi
  have hs' : ¬ s < 0 := by omega
  have e1 : sliceStart ((v ++ w).length : Nat) step (some s) = s := by
    simp only [sliceStart, adjust, h, List.length_append]; split <;> first | omega | (split <;> omega)
  have e2 : sliceStart (v.length : Nat) step (some s) = s := by
    simp only [sliceStart, adjust, h]; split <;> first | omega | (split <;> omega)
  rw [e1, e2]
  cases stop with
  | none =>
    simp only [sliceStop, h, if_true]
    split
    · rw [List.getElem?_append_left (by omega)]
    · rfl
  | some e =>
    have he := he e rfl
    have he' : ¬ e < 0 := by omega
    simp only [sliceStop, adjust, h, if_true, he', List.length_append, if_false]
    by_cases c : e < s + m
    · rw [if_neg (show ¬ e ≥ ((v.length + w.length : Nat) : Int) by omega),
        if_neg (show ¬ e ≥ (v.length : Int) by omega), if_pos c, if_pos c,
        List.getElem?_append_left (by omega)]
    · rw [if_neg, if_neg] <;> split <;> omega

theorem getElem?_append_suffix (w v : List V) (n : Int) (hn : w.length ≤ n) :
    (w ++ v)[n.toNat]? = v[(n - w.length).toNat]? := by
  rw [List.getElem?_append_right (by omega)]
  congr 1; omega

theorem pySlice_suffix_pos (w v : List V) (stop : Option Int) (s step : Int) (h : 0 < step)
    (hs0 : s < 0) (hs : -s ≤ v.length) (he : ∀ e, stop = some e → e < 0) :
    pySlice (w ++ v) (some s) stop step = pySlice v (some s) stop step := by
  apply List.ext_getElem?
  intro i
  rw [pySlice_pos_getElem? _ _ _ _ h, pySlice_pos_getElem? _ _ _ _ h]
  have hi : (0 : Int) ≤ (i : Int) * step := by positivity
  generalize (i : Int) * step = m at hi
  have hneg := not_lt.mpr h.le
  have e1 : sliceStart ((w ++ v).length : Nat) step (some s) = s + v.length + w.length := by
    simp [sliceStart, adjust, hneg]; omega
  have e2 : sliceStart (v.length : Nat) step (some s) = s + v.length := by
    simp [sliceStart, adjust, hneg]; omega
  rw [e1, e2]
  have key : ∀ E E' : Int, (s + v.length + w.length + m < E ↔ s + v.length + m < E') →
      (if s + v.length + w.length + m < E then some ((w ++ v)[(s + v.length + w.length + m).toNat]?) else none)
      = (if s + v.length + m < E' then some (v[(s + v.length + m).toNat]?) else none) := by
    intro E E' hE
    by_cases c : s + v.length + m < E'
    · rw [if_pos (hE.mpr c), if_pos c, getElem?_append_suffix _ _ _ (by omega)]
      congr 2; omega
    · rw [if_neg (fun h => c (hE.mp h)), if_neg c]
  apply key
  cases stop with
  | none => simp [sliceStop, hneg]; omega
  | some e =>
    have he := he e rfl
    simp only [sliceStop, adjust, hneg, if_false, he, if_true, List.length_append]
    (repeat' split) <;> omega

theorem pySlice_suffix_neg (w v : List V) (start : Option Int) (e step : Int) (h : step < 0)
    (he0 : e < 0) (he : -e - 1 ≤ v.length) (hs : ∀ s, start = some s → s < 0) :
    pySlice (w ++ v) start (some e) step = pySlice v start (some e) step := by
  apply List.ext_getElem?
  intro i
  rw [pySlice_neg_getElem? _ _ _ _ h, pySlice_neg_getElem? _ _ _ _ h]
  have hi : (i : Int) * step ≤ 0 := by nlinarith
  generalize (i : Int) * step = m at hi
  have key : ∀ E S E' S' : Int, (E < S + m ↔ E' < S' + m) → (E < S + m → S = S' + w.length) →
      w.length - 1 ≤ E →
      (if E < S + m then some ((w ++ v)[(S + m).toNat]?) else none)
      = (if E' < S' + m then some (v[(S' + m).toNat]?) else none) := by
    intro E S E' S' hE hSS hw
    by_cases c : E < S + m
    · rw [if_pos c, if_pos (hE.mp c), getElem?_append_suffix _ _ _ (by omega)]
      have := hSS c
      congr 2; omega
    · rw [if_neg c, if_neg (fun h => c (hE.mpr h))]
  cases start with
  | none =>
    apply key <;> simp only [sliceStop, sliceStart, adjust, h, if_true, he0, List.length_append] <;>
      (repeat' split) <;> omega
  | some s =>
    have hs := hs s rfl
    apply key <;> simp only [sliceStop, sliceStart, adjust, h, if_true, he0, hs, List.length_append] <;>
      (repeat' split) <;> omega

/-! ### Existence of the selected elements -/

theorem exists_of_all_some {P : V → Prop} (l : List (Option V)) (h : ∀ o ∈ l, ∃ v, o = some v ∧ P v) :
    ∃ rs : List V, l = rs.map some ∧ ∀ v ∈ rs, P v := by
  induction l with
  | nil => exact ⟨[], rfl, by simp⟩
  | cons o l ih =>
    obtain ⟨rs, h1, h2⟩ := ih (fun o ho => h o (by simp [ho]))
    obtain ⟨v, rfl, hv⟩ := h o (by simp)
    exact ⟨v :: rs, by simp [h1], by simpa using ⟨hv, h2⟩⟩

theorem pySlice_mem (vs : List V) (start stop : Option Int) (step : Int) (h : step ≠ 0) :
    ∃ rs : List V, pySlice vs start stop step = rs.map some ∧ ∀ v ∈ rs, v ∈ vs := by
  apply exists_of_all_some
  intro o ho
  obtain ⟨i, hi⟩ := List.getElem?_of_mem ho
  have fin : ∀ n : Nat, n < vs.length → some (vs[n]?) = some o → ∃ v, o = some v ∧ v ∈ vs := by
    intro n hn h
    rw [List.getElem?_eq_getElem hn] at h
    simp only [Option.some.injEq] at h
    exact ⟨vs[n], h.symm, List.getElem_mem hn⟩
  rcases lt_or_gt_of_ne h with h | h
  · rw [pySlice_neg_getElem? _ _ _ _ h] at hi
    split at hi
    · have h1 := sliceStop_neg_range vs.length step h stop
      have h2 := sliceStart_neg_range vs.length step h start
      have hm : (i : Int) * step ≤ 0 := by nlinarith
      exact fin _ (by omega) hi
    · simp at hi
  · rw [pySlice_pos_getElem? _ _ _ _ h] at hi
    split at hi
    · have h1 := sliceStop_pos_range vs.length step h stop
      have h2 := sliceStart_pos_range vs.length step h start
      have hm : (0 : Int) ≤ (i : Int) * step := by positivity
      exact fin _ (by omega) hi
    · simp at hi

/-! ### The special cases -/

theorem sliceSpecial_sound (mem : V → T → Prop) (b a : List T) (start stop : Option Int) (step : Int)
    (hstep : step ≠ 0) (hlb : b.length ≤ usizeMax) (hla : a.length ≤ usizeMax) (ts : List T)
    (h : sliceSpecial b a start stop step = some ts)
    (hok : step < 0 → start ≠ some (b.length : Int))
    (v1 v2 v3 : List V) (h1 : List.Forall₂ mem v1 b) (h3 : List.Forall₂ mem v3 a) :
    ∃ rs, pySlice (v1 ++ v2 ++ v3) start stop step = rs.map some ∧ List.Forall₂ mem rs ts := by
  have l1 := h1.length_eq
  have l3 := h3.length_eq
  have pre : pySlice (v1 ++ v2 ++ v3) start stop step = pySlice v1 start stop step →
      ts = asFixedLenTuple b start stop step →
      ∃ rs, pySlice (v1 ++ v2 ++ v3) start stop step = rs.map some ∧ List.Forall₂ mem rs ts := by
    rintro hp rfl
    exact ⟨_, hp.trans (asFixed_eq_pySlice v1 start stop step hstep (by omega)).symm,
      forall₂_asFixed h1 _ _ _⟩
  have suf : pySlice (v1 ++ v2 ++ v3) start stop step = pySlice v3 start stop step →
      ts = asFixedLenTuple a start stop step →
      ∃ rs, pySlice (v1 ++ v2 ++ v3) start stop step = rs.map some ∧ List.Forall₂ mem rs ts := by
    rintro hp rfl
    exact ⟨_, hp.trans (asFixed_eq_pySlice v3 start stop step hstep (by omega)).symm,
      forall₂_asFixed h3 _ _ _⟩
  unfold sliceSpecial at h
  split at h
  swap
  · simp at h
  rename_i hsign
  have signs : ∀ s e, start = some s → stop = some e → (s < 0 ∧ e < 0) ∨ (0 ≤ s ∧ 0 ≤ e) := by
    rintro s e rfl rfl
    simpa [isSameSign] using hsign
  -- the case where only `start` decides
  have byStart : ∀ s, start = some s →
      (if step < 0 then
          if s ≥ 0 ∧ s ≤ (b.length : Int) then some (asFixedLenTuple b start stop step) else none
        else if s < 0 ∧ -s ≤ (a.length : Int) then some (asFixedLenTuple a start stop step)
        else none) = some ts →
      ∃ rs, pySlice (v1 ++ v2 ++ v3) start stop step = rs.map some ∧ List.Forall₂ mem rs ts := by
    intro s hs h
    have signs := fun e => signs s e hs
    split at h
    · rename_i hneg
      split at h
      · rename_i hc
        have hok := hok hneg
        rw [hs] at hok
        apply pre
        · rw [List.append_assoc, hs]
          apply pySlice_prefix_neg _ _ _ _ _ hneg hc.1
          · have : s ≠ (b.length : Int) := fun h => hok (by rw [h])
            omega
          · intro e he; have := signs e he; omega
        · simpa using h.symm
      · simp at h
    · rename_i hneg
      split at h
      · rename_i hc
        apply suf
        · rw [hs]
          apply pySlice_suffix_pos _ _ _ _ _ (by omega) hc.1 (by omega)
          intro e he; have := signs e he; omega
        · simpa using h.symm
      · simp at h
  cases hstop : stop with
  | none =>
    rw [← hstop]
    simp only [hstop] at h
    rw [← hstop] at h
    cases hstart : start with
    | none => simp [hstart] at h
    | some s =>
      rw [← hstart]
      simp only [hstart] at h
      rw [← hstart] at h
      exact byStart s hstart h
  | some e =>
    rw [← hstop]
    simp only [hstop] at h
    rw [← hstop] at h
    have signs := fun s hs => signs s e hs hstop
    split at h
    · rename_i r hr
      cases h
      split at hr
      · rename_i hneg
        split at hr
        · rename_i hc
          apply suf
          · rw [hstop]
            apply pySlice_suffix_neg _ _ _ _ _ hneg hc.1 (by omega)
            intro s hs; have := signs s hs; omega
          · simpa using hr.symm
        · simp at hr
      · rename_i hneg
        split at hr
        · rename_i hc
          apply pre
          · rw [List.append_assoc, hstop]
            apply pySlice_prefix_pos _ _ _ _ _ (by omega) hc.1 (by omega)
            intro s hs; have := signs s hs; omega
          · simpa using hr.symm
        · simp at hr
    · cases hstart : start with
      | none => simp [hstart] at h
      | some s =>
        rw [← hstart]
        simp only [hstart] at h
        rw [← hstart] at h
        exact byStart s hstart h

/-! ### The general cases -/

theorem simplify_conforms (mem : V → T → Prop) (b : List T) (u : Unpack T) (a : List T) (vs : List V)
    (h : Conforms mem (.withUnpack b u a) vs) : Conforms mem (simplify b u a) vs := by
  unfold simplify
  split
  · obtain ⟨v1, v2, v3, rfl, h1, h2, h3⟩ := h
    cases h1; cases h3
    simpa [Conforms] using h2
  · exact h

theorem pySlice_one (v1 v2 v3 : List V) (start stop : Option Int)
    (hs0 : 0 ≤ start.getD 0) (hs : start.getD 0 ≤ v1.length)
    (he0 : ∀ e, stop = some e → e < 0) (he : -(stop.getD 0) ≤ v3.length) :
    pySlice (v1 ++ v2 ++ v3) start stop 1 =
      (v1.drop (start.getD 0).toNat ++ v2 ++ (v3.reverse.drop (-(stop.getD 0)).toNat).reverse).map some := by
  apply List.ext_getElem?
  intro i
  rw [pySlice_pos_getElem? _ _ _ _ (by omega)]
  have hS : sliceStart ((v1 ++ v2 ++ v3).length : Nat) 1 start = start.getD 0 := by
    cases start with
    | none => simp [sliceStart]
    | some s =>
      simp only [Option.getD_some] at *
      simp only [sliceStart, adjust, List.length_append]
      (repeat' split) <;> omega
  have hE : sliceStop ((v1 ++ v2 ++ v3).length : Nat) 1 stop
      = (v1 ++ v2 ++ v3).length + stop.getD 0 := by
    cases stop with
    | none => simp [sliceStop]
    | some e =>
      have := he0 e rfl
      simp only [Option.getD_some] at *
      simp only [sliceStop, adjust, List.length_append]
      (repeat' split) <;> omega
  rw [hS, hE]
  have hlist : v1.drop (start.getD 0).toNat ++ v2 ++ (v3.reverse.drop (-(stop.getD 0)).toNat).reverse
      = ((v1 ++ v2 ++ v3).drop (start.getD 0).toNat).take
        ((v1 ++ v2 ++ v3).length - (-(stop.getD 0)).toNat - (start.getD 0).toNat) := by
    have h1 : (start.getD 0).toNat ≤ v1.length := by omega
    have h2 : (-(stop.getD 0)).toNat ≤ v3.length := by omega
    generalize (start.getD 0).toNat = k1 at h1
    generalize (-(stop.getD 0)).toNat = k2 at h2
    have hd : (v1 ++ v2 ++ v3).drop k1 = v1.drop k1 ++ v2 ++ v3 := by
      rw [List.append_assoc, List.drop_append_of_le_length h1, List.append_assoc]
    rw [hd, List.take_append]
    have ht : (v1.drop k1 ++ v2).take ((v1 ++ v2 ++ v3).length - k2 - k1) = v1.drop k1 ++ v2 := by
      apply List.take_of_length_le
      simp only [List.length_append, List.length_drop]; omega
    rw [ht, List.reverse_drop, List.reverse_reverse, List.length_reverse]
    congr 2
    simp only [List.length_append, List.length_drop]; omega
  rw [hlist, List.getElem?_map, List.getElem?_take]
  generalize hs' : start.getD 0 = s at *
  generalize he' : stop.getD 0 = e at *
  have he2 : e ≤ 0 := by
    cases stop with
    | none => simp at he'; omega
    | some e'' => simp at he'; have := he0 e'' rfl; omega
  simp only [List.length_append] at *
  by_cases c : s + i * 1 < ((v1.length + v2.length + v3.length : Nat) : Int) + e
  · rw [if_pos c, if_pos (by omega), List.getElem?_drop]
    rw [show (s + (i : Int) * 1).toNat = s.toNat + i by omega, List.getElem?_eq_getElem (by simp; omega)]
    rfl
  · rw [if_neg c, if_neg (by omega)]
    rfl

theorem pySlice_reverse (vs : List V) : pySlice vs none none (-1) = vs.reverse.map some := by
  apply List.ext_getElem?
  intro i
  rw [pySlice_neg_getElem? _ _ _ _ (by omega), List.getElem?_map]
  have e1 : sliceStop (vs.length : Nat) (-1) none = -1 := rfl
  have e2 : sliceStart (vs.length : Nat) (-1) none = vs.length - 1 := rfl
  rw [e1, e2]
  by_cases c : i < vs.length
  · rw [List.getElem?_reverse c, if_pos (by omega), List.getElem?_eq_getElem (by omega),
      List.getElem?_eq_getElem (by omega)]
    simp only [Option.map_some, Option.some.injEq]
    congr 1
    omega
  · rw [if_neg (by omega), List.getElem?_eq_none (by simp; omega)]
    rfl

/-! ### Repetition and gathering -/

theorem forall₂_repeat {R : V → T → Prop} {vs : List V} {ts : List T} (h : List.Forall₂ R vs ts) (n : Nat) :
    List.Forall₂ R (List.replicate n vs).flatten (List.replicate n ts).flatten := by
  induction n with
  | zero => simp
  | succ n ih => simpa [List.replicate_succ] using List.rel_append h ih

theorem cycleTake_mul (ts : List T) (n : Nat) :
    cycleTake ts (n * ts.length) = (List.replicate n ts).flatten := by
  induction n with
  | zero => simp [cycleTake]
  | succ n ih =>
    rw [List.replicate_succ', List.flatten_append, ← ih]
    unfold cycleTake
    rw [Nat.add_mul, Nat.one_mul, List.range_add, List.filterMap_append]
    congr 1
    simp only [List.flatten_cons, List.flatten_nil, List.append_nil]
    rw [List.filterMap_map]
    have : ∀ i ∈ List.range ts.length, ((fun i => ts[i % ts.length]?) ∘ fun x => n * ts.length + x) i = ts[i]? := by
      intro i hi
      simp only [Function.comp]
      rw [Nat.mul_comm, Nat.mul_add_mod, Nat.mod_eq_of_lt (by simpa using hi)]
    rw [List.filterMap_congr this]
    apply List.ext_getElem?
    intro i
    clear this ih
    have : List.filterMap (fun i => ts[i]?) (List.range ts.length) = ts := by
      induction ts with
      | nil => rfl
      | cons t ts ih =>
        rw [List.length_cons, List.range_succ_eq_map, List.filterMap_cons]
        simp only [List.getElem?_cons_zero, List.filterMap_map, Function.comp_def,
          List.getElem?_cons_succ, ih]
    rw [this]

/-- What a gatherer denotes. -/
def GInv (mem : V → T → Prop) (g : Gatherer T) (vs : List V) : Prop :=
  match g.unpack with
  | none => g.after = [] ∧ List.Forall₂ mem vs g.before
  | some u => Conforms mem (.withUnpack g.before u g.after) vs

theorem gathered_conforms (mem : V → T → Prop) (g : Gatherer T) (vs : List V) (h : GInv mem g vs) :
    Conforms mem g.intoTupleArgs vs := by
  unfold GInv at h
  unfold Gatherer.intoTupleArgs
  split
  · rename_i t hu
    rw [hu] at h
    split
    · rename_i hc
      obtain ⟨v1, v2, v3, rfl, h1, h2, h3⟩ := h
      rw [hc.1] at h1; rw [hc.2] at h3
      cases h1; cases h3
      simpa [Conforms] using h2
    · exact h
  · rename_i u _ hu
    rw [hu] at h
    exact h
  · rename_i hu
    rw [hu] at h
    exact h.2

theorem addTypes_inv (mem : V → T → Prop) (g : Gatherer T) (ts : List T) (vs ws : List V)
    (h : GInv mem g vs) (hw : List.Forall₂ mem ws ts) : GInv mem (g.addTypes ts) (vs ++ ws) := by
  unfold GInv Gatherer.addTypes at *
  cases hu : g.unpack with
  | none =>
    simp only [hu] at h ⊢
    exact ⟨h.1, List.rel_append h.2 hw⟩
  | some u =>
    simp only [hu] at h ⊢
    obtain ⟨v1, v2, v3, rfl, h1, h2, h3⟩ := h
    exact ⟨v1, v2, v3 ++ ws, by simp, h1, h2, List.rel_append h3 hw⟩

theorem addTupleArgs_inv (mem : V → T → Prop) (g g' : Gatherer T) (p : Args T) (vs ws : List V)
    (h : GInv mem g vs) (hg : g.addTupleArgs p = some g') (hw : Conforms mem p ws) :
    GInv mem g' (vs ++ ws) := by
  unfold Gatherer.addTupleArgs at hg
  split at hg
  · cases hg; exact addTypes_inv mem g _ vs ws h hw
  · split at hg
    · simp at hg
    · rename_i hu
      cases hg
      unfold GInv at *
      rw [hu] at h
      exact ⟨vs, ws, [], by simp, h.2, hw, by rw [h.1]; exact .nil⟩
  · split at hg
    · simp at hg
    · rename_i hu
      cases hg
      unfold GInv at *
      rw [hu] at h
      obtain ⟨v1, v2, v3, rfl, h1, h2, h3⟩ := hw
      exact ⟨vs ++ v1, v2, v3, by simp, List.rel_append h.2 h1, h2, by rw [h.1]; exact h3⟩

theorem gather_fold (mem : V → T → Prop) (pieces : List (Args T)) (g g' : Gatherer T)
    (hg : pieces.foldlM (fun g p => Gatherer.addTupleArgs g p) g = some g')
    (vss : List (List V)) (hv : List.Forall₂ (fun vs p => Conforms mem p vs) vss pieces) (vs : List V)
    (h : GInv mem g vs) : GInv mem g' (vs ++ vss.flatten) := by
  induction pieces generalizing g vs vss with
  | nil =>
    cases hv
    simp only [List.foldlM_nil, Option.pure_def, Option.some.injEq] at hg
    subst hg
    simpa using h
  | cons p ps ih =>
    rcases hv with _ | ⟨h1, hv⟩
    rw [List.foldlM_cons, Option.bind_eq_bind, Option.bind_eq_some_iff] at hg
    obtain ⟨g1, e1, hg⟩ := hg
    have := ih g1 hg _ hv _ (addTupleArgs_inv mem g g1 p vs _ h e1 h1)
    simpa using this

end Verif.Tuple
