import Verif.Variance.Lemmas

/-!
# Inference of variances: what is proved
-/

namespace Verif.Variance

variable {w : World} {i : Nat}

/-! ## The comparison with `object` (C174) -/

theorem isSub_up {t : Ty} (hp : Plain w i t) (hf : Flat t) :
    isSub w t (t.put i) = true ↔ Only w.params i true t := by
  unfold isSub
  exact ⟨hp.says.up _, fun h => (hf.holds (w := w)).up h _ (by omega)⟩

theorem isSub_down {t : Ty} (hp : Plain w i t) (hf : Flat t) :
    isSub w (t.put i) t = true ↔ Only w.params i false t := by
  unfold isSub
  exact ⟨hp.says.down _, fun h => (hf.holds (w := w)).down h _ (by omega)⟩

/-- Both flags of the check are those of the places where the type variable occurs. -/
theorem check_partial {t : Ty} (hp : Plain w i t) (hf : Flat t) {co contra : Bool}
    (h : check w i t = some (co, contra)) :
    (co = true ↔ Only w.params i true t) ∧ (contra = true ↔ Only w.params i false t) := by
  unfold check at h
  split at h
  · cases h
    exact ⟨isSub_up hp hf, isSub_down hp hf⟩
  · cases h

/-- Without the conditions for unions, a type whose places are right passes. -/
theorem check_complete {t : Ty} (hf : Flat t) {co contra : Bool} (h : check w i t = some (co, contra)) :
    (Only w.params i true t → co = true) ∧ (Only w.params i false t → contra = true) := by
  unfold check at h
  split at h
  · cases h
    unfold isSub
    exact ⟨fun h => (hf.holds (w := w)).up h _ (by omega), fun h => (hf.holds (w := w)).down h _ (by omega)⟩
  · cases h

/-- There is no result if and only if the type variable does not occur. -/
theorem check_none {t : Ty} : check w i t = none ↔ Without i t := by
  rw [without_iff]
  unfold check
  cases t.occurs i <;> simp

/-- The values of a type that can be covariant grow with those of the type variable. -/
theorem covariant_grows_partial {t : Ty} (hp : Plain w i t) {contra : Bool}
    (h : check w i t = some (true, contra)) : Grows w.params i t := by
  unfold check at h
  split at h
  · injection h with h
    injection h with h1 h2
    exact (hp.says.up _ h1).grows
  · cases h

/-- The values of a type that can be contravariant shrink if those of the type variable grow. -/
theorem contravariant_shrinks_partial {t : Ty} (hp : Plain w i t) {co : Bool}
    (h : check w i t = some (co, true)) : Shrinks w.params i t := by
  unfold check at h
  split at h
  · injection h with h
    injection h with h1 h2
    exact (hp.says.down _ h2).shrinks
  · cases h

/-! ## Classes -/

/-- What the check of a base class says. -/
def baseFlags (w : World) (i : Nat) (t : Ty) : Bool × Bool := (check w i t).getD (true, true)

def memberFlags (w : World) (c i : Nat) (m : Member) : Bool × Bool :=
  if m.constructor then (true, true)
  else
    match check w i (erase c m.ty) with
    | none => (true, true)
    | some (a, b) => (a && !(!b && m.writable && !m.underscored), b)

def norm (co contra : Bool) : State := if !co && !contra then .done else .go co contra

theorem baseStep_norm (co contra : Bool) (t : Ty) : baseStep w i (norm co contra) t =
    norm (co && (baseFlags w i t).1) (contra && (baseFlags w i t).2) := by
  unfold baseFlags
  cases h : check w i t with
  | none => cases co <;> cases contra <;> simp [norm, baseStep, h]
  | some p =>
    obtain ⟨a, b⟩ := p
    cases co <;> cases contra <;> cases a <;> cases b <;> simp [norm, baseStep, h]

theorem memberStep_norm (c : Nat) (co contra : Bool) (m : Member) : memberStep w c i (norm co contra) m =
    norm (co && (memberFlags w c i m).1) (contra && (memberFlags w c i m).2) := by
  unfold memberFlags
  by_cases hc : m.constructor = true
  · cases co <;> cases contra <;> simp [norm, memberStep, hc]
  · cases h : check w i (erase c m.ty) with
    | none => cases co <;> cases contra <;> simp [norm, memberStep, h, hc]
    | some p =>
      obtain ⟨a, b⟩ := p
      cases co <;> cases contra <;> cases a <;> cases b <;> cases hw : m.writable <;>
        cases hu : m.underscored <;> simp [norm, memberStep, h, hc, hw, hu]

theorem foldl_norm {α : Type} {f : State → α → State} {g : α → Bool × Bool}
    (h : ∀ co contra x, f (norm co contra) x = norm (co && (g x).1) (contra && (g x).2))
    (xs : List α) (co contra : Bool) : xs.foldl f (norm co contra) =
      norm (co && xs.all fun x => (g x).1) (contra && xs.all fun x => (g x).2) := by
  induction xs generalizing co contra with
  | nil => simp
  | cons x xs ih => rw [List.foldl_cons, h, ih]; simp [Bool.and_assoc]

/-- The two flags at the end. -/
def allFlags (w : World) (i : Nat) (C : Class) : Bool × Bool :=
  ((C.bases.all fun t => (baseFlags w i t).1) && C.members.all fun m => (memberFlags w C.id i m).1,
    (C.bases.all fun t => (baseFlags w i t).2) && C.members.all fun m => (memberFlags w C.id i m).2)

theorem infer_eq (C : Class) : infer w i C = some (match allFlags w i C with
    | (true, _) => .cov
    | (false, true) => .contra
    | (false, false) => .inv) := by
  unfold infer
  rw [show State.go true true = norm true true from rfl,
    foldl_norm (fun a b t => baseStep_norm a b t), foldl_norm (fun a b m => memberStep_norm C.id a b m)]
  simp only [Bool.true_and]
  show _ = some (match ((allFlags w i C).1, (allFlags w i C).2) with
    | (true, _) => Variance.cov
    | (false, true) => .contra
    | (false, false) => .inv)
  change (match norm (allFlags w i C).1 (allFlags w i C).2 with
    | .done => some Variance.inv
    | .go false true => some .contra
    | .go false false => none
    | .go true _ => some .cov) = _
  cases (allFlags w i C).1 <;> cases (allFlags w i C).2 <;> rfl

/-- The end of the function that should not be reached is not reached (C178). -/
theorem infer_total (C : Class) : ∃ v, infer w i C = some v := ⟨_, infer_eq C⟩

theorem allFlags_fst {C : Class} (h : infer w i C = some .cov) : (allFlags w i C).1 = true := by
  rw [infer_eq] at h
  generalize allFlags w i C = p at h ⊢
  obtain ⟨a, b⟩ := p
  cases a <;> cases b <;> simp at h ⊢

theorem allFlags_snd {C : Class} (h : infer w i C = some .contra) : (allFlags w i C).2 = true := by
  rw [infer_eq] at h
  generalize allFlags w i C = p at h ⊢
  obtain ⟨a, b⟩ := p
  cases a <;> cases b <;> simp at h ⊢

theorem erase_only {params : Nat → List Variance} {c : Nat} {t : Ty} {p : Bool} (h : Only params i p t) :
    Only params i p (erase c t) := by
  unfold erase
  split
  · split
    · cases h with | fn h1 h2 => exact .fn h1 .any
    · exact h
  · exact h

/-- The own class with its own type variables. -/
theorem own_only {params : Nat → List Variance} {c : Nat} {as : List Ty} {p : Bool}
    (h : ∀ (k : Nat) a, as[k]? = some a → a = .var k)
    (hi : (params c)[i]? = some (if p then .cov else .contra)) : Only params i p (.cls c as) := by
  refine .cls ?_ ?_ ?_ ?_
  · intro k a hv ha
    have := h k a ha
    subst this
    by_cases hk : k = i
    · subst hk
      rw [hi] at hv
      cases p with
      | true => exact .self
      | false => simp at hv
    · exact .var hk
  · intro k a hv ha
    have := h k a ha
    subst this
    by_cases hk : k = i
    · subst hk
      rw [hi] at hv
      cases p with
      | true => simp at hv
      | false => exact .self
    · exact .var hk
  · intro k a hv ha
    have := h k a ha
    subst this
    by_cases hk : k = i
    · subst hk
      rw [hi] at hv
      cases p <;> simp at hv
    · exact .var hk
  · intro k a hv ha
    have := h k a ha
    subst this
    by_cases hk : k = i
    · subst hk
      rw [hi] at hv
      cases p <;> simp at hv
    · exact .var hk

theorem erase_plain {c : Nat} {t : Ty} (h : Plain w i t) : Plain w i (erase c t) := by
  unfold erase
  split
  · split
    · cases h with | fn h1 h2 => exact .fn h1 .any
    · exact h
  · exact h

theorem erase_flat {c : Nat} {t : Ty} (h : Flat t) : Flat (erase c t) := by
  unfold erase
  split
  · split
    · cases h with | fn h1 h2 => exact .fn h1 .any
    · exact h
  · exact h

/-- From the erased type back to the type. -/
theorem only_of_erase {params : Nat → List Variance} {C : Class} {m : Member} {p : Bool}
    (hr : Regular C m) (hi : (params C.id)[i]? = some (if p then .cov else .contra))
    (h : Only params i p (erase C.id m.ty)) : Only params i p m.ty := by
  generalize ht : m.ty = t at h ⊢
  unfold erase at h
  split at h
  · next ps d as =>
    split at h
    · next hd =>
      have hd : d = C.id := by simpa using hd
      subst hd
      cases h with | fn h1 h2 => exact .fn h1 (own_only (hr ps as ht).2 hi)
    · exact h
  · exact h

theorem erase_eq {C : Class} {m : Member} (hr : Regular C m) (hw : m.writable = true) :
    erase C.id m.ty = m.ty := by
  generalize ht : m.ty = t
  unfold erase
  split
  · next ps d as =>
    split
    · next hd =>
      have hd : d = C.id := by simpa using hd
      subst hd
      rw [(hr ps as ht).1] at hw; cases hw
    · rfl
  · rfl

/-- If a type parameter is inferred as covariant, then the values of all base classes and of all
names grow with those of the type variable, and names that can be assigned do not depend on it
(C176). While the variance is inferred, it counts as covariant.

Missing: unions, functions that return the own class with other arguments. -/
theorem covariant_class_partial {C : Class} (hself : (w.params C.id)[i]? = some .cov)
    (hb : ∀ t ∈ C.bases, Plain w i t) (hm : ∀ m ∈ C.members, Plain w i m.ty)
    (hr : ∀ m ∈ C.members, Regular C m) (h : infer w i C = some .cov) :
    (∀ t ∈ C.bases, Grows w.params i t) ∧
    ∀ m ∈ C.members, m.constructor = false → Grows w.params i m.ty ∧
      (m.writable = true → m.underscored = false → Shrinks w.params i m.ty) := by
  have hall := allFlags_fst h
  simp only [allFlags, Bool.and_eq_true, List.all_eq_true] at hall
  constructor
  · intro t ht
    have h1 := hall.1 t ht
    unfold baseFlags at h1
    cases hc : check w i t with
    | none => exact ((check_none.1 hc).only true).grows
    | some p =>
      obtain ⟨a, b⟩ := p
      simp only [hc, Option.getD_some] at h1
      subst h1
      exact covariant_grows_partial (hb t ht) hc
  · intro m hmem hcon
    have h1 := hall.2 m hmem
    simp only [memberFlags, hcon, Bool.false_eq_true, if_false] at h1
    cases hc : check w i (erase C.id m.ty) with
    | none =>
      have hw := check_none.1 hc
      refine ⟨(only_of_erase (hr m hmem) hself (hw.only true)).grows, ?_⟩
      intro hwr _
      rw [erase_eq (hr m hmem) hwr] at hw
      exact (hw.only false).shrinks
    | some p =>
      obtain ⟨a, b⟩ := p
      simp only [hc, Bool.and_eq_true] at h1
      obtain ⟨rfl, h2⟩ := h1
      have hs := (erase_plain (c := C.id) (hm m hmem)).says
      unfold check at hc
      split at hc
      · injection hc with hc
        injection hc with h3 h4
        refine ⟨(only_of_erase (hr m hmem) hself (hs.up _ h3)).grows, ?_⟩
        intro hwr hu
        cases b with
        | true =>
          rw [erase_eq (hr m hmem) hwr] at hs h4
          exact (hs.down _ h4).shrinks
        | false => simp [hwr, hu] at h2
      · cases hc

theorem Avoids.only {params params' : Nat → List Variance} {c : Nat} {t : Ty} {p : Bool} (ha : Avoids c t)
    (hp : ∀ d, d ≠ c → params' d = params d) (h : Only params i p t) : Only params' i p t := by
  induction h with
  | object => exact .object
  | never => exact .never
  | any => exact .any
  | self => exact .self
  | var h => exact .var h
  | cls h1 h2 h3 h4 i1 i2 i3 i4 =>
    cases ha with | cls hd ha =>
    rename_i d as
    have e := hp _ hd
    exact .cls (fun k a hv hk => i1 k a (by rw [← e]; exact hv) hk (ha a (List.mem_of_getElem? hk)))
      (fun k a hv hk => i2 k a (by rw [← e]; exact hv) hk (ha a (List.mem_of_getElem? hk)))
      (fun k a hv hk => i3 k a (by rw [← e]; exact hv) hk (ha a (List.mem_of_getElem? hk)))
      (fun k a hv hk => i4 k a (by rw [← e]; exact hv) hk (ha a (List.mem_of_getElem? hk)))
  | fn h1 h2 i1 i2 =>
    cases ha with | fn a1 a2 => exact .fn (fun a hm => i1 a hm (a1 a hm)) (i2 a2)
  | union h ih =>
    cases ha with | union a1 => exact .union fun a hm => ih a hm (a1 a hm)

/-- If a type parameter is inferred as contravariant, then the values of all base classes and of all
names shrink if those of the type variable grow (C177). The variances are those with the result.

Missing: unions, and names with the own class other than as the result of a function. -/
theorem contravariant_class_partial {C : Class} (hself : i < (w.params C.id).length)
    (hb : ∀ t ∈ C.bases, Plain w i t ∧ Avoids C.id t)
    (hm : ∀ m ∈ C.members, Plain w i m.ty ∧ Avoids C.id (erase C.id m.ty))
    (hr : ∀ m ∈ C.members, Regular C m) (h : infer w i C = some .contra) :
    (∀ t ∈ C.bases, Shrinks (declare w.params C.id i .contra) i t) ∧
    ∀ m ∈ C.members, m.constructor = false → Shrinks (declare w.params C.id i .contra) i m.ty := by
  have hall := allFlags_snd h
  simp only [allFlags, Bool.and_eq_true, List.all_eq_true] at hall
  have hp : ∀ d, d ≠ C.id → declare w.params C.id i .contra d = w.params d := by
    intro d hd; simp [declare, hd]
  have hi : (declare w.params C.id i .contra C.id)[i]? = some (if false then .cov else .contra) := by
    simp [declare, hself]
  constructor
  · intro t ht
    have h1 := hall.1 t ht
    unfold baseFlags at h1
    cases hc : check w i t with
    | none => exact ((check_none.1 hc).only false).shrinks
    | some p =>
      obtain ⟨a, b⟩ := p
      simp only [hc, Option.getD_some] at h1
      subst h1
      unfold check at hc
      split at hc
      · injection hc with hc
        injection hc with h3 h4
        exact ((hb t ht).2.only hp ((hb t ht).1.says.down _ h4)).shrinks
      · cases hc
  · intro m hmem hcon
    have h1 := hall.2 m hmem
    simp only [memberFlags, hcon, Bool.false_eq_true, if_false] at h1
    have key : Only w.params i false (erase C.id m.ty) := by
      cases hc : check w i (erase C.id m.ty) with
      | none => exact (check_none.1 hc).only false
      | some p =>
        obtain ⟨a, b⟩ := p
        simp only [hc] at h1
        subst h1
        unfold check at hc
        split at hc
        · injection hc with hc
          injection hc with h3 h4
          exact (erase_plain (c := C.id) (hm m hmem).1).says.down _ h4
        · cases hc
    exact (only_of_erase (hr m hmem) hi ((hm m hmem).2.only hp key)).shrinks

/-- A type parameter is only inferred as invariant if it has to be: some name or base class cannot
be covariant, and some name or base class cannot be contravariant (C178). -/
theorem invariant_reason {C : Class} (hb : ∀ t ∈ C.bases, Flat t) (hm : ∀ m ∈ C.members, Flat m.ty)
    (h : infer w i C = some .inv) :
    ((∃ t ∈ C.bases, ¬ Only w.params i true t) ∨ ∃ m ∈ C.members, m.constructor = false ∧
      (¬ Only w.params i true m.ty ∨
        m.writable = true ∧ m.underscored = false ∧ ¬ Only w.params i false m.ty)) ∧
    ((∃ t ∈ C.bases, ¬ Only w.params i false t) ∨ ∃ m ∈ C.members, m.constructor = false ∧
      ¬ Only w.params i false m.ty) := by
  rw [infer_eq] at h
  have h1 : (allFlags w i C).1 = false ∧ (allFlags w i C).2 = false := by
    generalize allFlags w i C = p at h ⊢
    obtain ⟨a, b⟩ := p
    cases a <;> cases b <;> simp at h ⊢
  simp only [allFlags, Bool.and_eq_false_iff, List.all_eq_false, Bool.not_eq_true] at h1
  obtain ⟨h1, h2⟩ := h1
  constructor
  · rcases h1 with ⟨t, ht, hf⟩ | ⟨m, hmem, hf⟩
    · left
      refine ⟨t, ht, ?_⟩
      intro ho
      unfold baseFlags at hf
      cases hc : check w i t with
      | none => simp [hc] at hf
      | some p =>
        obtain ⟨a, b⟩ := p
        simp only [hc, Option.getD_some] at hf
        rw [(check_complete (hb t ht) hc).1 ho] at hf; cases hf
    · right
      unfold memberFlags at hf
      split at hf
      · cases hf
      · next hcon =>
        refine ⟨m, hmem, by simpa using hcon, ?_⟩
        cases hc : check w i (erase C.id m.ty) with
        | none => simp [hc] at hf
        | some p =>
          obtain ⟨a, b⟩ := p
          simp only [hc] at hf
          have hcc := check_complete (erase_flat (hm m hmem)) hc
          cases a with
          | false =>
            left
            intro ho
            exact absurd (hcc.1 (erase_only ho)) (by simp)
          | true =>
            right
            simp only [Bool.true_and, Bool.not_eq_false', Bool.and_eq_true, Bool.not_eq_true'] at hf
            refine ⟨hf.1.2, hf.2, fun ho => ?_⟩
            rw [hcc.2 (erase_only ho)] at hf
            simp at hf
  · rcases h2 with ⟨t, ht, hf⟩ | ⟨m, hmem, hf⟩
    · left
      refine ⟨t, ht, ?_⟩
      intro ho
      unfold baseFlags at hf
      cases hc : check w i t with
      | none => simp [hc] at hf
      | some p =>
        obtain ⟨a, b⟩ := p
        simp only [hc, Option.getD_some] at hf
        rw [(check_complete (hb t ht) hc).2 ho] at hf; cases hf
    · right
      unfold memberFlags at hf
      split at hf
      · cases hf
      · next hcon =>
        refine ⟨m, hmem, by simpa using hcon, ?_⟩
        intro ho
        cases hc : check w i (erase C.id m.ty) with
        | none => simp [hc] at hf
        | some p =>
          obtain ⟨a, b⟩ := p
          simp only [hc] at hf
          rw [(check_complete (erase_flat (hm m hmem)) hc).2 (erase_only ho)] at hf; cases hf

/-- Contravariant is only inferred if the type parameter cannot be covariant (C178). -/
theorem contravariant_reason {C : Class} (hb : ∀ t ∈ C.bases, Flat t) (hm : ∀ m ∈ C.members, Flat m.ty)
    (h : infer w i C = some .contra) :
    (∃ t ∈ C.bases, ¬ Only w.params i true t) ∨ ∃ m ∈ C.members, m.constructor = false ∧
      ¬ Only w.params i true m.ty := by
  rw [infer_eq] at h
  have h1 : (allFlags w i C).1 = false ∧ (allFlags w i C).2 = true := by
    generalize allFlags w i C = p at h ⊢
    obtain ⟨a, b⟩ := p
    cases a <;> cases b <;> simp at h ⊢
  simp only [allFlags, Bool.and_eq_false_iff, List.all_eq_false, Bool.not_eq_true, Bool.and_eq_true,
    List.all_eq_true] at h1
  obtain ⟨h1, h2⟩ := h1
  rcases h1 with ⟨t, ht, hf⟩ | ⟨m, hmem, hf⟩
  · left
    refine ⟨t, ht, ?_⟩
    intro ho
    unfold baseFlags at hf
    cases hc : check w i t with
    | none => simp [hc] at hf
    | some p =>
      obtain ⟨a, b⟩ := p
      simp only [hc, Option.getD_some] at hf
      rw [(check_complete (hb t ht) hc).1 ho] at hf; cases hf
  · right
    have hb := h2.2 m hmem
    unfold memberFlags at hf hb
    split at hf
    · cases hf
    · next hcon =>
      refine ⟨m, hmem, by simpa using hcon, ?_⟩
      intro ho
      rw [if_neg hcon] at hb
      cases hc : check w i (erase C.id m.ty) with
      | none => simp [hc] at hf
      | some p =>
        obtain ⟨a, b⟩ := p
        simp only [hc] at hf hb
        rw [(check_complete (erase_flat (hm m hmem)) hc).1 (erase_only ho), hb] at hf
        simp at hf

/-! ## Declared variances (C179) -/

/-- Nothing is reported for a base class if and only if the type variable occurs only at places for
its variance. -/
theorem declared_partial {v : Variance} {t : Ty} (hp : Plain w i t) (hf : Flat t) :
    reported w i v t = false ↔ (v = .cov → Only w.params i true t) ∧ (v = .contra → Only w.params i false t) := by
  cases hc : check w i t with
  | none =>
    have hw := check_none.1 hc
    constructor
    · intro _
      exact ⟨fun _ => hw.only _, fun _ => hw.only _⟩
    · intro _
      cases v <;> simp [reported, hc]
  | some p =>
    obtain ⟨a, b⟩ := p
    obtain ⟨h1, h2⟩ := check_partial hp hf hc
    rw [← h1, ← h2]
    cases v <;> cases a <;> cases b <;> simp [reported, hc]

/-- So base classes keep the declared variance. -/
theorem declared_keeps_partial {v : Variance} {t : Ty} (hp : Plain w i t) (hf : Flat t)
    (h : reported w i v t = false) :
    (v = .cov → Grows w.params i t) ∧ (v = .contra → Shrinks w.params i t) :=
  ⟨fun hv => (((declared_partial hp hf).1 h).1 hv).grows, fun hv => (((declared_partial hp hf).1 h).2 hv).shrinks⟩

/-! ## Where the results are wrong

Classes: `0` and `3` are invariant (think of `list`), `1` is covariant, `2` is `Sink`. -/

def demoParams : Nat → List Variance
  | 0 => [.inv]
  | 1 => [.cov]
  | 2 => [.contra]
  | 3 => [.inv]
  | _ => []

/-- While the variance of class `2` is inferred, it counts as covariant. -/
def demo : World where
  params := fun c => if c = 2 then [.cov] else demoParams c
  other := fun _ _ => false

theorem declare_demo : declare demo.params 2 0 .contra = demoParams := by
  funext c
  unfold declare demo
  by_cases h : c = 2
  · subst h; rfl
  · simp [h]

/-- A meaning of the classes. -/
def model : Meaning Bool where
  cls := fun c as v => match c with
    | 0 => v = true ∧ ∃ A, as[0]? = some A ∧ ∀ x, ¬ A x
    | 1 => ∃ A, as[0]? = some A ∧ A v
    | 2 => ∃ A, as[0]? = some A ∧ ∀ x, ¬ A x
    | 3 => v = true ∧ ∃ A, as[0]? = some A ∧ ∀ x, A x ↔ x = true
    | _ => False
  fn := fun ps r v => (∀ A ∈ ps, ∀ x, ¬ A x) ∧ r v
  dyn := fun _ => False

theorem first {α β : Type} {as : List α} {bs : List β} {a : α} (h : as.length = bs.length)
    (ha : as[0]? = some a) : ∃ b, bs[0]? = some b := by
  cases as <;> cases bs <;> simp at h ha ⊢

theorem model_fn (ps qs : List (Bool → Prop)) (r q : Bool → Prop) (hl : ps.length = qs.length)
    (h : ∀ (k : Nat) a b, ps[k]? = some a → qs[k]? = some b → Within b a) (hr : Within r q) :
    Within (model.fn ps r) (model.fn qs q) := by
  rintro v ⟨h1, h2⟩
  refine ⟨?_, hr v h2⟩
  intro A hA x hx
  obtain ⟨k, hk⟩ := List.mem_iff_getElem?.1 hA
  have hlt : k < ps.length := by
    rw [hl]; exact (List.getElem?_eq_some_iff.1 hk).1
  exact h1 ps[k] (List.getElem_mem hlt) x (h k ps[k] A (List.getElem?_eq_getElem hlt) hk x hx)

theorem lawful : Lawful demoParams model where
  fn := model_fn
  cls := by
    intro c as bs hl h v hv
    match c, h, hv with
    | 0, h, ⟨h1, A, hA, he⟩ =>
      obtain ⟨B, hB⟩ := first hl hA
      have := h 0 .inv A B rfl hA hB
      exact ⟨h1, B, hB, fun x hx => he x (this.2 x hx)⟩
    | 1, h, ⟨A, hA, he⟩ =>
      obtain ⟨B, hB⟩ := first hl hA
      exact ⟨B, hB, h 0 .cov A B rfl hA hB v he⟩
    | 2, h, ⟨A, hA, he⟩ =>
      obtain ⟨B, hB⟩ := first hl hA
      exact ⟨B, hB, fun x hx => he x (h 0 .contra A B rfl hA hB x hx)⟩
    | 3, h, ⟨h1, A, hA, he⟩ =>
      obtain ⟨B, hB⟩ := first hl hA
      have := h 0 .inv A B rfl hA hB
      exact ⟨h1, B, hB, fun x => ⟨fun hx => (he x).1 (this.2 x hx), fun hx => this.1 x ((he x).2 hx)⟩⟩
    | _ + 4, _, hv => exact hv.elim

/-- `T | list[T]` is judged to be covariant, because everything is an `object`; but a list of one
type is not a list of a wider one, and it need not have that wider type itself. -/
theorem union_violation : check demo 0 (.union [.var 0, .cls 0 [.var 0]]) = some (true, false) ∧
    ¬ Grows demoParams 0 (.union [.var 0, .cls 0 [.var 0]]) := by
  refine ⟨by decide +kernel, fun h => ?_⟩
  have := h Bool model (fun _ _ => False) (fun _ => False) (fun x => x = false) lawful
    (fun v hv => hv.elim) true
    (Or.inr (Or.inl ⟨rfl, _, rfl, fun x hx => by simp [Meaning.values, set] at hx⟩))
  rcases this with h1 | h1 | h1
  · simp [Meaning.values, set] at h1
  · obtain ⟨_, A, hA, h2⟩ := h1
    simp only [Meaning.list, List.getElem?_cons_zero, Option.some.injEq] at hA
    subst hA
    exact h2 false (by simp [Meaning.values, set])
  · exact h1

/-- `list[T] | list[object]` is judged to be contravariant, because `list[object]` is one of its
members; but the other member is not. -/
theorem union_contra_violation :
    check demo 0 (.union [.cls 3 [.var 0], .cls 3 [.object]]) = some (false, true) ∧
    ¬ Shrinks demoParams 0 (.union [.cls 3 [.var 0], .cls 3 [.object]]) := by
  refine ⟨by decide +kernel, fun h => ?_⟩
  have := h Bool model (fun _ _ => False) (fun _ => False) (fun x => x = true) lawful
    (fun v hv => hv.elim) true
    (Or.inl ⟨rfl, _, rfl, fun x => by simp [Meaning.values, set]⟩)
  rcases this with h1 | h1 | h1
  · obtain ⟨_, A, hA, h2⟩ := h1
    simp only [Meaning.list, List.getElem?_cons_zero, Option.some.injEq] at hA
    subst hA
    have := (h2 true).2 rfl
    simp [Meaning.values, set] at this
  · obtain ⟨_, A, hA, h2⟩ := h1
    simp only [Meaning.list, List.getElem?_cons_zero, Option.some.injEq] at hA
    subst hA
    have := (h2 false).1 (by simp [Meaning.values])
    simp at this
  · exact h1

/-- A class with `def get(self) -> T | list[T]` is inferred as covariant. -/
theorem covariant_union_violation :
    infer demo 0 { id := 1, members := [{ ty := .fn [] (.union [.var 0, .cls 0 [.var 0]]) }] } = some .cov ∧
    ¬ Grows demoParams 0 (.fn [] (.union [.var 0, .cls 0 [.var 0]])) := by
  refine ⟨by decide +kernel, fun h => ?_⟩
  have := h Bool model (fun _ _ => False) (fun _ => False) (fun x => x = false) lawful
    (fun v hv => hv.elim) true
    ⟨fun A hA => by simp [Meaning.list] at hA,
      Or.inr (Or.inl ⟨rfl, _, rfl, fun x hx => by simp [Meaning.values, set] at hx⟩)⟩
  rcases this.2 with h1 | h1 | h1
  · simp [Meaning.values, set] at h1
  · obtain ⟨_, A, hA, h2⟩ := h1
    simp only [Meaning.list, List.getElem?_cons_zero, Option.some.injEq] at hA
    subst hA
    exact h2 false (by simp [Meaning.values, set])
  · exact h1

/-- A class with `def copy(self) -> C[list[T]]` is inferred as covariant, because the return type is
replaced by `Any` whatever its arguments are. -/
theorem covariant_return_violation :
    infer demo 0 { id := 1, members := [{ ty := .fn [] (.cls 1 [.cls 0 [.var 0]]) }] } = some .cov ∧
    ¬ Grows demoParams 0 (.fn [] (.cls 1 [.cls 0 [.var 0]])) := by
  refine ⟨by decide +kernel, fun h => ?_⟩
  have := h Bool model (fun _ _ => False) (fun _ => False) (fun x => x = false) lawful
    (fun v hv => hv.elim) true
    ⟨fun A hA => by simp [Meaning.list] at hA,
      ⟨_, rfl, rfl, _, rfl, fun x hx => by simp [Meaning.values, set] at hx⟩⟩
  obtain ⟨A, hA, h2⟩ := this.2
  simp only [Meaning.list, List.getElem?_cons_zero, Option.some.injEq] at hA
  subst hA
  obtain ⟨_, B, hB, h3⟩ := h2
  simp only [Meaning.list, List.getElem?_cons_zero, Option.some.injEq] at hB
  subst hB
  exact h3 false (by simp [Meaning.values, set])

/-- A class with an attribute `make: Callable[[], C[T]]` is inferred as covariant although
the attribute can be assigned. -/
theorem covariant_writable_violation :
    infer demo 0 { id := 1, members := [{ ty := .fn [] (.cls 1 [.var 0]), writable := true }] } = some .cov ∧
    ¬ Shrinks demoParams 0 (.fn [] (.cls 1 [.var 0])) := by
  refine ⟨by decide +kernel, fun h => ?_⟩
  have := h Bool model (fun _ _ => False) (fun _ => False) (fun x => x = true) lawful
    (fun v hv => hv.elim) true
    ⟨fun A hA => by simp [Meaning.list] at hA, ⟨_, rfl, by simp [Meaning.values, set]⟩⟩
  obtain ⟨A, hA, h2⟩ := this.2
  simp only [Meaning.list, List.getElem?_cons_zero, Option.some.injEq] at hA
  subst hA
  simp [Meaning.values, set] at h2

/-- A class with an attribute `put: Callable[[T], None]` is inferred as contravariant although the
attribute can be assigned: whether it can is only asked of types that cannot be contravariant. -/
theorem contravariant_writable_violation :
    infer demo 0 { id := 2, members := [{ ty := .fn [.var 0] .object, writable := true }] } = some .contra ∧
    ¬ Grows demoParams 0 (.fn [.var 0] .object) := by
  refine ⟨by decide +kernel, fun h => ?_⟩
  have := h Bool model (fun _ _ => False) (fun _ => False) (fun x => x = true) lawful
    (fun v hv => hv.elim) true
    ⟨fun A hA x hx => by
      simp only [Meaning.list, List.mem_singleton] at hA
      subst hA
      simp [Meaning.values, set] at hx, by simp [Meaning.values]⟩
  exact this.1 _ (by simp only [Meaning.list]; exact List.mem_singleton.2 rfl) true
    (by simp [Meaning.values, set])

/-- A class `Sink` with `def put(self, x: T)` and `def pipe(self, other: Sink[T])` is inferred as
contravariant, because it counts as covariant while it is inferred; with the result, the parameter of
`pipe` makes it invariant. -/
theorem contravariant_recursive_violation :
    infer demo 0 { id := 2, members := [{ ty := .fn [.var 0] .object },
      { ty := .fn [.cls 2 [.var 0]] .object }] } = some .contra ∧
    ¬ Shrinks (declare demo.params 2 0 .contra) 0 (.fn [.cls 2 [.var 0]] .object) := by
  refine ⟨by decide +kernel, fun h => ?_⟩
  rw [declare_demo] at h
  have := h Bool model (fun _ _ => False) (fun _ => False) (fun x => x = true) lawful
    (fun v hv => hv.elim) true
    ⟨fun A hA x hx => by
      simp only [Meaning.list, List.mem_singleton] at hA
      subst hA
      obtain ⟨B, hB, h2⟩ := hx
      simp only [Meaning.list, List.getElem?_cons_zero, Option.some.injEq] at hB
      subst hB
      exact h2 true (by simp [Meaning.values, set]), by simp [Meaning.values]⟩
  exact this.1 (model.values (set (fun _ _ => False) 0 fun _ => False) (.cls 2 [.var 0]))
    (by simp only [Meaning.list]; exact List.mem_singleton.2 rfl) true
    ⟨_, rfl, fun x hx => by simp [Meaning.values, set] at hx⟩

/-! ## Examples -/

/-- `Callable[[T], None] | None` with a class `4` for `None`. -/
def sample : Ty := .union [.fn [.var 0] (.cls 4 []), .cls 4 []]

theorem sample_plain : Plain demo 0 sample := by
  refine .union ?_ ?_
  · intro t ht
    simp only [List.mem_cons, List.not_mem_nil, or_false] at ht
    rcases ht with rfl | rfl
    · exact .fn (fun a ha => by rw [List.mem_singleton.1 ha]; exact .var)
        (.cls fun a ha => by simp at ha)
    · exact .cls fun a ha => by simp at ha
  · intro t ht
    simp only [List.mem_cons, List.not_mem_nil, or_false] at ht
    rcases ht with rfl | rfl
    · right
      refine ⟨(fun us h => nomatch h), fun o ho => ?_⟩
      simp only [List.mem_cons, List.not_mem_nil, or_false] at ho
      rcases ho with rfl | rfl
      · exact .inl rfl
      · exact .inr (.clsFn fun _ _ _ => rfl)
    · left
      exact .cls fun a ha => by simp at ha

theorem sample_flat : Flat sample := by
  refine .union ?_ ?_
  · intro t ht
    simp only [List.mem_cons, List.not_mem_nil, or_false] at ht
    rcases ht with rfl | rfl
    · exact .fn (fun a ha => by rw [List.mem_singleton.1 ha]; exact .var)
        (.cls fun a ha => by simp at ha)
    · exact .cls fun a ha => by simp at ha
  · intro t ht us h
    subst h
    simp at ht

example : Shrinks demo.params 0 sample :=
  contravariant_shrinks_partial sample_plain (co := false) (by decide +kernel)

example : Only demo.params 0 false sample :=
  (check_partial sample_plain sample_flat (show check demo 0 sample = some (false, true) by
    decide +kernel)).2.1 rfl

example : reported demo 0 .contra sample = false ∧ reported demo 0 .cov sample = true := by
  decide +kernel

/-- `get(self) -> T`, `copy(self) -> C[T]` and `_item: T` that can be assigned. -/
def sampleClass : Class where
  id := 1
  bases := [.cls 1 [.var 0]]
  members := [{ ty := .fn [] (.var 0) }, { ty := .fn [] (.cls 1 [.var 0]) },
    { ty := .var 0, writable := true, underscored := true },
    { ty := .fn [.var 0] .object, constructor := true }]

example : infer demo 0 sampleClass = some .cov := by decide +kernel

example : Grows demo.params 0 (.fn [] (.cls 1 [.var 0])) := by
  refine ((covariant_class_partial (C := sampleClass) (w := demo) (i := 0) rfl ?_ ?_ ?_
    (by decide +kernel)).2 { ty := .fn [] (.cls 1 [.var 0]) } (by simp [sampleClass]) rfl).1
  · intro t ht
    rw [List.mem_singleton.1 ht]
    exact .cls fun a ha => by rw [List.mem_singleton.1 ha]; exact .var
  · intro m hm
    simp only [sampleClass, List.mem_cons, List.not_mem_nil, or_false] at hm
    rcases hm with rfl | rfl | rfl | rfl
    · exact .fn (fun a ha => by simp at ha) .var
    · exact .fn (fun a ha => by simp at ha) (.cls fun a ha => by rw [List.mem_singleton.1 ha]; exact .var)
    · exact .var
    · exact .fn (fun a ha => by rw [List.mem_singleton.1 ha]; exact .var) .object
  · intro m hm ps as he
    simp only [sampleClass, List.mem_cons, List.not_mem_nil, or_false] at hm
    rcases hm with rfl | rfl | rfl | rfl
    · simp at he
    · injection he with h1 h2
      injection h2 with h2 h3
      subst h3
      refine ⟨rfl, fun k a hk => ?_⟩
      match k, hk with
      | 0, hk => simpa using hk.symm
    · simp at he
    · simp at he

/-- `put(self, x: T) -> Sink[T]`. -/
example : Shrinks (declare demo.params 2 0 .contra) 0 (.fn [.var 0] (.cls 2 [.var 0])) := by
  refine (contravariant_class_partial (w := demo) (i := 0)
    (C := { id := 2, members := [{ ty := .fn [.var 0] (.cls 2 [.var 0]) }] }) (by decide +kernel)
    (fun t ht => by simp at ht) ?_ ?_ (by decide +kernel)).2
    { ty := .fn [.var 0] (.cls 2 [.var 0]) } (by simp) rfl
  · intro m hm
    rw [List.mem_singleton.1 hm]
    exact ⟨.fn (fun a ha => by rw [List.mem_singleton.1 ha]; exact .var)
      (.cls fun a ha => by rw [List.mem_singleton.1 ha]; exact .var),
      .fn (fun a ha => by rw [List.mem_singleton.1 ha]; exact .var) .any⟩
  · intro m hm ps as he
    rw [List.mem_singleton.1 hm] at he ⊢
    injection he with h1 h2
    injection h2 with h2 h3
    subst h3
    refine ⟨rfl, fun k a hk => ?_⟩
    match k, hk with
    | 0, hk => simpa using hk.symm

/-- A list with `get` and `put` is invariant. -/
example : infer demo 0 { id := 3, members := [{ ty := .fn [] (.var 0) }, { ty := .fn [.var 0] .object }] } =
    some .inv := by decide +kernel

/-- And so is a class with an attribute that can be assigned. -/
example : infer demo 0 { id := 3, members := [{ ty := .var 0, writable := true }] } = some .inv := by
  decide +kernel

/-- Without names it is covariant. -/
example : infer demo 0 { id := 3 } = some .cov := by decide +kernel

end Verif.Variance
