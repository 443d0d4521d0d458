import Verif.Variance.Spec

/-!
# Lemmas about variances
-/

namespace Verif.Variance

/-! ## Lists -/

theorem zipAll_iff {f : Ty → Ty → Bool} {as bs : List Ty} : zipAll f as bs = true ↔
    as.length = bs.length ∧ ∀ (k : Nat) a b, as[k]? = some a → bs[k]? = some b → f a b = true := by
  induction as generalizing bs with
  | nil => cases bs <;> simp [zipAll]
  | cons a as ih =>
    cases bs with
    | nil => simp [zipAll]
    | cons b bs =>
      simp only [zipAll, Bool.and_eq_true, ih, List.length_cons, Nat.add_right_cancel_iff]
      constructor
      · rintro ⟨h, hl, hall⟩
        refine ⟨hl, ?_⟩
        intro k x y hx hy
        cases k with
        | zero => simp at hx hy; subst hx; subst hy; exact h
        | succ k => exact hall k x y (by simpa using hx) (by simpa using hy)
      · rintro ⟨hl, hall⟩
        exact ⟨hall 0 a b rfl rfl, hl, fun k x y hx hy => hall (k + 1) x y (by simpa using hx)
          (by simpa using hy)⟩

theorem zipArgs_iff {f : Variance → Ty → Ty → Bool} {as bs : List Ty} {vs : List Variance} :
    zipArgs f as bs vs = true ↔ ∀ (k : Nat) v a b, vs[k]? = some v → as[k]? = some a →
      bs[k]? = some b → f v a b = true := by
  induction as generalizing bs vs with
  | nil => simp [zipArgs]
  | cons a as ih =>
    cases bs with
    | nil => simp [zipArgs]
    | cons b bs =>
      cases vs with
      | nil => simp [zipArgs]
      | cons v vs =>
        simp only [zipArgs, Bool.and_eq_true, ih]
        constructor
        · rintro ⟨h, hall⟩ k u x y hu hx hy
          cases k with
          | zero => simp at hu hx hy; subst hu; subst hx; subst hy; exact h
          | succ k => exact hall k u x y (by simpa using hu) (by simpa using hx) (by simpa using hy)
        · intro hall
          exact ⟨hall 0 v a b rfl rfl rfl, fun k u x y hu hx hy => hall (k + 1) u x y
            (by simpa using hu) (by simpa using hx) (by simpa using hy)⟩

theorem puts_eq (i : Nat) (ts : List Ty) : puts i ts = ts.map (Ty.put i) := by
  induction ts with
  | nil => rfl
  | cons t ts ih => simp [puts, ih]

theorem occursIn_iff {i : Nat} {ts : List Ty} : occursIn i ts = true ↔ ∃ t ∈ ts, t.occurs i = true := by
  induction ts with
  | nil => simp [occursIn]
  | cons t ts ih => simp [occursIn, ih]

theorem sizes_mem {t : Ty} {ts : List Ty} (h : t ∈ ts) : t.size ≤ sizes ts := by
  induction ts with
  | nil => cases h
  | cons u us ih =>
    rcases List.mem_cons.1 h with rfl | h
    · simp only [sizes]; omega
    · have := ih h
      simp only [sizes]; omega

theorem size_pos (t : Ty) : 0 < t.size := by
  cases t <;> simp [Ty.size]

/-- Induction over types. -/
theorem Ty.induct {P : Ty → Prop} (object : P .object) (never : P .never) (any : P .any)
    (var : ∀ n, P (.var n)) (cls : ∀ c as, (∀ a ∈ as, P a) → P (.cls c as))
    (fn : ∀ ps r, (∀ a ∈ ps, P a) → P r → P (.fn ps r))
    (union : ∀ ts, (∀ t ∈ ts, P t) → P (.union ts)) (t : Ty) : P t := by
  have key : ∀ n, ∀ t : Ty, t.size ≤ n → P t := by
    intro n
    induction n with
    | zero => intro t h; have := size_pos t; omega
    | succ n ih =>
      intro t h
      cases t with
      | object => exact object
      | never => exact never
      | any => exact any
      | var n => exact var n
      | cls c as =>
        refine cls c as fun a ha => ih a ?_
        have := sizes_mem ha
        simp only [Ty.size] at h; omega
      | fn ps r =>
        simp only [Ty.size] at h
        refine fn ps r (fun a ha => ih a ?_) (ih r ?_)
        · have := sizes_mem ha; omega
        · omega
      | union ts =>
        refine union ts fun a ha => ih a ?_
        have := sizes_mem ha
        simp only [Ty.size] at h; omega
  exact key _ t (Nat.le_refl _)

theorem size_put (i : Nat) (t : Ty) : (t.put i).size = t.size := by
  have list : ∀ ts : List Ty, (∀ t ∈ ts, (t.put i).size = t.size) → sizes (puts i ts) = sizes ts := by
    intro ts
    induction ts with
    | nil => intro _; rfl
    | cons t ts ih =>
      intro h
      simp only [puts, sizes]
      rw [h t (by simp), ih fun x hx => h x (by simp [hx])]
  induction t using Ty.induct with
  | object => rfl
  | never => rfl
  | any => rfl
  | var n => simp only [Ty.put]; split <;> rfl
  | cls c as ih => simp only [Ty.put, Ty.size, list as ih]
  | fn ps r ih1 ih2 => simp only [Ty.put, Ty.size, list ps ih1, ih2]
  | union ts ih => simp only [Ty.put, Ty.size, list ts ih]

/-! ## Occurrences -/

theorem without_iff {i : Nat} {t : Ty} : Without i t ↔ t.occurs i = false := by
  induction t using Ty.induct with
  | object => exact ⟨fun _ => rfl, fun _ => .object⟩
  | never => exact ⟨fun _ => rfl, fun _ => .never⟩
  | any => exact ⟨fun _ => rfl, fun _ => .any⟩
  | var n =>
    simp only [Ty.occurs, beq_eq_false_iff_ne]
    exact ⟨fun h => by cases h; assumption, .var⟩
  | cls c as ih =>
    simp only [Ty.occurs, Bool.eq_false_iff, ne_eq, occursIn_iff]
    constructor
    · rintro h ⟨t, ht, ho⟩
      cases h with | cls h =>
      rw [(ih t ht).1 (h t ht)] at ho; cases ho
    · intro h
      exact .cls fun a ha => (ih a ha).2 (by
        cases ho : a.occurs i with
        | false => rfl
        | true => exact absurd ⟨a, ha, ho⟩ h)
  | fn ps r ih1 ih2 =>
    simp only [Ty.occurs, Bool.or_eq_false_iff]
    constructor
    · intro h
      cases h with | fn h1 h2 =>
      refine ⟨?_, ih2.1 h2⟩
      simp only [Bool.eq_false_iff, ne_eq, occursIn_iff]
      rintro ⟨t, ht, ho⟩
      rw [(ih1 t ht).1 (h1 t ht)] at ho; cases ho
    · rintro ⟨h1, h2⟩
      refine .fn (fun a ha => (ih1 a ha).2 ?_) (ih2.2 h2)
      cases ho : a.occurs i with
      | false => rfl
      | true => rw [occursIn_iff.2 ⟨a, ha, ho⟩] at h1; cases h1
  | union ts ih =>
    simp only [Ty.occurs, Bool.eq_false_iff, ne_eq, occursIn_iff]
    constructor
    · rintro h ⟨t, ht, ho⟩
      cases h with | union h =>
      rw [(ih t ht).1 (h t ht)] at ho; cases ho
    · intro h
      exact .union fun a ha => (ih a ha).2 (by
        cases ho : a.occurs i with
        | false => rfl
        | true => exact absurd ⟨a, ha, ho⟩ h)

theorem Without.only {params : Nat → List Variance} {i : Nat} {t : Ty} (h : Without i t) (p : Bool) :
    Only params i p t := by
  induction h generalizing p with
  | object => exact .object
  | never => exact .never
  | any => exact .any
  | var h => exact .var h
  | cls h ih =>
    exact .cls (fun k a _ ha => ih a (List.mem_of_getElem? ha) _)
      (fun k a _ ha => ih a (List.mem_of_getElem? ha) _)
      (fun k a _ ha => ih a (List.mem_of_getElem? ha) _)
      (fun k a _ ha => ih a (List.mem_of_getElem? ha) _)
  | fn _ _ ih1 ih2 => exact .fn (fun a ha => ih1 a ha _) (ih2 _)
  | union _ ih => exact .union fun a ha => ih a ha _

/-! ## The comparison with `object` in the place of the type variable -/

variable {w : World} {i : Nat}

theorem Apart.left {o t : Ty} (h : Apart w i o t) (n : Nat) : matchesN w n false (o.put i) t = false := by
  cases n with
  | zero => rfl
  | succ n =>
    cases h with
    | clsSelf => simp [Ty.put, matchesN]
    | fnSelf => simp [Ty.put, matchesN]
    | varSelf h => simp [Ty.put, matchesN, h]
    | varCls h => simp [Ty.put, matchesN, h]
    | varFn h => simp [Ty.put, matchesN, h]
    | cls h ho => simp [Ty.put, matchesN, h, ho]
    | clsFn ho => simp [Ty.put, matchesN, ho]
    | fnCls ho => simp [Ty.put, matchesN, ho]
    | fn h =>
      simp only [Ty.put, matchesN, Bool.and_eq_false_iff]
      left
      rw [Bool.eq_false_iff, ne_eq, zipAll_iff]
      simp [puts_eq, h]

theorem Apart.right {o t : Ty} (h : Apart w i o t) (n : Nat) : matchesN w n false o (t.put i) = false := by
  cases n with
  | zero => rfl
  | succ n =>
    cases h with
    | clsSelf => simp [Ty.put, matchesN]
    | fnSelf => simp [Ty.put, matchesN]
    | varSelf h => simp [Ty.put, matchesN]
    | varCls h => simp [Ty.put, matchesN]
    | varFn h => simp [Ty.put, matchesN]
    | cls h ho => simp [Ty.put, matchesN, h, ho]
    | clsFn ho => simp [Ty.put, matchesN, ho]
    | fnCls ho => simp [Ty.put, matchesN, ho]
    | fn h =>
      simp only [Ty.put, matchesN, Bool.and_eq_false_iff]
      left
      rw [Bool.eq_false_iff, ne_eq, zipAll_iff]
      simp [puts_eq, h]

/-- What the four comparisons say about the occurrences. -/
structure Says (w : World) (i : Nat) (t : Ty) : Prop where
  up : ∀ n, matchesN w n false (t.put i) t = true → Only w.params i true t
  down : ∀ n, matchesN w n false t (t.put i) = true → Only w.params i false t
  same : ∀ n, matchesN w n true (t.put i) t = true → Only w.params i true t ∧ Only w.params i false t
  same' : ∀ n, matchesN w n true t (t.put i) = true → Only w.params i true t ∧ Only w.params i false t

theorem says_of_without {t : Ty} (h : Without i t) : Says w i t :=
  ⟨fun _ _ => h.only _, fun _ _ => h.only _, fun _ _ => ⟨h.only _, h.only _⟩,
    fun _ _ => ⟨h.only _, h.only _⟩⟩

theorem says_cls {c : Nat} {as : List Ty} (ih : ∀ a ∈ as, Says w i a) : Says w i (.cls c as) := by
  have up : ∀ n, matchesN w n false ((Ty.cls c as).put i) (.cls c as) = true →
      Only w.params i true (.cls c as) := by
    intro n h
    cases n with
    | zero => simp [matchesN] at h
    | succ n =>
      simp only [Ty.put, matchesN, beq_self_eq_true, if_true, zipArgs_iff, puts_eq,
        List.getElem?_map, Option.map_eq_some_iff] at h
      have h' : ∀ (k : Nat) v a, (w.params c)[k]? = some v → as[k]? = some a → _ :=
        fun k v a hv ha => h k v _ a hv ⟨a, ha, rfl⟩ ha
      refine .cls ?_ ?_ ?_ ?_
      · intro k a hv ha
        exact (ih a (List.mem_of_getElem? ha)).up n (h' k _ a hv ha)
      · intro k a hv ha
        exact (ih a (List.mem_of_getElem? ha)).down n (h' k _ a hv ha)
      · intro k a hv ha
        exact ((ih a (List.mem_of_getElem? ha)).same n (h' k _ a hv ha)).1
      · intro k a hv ha
        exact ((ih a (List.mem_of_getElem? ha)).same n (h' k _ a hv ha)).2
  have down : ∀ n, matchesN w n false (.cls c as) ((Ty.cls c as).put i) = true →
      Only w.params i false (.cls c as) := by
    intro n h
    cases n with
    | zero => simp [matchesN] at h
    | succ n =>
      simp only [Ty.put, matchesN, beq_self_eq_true, if_true, zipArgs_iff, puts_eq,
        List.getElem?_map, Option.map_eq_some_iff] at h
      have h' : ∀ (k : Nat) v a, (w.params c)[k]? = some v → as[k]? = some a → _ :=
        fun k v a hv ha => h k v a _ hv ha ⟨a, ha, rfl⟩
      refine .cls ?_ ?_ ?_ ?_
      · intro k a hv ha
        exact (ih a (List.mem_of_getElem? ha)).down n (h' k _ a hv ha)
      · intro k a hv ha
        exact (ih a (List.mem_of_getElem? ha)).up n (h' k _ a hv ha)
      · intro k a hv ha
        exact ((ih a (List.mem_of_getElem? ha)).same' n (h' k _ a hv ha)).2
      · intro k a hv ha
        exact ((ih a (List.mem_of_getElem? ha)).same' n (h' k _ a hv ha)).1
  have both : (∀ (k : Nat) a (v : Variance), (w.params c)[k]? = some v → as[k]? = some a →
      Only w.params i true a ∧ Only w.params i false a) →
      Only w.params i true (.cls c as) ∧ Only w.params i false (.cls c as) := by
    intro h
    exact ⟨.cls (fun k a hv ha => (h k a _ hv ha).1) (fun k a hv ha => (h k a _ hv ha).2)
        (fun k a hv ha => (h k a _ hv ha).1) (fun k a hv ha => (h k a _ hv ha).2),
      .cls (fun k a hv ha => (h k a _ hv ha).2) (fun k a hv ha => (h k a _ hv ha).1)
        (fun k a hv ha => (h k a _ hv ha).2) (fun k a hv ha => (h k a _ hv ha).1)⟩
  refine ⟨up, down, ?_, ?_⟩
  · intro n h
    cases n with
    | zero => simp [matchesN] at h
    | succ n =>
      simp only [Ty.put, matchesN, beq_self_eq_true, Bool.true_and, zipArgs_iff, puts_eq,
        List.getElem?_map, Option.map_eq_some_iff] at h
      exact both fun k a v hv ha => (ih a (List.mem_of_getElem? ha)).same n (h k v _ a hv ⟨a, ha, rfl⟩ ha)
  · intro n h
    cases n with
    | zero => simp [matchesN] at h
    | succ n =>
      simp only [Ty.put, matchesN, beq_self_eq_true, Bool.true_and, zipArgs_iff, puts_eq,
        List.getElem?_map, Option.map_eq_some_iff] at h
      exact both fun k a v hv ha => (ih a (List.mem_of_getElem? ha)).same' n (h k v a _ hv ha ⟨a, ha, rfl⟩)

theorem says_fn {ps : List Ty} {r : Ty} (ih1 : ∀ a ∈ ps, Says w i a) (ih2 : Says w i r) :
    Says w i (.fn ps r) := by
  have up : ∀ n, matchesN w n false ((Ty.fn ps r).put i) (.fn ps r) = true →
      Only w.params i true (.fn ps r) := by
    intro n h
    cases n with
    | zero => simp [matchesN] at h
    | succ n =>
      simp only [Ty.put, matchesN, Bool.and_eq_true, zipAll_iff, puts_eq,
        List.getElem?_map, Option.map_eq_some_iff] at h
      refine .fn ?_ (ih2.up n h.2)
      intro a ha
      obtain ⟨k, hk⟩ := List.getElem?_of_mem ha
      exact (ih1 a ha).down n (h.1.2 k _ a ⟨a, hk, rfl⟩ hk)
  have down : ∀ n, matchesN w n false (.fn ps r) ((Ty.fn ps r).put i) = true →
      Only w.params i false (.fn ps r) := by
    intro n h
    cases n with
    | zero => simp [matchesN] at h
    | succ n =>
      simp only [Ty.put, matchesN, Bool.and_eq_true, zipAll_iff, puts_eq,
        List.getElem?_map, Option.map_eq_some_iff] at h
      refine .fn ?_ (ih2.down n h.2)
      intro a ha
      obtain ⟨k, hk⟩ := List.getElem?_of_mem ha
      exact (ih1 a ha).up n (h.1.2 k a _ hk ⟨a, hk, rfl⟩)
  refine ⟨up, down, ?_, ?_⟩
  · intro n h
    cases n with
    | zero => simp [matchesN] at h
    | succ n =>
      have h : (matchesN w n false ((Ty.fn ps r).put i) (.fn ps r) &&
        matchesN w n false (.fn ps r) ((Ty.fn ps r).put i)) = true := h
      rw [Bool.and_eq_true] at h
      exact ⟨up n h.1, down n h.2⟩
  · intro n h
    cases n with
    | zero => simp [matchesN] at h
    | succ n =>
      have h : (matchesN w n false (.fn ps r) ((Ty.fn ps r).put i) &&
        matchesN w n false ((Ty.fn ps r).put i) (.fn ps r)) = true := h
      rw [Bool.and_eq_true] at h
      exact ⟨up n h.2, down n h.1⟩

/-- A union accepts what one of its members accepts. -/
theorem union_accepts {n : Nat} {ts : List Ty} {s : Ty} (h1 : s ≠ .any) (h2 : ∀ us, s ≠ .union us)
    (h : matchesN w (n + 1) false (.union ts) s = true) : ∃ t ∈ ts, matchesN w n false t s = true := by
  cases s with
  | any => exact absurd rfl h1
  | union us => exact absurd rfl (h2 us)
  | _ => simpa [matchesN] using h

theorem says_union {ts : List Ty} (ih : ∀ t ∈ ts, Says w i t)
    (ha : ∀ t ∈ ts, Without i t ∨ (∀ us, t ≠ .union us) ∧ ∀ o ∈ ts, o = t ∨ Apart w i o t) :
    Says w i (.union ts) := by
  have shape : ∀ t : Ty, ¬ Without i t → (∀ us, t ≠ .union us) →
      t ≠ .any ∧ t.put i ≠ .any ∧ ∀ us, t.put i ≠ .union us := by
    intro t h hu
    cases t with
    | object => exact absurd .object h
    | never => exact absurd .never h
    | any => exact absurd .any h
    | var n => simp only [Ty.put]; split <;> simp
    | cls c as => simp [Ty.put]
    | fn ps r => simp [Ty.put]
    | union us => exact absurd rfl (hu us)
  have up : ∀ n, matchesN w n false ((Ty.union ts).put i) (.union ts) = true →
      Only w.params i true (.union ts) := by
    intro n h
    cases n with
    | zero => simp [matchesN] at h
    | succ n =>
      refine .union fun t ht => ?_
      by_cases hw : Without i t
      · exact hw.only _
      obtain ⟨hu, ho⟩ := (ha t ht).resolve_left hw
      obtain ⟨h1, -, -⟩ := shape t hw hu
      simp only [Ty.put, matchesN, List.all_eq_true] at h
      have h := h t ht
      cases n with
      | zero => simp [matchesN] at h
      | succ n =>
        obtain ⟨o', ho', hm⟩ := union_accepts h1 hu h
        rw [puts_eq, List.mem_map] at ho'
        obtain ⟨o, hot, rfl⟩ := ho'
        rcases ho o hot with rfl | hap
        · exact (ih o ht).up n hm
        · rw [hap.left] at hm; cases hm
  have down : ∀ n, matchesN w n false (.union ts) ((Ty.union ts).put i) = true →
      Only w.params i false (.union ts) := by
    intro n h
    cases n with
    | zero => simp [matchesN] at h
    | succ n =>
      refine .union fun t ht => ?_
      by_cases hw : Without i t
      · exact hw.only _
      obtain ⟨hu, ho⟩ := (ha t ht).resolve_left hw
      obtain ⟨-, h1, h2⟩ := shape t hw hu
      simp only [Ty.put, matchesN, List.all_eq_true] at h
      have h := h (t.put i) (by rw [puts_eq]; exact List.mem_map_of_mem ht)
      cases n with
      | zero => simp [matchesN] at h
      | succ n =>
        obtain ⟨o, hot, hm⟩ := union_accepts h1 h2 h
        rcases ho o hot with rfl | hap
        · exact (ih o ht).down n hm
        · rw [hap.right] at hm; cases hm
  refine ⟨up, down, ?_, ?_⟩
  · intro n h
    cases n with
    | zero => simp [matchesN] at h
    | succ n =>
      have h : (matchesN w n false ((Ty.union ts).put i) (.union ts) &&
        matchesN w n false (.union ts) ((Ty.union ts).put i)) = true := h
      rw [Bool.and_eq_true] at h
      exact ⟨up n h.1, down n h.2⟩
  · intro n h
    cases n with
    | zero => simp [matchesN] at h
    | succ n =>
      have h : (matchesN w n false (.union ts) ((Ty.union ts).put i) &&
        matchesN w n false ((Ty.union ts).put i) (.union ts)) = true := h
      rw [Bool.and_eq_true] at h
      exact ⟨up n h.2, down n h.1⟩

theorem says_var (n : Nat) : Says w i (.var n) := by
  by_cases h : n = i
  · subst h
    refine ⟨fun _ _ => .self, ?_, ?_, ?_⟩ <;> intro k hk <;> cases k <;> simp [Ty.put, matchesN] at hk
  · exact says_of_without (.var h)

theorem Plain.says {t : Ty} (h : Plain w i t) : Says w i t := by
  induction h with
  | object => exact says_of_without .object
  | never => exact says_of_without .never
  | any => exact says_of_without .any
  | var => exact says_var _
  | cls _ ih => exact says_cls ih
  | fn _ _ ih1 ih2 => exact says_fn ih1 ih2
  | union _ ha ih => exact says_union ih ha

/-! ## The other direction -/

/-- The comparisons hold with enough fuel. -/
structure Holds (w : World) (i : Nat) (t : Ty) : Prop where
  up : Only w.params i true t → ∀ n, 2 * t.size ≤ n → matchesN w n false (t.put i) t = true
  down : Only w.params i false t → ∀ n, 2 * t.size ≤ n → matchesN w n false t (t.put i) = true
  same : Only w.params i true t → Only w.params i false t → ∀ n, 2 * t.size < n →
    matchesN w n true (t.put i) t = true ∧ matchesN w n true t (t.put i) = true

theorem holds_leaf {t : Ty} (ht : t.put i = t) (h : ∀ n, matchesN w (n + 1) false t t = true)
    (h' : ∀ n, matchesN w (n + 1) true t t = true) : Holds w i t := by
  have pos := size_pos t
  refine ⟨?_, ?_, ?_⟩
  · intro _ n hn
    cases n with
    | zero => omega
    | succ n => rw [ht]; exact h n
  · intro _ n hn
    cases n with
    | zero => omega
    | succ n => rw [ht]; exact h n
  · intro _ _ n hn
    cases n with
    | zero => omega
    | succ n => rw [ht]; exact ⟨h' n, h' n⟩

theorem holds_cls {c : Nat} {as : List Ty} (ih : ∀ a ∈ as, Holds w i a) : Holds w i (.cls c as) := by
  refine ⟨?_, ?_, ?_⟩
  · intro ho n hn
    cases ho with | cls h1 h2 h3 h4 =>
    cases n with
    | zero => simp only [Ty.size] at hn; omega
    | succ n =>
      simp only [Ty.put, matchesN, beq_self_eq_true, if_true, zipArgs_iff, puts_eq,
        List.getElem?_map, Option.map_eq_some_iff]
      rintro k v x b hv ⟨a, ha, rfl⟩ hb
      obtain rfl : a = b := by rw [ha] at hb; exact Option.some.inj hb
      have hs := sizes_mem (List.mem_of_getElem? ha)
      simp only [Ty.size] at hn
      have I := ih a (List.mem_of_getElem? ha)
      cases v with
      | cov => exact I.up (h1 k a hv ha) n (by omega)
      | contra => exact I.down (h2 k a hv ha) n (by omega)
      | inv => exact (I.same (h3 k a hv ha) (h4 k a hv ha) n (by omega)).1
  · intro ho n hn
    cases ho with | cls h1 h2 h3 h4 =>
    cases n with
    | zero => simp only [Ty.size] at hn; omega
    | succ n =>
      simp only [Ty.put, matchesN, beq_self_eq_true, if_true, zipArgs_iff, puts_eq,
        List.getElem?_map, Option.map_eq_some_iff]
      rintro k v x b hv ha ⟨a, hb, rfl⟩
      rw [ha] at hb; cases hb
      have hs := sizes_mem (List.mem_of_getElem? ha)
      simp only [Ty.size] at hn
      have I := ih x (List.mem_of_getElem? ha)
      cases v with
      | cov => exact I.down (h1 k x hv ha) n (by omega)
      | contra => exact I.up (h2 k x hv ha) n (by omega)
      | inv => exact (I.same (h4 k x hv ha) (h3 k x hv ha) n (by omega)).2
  · intro h h' n hn
    cases h with | cls h1 h2 h3 h4 =>
    cases h' with | cls g1 g2 g3 g4 =>
    have both : ∀ (k : Nat) a (v : Variance), (w.params c)[k]? = some v → as[k]? = some a →
        Only w.params i true a ∧ Only w.params i false a := by
      intro k a v hv ha
      cases v with
      | cov => exact ⟨h1 k a hv ha, g1 k a hv ha⟩
      | contra => exact ⟨g2 k a hv ha, h2 k a hv ha⟩
      | inv => exact ⟨h3 k a hv ha, g3 k a hv ha⟩
    cases n with
    | zero => omega
    | succ n =>
      simp only [Ty.put, matchesN, beq_self_eq_true, Bool.true_and, zipArgs_iff, puts_eq,
        List.getElem?_map, Option.map_eq_some_iff]
      simp only [Ty.size] at hn
      constructor
      · rintro k v x b hv ⟨a, ha, rfl⟩ hb
        obtain rfl : a = b := by rw [ha] at hb; exact Option.some.inj hb
        have hs := sizes_mem (List.mem_of_getElem? ha)
        have hb := both k a v hv ha
        exact ((ih a (List.mem_of_getElem? ha)).same hb.1 hb.2 n (by omega)).1
      · rintro k v x b hv ha ⟨a, hb, rfl⟩
        rw [ha] at hb; cases hb
        have hs := sizes_mem (List.mem_of_getElem? ha)
        have hb := both k x v hv ha
        exact ((ih x (List.mem_of_getElem? ha)).same hb.1 hb.2 n (by omega)).2

theorem holds_fn {ps : List Ty} {r : Ty} (ih1 : ∀ a ∈ ps, Holds w i a) (ih2 : Holds w i r) :
    Holds w i (.fn ps r) := by
  have up : Only w.params i true (.fn ps r) → ∀ n, 2 * (Ty.fn ps r).size ≤ n →
      matchesN w n false ((Ty.fn ps r).put i) (.fn ps r) = true := by
    intro ho n hn
    cases ho with | fn h1 h2 =>
    simp only [Ty.size] at hn
    cases n with
    | zero => omega
    | succ n =>
      simp only [Ty.put, matchesN, Bool.and_eq_true, zipAll_iff, puts_eq,
        List.getElem?_map, Option.map_eq_some_iff]
      refine ⟨⟨by simp, ?_⟩, ih2.up h2 n (by omega)⟩
      rintro k x b ⟨a, ha, rfl⟩ hb
      obtain rfl : a = b := by rw [ha] at hb; exact Option.some.inj hb
      have hs := sizes_mem (List.mem_of_getElem? ha)
      have hm := List.mem_of_getElem? ha
      exact (ih1 a hm).down (h1 a hm) n (by omega)
  have down : Only w.params i false (.fn ps r) → ∀ n, 2 * (Ty.fn ps r).size ≤ n →
      matchesN w n false (.fn ps r) ((Ty.fn ps r).put i) = true := by
    intro ho n hn
    cases ho with | fn h1 h2 =>
    simp only [Ty.size] at hn
    cases n with
    | zero => omega
    | succ n =>
      simp only [Ty.put, matchesN, Bool.and_eq_true, zipAll_iff, puts_eq,
        List.getElem?_map, Option.map_eq_some_iff]
      refine ⟨⟨by simp, ?_⟩, ih2.down h2 n (by omega)⟩
      rintro k x b ha ⟨a, hb, rfl⟩
      rw [ha] at hb; cases hb
      have hs := sizes_mem (List.mem_of_getElem? ha)
      have hm := List.mem_of_getElem? ha
      exact (ih1 x hm).up (h1 x hm) n (by omega)
  refine ⟨up, down, ?_⟩
  intro h h' n hn
  cases n with
  | zero => omega
  | succ n =>
    have a := up h n (by omega)
    have b := down h' n (by omega)
    constructor
    · show (matchesN w n false ((Ty.fn ps r).put i) (.fn ps r) &&
        matchesN w n false (.fn ps r) ((Ty.fn ps r).put i)) = true
      rw [a, b]; rfl
    · show (matchesN w n false (.fn ps r) ((Ty.fn ps r).put i) &&
        matchesN w n false ((Ty.fn ps r).put i) (.fn ps r)) = true
      rw [a, b]; rfl

/-- A union accepts what one of its members accepts. -/
theorem accepts_union {n : Nat} {ts : List Ty} {s t : Ty} (hu : ∀ us, s ≠ .union us) (ht : t ∈ ts)
    (h : matchesN w n false t s = true) : matchesN w (n + 1) false (.union ts) s = true := by
  cases s with
  | union us => exact absurd rfl (hu us)
  | any => simp [matchesN]
  | _ => simp only [matchesN, List.any_eq_true]; exact ⟨t, ht, h⟩

theorem holds_union {ts : List Ty} (ih : ∀ t ∈ ts, Holds w i t) (hf : ∀ t ∈ ts, ∀ us, t ≠ .union us) :
    Holds w i (.union ts) := by
  have hfp : ∀ t ∈ ts, ∀ us, t.put i ≠ .union us := by
    intro t ht us h
    cases t with
    | union vs => exact hf _ ht vs rfl
    | var n => simp only [Ty.put] at h; split at h <;> cases h
    | _ => simp [Ty.put] at h
  have up : Only w.params i true (.union ts) → ∀ n, 2 * (Ty.union ts).size ≤ n →
      matchesN w n false ((Ty.union ts).put i) (.union ts) = true := by
    intro ho n hn
    cases ho with | union h =>
    simp only [Ty.size] at hn
    match n, hn with
    | n + 2, hn =>
      show (ts.all fun u => matchesN w (n + 1) false (.union (puts i ts)) u) = true
      rw [List.all_eq_true]
      intro t ht
      have hs := sizes_mem ht
      exact accepts_union (hf t ht) (by rw [puts_eq]; exact List.mem_map_of_mem ht)
        ((ih t ht).up (h t ht) n (by omega))
  have down : Only w.params i false (.union ts) → ∀ n, 2 * (Ty.union ts).size ≤ n →
      matchesN w n false (.union ts) ((Ty.union ts).put i) = true := by
    intro ho n hn
    cases ho with | union h =>
    simp only [Ty.size] at hn
    match n, hn with
    | n + 2, hn =>
      show ((puts i ts).all fun u => matchesN w (n + 1) false (.union ts) u) = true
      rw [List.all_eq_true]
      intro t' ht'
      rw [puts_eq, List.mem_map] at ht'
      obtain ⟨t, ht, rfl⟩ := ht'
      have hs := sizes_mem ht
      exact accepts_union (hfp t ht) ht ((ih t ht).down (h t ht) n (by omega))
  refine ⟨up, down, ?_⟩
  intro h h' n hn
  cases n with
  | zero => omega
  | succ n =>
    have a := up h n (by omega)
    have b := down h' n (by omega)
    constructor
    · show (matchesN w n false ((Ty.union ts).put i) (.union ts) &&
        matchesN w n false (.union ts) ((Ty.union ts).put i)) = true
      rw [a, b]; rfl
    · show (matchesN w n false (.union ts) ((Ty.union ts).put i) &&
        matchesN w n false ((Ty.union ts).put i) (.union ts)) = true
      rw [a, b]; rfl

theorem holds_var (n : Nat) : Holds w i (.var n) := by
  by_cases h : n = i
  · subst h
    refine ⟨?_, ?_, ?_⟩
    · intro _ k hk
      cases k with
      | zero => simp [Ty.size] at hk
      | succ k => simp [Ty.put, matchesN]
    · intro h
      cases h with
      | var h => exact absurd rfl h
    · intro _ h
      cases h with
      | var h => exact absurd rfl h
  · exact holds_leaf (by simp [Ty.put, h]) (fun k => by simp [matchesN]) (fun k => by simp [matchesN])

theorem Flat.holds {t : Ty} (h : Flat t) : Holds w i t := by
  induction h with
  | object => exact holds_leaf rfl (fun k => by simp [matchesN]) (fun k => by simp [matchesN])
  | never => exact holds_leaf rfl (fun k => by simp [matchesN]) (fun k => by simp [matchesN])
  | any => exact holds_leaf rfl (fun k => by simp [matchesN]) (fun k => by simp [matchesN])
  | var => exact holds_var _
  | cls _ ih => exact holds_cls ih
  | fn _ _ ih1 ih2 => exact holds_fn ih1 ih2
  | union _ hf ih => exact holds_union ih hf

/-! ## Meanings -/

section
variable {Val : Type} {M : Meaning Val} {env : Nat → Val → Prop}

theorem list_eq (ts : List Ty) : M.list env ts = ts.map (M.values env) := by
  induction ts with
  | nil => rfl
  | cons t ts ih => simp [Meaning.list, ih]

theorem some_iff {ts : List Ty} {v : Val} : M.some env ts v ↔ ∃ t ∈ ts, M.values env t v := by
  induction ts with
  | nil => simp [Meaning.some]
  | cons t ts ih => simp [Meaning.some, ih]

theorem Only.within {params : Nat → List Variance} {p : Bool} {t : Ty} (h : Only params i p t)
    (hl : Lawful params M) {A B : Val → Prop} (hAB : Within A B) :
    Within (M.values (set env i (bif p then A else B)) t)
      (M.values (set env i (bif p then B else A)) t) := by
  induction h with
  | object => exact fun _ h => h
  | never => exact fun _ h => h
  | any => exact fun _ h => h
  | self => simpa [Meaning.values, set] using hAB
  | var h => intro v hv; simpa [Meaning.values, set, h] using hv
  | @cls p c as h1 h2 h3 h4 i1 i2 i3 i4 =>
    simp only [Meaning.values, list_eq]
    refine hl.cls c _ _ (by simp) ?_
    intro k v a b hv ha hb
    simp only [List.getElem?_map, Option.map_eq_some_iff] at ha hb
    obtain ⟨x, hx, rfl⟩ := ha
    obtain ⟨y, hy, rfl⟩ := hb
    rw [hx] at hy; cases hy
    cases v with
    | cov => exact i1 k x hv hx
    | contra => have := i2 k x hv hx; cases p <;> simpa [Fits] using this
    | inv =>
      refine ⟨i3 k x hv hx, ?_⟩
      have := i4 k x hv hx
      cases p <;> simpa using this
  | @fn p ps r h1 h2 i1 i2 =>
    simp only [Meaning.values, list_eq]
    refine hl.fn _ _ _ _ (by simp) ?_ i2
    intro k a b ha hb
    simp only [List.getElem?_map, Option.map_eq_some_iff] at ha hb
    obtain ⟨x, hx, rfl⟩ := ha
    obtain ⟨y, hy, rfl⟩ := hb
    rw [hx] at hy; cases hy
    have := i1 x (List.mem_of_getElem? hx)
    cases p <;> simpa using this
  | union h ih =>
    intro v hv
    simp only [Meaning.values, some_iff] at hv ⊢
    obtain ⟨t, ht, hv⟩ := hv
    exact ⟨t, ht, ih t ht v hv⟩

end

theorem Only.grows {params : Nat → List Variance} {t : Ty} (h : Only params i true t) :
    Grows params i t := fun _ _ _ _ _ hl hAB => h.within hl hAB

theorem Only.shrinks {params : Nat → List Variance} {t : Ty} (h : Only params i false t) :
    Shrinks params i t := fun _ _ _ _ _ hl hAB => h.within hl hAB

end Verif.Variance
