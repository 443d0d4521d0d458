import Verif.Overlap.Spec

/-!
# Overlapping types: properties
-/

namespace Verif.Overlap

variable {w : World} {p : Program}

/-! ## Sets of values -/

theorem inAny_iff {ts : List Ty} {v : Val} : InAny p ts v ↔ ∃ t ∈ ts, In p t v := by
  induction ts with
  | nil => simp [InAny]
  | cons t ts ih => simp [InAny, ih]

theorem inAll_iff {ts : List Ty} {v : Val} : InAll p ts v ↔ ∀ t ∈ ts, In p t v := by
  induction ts with
  | nil => simp [InAll]
  | cons t ts ih => simp [InAll, ih]

theorem fullAll_iff {ts : List Ty} : FullAll ts ↔ ∀ t ∈ ts, Full t := by
  induction ts with
  | nil => simp [FullAll]
  | cons t ts ih => simp [FullAll, ih]

theorem simpleAll_iff {of : Nat → Nat} {ts : List Ty} : SimpleAll of ts ↔ ∀ t ∈ ts, Simple of t := by
  induction ts with
  | nil => simp [SimpleAll]
  | cons t ts ih => simp [SimpleAll, ih]

theorem rightAny_iff {t : Ty} {us : List Ty} : rightAny w t us = true ↔ ∃ u ∈ us, right w t u = true := by
  induction us with
  | nil => simp [rightAny]
  | cons u us ih => simp [rightAny, ih]

theorem overlapsAny_iff {u : Ty} {ts : List Ty} : overlapsAny w u ts = true ↔ ∃ t ∈ ts, overlaps w u t = true := by
  induction ts with
  | nil => simp [overlapsAny]
  | cons t ts ih => simp [overlapsAny, ih]

/-- Neither a union nor an intersection. -/
def IsAtom : Ty → Prop
  | .union _ | .inter _ => False
  | _ => True

theorem right_atom {t u : Ty} (h : IsAtom u) : right w t u = atom w t u := by
  cases u <;> first | rfl | (simp [IsAtom] at h) | simp [right]

theorem overlaps_atom {t u : Ty} (h : IsAtom t) : overlaps w u t = right w t u := by
  cases t <;> first | (simp [IsAtom] at h; done) | simp [overlaps]

/-- The parts of a type that are neither unions nor intersections. -/
def parts : Ty → List Ty
  | .union ts => ts.attach.flatMap fun t => parts t.1
  | .inter ts => ts.attach.flatMap fun t => parts t.1
  | t => [t]
termination_by t => sizeOf t
decreasing_by
  all_goals
    have := List.sizeOf_lt_of_mem t.2
    simp; omega

theorem parts_list (ts : List Ty) : (ts.attach.flatMap fun t => parts t.1) = ts.flatMap parts := by
  simp [List.flatMap_def]

theorem right_parts (t : Ty) (n : Nat) : ∀ u : Ty, sizeOf u = n →
    (right w t u = true ↔ ∃ x ∈ parts u, atom w t x = true) := by
  induction n using Nat.strongRecOn with
  | ind n ih =>
    intro u hn
    have many : ∀ us : List Ty, (∀ x ∈ us, sizeOf x < n) →
        (rightAny w t us = true ↔ ∃ x ∈ us.flatMap parts, atom w t x = true) := by
      intro us h
      rw [rightAny_iff]
      constructor
      · rintro ⟨x, hx, hr⟩
        obtain ⟨y, hy, ha⟩ := (ih _ (h x hx) x rfl).mp hr
        exact ⟨y, List.mem_flatMap.mpr ⟨x, hx, hy⟩, ha⟩
      · rintro ⟨y, hy, ha⟩
        obtain ⟨x, hx, hy⟩ := List.mem_flatMap.mp hy
        exact ⟨x, hx, (ih _ (h x hx) x rfl).mpr ⟨y, hy, ha⟩⟩
    have size : ∀ (us : List Ty) (x : Ty), x ∈ us → sizeOf x < 1 + sizeOf us := by
      intro us x hx
      have := List.sizeOf_lt_of_mem hx
      omega
    cases u with
    | union us =>
      simp only [right, parts, parts_list]
      exact many us fun x hx => by have := size us x hx; simp at hn; omega
    | inter us =>
      simp only [right, parts, parts_list]
      exact many us fun x hx => by have := size us x hx; simp at hn; omega
    | any => simp [right, parts]
    | nothing => simp [right, parts]
    | cls c => simp [right, parts]
    | lit c m => simp [right, parts]

/-- Two types overlap iff two of their parts do. -/
theorem overlaps_parts (u : Ty) (n : Nat) : ∀ t : Ty, sizeOf t = n →
    (overlaps w u t = true ↔ ∃ x ∈ parts t, ∃ y ∈ parts u, atom w x y = true) := by
  induction n using Nat.strongRecOn with
  | ind n ih =>
    intro t hn
    have many : ∀ ts : List Ty, (∀ x ∈ ts, sizeOf x < n) →
        (overlapsAny w u ts = true ↔ ∃ x ∈ ts.flatMap parts, ∃ y ∈ parts u, atom w x y = true) := by
      intro ts h
      rw [overlapsAny_iff]
      constructor
      · rintro ⟨x, hx, hr⟩
        obtain ⟨y, hy, ha⟩ := (ih _ (h x hx) x rfl).mp hr
        exact ⟨y, List.mem_flatMap.mpr ⟨x, hx, hy⟩, ha⟩
      · rintro ⟨y, hy, ha⟩
        obtain ⟨x, hx, hy⟩ := List.mem_flatMap.mp hy
        exact ⟨x, hx, (ih _ (h x hx) x rfl).mpr ⟨y, hy, ha⟩⟩
    have size : ∀ (us : List Ty) (x : Ty), x ∈ us → sizeOf x < 1 + sizeOf us := by
      intro us x hx
      have := List.sizeOf_lt_of_mem hx
      omega
    cases t with
    | union us =>
      simp only [overlaps, parts, parts_list]
      exact many us fun x hx => by have := size us x hx; simp at hn; omega
    | inter us =>
      simp only [overlaps, parts, parts_list]
      exact many us fun x hx => by have := size us x hx; simp at hn; omega
    | any => simp [overlaps, parts, right_parts _ _ u rfl]
    | nothing => simp [overlaps, parts, right_parts _ _ u rfl]
    | cls c => simp [overlaps, parts, right_parts _ _ u rfl]
    | lit c m => simp [overlaps, parts, right_parts _ _ u rfl]

theorem parts_atom (n : Nat) : ∀ t : Ty, sizeOf t = n → ∀ x ∈ parts t, IsAtom x := by
  induction n using Nat.strongRecOn with
  | ind n ih =>
    intro t hn x hx
    cases t with
    | union us =>
      simp only [parts, parts_list] at hx
      obtain ⟨u, hu, hx⟩ := List.mem_flatMap.mp hx
      have := List.sizeOf_lt_of_mem hu
      exact ih (sizeOf u) (by simp at hn; omega) u rfl x hx
    | inter us =>
      simp only [parts, parts_list] at hx
      obtain ⟨u, hu, hx⟩ := List.mem_flatMap.mp hx
      have := List.sizeOf_lt_of_mem hu
      exact ih (sizeOf u) (by simp at hn; omega) u rfl x hx
    | _ =>
      simp [parts] at hx
      subst hx
      trivial

/-- A value of a type is a value of one of its parts. -/
theorem in_parts (v : Val) (n : Nat) : ∀ t : Ty, sizeOf t = n → Full t → In p t v → ∃ x ∈ parts t, In p x v := by
  induction n using Nat.strongRecOn with
  | ind n ih =>
    intro t hn hf hv
    cases t with
    | union us =>
      simp only [Full, fullAll_iff] at hf
      simp only [In, inAny_iff] at hv
      simp only [parts, parts_list]
      obtain ⟨u, hu, hv⟩ := hv
      have := List.sizeOf_lt_of_mem hu
      obtain ⟨x, hx, hxv⟩ := ih (sizeOf u) (by simp at hn; omega) u rfl (hf u hu) hv
      exact ⟨x, List.mem_flatMap.mpr ⟨u, hu, hx⟩, hxv⟩
    | inter us =>
      simp only [Full, fullAll_iff] at hf
      simp only [In, inAll_iff] at hv
      simp only [parts, parts_list]
      cases us with
      | nil => exact absurd rfl hf.1
      | cons u us =>
        obtain ⟨x, hx, hxv⟩ := ih (sizeOf u) (by simp at hn; omega) u rfl (hf.2 u List.mem_cons_self) (hv u List.mem_cons_self)
        exact ⟨x, List.mem_flatMap.mpr ⟨u, List.mem_cons_self, hx⟩, hxv⟩
    | _ => exact ⟨_, by simp [parts], hv⟩

/-- Without intersections a value of a part is a value of the type. -/
theorem parts_in {of : Nat → Nat} (v : Val) (n : Nat) : ∀ t : Ty, sizeOf t = n → Simple of t → ∀ x ∈ parts t,
    Simple of x ∧ (In p x v → In p t v) := by
  induction n using Nat.strongRecOn with
  | ind n ih =>
    intro t hn hs x hx
    cases t with
    | union us =>
      simp only [Simple, simpleAll_iff] at hs
      simp only [parts, parts_list] at hx
      obtain ⟨u, hu, hx⟩ := List.mem_flatMap.mp hx
      have := List.sizeOf_lt_of_mem hu
      obtain ⟨h1, h2⟩ := ih (sizeOf u) (by simp at hn; omega) u rfl (hs u hu) x hx
      refine ⟨h1, fun h => ?_⟩
      simp only [In, inAny_iff]
      exact ⟨u, hu, h2 h⟩
    | inter us => simp [Simple] at hs
    | _ =>
      simp [parts] at hx
      subst hx
      exact ⟨hs, id⟩

/-! ## C190, C191 -/

theorem sub_trans {a b c : Nat} (h1 : Sub p a b) (h2 : Sub p b c) : Sub p a c ∨ b = 0 := by
  induction h1 with
  | refl => exact .inl h2
  | object => exact .inr rfl
  | base hb _ ih =>
    rcases ih h2 with h | h
    · exact .inl (.base hb h)
    · exact .inr h

theorem single_chain (hs : Single p) {k c : Nat} (h1 : Sub p k c) : ∀ d, Sub p k d → Sub p c d ∨ Sub p d c := by
  induction h1 with
  | refl => intro d h; exact .inl h
  | object => intro d _; exact .inr .object
  | @base k b c hb hbc ih =>
    intro d hd
    cases hd with
    | refl => exact .inr (.base hb hbc)
    | object => exact .inl .object
    | @base _ b' _ hb' hd =>
      have : b = b' := by
        have hl := hs k
        match hp : p k, hl, hb, hb' with
        | [x], _, hb, hb' => simp at hb hb'; rw [hb, hb']
        | [], _, hb, _ => cases hb
      subst this
      exact ih d hd

theorem inMro_iff (hk : Knows w p) {c d : Nat} : inMro w c d = true ↔ Sub p c d := by
  rw [← hk c d]
  simp [inMro, or_assoc]

theorem classes_comm (c d : Nat) : classes w c d = classes w d c := by
  unfold classes
  cases inMro w c d <;> cases inMro w d c <;> cases w.allowed c <;> cases w.allowed d <;> rfl

theorem plain_comm (t u : Ty) : plain w t u = plain w u t := by
  cases t <;> cases u <;> simp [plain, classes_comm]

theorem atom_comm (t u : Ty) : atom w t u = atom w u t := by
  cases t <;> cases u <;> simp only [atom, plain_comm]
  exact Bool.beq_comm

/-- C190: whether two types overlap does not depend on their order. -/
theorem symmetric (w : World) (t u : Ty) : overlaps w t u = overlaps w u t := by
  rw [Bool.eq_iff_iff, overlaps_parts t _ u rfl, overlaps_parts u _ t rfl]
  constructor
  · rintro ⟨x, hx, y, hy, h⟩
    exact ⟨y, hy, x, hx, by rwa [atom_comm]⟩
  · rintro ⟨x, hx, y, hy, h⟩
    exact ⟨y, hy, x, hx, by rwa [atom_comm]⟩

theorem atom_complete (hk : Knows w p) (hs : Single p) {x y : Ty} (hx : IsAtom x) (hy : IsAtom y) {v : Val}
    (h1 : In p x v) (h2 : In p y v) : atom w x y = true := by
  have rel : ∀ {k c d : Nat}, Sub p k c → Sub p k d → classes w c d = true := by
    intro k c d h1 h2
    unfold classes
    rcases single_chain hs h1 d h2 with h | h
    · simp [(inMro_iff hk).mpr h]
    · simp [(inMro_iff hk).mpr h]
  cases x <;> first | (cases hx; done) | skip
  all_goals cases y <;> first | (cases hy; done) | skip
  all_goals first | rfl | skip
  all_goals cases v
  all_goals simp only [In] at h1 h2
  all_goals first | (cases h1; done) | (cases h2; done) | skip
  all_goals simp only [atom, plain]
  all_goals first
    | exact rel h1 h2
    | (cases h1; cases h2; simp; done)
    | (cases h1; exact rel .refl h2)
    | (cases h2; exact rel h1 .refl)
    | (subst h1; subst h2; simp [classes, inMro]; done)
    | (simp [*]; done)

/-- C191: types that do not overlap have no common value, if no class has two bases; with two unrelated bases there
are common values, see below. -/
theorem disjoint_partial (hk : Knows w p) (hs : Single p) {t u : Ty} (ht : Full t) (hu : Full u)
    (h : overlaps w u t = false) (v : Val) : ¬ (In p t v ∧ In p u v) := by
  rintro ⟨h1, h2⟩
  obtain ⟨x, hx, hxv⟩ := in_parts v _ t rfl ht h1
  obtain ⟨y, hy, hyv⟩ := in_parts v _ u rfl hu h2
  have := (overlaps_parts (w := w) u _ t rfl).mpr
    ⟨x, hx, y, hy, atom_complete hk hs (parts_atom _ t rfl x hx) (parts_atom _ u rfl y hy) hxv hyv⟩
  rw [h] at this
  cases this

theorem atom_sound {of : Nat → Nat} (hk : Knows w p) (ha : ∀ c, w.allowed c = false)
    (hl : ∀ n, of n ≠ 0 ∧ ∀ d, Sub p d (of n) → d = of n) {x y : Ty} (hx : IsAtom x)
    (hy : IsAtom y) (sx : Simple of x) (sy : Simple of y) (h : atom w x y = true) :
    ∃ v, In p x v ∧ In p y v := by
  have rel : ∀ {c d : Nat}, classes w c d = true → Sub p c d ∨ Sub p d c := by
    intro c d h
    unfold classes at h
    simp only [ha, Bool.and_false, Bool.or_false, Bool.or_eq_true] at h
    rcases h with h | h
    · exact .inl ((inMro_iff hk).mp h)
    · exact .inr ((inMro_iff hk).mp h)
  have lit : ∀ {c n d : Nat}, of n = c → classes w c d = true → Sub p c d := by
    rintro c n d rfl h
    rcases rel h with h | h
    · exact h
    · rw [(hl n).2 d h]; exact .refl
  cases x with
  | union ts => cases hx
  | inter ts => cases hx
  | any =>
    cases y with
    | union ts => cases hy
    | inter ts => cases hy
    | any => exact ⟨.nothing, by simp [In], by simp [In]⟩
    | nothing => exact ⟨.nothing, by simp [In], by simp [In]⟩
    | cls d => exact ⟨.inst d none, by simp [In], by simpa [In] using .refl⟩
    | lit d m => exact ⟨.inst d (some m), by simp [In], by simp [In]⟩
  | nothing =>
    cases y with
    | union ts => cases hy
    | inter ts => cases hy
    | any => exact ⟨.nothing, by simp [In], by simp [In]⟩
    | nothing => exact ⟨.nothing, by simp [In], by simp [In]⟩
    | cls d =>
      simp [atom, plain] at h
      exact ⟨.nothing, by simp [In], by simpa [In] using h⟩
    | lit d m =>
      simp [atom, plain] at h
      simp only [Simple] at sy
      exact absurd (sy.trans h) (hl m).1
  | cls c =>
    cases y with
    | union ts => cases hy
    | inter ts => cases hy
    | any => exact ⟨.inst c none, by simpa [In] using .refl, by simp [In]⟩
    | nothing =>
      simp [atom, plain] at h
      exact ⟨.nothing, by simpa [In] using h, by simp [In]⟩
    | cls d =>
      rcases rel h with h | h
      · exact ⟨.inst c none, by simpa [In] using .refl, by simpa [In] using h⟩
      · exact ⟨.inst d none, by simpa [In] using h, by simpa [In] using .refl⟩
    | lit d m =>
      simp only [Simple] at sy
      simp only [atom, plain] at h
      rw [classes_comm] at h
      exact ⟨.inst d (some m), by simpa [In] using lit sy h, by simp [In]⟩
  | lit c n =>
    simp only [Simple] at sx
    cases y with
    | union ts => cases hy
    | inter ts => cases hy
    | any => exact ⟨.inst c (some n), by simp [In], by simp [In]⟩
    | nothing =>
      simp [atom, plain] at h
      exact absurd (sx.trans h) (hl n).1
    | cls d =>
      simp only [atom, plain] at h
      exact ⟨.inst c (some n), by simp [In], by simpa [In] using lit sx h⟩
    | lit d m =>
      simp [atom] at h
      simp only [Simple] at sy
      subst h
      exact ⟨.inst c (some n), by simp [In], by simp [In, ← sx, ← sy]⟩

/-- C192: types that overlap have a common value. Missing are intersections, of which one entry suffices, the classes
in the list of exceptions, and literals of classes with subclasses. -/
theorem common_value_partial {of : Nat → Nat} (hk : Knows w p) (ha : ∀ c, w.allowed c = false)
    (hl : ∀ n, of n ≠ 0 ∧ ∀ d, Sub p d (of n) → d = of n) {t u : Ty} (st : Simple of t) (su : Simple of u)
    (h : overlaps w u t = true) : ∃ v, In p t v ∧ In p u v := by
  obtain ⟨x, hx, y, hy, ha'⟩ := (overlaps_parts u _ t rfl).mp h
  have sx := (parts_in (p := p) .nothing _ t rfl st x hx).1
  have sy := (parts_in (p := p) .nothing _ u rfl su y hy).1
  obtain ⟨v, h1, h2⟩ := atom_sound hk ha hl (parts_atom _ t rfl x hx) (parts_atom _ u rfl y hy) sx sy ha'
  exact ⟨v, (parts_in v _ t rfl st x hx).2 h1, (parts_in v _ u rfl su y hy).2 h2⟩

/-! ### Examples -/

/-- `class int`, `class A`, `class B(A)`, `class D`, `class E(B, D)`. -/
def demo : Program
  | 3 => [2]
  | 5 => [3, 4]
  | _ => []

/-- Without `E`. -/
def tree : Program
  | 3 => [2]
  | _ => []

def treeWorld : World := ⟨fun c => if c = 3 then [2] else [], fun _ => false⟩

theorem tree_knows : Knows treeWorld tree := by
  intro c d
  constructor
  · rintro (h | h | h)
    · subst h; exact .refl
    · by_cases h3 : c = 3
      · subst h3
        simp [treeWorld] at h
        subst h
        exact .base (b := 2) (by simp [tree]) .refl
      · simp [treeWorld, h3] at h
    · subst h; exact .object
  · intro h
    cases h with
    | refl => exact .inl rfl
    | object => exact .inr (.inr rfl)
    | @base _ b _ hb h =>
      by_cases h3 : c = 3
      · subst h3
        simp [tree] at hb
        subst hb
        cases h with
        | refl => exact .inr (.inl (by simp [treeWorld]))
        | object => exact .inr (.inr rfl)
        | base hb _ => simp [tree] at hb
      · have : tree c = [] := by
          unfold tree
          split
          · exact absurd rfl h3
          · rfl
        rw [this] at hb
        cases hb

theorem tree_single : Single tree := by
  intro c
  unfold tree
  split <;> simp

theorem tree_literals : ∀ n : Nat, (fun _ => 1) n ≠ 0 ∧ ∀ d, Sub tree d ((fun _ => 1) n) → d = (fun _ => 1) n := by
  intro n
  refine ⟨by simp, fun d h => ?_⟩
  rcases (tree_knows d 1).mpr h with h | h | h
  · exact h
  · simp only [treeWorld] at h
    split at h <;> simp at h
  · cases h

/-- `Literal[7] | D` and `A | None`. -/
example (v : Val) : ¬ (In tree (.union [.lit 1 7, .cls 4]) v ∧ In tree (.union [.cls 2, .nothing]) v) :=
  disjoint_partial tree_knows tree_single (by simp [Full, FullAll]) (by simp [Full, FullAll]) (by decide) v

/-- `Literal[7] | B` and `A | None`. -/
example : ∃ v, In tree (.union [.lit 1 7, .cls 3]) v ∧ In tree (.union [.cls 2, .nothing]) v :=
  common_value_partial tree_knows (fun _ => rfl) tree_literals (by simp [Simple, SimpleAll]) (by simp [Simple, SimpleAll])
    (by decide)

/-- `A` and `D` do not overlap for the checker, although `E` inherits from both: comparing them with `==` is
reported. -/
theorem disjoint_violation : ∃ w, Knows w demo ∧ overlaps w (.cls 2) (.cls 4) = false ∧
    In demo (.cls 2) (.inst 5 none) ∧ In demo (.cls 4) (.inst 5 none) := by
  refine ⟨⟨fun c => if c = 3 then [2] else if c = 5 then [3, 2, 4] else [], fun _ => false⟩, ?_, by decide, ?_, ?_⟩
  · have e2 : ∀ d, Sub demo 2 d → d = 2 ∨ d = 0 := by
      intro d h
      cases h with
      | refl => exact .inl rfl
      | object => exact .inr rfl
      | base hb _ => simp [demo] at hb
    have e4 : ∀ d, Sub demo 4 d → d = 4 ∨ d = 0 := by
      intro d h
      cases h with
      | refl => exact .inl rfl
      | object => exact .inr rfl
      | base hb _ => simp [demo] at hb
    have e3 : ∀ d, Sub demo 3 d → d = 3 ∨ d = 2 ∨ d = 0 := by
      intro d h
      cases h with
      | refl => exact .inl rfl
      | object => exact .inr (.inr rfl)
      | base hb h =>
        simp [demo] at hb
        subst hb
        exact .inr (e2 d h)
    have s32 : Sub demo 3 2 := .base (b := 2) (by simp [demo]) .refl
    intro c d
    constructor
    · rintro (h | h | h)
      · subst h; exact .refl
      · by_cases h3 : c = 3
        · subst h3
          simp at h
          subst h
          exact s32
        · by_cases h5 : c = 5
          · subst h5
            simp at h
            rcases h with rfl | rfl | rfl
            · exact .base (b := 3) (by simp [demo]) .refl
            · exact .base (b := 3) (by simp [demo]) s32
            · exact .base (b := 4) (by simp [demo]) .refl
          · simp [h3, h5] at h
      · subst h; exact .object
    · intro h
      cases h with
      | refl => exact .inl rfl
      | object => exact .inr (.inr rfl)
      | @base _ b _ hb h =>
        by_cases h3 : c = 3
        · subst h3
          simp [demo] at hb
          subst hb
          rcases e2 d h with rfl | rfl <;> simp
        · by_cases h5 : c = 5
          · subst h5
            simp [demo] at hb
            rcases hb with rfl | rfl
            · rcases e3 d h with rfl | rfl | rfl <;> simp
            · rcases e4 d h with rfl | rfl <;> simp
          · have : demo c = [] := by
              unfold demo
              split
              · exact absurd rfl h3
              · exact absurd rfl h5
              · rfl
            rw [this] at hb
            cases hb
  · simp only [In]
    exact .base (b := 3) (by simp [demo]) (.base (b := 2) (by simp [demo]) .refl)
  · simp only [In]
    exact .base (b := 4) (by simp [demo]) .refl

/-! ## C193: tuples -/

variable {α V : Type} {mem : α → V → Prop} {ov : α → α → Bool}

theorem right_comm (h : Right mem ov) (t u : α) : ov t u = ov u t := by
  rw [Bool.eq_iff_iff, h t u, h u t]
  constructor <;> (rintro ⟨v, a, b⟩; exact ⟨v, b, a⟩)

theorem fixedFixed_iff (h : Right mem ov) (ts us : List α) :
    fixedFixed ov ts us = true ↔ ∃ vs, List.Forall₂ mem ts vs ∧ List.Forall₂ mem us vs := by
  induction ts generalizing us with
  | nil =>
    cases us with
    | nil => simpa [fixedFixed] using ⟨[], .nil⟩
    | cons u us =>
      simp only [fixedFixed, List.isEmpty_cons, Bool.false_eq_true, false_iff]
      rintro ⟨vs, h1, h2⟩
      cases h1
      cases h2
  | cons t ts ih =>
    cases us with
    | nil =>
      simp only [fixedFixed, Bool.false_eq_true, false_iff]
      rintro ⟨vs, h1, h2⟩
      cases h2
      cases h1
    | cons u us =>
      simp only [fixedFixed, Bool.and_eq_true, h t u, ih us]
      constructor
      · rintro ⟨⟨v, h1, h2⟩, vs, h3, h4⟩
        exact ⟨v :: vs, .cons h1 h3, .cons h2 h4⟩
      · rintro ⟨_, h1, h2⟩
        cases h1 with
        | @cons _ v _ vs a b =>
          cases h2 with
          | cons c d => exact ⟨⟨v, a, c⟩, vs, b, d⟩

theorem all_iff (h : Right mem ov) (t : α) (us : List α) :
    us.all (ov t) = true ↔ ∃ vs, (∀ v ∈ vs, mem t v) ∧ List.Forall₂ mem us vs := by
  induction us with
  | nil => simpa using ⟨[], by simp, .nil⟩
  | cons u us ih =>
    simp only [List.all_cons, Bool.and_eq_true, h t u, ih]
    constructor
    · rintro ⟨⟨v, h1, h2⟩, vs, h3, h4⟩
      refine ⟨v :: vs, ?_, .cons h2 h4⟩
      intro x hx
      rcases List.mem_cons.mp hx with rfl | hx
      · exact h1
      · exact h3 x hx
    · rintro ⟨_, h1, h2⟩
      cases h2 with
      | @cons _ v _ vs a b => exact ⟨⟨v, h1 v List.mem_cons_self, a⟩, vs, fun x hx => h1 x (List.mem_cons_of_mem _ hx), b⟩

theorem forall2_length {R : α → V → Prop} {ts : List α} {vs : List V} (h : List.Forall₂ R ts vs) : ts.length = vs.length := by
  induction h with
  | nil => rfl
  | cons _ _ ih => simp [ih]

theorem forall2_append {R : α → V → Prop} {ts ts' : List α} {vs vs' : List V} (h : List.Forall₂ R ts vs)
    (h' : List.Forall₂ R ts' vs') : List.Forall₂ R (ts ++ ts') (vs ++ vs') := by
  induction h with
  | nil => exact h'
  | cons a _ ih => exact .cons a ih

theorem forall2_split {R : α → V → Prop} {ts ts' : List α} : ∀ {vs : List V}, List.Forall₂ R (ts ++ ts') vs →
    ∃ x y, vs = x ++ y ∧ List.Forall₂ R ts x ∧ List.Forall₂ R ts' y := by
  induction ts with
  | nil => intro vs h; exact ⟨[], vs, rfl, .nil, h⟩
  | cons t ts ih =>
    intro vs h
    cases h with
    | cons a b =>
      obtain ⟨x, y, rfl, h1, h2⟩ := ih b
      exact ⟨_ :: x, y, rfl, .cons a h1, h2⟩

theorem zipAll_fixed (ts us rest : List α) (h : ts.length = us.length) : zipAll ov ts (us ++ rest) = fixedFixed ov ts us := by
  induction ts generalizing us with
  | nil =>
    cases us with
    | nil => simp [zipAll, fixedFixed]
    | cons u us => simp at h
  | cons t ts ih =>
    cases us with
    | nil => simp at h
    | cons u us =>
      have := ih us (by simpa using h)
      simp only [zipAll, List.cons_append, List.zip_cons_cons, List.all_cons, fixedFixed] at this ⊢
      rw [this]

theorem zipAll_append (a b c d : List α) (h : a.length = c.length) :
    zipAll ov (a ++ b) (c ++ d) = (zipAll ov a c && zipAll ov b d) := by
  unfold zipAll
  rw [List.zip_append h, List.all_append]

theorem zipAll_reverse (ts us : List α) (h : ts.length = us.length) : zipAll ov ts.reverse us.reverse = zipAll ov ts us := by
  induction ts generalizing us with
  | nil =>
    cases us with
    | nil => rfl
    | cons u us => simp at h
  | cons t ts ih =>
    cases us with
    | nil => simp at h
    | cons u us =>
      have hl : ts.length = us.length := by simpa using h
      rw [List.reverse_cons, List.reverse_cons, zipAll_append _ _ _ _ (by simpa using hl), ih us hl]
      simp [zipAll, Bool.and_comm]

theorem zipAll_eq (ts us : List α) (h : ts.length = us.length) : zipAll ov ts us = fixedFixed ov ts us := by
  have := zipAll_fixed (ov := ov) ts us [] h
  rwa [List.append_nil] at this

theorem unpackFixed_split (b : List α) (m : Option α) (a x y z : List α) (hb : b.length = x.length) (ha : a.length = z.length) :
    unpackFixed ov b m a (x ++ y ++ z) =
      (fixedFixed ov b x && fixedFixed ov a z && match m with | some t => y.all (ov t) | none => true) := by
  unfold unpackFixed
  rw [if_neg (by simp; omega)]
  have h1 : zipAll ov b (x ++ y ++ z) = fixedFixed ov b x := by
    rw [List.append_assoc]
    exact zipAll_fixed b x _ hb
  have h2 : zipAll ov a.reverse (x ++ y ++ z).reverse = fixedFixed ov a z := by
    rw [List.reverse_append, zipAll_fixed _ _ _ (by simpa using ha), ← zipAll_eq _ _ (by simpa using ha),
      zipAll_reverse a z ha, zipAll_eq _ _ ha]
  have h3 : ((x ++ y ++ z).drop b.length).take ((x ++ y ++ z).length - a.length - b.length) = y := by
    rw [List.append_assoc, hb, List.drop_left]
    have : (x ++ (y ++ z)).length - a.length - x.length = y.length := by simp; omega
    rw [this, List.take_left]
  rw [h1, h2, h3]
  cases m <;> rfl

theorem split3 (us : List α) (m n : Nat) (h : m + n ≤ us.length) : ∃ x y z, us = x ++ y ++ z ∧ x.length = m ∧ z.length = n := by
  refine ⟨us.take m, (us.drop m).take (us.length - m - n), (us.drop m).drop (us.length - m - n), ?_, ?_, ?_⟩
  · rw [List.append_assoc, List.take_append_drop, List.take_append_drop]
  · simp; omega
  · simp; omega

theorem append3_inj {x y z x' y' z' : List V} (h : x ++ y ++ z = x' ++ y' ++ z') (h1 : x.length = x'.length)
    (h2 : z.length = z'.length) : x = x' ∧ y = y' ∧ z = z' := by
  have hl := congrArg List.length h
  simp at hl
  obtain ⟨h3, h4⟩ := List.append_inj h (by simp; omega)
  obtain ⟨h5, h6⟩ := List.append_inj h3 h1
  exact ⟨h5, h6, h4⟩

theorem unpackFixed_iff (h : Right mem ov) (hi : ∀ t, ∃ v, mem t v) (b : List α) (m : Option α) (a us : List α) :
    unpackFixed ov b m a us = true ↔ ∃ vs, InTuple mem (.unpack b m a) vs ∧ List.Forall₂ mem us vs := by
  by_cases hl : b.length + a.length ≤ us.length
  · obtain ⟨x, y, z, rfl, hx, hz⟩ := split3 us b.length a.length hl
    rw [unpackFixed_split b m a x y z hx.symm hz.symm]
    simp only [Bool.and_eq_true, fixedFixed_iff h]
    constructor
    · rintro ⟨⟨⟨v1, p1, q1⟩, v3, p3, q3⟩, hm⟩
      have : ∃ v2, (∀ t, m = some t → ∀ v ∈ v2, mem t v) ∧ List.Forall₂ mem y v2 := by
        cases m with
        | none =>
          refine ⟨y.map fun t => (hi t).choose, (fun t h => by cases h), ?_⟩
          clear hm
          induction y with
          | nil => exact .nil
          | cons t y ih => exact .cons (hi t).choose_spec (ih (by simp; omega))
        | some t =>
          obtain ⟨v2, p2, q2⟩ := (all_iff h t y).mp hm
          exact ⟨v2, fun t' he => by cases he; exact p2, q2⟩
      obtain ⟨v2, p2, q2⟩ := this
      exact ⟨v1 ++ v2 ++ v3, ⟨v1, v2, v3, rfl, p1, p3, p2⟩, forall2_append (forall2_append q1 q2) q3⟩
    · rintro ⟨vs, ⟨v1, v2, v3, rfl, p1, p3, p2⟩, hf⟩
      obtain ⟨w12, w3, he, hf12, q3⟩ := forall2_split hf
      obtain ⟨w1, w2, rfl, q1, q2⟩ := forall2_split hf12
      have l1 := forall2_length p1
      have l3 := forall2_length p3
      have m1 := forall2_length q1
      have m3 := forall2_length q3
      obtain ⟨rfl, rfl, rfl⟩ := append3_inj he (by omega) (by omega)
      refine ⟨⟨⟨v1, p1, q1⟩, v3, p3, q3⟩, ?_⟩
      cases m with
      | none => rfl
      | some t => exact (all_iff h t y).mpr ⟨v2, p2 t rfl, q2⟩
  · unfold unpackFixed
    rw [if_pos (by omega)]
    simp only [Bool.false_eq_true, false_iff]
    rintro ⟨vs, ⟨v1, v2, v3, rfl, p1, p3, _⟩, hf⟩
    have l1 := forall2_length p1
    have l3 := forall2_length p3
    have l := forall2_length hf
    simp at l
    omega

/-- Not two tuples of arbitrary lengths. -/
def OneFixed : Args α → Args α → Prop
  | .arbitrary _, .arbitrary _ => False
  | .unpack _ _ _, .unpack _ _ _ => False
  | _, _ => True

/-- C193: two tuples overlap iff they have a common value. Missing are two tuples of the form `tuple[A, ...]` and two tuples
with an unpacked part, see below. -/
theorem tuples_partial (h : Right mem ov) (hi : ∀ t, ∃ v, mem t v) (s t : Args α) (hf : OneFixed s t) :
    tuples ov s t = true ↔ ∃ vs, InTuple mem s vs ∧ InTuple mem t vs := by
  have comm := right_comm h
  have unpackArb : ∀ (b : List α) (m : Option α) (a : List α) (t : α), (b ++ a).all (ov t) = true ↔
      ∃ vs, InTuple mem (.unpack b m a) vs ∧ InTuple mem (.arbitrary t) vs := by
    intro b m a t
    rw [all_iff h]
    constructor
    · rintro ⟨vs, h1, h2⟩
      obtain ⟨x, z, rfl, hx, hz⟩ := forall2_split h2
      exact ⟨x ++ z, ⟨x, [], z, by simp, hx, hz, by simp⟩, h1⟩
    · rintro ⟨vs, ⟨x, y, z, rfl, hx, hz, _⟩, h1⟩
      refine ⟨x ++ z, ?_, forall2_append hx hz⟩
      intro v hv
      refine h1 v ?_
      simp only [List.mem_append] at hv ⊢
      rcases hv with hv | hv
      · exact .inl (.inl hv)
      · exact .inr hv
  have flip : ∀ (s t : Args α), (∃ vs, InTuple mem s vs ∧ InTuple mem t vs) ↔ ∃ vs, InTuple mem t vs ∧ InTuple mem s vs :=
    fun s t => ⟨fun ⟨vs, a, b⟩ => ⟨vs, b, a⟩, fun ⟨vs, a, b⟩ => ⟨vs, b, a⟩⟩
  cases s with
  | fixed ts =>
    cases t with
    | fixed us => exact fixedFixed_iff h ts us
    | arbitrary u =>
      rw [flip]
      simp only [tuples, InTuple]
      rw [show (fun t => ov t u) = ov u from funext fun t => comm t u]
      exact all_iff h u ts
    | unpack b m a =>
      rw [flip]
      exact unpackFixed_iff h hi b m a ts
  | arbitrary r =>
    cases t with
    | fixed us => exact all_iff h _ us
    | arbitrary u => cases hf
    | unpack b m a =>
      rw [flip]
      exact unpackArb b m a _
  | unpack b m a =>
    cases t with
    | fixed us => exact unpackFixed_iff h hi b m a us
    | arbitrary u => exact unpackArb b m a u
    | unpack b' m' a' => cases hf

/-- C193: tuples `tuple[A, ...]` that overlap have a common value, and so have tuples with an unpacked part that have as many
elements before and after it. -/
theorem tuples_sound_partial (h : Right mem ov) : (∀ t u : α, tuples ov (.arbitrary t) (.arbitrary u) = true →
      ∃ vs, vs ≠ [] ∧ InTuple mem (.arbitrary t) vs ∧ InTuple mem (.arbitrary u) vs) ∧
    ∀ (b b' : List α) (m m' : Option α) (a a' : List α), b.length = b'.length → a.length = a'.length →
      tuples ov (.unpack b m a) (.unpack b' m' a') = true →
      ∃ vs, InTuple mem (.unpack b m a) vs ∧ InTuple mem (.unpack b' m' a') vs := by
  constructor
  · intro t u ht
    obtain ⟨v, h1, h2⟩ := (h t u).mp ht
    exact ⟨[v], by simp, by simpa [InTuple] using h1, by simpa [InTuple] using h2⟩
  · intro b b' m m' a a' hb ha ht
    simp only [tuples, Bool.and_eq_true, zipAll_eq _ _ hb, zipAll_eq _ _ ha, fixedFixed_iff h] at ht
    obtain ⟨⟨⟨x, x1, x2⟩, z, z1, z2⟩, _⟩ := ht
    exact ⟨x ++ [] ++ z, ⟨x, [], z, rfl, x1, z1, by simp⟩, ⟨x, [], z, rfl, x2, z2, by simp⟩⟩

/-- The elements of the examples: `0` is `object`, all others are disjoint. -/
def elem (t v : Nat) : Prop := t = 0 ∨ t = v

def elemOverlaps (t u : Nat) : Bool := t == 0 || u == 0 || t == u

theorem elem_right : Right elem elemOverlaps := by
  intro t u
  simp only [elemOverlaps, elem, Bool.or_eq_true, beq_iff_eq]
  constructor
  · rintro ((rfl | rfl) | rfl)
    · exact ⟨u, .inl rfl, .inr rfl⟩
    · exact ⟨t, .inr rfl, .inl rfl⟩
    · exact ⟨t, .inr rfl, .inr rfl⟩
  · rintro ⟨v, rfl | rfl, rfl | rfl⟩ <;> simp

/-- `tuple[int, *tuple[str, ...]]` and `tuple[object, str]`. -/
example : ∃ vs, InTuple elem (.unpack [1] (some 2) []) vs ∧ InTuple elem (.fixed [0, 2]) vs :=
  (tuples_partial elem_right (fun t => ⟨t, .inr rfl⟩) (.unpack [1] (some 2) []) (.fixed [0, 2]) trivial).mp (by decide)

example : ¬ ∃ vs, InTuple elem (.unpack [1] (some 2) [3]) vs ∧ InTuple elem (.arbitrary 1) vs := by
  rw [← tuples_partial elem_right (fun t => ⟨t, .inr rfl⟩) (.unpack [1] (some 2) [3]) (.arbitrary 1) trivial]
  decide

example : ∃ vs, InTuple elem (.unpack [1] (some 2) [3]) vs ∧ InTuple elem (.unpack [0] (some 0) [3]) vs :=
  (tuples_sound_partial elem_right).2 _ _ _ _ _ _ rfl rfl (by decide)

/-- `tuple[int, ...]` and `tuple[str, ...]` do not overlap for the checker; both have the empty tuple. -/
theorem empty_violation : tuples elemOverlaps (.arbitrary 1) (.arbitrary 2) = false ∧
    InTuple elem (.arbitrary 1) [] ∧ InTuple elem (.arbitrary 2) [] := ⟨by decide, by simp [InTuple], by simp [InTuple]⟩

/-- `tuple[*tuple[object, ...], int]` and `tuple[*tuple[object, ...], str, int]` do not overlap for the checker, which compares
`int` with `str` because it counts the elements after the unpacked part from the left; both have `("", 1)`. -/
theorem alignment_violation : tuples elemOverlaps (.unpack [] (some 0) [1]) (.unpack [] (some 0) [2, 1]) = false ∧
    InTuple elem (.unpack [] (some 0) [1]) [2, 1] ∧ InTuple elem (.unpack [] (some 0) [2, 1]) [2, 1] :=
  ⟨by decide, ⟨[], [2], [1], rfl, .nil, .cons (.inr rfl) .nil, fun _ h _ _ => by cases h; exact .inl rfl⟩,
    ⟨[], [], [2, 1], rfl, .nil, .cons (.inr rfl) (.cons (.inr rfl) .nil), fun _ _ _ h => by cases h⟩⟩

/-- `tuple[int, *tuple[str, ...]]` and `tuple[*tuple[str, ...], str]` overlap for the checker, although the first element would have to be
an `int` and a `str`. -/
theorem lengths_violation : tuples elemOverlaps (.unpack [1] (some 2) []) (.unpack [] (some 2) [2]) = true ∧
    ¬ ∃ vs, InTuple elem (.unpack [1] (some 2) []) vs ∧ InTuple elem (.unpack [] (some 2) [2]) vs := by
  refine ⟨by decide, ?_⟩
  rintro ⟨vs, ⟨x, y, z, rfl, hx, hz, _⟩, x', y', z', he, hx', hz', hm'⟩
  cases hx with
  | cons a b =>
    rename_i v vs'
    cases b
    cases hx'
    have hv : v = 1 := by rcases a with h | h <;> omega
    have two : ∀ u ∈ y' ++ z', u = 2 := by
      intro u hu
      rcases List.mem_append.mp hu with hu | hu
      · rcases hm' 2 rfl u hu with h | h <;> omega
      · cases hz' with
        | cons c d =>
          cases d
          simp at hu
          subst hu
          rcases c with h | h <;> omega
    have : v ∈ y' ++ z' := by
      have hm : v ∈ [] ++ y' ++ z' := he ▸ by simp
      simpa using hm
    have := two v this
    omega

end Verif.Overlap
