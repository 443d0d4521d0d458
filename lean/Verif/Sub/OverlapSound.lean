import Verif.Sub.OverlapClass

/-! # Types that do not overlap cannot be assigned to each other -/

namespace Verif.Sub

open Verif.Match

variable {w : World} {b : Bool} {allow : Nat → Bool}

theorem anyO_false {f : Ty → Option Bool} : ∀ {ts : List Ty}, anyO f ts = some false →
    ∀ t ∈ ts, f t = some false
  | [], _, t, ht => absurd ht (by simp)
  | a :: ts, h, t, ht => by
    simp only [anyO] at h
    cases hf : f a with
    | none => rw [hf] at h; cases h
    | some r =>
      rw [hf] at h
      cases r with
      | true => cases h
      | false =>
        rcases List.mem_cons.mp ht with rfl | ht
        · exact hf
        · exact anyO_false (by simpa using h) t ht

theorem allO_false {f : Ty → Option Bool} : ∀ {ts : List Ty}, allO f ts = some false →
    ∃ t ∈ ts, f t = some false
  | [], h => by cases h
  | a :: ts, h => by
    simp only [allO] at h
    cases hf : f a with
    | none => rw [hf] at h; cases h
    | some r =>
      rw [hf] at h
      cases r with
      | true =>
        obtain ⟨t, h1, h2⟩ := allO_false (by simpa using h)
        exact ⟨t, by simp [h1], h2⟩
      | false => exact ⟨a, by simp, hf⟩

theorem orO_false {x : Option Bool} {g : Unit → Option Bool} (h : orO x g = some false) :
    x = some false ∧ g () = some false := by
  unfold orO at h
  cases x with
  | none => cases h
  | some r => cases r <;> simp_all

theorem no_accepts {n : Nat} {rev : Bool} {t s : Ty} {m : Match}
    (h : isSuper w n rev t s = some m) (hm : m.bool = false) : ¬ Accepts w rev t s := by
  rintro ⟨k, m', h1, h2⟩
  have e1 := super_mono (Nat.le_max_left n k) rev t s m h
  have e2 := super_mono (Nat.le_max_right n k) rev t s m' h1
  rw [e1] at e2; cases e2
  rw [hm] at h2; cases h2

theorem related_false {n : Nat} {t s : Ty} (h : related w allow n t s = some false) :
    ¬ Accepts w true s t ∧ ¬ Accepts w false t s := by
  cases n with
  | zero => cases h
  | succ n =>
    simp only [related] at h
    obtain ⟨h1, h2⟩ := orO_false h
    simp only [Option.map_eq_some_iff] at h1 h2
    obtain ⟨m1, e1, e2⟩ := h1
    obtain ⟨m2, e3, e4⟩ := h2
    exact ⟨no_accepts e1 e2, no_accepts e3 e4⟩

/-- A direct match is a match. -/
theorem accepts_internal {n : Nat} {rev : Bool} {t s : Ty} (h : Yes (internal w n .cov rev t s)) :
    Accepts w rev t s := by
  obtain ⟨m, h1, h2⟩ := h
  refine ⟨n + 1, m, ?_, h2⟩
  have hm : ∃ l, mro w s = s :: l := by cases s <;> exact ⟨_, rfl⟩
  obtain ⟨l, hl⟩ := hm
  unfold isSuper
  split
  · rw [hl]
    simp only [mroM, h1, Option.bind_some]
    rw [if_neg (Yes.ne h2)]
    simp only [Option.bind_some]
    rw [if_neg (Yes.ne h2)]
  · rw [h1]
    simp only [Option.bind_some]
    rw [if_neg (Yes.ne h2)]

/-- What makes types the same. -/
theorem same_split (hc : Calm w b) {t s : Ty} (h : ∃ n m, isSame w n false t s = some m ∧ m.bool = true) :
    (∃ k, Yes (internal w k .inv false t s)) ∨ Accepts w false t s ∨ Accepts w true s t := by
  obtain ⟨n, m, h, hm⟩ := h
  cases n with
  | zero => simp [isSame] at h
  | succ n =>
    unfold isSame at h
    cases hi : internal w n .inv false t s with
    | none => rw [hi] at h; cases h
    | some r =>
      rw [hi] at h
      simp only [Option.bind_some] at h
      rcases orM_true h hm with h1 | ⟨m', h1, h2⟩
      · exact Or.inl ⟨n, r, hi, h1⟩
      · right
        have hy : Yes (other w n .inv false t s) := ⟨m', h1, h2⟩
        cases n with
        | zero => simp [other] at h1
        | succ n =>
          cases s with
          | any => exact Or.inl (any_never_accepted w false t).1
          | none =>
            simp only [other, hc.strict] at hy
            exact absurd hy.ofBool (by simp)
          | union us =>
            simp only [other] at hy
            split at hy
            · exact absurd hy Yes.not_false
            · right
              obtain ⟨m, h1, h2⟩ := hy
              cases hr : allM (fun u => isSuper w n false t u) .newTrue us with
              | none => rw [hr] at h1; cases h1
              | some r =>
                rw [hr] at h1
                simp only [Option.bind_some, if_true, Bool.not_false] at h1
                cases hx : isSuper w n true (.union us) t with
                | none => rw [hx] at h1; cases h1
                | some r' =>
                  rw [hx] at h1
                  simp only [Option.map_some, Option.some.injEq] at h1
                  subst h1
                  exact ⟨n, r', hx, (and_true.mp h2).2⟩
          | never =>
            simp only [other] at hy
            exact absurd hy.ofBool (by simp)
          | newType i =>
            simp only [other] at hy
            rw [if_neg (by simp)] at hy
            exact absurd hy Yes.not_false
          | _ =>
            simp only [other] at hy
            exact absurd hy Yes.not_false

/-- Types are apart if neither can be assigned to the other and they are not the same
directly. -/
theorem apart_of (hc : Calm w b) {t s : Ty} (h1 : ¬ Accepts w false t s) (h2 : ¬ Accepts w true s t)
    (h3 : ∀ k, Yes (internal w k .inv false t s) → False) : Apart w t s := by
  refine ⟨h1, h2, fun h => ?_⟩
  rcases same_split hc h with ⟨k, h⟩ | h | h
  · exact h3 k h
  · exact h1 h
  · exact h2 h

theorem related_apart (hc : Calm w b) {n : Nat} {t s : Ty} (h : related w allow n t s = some false)
    (h3 : ∀ k, Yes (internal w k .inv false t s) → Accepts w false t s) : Apart w t s := by
  obtain ⟨h1, h2⟩ := related_false h
  exact apart_of hc h2 h1 (fun k hk => h2 (h3 k hk))

/-- Members of types that do not overlap do not overlap. -/
theorem parts_false {n : Nat} {t s g u : Ty} (ht : Fine w b t)
    (h : overlaps w allow n t s = some false) (hg : Part t g) (hu : Part s u) :
    ∃ k, k ≤ n ∧ overlaps w allow k g u = some false ∧
      (((∃ us, t = .union us) ∨ ∃ us, s = .union us) → k < n) := by
  have right : ∀ {n : Nat} {t : Ty}, (∀ us, t ≠ .union us) → overlaps w allow n t s = some false →
      ∃ k, k ≤ n ∧ overlaps w allow k t u = some false ∧ ((∃ us, s = .union us) → k < n) := by
    intro n t hnu h
    rcases hu with ⟨rfl, hs⟩ | ⟨ss, rfl, hu⟩
    · exact ⟨n, Nat.le_refl n, h, fun ⟨us, e⟩ => absurd e (hs us)⟩
    · cases n with
      | zero => cases h
      | succ n =>
        have : overlaps w allow (n + 1) t (.union ss) = anyO (fun u => overlaps w allow n t u) ss := by
          cases t <;> first
            | exact absurd rfl (hnu _)
            | simp only [overlaps]
        rw [this] at h
        exact ⟨n, by omega, anyO_false h u hu, fun _ => by omega⟩
  rcases hg with ⟨rfl, hnu⟩ | ⟨ts, rfl, hg⟩
  · obtain ⟨k, h1, h2, h3⟩ := right hnu h
    exact ⟨k, h1, h2, fun h => h.elim (fun ⟨us, e⟩ => absurd e (hnu us)) h3⟩
  · cases n with
    | zero => cases h
    | succ n =>
      simp only [overlaps] at h
      have hnu : ∀ us, g ≠ .union us := by
        cases ht with
        | union _ h2 => exact h2 g hg
      obtain ⟨k, h1, h2, -⟩ := right hnu (anyO_false h g hg)
      exact ⟨k, by omega, h2, fun _ => by omega⟩

/-- All smaller cases. -/
def Smaller (w : World) (allow : Nat → Bool) (b : Bool) (n : Nat) : Prop :=
  ∀ t s, Fine w b t → Fine w b s → ∀ k, k ≤ n → overlaps w allow k t s = some false → Apart w t s

theorem part_fine {t g : Ty} (ht : Fine w b t) (hg : Part t g) : Fine w b g := by
  rcases hg with ⟨rfl, -⟩ | ⟨ts, rfl, hg⟩
  · exact ht
  · cases ht with
    | union _ _ h => exact h g hg

theorem union_apart (hc : Calm w b) {n : Nat} {t s : Ty} (ih : Smaller w allow b n)
    (ht : Fine w b t) (hs : Fine w b s) (hu : (∃ us, t = .union us) ∨ ∃ us, s = .union us)
    (h : overlaps w allow (n + 1) t s = some false) : Apart w t s := by
  have piece : ∀ {g u}, Part t g → Part s u → ∃ k, k ≤ n ∧ overlaps w allow k g u = some false := by
    intro g u h1 h2
    obtain ⟨k, -, h3, h4⟩ := parts_false ht h h1 h2
    exact ⟨k, by have := h4 hu; omega, h3⟩
  have ap : ∀ {g u}, Part t g → Part s u → Apart w g u := by
    intro g u h1 h2
    obtain ⟨k, h3, h4⟩ := piece h1 h2
    exact ih g u (part_fine ht h1) (part_fine hs h2) k h3 h4
  have hbool := hc.fineFallback (.bool true)
  have sup : ¬ Accepts w false t s := by
    intro ha
    by_cases htu : ∃ us, t = .union us
    · obtain ⟨ts, rfl⟩ := htu
      obtain ⟨u, h1, ⟨g, h2, h3⟩ | ⟨x, h2, h3, h4⟩⟩ := union_accepts hc ht hs ha
      · exact (ap (Or.inr ⟨_, rfl, h2⟩) h1).sup h3
      · obtain ⟨k, h5, h6⟩ := piece (Or.inr ⟨_, rfl, h2⟩) h1
        match k with
        | 0 => cases h6
        | 1 => rcases h4 with rfl | ⟨i, rfl⟩ <;> simp [overlaps, overlapsLeft] at h6
        | k + 2 =>
          have : overlaps w allow k (.cls w.bool []) u = some false := by
            rcases h4 with rfl | ⟨i, rfl⟩ <;> simpa [overlaps, overlapsLeft, fallback] using h6
          exact (ih _ _ hbool (part_fine hs h1) k (by omega) this).sup h3
    · have hnu : ∀ us, t ≠ .union us := fun us e => htu ⟨us, e⟩
      obtain ⟨ss, rfl⟩ := hu.resolve_left htu
      have hne : ss ≠ [] := by cases hs; assumption
      obtain ⟨u, h1, h2⟩ := accepts_union hc ht hnu hne ha
      exact (ap (Or.inl ⟨rfl, hnu⟩) (Or.inr ⟨_, rfl, h1⟩)).sup h2
  have sub : ¬ Accepts w true s t := by
    intro ha
    by_cases hsu : ∃ us, s = .union us
    · obtain ⟨ss, rfl⟩ := hsu
      obtain ⟨g, h1, ⟨u, h2, h3⟩ | ⟨x, h2, h3, h4⟩⟩ := union_accepts hc hs ht ha
      · exact (ap h1 (Or.inr ⟨_, rfl, h2⟩)).sub h3
      · obtain ⟨k, h5, h6⟩ := piece h1 (Or.inr ⟨_, rfl, h2⟩)
        match k with
        | 0 => cases h6
        | k + 1 =>
          have : overlaps w allow k g (.cls w.bool []) = some false := by
            rcases h4 with rfl | ⟨i, rfl⟩ <;> simpa [overlaps, fallback] using h6
          exact (ih _ _ (part_fine ht h1) hbool k (by omega) this).sub h3
    · have hnu : ∀ us, s ≠ .union us := fun us e => hsu ⟨us, e⟩
      obtain ⟨ts, rfl⟩ := hu.resolve_right hsu
      have hne : ts ≠ [] := by cases ht; assumption
      obtain ⟨g, h1, h2⟩ := accepts_union hc hs hnu hne ha
      exact (ap (Or.inr ⟨_, rfl, h1⟩) (Or.inl ⟨rfl, hnu⟩)).sub h2
  refine apart_of hc sup sub fun k hk => ?_
  cases k with
  | zero => obtain ⟨m, h1, _⟩ := hk; simp [internal] at h1
  | succ k =>
    by_cases htu : ∃ us, t = .union us
    · obtain ⟨ts, rfl⟩ := htu
      simp only [internal, if_true] at hk
      obtain ⟨m, h1, h2⟩ := hk
      cases hr : isSuper w k false (.union ts) s with
      | none => rw [hr] at h1; cases h1
      | some r =>
        rw [hr] at h1
        simp only [Option.bind_some] at h1
        cases hx : isSuper w k (!false) s (.union ts) with
        | none => rw [hx] at h1; cases h1
        | some r' =>
          rw [hx] at h1
          simp only [Option.map_some, Option.some.injEq] at h1
          subst h1
          exact sup ⟨k, r, hr, (and_true.mp h2).1⟩
    · obtain ⟨ss, rfl⟩ := hu.resolve_left htu
      cases ht with
      | union => exact htu ⟨_, rfl⟩
      | any => exact sup (any_never_accepted w false _).2.2.1
      | never | none =>
        simp only [internal, Ty.isNever, Ty.isNone, hc.strict] at hk
        exact absurd hk.ofBool (by simp)
      | cls =>
        refine sup (accepts_internal (n := k + 1) ?_)
        simp only [internal] at hk ⊢
        cases k with
        | zero => obtain ⟨m, h1, _⟩ := hk; simp [classVsType] at h1
        | succ k => simpa only [classVsType] using hk
      | @type t1 _ h1 =>
        cases t1 with
        | union us => exact h1 us rfl
        | _ =>
          simp only [internal] at hk
          exact absurd hk Yes.not_false
      | _ =>
        simp only [internal] at hk
        exact absurd hk Yes.not_false

/-- A literal is apart from what its class is apart from. -/
theorem lit_left_apart (hc : Calm w b) {l : Lit} {s : Ty} (hs : Fine w b s) (hu : ∀ us, s ≠ .union us)
    (hl : ∀ l', s ≠ .lit l') (h : Apart w (.cls (fallback w l) []) s) : Apart w (.lit l) s := by
  refine apart_of hc (fun ha => h.sup (lit_accepts hc hs hu ha))
    (fun ha => h.sub (accepts_lit hc hs hu hl ha)) fun k hk => ?_
  cases k with
  | zero => obtain ⟨m, h1, _⟩ := hk; simp [internal] at h1
  | succ k =>
    cases s with
    | lit l' => exact hl l' rfl
    | _ =>
      simp only [internal] at hk
      exact absurd hk Yes.not_false

theorem lit_right_apart (hc : Calm w b) {l : Lit} {t : Ty} (ht : Fine w b t) (hu : ∀ us, t ≠ .union us)
    (hl : ∀ l', t ≠ .lit l') (h : Apart w t (.cls (fallback w l) [])) : Apart w t (.lit l) := by
  refine apart_of hc (fun ha => h.sup (accepts_lit hc ht hu hl ha))
    (fun ha => h.sub (lit_accepts hc ht hu ha)) fun k hk => ?_
  match k with
  | 0 => obtain ⟨m, h1, _⟩ := hk; simp [internal] at h1
  | k + 1 =>
    cases t with
    | lit l' => exact hl l' rfl
    | union us => exact hu us rfl
    | any => exact h.sup (any_never_accepted w false _).2.2.1
    | none | never =>
      simp only [internal, Ty.isNever, Ty.isNone, hc.strict] at hk
      exact absurd hk.ofBool (by simp)
    | cls c as =>
      simp only [internal] at hk
      cases k with
      | zero => obtain ⟨m, h1, _⟩ := hk; simp [classVsType] at h1
      | succ k =>
        simp only [classVsType] at hk
        rw [if_neg (by simp)] at hk
        exact absurd hk Yes.not_false
    | _ =>
      simp only [internal] at hk
      exact absurd hk Yes.not_false

theorem lits_apart (hc : Calm w b) {l l' : Lit} (h : l ≠ l') : Apart w (.lit l) (.lit l') := by
  have no : ∀ {rev : Bool} {l l' : Lit}, l ≠ l' → ¬ Accepts w rev (.lit l) (.lit l') := by
    intro rev l l' h ha
    obtain ⟨n, h1 | h1⟩ := accepts_plain rfl ha
    all_goals
      cases n with
      | zero => obtain ⟨m, h1, _⟩ := h1; simp [internal, other] at h1
      | succ n =>
        simp only [internal, other] at h1
        first
          | exact absurd h1 Yes.not_false
          | exact absurd h1.ofBool (by simpa using h)
  refine apart_of hc (no h) (no (Ne.symm h)) fun k hk => ?_
  cases k with
  | zero => obtain ⟨m, h1, _⟩ := hk; simp [internal] at h1
  | succ k =>
    simp only [internal] at hk
    exact absurd hk.ofBool (by simpa using h)

/-- `matches` of what is inside `type[..]`. -/
theorem types_apart (hc : Calm w b) {t s : Ty} (h1 : ∀ k, t ≠ .newType k) (h2 : ∀ k, s ≠ .newType k)
    (h : Apart w t s) : Apart w (.type t) (.type s) := by
  have no : ∀ {n : Nat} {v rev} {t s : Ty}, (∀ k, s ≠ .newType k) →
      Yes (internal w n v rev (.type t) (.type s)) → ∃ n, Yes («matches» w n v rev t s) := by
    intro n v rev t s h hy
    cases n with
    | zero => obtain ⟨m, h1, _⟩ := hy; simp [internal] at h1
    | succ n =>
      have hn : s.isNewType = false := by cases s <;> first | rfl | exact absurd rfl (h _)
      simp only [internal] at hy
      rw [if_neg (by simp [hn])] at hy
      obtain ⟨m, h1, h2⟩ := hy
      cases hr : «matches» w n v rev t s with
      | none => rw [hr] at h1; cases h1
      | some r =>
        rw [hr] at h1
        simp only [Option.map_some, Option.some.injEq] at h1
        subst h1
        refine ⟨n, r, hr, ?_⟩
        split at h2
        · exact h2
        · rwa [similar_true] at h2
  have both : ∀ {rev} {t s : Ty}, (∀ k, s ≠ .newType k) → Accepts w rev (.type t) (.type s) →
      ∃ n, Yes («matches» w n .cov rev t s) := by
    intro rev t s h ha
    obtain ⟨n, h1 | h1⟩ := accepts_plain rfl ha
    · exact no h h1
    · cases n with
      | zero => obtain ⟨m, h1, _⟩ := h1; simp [other] at h1
      | succ n =>
        simp only [other] at h1
        exact absurd h1 Yes.not_false
  refine apart_of hc (fun ha => ?_) (fun ha => ?_) fun k hk => ?_
  · obtain ⟨n, hn⟩ := both h2 ha
    exact h.args _ _ hn
  · obtain ⟨n, hn⟩ := both h1 ha
    exact h.back _ hn
  · obtain ⟨n, hn⟩ := no h2 hk
    exact h.args _ _ hn

/-- What accepts `type[..]` besides `object` and classes. -/
theorem accepts_type {rev : Bool} {t s : Ty} (hn : t.nominal = true) (hcls : ∀ c as, t ≠ .cls c as) :
    ¬ Accepts w rev t (.type s) := by
  intro ha
  obtain ⟨n, ⟨y, hy, hi⟩ | h | h | h⟩ := accepts_nominal hn ha
  · simp only [mro, List.mem_cons, List.not_mem_nil, or_false] at hy
    cases n with
    | zero => obtain ⟨m, h1, _⟩ := hi; simp [internal] at h1
    | succ n =>
      cases t with
      | cls c as => exact hcls c as rfl
      | data | fixed | arb | unpack =>
        rcases hy with rfl | rfl <;> (simp only [internal] at hi; exact absurd hi Yes.not_false)
      | _ => simp [Ty.nominal] at hn
  · obtain ⟨⟨c, as, e⟩, -⟩ := protocolMatch_true h
    exact hcls c as e
  · cases n with
    | zero => obtain ⟨m, h1, _⟩ := h; simp [other] at h1
    | succ n =>
      simp only [other] at h
      exact absurd h Yes.not_false
  · cases n with
    | zero => obtain ⟨m, h1, _⟩ := h; simp [promotion] at h1
    | succ n =>
      simp only [promotion] at h
      exact absurd h Yes.not_false

/-- `type[..]` and an instance of a class. -/
theorem type_class_apart (hc : Calm w b) {n c : Nat} {t : Ty} {as : List Ty} (ih : Smaller w allow b n)
    (ht : Fine w b (.type t)) (hs : Fine w b (.cls c as))
    (h : overlapsType w allow n t (.cls c as) = some false) : Apart w (.type t) (.cls c as) := by
  have hb : b = false := by cases ht; assumption
  subst hb
  have hft : Fine w false t := by cases ht; assumption
  have hbare : c ≠ w.bare := by cases hs with | cls _ h => exact h rfl
  cases n with
  | zero => cases h
  | succ n =>
    -- the metaclass, or the rest
    have look : (∃ d bs m, t = .cls d bs ∧ (w.cls d).metaclass = some m ∧
        Apart w (.cls m []) (.cls c as)) ∨
        (((∀ d bs, t ≠ .cls d bs) ∨ ∃ d bs, t = .cls d bs ∧ (w.cls d).metaclass = Option.none) ∧
          c ≠ w.object ∧ ((w.cls c).isMeta = true → Apart w t (.cls c as))) := by
      have rest : orO (some ((Ty.cls c as).isObj w)) (fun _ =>
          andO (some (w.cls c).isMeta) (fun _ => overlaps w allow n t (.cls c as))) = some false →
          c ≠ w.object ∧ ((w.cls c).isMeta = true → Apart w t (.cls c as)) := by
        intro h
        obtain ⟨h1, h2⟩ := orO_false h
        refine ⟨by simpa [Ty.isObj] using h1, fun hm => ?_⟩
        rw [hm] at h2
        simp only [andO, Option.bind_some, if_true] at h2
        exact ih t _ hft hs n (by omega) h2
      simp only [overlapsType] at h
      cases t with
      | cls d bs =>
        simp only at h
        cases hm : (w.cls d).metaclass with
        | none =>
          rw [hm] at h
          exact Or.inr ⟨Or.inr ⟨d, bs, rfl, hm⟩, rest h⟩
        | some m =>
          rw [hm] at h
          obtain ⟨h1, h2⟩ := hc.metaclass d m hm
          exact Or.inl ⟨d, bs, m, rfl, hm, ih _ _ (.cls (by simp [h1]) (fun _ => h2) (by simp)) hs n
            (by omega) h⟩
      | _ => exact Or.inr ⟨Or.inl (by simp), rest h⟩
    have direct : ∀ {k v}, Yes (internal w k v false (.type t) (.cls c as)) → False := by
      intro k v hk
      cases k with
      | zero => obtain ⟨m, h1, _⟩ := hk; simp [internal] at h1
      | succ k =>
        simp only [internal] at hk
        split at hk
        · rename_i hm
          simp only [Bool.and_eq_true] at hm
          have hta : t = .any := by
            cases t <;> first | rfl | simp [Ty.isAny] at hm
          subst hta
          rcases look with ⟨d, bs, m, e, -⟩ | ⟨-, -, h1⟩
          · cases e
          · exact (h1 hm.2).sup (any_never_accepted w false _).2.2.1
        · exact absurd hk Yes.not_false
    refine apart_of hc (fun ha => ?_) (fun ha => ?_) (fun k => direct)
    · obtain ⟨n, h1 | h1⟩ := accepts_plain rfl ha
      · exact direct h1
      · exact other_cls h1
    · obtain ⟨n, ⟨y, hy, hi⟩ | h | h | h⟩ := accepts_nominal rfl ha
      · simp only [mro, List.mem_cons, List.not_mem_nil, or_false] at hy
        rcases hy with rfl | rfl
        · match n with
          | 0 => obtain ⟨m, h1, _⟩ := hi; simp [internal] at h1
          | 1 => obtain ⟨m, h1, _⟩ := hi; simp [internal, classVsType] at h1
          | n + 2 =>
            have nb : ¬ Yes (some (ofBool (c == w.bare))) := by
              intro hy
              exact hbare (by simpa using hy.ofBool)
            simp only [internal] at hi
            rcases look with ⟨d, bs, m, rfl, hm, hap⟩ | ⟨h1 | ⟨d, bs, rfl, hm⟩, -⟩
            · simp only [classVsType, hm] at hi
              split at hi
              · exact absurd hi Yes.not_false
              · obtain ⟨m', h1, h2⟩ := hi
                cases hr : «matches» w n .cov true (.cls c as) (.cls m []) with
                | none => rw [hr] at h1; cases h1
                | some r =>
                  rw [hr] at h1
                  simp only [Option.bind_some] at h1
                  rcases orM_true h1 h2 with h3 | h3
                  · exact hap.back n ⟨r, hr, h3⟩
                  · exact nb h3
            · cases t with
              | cls d bs => exact h1 d bs rfl
              | _ =>
                simp only [classVsType] at hi
                exact nb hi
            · simp only [classVsType, hm] at hi
              exact nb hi
        · obtain ⟨ys, e, -⟩ := internal_cls (w := w) rfl hi
          cases e
          rcases look with ⟨d, bs, m, rfl, hm, hap⟩ | ⟨-, h1, -⟩
          · have := Fine.noArgs hc.object hs
            subst this
            exact hap.sub (object_accepts_all hc.object hc.objectPlain hc.bases.nominal true _)
          · exact h1 rfl
      · have := (protocolMatch_true h).2
        rw [hc.protocolType rfl] at this
        cases this
      · cases n with
        | zero => obtain ⟨m, h1, _⟩ := h; simp [other] at h1
        | succ n =>
          simp only [other] at h
          exact absurd h Yes.not_false
      · cases n with
        | zero => obtain ⟨m, h1, _⟩ := h; simp [promotion] at h1
        | succ n =>
          simp only [promotion] at h
          exact absurd h Yes.not_false

/-- `type[..]` and what is neither a class nor an instance of one. -/
theorem type_leaf_apart (hc : Calm w b) {t s : Ty} (hs : Fine w b s) (hcls : ∀ c as, s ≠ .cls c as)
    (htype : ∀ u, s ≠ .type u) (hany : s ≠ .any) (hnev : s ≠ .never) (hu : ∀ us, s ≠ .union us)
    (hl : ∀ l, s ≠ .lit l) :
    Apart w (.type t) s := by
  have direct : ∀ {k v} {s : Ty}, (∀ c as, s = .cls c as → (w.cls c).isMeta = false) →
      (∀ u, s ≠ .type u) → (∀ us, s ≠ .union us) →
      Yes (internal w k v false (.type t) s) → False := by
    intro k v s h1 h2 h3 hk
    cases k with
    | zero => obtain ⟨m, h1, _⟩ := hk; simp [internal] at h1
    | succ k =>
      cases s with
      | cls c as =>
        simp only [internal] at hk
        rw [if_neg (by simp [h1 c as rfl])] at hk
        exact absurd hk Yes.not_false
      | type u => exact h2 u rfl
      | union us => exact h3 us rfl
      | _ =>
        simp only [internal] at hk
        exact absurd hk Yes.not_false
  have d1 : ∀ {k v}, Yes (internal w k v false (.type t) s) → False :=
    fun {_ _} => direct (fun c as e => absurd e (hcls c as)) htype hu
  refine apart_of hc (fun ha => ?_) (fun ha => ?_) (fun k => d1)
  · obtain ⟨n, h | h⟩ := accepts_plain rfl ha
    · exact d1 h
    · cases n with
      | zero => obtain ⟨m, h1, _⟩ := h; simp [other] at h1
      | succ n =>
        cases hs with
        | any => exact hany rfl
        | never => exact hnev rfl
        | none =>
          simp only [other, hc.strict] at h
          exact absurd h.ofBool (by simp)
        | union => exact hu _ rfl
        | newType i =>
          simp only [other, if_true] at h
          have hnom := (hc.newBase i).1
          have ha : Accepts w false (.type t) (w.newBase i) := by
            cases n with
            | zero => obtain ⟨m, h1, _⟩ := h; simp [«matches»] at h1
            | succ n =>
              simp only [«matches»] at h
              exact ⟨n, h⟩
          obtain ⟨n, h | h⟩ := accepts_plain rfl ha
          · exact direct (hc.newBase i).2 (by rintro us h; rw [h] at hnom; cases hnom)
              (by rintro us h; rw [h] at hnom; cases hnom) h
          · cases n with
            | zero => obtain ⟨m, h1, _⟩ := h; simp [other] at h1
            | succ n =>
              cases hb : w.newBase i <;> rw [hb] at hnom <;> simp [Ty.nominal] at hnom <;>
                rw [hb] at h <;> simp only [other] at h <;> exact absurd h Yes.not_false
        | _ =>
          simp only [other] at h
          exact absurd h Yes.not_false
  · by_cases hn : s.nominal = true
    · exact accepts_type hn hcls ha
    · obtain ⟨n, h | h⟩ := accepts_plain (by simpa using hn) ha
      · cases n with
        | zero => obtain ⟨m, h1, _⟩ := h; simp [internal] at h1
        | succ n =>
          cases hs with
          | any => exact hany rfl
          | never => exact hnev rfl
          | none =>
            simp only [internal, Ty.isNone, hc.strict] at h
            exact absurd h.ofBool (by simp)
          | union => exact hu _ rfl
          | type => exact htype _ rfl
          | lit | newType =>
            simp only [internal] at h
            exact absurd h Yes.not_false
          | _ => simp [Ty.nominal] at hn
      · cases n with
        | zero => obtain ⟨m, h1, _⟩ := h; simp [other] at h1
        | succ n =>
          simp only [other] at h
          exact absurd h Yes.not_false

end Verif.Sub
