import Verif.Contains.Spec

/-!
# Properties of narrowing by `in`
-/

namespace Verif.Contains

open Spec

variable (w : World)

/-! ## Lemmas -/

theorem findMember_some {d : TDef} {s : String} {r : Bool} (h : findMember d s = some r) : (s, r) ∈ d.members := by
  simp only [findMember, Option.map_eq_some_iff] at h
  obtain ⟨⟨a, b⟩, h1, rfl⟩ := h
  have := List.find?_some h1
  simp at this
  subst this
  exact List.mem_of_find?_eq_some h1

theorem findMember_none {d : TDef} {s : String} (h : findMember d s = none) : ∀ m ∈ d.members, m.1 ≠ s := by
  simp only [findMember, Option.map_eq_none_iff, List.find?_eq_none, beq_iff_eq] at h
  exact h

/-- One literal. -/
def step (d : TDef) (c : Nat × Nat) (s : String) : Nat × Nat :=
  match findMember d s with
  | some r => if r then (c.1 + 1, c.2) else (c.1, c.2)
  | none => (c.1, c.2 + 1)

theorem counts_eq (d : TDef) (ls : List String) : counts d ls = ls.foldl (step d) (0, 0) := rfl

theorem foldl_step (d : TDef) (ls : List String) (c : Nat × Nat) :
    (ls.foldl (step d) c).1 = c.1 + ls.countP (fun s => findMember d s == some true) ∧
    (ls.foldl (step d) c).2 = c.2 + ls.countP (fun s => findMember d s == none) := by
  induction ls generalizing c with
  | nil => simp
  | cons s ls ih =>
    rw [List.foldl_cons, (ih _).1, (ih _).2, List.countP_cons, List.countP_cons]
    unfold step
    cases h : findMember d s with
    | none => simp; omega
    | some r => cases r <;> simp; omega

theorem counts_true (d : TDef) (ls : List String) :
    (counts d ls).1 = ls.length ↔ ∀ s ∈ ls, findMember d s = some true := by
  rw [counts_eq, (foldl_step d ls (0, 0)).1, Nat.zero_add, List.countP_eq_length]
  simp

theorem counts_false (d : TDef) (ls : List String) :
    (counts d ls).2 = ls.length ↔ ∀ s ∈ ls, findMember d s = none := by
  rw [counts_eq, (foldl_step d ls (0, 0)).2, Nat.zero_add, List.countP_eq_length]
  simp

theorem mem_strLiterals (left : Ty) (s : String) : s ∈ strLiterals left ↔ Atom.lit s ∈ left := by
  simp only [strLiterals, List.mem_filterMap]
  constructor
  · rintro ⟨a, ha, h⟩
    cases a <;> simp at h
    subst h; exact ha
  · intro h; exact ⟨_, h, rfl⟩

/-! ## C202: the right side -/

/-- All members of the left side are literals. -/
def Literals (left : Ty) : Prop := ∀ a ∈ left, ∃ s, a = .lit s

/-- A typed dict stays in the branches in which a dictionary may be. -/
theorem narrow_right_partial (e : Env) (left right t f : Ty) (h : narrowRight w left right = some (t, f))
    (hl : Literals left) (x y : Val) (hx : HasType w e x left) (hy : HasType w e y right) :
    (In e x (.val y) → HasType w e y t) ∧ (¬ In e x (.val y) → HasType w e y f) := by
  unfold narrowRight at h
  split at h
  · simp only [Option.some.injEq, Prod.mk.injEq] at h
    obtain ⟨rfl, rfl⟩ := h
    obtain ⟨a, ha, hv⟩ := hx
    obtain ⟨s, rfl⟩ := hl a ha
    simp only [HasAtom] at hv
    subst hv
    have hs := (mem_strLiterals left s).2 ha
    obtain ⟨b, hb, hv⟩ := hy
    cases b with
    | td n =>
      obtain ⟨keys, rfl, hf⟩ := hv
      constructor
      · rintro ⟨k, hk, hks⟩
        cases hks
        refine ⟨.td n, List.mem_filter.2 ⟨hb, ?_⟩, keys, rfl, hf⟩
        simp only [keep]
        split
        · rfl
        · simp only [Bool.or_eq_true, Bool.not_eq_true', bne_iff_ne, ne_eq]
          by_cases hfin : (w.tds n).final = true
          · refine .inr fun hc => ?_
            obtain ⟨m, hm, hms⟩ := hf.2 hfin s hk
            exact findMember_none ((counts_false _ _).1 hc s hs) m hm hms
          · exact .inl (by simpa using hfin)
      · intro hn
        refine ⟨.td n, List.mem_filter.2 ⟨hb, ?_⟩, keys, rfl, hf⟩
        simp only [keep]
        split
        · rename_i hc
          have := findMember_some ((counts_true _ _).1 hc s hs)
          exact absurd ⟨s, hf.1 _ this rfl, rfl⟩ hn
        · rfl
    | _ =>
      constructor <;> intro _ <;> exact ⟨_, List.mem_filter.2 ⟨hb, rfl⟩, hv⟩
  · simp at h

/-- The full statement: for every left side. -/
def NarrowRight : Prop :=
  ∀ (w : World) (e : Env) (left right t f : Ty), narrowRight w left right = some (t, f) →
    ∀ x y, HasType w e x left → HasType w e y right →
      (In e x (.val y) → HasType w e y t) ∧ (¬ In e x (.val y) → HasType w e y f)

namespace Example

/-- `class A(TypedDict): a: int` -/
def world : World := ⟨fun _ => ⟨[("a", true)], false⟩, fun _ _ => true⟩
def env : Env := ⟨fun a b => a = b, fun _ _ => True, fun _ _ => False⟩

end Example

/-- If `key: Literal["a"] | int` and `d` is a typed dict with the required key `a`, then `d` is `Never` where `key in d` is
false. But `key` can be an `int`. -/
theorem narrow_right_violation : ¬ NarrowRight := by
  intro h
  have := (h Example.world Example.env [.lit "a", .cls 0] [.td 0] [.td 0] [] (by decide) (.inst 0) (.dict ["a"])
    ⟨.cls 0, by simp, 0, rfl, rfl⟩ ⟨.td 0, by simp, ["a"], rfl, by simp [Fits, Example.world]⟩).2
      (by rintro ⟨s, _, hs⟩; cases hs)
  obtain ⟨a, ha, _⟩ := this
  simp at ha

/-- What stays is not too much: for each typed dict that stays there is a dictionary and a key, so that the branch is
executed. -/
theorem narrow_right_precise (e : Env) (left right t f : Ty) (h : narrowRight w left right = some (t, f))
    (hn : ∀ n, ((w.tds n).members.map (·.1)).Nodup) (n : Nat) :
    (Atom.td n ∈ t → ∃ x keys, HasType w e x left ∧ HasAtom w e (.dict keys) (.td n) ∧ In e x (.val (.dict keys))) ∧
    (Atom.td n ∈ f → ∃ x keys, HasType w e x left ∧ HasAtom w e (.dict keys) (.td n) ∧ ¬ In e x (.val (.dict keys))) := by
  unfold narrowRight at h
  split at h
  · rename_i hc
    simp only [Bool.and_eq_true, Bool.not_eq_true', List.isEmpty_eq_false_iff_exists_mem] at hc
    obtain ⟨_, s0, hs0⟩ := hc
    simp only [Option.some.injEq, Prod.mk.injEq] at h
    obtain ⟨rfl, rfl⟩ := h
    have hlit : ∀ s ∈ strLiterals left, HasType w e (.str s) left := fun s hs => ⟨_, (mem_strLiterals left s).1 hs, rfl⟩
    constructor
    · intro hm
      obtain ⟨_, hk⟩ := List.mem_filter.1 hm
      -- all members, and a literal if there may be more
      have key : ∃ s ∈ strLiterals left, (w.tds n).final = false ∨ ∃ m ∈ (w.tds n).members, m.1 = s := by
        simp only [keep] at hk
        split at hk
        · rename_i hc
          exact ⟨s0, hs0, .inr ⟨_, findMember_some ((counts_true _ _).1 hc s0 hs0), rfl⟩⟩
        · simp only [Bool.or_eq_true, Bool.not_eq_true', bne_iff_ne, ne_eq] at hk
          rcases hk with hk | hk
          · exact ⟨s0, hs0, .inl hk⟩
          · rw [counts_false] at hk
            simp only [Classical.not_forall] at hk
            obtain ⟨s, hs, hm⟩ := hk
            cases hf : findMember (w.tds n) s with
            | none => exact absurd hf hm
            | some r => exact ⟨s, hs, .inr ⟨_, findMember_some hf, rfl⟩⟩
      obtain ⟨s, hs, hk⟩ := key
      rcases hk with hk | ⟨m, hm, rfl⟩
      · refine ⟨.str s, s :: (w.tds n).members.map (·.1), hlit s hs, ⟨_, rfl, ?_, ?_⟩, s, by simp, rfl⟩
        · intro m hm _; exact List.mem_cons_of_mem _ (List.mem_map_of_mem hm)
        · intro h; rw [hk] at h; simp at h
      · refine ⟨.str m.1, (w.tds n).members.map (·.1), hlit _ hs, ⟨_, rfl, ?_, ?_⟩, m.1, List.mem_map_of_mem hm, rfl⟩
        · intro m hm _; exact List.mem_map_of_mem hm
        · intro _ k hk; simpa using hk
    · intro hm
      obtain ⟨_, hk⟩ := List.mem_filter.1 hm
      simp only [keep] at hk
      split at hk
      · simp at hk
      · rename_i hc
        rw [counts_true] at hc
        simp only [Classical.not_forall] at hc
        obtain ⟨s, hs, hne⟩ := hc
        -- only what is required
        refine ⟨.str s, ((w.tds n).members.filter (·.2)).map (·.1), hlit s hs, ⟨_, rfl, ?_, ?_⟩, ?_⟩
        · intro m hm hr; exact List.mem_map_of_mem (List.mem_filter.2 ⟨hm, hr⟩)
        · intro _ k hk
          obtain ⟨m, hm, rfl⟩ := List.mem_map.1 hk
          exact ⟨m, (List.mem_filter.1 hm).1, rfl⟩
        · rintro ⟨k, hk, hks⟩
          cases hks
          obtain ⟨⟨a, b⟩, hm, rfl⟩ := List.mem_map.1 hk
          obtain ⟨hm, hr⟩ := List.mem_filter.1 hm
          simp only at hr hne
          subst hr
          cases hf : findMember (w.tds n) a with
          | none => exact findMember_none hf _ hm rfl
          | some r =>
            have h1 := findMember_some hf
            have huniq : ∀ (l : List (String × Bool)), (l.map (·.1)).Nodup → (a, r) ∈ l → (a, true) ∈ l → r = true := by
              intro l hl h1 h2
              induction l with
              | nil => simp at h1
              | cons m l ih =>
                simp only [List.map_cons, List.nodup_cons, List.mem_map, not_exists, not_and] at hl
                rcases List.mem_cons.1 h1 with h1 | h1 <;> rcases List.mem_cons.1 h2 with h2 | h2
                · rw [← h1] at h2; exact ((Prod.mk.inj h2).2).symm
                · exact absurd (by rw [← h1]) (hl.1 (a, true) h2)
                · exact absurd (by rw [← h2]) (hl.1 (a, r) h1)
                · exact ih hl.2 h1 h2
            rw [huniq _ (hn n) h1 hm] at hf
            exact hne hf
  · simp at h

/-! ## C203: the left side -/

/-- None of the items but `None` itself has the value `None`, or the items are just `Any` or just `object`. -/
def NoHiddenNone (e : Env) : Container → Prop
  | .known t => t = [.any] ∨ t = [.object] ∨ ∀ a ∈ t, a ≠ .none → ¬ HasAtom w e .none a
  | .tuple t => t = [.any] ∨ t = [.object] ∨ ∀ a ∈ t, a ≠ .none → ¬ HasAtom w e .none a
  | .other _ => True

/-- If the left side is in the container, then it has the narrowed type. -/
theorem narrow_left_partial (e : Env) (left : Ty) (c : Container) (t : Ty) (h : narrowLeft w left c = some t)
    (hn : NoHiddenNone w e c) (x : Val) (y : CVal) (hx : HasType w e x left) (hy : HasContainer w e y c) (hin : In e x y) :
    HasType w e x t := by
  -- it is not `None`
  have key : ∀ item, containerItem c = some item → item.contains .none = false → x ≠ .none := by
    intro item hi hc hxn
    subst hxn
    have hno : Atom.none ∉ item := by simpa using hc
    have fromItem : ∀ t : Ty, containerItem (.known t) = some item → item = t := by
      intro t ht
      simp only [containerItem] at ht
      split at ht <;> simp_all
    cases c with
    | known t' =>
      have := fromItem t' hi; subst this
      cases y with
      | val v => simp [HasContainer] at hy
      | items vs =>
        rcases hn with rfl | rfl | hn
        · simp [containerItem] at hi
        · simp [containerItem] at hi
        · obtain ⟨a, ha, hv⟩ := hy _ hin
          exact hn a ha (fun h => hno (h ▸ ha)) hv
    | tuple t' =>
      have := fromItem t' (by simpa [containerItem] using hi); subst this
      cases y with
      | val v => simp [HasContainer] at hy
      | items vs =>
        rcases hn with rfl | rfl | hn
        · simp [containerItem] at hi
        · simp [containerItem] at hi
        · obtain ⟨a, ha, hv⟩ := hy _ hin
          exact hn a ha (fun h => hno (h ▸ ha)) hv
    | other t' =>
      cases y with
      | items vs => simp [HasContainer] at hy
      | val v =>
        have htd : ∀ n, t' = [.td n] → False := by
          rintro n rfl
          obtain ⟨a, ha, hv⟩ := hy
          simp at ha
          subst ha
          obtain ⟨keys, rfl, _⟩ := hv
          obtain ⟨s, _, hs⟩ := hin
          cases hs
        unfold containerItem at hi
        simp only at hi
        cases hi
  unfold narrowLeft at h
  cases hi : containerItem c with
  | none => simp [hi] at h
  | some item =>
    rw [hi] at h
    simp only at h
    split at h
    · rename_i hc
      simp only [Bool.and_eq_true, Bool.not_eq_true'] at hc
      have hne := key item hi hc.1
      unfold removedOptional at h
      split at h
      · cases h
        obtain ⟨a, ha, hv⟩ := hx
        refine ⟨a, List.mem_filter.2 ⟨ha, ?_⟩, hv⟩
        simp only [bne_iff_ne, ne_eq]
        rintro rfl
        exact hne hv
      · simp at h
    · simp at h

/-- The full statement: for every container. -/
def NarrowLeft : Prop :=
  ∀ (w : World) (e : Env) (left : Ty) (c : Container) (t : Ty), narrowLeft w left c = some t →
    ∀ x y, HasType w e x left → HasContainer w e y c → In e x y → HasType w e x t

/-- `def f(x: int | None, xs: list[T])`: `x` is an `int` if `x in xs`. But `T` can be `None`, as in `f(None, [None])`. -/
theorem narrow_left_violation : ¬ NarrowLeft := by
  intro h
  have := h Example.world Example.env [.cls 0, .none] (.known [.typeVar 0]) [.cls 0] (by decide) .none (.items [.none])
    ⟨.none, by simp, rfl⟩ (by intro v hv; exact ⟨.typeVar 0, by simp, trivial⟩) (List.mem_singleton.2 rfl)
  obtain ⟨a, ha, hv⟩ := this
  simp at ha
  subst ha
  obtain ⟨d, hd, _⟩ := hv
  cases hd

/-- `list[int | Any]` may also have `None`; only for `Any` alone nothing is narrowed. -/
theorem narrow_left_any_violation : ¬ NarrowLeft := by
  intro h
  have := h Example.world Example.env [.cls 0, .none] (.known [.cls 0, .any]) [.cls 0] (by decide) .none (.items [.none])
    ⟨.none, by simp, rfl⟩ (by intro v hv; exact ⟨.any, by simp, trivial⟩) (List.mem_singleton.2 rfl)
  obtain ⟨a, ha, hv⟩ := this
  simp at ha
  subst ha
  obtain ⟨d, hd, _⟩ := hv
  cases hd

/-! ## C204: both sides and both operators -/

/-- Both sides have their types in both branches, for `in` and `not in`. -/
theorem guard_partial (e : Env) (op : Op) (leftKey rightKey : Bool) (left : Ty) (c : Container) (fr : Frames)
    (h : guard w op leftKey rightKey left c = some fr) (hn : NoHiddenNone w e c) (hl : strLiterals left ≠ [] → Literals left)
    (x : Val) (y : CVal) (hx : HasType w e x left) (hy : HasContainer w e y c) : Right w e op x y fr := by
  have hyr : ∀ v, y = .val v → HasType w e v c.other? := by
    rintro v rfl
    cases c with
    | known t => simp [HasContainer] at hy
    | tuple t => simp [HasContainer] at hy
    | other t => exact hy
  unfold guard at h
  split at h
  · rename_i t ht
    cases h
    have ht : narrowLeft w left c = some t := by
      split at ht
      · exact ht
      · simp at ht
    have hleft := narrow_left_partial w e left c t ht hn x y hx hy
    cases op with
    | in_ => exact ⟨fun hf => ⟨hleft hf, hyr⟩, fun _ => ⟨hx, hyr⟩⟩
    | notIn => exact ⟨fun _ => ⟨hx, hyr⟩, fun hf => ⟨hleft (Classical.not_not.1 hf), hyr⟩⟩
  · split at h
    · split at h
      · rename_i t f hr
        cases h
        have hlit : Literals left := by
          refine hl ?_
          intro hnil
          simp [narrowRight, hnil] at hr
        have key : ∀ v, y = .val v → (In e x y → HasType w e v t) ∧ (¬ In e x y → HasType w e v f) := by
          rintro v rfl
          exact narrow_right_partial w e left _ t f hr hlit x v hx (hyr v rfl)
        cases op with
        | in_ => exact ⟨fun hf => ⟨hx, fun v hv => (key v hv).1 hf⟩, fun hf => ⟨hx, fun v hv => (key v hv).2 hf⟩⟩
        | notIn =>
          exact ⟨fun hf => ⟨hx, fun v hv => (key v hv).2 hf⟩,
            fun hf => ⟨hx, fun v hv => (key v hv).1 (Classical.not_not.1 hf)⟩⟩
      · simp at h
    · simp at h

/-- `x: int | None`, `x not in xs` with `xs: list[int]`. -/
example : guard Example.world .notIn true true [.cls 0, .none] (.known [.cls 0]) =
    some ⟨([.cls 0, .none], [.cls 0]), ([], [])⟩ := by decide
example : NoHiddenNone Example.world Example.env (.known [.cls 0]) := by
  refine .inr (.inr ?_); intro a ha _ h
  simp at ha
  subst ha
  obtain ⟨d, hd, _⟩ := h
  cases hd
/-- `"a" in d` with a union of a typed dict and another class. -/
example : guard Example.world .in_ true true [.lit "a"] (.other [.td 0, .cls 1]) =
    some ⟨([.lit "a"], [.lit "a"]), ([.td 0, .cls 1], [.cls 1])⟩ := by decide
example : Literals [.lit "a"] := by intro a ha; simp at ha; exact ⟨_, ha⟩

/-! ## C205: tuples of fixed length -/

/-- The narrowing for one item is right: `eq` says which values are equal. -/
def NarrowsEq {E V : Type} (eq : V → E → Prop) (narrow : E → Option ((V → Bool) × (V → Bool))) : Prop :=
  ∀ it t f, narrow it = some (t, f) → ∀ v, (eq v it → t v = true) ∧ (¬ eq v it → f v = true)

theorem tuple_sound {E V : Type} (eq : V → E → Prop) (narrow : E → Option ((V → Bool) × (V → Bool)))
    (hs : NarrowsEq eq narrow) (entries : List E) (t f : V → Bool) (h : foldTuple narrow entries = some (t, f)) (v : V) :
    ((∃ it ∈ entries, eq v it) → t v = true) ∧ ((¬ ∃ it ∈ entries, eq v it) → f v = true) := by
  have gen : ∀ (entries : List E) (t0 f0 : V → Bool) (t f : V → Bool),
      entries.foldl (fun acc e =>
        match acc with
        | none => none
        | some (t, f) =>
          match narrow e with
          | none => none
          | some (t', f') => some (fun v => t v || t' v, fun v => f v && f' v)) (some (t0, f0)) = some (t, f) →
      ((t0 v = true ∨ ∃ it ∈ entries, eq v it) → t v = true) ∧ (f0 v = true → (¬ ∃ it ∈ entries, eq v it) → f v = true) := by
    intro entries
    induction entries with
    | nil =>
      intro t0 f0 t f h
      simp only [List.foldl_nil, Option.some.injEq, Prod.mk.injEq] at h
      obtain ⟨rfl, rfl⟩ := h
      simp
    | cons it entries ih =>
      intro t0 f0 t f h
      rw [List.foldl_cons] at h
      cases hn : narrow it with
      | none =>
        exfalso
        simp only [hn] at h
        have : ∀ es : List E, es.foldl (fun (acc : Option ((V → Bool) × (V → Bool))) e =>
            match acc with
            | none => none
            | some (t, f) =>
              match narrow e with
              | none => none
              | some (t', f') => some (fun v => t v || t' v, fun v => f v && f' v)) none = none := by
          intro es
          induction es with
          | nil => rfl
          | cons e es ih => rw [List.foldl_cons]; exact ih
        rw [this] at h
        simp at h
      | some tf =>
        obtain ⟨t', f'⟩ := tf
        simp only [hn] at h
        have hv := hs it t' f' hn v
        obtain ⟨h1, h2⟩ := ih _ _ t f h
        constructor
        · rintro (h | ⟨x, hx, he⟩)
          · exact h1 (.inl (by simp [h]))
          · rcases List.mem_cons.1 hx with rfl | hx
            · exact h1 (.inl (by simp [hv.1 he]))
            · exact h1 (.inr ⟨x, hx, he⟩)
        · intro hf hno
          refine h2 ?_ fun ⟨x, hx, he⟩ => hno ⟨x, List.mem_cons_of_mem _ hx, he⟩
          have : f' v = true := hv.2 fun he => hno ⟨it, List.mem_cons_self .., he⟩
          simp [hf, this]
  obtain ⟨h1, h2⟩ := gen entries (fun _ => false) (fun _ => true) t f h
  exact ⟨fun h => h1 (.inr h), h2 rfl⟩

/-- The narrowing for one item is exact. -/
def ExactEq {E V : Type} (eq : V → E → Prop) (narrow : E → Option ((V → Bool) × (V → Bool))) : Prop :=
  ∀ it, ∃ t f, narrow it = some (t, f) ∧ ∀ v, (t v = true ↔ eq v it) ∧ (f v = true ↔ ¬ eq v it)

/-- If the narrowing by `==` is exact, then that by `in` is exact, too. -/
theorem tuple_exact {E V : Type} (eq : V → E → Prop) (narrow : E → Option ((V → Bool) × (V → Bool)))
    (hs : ExactEq eq narrow) (entries : List E) :
    ∃ t f, foldTuple narrow entries = some (t, f) ∧
      ∀ v, (t v = true ↔ ∃ it ∈ entries, eq v it) ∧ (f v = true ↔ ¬ ∃ it ∈ entries, eq v it) := by
  have gen : ∀ (entries : List E) (t0 f0 : V → Bool), ∃ t f,
      entries.foldl (fun acc e =>
        match acc with
        | none => none
        | some (t, f) =>
          match narrow e with
          | none => none
          | some (t', f') => some (fun v => t v || t' v, fun v => f v && f' v)) (some (t0, f0)) = some (t, f) ∧
      ∀ v, (t v = true ↔ t0 v = true ∨ ∃ it ∈ entries, eq v it) ∧
        (f v = true ↔ f0 v = true ∧ ¬ ∃ it ∈ entries, eq v it) := by
    intro entries
    induction entries with
    | nil => intro t0 f0; exact ⟨t0, f0, rfl, by simp⟩
    | cons it entries ih =>
      intro t0 f0
      obtain ⟨t', f', hn, hv⟩ := hs it
      obtain ⟨t, f, h, hv'⟩ := ih (fun v => t0 v || t' v) (fun v => f0 v && f' v)
      refine ⟨t, f, ?_, fun v => ?_⟩
      · rw [List.foldl_cons]; simp only [hn]; exact h
      · rw [(hv' v).1, (hv' v).2]
        simp only [Bool.or_eq_true, Bool.and_eq_true, (hv v).1, (hv v).2, List.mem_cons, exists_eq_or_imp]
        constructor
        · rw [or_assoc]
        · rw [and_assoc, not_or]
  obtain ⟨t, f, h, hv⟩ := gen entries (fun _ => false) (fun _ => true)
  exact ⟨t, f, h, fun v => by simpa using hv v⟩

example : ExactEq (fun (v : Nat) it => v = it) fun it => some (fun v => v == it, fun v => v != it) :=
  fun it => ⟨_, _, rfl, fun v => by simp⟩

/-- With an empty tuple the first branch is unreachable. -/
theorem tuple_empty {E V : Type} (narrow : E → Option ((V → Bool) × (V → Bool))) :
    ∃ t f, foldTuple narrow [] = some (t, f) ∧ ∀ v, t v = false := ⟨_, _, rfl, fun _ => rfl⟩

/-- Literals of numbers. -/
example : NarrowsEq (fun (v : Nat) it => v = it) fun it => some (fun v => v == it, fun v => v != it) := by
  intro it t f h v
  cases h
  simp

end Verif.Contains
