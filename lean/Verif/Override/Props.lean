import Verif.Override.Lemmas

/-!
# Properties of overriding
-/

namespace Verif.Override

variable {Ty : Type} [DecidableEq Ty] {w : World Ty}

/-! ## One override (C170) -/

/-- An override is accepted if and only if the types fit, setters fit the other way around, what can
be assigned stays so, and what can be called on the class stays so. -/
theorem override_iff {frozen : Bool} {o e : Entry Ty} :
    checkOverride w frozen o e = [] ↔ Overrides w frozen o e := by
  have hfin : ∀ b : Bool, (if o.kind.writable && e.kind.isFinal && (!w.mypy || !o.kind.cached) then
      [Issue.writableFinal] else []) = [] ↔ (Writable o → Sealed e → w.mypy = true ∧ Cached o) := by
    intro _
    rw [← writable_iff, ← isFinal_iff, ← cached_iff]
    cases o.kind.writable <;> cases e.kind.isFinal <;> cases w.mypy <;> cases o.kind.cached <;> simp
  unfold checkOverride
  dsimp only
  rw [List.append_eq_nil_iff, List.append_eq_nil_iff, kindIssues_fst]
  constructor
  · rintro ⟨⟨hs, hr, hi, hc⟩, h⟩
    by_cases hm : (w.le e.ty o.ty && (kindIssues w frozen o.kind e.kind).2) = true
    · rw [if_pos hm] at h
      rw [Bool.and_eq_true] at hm
      exact ⟨hm.1, (setterIssues_nil hm.1).1 hs, hr, (hfin true).1 h, kindIssues_snd.1 hm.2, hi, hc⟩
    · rw [if_neg hm] at h; cases h
  · rintro ⟨ht, hs, hr, hf, hm, hi, hc⟩
    refine ⟨⟨(setterIssues_nil ht).2 hs, hr, hi, hc⟩, ?_⟩
    rw [if_pos (by rw [ht, kindIssues_snd.2 hm]; rfl)]
    exact (hfin true).2 hf

/-- The same for a name that two base classes have. -/
theorem pair_iff {e o : Entry Ty} : checkPair w e o = [] ↔ Agrees w e o := by
  have key : Agrees w e o ↔ w.le e.ty o.ty = true ∧ ¬ o.kind.isFinal = true ∧
      (o.kind.writable = true → e.kind.isFinal = true → w.mypy = true ∧ o.kind.cached = true) ∧
      (o.kind.writable = true → ¬ e.kind.writable = true →
        w.mypy = true ∧ o.kind.cached = true) := by
    rw [writable_iff, writable_iff, isFinal_iff, isFinal_iff, cached_iff]
    exact ⟨fun ⟨a, b, c, d⟩ => ⟨a, b, c, d⟩, fun ⟨a, b, c, d⟩ => ⟨a, b, c, d⟩⟩
  rw [key]
  unfold checkPair
  cases o.kind.isFinal <;> cases o.kind.writable <;> cases e.kind.isFinal <;>
    cases w.le e.ty o.ty <;> cases e.kind.writable <;> cases w.mypy <;> cases o.kind.cached <;> simp

/-! ## Class hierarchies (C171, C172) -/

section
variable {Val : Type} {sem : Ty → Val → Prop}

/-- If no class has an issue, then the attributes of an instance of a class have the types that each
of its base classes declares for them.
Partial: if two base classes have the name, then only if they declare it themselves and the class
does not assign it. -/
theorem read_partial (hr : Right w sem) (lin : Linear w) {name : Nat} (hk : Checked w name)
    (ha : Apart w name) {C D c d : Nat} {e o : Entry Ty} (hC : Clean w C)
    (hD : D ∈ (w.cls C).mro) (hc : Member w C name c e) (hd : Member w D name d o) {v : Val}
    (hv : sem e.ty v) : sem o.ty v := by
  revert hv
  refine hierarchy (R := fun _ e _ o => sem e.ty v → sem o.ty v) lin ha
    (P := fun x => classIssues w x = []) ?_ ?_ ?_ ?_ ?_ hC hD hc hd
  · intro _ _ _ h; exact h
  · intro _ _ _ _ _ _ _ _ h1 h2 h; exact h2 (h1 h)
  · intro C t e hP hm he hdef c hct o ho _ hv
    exact hr _ _ (override_iff.1 (clean_def hk hP hm he hdef c hct o ho)).type v hv
  · intro C t e hP hm he _ l c r o ht ho hl _ hv
    exact hr _ _ (override_iff.1 (clean_first hk hP hm he ht ho hl).1).type v hv
  · intro C A B e c o hP hs _ hCn hA hB hv
    exact hr _ _ (pair_iff.1 (clean_pair lin hk hP hs hCn hA hB)).type v hv

/-- If no class has an issue, then what may be assigned to an attribute of a base class may be
assigned to the attribute of an instance of a subclass.
Partial: only for names with `Invariant`. -/
theorem write_partial (hr : Right w sem) (lin : Linear w) {name : Nat} (hk : Checked w name)
    (hi : Invariant w name) {C D c d : Nat} {e o : Entry Ty} (hC : Clean w C)
    (hD : D ∈ (w.cls C).mro) (hc : Member w C name c e) (hd : Member w D name d o) {v : Val}
    (hv : Accepts sem (w.cls d).frozen o v) : Accepts sem (w.cls c).frozen e v := by
  have step : ∀ c e d o, (w.cls c).attrs.lookup name = some e → (w.cls d).attrs.lookup name = some o →
      checkOverride w (w.cls d).frozen o e = [] → Accepts sem (w.cls d).frozen o v →
      Accepts sem (w.cls c).frozen e v := by
    intro c e d o he ho h hv
    have h := override_iff.1 h
    obtain ⟨hfc, hke⟩ := hi.kinds c e he
    obtain ⟨hfd, hko⟩ := hi.kinds d o ho
    have hself : (o.kind = .attribute ∨ o.kind = .annotated ∨ Cached o) → sem o.ty v →
        (e.kind = .attribute ∨ e.kind = .annotated ∨ Cached e) → sem e.ty v := by
      intro h1 h2 h3
      rw [hi.types c e d o he ho h3 h1]; exact h2
    have hwo : Writable o := by
      unfold Accepts at hv
      unfold Writable
      split at hv
      · next h => exact Or.inl h
      · next h => exact Or.inr (Or.inl h)
      · next h => exact Or.inr (Or.inr (Or.inr ⟨_, _, h, Or.inl rfl⟩))
      · next h => exact Or.inr (Or.inr (Or.inr ⟨_, _, h, Or.inr ⟨_, rfl⟩⟩))
      · cases hv
    have hnc : ¬ (w.mypy = true ∧ Cached o) := by rw [hi.default]; simp
    -- what the base class accepts
    obtain ⟨a, ha, hva⟩ : ∃ a, SetType o a ∧ sem a v := by
      unfold Accepts at hv
      split at hv
      · next h => exact ⟨o.ty, Or.inr ⟨fun s f => by rw [h]; nofun, rfl⟩, hv.2⟩
      · next h => exact ⟨o.ty, Or.inr ⟨fun s f => by rw [h]; nofun, rfl⟩, hv.2⟩
      · next h => exact ⟨o.ty, Or.inr ⟨fun s f => by rw [h]; nofun, rfl⟩, hv⟩
      · next S f h => exact ⟨S, Or.inl ⟨f, h⟩, hv⟩
      · cases hv
    have viaSetter : (∃ t f, o.kind = .prop (.other t) f ∨ e.kind = .prop (.other t) f) →
        ∀ b, SetType e b → sem b v := fun hx b hb => hr _ _ (h.setter hx a b ha hb) v hva
    -- either a setter with its own type, or the same type
    have main : (e.kind = .attribute ∨ e.kind = .annotated ∨ Cached e) → sem e.ty v := by
      intro h3
      have hse : SetType e e.ty := by
        refine Or.inr ⟨?_, rfl⟩
        intro s f
        rcases h3 with h3 | h3 | ⟨g, h3⟩ <;> rw [h3] <;> nofun
      rcases ha with ⟨f, hf⟩ | ⟨hno, rfl⟩
      · exact viaSetter ⟨a, f, Or.inl hf⟩ _ hse
      · refine hself ?_ hva h3
        rcases hko with hko | hko | hko | ⟨s, f, hko⟩
        · exact Or.inl hko
        · exact Or.inr (Or.inl hko)
        · unfold Accepts at hv; rw [hko] at hv; cases hv
        · cases s with
          | none => unfold Accepts at hv; rw [hko] at hv; cases hv
          | same => exact Or.inr (Or.inr ⟨f, hko⟩)
          | other S => exact absurd hko (hno S f)
    rcases hke with hke | hke | hke | ⟨s, f, hke⟩
    · unfold Accepts; rw [hke]; exact ⟨hfc, main (Or.inl hke)⟩
    · unfold Accepts; rw [hke]; exact ⟨hfc, main (Or.inr (Or.inl hke))⟩
    · exact absurd (h.final hwo (Or.inl hke)) hnc
    · cases s with
      | none =>
        rcases h.readOnly hwo ⟨f, hke⟩ with h' | ⟨h', -⟩
        · exact absurd h' hnc
        · rw [hfd] at h'; cases h'
      | same => unfold Accepts; rw [hke]; exact main (Or.inr (Or.inr ⟨f, hke⟩))
      | other S =>
        unfold Accepts; rw [hke]
        exact viaSetter ⟨S, f, Or.inr hke⟩ S (Or.inl ⟨f, hke⟩)
  revert hv
  have ap : ApartBy w IsDef name := by
    intro C A hA B hB hAB h1 h2
    exact absurd h2 (hi.single C A hA B hB hAB h1)
  refine hierarchy (R := fun c e d o => Accepts sem (w.cls d).frozen o v →
    Accepts sem (w.cls c).frozen e v) lin ap (P := fun x => classIssues w x = [])
    ?_ ?_ ?_ ?_ ?_ hC hD hc hd
  · intro _ _ _ h; exact h
  · intro _ _ _ _ _ _ _ _ h1 h2 h; exact h1 (h2 h)
  · intro C t e hP hm he hdef c hct o ho _
    exact step C e c o he ho (clean_def hk hP hm he hdef c hct o ho)
  · intro C t e hP hm he _ l c r o ht ho hl _
    exact step C e c o he ho (clean_first hk hP hm he ht ho hl).1
  · intro C A B e c o _ hs hAB _ hA hB
    exfalso
    obtain ⟨tA, hmA, -⟩ := lin A
    exact hi.single C A (hs.subset (by simp)) B (hs.subset (by simp)) hAB
      ⟨A, e, [], tA, hmA, hA, by simp⟩ ⟨c, o, hB⟩

end

/-! ## Final names and `@override` (C173) -/

/-- If no class has an issue, then a final name is not overridden: an instance of a subclass has the
one of the base class.
Partial: if two base classes have the name, then only if they declare it themselves and the class
does not declare it. -/
theorem final_partial (lin : Linear w) {name : Nat} (hk : Checked w name)
    (ha : ApartBy w (fun _ => False) name) {C D c d : Nat} {e o : Entry Ty} (hC : Clean w C)
    (hD : D ∈ (w.cls C).mro) (hc : Member w C name c e) (hd : Member w D name d o)
    (hf : Sealed o) : c = d := by
  revert hf
  refine hierarchy (R := fun c _ d o => Sealed o → c = d) lin ha
    (P := fun x => classIssues w x = []) ?_ ?_ ?_ ?_ ?_ hC hD hc hd
  · intro _ _ _ _; rfl
  · intro a e b o c p hb hc h1 h2 hs
    have hbc := h2 hs
    subst hbc
    rw [hb] at hc
    cases hc
    exact h1 hs
  · intro C t e hP hm he hdef; exact hdef.elim
  · intro C t e hP hm he _ l c r o ht ho hl _ hs
    have := (clean_first hk hP hm he ht ho hl).2
    rw [isFinal_iff.2 hs] at this; cases this
  · intro C A B e c o hP hs _ hCn hA hB hf
    exact absurd hf (pair_iff.1 (clean_pair lin hk hP hs hCn hA hB)).notFinal

/-- `@override` is reported if and only if no base class has the name. -/
theorem override_decorator {C name : Nat} {t : List Nat} {e : Entry Ty} (hk : Checked w name)
    (hm : (w.cls C).mro = C :: t) (he : (w.cls C).attrs.lookup name = some e) :
    Issue.missingBase ∈ checkFunction w C name e ↔
      e.override = true ∧ ∀ x ∈ t, (w.cls x).attrs.lookup name = none := by
  unfold checkFunction
  rw [if_neg (by simp [hk.shown]), if_neg (by simp [hk.noted, shouldCheck, hk.typed C e he])]
  unfold findAndCheck
  rw [hm, List.tail_cons, ← ancestors_nil]
  have none : ∀ o : Nat × Entry Ty, Issue.missingBase ∉ checkOverride w (w.cls o.1).frozen o.2 e := by
    intro o h
    have := checkOverride_mem h
    simp at this
  cases ha : ancestors w name t with
  | nil => simp
  | cons p ps =>
    constructor
    · intro h
      simp only [List.mem_append] at h
      rcases h with (h | h) | h
      · split at h <;> simp at h
      · split at h <;> simp at h
      · obtain ⟨o, -, ho⟩ := List.mem_flatMap.1 h
        exact absurd ho (none o)
    · rintro ⟨-, h⟩; cases h

/-- With `explicit-override` a function without `@override` is reported if and only if a base class
has the name. -/
theorem override_explicit {C name : Nat} {t : List Nat} {e : Entry Ty} (hk : Checked w name)
    (hm : (w.cls C).mro = C :: t) (he : (w.cls C).attrs.lookup name = some e) :
    Issue.explicit ∈ checkFunction w C name e ↔
      w.explicit = true ∧ e.override = false ∧ ∃ x ∈ t, (w.cls x).attrs.lookup name ≠ none := by
  unfold checkFunction
  rw [if_neg (by simp [hk.shown]), if_neg (by simp [hk.noted, shouldCheck, hk.typed C e he])]
  unfold findAndCheck
  rw [hm, List.tail_cons]
  have hno : ∀ o : Nat × Entry Ty, Issue.explicit ∉ checkOverride w (w.cls o.1).frozen o.2 e := by
    intro o h
    have := checkOverride_mem h
    simp at this
  cases ha : ancestors w name t with
  | nil =>
    have hall := ancestors_nil.1 ha
    constructor
    · intro h
      dsimp only at h
      split at h <;> simp at h
    · rintro ⟨-, -, x, hx, hn⟩
      exact absurd (hall x hx) hn
  | cons p ps =>
    have hp := ancestors_mem.1 (show (p.1, p.2) ∈ ancestors w name t by rw [ha]; simp)
    constructor
    · intro h
      simp only [List.mem_append] at h
      rcases h with (h | h) | h
      · split at h <;> simp at h
      · split at h
        · next hc =>
          simp only [Bool.and_eq_true, Bool.not_eq_true'] at hc
          exact ⟨hc.2, hc.1, p.1, hp.1, by rw [hp.2]; nofun⟩
        · cases h
      · obtain ⟨o, -, ho⟩ := List.mem_flatMap.1 h
        exact absurd ho (hno o)
    · rintro ⟨h1, h2, -⟩
      simp [h1, h2]

/-! ## Examples -/

/-- The type `9` has all values, the others have one each. -/
def demoLe (a b : Nat) : Bool := a == b || b == 9

def demoSem (t v : Nat) : Prop := t = 9 ∨ v = t

/-- Classes, the rest of their method resolution order, their base classes and names. -/
abbrev Table := List (List Nat × List Nat × List (Nat × Entry Nat))

def program (rows : Table) (mypy : Bool) : World Nat where
  cls c := match rows[c]? with
    | some (t, bs, as) => { mro := c :: t, bases := bs, attrs := as }
    | none => { mro := [c], bases := [], attrs := [] }
  le := demoLe
  hidden _ := false
  ignored _ := false
  mypy := mypy

theorem program_right (rows : Table) (mypy : Bool) : Right (program rows mypy) demoSem := by
  intro a b h v hv
  simp only [program, demoLe, Bool.or_eq_true, beq_iff_eq] at h
  rcases h with rfl | rfl
  · exact hv
  · exact Or.inl rfl

/-- The order of one class, as a test. -/
def LinearAt (w : World Nat) (C : Nat) : Prop :=
  (C :: (w.cls C).mro.tail).Nodup ∧ (w.cls C).bases.Sublist (w.cls C).mro.tail ∧
    (∀ B ∈ (w.cls C).bases, (w.cls B).mro.Sublist (w.cls C).mro.tail) ∧
    ∀ x ∈ (w.cls C).mro.tail, ∃ B ∈ (w.cls C).bases, x ∈ (w.cls B).mro

instance (w : World Nat) (C : Nat) : Decidable (LinearAt w C) := inferInstanceAs (Decidable (_ ∧ _))

theorem program_linear {rows : Table} {mypy : Bool}
    (h : ∀ C < rows.length, LinearAt (program rows mypy) C) : Linear (program rows mypy) := by
  intro C
  by_cases hC : C < rows.length
  · obtain ⟨h1, h2, h3, h4⟩ := h C hC
    refine ⟨((program rows mypy).cls C).mro.tail, ?_, h1, h2, h3, h4⟩
    simp only [program]
    split <;> rfl
  · have : (program rows mypy).cls C = { mro := [C], bases := [], attrs := [] } := by
      simp only [program, List.getElem?_eq_none (Nat.le_of_not_lt hC)]
    rw [this]
    exact ⟨[], rfl, by simp, by simp, by simp, by simp⟩

/-- ```python
class A:                    # 0
    def f(self) -> object
    @property
    def p(self) -> object   # with a setter for `1`
    @final
    def g(self) -> object
class B(A):                 # 1
    @override
    def f(self) -> One
    @property
    def p(self) -> One      # with a setter for `object`
class C(A):                 # 2
    def f(self) -> object
class D(B, C): ...          # 3
``` -/
def good : Table := [
  ([], [], [(0, { kind := .method false, ty := 9 }), (1, { kind := .prop (.other 1) false, ty := 9 }),
    (2, { kind := .method true, ty := 9 })]),
  ([0], [0], [(0, { kind := .method false, ty := 1, override := true }),
    (1, { kind := .prop (.other 9) false, ty := 1 })]),
  ([0], [0], [(0, { kind := .method false, ty := 9 })]),
  ([1, 2, 0], [1, 2], [])]

theorem good_linear : Linear (program good false) := program_linear (by decide)

theorem good_clean : Clean (program good false) 3 := by
  unfold Clean
  decide +kernel

theorem good_checked {name : Nat} (h : name < 3) : Checked (program good false) name := by
  refine ⟨rfl, rfl, ?_⟩
  intro c e he
  match c with
  | 0 | 1 | 2 | 3 =>
    match name, h with
    | 0, _ | 1, _ | 2, _ =>
      first
        | (injection he with he; subst he; rfl)
        | cases he
  | c + 4 => cases he

theorem good_bases {C A : Nat} (h : A ∈ ((program good false).cls C).bases) :
    (C = 1 ∨ C = 2) ∧ A = 0 ∨ C = 3 ∧ (A = 1 ∨ A = 2) := by
  match C with
  | 0 => cases h
  | 1 | 2 =>
    cases List.mem_singleton.1 h
    simp
  | 3 =>
    have : A ∈ [1, 2] := h
    simpa using this
  | c + 4 => cases h

theorem good_apart : Apart (program good false) 0 := by
  intro C A hA B hB hAB _ _
  rcases good_bases hA with ⟨hC, rfl⟩ | ⟨rfl, hA'⟩
  · rcases good_bases hB with ⟨-, rfl⟩ | ⟨rfl, -⟩
    · exact absurd rfl hAB
    · simp at hC
  · refine ⟨?_, ?_, fun e he => nomatch he⟩
    · rcases hA' with rfl | rfl
      · exact ⟨_, rfl⟩
      · exact ⟨_, rfl⟩
    · rcases good_bases hB with ⟨h, -⟩ | ⟨-, rfl | rfl⟩
      · simp at h
      · exact ⟨_, rfl⟩
      · exact ⟨_, rfl⟩

/-- `read_partial`: `f` of an instance of `D` has the type of `C.f`. -/
example : ∃ e o, Member (program good false) 3 0 1 e ∧ Member (program good false) 2 0 2 o ∧
    2 ∈ ((program good false).cls 3).mro ∧ demoSem e.ty 1 ∧ demoSem o.ty 1 := by
  have h1 : Member (program good false) 3 0 1 _ :=
    ⟨[3], [2, 0], rfl, rfl, by intro x hx; cases List.mem_singleton.1 hx; rfl⟩
  have h2 : Member (program good false) 2 0 2 _ := ⟨[], [0], rfl, rfl, by simp⟩
  exact ⟨_, _, h1, h2, by decide, Or.inr rfl,
    read_partial (program_right good false) good_linear (good_checked (by decide)) good_apart good_clean
      (by decide) h1 h2 (v := 1) (Or.inr rfl)⟩

/-- ```python
class A:                    # 0
    @property
    def p(self) -> object   # with a setter for `1`
    @final
    def g(self) -> object
class B(A):                 # 1
    @property
    def p(self) -> One      # with a setter for `object`
``` -/
def line : Table := [
  ([], [], [(0, { kind := .prop (.other 1) false, ty := 9 }), (1, { kind := .method true, ty := 9 })]),
  ([0], [0], [(0, { kind := .prop (.other 9) false, ty := 1 })])]

theorem line_linear : Linear (program line false) := program_linear (by decide)

theorem line_clean : Clean (program line false) 1 := by
  unfold Clean
  decide +kernel

theorem line_checked {name : Nat} (h : name < 2) : Checked (program line false) name := by
  refine ⟨rfl, rfl, ?_⟩
  intro c e he
  match c with
  | 0 | 1 =>
    match name, h with
    | 0, _ | 1, _ =>
      first
        | (injection he with he; subst he; rfl)
        | cases he
  | c + 2 => cases he

theorem line_bases {C A : Nat} (h : A ∈ ((program line false).cls C).bases) : A = 0 := by
  match C with
  | 0 => cases h
  | 1 => exact List.mem_singleton.1 h
  | c + 2 => cases h

/-- `write_partial`: what may be assigned to `p` of an `A` may be assigned to `p` of a `B`. -/
example : ∃ e o, Member (program line false) 1 0 1 e ∧ Member (program line false) 0 0 0 o ∧
    0 ∈ ((program line false).cls 1).mro ∧ Accepts demoSem false o 1 ∧ ¬ Accepts demoSem false o 2 ∧
    Accepts demoSem false e 1 := by
  have h1 : Member (program line false) 1 0 1 _ := ⟨[], [0], rfl, rfl, by simp⟩
  have h2 : Member (program line false) 0 0 0 _ := ⟨[], [], rfl, rfl, by simp⟩
  refine ⟨_, _, h1, h2, by decide, Or.inr rfl, by simp [Accepts, demoSem], ?_⟩
  refine write_partial (program_right line false) line_linear (line_checked (by decide)) ?_ line_clean
    (by decide) h1 h2 (v := 1) (Or.inr rfl)
  refine ⟨rfl, ?_, ?_, ?_⟩
  · intro C A hA B hB hAB
    rw [line_bases hA, line_bases hB] at hAB
    exact absurd rfl hAB
  · intro c e he
    refine ⟨?_, ?_⟩
    · simp only [program]
      split <;> rfl
    · match c with
      | 0 | 1 => exact Or.inr (Or.inr (Or.inr ⟨_, _, by injection he with he; subst he; rfl⟩))
      | c + 2 => cases he
  · intro c e d o he ho hk _
    exfalso
    match c with
    | 0 | 1 =>
      injection he with he
      subst he
      rcases hk with h | h | ⟨_, h⟩ <;> simp at h
    | c + 2 => cases he

/-- `final_partial`: the hypotheses hold for `g`. -/
example : ∃ o, Member (program line false) 1 1 0 o ∧ Member (program line false) 0 1 0 o ∧ Sealed o ∧
    ApartBy (program line false) (fun _ => False) 1 ∧ Clean (program line false) 1 := by
  refine ⟨_, ⟨[1], [], rfl, rfl, by intro x hx; cases List.mem_singleton.1 hx; rfl⟩,
    ⟨[], [], rfl, rfl, by simp⟩, Or.inr (Or.inr (Or.inr (Or.inr rfl))), ?_, line_clean⟩
  intro C A hA B hB hAB
  rw [line_bases hA, line_bases hB] at hAB
  exact absurd rfl hAB

/-- A final method is not overridden. -/
example : classIssues (program [([], [], [(0, { kind := .method true, ty := 9 })]),
    ([0], [0], [(0, { kind := .method false, ty := 9 })])] false) 1 = [.final] := by
  decide +kernel

/-- The override of a name that no base class has, and of one that a base class has. -/
example : classIssues (program [([], [], [(0, { kind := .method false, ty := 9 })]),
    ([0], [0], [(0, { kind := .method false, ty := 9, override := true }),
      (1, { kind := .method false, ty := 9, override := true })])] false) 1 = [.missingBase] := by
  decide +kernel

/-! ## Where the checks are silent -/

/-- Both names are in the classes, and the checks are silent about all of them. -/
def Silent (rows : Table) (mypy : Bool) : Prop :=
  Linear (program rows mypy) ∧ ∀ C < rows.length, classIssues (program rows mypy) C = []

theorem silent {rows : Table} {mypy : Bool}
    (h : ∀ C < rows.length, LinearAt (program rows mypy) C ∧ classIssues (program rows mypy) C = []) :
    Silent rows mypy :=
  ⟨program_linear fun C hC => (h C hC).1, fun C hC => (h C hC).2⟩

/-- The name of the last class of the table, and the name of a class of its order. -/
def Both (rows : Table) (mypy : Bool) (C c d : Nat) (e o : Entry Nat) : Prop :=
  Member (program rows mypy) C 0 c e ∧ Member (program rows mypy) d 0 d o ∧
    d ∈ ((program rows mypy).cls C).mro

/-- The type of an attribute can be narrowed in a subclass: `x: object` in a class and `x: One` in
its subclass. What can be assigned to the attribute of the base class cannot be assigned to the one
of the subclass. -/
theorem narrowed_attribute_violation :
    ∃ rows e o, Silent rows false ∧ Both rows false 1 1 0 e o ∧ Accepts demoSem false o 2 ∧
      ¬ Accepts demoSem false e 2 :=
  ⟨[([], [], [(0, { kind := .annotated, ty := 9 })]), ([0], [0], [(0, { kind := .annotated, ty := 1 })])],
    _, _, silent (by decide +kernel), ⟨⟨[], [0], rfl, rfl, by simp⟩, ⟨[], [], rfl, rfl, by simp⟩, by decide⟩,
    Or.inl rfl |> fun h => ⟨rfl, h⟩, by simp [Accepts, demoSem]⟩

/-- A method can override an attribute with a callable type, although nothing can be assigned to a
method. -/
theorem method_for_attribute_violation :
    ∃ rows e o, Silent rows false ∧ Both rows false 1 1 0 e o ∧ Accepts demoSem false o 2 ∧
      ¬ Accepts demoSem false e 2 :=
  ⟨[([], [], [(0, { kind := .annotated, ty := 2 })]), ([0], [0], [(0, { kind := .method false, ty := 2 })])],
    _, _, silent (by decide +kernel), ⟨⟨[], [0], rfl, rfl, by simp⟩, ⟨[], [], rfl, rfl, by simp⟩, by decide⟩,
    ⟨rfl, Or.inr rfl⟩, by simp [Accepts]⟩

/-- A class variable can override an attribute without annotation, although it cannot be assigned on
an instance. -/
theorem class_variable_violation :
    ∃ rows e o, Silent rows false ∧ Both rows false 1 1 0 e o ∧ Accepts demoSem false o 2 ∧
      ¬ Accepts demoSem false e 2 :=
  ⟨[([], [], [(0, { kind := .attribute, ty := 2 })]), ([0], [0], [(0, { kind := .classVar, ty := 2 })])],
    _, _, silent (by decide +kernel), ⟨⟨[], [0], rfl, rfl, by simp⟩, ⟨[], [], rfl, rfl, by simp⟩, by decide⟩,
    ⟨rfl, Or.inr rfl⟩, by simp [Accepts]⟩

/-- A class variable can override a property with a setter. -/
theorem class_variable_for_setter_violation :
    ∃ rows e o, Silent rows false ∧ Both rows false 1 1 0 e o ∧ Accepts demoSem false o 2 ∧
      ¬ Accepts demoSem false e 2 :=
  ⟨[([], [], [(0, { kind := .prop (.other 2) false, ty := 2 })]),
    ([0], [0], [(0, { kind := .classVar, ty := 2 })])],
    _, _, silent (by decide +kernel), ⟨⟨[], [0], rfl, rfl, by simp⟩, ⟨[], [], rfl, rfl, by simp⟩, by decide⟩,
    Or.inr rfl, by simp [Accepts]⟩

/-- In the mypy mode a cached property can be overridden by a property without setter. -/
theorem cached_property_violation :
    ∃ rows e o, Silent rows true ∧ Both rows true 1 1 0 e o ∧ Accepts demoSem false o 2 ∧
      ¬ Accepts demoSem false e 2 :=
  ⟨[([], [], [(0, { kind := .prop .same false, ty := 2 })]),
    ([0], [0], [(0, { kind := .prop .none false, ty := 2 })])],
    _, _, silent (by decide +kernel), ⟨⟨[], [0], rfl, rfl, by simp⟩, ⟨[], [], rfl, rfl, by simp⟩, by decide⟩,
    Or.inr rfl, by simp [Accepts]⟩

/-- The types of setters of properties of two base classes are not compared. -/
theorem setters_of_bases_violation :
    ∃ rows e o, Silent rows false ∧ Both rows false 2 0 1 e o ∧ Accepts demoSem false o 2 ∧
      ¬ Accepts demoSem false e 2 :=
  ⟨[([], [], [(0, { kind := .prop (.other 1) false, ty := 1 })]),
    ([], [], [(0, { kind := .prop (.other 2) false, ty := 1 })]), ([0, 1], [0, 1], [])],
    _, _, silent (by decide +kernel),
    ⟨⟨[2], [1], rfl, rfl, by intro x hx; cases List.mem_singleton.1 hx; rfl⟩,
      ⟨[], [], rfl, rfl, by simp⟩, by decide⟩,
    Or.inr rfl, by simp [Accepts, demoSem]⟩

/-- A name that is assigned in the body of a class is only compared with the first class that has
it: `x = One()` in the first base class, `x = Two()` in the second one and `x = One()` in the class
itself. -/
theorem assigned_name_violation :
    ∃ rows e o, Silent rows false ∧ Both rows false 2 2 1 e o ∧ demoSem e.ty 1 ∧ ¬ demoSem o.ty 1 :=
  ⟨[([], [], [(0, { kind := .attribute, ty := 1 })]), ([], [], [(0, { kind := .attribute, ty := 2 })]),
    ([0, 1], [0, 1], [(0, { kind := .attribute, ty := 1 })])],
    _, _, silent (by decide +kernel),
    ⟨⟨[], [0, 1], rfl, rfl, by simp⟩, ⟨[], [], rfl, rfl, by simp⟩, by decide⟩,
    Or.inr rfl, by simp [demoSem]⟩

/-- Names that the first base class inherits are not compared with those of the second one: the
method of `A` and the one of `C` in `class B(A): ...` and `class D(B, C): ...`. -/
theorem inherited_name_violation :
    ∃ rows e o, Silent rows false ∧ Both rows false 3 0 2 e o ∧ demoSem e.ty 1 ∧ ¬ demoSem o.ty 1 :=
  ⟨[([], [], [(0, { kind := .method false, ty := 1 })]), ([0], [0], []),
    ([], [], [(0, { kind := .method false, ty := 2 })]), ([1, 0, 2], [1, 2], [])],
    _, _, silent (by decide +kernel),
    ⟨⟨[3, 1], [2], rfl, rfl, by intro x hx; simp at hx; rcases hx with rfl | rfl <;> rfl⟩,
      ⟨[], [], rfl, rfl, by simp⟩, by decide⟩,
    Or.inr rfl, by simp [demoSem]⟩

/-- A final method of the second base class can be overridden if the first base class has a method
with this name that is not final. -/
theorem final_of_second_base_violation :
    ∃ rows e o, Silent rows false ∧ Both rows false 2 2 1 e o ∧ Sealed o :=
  ⟨[([], [], [(0, { kind := .method false, ty := 1 })]), ([], [], [(0, { kind := .method true, ty := 1 })]),
    ([0, 1], [0, 1], [(0, { kind := .method false, ty := 1 })])],
    _, _, silent (by decide +kernel),
    ⟨⟨[], [0, 1], rfl, rfl, by simp⟩, ⟨[], [], rfl, rfl, by simp⟩, by decide⟩,
    Or.inr (Or.inr (Or.inr (Or.inr rfl)))⟩

end Verif.Override
