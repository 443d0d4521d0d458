import Verif.Sub.Mono

/-! # `Any`, `Never` and `object` -/

namespace Verif.Sub

open Verif.Match

variable {w : World}

/-- Accepted with this fuel. -/
def Yes (a : Option Match) : Prop := ∃ m, a = some m ∧ m.bool = true

theorem Yes.ne {m : Match} (h : m.bool = true) : m ≠ .newFalse := by rintro rfl; cases h

theorem yes_orM {m : Match} {g : Unit → Option Match} (h : Yes (g ())) : Yes (orM m g) := by
  unfold orM
  split
  · exact ⟨m, rfl, ‹_›⟩
  · obtain ⟨m', h1, h2⟩ := h
    rw [h1]
    refine ⟨_, rfl, ?_⟩
    unfold Match.or
    split
    · assumption
    · simp [h2]

theorem yes_orM_left {m : Match} {g : Unit → Option Match} (h : m.bool = true) : Yes (orM m g) :=
  ⟨m, by simp [orM, h], h⟩

theorem yes_bind {a : Option Match} {g : Match → Option Match} (h : Yes a)
    (hg : ∀ m, m.bool = true → Yes (g m)) : Yes (a.bind g) := by
  obtain ⟨m, rfl, h2⟩ := h
  exact hg m h2

/-- A type at the bottom: the two that have no class. -/
inductive Bottom : Ty → Prop
  | any : Bottom .any
  | never : Bottom .never

theorem other_bottom {s : Ty} (hs : Bottom s) (n : Nat) (rev : Bool) (t : Ty) :
    Yes (other w (n + 1) .cov rev t s) := by
  cases hs <;> simp only [other]
  · exact ⟨_, rfl, rfl⟩
  · exact ⟨.newTrue, by simp [ofBool], rfl⟩

/-- A nominal type compared with one at the bottom. -/
theorem nominal_bottom {s t : Ty} (hs : Bottom s) (hn : t.nominal = true) (n : Nat) (rev : Bool) :
    Yes (isSuper w (n + 5) rev t s) := by
  have first : internal w (n + 4) .cov rev t s = some .newFalse := by
    cases t <;> simp [Ty.nominal] at hn <;> cases hs <;> simp [internal, classVsType]
  have second : internal w (n + 4) .cov rev t (.cls w.object []) = some .newFalse ∨
      Yes (internal w (n + 4) .cov rev t (.cls w.object [])) := by
    cases t <;> simp [Ty.nominal] at hn
    case cls c as =>
      simp only [internal, classVsType, matchesClass]
      split
      · exact Or.inl rfl
      · right
        split
        · exact ⟨_, rfl, rfl⟩
        · cases as <;> exact ⟨_, by simp only [zipV, Option.map_some]; rfl, rfl⟩
    all_goals exact Or.inl (by simp [internal])
  have hm : mro w s = [s, .cls w.object []] := by cases hs <;> rfl
  unfold isSuper
  rw [if_pos hn, hm]
  simp only [mroM, first, Option.bind_some, if_true]
  rcases second with h | ⟨m, h1, h2⟩
  · rw [h]
    simp only [Option.bind_some, if_true]
    exact yes_bind (yes_orM (other_bottom hs _ _ _)) (fun m hm => yes_orM_left hm)
  · rw [h1]
    simp only [Option.bind_some]
    rw [if_neg (Yes.ne h2)]
    simp only [Option.bind_some]
    rw [if_neg (Yes.ne h2)]
    exact ⟨m, rfl, h2⟩

/-- A type that has no mro and is not a union. -/
theorem plain_bottom {s t : Ty} (hs : Bottom s) (hn : t.nominal = false) (n : Nat) (rev : Bool)
    (h : internal w (n + 1) .cov rev t s = some .newFalse ∨ Yes (internal w (n + 1) .cov rev t s)) :
    Yes (isSuper w (n + 2) rev t s) := by
  unfold isSuper
  rw [if_neg (by simp [hn])]
  rcases h with h | ⟨m, h1, h2⟩
  · rw [h]
    exact other_bottom hs _ _ _
  · rw [h1]
    simp only [Option.bind_some]
    rw [if_neg (Yes.ne h2)]
    exact ⟨m, rfl, h2⟩

theorem ofBool_cases (b : Bool) : some (ofBool b) = some Match.newFalse ∨ Yes (some (ofBool b)) := by
  cases b
  · exact Or.inl rfl
  · exact Or.inr ⟨_, rfl, rfl⟩

theorem bottom_accepted {s : Ty} (hs : Bottom s) : ∀ t : Ty, ∃ n, ∀ k, n ≤ k → ∀ rev,
    Yes (isSuper w k rev t s)
  | .cls c as | .data c as | .fixed as => ⟨5, fun k hk rev => by
      obtain ⟨j, rfl⟩ : ∃ j, k = j + 5 := ⟨k - 5, by omega⟩
      exact nominal_bottom hs rfl j rev⟩
  | .arb a => ⟨5, fun k hk rev => by
      obtain ⟨j, rfl⟩ : ∃ j, k = j + 5 := ⟨k - 5, by omega⟩
      exact nominal_bottom hs rfl j rev⟩
  | .unpack a b c => ⟨5, fun k hk rev => by
      obtain ⟨j, rfl⟩ : ∃ j, k = j + 5 := ⟨k - 5, by omega⟩
      exact nominal_bottom hs rfl j rev⟩
  | .any => ⟨2, fun k hk rev => by
      obtain ⟨j, rfl⟩ : ∃ j, k = j + 2 := ⟨k - 2, by omega⟩
      refine plain_bottom hs rfl j rev (Or.inr ?_)
      simp only [internal]
      exact ⟨_, rfl, rfl⟩⟩
  | .never => ⟨2, fun k hk rev => by
      obtain ⟨j, rfl⟩ : ∃ j, k = j + 2 := ⟨k - 2, by omega⟩
      refine plain_bottom hs rfl j rev ?_
      simp only [internal]
      exact ofBool_cases _⟩
  | .none => ⟨2, fun k hk rev => by
      obtain ⟨j, rfl⟩ : ∃ j, k = j + 2 := ⟨k - 2, by omega⟩
      refine plain_bottom hs rfl j rev ?_
      simp only [internal]
      exact ofBool_cases _⟩
  | .lit l => ⟨2, fun k hk rev => by
      obtain ⟨j, rfl⟩ : ∃ j, k = j + 2 := ⟨k - 2, by omega⟩
      refine plain_bottom hs rfl j rev (Or.inl ?_)
      cases hs <;> simp [internal]⟩
  | .newType l => ⟨2, fun k hk rev => by
      obtain ⟨j, rfl⟩ : ∃ j, k = j + 2 := ⟨k - 2, by omega⟩
      refine plain_bottom hs rfl j rev (Or.inl ?_)
      cases hs <;> simp [internal]⟩
  | .var l => ⟨2, fun k hk rev => by
      obtain ⟨j, rfl⟩ : ∃ j, k = j + 2 := ⟨k - 2, by omega⟩
      refine plain_bottom hs rfl j rev (Or.inl ?_)
      simp [internal]⟩
  | .type t => ⟨2, fun k hk rev => by
      obtain ⟨j, rfl⟩ : ∃ j, k = j + 2 := ⟨k - 2, by omega⟩
      refine plain_bottom hs rfl j rev (Or.inl ?_)
      cases hs <;> simp [internal]⟩
  | .union [] => ⟨4, fun k hk rev => by
      obtain ⟨j, rfl⟩ : ∃ j, k = j + 4 := ⟨k - 4, by omega⟩
      refine plain_bottom hs rfl (j + 2) rev (Or.inr ?_)
      cases hs <;> exact ⟨.newTrue, by simp [internal, unionSuper, anyM, Ty.beq], rfl⟩⟩
  | .union (u :: us) => by
    obtain ⟨n, hn⟩ := bottom_accepted hs u
    refine ⟨n + 4, fun k hk rev => ?_⟩
    obtain ⟨j, rfl⟩ : ∃ j, k = j + 4 := ⟨k - 4, by omega⟩
    refine plain_bottom hs rfl (j + 2) rev (Or.inr ?_)
    obtain ⟨m, h1, h2⟩ := hn (j + 1) (by omega) rev
    cases hs <;> exact ⟨m, by simp [internal, unionSuper, anyM, Ty.beq, h1, h2], h2⟩

theorem any_accepts (k : Nat) (rev : Bool) (s : Ty) : Yes (isSuper w (k + 2) rev .any s) := by
  unfold isSuper
  rw [if_neg (by simp [Ty.nominal])]
  simp only [internal, Option.bind_some]
  rw [if_neg (by simp [Match.newFalse])]
  exact ⟨_, rfl, rfl⟩

theorem any_same_left (k : Nat) (rev : Bool) (s : Ty) : Yes (isSame w (k + 2) rev .any s) := by
  unfold isSame
  simp only [internal, Option.bind_some]
  exact yes_orM_left rfl

theorem any_same_right (t : Ty) : ∃ n, ∀ k, n ≤ k → ∀ rev, Yes (isSame w k rev t .any) := by
  have easy : ∀ {t : Ty}, (∀ k rev, ∃ m, internal w (k + 2) .inv rev t .any = some m) →
      ∃ n, ∀ k, n ≤ k → ∀ rev, Yes (isSame w k rev t .any) := by
    intro t h
    refine ⟨3, fun k hk rev => ?_⟩
    obtain ⟨j, rfl⟩ : ∃ j, k = j + 3 := ⟨k - 3, by omega⟩
    obtain ⟨m, hm⟩ := h j rev
    unfold isSame
    rw [hm]
    simp only [Option.bind_some]
    refine yes_orM ?_
    simp only [other]
    exact ⟨_, rfl, rfl⟩
  cases t
  case union us =>
    obtain ⟨n, hn⟩ := bottom_accepted (w := w) .any (.union us)
    refine ⟨n + 4, fun k hk rev => ?_⟩
    obtain ⟨j, rfl⟩ : ∃ j, k = j + 4 := ⟨k - 4, by omega⟩
    obtain ⟨m, h1, h2⟩ := hn (j + 2) (by omega) rev
    obtain ⟨m', h3, h4⟩ := any_accepts (w := w) j (!rev) (.union us)
    unfold isSame
    simp only [internal, if_true, h1, h3, Option.bind_some, Option.map_some]
    exact yes_orM_left (and_true.mpr ⟨h2, h4⟩)
  all_goals exact easy (fun k rev => by simp [internal, classVsType])

/-- The base classes are classes, dataclasses or tuples. -/
def NominalBases (w : World) : Prop := ∀ c, ∀ b ∈ (w.cls c).mro, b.nominal = true

theorem subst_nominal {b : Ty} (as : List Ty) (h : b.nominal = true) :
    (b.subst as).nominal = true := by
  cases b <;> simp_all [Ty.nominal, Ty.subst]

/-- Compared with `object`, nominal types are no mismatch of another kind. -/
theorem object_nominal (hp : (w.cls w.object).params = []) {b : Ty} (h : b.nominal = true)
    (k : Nat) (rev : Bool) :
    internal w (k + 3) .cov rev (.cls w.object []) b = some .newFalse ∨
    internal w (k + 3) .cov rev (.cls w.object []) b = some .newTrue := by
  cases b <;> simp [Ty.nominal] at h
  case cls d bs =>
    simp only [internal, classVsType, matchesClass, hp]
    by_cases hd : w.object = d <;> simp [hd]
  all_goals exact Or.inl (by simp [internal, classVsType])

theorem mroM_object {f : Ty → Option Match} {o : Ty} (ho : f o = some .newTrue) :
    ∀ {ts : List Ty}, (∀ b ∈ ts, f b = some .newFalse ∨ f b = some .newTrue) →
    mroM f (ts ++ [o]) = some .newTrue
  | [], _ => by simp [mroM, ho, Match.newTrue, Match.newFalse]
  | t :: ts, h => by
    simp only [List.cons_append, mroM]
    rcases h t (by simp) with h1 | h1
    · simp only [h1, Option.bind_some, if_true]
      exact mroM_object ho (fun b hb => h b (by simp [hb]))
    · simp [h1, Match.newTrue, Match.newFalse]

theorem object_self (hp : (w.cls w.object).params = []) (k : Nat) (rev : Bool) :
    internal w (k + 3) .cov rev (.cls w.object []) (.cls w.object []) = some .newTrue := by
  simp [internal, classVsType, matchesClass, hp]

theorem object_super_of {s : Ty} {ts : List Ty} (hp : (w.cls w.object).params = [])
    (hm : mro w s = ts ++ [.cls w.object []]) (k : Nat) (rev : Bool)
    (h : ∀ b ∈ ts, internal w (k + 3) .cov rev (.cls w.object []) b = some .newFalse ∨
      internal w (k + 3) .cov rev (.cls w.object []) b = some .newTrue) :
    isSuper w (k + 4) rev (.cls w.object []) s = some .newTrue := by
  unfold isSuper
  rw [if_pos (by rfl), hm, mroM_object (object_self hp k rev) h]
  simp [Match.newTrue, Match.newFalse]

theorem bases_nominal (hb : NominalBases w) {c : Nat} {as : List Ty} :
    ∀ b ∈ bases w c as, b.nominal = true := by
  intro b h
  obtain ⟨b', h1, rfl⟩ := List.mem_map.mp h
  exact subst_nominal as (hb c b' h1)

/-- Instances of a class can be assigned to `object`. -/
theorem object_cls (hp : (w.cls w.object).params = []) (hb : NominalBases w) (c : Nat)
    (as : List Ty) (k : Nat) (rev : Bool) :
    isSuper w (k + 4) rev (.cls w.object []) (.cls c as) = some .newTrue := by
  refine object_super_of (ts := .cls c as :: bases w c as) hp (by simp [mro]) k rev ?_
  intro b hb'
  rcases List.mem_cons.mp hb' with rfl | hb'
  · exact object_nominal hp rfl k rev
  · exact object_nominal hp (bases_nominal hb b hb') k rev

theorem object_accepts (hp : (w.cls w.object).params = [])
    (hprot : (w.cls w.object).isProtocol = false) (hb : NominalBases w) (s : Ty) (k : Nat)
    (rev : Bool) : isSuper w (k + 8) rev (.cls w.object []) s = some .newTrue := by
  have nom : ∀ {t : Ty} {c : Nat} {as : List Ty}, t.nominal = true →
      mro w t = t :: bases w c as ++ [.cls w.object []] →
      isSuper w (k + 8) rev (.cls w.object []) t = some .newTrue := by
    intro t c as ht hm
    refine object_super_of hp hm (k + 4) rev ?_
    intro b hb'
    rcases List.mem_cons.mp hb' with rfl | hb'
    · exact object_nominal hp ht (k + 4) rev
    · exact object_nominal hp (bases_nominal hb b hb') (k + 4) rev
  have single : ∀ {t : Ty}, mro w t = [t, .cls w.object []] →
      (internal w (k + 7) .cov rev (.cls w.object []) t = some .newFalse ∨
        internal w (k + 7) .cov rev (.cls w.object []) t = some .newTrue) →
      isSuper w (k + 8) rev (.cls w.object []) t = some .newTrue := by
    intro t hm h
    refine object_super_of (ts := [t]) hp hm (k + 4) rev ?_
    intro b hb'
    simp only [List.mem_singleton] at hb'
    subst hb'
    exact h
  have ofB : ∀ b, some (ofBool b) = some Match.newFalse ∨ some (ofBool b) = some Match.newTrue := by
    intro b
    cases b
    · exact Or.inl rfl
    · exact Or.inr rfl
  cases s with
  | cls c as => exact nom (c := c) (as := as) rfl rfl
  | data c as => exact nom (c := c) (as := as) rfl rfl
  | fixed ts => exact nom (c := w.tuple) (as := [w.join ts]) rfl rfl
  | arb t => exact nom (c := w.tuple) (as := [w.join [t]]) rfl rfl
  | unpack a b c => exact nom (c := w.tuple) (as := [w.join (a ++ b :: c)]) rfl rfl
  | lit l =>
    refine object_super_of (ts := .lit l :: .cls (fallback w l) [] :: bases w (fallback w l) [])
      hp (by simp [mro]) (k + 4) rev ?_
    intro b hb'
    rcases List.mem_cons.mp hb' with rfl | hb'
    · simp only [internal, classVsType, if_true, matchesClass, hp]
      by_cases hd : w.object = fallback w l <;> simp [hd]
    · rcases List.mem_cons.mp hb' with rfl | hb'
      · exact object_nominal hp rfl (k + 4) rev
      · exact object_nominal hp (bases_nominal hb b hb') (k + 4) rev
  | any => exact single rfl (Or.inl (by simp [internal, classVsType]))
  | never => exact single rfl (Or.inl (by simp [internal, classVsType]))
  | none => exact single rfl (Or.inl (by simp [internal, classVsType]))
  | newType i => exact single rfl (Or.inl (by simp [internal, classVsType]))
  | var i => exact single rfl (Or.inl (by simp [internal, classVsType]))
  | union us =>
    refine single rfl ?_
    simp only [internal, classVsType]
    exact ofB _
  | type t =>
    refine single rfl ?_
    simp only [internal]
    unfold classVsType
    simp only
    split
    · split
      · rw [if_neg (by simp [hprot])]
        right
        simp only [«matches», object_cls hp hb _ [] k rev, Option.bind_some, orM]
        rfl
      · exact ofB _
    · exact ofB _

end Verif.Sub
