import Verif.Sub.OverlapLemmas

/-! # Classes that do not overlap -/

namespace Verif.Sub

open Verif.Match

variable {w : World} {b : Bool}

theorem argsOf_mem {d : Nat} {as : List Ty} : ∀ {ts : List Ty}, argsOf d ts = some as →
    .cls d as ∈ ts
  | [], h => by simp [argsOf] at h
  | t :: ts, h => by
    cases t with
    | cls c xs =>
      simp only [argsOf] at h
      split at h
      · rename_i hc
        cases h; subst hc; simp
      · exact List.mem_cons_of_mem _ (argsOf_mem h)
    | _ =>
      simp only [argsOf] at h
      exact List.mem_cons_of_mem _ (argsOf_mem h)

theorem argsOf_some {d : Nat} {as : List Ty} : ∀ {ts : List Ty}, .cls d as ∈ ts →
    ∃ xs, argsOf d ts = some xs
  | [], h => absurd h (by simp)
  | t :: ts, h => by
    rcases List.mem_cons.mp h with rfl | h
    · exact ⟨as, by simp [argsOf]⟩
    · obtain ⟨xs, hx⟩ := argsOf_some h
      cases t with
      | cls c ys =>
        simp only [argsOf]
        split
        · exact ⟨_, rfl⟩
        · exact ⟨xs, hx⟩
      | _ => exact ⟨xs, by simp only [argsOf]; exact hx⟩

/-- A class in the method resolution order of a class. -/
theorem mro_cls (hb : Bases w) {c d : Nat} {as xs : List Ty} (h : .cls d xs ∈ mro w (.cls c as)) :
    (d = c ∧ xs = as) ∨ (d = w.object ∧ xs = []) ∨
      ∃ xs', .cls d xs' ∈ (w.cls c).mro ∧ .cls d xs = Ty.subst as (.cls d xs') := by
  simp only [mro, List.cons_append, List.mem_cons, List.mem_append, List.not_mem_nil,
    or_false] at h
  rcases h with h | h | h
  · cases h; exact Or.inl ⟨rfl, rfl⟩
  · obtain ⟨x, h1, h2⟩ := List.mem_map.mp h
    have hn := hb.nominal c x h1
    cases x <;> simp [Ty.nominal] at hn <;> simp only [Ty.subst] at h2 <;> cases h2
    exact Or.inr (Or.inr ⟨_, h1, by simp [Ty.subst]⟩)
  · cases h; exact Or.inr (Or.inl ⟨rfl, rfl⟩)

theorem mro_unique (hc : Calm w b) {c d : Nat} {as xs ys : List Ty} (hf : Fine w b (.cls c as))
    (h1 : .cls d xs ∈ mro w (.cls c as)) (h2 : .cls d ys ∈ mro w (.cls c as)) : xs = ys := by
  have hb := hc.bases
  have obj : c = w.object → as = [] := by
    rintro rfl; exact Fine.noArgs hc.object hf
  rcases mro_cls hb h1 with ⟨rfl, rfl⟩ | ⟨rfl, rfl⟩ | ⟨xs', e1, e2⟩ <;>
    rcases mro_cls hb h2 with ⟨h3, rfl⟩ | ⟨h3, rfl⟩ | ⟨ys', e3, e4⟩
  · rfl
  · exact obj h3
  · exact absurd e3 (hb.self _ _)
  · exact (obj h3.symm).symm
  · rfl
  · exact absurd e3 (hb.object _ _)
  · subst h3; exact absurd e1 (hb.self _ _)
  · subst h3; exact absurd e1 (hb.object _ _)
  · have := hb.once _ _ _ _ e1 e3
    subst this
    simpa using e2.trans e4.symm

theorem mro_cycle (hb : Bases w) {c d : Nat} {as bs xs ys : List Ty}
    (h1 : .cls d xs ∈ mro w (.cls c as)) (h2 : .cls c ys ∈ mro w (.cls d bs)) : c = d := by
  rcases mro_cls hb h1 with ⟨rfl, -⟩ | ⟨rfl, -⟩ | ⟨xs', e1, -⟩
  · rfl
  · rcases mro_cls hb h2 with ⟨h3, -⟩ | ⟨h3, -⟩ | ⟨ys', e3, -⟩
    · exact h3
    · exact h3
    · rw [hb.root] at e3; simp at e3
  · rcases mro_cls hb h2 with ⟨h3, -⟩ | ⟨rfl, -⟩ | ⟨ys', e3, -⟩
    · exact h3
    · rw [hb.root] at e1; simp at e1
    · exact absurd e3 (hb.cycle _ _ _ _ e1)

theorem mro_fine (hc : Calm w b) {c d : Nat} {as xs : List Ty} (hf : Fine w b (.cls c as))
    (h : .cls d xs ∈ mro w (.cls c as)) : ∀ x ∈ xs, Fine w b x := by
  rcases mro_cls hc.bases h with ⟨rfl, rfl⟩ | ⟨rfl, rfl⟩ | ⟨xs', e1, e2⟩
  · cases hf; assumption
  · simp
  · simp only [Ty.subst, Ty.cls.injEq, true_and] at e2
    subst e2
    intro x hx
    rw [substs_map, List.mem_map] at hx
    obtain ⟨y, h1, rfl⟩ := hx
    exact hc.inherited c as d xs' hf e1 y h1

theorem mro_entry_nominal (hb : Bases w) {c : Nat} {as : List Ty} {y : Ty}
    (h : y ∈ mro w (.cls c as)) : y.nominal = true := by
  simp only [mro, List.cons_append, List.mem_cons, List.mem_append, List.not_mem_nil,
    or_false] at h
  rcases h with rfl | h | rfl
  · rfl
  · exact bases_nominal hb.nominal y h
  · rfl

/-- What a comparison of a class rests on. -/
theorem internal_cls {n : Nat} {v : Variance} {rev : Bool} {c : Nat} {as : List Ty} {y : Ty}
    (hy : y.nominal = true) (h : Yes (internal w n v rev (.cls c as) y)) :
    ∃ ys, y = .cls c ys ∧ ∀ (k : Nat) r a x, (w.cls c).params[k]? = some r → as[k]? = some a →
      ys[k]? = some x → ∃ j, Yes (argMatches (fun v rev a b => «matches» w j v rev a b) rev
        (argVariance v r) a x) := by
  match n with
  | 0 => obtain ⟨m, h1, _⟩ := h; simp [internal] at h1
  | 1 => obtain ⟨m, h1, _⟩ := h; simp [internal, classVsType] at h1
  | n + 2 =>
    simp only [internal] at h
    cases y <;> simp [Ty.nominal] at hy <;> simp only [classVsType] at h
    case cls d ys =>
      cases n with
      | zero => obtain ⟨m, h1, _⟩ := h; simp [matchesClass] at h1
      | succ n =>
        simp only [matchesClass] at h
        split at h
        · exact absurd h Yes.not_false
        · rename_i hcd
          simp only [ne_eq, Decidable.not_not] at hcd
          subst hcd
          refine ⟨ys, rfl, fun k r a x hr ha hx => ?_⟩
          split at h
          · rename_i he
            simp only [List.isEmpty_iff] at he
            rw [he] at hr; simp at hr
          · obtain ⟨m, h1, h2⟩ := h
            cases hz : zipV (fun p a b => argMatches (fun v rev a b => «matches» w n v rev a b) rev
              (argVariance v p) a b) .newTrue as ys (w.cls c).params with
            | none => rw [hz] at h1; cases h1
            | some r' =>
              rw [hz] at h1
              simp only [Option.map_some, Option.some.injEq] at h1
              subst h1
              rw [similar_true] at h2
              exact ⟨n, (zipV_true hz h2).2 k r a x hr ha hx⟩
    all_goals exact absurd h Yes.not_false

theorem Apart.args {a x : Ty} (h : Apart w a x) (v : Variance) (n : Nat) :
    ¬ Yes («matches» w n v false a x) := by
  intro hy
  cases n with
  | zero => obtain ⟨m, h1, _⟩ := hy; simp [«matches»] at h1
  | succ n =>
    cases v <;> simp only [«matches»] at hy
    · exact h.sup ⟨n, hy⟩
    · exact h.sub ⟨n, hy⟩
    · exact h.same ⟨n, hy⟩

theorem Apart.back {a x : Ty} (h : Apart w a x) (n : Nat) :
    ¬ Yes («matches» w n .cov true x a) := by
  intro hy
  cases n with
  | zero => obtain ⟨m, h1, _⟩ := hy; simp [«matches»] at h1
  | succ n =>
    simp only [«matches»] at hy
    exact h.sub ⟨n, hy⟩

/-- The target of a promotion. -/
theorem promoted_target {rev : Bool} {e : Nat} {es : List Ty} : ∀ {n c : Nat},
    Yes (promoted w n rev (.cls e es) c) → ∃ c', (w.cls c').promote = some e
  | 0, c, h => by obtain ⟨m, h1, _⟩ := h; simp [promoted] at h1
  | n + 1, c, h => by
    simp only [promoted] at h
    split at h
    · rename_i d hd
      obtain ⟨m, h1, h2⟩ := h
      cases hr : isSame w n rev (.cls e es) (.cls d []) with
      | none => rw [hr] at h1; cases h1
      | some r =>
        rw [hr] at h1
        simp only [Option.bind_some] at h1
        rcases orM_true h1 h2 with h3 | ⟨m', h3, h4⟩
        · refine ⟨c, ?_⟩
          cases n with
          | zero => simp [isSame] at hr
          | succ n =>
            unfold isSame at hr
            cases hi : internal w n .inv rev (.cls e es) (.cls d []) with
            | none => rw [hi] at hr; cases hr
            | some ri =>
              rw [hi] at hr
              simp only [Option.bind_some] at hr
              rcases orM_true hr h3 with h5 | ⟨m'', h5, h6⟩
              · obtain ⟨ys, h7, -⟩ := internal_cls (w := w) rfl ⟨ri, hi, h5⟩
                cases h7
                exact hd
              · cases n with
                | zero => simp [other] at h5
                | succ n =>
                  simp only [other, Option.some.injEq] at h5
                  subst h5; cases h6
        · exact promoted_target ⟨m', h3, h4⟩
    · exact absurd h Yes.not_false

theorem promotion_target (hc : Calm w b) {rev : Bool} {e c : Nat} {es as : List Ty} {n : Nat}
    (h : Yes (promotion w n rev (.cls e es) (.cls c as))) :
    (w.cls e).params = [] ∧ ∀ d xs, .cls d xs ∈ mro w (.cls e es) → (w.cls d).params = [] := by
  cases n with
  | zero => obtain ⟨m, h1, _⟩ := h; simp [promotion] at h1
  | succ n =>
    simp only [promotion] at h
    rw [if_neg (by simp [hc.complete])] at h
    obtain ⟨c', h1⟩ := promoted_target h
    obtain ⟨h2, h3⟩ := hc.promote c' e h1
    refine ⟨h2, fun d xs hd => ?_⟩
    rcases mro_cls hc.bases hd with ⟨rfl, -⟩ | ⟨rfl, -⟩ | ⟨xs', e1, -⟩
    · exact h2
    · exact hc.object
    · exact h3 _ _ e1

theorem protocol_apart (hc : Calm w b) {c d : Nat} {as bs : List Ty}
    (h : (w.structural (.cls c as) (.cls d bs)).bool = true) :
    (∀ xs, .cls d xs ∈ mro w (.cls c as) → (w.cls d).params = []) ∧
      ∀ xs, .cls c xs ∈ mro w (.cls d bs) → (w.cls c).params = [] := by
  obtain ⟨h1, h2, h3⟩ := hc.protocol c as d bs h
  constructor <;> intro xs hm
  · rcases mro_cls hc.bases hm with ⟨rfl, -⟩ | ⟨rfl, -⟩ | ⟨xs', e1, -⟩
    · exact h1 rfl
    · exact hc.object
    · exact h2 _ e1
  · rcases mro_cls hc.bases hm with ⟨rfl, -⟩ | ⟨rfl, -⟩ | ⟨xs', e1, -⟩
    · exact h1 rfl
    · exact hc.object
    · exact h3 _ e1

theorem other_cls {n : Nat} {v : Variance} {rev : Bool} {t : Ty} {c : Nat} {as : List Ty} :
    ¬ Yes (other w n v rev t (.cls c as)) := by
  rintro h
  cases n with
  | zero => obtain ⟨m, h1, _⟩ := h; simp [other] at h1
  | succ n =>
    simp only [other] at h
    exact absurd h Yes.not_false

theorem get_param {c : Nat} {bs : List Ty} {k : Nat} {x : Ty} (hf : Fine w b (.cls c bs))
    (hx : bs[k]? = some x) : ∃ r, (w.cls c).params[k]? = some r := by
  cases hf with
  | cls h1 =>
    obtain ⟨hk, -⟩ := List.getElem?_eq_some_iff.mp hx
    exact ⟨_, List.getElem?_eq_getElem (h1 ▸ hk)⟩

/-- The first class inherits from the second, with an argument that does not overlap. -/
theorem apart_left (hc : Calm w b) {c d : Nat} {as bs xs : List Ty} {k : Nat} {a x : Ty}
    (h1 : Fine w b (.cls c as)) (h2 : Fine w b (.cls d bs)) (hm : .cls d xs ∈ mro w (.cls c as))
    (ha : xs[k]? = some a) (hx : bs[k]? = some x) (hap : Apart w a x) :
    Apart w (.cls c as) (.cls d bs) := by
  obtain ⟨r, hr⟩ := get_param h2 hx
  have noParams : (w.cls d).params ≠ [] := by intro h; rw [h] at hr; simp at hr
  have self : .cls c as ∈ mro w (.cls c as) := by simp [mro]
  have self2 : .cls d bs ∈ mro w (.cls d bs) := by simp [mro]
  have direct : ∀ {n v y}, y ∈ mro w (.cls d bs) → ¬ Yes (internal w n v false (.cls c as) y) := by
    intro n v y hy hi
    obtain ⟨ys, rfl, hz⟩ := internal_cls (mro_entry_nominal hc.bases hy) hi
    have := mro_cycle hc.bases hm hy
    subst this
    have e1 := mro_unique hc h1 self hm
    subst e1
    have e2 := mro_unique hc h2 self2 hy
    subst e2
    obtain ⟨j, hj⟩ := hz k r a x hr ha hx
    simp only [argMatches] at hj
    exact hap.args _ _ hj
  refine ⟨fun h => ?_, fun h => ?_, fun ⟨n, m, h, hm'⟩ => ?_⟩
  · obtain ⟨n, ⟨y, hy, hi⟩ | h | h | h⟩ := accepts_nominal rfl h
    · exact direct hy hi
    · exact noParams ((protocol_apart hc (protocolMatch_true h).2).1 _ hm)
    · exact other_cls h
    · exact noParams ((promotion_target hc h).2 _ _ hm)
  · obtain ⟨n, ⟨y, hy, hi⟩ | h | h | h⟩ := accepts_nominal rfl h
    · obtain ⟨ys, rfl, hz⟩ := internal_cls (mro_entry_nominal hc.bases hy) hi
      have e1 := mro_unique hc h1 hm hy
      subst e1
      obtain ⟨j, hj⟩ := hz k r x a hr hx ha
      simp only [argMatches, if_true] at hj
      exact hap.args _ _ hj
    · exact noParams ((protocol_apart hc (protocolMatch_true h).2).2 _ hm)
    · exact other_cls h
    · exact noParams (promotion_target hc h).1
  · cases n with
    | zero => simp [isSame] at h
    | succ n =>
      unfold isSame at h
      cases hi : internal w n .inv false (.cls c as) (.cls d bs) with
      | none => rw [hi] at h; cases h
      | some ri =>
        rw [hi] at h
        simp only [Option.bind_some] at h
        rcases orM_true h hm' with h5 | ⟨m', h5, h6⟩
        · exact direct self2 ⟨ri, hi, h5⟩
        · exact other_cls ⟨m', h5, h6⟩

/-- The second class inherits from the first, with an argument that does not overlap. -/
theorem apart_right (hc : Calm w b) {c d : Nat} {as bs xs : List Ty} {k : Nat} {a x : Ty}
    (h1 : Fine w b (.cls c as)) (h2 : Fine w b (.cls d bs)) (hno : argsOf d (mro w (.cls c as)) = none)
    (hm : .cls c xs ∈ mro w (.cls d bs))
    (ha : as[k]? = some a) (hx : xs[k]? = some x) (hap : Apart w a x) :
    Apart w (.cls c as) (.cls d bs) := by
  obtain ⟨r, hr⟩ := get_param h1 ha
  have noParams : (w.cls c).params ≠ [] := by intro h; rw [h] at hr; simp at hr
  have no : ∀ ys, .cls d ys ∉ mro w (.cls c as) := by
    intro ys hy
    obtain ⟨zs, hz⟩ := argsOf_some hy
    rw [hno] at hz; cases hz
  have direct : ∀ {n v y}, y ∈ mro w (.cls d bs) → ¬ Yes (internal w n v false (.cls c as) y) := by
    intro n v y hy hi
    obtain ⟨ys, rfl, hz⟩ := internal_cls (mro_entry_nominal hc.bases hy) hi
    have e2 := mro_unique hc h2 hm hy
    subst e2
    obtain ⟨j, hj⟩ := hz k r a x hr ha hx
    simp only [argMatches] at hj
    exact hap.args _ _ hj
  refine ⟨fun h => ?_, fun h => ?_, fun ⟨n, m, h, hm'⟩ => ?_⟩
  · obtain ⟨n, ⟨y, hy, hi⟩ | h | h | h⟩ := accepts_nominal rfl h
    · exact direct hy hi
    · exact noParams ((protocol_apart hc (protocolMatch_true h).2).2 _ hm)
    · exact other_cls h
    · exact noParams (promotion_target hc h).1
  · obtain ⟨n, ⟨y, hy, hi⟩ | h | h | h⟩ := accepts_nominal rfl h
    · obtain ⟨ys, rfl, -⟩ := internal_cls (mro_entry_nominal hc.bases hy) hi
      exact no _ hy
    · exact noParams ((protocol_apart hc (protocolMatch_true h).2).1 _ hm)
    · exact other_cls h
    · exact noParams ((promotion_target hc h).2 _ _ hm)
  · cases n with
    | zero => simp [isSame] at h
    | succ n =>
      unfold isSame at h
      cases hi : internal w n .inv false (.cls c as) (.cls d bs) with
      | none => rw [hi] at h; cases h
      | some ri =>
        rw [hi] at h
        simp only [Option.bind_some] at h
        rcases orM_true h hm' with h5 | ⟨m', h5, h6⟩
        · exact direct (by simp [mro]) ⟨ri, hi, h5⟩
        · exact other_cls ⟨m', h5, h6⟩

theorem zipAndO_false {f : Ty → Ty → Option Bool} : ∀ {as bs : List Ty} {r : Bool},
    zipAndO f r as bs = some false → r = false ∨ ∃ (k : Nat) (a x : Ty), as[k]? = some a ∧ bs[k]? = some x ∧
      f a x = some false
  | [], bs, r, h => by
    simp only [zipAndO, Option.some.injEq] at h
    exact Or.inl h
  | a :: as, [], r, h => by
    simp only [zipAndO, Option.some.injEq] at h
    exact Or.inl h
  | a :: as, x :: bs, r, h => by
    simp only [zipAndO] at h
    cases hf : f a x with
    | none => rw [hf] at h; cases h
    | some r' =>
      rw [hf] at h
      simp only [Option.bind_some] at h
      rcases zipAndO_false h with h1 | ⟨k, a', x', h1, h2, h3⟩
      · cases r with
        | false => exact Or.inl rfl
        | true =>
          simp only [Bool.true_and] at h1
          subst h1
          exact Or.inr ⟨0, a, x, rfl, rfl, hf⟩
      · exact Or.inr ⟨k + 1, a', x', by simpa using h1, by simpa using h2, h3⟩

variable {allow : Nat → Bool}

/-- Classes that are found not to overlap. -/
theorem class_apart (hc : Calm w b) {n c d : Nat} {as bs : List Ty}
    (ih : ∀ t s, Fine w b t → Fine w b s → ∀ k, k ≤ n → overlaps w allow k t s = some false →
      Apart w t s)
    (h1 : Fine w b (.cls c as)) (h2 : Fine w b (.cls d bs))
    (h : overlapsClass w allow n c as d bs = some (some false)) :
    Apart w (.cls c as) (.cls d bs) := by
  cases n with
  | zero => simp [overlapsClass] at h
  | succ n =>
    have fb : ∀ x ∈ bs, Fine w b x := by cases h2; assumption
    have fa : ∀ x ∈ as, Fine w b x := by cases h1; assumption
    simp only [overlapsClass] at h
    split at h
    · rename_i xs hxs
      have hm := argsOf_mem hxs
      simp only [Option.map_eq_some_iff, Option.some.injEq, exists_eq_right] at h
      rcases zipAndO_false h with h | ⟨k, a, x, ha, hx, hf⟩
      · cases h
      · exact apart_left hc h1 h2 hm ha hx (ih a x (mro_fine hc h1 hm a (List.mem_of_getElem? ha))
          (fb x (List.mem_of_getElem? hx)) n (by omega) hf)
    · rename_i hno
      split at h
      · rename_i xs hxs
        have hm := argsOf_mem hxs
        simp only [Option.map_eq_some_iff, Option.some.injEq, exists_eq_right] at h
        rcases zipAndO_false h with h | ⟨k, a, x, ha, hx, hf⟩
        · cases h
        · exact apart_right hc h1 h2 hno hm ha hx (ih a x (fa a (List.mem_of_getElem? ha))
            (mro_fine hc h2 hm x (List.mem_of_getElem? hx)) n (by omega) hf)
      · split at h <;> cases h

/-- Classes without relation are not the same. -/
theorem class_unrelated {n c d : Nat} {as bs : List Ty}
    (h : overlapsClass w allow n c as d bs = some none) : c ≠ d := by
  rintro rfl
  cases n with
  | zero => simp [overlapsClass] at h
  | succ n =>
    have hm : .cls c as ∈ mro w (.cls c as) := by simp [mro]
    obtain ⟨xs, hxs⟩ := argsOf_some hm
    simp only [overlapsClass, hxs, Option.map_eq_some_iff] at h
    obtain ⟨_, _, h⟩ := h
    cases h

end Verif.Sub
