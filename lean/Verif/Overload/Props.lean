import Verif.Overload.Lemmas

/-! # Properties of calls of overloaded functions -/

namespace Verif.Overload

/-! ## A small comparison for the examples -/

/-- The parameters of the overloads of the examples, by the name of the overload. -/
def Demo := Nat → List Ty

/-- Compares arguments with parameters of the same number: `Any` fits everything, `cls 0` is `object`. -/
def demoArg (a p : Ty) : Option Bool :=
  match a, p with
  | _, .cls 0 => some false
  | .any, _ => some true
  | .lit _, .bool => some false
  | .member i _ _, .enum j _ => if i = j then some false else none
  | a, p => if Ty.eq a p then some false else none

/-- The arguments with `Any`, or nothing if one does not fit. -/
def demoArgs : List Ty → List Ty → Nat → Option (List (Nat × Ty))
  | [], [], _ => some []
  | a :: as, p :: ps, i =>
    match demoArg a p, demoArgs as ps (i + 1) with
    | some true, some l => some ((i, p) :: l)
    | some false, some l => some l
    | _, _ => none
  | _, _, _ => none

/-- The comparison of the examples. -/
def demo (ps : Demo) : Run := fun _ s args =>
  match demoArgs args (ps s.id) 0 with
  | none => (.no false, false)
  | some [] => (.yes true, false)
  | some l => (.withAny l, false)

/-- The union of two types, as a list. -/
def pair (a b : Ty) : Ty := .union [a, b]

theorem pair_has (a b : Ty) (v : Val) : (pair a b).has v ↔ a.has v ∨ b.has v := by
  simp [pair, Ty.has, Ty.hasSome]

theorem pair_joins : Joins pair := fun a b v h => (pair_has a b v).mpr h

/-- The options of the examples. -/
def opts : Opts := ⟨pair, false⟩

/-- `def f(x: A) -> C` and `def f(x: B) -> D`. -/
def two : List Sig := [⟨0, .cls 3, false⟩, ⟨1, .cls 4, false⟩]

/-- Their parameters. -/
def twoParams : Demo := fun | 0 => [.cls 1] | _ => [.cls 2]

/-! ## Right types -/

/-- **C131** (for tuples that are split in the right way and overloads without `Any`): if a call has no
issues, all that the function can return for values of the types of the arguments has the type of the
call. -/
theorem call_right_partial {o : Opts} {run : Run} {sigs : List Sig} {accepts : Sig → List Val → Prop}
    {f : List Val → Val → Prop} (hc : Contract run sigs accepts f) (hj : Joins o.join) (hany : NoAny run)
    {args : List Ty} (hf : Filleds args) (hfair : Fairs args) {context : Bool} {t : Ty}
    (h : call o run sigs args context = some (t, [])) {vs : List Val} {r : Val}
    (hvs : Ty.hasAll args vs) (hr : f vs r) : t.has r := by
  unfold call at h
  cases hfind : find o run sigs args context with
  | mk res is =>
    have his : is = [] := by
      rw [hfind] at h
      cases res <;> simp at h <;> (try exact h.2.1) <;> exact h.2
    subst his
    rw [hfind] at h
    rcases find_cases hfind with ⟨s, hs, rfl⟩ | ⟨rfl, c', _, hl⟩ | ⟨i, t', c', _, hu, rfl⟩ | ⟨rfl, _⟩
    · simp only [List.nil_append, Option.some.injEq, Prod.mk.injEq] at h
      obtain ⟨rfl, h⟩ := h
      have hok : SigMatch.ok (run context s args) = true := by
        split at h
        · assumption
        · cases h
      rcases ok_cases hok with ⟨b, hb⟩ | ⟨is, hb⟩
      · exact hc.right s hs vs r (hc.yes context s args b vs hb hvs) hr
      · exact absurd hb (hany context s args is)
    · exact absurd hl (loop_static (fun s is => hany c' s args is) sigs {} rfl).1
    · simp only [Option.some.injEq, Prod.mk.injEq, and_true] at h
      subst h
      obtain ⟨c, hcm, hcv⟩ := expand_covers hf hfair hvs
      obtain ⟨s, hs, hsv⟩ := unionMath_has hj hu c hcm
      refine hsv r ?_
      have hm := chosen_mem hs
      obtain ⟨_, _, _, hno, _⟩ := hs
      rw [List.nil_append] at hno
      have : ∃ b, (run c' s c).1 = .yes b := by
        cases hrun : (run c' s c).1 with
        | yes b => exact ⟨b, rfl⟩
        | no b => exact absurd hrun (hno b)
        | withAny is => exact absurd hrun (hany c' s c is)
      obtain ⟨b, hb⟩ := this
      exact hc.right s hm vs r (hc.yes c' s c b vs hb hcv) hr
    · cases h

/-- A call with `A | B` gives `C | D`. -/
example : call opts (demo twoParams) two [.union [.cls 1, .cls 2]] false =
    some (.union [.union [.union [], .cls 3], .cls 4], []) := by decide +kernel

/-- The hypotheses of `call_right_partial` hold for a function with two overloads. -/
example : ∃ (run : Run) (accepts : Sig → List Val → Prop) (f : List Val → Val → Prop),
    Contract run two accepts f ∧ NoAny run ∧ Joins pair ∧ Filleds [.union [.cls 1, .cls 2]] ∧
      Fairs [.union [.cls 1, .cls 2]] ∧ f [.obj 1] (.obj 3) ∧ f [.obj 2] (.obj 4) ∧
      call opts run two [.union [.cls 1, .cls 2]] false =
        some (.union [.union [.union [], .cls 3], .cls 4], []) := by
  refine ⟨fun _ s args => match args with
      | [.cls n] => if n = s.id + 1 then (.yes true, false) else (.no true, false)
      | _ => (.no false, false),
    fun s vs => vs = [.obj (s.id + 1)], fun vs r => vs = [.obj 1] ∧ r = .obj 3 ∨ vs = [.obj 2] ∧ r = .obj 4,
    ⟨?_, ?_⟩, ?_, pair_joins, by simp [Filleds, Filled], by simp [Fairs, Fair], by simp, by simp,
    by decide +kernel⟩
  · intro s hs vs r ha hr
    simp only [two, List.mem_cons, List.not_mem_nil, or_false] at hs
    rcases hs with rfl | rfl <;> subst ha <;> rcases hr with ⟨h1, rfl⟩ | ⟨h1, rfl⟩ <;>
      first | rfl | (simp at h1)
  · intro c s args h vs hy hv
    split at hy
    · next n =>
      split at hy
      · next hn =>
        subst hn
        match vs, hv with
        | [.obj m], hv => simp [Ty.hasAll, Ty.has] at hv; simp [hv]
      · cases hy
    · cases hy
  · intro c s args is
    dsimp only
    split
    · split <;> nofun
    · nofun

/-- `def f(x: tuple[A, A]) -> C` and `def f(x: tuple[B, B]) -> D`. -/
def pairParams : Demo := fun | 0 => [.tuple [.cls 1, .cls 1]] | _ => [.tuple [.cls 2, .cls 2]]

/-- **C131**, **C133**, violation: for `f(x: tuple[A, A])` and `f(x: tuple[B, B])` a call with a
`tuple[A | B, A | B]` is accepted without an issue, since such a tuple is only split into `tuple[A, A]`
and `tuple[B, B]` (twice): the loops push the entries of the second union in the same order as those of the
first one.  The value `(A(), B())` has the type of the argument, but fits no overload. -/
theorem tuple_of_unions_violation :
    mat (.tuple [.union [.cls 1, .cls 2], .union [.cls 1, .cls 2]]) =
        some [.tuple [.cls 1, .cls 1], .tuple [.cls 2, .cls 2], .tuple [.cls 1, .cls 1],
          .tuple [.cls 2, .cls 2]] ∧
      call opts (demo pairParams) two [.tuple [.union [.cls 1, .cls 2], .union [.cls 1, .cls 2]]] false =
        some (.union [.union [.union [.union [.union [], .cls 3], .cls 4], .cls 3], .cls 4], []) ∧
      Ty.has (.tuple [.union [.cls 1, .cls 2], .union [.cls 1, .cls 2]]) (.tup [.obj 1, .obj 2]) ∧
      ∀ s ∈ two, ¬ Ty.hasAll (pairParams s.id) [.tup [.obj 1, .obj 2]] := by
  refine ⟨by decide +kernel, by decide +kernel, by simp [Ty.has, Ty.hasAll, Ty.hasSome], ?_⟩
  intro s hs
  simp only [two, List.mem_cons, List.not_mem_nil, or_false] at hs
  rcases hs with rfl | rfl <;> simp [pairParams, Ty.has, Ty.hasAll]

/-! ## The first overload -/

/-- **C132**: the first overload that accepts the arguments is chosen, if the overloads before it reject
them. -/
theorem first_overload {o : Opts} {run : Run} {sigs before after : List Sig} {s : Sig} {args : List Ty}
    {context : Bool} (hs : sigs = before ++ s :: after)
    (hb : ∀ t ∈ before, ∃ b, (run context t args).1 = .no b)
    (hy : run context s args = (.yes true, false)) :
    call o run sigs args context = some (s.ret, []) := by
  have hl : ∀ (before : List Sig) (st : State), st.anyMatch = none →
      (∀ t ∈ before, ∃ b, (run context t args).1 = .no b) →
      loop (run context) args (before ++ s :: after) st = .inl (.single s) := by
    intro before
    induction before with
    | nil => intro st hst _; rw [List.nil_append, loop, hy]; simp [hst]
    | cons t rest ih =>
      intro st hst hb
      obtain ⟨b, hb1⟩ := hb t (List.mem_cons_self ..)
      have hrest := fun t ht => hb t (List.mem_cons_of_mem _ ht)
      rw [List.cons_append, loop]
      cases hrun : run context t args with
      | mk m e =>
        rw [hrun] at hb1
        simp only at hb1
        subst hb1
        cases b <;> exact ih _ hst hrest
  have := hl before {} rfl hb
  unfold call find findOnce
  rw [hs, this]
  simp [hy, SigMatch.ok]

example : call opts (demo twoParams) two [.cls 2] false = some (.cls 4, []) :=
  first_overload (before := [⟨0, .cls 3, false⟩]) (s := ⟨1, .cls 4, false⟩) (after := []) rfl
    (by intro t ht; rw [List.mem_singleton] at ht; subst ht; exact ⟨false, rfl⟩) rfl

/-- **C132**: if the length of an argument is not known and no overload takes all of it, the first
overload that accepts the arguments is chosen. -/
theorem first_overload_of_arbitrary_length {o : Opts} {run : Run} {sigs before after : List Sig} {s : Sig}
    {args : List Ty} {context : Bool} (hs : sigs = before ++ s :: after)
    (hb : ∀ t ∈ before, ∃ b, (run context t args).1 = .no b)
    (hy : run context s args = (.yes false, false))
    (ha : ∀ t ∈ after, (∃ b, (run context t args).1 = .no b) ∨ run context t args = (.yes false, false)) :
    call o run sigs args context = some (s.ret, []) := by
  have hafter : ∀ (after : List Sig) (st : State), st.anyMatch = none → st.notHandled = some s →
      (∀ t ∈ after, (∃ b, (run context t args).1 = .no b) ∨ run context t args = (.yes false, false)) →
      ∃ st', loop (run context) args after st = .inr st' ∧ st'.anyMatch = none ∧
        st'.notHandled = some s := by
    intro after
    induction after with
    | nil => intro st h1 h2 _; exact ⟨st, rfl, h1, h2⟩
    | cons t rest ih =>
      intro st h1 h2 ha
      have ha' := fun t ht => ha t (List.mem_cons_of_mem _ ht)
      rw [loop]
      rcases ha t (List.mem_cons_self ..) with ⟨b, hb1⟩ | hb1
      · cases hrun : run context t args with
        | mk m e =>
          rw [hrun] at hb1
          simp only at hb1
          subst hb1
          cases b <;> exact ih _ h1 h2 ha'
      · rw [hb1]
        simp only [h1, Option.isSome_none, Bool.false_eq_true, if_false, Bool.not_false, if_true]
        exact ih _ rfl (by rw [h2]; rfl) ha'
  have hl : ∀ (before : List Sig) (st : State), st.anyMatch = none → st.notHandled = none →
      (∀ t ∈ before, ∃ b, (run context t args).1 = .no b) →
      ∃ st', loop (run context) args (before ++ s :: after) st = .inr st' ∧ st'.anyMatch = none ∧
        st'.notHandled = some s := by
    intro before
    induction before with
    | nil =>
      intro st h1 h2 _
      rw [List.nil_append, loop, hy]
      simp only [h1, Option.isSome_none, Bool.false_eq_true, if_false, Bool.not_false, if_true]
      exact hafter after _ rfl (by rw [h2]; rfl) ha
    | cons t rest ih =>
      intro st h1 h2 hb
      obtain ⟨b, hb1⟩ := hb t (List.mem_cons_self ..)
      have hrest := fun t ht => hb t (List.mem_cons_of_mem _ ht)
      rw [List.cons_append, loop]
      cases hrun : run context t args with
      | mk m e =>
        rw [hrun] at hb1
        simp only at hb1
        subst hb1
        cases b <;> exact ih _ h1 h2 hrest
  obtain ⟨st, hst, h1, h2⟩ := hl before {} rfl rfl hb
  unfold call find findOnce
  rw [hs, hst]
  simp [afterLoop, h1, h2, hy, SigMatch.ok]

/-- **C132**: a call is reported if the overloads reject the arguments, and all of them reject one
combination of entries of the unions. -/
theorem rejected_reported {o : Opts} {run : Run} {sigs : List Sig} {args : List Ty} (hf : Filleds args)
    (hno : ∀ s ∈ sigs, ∀ c, ∃ b, (run c s args).1 = .no b)
    {combination : List Ty} (hc : combination ∈ expand args)
    (hcomb : ∀ s ∈ sigs, ∀ c, ∃ b, (run c s combination).1 = .no b)
    {context : Bool} {t : Ty} {is : List Issue} (h : call o run sigs args context = some (t, is)) :
    is ≠ [] := by
  rintro rfl
  unfold call at h
  cases hfind : find o run sigs args context with
  | mk res is =>
    have his : is = [] := by
      rw [hfind] at h
      cases res <;> simp at h <;> (try exact h.2.1) <;> exact h.2
    subst his
    rw [hfind] at h
    rcases find_cases hfind with ⟨s, hs, rfl⟩ | ⟨rfl, c', _, hl⟩ | ⟨i, t', c', _, hu, rfl⟩ | ⟨rfl, _⟩
    · simp only [List.nil_append, Option.some.injEq, Prod.mk.injEq] at h
      obtain ⟨b, hb⟩ := hno s hs context
      obtain ⟨_, h⟩ := h
      cases hrun : run context s args with
      | mk m e =>
        rw [hrun] at hb h
        simp only at hb
        subst hb
        simp [SigMatch.ok] at h
    · have : ∀ (l : List Sig) (st : State), (∀ s ∈ l, s ∈ sigs) →
          loop (run c') args l st ≠ .inl .notFound := by
        intro l
        induction l with
        | nil => intro st _; nofun
        | cons s rest ih =>
          intro st hin
          obtain ⟨b, hb⟩ := hno s (hin s (List.mem_cons_self ..)) c'
          rw [loop]
          cases hrun : run c' s args with
          | mk m e =>
            rw [hrun] at hb
            simp only at hb
            subst hb
            cases b <;> exact ih _ fun s hs => hin s (List.mem_cons_of_mem _ hs)
      exact absurd hl (this sigs {} fun _ => id)
    · obtain ⟨s, hs, hsno⟩ := ((unionMath_found hf).mp ⟨i, t', hu⟩).2 combination hc
      obtain ⟨b, hb⟩ := hcomb s hs c'
      exact absurd hb (hsno b)
    · cases h

example : ∀ {t : Ty} {is : List Issue},
    call opts (demo twoParams) two [.union [.cls 1, .cls 5]] false = some (t, is) → is ≠ [] :=
  rejected_reported (by simp [Filleds, Filled]) (by intro s hs c; simp [two] at hs; rcases hs with rfl | rfl <;> exact ⟨false, rfl⟩)
    (combination := [.cls 5]) (by simp [expand, mat])
    (by intro s hs c; simp [two] at hs; rcases hs with rfl | rfl <;> exact ⟨false, rfl⟩)

/-! ## Materializations -/

/-- **C133**: the types into which a type is split have only values of the type. -/
theorem split_inside {t : Ty} {us : List Ty} (hf : Filled t) (h : mat t = some us) :
    ∀ u ∈ us, ∀ v, u.has v → t.has v :=
  mat_inside t us hf h

/-- **C133** (for tuples where the numbers of entries of the items have no common divisors): the types
into which a type is split have all its values. -/
theorem split_covers_partial {t : Ty} {us : List Ty} (hf : Filled t) (hfair : Fair t)
    (h : mat t = some us) {v : Val} (hv : t.has v) : ∃ u ∈ us, u.has v :=
  mat_covers t us hf hfair h v hv

/-- A type is never split into nothing. -/
theorem split_nonempty {t : Ty} {us : List Ty} (hf : Filled t) (h : mat t = some us) : us ≠ [] :=
  mat_ne hf h

/-- Tuples are split into tuples with as many items as the numbers of the entries allow, and no more
than 20. -/
theorem split_bounded {items us : List Ty} (h : mat (.tuple items) = some us) (hf : Filleds items) :
    1 < us.length ∧ us.length ≤ 20 := by
  simp only [mat] at h
  split at h
  · cases h
  · split at h
    · next ts hts =>
      split at h
      · cases h
      · next hlen =>
        cases h
        refine ⟨by simpa using hlen, ?_⟩
        rw [List.length_map]
        have key : ∀ (ps : List (Ty × Option (List Ty))) (a b : List (List Ty)),
            (∀ p ∈ ps, ∀ us, p.2 = some us → us ≠ []) → a.length ≤ 20 →
            spreadLoop ps a = some b → b.length ≤ 20 := by
          intro ps
          induction ps with
          | nil => intro a b _ ha h; cases h; exact ha
          | cons p ps ih =>
            intro a b hne ha h
            have hne' := fun p hp => hne p (List.mem_cons_of_mem _ hp)
            obtain ⟨item, us⟩ := p
            cases us with
            | none => rw [spreadLoop] at h; exact ih _ _ hne' (by simpa using ha) h
            | some us =>
              rw [spreadLoop] at h
              split at h
              · cases h
              · refine ih _ _ hne' ?_ h
                rw [spread_length _ _ (List.length_pos_iff.mpr (hne _ (List.mem_cons_self ..) us rfl)),
                  Nat.mul_comm]
                omega
        refine key _ _ _ ?_ (by simp) hts
        intro p hp us hus
        obtain ⟨h1, h2⟩ := zip_mats_mem hp
        exact mat_ne (filleds_mem hf p.1 h1) (h2 ▸ hus)
    · cases h

/-- **C133**: a tuple is split if there is more than one combination of the entries of its items and no
more than 20, and then into that many tuples. -/
theorem tuple_split {items : List Ty} (hf : Filleds items) (h1 : 1 < combinations (mats items))
    (h2 : combinations (mats items) ≤ 20) :
    ∃ us, mat (.tuple items) = some us ∧ us.length = combinations (mats items) := by
  have hpos : ∀ l : List (Option (List Ty)), (∀ us, some us ∈ l → us ≠ []) → 0 < combinations l := by
    intro l
    induction l with
    | nil => intro _; decide
    | cons o l ih =>
      intro h
      have := ih fun us hu => h us (List.mem_cons_of_mem _ hu)
      cases o with
      | none => exact this
      | some us =>
        exact Nat.mul_pos (List.length_pos_iff.mpr (h us (List.mem_cons_self ..))) this
  have key : ∀ (ps : List (Ty × Option (List Ty))) (a : List (List Ty)),
      (∀ p ∈ ps, ∀ us, p.2 = some us → us ≠ []) → 0 < a.length →
      a.length * combinations (ps.map (·.2)) ≤ 20 →
      ∃ b, spreadLoop ps a = some b ∧ b.length = a.length * combinations (ps.map (·.2)) := by
    intro ps
    induction ps with
    | nil => intro a _ _ _; exact ⟨a, rfl, by simp [combinations]⟩
    | cons p ps ih =>
      intro a hne ha h
      have hne' := fun p hp => hne p (List.mem_cons_of_mem _ hp)
      obtain ⟨item, us⟩ := p
      cases us with
      | none =>
        obtain ⟨b, hb, hl⟩ := ih (a.map (· ++ [item])) hne' (by simpa using ha) (by simpa [combinations] using h)
        exact ⟨b, by rw [spreadLoop]; exact hb, by simpa [combinations] using hl⟩
      | some us =>
        have hus : 0 < us.length := List.length_pos_iff.mpr (hne _ (List.mem_cons_self ..) us rfl)
        have hc : 0 < combinations (ps.map (·.2)) := hpos _ (by
          intro us hu
          obtain ⟨p, hp, he⟩ := List.mem_map.mp hu
          exact hne' p hp us he)
        simp only [List.map_cons, combinations] at h ⊢
        rw [← Nat.mul_assoc] at h ⊢
        have hlen := spread_length a us hus
        obtain ⟨b, hb, hl⟩ := ih (spread a us) hne' (by rw [hlen]; exact Nat.mul_pos ha hus)
          (by rw [hlen]; exact h)
        refine ⟨b, ?_, by rw [hl, hlen]⟩
        rw [spreadLoop, if_neg]
        · exact hb
        · have : a.length * us.length ≤ a.length * us.length * combinations (ps.map (·.2)) :=
            Nat.le_mul_of_pos_right _ hc
          rw [Nat.mul_comm]
          omega
  obtain ⟨b, hb, hl⟩ := key (items.zip (mats items)) [[]] (by
      intro p hp us hus
      obtain ⟨h1, h2⟩ := zip_mats_mem hp
      exact mat_ne (filleds_mem hf p.1 h1) (h2 ▸ hus)) (by simp) (by rw [zip_mats_snd]; simpa using h2)
  rw [zip_mats_snd, List.length_singleton, Nat.one_mul] at hl
  refine ⟨b.map .tuple, ?_, by simpa using hl⟩
  simp only [mat]
  rw [if_neg, hb]
  · simp only
    rw [if_neg (by omega)]
  · intro hall
    have : ∀ l : List (Option (List Ty)), l.all (·.isNone) = true → combinations l = 1 := by
      intro l
      induction l with
      | nil => intro _; rfl
      | cons o l ih =>
        intro h
        cases o with
        | none => exact ih (by simpa using h)
        | some us => simp at h
    rw [this _ hall] at h1
    omega

example : combinations (mats [.union [.cls 1, .cls 2], .cls 5, .enum 7 3]) = 6 := by decide +kernel

example : mat (.tuple [.union [.cls 1, .cls 2], .enum 7 3]) =
      some [.tuple [.cls 1, .member 7 3 0], .tuple [.cls 2, .member 7 3 1], .tuple [.cls 1, .member 7 3 2],
        .tuple [.cls 2, .member 7 3 0], .tuple [.cls 1, .member 7 3 1], .tuple [.cls 2, .member 7 3 2]] ∧
    Filled (.tuple [.union [.cls 1, .cls 2], .enum 7 3]) ∧ Fair (.tuple [.union [.cls 1, .cls 2], .enum 7 3]) :=
  ⟨by decide +kernel, by simp [Filled, Filleds], by
    refine ⟨⟨trivial, trivial, trivial⟩, ?_⟩
    show Nat.Coprime 1 2 ∧ Nat.Coprime 2 3 ∧ True
    decide⟩

/-! ## Union math -/

/-- **C134**: union math succeeds exactly if fewer than five arguments are split and each combination of
entries is accepted by an overload. -/
theorem union_math_iff {join : Ty → Ty → Ty} {run : Sig → List Ty → SigMatch} {sigs : List Sig}
    {args : List Ty} (hf : Filleds args) :
    (∃ i t, unionMath join run sigs args 0 [] = .found i t) ↔
      splits args < 5 ∧ ∀ c ∈ expand args, Accepted run sigs c := by
  rw [unionMath_found hf]
  simp

/-- **C134**: the type of union math has exactly the values of the return types of the first overloads
that accept the combinations. -/
theorem union_math_type {join : Ty → Ty → Ty} (hj : ∀ a b v, (join a b).has v ↔ a.has v ∨ b.has v)
    {run : Sig → List Ty → SigMatch} {sigs : List Sig} {args : List Ty} {i : Nat} {t : Ty}
    (h : unionMath join run sigs args 0 [] = .found i t) (v : Val) :
    t.has v ↔ ∃ c ∈ expand args, ∃ before s after, sigs = before ++ s :: after ∧
      (∀ b, run s c ≠ .no b) ∧ (∀ u ∈ before, ∃ b, run u c = .no b) ∧ s.ret.has v := by
  constructor
  · intro hv
    obtain ⟨c, hc, s, ⟨b, a, h1, h2, h3⟩, hsv⟩ := unionMath_only (fun a b v => (hj a b v).mp) h v hv
    exact ⟨c, hc, b, s, a, h1, h2, h3, hsv⟩
  · rintro ⟨c, hc, b, s, a, h1, h2, h3, hsv⟩
    obtain ⟨s', ⟨b', a', h1', h2', h3'⟩, hv⟩ := unionMath_has (fun a b v => (hj a b v).mpr) h c hc
    rw [List.nil_append] at h2' h3'
    have : s = s' := by
      rw [h1] at h1'
      rcases List.append_eq_append_iff.mp h1' with ⟨l, rfl, hl⟩ | ⟨l, rfl, hl⟩
      · cases l with
        | nil => rw [List.nil_append] at hl; injection hl
        | cons x l =>
          rw [List.cons_append] at hl
          injection hl with hx hl
          subst hx
          obtain ⟨y, hy⟩ := h3' s (by simp)
          exact absurd hy (h2 y)
      · cases l with
        | nil => rw [List.nil_append] at hl; injection hl with hx; exact hx.symm
        | cons x l =>
          rw [List.cons_append] at hl
          injection hl with hx hl
          subst hx
          obtain ⟨y, hy⟩ := h3 s' (by simp)
          exact absurd hy (h2' y)
    subst this
    exact hv v hsv

/-- **C134**: there are too many unions exactly if five arguments or more are split. -/
theorem union_math_too_many {join : Ty → Ty → Ty} {run : Sig → List Ty → SigMatch} {sigs : List Sig}
    {args : List Ty} (hf : Filleds args) :
    unionMath join run sigs args 0 [] = .tooManyUnions ↔ 5 ≤ splits args := by
  rw [unionMath_many hf, Nat.zero_add]

/-- **C134**: a call does not crash if all unions have entries. -/
theorem call_no_panic {o : Opts} {run : Run} {sigs : List Sig} {args : List Ty} (hf : Filleds args)
    (context : Bool) : ∃ t is, call o run sigs args context = some (t, is) := by
  have hres : (find o run sigs args context).1 ≠ .panic := by
    unfold find
    rcases findOnce_cases o (run context) sigs args with ⟨s, hs, he⟩ | ⟨hl, he⟩ | ⟨i, t, hu, he⟩ |
      ⟨hu, he⟩ | ⟨s, is, hs, he⟩
    · rw [he]; nofun
    · rw [he]; nofun
    · rw [he]; nofun
    · exact absurd hu (unionMath_panic hf)
    · rw [he]
      simp only
      split
      · rcases findOnce_cases o (run false) sigs args with ⟨s, hs, he⟩ | ⟨hl, he⟩ | ⟨i, t, hu, he⟩ |
          ⟨hu, he⟩ | ⟨s, is, hs, he⟩
        · rw [he]; nofun
        · rw [he]; nofun
        · rw [he]; nofun
        · exact absurd hu (unionMath_panic hf)
        · rw [he]; cases s <;> nofun
      · cases s <;> nofun
  unfold call
  cases hf : find o run sigs args context with
  | mk r is =>
    rw [hf] at hres
    cases r with
    | panic => exact absurd rfl hres
    | _ => exact ⟨_, _, rfl⟩

example : Filleds [.union [.cls 1, .cls 2], .bool] ∧ splits [.union [.cls 1, .cls 2], .bool] = 2 ∧
    expand [.union [.cls 1, .cls 2], .bool] =
      [[.cls 1, .lit true], [.cls 1, .lit false], [.cls 2, .lit true], [.cls 2, .lit false]] :=
  ⟨by simp [Filleds, Filled], by decide +kernel, by decide +kernel⟩

/-! ## Accepted calls -/

/-- **C135** (if an argument is a union, a `bool`, an enum or a tuple with a union as an item, and no
overload takes all arguments or is similar in the mode of mypy): a call is accepted without an issue if each combination of entries is
accepted by an overload and fewer than five arguments are split. -/
theorem combinations_accepted_partial {o : Opts} {run : Run} {sigs : List Sig} {args : List Ty}
    (hf : Filleds args) {context : Bool}
    (hno : ∀ s ∈ sigs, ∃ b, (run context s args).1 = .no b ∧ (o.mypy = true → b = false))
    {a : Ty} (ha : a ∈ args) (hvis : Visible a) (hsplits : splits args < 5)
    (hall : ∀ c ∈ expand args, Accepted (fun s a => (run context s a).1) sigs c) :
    ∃ t, call o run sigs args context = some (t, []) := by
  have hw : args.any wantsUnionMath = true := by
    rw [List.any_eq_true]
    refine ⟨a, ha, ?_⟩
    rcases hvis with ⟨es, rfl⟩ | rfl | ⟨id, n, rfl⟩ | ⟨items, es, rfl, he⟩
    · rfl
    · rfl
    · rfl
    · simp only [wantsUnionMath, List.any_eq_true]
      exact ⟨_, he, rfl⟩
  have hl : ∀ (l : List Sig) (st : State), (∀ s ∈ l, s ∈ sigs) → st.anyMatch = none →
      st.notHandled = none → (o.mypy = true → st.similar = none) →
      ∃ st', loop (run context) args l st = .inr st' ∧ st'.anyMatch = none ∧ st'.notHandled = none ∧
        (o.mypy = true → st'.similar = none) := by
    intro l
    induction l with
    | nil => intro st _ h1 h2 h3; exact ⟨st, rfl, h1, h2, h3⟩
    | cons s rest ih =>
      intro st hin h1 h2 h3
      obtain ⟨b, hb, hm⟩ := hno s (hin s (List.mem_cons_self ..))
      have hin' := fun s hs => hin s (List.mem_cons_of_mem _ hs)
      rw [loop]
      cases hrun : run context s args with
      | mk m e =>
        rw [hrun] at hb
        simp only at hb
        subst hb
        cases b with
        | false => exact ih st hin' h1 h2 h3
        | true =>
          refine ih _ hin' h1 h2 ?_
          intro hmy
          cases hm hmy
  obtain ⟨st, hst, h1, h2, h3⟩ := hl sigs {} (fun _ => id) rfl rfl (fun _ => rfl)
  obtain ⟨i, t, ht⟩ := (unionMath_found (join := o.join) (d := 0) (done := []) hf).mpr
    ⟨by omega, by simpa using hall⟩
  refine ⟨t, ?_⟩
  have hcond : ((st.similar.isNone || !o.mypy) && args.any wantsUnionMath) = true := by
    rw [hw, Bool.and_true, Bool.or_eq_true]
    cases hmy : o.mypy with
    | false => right; rfl
    | true => left; rw [h3 hmy]; rfl
  unfold call find findOnce
  rw [hst]
  simp only [afterLoop, h1, h2, hcond, if_true, ht]

/-- `def f(x: tuple[Literal[True]]) -> C` and `def f(x: tuple[Literal[False]]) -> D`. -/
def litParams : Demo := fun | 0 => [.tuple [.lit true]] | _ => [.tuple [.lit false]]

/-- **C135**, violation: a `tuple[bool]` is split into `tuple[Literal[True]]` and
`tuple[Literal[False]]`, but the check for union math only looks for unions in tuples, and not for
`bool` or enums.  So a call is reported although each combination has an overload; with one more argument
that is a `bool` it is accepted. -/
theorem tuple_of_bool_violation :
    (∀ c ∈ expand [.tuple [.bool]], Accepted (fun s a => (demo litParams false s a).1) two c) ∧
      call opts (demo litParams) two [.tuple [.bool]] false = some (.any, [.mismatch]) := by
  refine ⟨?_, by decide +kernel⟩
  intro c hc
  have : expand [.tuple [.bool]] = [[.tuple [.lit true]], [.tuple [.lit false]]] := by decide +kernel
  rw [this] at hc
  simp only [List.mem_cons, List.not_mem_nil, or_false] at hc
  rcases hc with rfl | rfl
  · exact ⟨⟨0, .cls 3, false⟩, by simp [two], by
      intro b h
      have : (demo litParams false ⟨0, .cls 3, false⟩ [.tuple [.lit true]]).1 = .yes true := rfl
      exact nomatch this.symm.trans h⟩
  · exact ⟨⟨1, .cls 4, false⟩, by simp [two], by
      intro b h
      have : (demo litParams false ⟨1, .cls 4, false⟩ [.tuple [.lit false]]).1 = .yes true := rfl
      exact nomatch this.symm.trans h⟩

/-- The hypotheses of `combinations_accepted_partial` hold for `A | B`. -/
example : ∃ t, call opts (demo twoParams) two [.union [.cls 1, .cls 2]] false = some (t, []) :=
  combinations_accepted_partial (by simp [Filleds, Filled])
    (by intro s hs; simp [two] at hs; rcases hs with rfl | rfl <;> exact ⟨false, rfl, fun _ => rfl⟩)
    (List.mem_cons_self ..) (.inl ⟨_, rfl⟩) (by decide +kernel) (by
      intro c hc
      have : expand [.union [.cls 1, .cls 2]] = [[.cls 1], [.cls 2]] := by decide +kernel
      rw [this] at hc
      simp only [List.mem_cons, List.not_mem_nil, or_false] at hc
      rcases hc with rfl | rfl
      · exact ⟨⟨0, .cls 3, false⟩, by simp [two], by
          intro b h
          have : (demo twoParams false ⟨0, .cls 3, false⟩ [.cls 1]).1 = .yes true := rfl
          exact nomatch this.symm.trans h⟩
      · exact ⟨⟨1, .cls 4, false⟩, by simp [two], by
          intro b h
          have : (demo twoParams false ⟨1, .cls 4, false⟩ [.cls 2]).1 = .yes true := rfl
          exact nomatch this.symm.trans h⟩)

/-! ## The type without an overload -/

/-- **C136**: outside of the mode of mypy the type without an overload has the values of all return
types. -/
theorem fallback_covers {sigs : List Sig} {s : Sig} (hs : s ∈ sigs) {v : Val} (hv : s.ret.has v) :
    (fallback false sigs).has v := by
  cases sigs with
  | nil => cases hs
  | cons a rest =>
    simp only [fallback, Bool.false_eq_true, if_false]
    split
    · next h =>
      rcases List.mem_cons.mp hs with rfl | hs
      · exact hv
      · have := Ty.eq_of (List.all_eq_true.mp h s hs)
        rw [this]
        exact hv
    · trivial

/-- **C136** (if the return type of the first overload has no unions): in the mode of mypy the type
without an overload has the values of all return types. -/
theorem fallback_mypy_covers_partial {first : Sig} {rest : List Sig} (hn : NoUnion first.ret) {s : Sig}
    (hs : s ∈ first :: rest) {v : Val} (hv : s.ret.has v) : (fallback true (first :: rest)).has v := by
  simp only [fallback, if_true]
  refine merge_fold hn v ?_
  rcases List.mem_cons.mp hs with rfl | hs
  · exact .inl hv
  · exact .inr ⟨s, hs, hv⟩

/-- **C136**, violation: in the mode of mypy the merge of `A | B` and `A | B | C` is `A | B`, so the type
of a call without a matching overload misses `C`. -/
theorem fallback_mypy_violation :
    fallback true [⟨0, .union [.cls 1, .cls 2], false⟩, ⟨1, .union [.cls 1, .cls 2, .cls 3], false⟩] =
        .union [.cls 1, .cls 2] ∧
      Ty.has (.union [.cls 1, .cls 2, .cls 3]) (.obj 3) ∧ ¬ Ty.has (.union [.cls 1, .cls 2]) (.obj 3) :=
  ⟨by decide +kernel, by simp [Ty.has, Ty.hasSome], by simp [Ty.has, Ty.hasSome]⟩

/-- **C136**: if all overloads return the same type, the type without an overload is that type. -/
theorem fallback_same {sigs : List Sig} {t : Ty} (hne : sigs ≠ []) (h : ∀ s ∈ sigs, s.ret = t) :
    fallback false sigs = t := by
  obtain ⟨a, rest, rfl⟩ := List.exists_cons_of_ne_nil hne
  have ha := h a (List.mem_cons_self ..)
  simp only [fallback, Bool.false_eq_true, if_false]
  rw [if_pos, ha]
  rw [List.all_eq_true]
  intro s hs
  rw [ha, h s (List.mem_cons_of_mem _ hs)]
  exact Ty.eq_refl t

example : fallback true [⟨0, .tuple [.cls 1, .cls 2], false⟩, ⟨1, .tuple [.cls 1, .cls 3], false⟩] =
      .tuple [.cls 1, .any] ∧ NoUnion (.tuple [.cls 1, .cls 2]) :=
  ⟨by decide +kernel, by simp [NoUnion, NoUnions]⟩

/-! ## Arguments with `Any` -/

/-- **C137** (if overloads that accept the arguments because of `Any` are ambiguous or have the same
return types): if the arguments stand for other arguments, the type of a call has the values of the
return type of the overload that is chosen for those. -/
theorem any_right_partial {o : Opts} {run : Run} {sigs : List Sig} {args args' : List Ty} {context : Bool}
    (hst : Stands (run context) args args') (hfair : AnyFair (run context) sigs args)
    (herr : ∀ s ∈ sigs, (run context s args).2 = false)
    (hhandled : ∀ s ∈ sigs, (run context s args).1 ≠ .yes false)
    (hmerge : ∀ s, sigs.head? = some s → o.mypy = true → NoUnion s.ret)
    {s : Sig} (hs : First (run context) args' sigs s) :
    ∃ t, call o run sigs args context = some (t, []) ∧ ∀ v, s.ret.has v → t.has v := by
  obtain ⟨before, after, hsig, ⟨h0, hy⟩, hb⟩ := hs
  have hsm : s ∈ sigs := by rw [hsig]; simp
  have hfall : ∀ v, s.ret.has v → (fallback o.mypy sigs).has v := by
    intro v hv
    cases hmy : o.mypy with
    | false => exact fallback_covers hsm hv
    | true =>
      cases hsg : sigs with
      | nil => rw [hsg] at hsm; cases hsm
      | cons a rest =>
        exact fallback_mypy_covers_partial (hmerge a (by rw [hsg]; rfl) hmy) (hsg ▸ hsm) hv
  -- The result of the loop is good for all values of the return type.
  have hgood : ∀ (before : List Sig) (st : State), (∀ t ∈ before, t ∈ sigs) →
      (∀ t ∈ before, ∃ b, (run context t args').1 = .no b) →
      (∀ p, st.anyMatch = some p → p.1 ∈ sigs ∧ (run context p.1 args).1 = .withAny p.2) →
      ∀ v, s.ret.has v → Good v (loop (run context) args (before ++ s :: after) st) := by
    intro before
    induction before with
    | nil =>
      intro st _ _ hp v hv
      rw [List.nil_append, loop]
      have he := herr s hsm
      have hh := hhandled s hsm
      cases hrun : run context s args with
      | mk m e =>
        rw [hrun] at he hh
        simp only at he hh
        subst he
        cases m with
        | no b =>
          obtain ⟨b', hb'⟩ := hst.no s b (by rw [hrun])
          rw [hb'] at hy; cases hy
        | yes h =>
          cases h with
          | false => exact absurd rfl hh
          | true =>
            simp only [Bool.not_true, Bool.false_eq_true, if_false]
            split
            · trivial
            · exact hv
        | withAny is =>
          cases hany : st.anyMatch with
          | none => simp only; exact loop_good after _ (p := (s, is)) rfl hv
          | some p =>
            obtain ⟨hpm, hpr⟩ := hp p hany
            simp only
            split
            · trivial
            · next hcond =>
              have heq : Ty.eq p.1.ret s.ret = true := by
                rcases hfair p.1 hpm s hsm p.2 is hpr (by rw [hrun]) with ⟨i, x, y, hx, hy, hxy⟩ | ha
                · have ha : ambiguous p.2 is = true := by
                    simp only [ambiguous, List.any_eq_true]
                    refine ⟨(i, x), hx, (i, y), hy, ?_⟩
                    have : Ty.eq x y = false := by
                      cases h : Ty.eq x y with
                      | false => rfl
                      | true => exact absurd (Ty.eq_of h) hxy
                    simp [this]
                  simp only [ha, Bool.true_and, Bool.not_eq_true', Bool.not_eq_false,
                    Bool.and_eq_true] at hcond
                  exact hcond.1.1
                · rw [ha]; exact Ty.eq_refl _
              exact loop_good after _ hany (by rw [Ty.eq_of heq]; exact hv)
    | cons t rest ih =>
      intro st hin hb hp v hv
      have hin' := fun t ht => hin t (List.mem_cons_of_mem _ ht)
      have hb' := fun t ht => hb t (List.mem_cons_of_mem _ ht)
      have hn := ih { st with similar := st.similar.or (some t) } hin' hb' hp v hv
      have hk := ih st hin' hb' hp v hv
      have htm := hin t (List.mem_cons_self ..)
      rw [List.cons_append, loop]
      have he := herr t htm
      cases hrun : run context t args with
      | mk m e =>
        rw [hrun] at he
        simp only at he
        subst he
        cases m with
        | no b => cases b <;> assumption
        | yes h =>
          obtain ⟨h', hh⟩ := hst.yes t h (by rw [hrun])
          obtain ⟨b, hb1⟩ := hb t (List.mem_cons_self ..)
          rw [hh] at hb1; cases hb1
        | withAny is =>
          cases hany : st.anyMatch with
          | none =>
            simp only
            refine ih _ hin' hb' ?_ v hv
            intro p hp
            cases hp
            exact ⟨htm, by rw [hrun]⟩
          | some p =>
            simp only
            split
            · trivial
            · exact hk
  have hg := hgood before {} (fun t ht => by rw [hsig]; simp [ht]) hb (by intro p hp; cases hp)
  rw [← hsig] at hg
  -- The call.
  obtain ⟨w1, w2, w3, w4⟩ := loop_within (run := run context) (args := args) sigs {} (fun _ => id)
    (within_empty sigs)
  unfold call find findOnce
  cases hl : loop (run context) args sigs {} with
  | inl r =>
    rw [hl] at hg
    cases r with
    | single u =>
      refine ⟨u.ret, ?_, hg⟩
      have hok : SigMatch.ok (run context u args) = true := by
        have : ∀ (l : List Sig) (st : State), loop (run context) args l st = .inl (.single u) →
            SigMatch.ok (run context u args) = true := by
          intro l
          induction l with
          | nil => intro st h; cases h
          | cons a rest ih =>
            intro st h
            rw [loop] at h
            split at h
            · split at h
              · cases h
              · split at h
                · exact ih _ h
                · next hr _ _ => cases h; rw [hr]; rfl
            · split at h
              · split at h
                · cases h
                · exact ih _ h
              · exact ih _ h
            · exact ih _ h
            · exact ih _ h
        exact this sigs {} hl
      simp [hok]
    | notFound => exact ⟨_, rfl, hfall⟩
    | union t => exact absurd hl (w2 t)
    | panic => exact absurd hl w3
  | inr st =>
    rw [hl] at hg
    by_cases hex : ∃ p, st.anyMatch = some p
    · obtain ⟨p, hp⟩ := hex
      simp only [afterLoop, hp]
      refine ⟨p.1.ret, ?_, ?_⟩
      · have : ∀ (l : List Sig) (st : State),
            (∀ p, st.anyMatch = some p → SigMatch.ok (run context p.1 args) = true) →
            ∀ st', loop (run context) args l st = .inr st' →
            ∀ p, st'.anyMatch = some p → SigMatch.ok (run context p.1 args) = true := by
          intro l
          induction l with
          | nil => intro st h st' he; cases he; exact h
          | cons a rest ih =>
            intro st h st' he
            rw [loop] at he
            split at he
            · split at he
              · cases he
              · split at he
                · exact ih _ (by exact h) st' he
                · cases he
            · next is hr =>
              split at he
              · split at he
                · cases he
                · exact ih _ (by exact h) st' he
              · refine ih _ ?_ st' he
                intro p hp
                cases hp
                rw [hr]; rfl
            · exact ih _ (by exact h) st' he
            · exact ih _ (by exact h) st' he
        simp [this sigs {} (by intro p hp; cases hp) st hl p hp]
      · intro v hv
        obtain ⟨q, hq, hqv⟩ := hg v hv
        rw [hp] at hq
        cases hq
        exact hqv
    · -- Without values nothing shows that an overload was found; the match itself does.
      exfalso
      have hmark : ∀ (l : List Sig) (st st' : State), loop (run context) args l st = .inr st' →
          (∃ p, st.anyMatch = some p) → ∃ p, st'.anyMatch = some p := by
        intro l
        induction l with
        | nil => intro st st' he hp; cases he; exact hp
        | cons a rest ih =>
          intro st st' he hp
          rw [loop] at he
          split at he
          · split at he
            · cases he
            · split at he
              · exact ih _ _ he hp
              · cases he
          · split at he
            · split at he
              · cases he
              · exact ih _ _ he hp
            · exact ih _ _ he ⟨_, rfl⟩
          · exact ih _ _ he hp
          · exact ih _ _ he hp
      have hreach : ∀ (before : List Sig) (st st' : State),
          loop (run context) args (before ++ s :: after) st = .inr st' → ∃ p, st'.anyMatch = some p := by
        intro before
        induction before with
        | nil =>
          intro st st' he
          rw [List.nil_append, loop] at he
          have he1 := herr s hsm
          have hh := hhandled s hsm
          cases hrun : run context s args with
          | mk m e =>
            rw [hrun] at he he1 hh
            simp only at he1 hh
            subst he1
            cases m with
            | no b =>
              obtain ⟨b', hb'⟩ := hst.no s b (by rw [hrun])
              rw [hb'] at hy; cases hy
            | yes h =>
              cases h with
              | false => exact absurd rfl hh
              | true =>
                simp only [Bool.not_true, Bool.false_eq_true, if_false] at he
                split at he <;> cases he
            | withAny is =>
              cases hany : st.anyMatch with
              | none =>
                simp only [hany] at he
                exact hmark _ _ _ he ⟨_, rfl⟩
              | some p =>
                simp only [hany] at he
                split at he
                · cases he
                · exact hmark _ _ _ he ⟨p, hany⟩
        | cons t rest ih =>
          intro st st' he
          rw [List.cons_append, loop] at he
          split at he
          · split at he
            · cases he
            · split at he
              · exact ih _ _ he
              · cases he
          · split at he
            · split at he
              · cases he
              · exact ih _ _ he
            · exact ih _ _ he
          · exact ih _ _ he
          · exact ih _ _ he
      exact hex (hreach before {} st (hsig ▸ hl))

/-- `def f(x: A, y: object) -> C` and `def f(x: object, y: B) -> D`. -/
def mixParams : Demo := fun | 0 => [.cls 1, .cls 0] | _ => [.cls 0, .cls 2]

/-- **C137**, violation: for `f(x: A, y: object) -> C` and `f(x: object, y: B) -> D` a call with two
arguments of type `Any` has the type `C`: both overloads match because of `Any`, but for different
arguments, so the matches do not count as ambiguous and the first one is taken.  With the types `B, B`,
for which the arguments can stand, the second overload is chosen and the call returns `D`. -/
theorem any_mixed_violation :
    call opts (demo mixParams) two [.any, .any] false = some (.cls 3, []) ∧
      call opts (demo mixParams) two [.cls 2, .cls 2] false = some (.cls 4, []) :=
  ⟨by decide +kernel, by decide +kernel⟩

/-- `def f(x: A, y: A) -> C`, `def f(x: B, y: A) -> D` and `def f(x: A, y: B) -> E`. -/
def three : List Sig := [⟨0, .cls 3, false⟩, ⟨1, .cls 4, false⟩, ⟨2, .cls 5, false⟩]

/-- Their parameters. -/
def threeParams : Demo := fun | 0 => [.cls 1, .cls 1] | 1 => [.cls 2, .cls 1] | _ => [.cls 1, .cls 2]

/-- **C137**, violation: union math takes the first overload that accepts a combination, also if it only
accepts it because of `Any`.  For `f(A, A) -> C`, `f(B, A) -> D` and `f(A, B) -> E` a call with `Any` and
`A` is ambiguous and has the type `Any`, but a call with `Any` and `A | B` has the type `C | E`, although
it returns `D` for values of type `B` and `A`. -/
theorem any_union_math_violation :
    call opts (demo threeParams) three [.any, .cls 1] false = some (.any, []) ∧
      call opts (demo threeParams) three [.any, .union [.cls 1, .cls 2]] false =
        some (.union [.union [.union [], .cls 3], .cls 5], []) ∧
      call opts (demo threeParams) three [.cls 2, .cls 1] false = some (.cls 4, []) :=
  ⟨by decide +kernel, by decide +kernel, by decide +kernel⟩

/-- The hypotheses of `any_right_partial` hold for a call of `f(A)` and `f(B)` with `Any`, which can stand
for `B`. -/
example : Stands (demo twoParams false) [.any] [.cls 2] ∧ AnyFair (demo twoParams false) two [.any] ∧
    First (demo twoParams false) [.cls 2] two ⟨1, .cls 4, false⟩ ∧
    call opts (demo twoParams) two [.any] false = some (.any, []) := by
  have ha : ∀ s, ∃ l, (demo twoParams false s [.any]).1 = .withAny l := by
    intro ⟨id, ret, g⟩
    match id with
    | 0 => exact ⟨_, rfl⟩
    | n + 1 => exact ⟨_, rfl⟩
  refine ⟨⟨?_, ?_, ?_⟩, ?_, ⟨[⟨0, .cls 3, false⟩], [], rfl, ⟨true, rfl⟩, ?_⟩, by decide +kernel⟩
  · intro s h hs
    obtain ⟨l, hl⟩ := ha s
    rw [hl] at hs; cases hs
  · intro s h hs
    obtain ⟨l, hl⟩ := ha s
    rw [hl] at hs; cases hs
  · intro ⟨id, ret, g⟩ is
    match id with
    | 0 => intro h; cases h
    | n + 1 => intro h; cases h
  · intro s hs t ht is js h1 h2
    simp only [two, List.mem_cons, List.not_mem_nil, or_false] at hs ht
    rcases hs with rfl | rfl <;> rcases ht with rfl | rfl <;> cases h1 <;> cases h2
    · exact .inr rfl
    · exact .inl ⟨0, .cls 1, .cls 2, by simp [twoParams], by simp [twoParams], by simp⟩
    · exact .inl ⟨0, .cls 2, .cls 1, by simp [twoParams], by simp [twoParams], by simp⟩
    · exact .inr rfl
  · intro t ht
    rw [List.mem_singleton] at ht
    subst ht
    exact ⟨false, rfl⟩

end Verif.Overload
