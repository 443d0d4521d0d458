import Verif.Sub.SubLemmas

/-! # Common base types are wider than both types -/

namespace Verif.Sub

open Verif.Match

variable {V : Type} {w : World} {M : Meaning V} {p q : Nat}

/-- A type that is wider than two others. -/
structure Upper (w : World) (M : Meaning V) (p q : Nat) (r t s : Ty) : Prop where
  left : Within M t r
  right : Within M s r
  good : Good w p q false r

theorem Upper.symm {r t s : Ty} (h : Upper w M p q r t s) : Upper w M p q r s t :=
  ⟨h.right, h.left, h.good⟩

theorem Upper.object (hl : Lawful w M) (ht : Tame w p q) {t s : Ty} :
    Upper w M p q (.cls w.object []) t s :=
  ⟨fun v h => hl.object v t h, fun v h => hl.object v s h, .plain ht.object⟩

theorem Joins.upper {su : Ty → Ty → Ty} (hj : Joins w M p q su) {t s : Ty}
    (gt : Good w p q false t) (gs : Good w p q false s) : Upper w M p q (su t s) t s :=
  ⟨hj.left t s gt gs, hj.right t s gt gs, hj.good t s gt gs⟩

theorem isObject_within (hl : Lawful w M) (ht : Tame w p q) {t s : Ty} (h : s.isObject w = true)
    (gs : Good w p q false s) : Upper w M p q s t s := by
  cases s <;> simp only [Ty.isObject, Bool.false_eq_true, beq_iff_eq] at h
  subst h
  have := gs.noArgs ht.object
  subst this
  exact .object hl ht

theorem bothSides_upper (hl : Lawful w M) (ht : Tame w p q) {su : Ty → Ty → Ty}
    (hj : Joins w M p q su) {t s : Ty} (gt : Good w p q false t) (gs : Good w p q false s) :
    (∀ r, bothSides w su t s t s = some r → Upper w M p q r t s) ∧
    (∀ r, bothSides w su t s s t = some r → Upper w M p q r t s) := by
  have main : ∀ r, some (if s.isObject w then s else su t s) = some r → Upper w M p q r t s := by
    intro r h
    simp only [Option.some.injEq] at h
    split at h
    · subst h
      exact isObject_within hl ht ‹_› gs
    · subst h
      exact hj.upper gt gs
  constructor <;> intro r h <;> unfold bothSides at h <;> split at h
  · exact main r h
  · exact main r h
  · cases gt
  · cases h
    exact ⟨fun v hv => absurd hv (hl.never v), Within.refl _, gs⟩
  · cases h
  · exact main r h
  · exact main r h
  · cases gs
  · cases h
    exact ⟨Within.refl _, fun v hv => absurd hv (hl.never v), gt⟩
  · cases h

theorem firstPair_go_some {f : Ty → Ty → Option (Option Ty)} {t u : Ty} :
    ∀ {ss : List Ty}, firstPair.go f t ss = some (some u) → ∃ s ∈ ss, f t s = some (some u)
  | [], h => by simp [firstPair.go] at h
  | s :: ss, h => by
    simp only [firstPair.go] at h
    cases hf : f t s with
    | none => rw [hf] at h; cases h
    | some o =>
      rw [hf] at h
      cases o with
      | none =>
        obtain ⟨s', h1, h2⟩ := firstPair_go_some h
        exact ⟨s', by simp [h1], h2⟩
      | some x => cases h; exact ⟨s, by simp, hf⟩

theorem firstPair_some {f : Ty → Ty → Option (Option Ty)} {ss : List Ty} {u : Ty} :
    ∀ {ts : List Ty}, firstPair f ss ts = some (some u) →
      ∃ t ∈ ts, ∃ s ∈ ss, f t s = some (some u)
  | [], h => by simp [firstPair] at h
  | t :: ts, h => by
    simp only [firstPair] at h
    cases hf : firstPair.go f t ss with
    | none => rw [hf] at h; cases h
    | some o =>
      rw [hf] at h
      cases o with
      | none =>
        obtain ⟨t', h1, s, h2, h3⟩ := firstPair_some h
        exact ⟨t', by simp [h1], s, h2, h3⟩
      | some x =>
        cases h
        obtain ⟨s, h1, h2⟩ := firstPair_go_some hf
        exact ⟨t, by simp, s, h1, h2⟩

theorem promotesTo_within (hl : Lawful w M) (ht : Tame w p q) : ∀ {n c d : Nat},
    promotesTo w n c d = some true →
    (∀ as, Within M (.cls c as) (.cls d [])) ∧ (w.cls d).params = []
  | 0, c, d, h => by simp [promotesTo] at h
  | n + 1, c, d, h => by
    simp only [promotesTo] at h
    split at h
    · rename_i e he
      split at h
      · rename_i hd
        subst hd
        exact ⟨fun as v hv => hl.promote v c as _ he hv, ht.promote _ _ he⟩
      · have := promotesTo_within hl ht h
        exact ⟨fun as v hv => this.1 [] v (hl.promote v c as e he hv), this.2⟩
    · cases h

/-- What the type arguments of a common base class are like. -/
theorem baseArgs_fits {same : Ty → Ty → Option Match} {base : Ty → Ty → Option Ty}
    {sub : Ty → Ty → Option (Option Ty)}
    (hs : ∀ a b m, Good w p q true a → Good w p q true b → same a b = some m → m.bool = true →
      Within M a b ∧ Within M b a)
    (hb : ∀ a b r, Good w p q false a → Good w p q false b → base a b = some r →
      Upper w M p q r a b)
    (hc : ∀ a b r, Good w p q false a → Good w p q false b → sub a b = some (some r) →
      Lower w M p q r a b) :
    ∀ {vs : List Variance} {as bs us : List Ty}, as.length = vs.length → bs.length = vs.length →
    (∀ (k : Nat) a v, as[k]? = some a → vs[k]? = some v → Good w p q (decide (v = .inv)) a) →
    (∀ (k : Nat) a v, bs[k]? = some a → vs[k]? = some v → Good w p q (decide (v = .inv)) a) →
    baseArgs same base sub vs as bs = some (some us) →
    us.length = vs.length ∧
    (∀ (k : Nat) u v, us[k]? = some u → vs[k]? = some v → Good w p q (decide (v = .inv)) u) ∧
    (∀ (k : Nat) v a u, vs[k]? = some v → as[k]? = some a → us[k]? = some u → Fits M v a u) ∧
    (∀ (k : Nat) v b u, vs[k]? = some v → bs[k]? = some b → us[k]? = some u → Fits M v b u)
  | [], [], [], us, _, _, _, _, h => by
    simp only [baseArgs, Option.some.injEq] at h
    subst h
    exact ⟨rfl, fun k u v hu => by simp at hu, fun k v a u hv => by simp at hv,
      fun k v a u hv => by simp at hv⟩
  | [], _ :: _, _, _, h1, _, _, _, _ => by simp at h1
  | [], _, _ :: _, _, _, h1, _, _, _ => by simp at h1
  | _ :: _, [], _, _, h1, _, _, _, _ => by simp at h1
  | _ :: _, _, [], _, _, h1, _, _, _ => by simp at h1
  | v :: vs, a :: as, b :: bs, us, h1, h2, ga, gb, h => by
    have ga0 := ga 0 a v rfl rfl
    have gb0 := gb 0 b v rfl rfl
    have key : ∀ u us', baseArgs same base sub vs as bs = some (some us') → us = u :: us' →
        Good w p q (decide (v = .inv)) u → Fits M v a u → Fits M v b u →
        us.length = (v :: vs).length ∧
        (∀ (k : Nat) u r, us[k]? = some u → (v :: vs)[k]? = some r →
          Good w p q (decide (r = .inv)) u) ∧
        (∀ (k : Nat) r a' u, (v :: vs)[k]? = some r → (a :: as)[k]? = some a' → us[k]? = some u →
          Fits M r a' u) ∧
        (∀ (k : Nat) r b' u, (v :: vs)[k]? = some r → (b :: bs)[k]? = some b' → us[k]? = some u →
          Fits M r b' u) := by
      intro u us' hu he g f1 f2
      subst he
      obtain ⟨i1, i2, i3, i4⟩ := baseArgs_fits hs hb hc (by simpa using h1) (by simpa using h2)
        (fun k a v ha hv => ga (k + 1) a v (by simpa using ha) (by simpa using hv))
        (fun k a v ha hv => gb (k + 1) a v (by simpa using ha) (by simpa using hv)) hu
      refine ⟨by simp [i1], fun k u' r hu hr => ?_, fun k r a' u' hr ha hu => ?_,
        fun k r b' u' hr hb hu => ?_⟩
      · cases k with
        | zero =>
          simp only [List.getElem?_cons_zero, Option.some.injEq] at hu hr
          subst hu hr; exact g
        | succ k => exact i2 k u' r (by simpa using hu) (by simpa using hr)
      · cases k with
        | zero =>
          simp only [List.getElem?_cons_zero, Option.some.injEq] at hu hr ha
          subst hu hr ha; exact f1
        | succ k => exact i3 k r a' u' (by simpa using hr) (by simpa using ha) (by simpa using hu)
      · cases k with
        | zero =>
          simp only [List.getElem?_cons_zero, Option.some.injEq] at hu hr hb
          subst hu hr hb; exact f2
        | succ k => exact i4 k r b' u' (by simpa using hr) (by simpa using hb) (by simpa using hu)
    have rest : ∀ o : Option Ty, (match o with
        | none => some none
        | some u => (baseArgs same base sub vs as bs).map (Option.map (u :: ·))) = some (some us) →
        ∃ u us', o = some u ∧ baseArgs same base sub vs as bs = some (some us') ∧ us = u :: us' := by
      intro o ho
      cases o with
      | none => cases ho
      | some u =>
        simp only [Option.map_eq_some_iff] at ho
        obtain ⟨o, e1, us', rfl, rfl⟩ := ho
        exact ⟨u, us', rfl, e1, rfl⟩
    simp only [baseArgs] at h
    obtain ⟨o, ho, h⟩ := Option.bind_eq_some_iff.mp h
    obtain ⟨u, us', rfl, e1, e2⟩ := rest o h
    cases v with
    | inv =>
      simp only [Option.map_eq_some_iff] at ho
      obtain ⟨m, hm, ho⟩ := ho
      have ga1 : Good w p q true a := by simpa using ga0
      have gb1 : Good w p q true b := by simpa using gb0
      split at ho
      · cases ho
        have := hs a b _ ga1 gb1 hm rfl
        exact key _ us' e1 e2 (by simpa using ga1) ⟨Within.refl _, Within.refl _⟩ ⟨this.2, this.1⟩
      · cases ho
        have := hs a b _ ga1 gb1 hm rfl
        exact key _ us' e1 e2 (by simpa using gb1) this ⟨Within.refl _, Within.refl _⟩
      · cases ho
    | cov =>
      simp only [Option.map_eq_some_iff, Option.some.injEq] at ho
      obtain ⟨r, hr, rfl⟩ := ho
      have := hb a b _ (by simpa using ga0) (by simpa using gb0) hr
      exact key _ us' e1 e2 (by simpa using this.good) this.left this.right
    | contra =>
      have := hc a b _ (by simpa using ga0) (by simpa using gb0) ho
      exact key _ us' e1 e2 (by simpa using this.good) this.left this.right

theorem baseZip_some {f : Ty → Ty → Option Ty} :
    ∀ {ts ss us : List Ty}, baseZip f ts ss = some us → ts.length = ss.length →
    us.length = ts.length ∧ ∀ (k : Nat) t s, ts[k]? = some t → ss[k]? = some s →
      ∃ u, us[k]? = some u ∧ f t s = some u
  | [], [], us, h, _ => by
    simp only [baseZip, Option.some.injEq] at h
    subst h
    exact ⟨rfl, fun k t s ht => by simp at ht⟩
  | [], _ :: _, _, _, hn => by simp at hn
  | _ :: _, [], _, _, hn => by simp at hn
  | t :: ts, s :: ss, us, h, hn => by
    simp only [baseZip] at h
    obtain ⟨u, hr, h⟩ := Option.bind_eq_some_iff.mp h
    obtain ⟨us', h3, rfl⟩ := Option.map_eq_some_iff.mp h
    obtain ⟨h4, h5⟩ := baseZip_some h3 (by simpa using hn)
    refine ⟨by simp [h4], fun k t' s' ht hs => ?_⟩
    cases k with
    | zero =>
      simp only [List.getElem?_cons_zero, Option.some.injEq] at ht hs
      subst ht hs
      exact ⟨u, rfl, hr⟩
    | succ k => exact h5 k t' s' (by simpa using ht) (by simpa using hs)

theorem baseFold_upper {f : Ty → Ty → Option Ty}
    (hf : ∀ a b r, Good w p q false a → Good w p q false b → f a b = some r →
      Upper w M p q r a b) :
    ∀ {ts : List Ty} {o : Option Ty} {u : Ty}, (∀ x, o = some x → Good w p q false x) →
    (∀ t ∈ ts, Good w p q false t) → baseFold f o ts = some u →
    Good w p q false u ∧ (∀ x, o = some x → Within M x u) ∧ ∀ t ∈ ts, Within M t u
  | [], o, u, ho, _, h => by
    simp only [baseFold, Option.some.injEq] at h
    subst h
    cases o with
    | none => exact ⟨.never, by simp, by simp⟩
    | some x => exact ⟨ho x rfl, fun y hy => by cases hy; exact Within.refl _, by simp⟩
  | t :: ts, none, u, ho, gt, h => by
    simp only [baseFold] at h
    obtain ⟨h1, h2, h3⟩ := baseFold_upper hf (fun x hx => by cases hx; exact gt t (by simp))
      (fun t ht => gt t (by simp [ht])) h
    refine ⟨h1, by simp, fun t' ht' => ?_⟩
    rcases List.mem_cons.mp ht' with rfl | ht'
    · exact h2 _ rfl
    · exact h3 t' ht'
  | t :: ts, some x, u, ho, gt, h => by
    simp only [baseFold] at h
    obtain ⟨r, hr, h⟩ := Option.bind_eq_some_iff.mp h
    have hu := hf x t r (ho x rfl) (gt t (by simp)) hr
    obtain ⟨h1, h2, h3⟩ := baseFold_upper hf (fun y hy => by cases hy; exact hu.good)
      (fun t ht => gt t (by simp [ht])) h
    refine ⟨h1, fun y hy => ?_, fun t' ht' => ?_⟩
    · cases hy
      exact hu.left.trans (h2 r rfl)
    · rcases List.mem_cons.mp ht' with rfl | ht'
      · exact hu.right.trans (h2 r rfl)
      · exact h3 t' ht'

end Verif.Sub
