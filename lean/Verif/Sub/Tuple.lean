import Verif.Sub.Step

/-! # Accepted tuples are within -/

namespace Verif.Sub

open Verif.Match

variable {V : Type} {w : World} {M : Meaning V} {p q n : Nat}

theorem fits_fixed (hl : Lawful w M) {v : Variance} {ts ss : List Ty} (hv : v ≠ .contra)
    (hlen : ts.length = ss.length)
    (h : ∀ (k : Nat) a b, ts[k]? = some a → ss[k]? = some b → Fits M v b a) :
    Fits M v (.fixed ss) (.fixed ts) := by
  have gen : ∀ {xs ys : List Ty}, xs.length = ys.length →
      (∀ (k : Nat) a b, xs[k]? = some a → ys[k]? = some b → Within M a b) →
      Within M (.fixed xs) (.fixed ys) := by
    intro xs ys hlen h x hx
    obtain ⟨vs, h1, h2⟩ := (hl.fixed x xs).mp hx
    exact (hl.fixed x ys).mpr ⟨vs, h1, each_map h2 hlen h⟩
  cases v with
  | contra => exact absurd rfl hv
  | cov => exact gen hlen.symm (fun k a b ha hb => h k b a hb ha)
  | inv => exact ⟨gen hlen.symm (fun k a b ha hb => (h k b a hb ha).1),
      gen hlen (fun k a b ha hb => (h k a b ha hb).2)⟩

theorem fits_arb (hl : Lawful w M) {v : Variance} {a b : Ty} (hv : v ≠ .contra)
    (h : Fits M v b a) : Fits M v (.arb b) (.arb a) := by
  have gen : ∀ {a b : Ty}, Within M a b → Within M (.arb a) (.arb b) := by
    intro a b h x hx
    obtain ⟨vs, h1, h2⟩ := (hl.arb x a).mp hx
    exact (hl.arb x b).mpr ⟨vs, h1, fun y hy => h y (h2 y hy)⟩
  cases v with
  | contra => exact absurd rfl hv
  | cov => exact gen h
  | inv => exact ⟨gen h.1, gen h.2⟩

theorem isTuple_unpack {i : Bool} {a c : List Ty} {b : Ty} (h : Good w p q i (.unpack a b c)) :
    i = false := by
  cases h; rfl

theorem matchTuple_step (hl : Lawful w M) (hn : Sound w M p q n) (v : Variance)
    (rev : Bool) (t s : Ty) (m : Match) (hv : v ≠ .contra)
    (gt : Good w p q (decide (v = .inv)) t) (gs : Good w p q (decide (v = .inv)) s)
    (h : matchTuple w (n + 1) v rev t s = some m) (hm : m.bool = true) : Fits M v s t := by
  have cov : decide (v = .inv) = false → v = .cov := by
    intro h
    cases v
    · rfl
    · exact absurd rfl hv
    · simp at h
  unfold matchTuple at h
  split at h
  · rename_i ts ss
    split at h
    · rename_i hlen
      refine fits_fixed hl hv hlen (fun k a b ha hb => ?_)
      obtain ⟨m', e1, e2⟩ := (zipM_true h hm).2 k a b ha hb
      refine hn.matches v rev a b m' ?_ ?_ e1 e2
      · generalize decide (v = Variance.inv) = i at gt gs ⊢
        cases gt with
        | fixed g => exact g a (List.mem_of_getElem? ha)
      · generalize decide (v = Variance.inv) = i at gt gs ⊢
        cases gs with
        | fixed g => exact g b (List.mem_of_getElem? hb)
    · cases h; cases hm
  · refine fits_arb hl hv (hn.matches v rev _ _ m ?_ ?_ h hm)
    · generalize decide (v = Variance.inv) = i at gt gs ⊢
      cases gt with
      | arb g => exact g
    · generalize decide (v = Variance.inv) = i at gt gs ⊢
      cases gs with
      | arb g => exact g
  · have hc := cov (isTuple_unpack gt)
    subst hc
    exact hn.matchUnpack rev _ _ _ _ m gt gs h hm
  · rename_i a pre mid post
    have hc := cov (isTuple_unpack gs)
    subst hc
    intro x hx
    obtain ⟨xs, ys, zs, h1, h2, h3, h4⟩ := (hl.unpack x pre mid post).mp hx
    have key : ∀ b ∈ pre ++ mid :: post, Within M b a := by
      intro b hb
      obtain ⟨m', e1, e2⟩ := (foldM_true h hm).2 b hb
      have gb : Good w p q false b := by
        cases gs with
        | unpack _ _ _ g1 g2 g3 =>
          rcases List.mem_append.mp hb with hb | hb
          · exact g1 b hb
          · rcases List.mem_cons.mp hb with rfl | hb
            · exact g2
            · exact g3 b hb
      cases gt with
      | arb g => exact hn.matches .cov rev a b m' g gb e1 e2
    refine (hl.arb x a).mpr ⟨_, h1, fun y hy => ?_⟩
    rcases List.mem_append.mp hy with hy | hy
    · rcases List.mem_append.mp hy with hy | hy
      · obtain ⟨b, hb, hyb⟩ := each_mem h2 y hy
        exact key b (by simp [hb]) y hyb
      · exact key mid (by simp) y (h3 y hy)
    · obtain ⟨b, hb, hyb⟩ := each_mem h4 y hy
      exact key b (by simp [hb]) y hyb
  · rename_i b
    have hna : b.isAny = false := by
      generalize decide (v = Variance.inv) = i at gs
      cases gs with
      | arb g => exact g.noAny
    cases h
    rw [hna] at hm
    cases hm
  · rename_i a ss
    have ga : Good w p q (decide (v = .inv)) a := by
      generalize decide (v = Variance.inv) = i at gt ⊢
      cases gt with
      | arb g => exact g
    split at h
    · cases h
      rw [ga.noAny] at hm
      cases hm
    · rename_i hni
      have hc := cov (by simp [hni])
      subst hc
      cases hr : allB (fun b => «matches» w n .cov rev a b) ss with
      | none => rw [hr] at h; cases h
      | some r =>
        rw [hr] at h
        simp only [Option.map_some, Option.some.injEq] at h
        subst h
        have hr' := ofBool_true.mp hm
        subst hr'
        intro x hx
        obtain ⟨vs, h1, h2⟩ := (hl.fixed x ss).mp hx
        refine (hl.arb x a).mpr ⟨vs, h1, fun y hy => ?_⟩
        obtain ⟨b, hb, hyb⟩ := each_mem h2 y hy
        obtain ⟨m', e1, e2⟩ := allB_true hr b hb
        cases gs with
        | fixed g => exact hn.matches .cov rev a b m' ga (g b hb) e1 e2 y hyb
  · cases h; cases hm

theorem getElem?_reverse_of {α : Type} {l l' : List α} (hlen : l.length = l'.length) {k : Nat}
    {a b : α} (ha : l[k]? = some a) (hb : l'[k]? = some b) :
    l.reverse[l.length - 1 - k]? = some a ∧ l'.reverse[l.length - 1 - k]? = some b := by
  have hk : k < l.length := (List.getElem?_eq_some_iff.mp ha).1
  have hk' : k < l'.length := (List.getElem?_eq_some_iff.mp hb).1
  constructor
  · rw [List.getElem?_reverse (by omega)]
    rw [← ha]; congr 1; omega
  · rw [List.getElem?_reverse (by omega)]
    rw [← hb]; congr 1; omega

theorem take_drop_parts {α : Type} (ss : List α) (i j : Nat) :
    ss = ss.take i ++ ((ss.drop i).take (ss.length - i - j) ++
      (ss.drop i).drop (ss.length - i - j)) := by
  rw [List.take_append_drop, List.take_append_drop]

theorem matchUnpack_step (hl : Lawful w M) (hn : Sound w M p q n)
    (rev : Bool) (a : List Ty) (b : Ty) (c : List Ty) (s : Ty) (m : Match)
    (gt : Good w p q false (.unpack a b c)) (gs : Good w p q false s)
    (h : matchUnpack w (n + 1) .cov rev a b c s = some m) (hm : m.bool = true) :
    Within M s (.unpack a b c) := by
  cases gt with
  | unpack g0 g1 g2 g3 g4 g5 =>
  unfold matchUnpack at h
  split at h
  · rename_i ss
    cases gs with
    | fixed gs =>
    cases h1 : zipM (fun a b => «matches» w n .cov rev a b) .newTrue a ss with
    | none => rw [h1] at h; cases h
    | some r1 =>
      rw [h1] at h
      simp only [Option.bind_some] at h
      cases h2 : zipM (fun a b => «matches» w n .cov rev a b) r1 c.reverse
          (ss.drop a.length).reverse with
      | none => rw [h2] at h; cases h
      | some r2 =>
        rw [h2] at h
        simp only [Option.bind_some] at h
        split at h
        · cases h; cases hm
        · rename_i hlen
          simp only [gt_iff_lt, Nat.not_lt] at hlen
          obtain ⟨e1, e2⟩ := foldM_true h hm
          obtain ⟨e3, e4⟩ := zipM_true h2 e1
          obtain ⟨_, e5⟩ := zipM_true h1 e3
          intro x hx
          obtain ⟨vs, i1, i2⟩ := (hl.fixed x ss).mp hx
          rw [take_drop_parts ss a.length c.length] at i2
          obtain ⟨xs, rest, rfl, i3, i4⟩ := each_split i2
          obtain ⟨ys, zs, rfl, i5, i6⟩ := each_split i4
          refine (hl.unpack x a b c).mpr ⟨xs, ys, zs, by simpa [List.append_assoc] using i1, ?_, ?_, ?_⟩
          · refine each_map i3 (by simp; omega) (fun k s t hs ht => ?_)
            have hs' : ss[k]? = some s := by
              rw [List.getElem?_take] at hs
              split at hs
              · exact hs
              · cases hs
            obtain ⟨m', f1, f2⟩ := e5 k t s ht hs'
            exact hn.matches .cov rev t s m' (g3 t (List.mem_of_getElem? ht))
              (gs s (List.mem_of_getElem? hs')) f1 f2
          · intro y hy
            obtain ⟨t, j1, j2⟩ := each_mem i5 y hy
            obtain ⟨m', f1, f2⟩ := e2 t j1
            exact hn.matches .cov rev b t m' g4
              (gs t (List.mem_of_mem_drop (List.mem_of_mem_take j1))) f1 f2 y j2
          · have hcl : ((ss.drop a.length).drop (ss.length - a.length - c.length)).length
                = c.length := by simp; omega
            refine each_map i6 hcl (fun k s t hs ht => ?_)
            have hsm : s ∈ ss := List.mem_of_mem_drop (List.mem_of_mem_drop (List.mem_of_getElem? hs))
            have hk : k < c.length := (List.getElem?_eq_some_iff.mp ht).1
            have ht' : c.reverse[c.length - 1 - k]? = some t := by
              rw [List.getElem?_reverse (by omega), ← ht]; congr 1; omega
            have hs' : (ss.drop a.length).reverse[c.length - 1 - k]? = some s := by
              rw [List.getElem?_reverse (by simp; omega)]
              rw [List.getElem?_drop] at hs
              rw [← hs]
              congr 1
              simp only [List.length_drop]
              omega
            obtain ⟨m', f1, f2⟩ := e4 _ t s ht' hs'
            exact hn.matches .cov rev t s m' (g5 t (List.mem_of_getElem? ht)) (gs s hsm) f1 f2
  · rename_i pre2 mid2 post2
    cases gs with
    | unpack _ l1 l2 k3 k4 k5 =>
    cases h1 : zipM (fun a b => «matches» w n .cov rev a b) .newTrue a pre2 with
    | none => rw [h1] at h; cases h
    | some r1 =>
      rw [h1] at h
      simp only [Option.bind_some] at h
      cases h2 : zipM (fun a b => «matches» w n .cov rev a b) r1 c.reverse post2.reverse with
      | none => rw [h2] at h; cases h
      | some r2 =>
        rw [h2] at h
        simp only [Option.bind_some] at h
        obtain ⟨e1, e2⟩ := foldM_true h hm
        obtain ⟨e3, e4⟩ := zipM_true h2 e1
        obtain ⟨_, e5⟩ := zipM_true h1 e3
        intro x hx
        obtain ⟨xs, ys, zs, i1, i2, i3, i4⟩ := (hl.unpack x _ _ _).mp hx
        refine (hl.unpack x a b c).mpr ⟨xs, ys, zs, i1, ?_, ?_, ?_⟩
        · refine each_map i2 (by omega) (fun k s t hs ht => ?_)
          obtain ⟨m', f1, f2⟩ := e5 k t s ht hs
          exact hn.matches .cov rev t s m' (g3 t (List.mem_of_getElem? ht))
            (k3 s (List.mem_of_getElem? hs)) f1 f2
        · intro y hy
          obtain ⟨m', f1, f2⟩ := e2 mid2 (by simp)
          exact hn.matches .cov rev b mid2 m' g4 k4 f1 f2 y (i3 y hy)
        · refine each_map i4 (by omega) (fun k s t hs ht => ?_)
          obtain ⟨q1, q2⟩ := getElem?_reverse_of (by omega) ht hs
          obtain ⟨m', f1, f2⟩ := e4 _ t s q1 q2
          exact hn.matches .cov rev t s m' (g5 t (List.mem_of_getElem? ht))
            (k5 s (List.mem_of_getElem? hs)) f1 f2
  · cases gs with
    | arb g =>
      rw [if_neg (by simp [g.noAny])] at h
      cases h
      have := ofBool_true.mp hm
      simp only [Bool.and_eq_true, List.isEmpty_iff] at this
      obtain ⟨rfl, rfl⟩ := this
      simp only [List.length_nil] at g1 g2
      omega
  · cases h; cases hm

theorem internal_step (hl : Lawful w M) (ht : Tame w p q) (hn : Sound w M p q n) (v : Variance)
    (rev : Bool) (t s : Ty) (m : Match) (hv : v ≠ .contra)
    (gt : Good w p q (decide (v = .inv)) t) (gs : Good w p q (decide (v = .inv)) s)
    (h : internal w (n + 1) v rev t s = some m) (hm : m.bool = true) : Fits M v s t := by
  have cov : decide (v = .inv) = false → v = .cov := by
    intro h
    cases v
    · rfl
    · exact absurd rfl hv
    · simp at h
  have same : s = t → Fits M v s t := by
    rintro rfl
    cases v
    · exact Within.refl _
    · exact Within.refl _
    · exact ⟨Within.refl _, Within.refl _⟩
  have gt0 := gt
  have gs0 := gs
  generalize hi : decide (v = Variance.inv) = i at gt gs
  unfold internal at h
  cases gt with
  | cls _ _ => exact hn.classVsType v rev _ _ s m hv gt0 gs0 h hm
  | never =>
    simp only [Option.some.injEq] at h
    subst h
    have := ofBool_true.mp hm
    cases gs <;> simp [Ty.isNever] at this
    exact same rfl
  | none =>
    simp only [ht.strict, Bool.not_true, Bool.false_and, Bool.or_false, Option.some.injEq] at h
    subst h
    have := ofBool_true.mp hm
    cases gs <;> simp [Ty.isNone] at this
    exact same rfl
  | lit l =>
    simp only at h
    split at h
    · cases h
      have := ofBool_true.mp hm
      simp only [decide_eq_true_eq] at this
      exact same (by rw [this])
    · cases h; cases hm
  | newType k =>
    simp only at h
    split at h
    · cases h
      have := ofBool_true.mp hm
      simp only [beq_iff_eq] at this
      exact same (by rw [this])
    · cases h; cases hm
  | fixed _ =>
    simp only at h
    split at h
    all_goals first
      | (cases h; cases hm; done)
      | (obtain ⟨r, hr, rfl⟩ := Option.map_eq_some_iff.mp h
         rw [similar_true] at hm
         exact hn.matchTuple v rev _ _ r hv gt0 gs0 hr hm)
  | arb _ =>
    simp only at h
    split at h
    all_goals first
      | (cases h; cases hm; done)
      | (obtain ⟨r, hr, rfl⟩ := Option.map_eq_some_iff.mp h
         rw [similar_true] at hm
         exact hn.matchTuple v rev _ _ r hv gt0 gs0 hr hm)
  | unpack _ _ _ _ _ _ =>
    simp only at h
    split at h
    all_goals first
      | (cases h; cases hm; done)
      | (obtain ⟨r, hr, rfl⟩ := Option.map_eq_some_iff.mp h
         rw [similar_true] at hm
         exact hn.matchTuple v rev _ _ r hv gt0 gs0 hr hm)
  | @data _ c as g1 g2 g3 =>
    simp only at h
    split at h
    · rename_i d bs
      cases gs with
      | data k1 k2 k3 =>
      have weak : ∀ {e : Nat} {xs : List Ty}, (i = true → ∀ v ∈ (w.cls e).params, v = .inv) →
          (∀ (k : Nat) a (r : Variance), xs[k]? = some a → (w.cls e).params[k]? = some r →
            Good w p q (i || decide (r = .inv)) a) →
          ∀ (k : Nat) a r, xs[k]? = some a → (w.cls e).params[k]? = some r →
            Good w p q (decide (Variance.cov = .inv) || decide (r = .inv)) a := by
        intro e xs q2 q3 k a r ha hr
        have := q3 k a r ha hr
        cases i with
        | false => exact this
        | true =>
          have hri := q2 rfl r (List.mem_of_getElem? hr)
          subst hri
          simpa using this
      obtain ⟨rfl, h1⟩ := hn.matchesClass .cov rev c as d bs m (by simp) (weak g2 g3)
        (weak k2 k3) h hm
      have w1 : Within M (.data c bs) (.data c as) := fun x hx =>
        hl.dataArgs x c bs as (k1.trans g1.symm) (fun k r a b hr ha hb => h1 k r b a hr hb ha) hx
      cases v with
      | cov => exact w1
      | contra => exact absurd rfl hv
      | inv =>
        simp only [decide_true] at hi
        refine ⟨w1, fun x hx =>
          hl.dataArgs x c as bs (g1.trans k1.symm) (fun k r a b hr ha hb => ?_) hx⟩
        have hri := g2 hi.symm r (List.mem_of_getElem? hr)
        subst hri
        have := h1 k .inv a b hr ha hb
        exact ⟨this.2, this.1⟩
    · cases h; cases hm
  | @union _ us g1 g2 g3 =>
    simp only at h
    split at h
    · rename_i hvi
      subst hvi
      cases h1 : isSuper w n rev (.union us) s with
      | none => rw [h1] at h; cases h
      | some r1 =>
        rw [h1] at h
        simp only [Option.bind_some] at h
        cases h2 : isSuper w n (!rev) s (.union us) with
        | none => rw [h2] at h; cases h
        | some r2 =>
          rw [h2] at h
          simp only [Option.map_some, Option.some.injEq] at h
          subst h
          obtain ⟨e1, e2⟩ := and_true.mp hm
          exact ⟨hn.super _ _ _ r1 gt0.weaken gs0.weaken h1 e1,
            hn.super _ _ _ r2 gs0.weaken gt0.weaken h2 e2⟩
    · rename_i hni
      have hc := cov (by simp [hni])
      subst hc
      exact hn.unionSuper rev us s m gt0 gs0 h hm
  | @type t1 gt1 =>
    have hc := cov hi
    subst hc
    simp only at h
    split at h
    · rename_i t2
      split at h
      · cases h; cases hm
      · obtain ⟨r, hr, rfl⟩ := Option.map_eq_some_iff.mp h
        have hrb : r.bool = true := by
          split at hm
          · exact hm
          · rwa [similar_true] at hm
        cases gs with
        | type g2 =>
          have := hn.matches .cov rev t1 t2 r gt1 g2 hr hrb
          exact fun x hx => hl.type x t2 t1 this hx
    · split at h
      · rename_i us2 _ us
        cases gt1 with
        | union g1 g2 g3 =>
          have gu : Good w p q false (.union (us.map .type)) := by
            refine .union (by simpa using g1) ?_ ?_
            · exact List.Pairwise.map _ (fun a b hab h => hab (by simpa using h)) g2
            · intro t ht
              obtain ⟨t', h3, rfl⟩ := List.mem_map.mp ht
              exact .type (g3 t' h3)
          have hw := hn.internal .cov rev _ _ m (by simp) gu gs0 h hm
          intro x hx
          obtain ⟨t, k1, k2⟩ := (hl.union x _).mp (hw x hx)
          obtain ⟨t', k3, rfl⟩ := List.mem_map.mp k1
          exact hl.type x t' _ (fun y hy => (hl.union y us).mpr ⟨t', k3, hy⟩) k2
      · cases h; cases hm
    · cases h
      rw [gt1.noAny] at hm
      cases hm
    · cases h; cases hm

/-- Whatever the fuel, accepted types are within. -/
theorem sound (hl : Lawful w M) (ht : Tame w p q) : ∀ n, Sound w M p q n
  | 0 => sound_zero
  | n + 1 =>
    have hn := sound hl ht n
    { super := super_step hl ht hn
      same := same_step hn
      «matches» := matches_step hn
      promotion := fun rev t s m hnom gt _ h hm => promotion_step hl ht hn rev t s m hnom gt h hm
      promoted := promoted_step hl ht hn
      other := other_step hl ht hn
      unionSuper := unionSuper_step hl hn
      matchesClass := matchesClass_step ht hn
      classVsType := classVsType_step hl ht hn
      matchTuple := matchTuple_step hl hn
      matchUnpack := matchUnpack_step hl hn
      internal := internal_step hl ht hn }

end Verif.Sub
