import Verif.Sub.BaseLemmas

/-! # Common base types are wider than both types: all functions together -/

namespace Verif.Sub

open Verif.Match

variable {V : Type} {w : World} {M : Meaning V} {p q n : Nat} {su : Ty → Ty → Ty}

/-- What is known about results with some fuel. -/
structure BaseOk (w : World) (M : Meaning V) (p q : Nat) (su : Ty → Ty → Ty) (n : Nat) : Prop where
  base : ∀ seen t s r, Good w p q false t → Good w p q false s →
    commonBase w su n seen t s = some r → Upper w M p q r t s
  pair : ∀ seen b t s r, Good w p q false t → Good w p q false s →
    basePair w su n seen b t s = some (some r) → Upper w M p q r t s
  cls : ∀ seen c as d bs r, Good w p q false (.cls c as) → Good w p q false (.cls d bs) →
    baseClass w su n seen c as d bs = some (some r) → Upper w M p q r (.cls c as) (.cls d bs)
  tuple : ∀ seen t s r, t.nominal = true → t.isClass = false → s.nominal = true →
    s.isClass = false → (∀ c as, t ≠ .data c as) → (∀ c as, s ≠ .data c as) →
    Good w p q false t → Good w p q false s →
    baseTuple w su n seen t s = some r → Upper w M p q r t s

theorem base_step (hl : Lawful w M) (ht : Tame w p q) (hj : Joins w M p q su)
    (hn : BaseOk w M p q su n) (seen : List (Ty × Ty)) (t s r : Ty)
    (gt : Good w p q false t) (gs : Good w p q false s)
    (h : commonBase w su (n + 1) seen t s = some r) : Upper w M p q r t s := by
  unfold commonBase at h
  split at h
  · cases h; exact .object hl ht
  · split at h
    · rename_i hb
      cases h
      exact (bothSides_upper hl ht hj gt gs).1 _ hb
    · split at h
      · rename_i hb
        cases h
        exact (bothSides_upper hl ht hj gt gs).2 _ hb
      · obtain ⟨o, h1, h2⟩ := Option.map_eq_some_iff.mp h
        split at h2
        · cases h2
          obtain ⟨a, ha, b, hb, hf⟩ := firstPair_some h1
          obtain ⟨wa, ga⟩ := mro_within hl ht gt ha
          obtain ⟨wb, gb⟩ := mro_within hl ht gs hb
          have := hn.pair _ _ a b _ ga gb hf
          exact ⟨wa.trans this.left, wb.trans this.right, this.good⟩
        · split at h2
          · rename_i hp
            cases h2
            simp only [Bool.and_eq_true] at hp
            exact ⟨Within.refl _, hl.structural _ _ hp.2, gt⟩
          · split at h2
            · rename_i hp
              cases h2
              simp only [Bool.and_eq_true] at hp
              exact ⟨hl.structural _ _ hp.2, Within.refl _, gs⟩
            · cases h2; exact .object hl ht

/-- Two types of the same kind that are the same. -/
theorem same_upper (hl : Lawful w M) (ht : Tame w p q) {a b : Ty} {m : Match}
    (ga : Good w p q false a) (gb : Good w p q false b) (h1 : ∀ c as, a ≠ .cls c as)
    (h2 : ∀ t, a ≠ .type t) (h3 : ∀ ts, a ≠ .fixed ts) (h4 : ∀ t, a ≠ .arb t)
    (h5 : ∀ x y z, a ≠ .unpack x y z) (h : isSame w n false a b = some m) (hm : m.bool = true) :
    Within M b a := by
  cases n with
  | zero => simp [isSame] at h
  | succ n =>
    simp only [isSame] at h
    obtain ⟨r, hr, h⟩ := Option.bind_eq_some_iff.mp h
    rcases orM_true h hm with hb | ⟨m', h6, h7⟩
    · cases n with
      | zero => simp [internal] at hr
      | succ n =>
        have cov : internal w (n + 1) .cov false a b = some r → Within M b a := fun h =>
          (sound hl ht (n + 1)).internal .cov false a b r (by simp) (by simpa using ga)
            (by simpa using gb) h hb
        cases ga with
        | never => exact cov (by simpa [internal] using hr)
        | none => exact cov (by simpa [internal, ht.strict] using hr)
        | lit l => exact cov (by unfold internal at hr ⊢; exact hr)
        | newType k => exact cov (by unfold internal at hr ⊢; exact hr)
        | data e1 e2 e3 => exact cov (by unfold internal at hr ⊢; exact hr)
        | cls _ _ => exact absurd rfl (h1 _ _)
        | type _ => exact absurd rfl (h2 _)
        | fixed _ => exact absurd rfl (h3 _)
        | arb _ => exact absurd rfl (h4 _)
        | unpack => exact absurd rfl (h5 _ _ _)
        | union e1 e2 e3 =>
          simp only [internal] at hr
          rw [if_pos trivial] at hr
          obtain ⟨x, hx, hr⟩ := Option.bind_eq_some_iff.mp hr
          obtain ⟨y, hy, hr⟩ := Option.map_eq_some_iff.mp hr
          subst hr
          exact (sound hl ht n).super false _ b x (.union e1 e2 e3) gb hx (and_true.mp hb).1
    · cases n with
      | zero => simp [other] at h6
      | succ n =>
        unfold other at h6
        split at h6
        · cases gb
        · rw [ht.strict] at h6; cases h6; cases h7
        · split at h6
          · cases h6; cases h7
          · obtain ⟨x, hx, h6⟩ := Option.bind_eq_some_iff.mp h6
            rw [if_pos (by rfl)] at h6
            obtain ⟨y, hy, h6⟩ := Option.map_eq_some_iff.mp h6
            subst h6
            cases gb with
            | union e1 e2 e3 =>
              intro v hv
              obtain ⟨u, hu, hv⟩ := (hl.union v _).mp hv
              obtain ⟨m2, h8, h9⟩ := (allM_true hx (and_true.mp h7).1).2 u hu
              exact (sound hl ht n).super false a u m2 ga (e3 u hu) h8 h9 v hv
        · rw [if_neg (by simp)] at h6; cases h6; cases h7
        · cases h6; cases h7
        · cases h6; cases h7

theorem pair_step (hl : Lawful w M) (ht : Tame w p q)
    (hn : BaseOk w M p q su n) (seen : List (Ty × Ty)) (protocol : Bool) (a b r : Ty)
    (ga : Good w p q false a) (gb : Good w p q false b)
    (h : basePair w su (n + 1) seen protocol a b = some (some r)) : Upper w M p q r a b := by
  unfold basePair at h
  split at h
  · obtain ⟨o, h1, h2⟩ := Option.map_eq_some_iff.mp h
    split at h2
    · cases h2
    · subst h2; exact hn.cls _ _ _ _ _ _ ga gb h1
  · cases h
  · cases h
  · obtain ⟨u, hu, h⟩ := Option.map_eq_some_iff.mp h
    cases h
    cases ga with
    | type ga => cases gb with
      | type gb =>
        have := hn.base seen _ _ u ga gb hu
        exact ⟨type_within hl this.left, type_within hl this.right, .type this.good⟩
  · cases h
  · split at h
    all_goals first
      | (obtain ⟨u, hu, h⟩ := Option.map_eq_some_iff.mp h
         cases h
         refine hn.tuple seen _ _ _ ?_ ?_ ?_ ?_ ?_ ?_ ga gb hu <;> first | rfl | simp)
      | cases h
  · split at h
    all_goals first
      | (obtain ⟨u, hu, h⟩ := Option.map_eq_some_iff.mp h
         cases h
         refine hn.tuple seen _ _ _ ?_ ?_ ?_ ?_ ?_ ?_ ga gb hu <;> first | rfl | simp)
      | cases h
  · split at h
    all_goals first
      | (obtain ⟨u, hu, h⟩ := Option.map_eq_some_iff.mp h
         cases h
         refine hn.tuple seen _ _ _ ?_ ?_ ?_ ?_ ?_ ?_ ga gb hu <;> first | rfl | simp)
      | cases h
  · rename_i h1 h2 h3 h4 h5 h6 h7 h8
    obtain ⟨m, hm, h⟩ := Option.map_eq_some_iff.mp h
    split at h
    · cases h
      refine ⟨Within.refl _, same_upper hl ht ga gb ?_ ?_ ?_ ?_ ?_ hm ‹_›, ga⟩
      all_goals intros; intro he; subst he; simp_all
    · cases h

theorem cls_step (hl : Lawful w M) (ht : Tame w p q)
    (hn : BaseOk w M p q su n) (seen : List (Ty × Ty)) (c : Nat) (as : List Ty) (d : Nat)
    (bs : List Ty) (r : Ty) (ga : Good w p q false (.cls c as)) (gb : Good w p q false (.cls d bs))
    (h : baseClass w su (n + 1) seen c as d bs = some (some r)) :
    Upper w M p q r (.cls c as) (.cls d bs) := by
  simp only [baseClass] at h
  obtain ⟨o, h1, h2⟩ := Option.bind_eq_some_iff.mp h
  split at h2
  · cases h2
    split at h1
    · cases h1
    · rename_i hc
      simp only [ne_eq, Decidable.not_not] at hc
      subst hc
      split at h1
      · rename_i he
        simp only [List.isEmpty_iff] at he
        cases h1
        obtain rfl := ga.noArgs he
        obtain rfl := gb.noArgs he
        exact ⟨Within.refl _, Within.refl _, ga⟩
      · obtain ⟨o, h3, us, h4, rfl⟩ : ∃ o, _ ∧ ∃ us, o = some us ∧ Ty.cls c us = r := by
          obtain ⟨o, h3, h4⟩ := Option.map_eq_some_iff.mp h1
          obtain ⟨us, h5, h6⟩ := Option.map_eq_some_iff.mp h4
          exact ⟨o, h3, us, h5, h6⟩
        subst h4
        cases ga with
        | cls la ga => cases gb with
          | cls lb gb =>
            simp only [Bool.false_or] at ga gb
            obtain ⟨e1, e2, e3, e4⟩ := baseArgs_fits (w := w) (M := M) (p := p) (q := q)
              (fun a b m ga gb hm hb => ((sound hl ht n).same false a b m ga gb hm hb).symm)
              (fun a b r ga gb hr => hn.base seen a b r ga gb hr)
              (fun a b r ga gb hr => commonSub_ok hl ht n n (Nat.le_refl _) a b r ga gb hr)
              la lb ga gb h3
            exact ⟨fun v hv => hl.args v c as us (la.trans e1.symm)
                (fun k r a b hr ha hb => e3 k r a b hr ha hb) hv,
              fun v hv => hl.args v c bs us (lb.trans e1.symm)
                (fun k r a b hr ha hb => e4 k r a b hr ha hb) hv,
              .cls e1 (fun k a v ha hv => by simpa using e2 k a v ha hv)⟩
  · obtain ⟨x, hx, h2⟩ := Option.bind_eq_some_iff.mp h2
    split at h2
    · rename_i hxt
      subst hxt
      cases h2
      obtain ⟨e1, e2⟩ := promotesTo_within hl ht hx
      obtain rfl := gb.noArgs e2
      exact ⟨e1 as, Within.refl _, gb⟩
    · obtain ⟨y, hy, h2⟩ := Option.map_eq_some_iff.mp h2
      split at h2
      · rename_i hyt
        subst hyt
        cases h2
        obtain ⟨e1, e2⟩ := promotesTo_within hl ht hy
        obtain rfl := ga.noArgs e2
        exact ⟨Within.refl _, e1 bs, ga⟩
      · cases h2

/-- Every tuple is a tuple of any length whose items may be all of its items. -/
theorem items_within (hl : Lawful w M) {t u : Ty} (h1 : t.nominal = true) (h2 : t.isClass = false)
    (h3 : ∀ c as, t ≠ .data c as) (h : ∀ x ∈ t.items, Within M x u) : Within M t (.arb u) := by
  intro v hv
  cases t with
  | fixed ts => exact fixed_arb_within hl h v hv
  | arb t => exact arb_within hl (h t (by simp [Ty.items])) v hv
  | unpack a b c =>
    obtain ⟨xs, ys, zs, e1, e2, e3, e4⟩ := (hl.unpack v _ _ _).mp hv
    refine (hl.arb v u).mpr ⟨_, e1, fun x hx => ?_⟩
    rcases List.mem_append.mp hx with hx | hx
    · rcases List.mem_append.mp hx with hx | hx
      · obtain ⟨t, ht, hx⟩ := each_mem e2 x hx
        exact h t (by simp [Ty.items, ht]) x hx
      · exact h b (by simp [Ty.items]) x (e3 x hx)
    · obtain ⟨t, ht, hx⟩ := each_mem e4 x hx
      exact h t (by simp [Ty.items, ht]) x hx
  | cls _ _ => cases h2
  | data _ _ => exact absurd rfl (h3 _ _)
  | _ => cases h1

theorem Good.items {t : Ty} (h : Good w p q false t) : ∀ x ∈ t.items, Good w p q false x := by
  intro x hx
  cases h with
  | fixed h => exact h x hx
  | arb h => simp only [Ty.items, List.mem_singleton] at hx; subst hx; exact h
  | unpack _ _ _ ha hb hc =>
    simp only [Ty.items, List.mem_append, List.mem_cons] at hx
    rcases hx with hx | rfl | hx
    · exact ha x hx
    · exact hb
    · exact hc x hx
  | _ => simp [Ty.items] at hx

theorem zipWith_each (hj : Joins w M p q su) {as bs : List Ty} (hlen : as.length = bs.length)
    (ga : ∀ t ∈ as, Good w p q false t) (gb : ∀ t ∈ bs, Good w p q false t) :
    (List.zipWith su as bs).length = as.length ∧
    (∀ u ∈ List.zipWith su as bs, Good w p q false u) ∧
    (∀ (k : Nat) a u, as[k]? = some a → (List.zipWith su as bs)[k]? = some u → Within M a u) ∧
    (∀ (k : Nat) b u, bs[k]? = some b → (List.zipWith su as bs)[k]? = some u → Within M b u) := by
  have key : ∀ (k : Nat) u, (List.zipWith su as bs)[k]? = some u →
      ∃ a b, as[k]? = some a ∧ bs[k]? = some b ∧ u = su a b := by
    intro k u hu
    rw [List.getElem?_zipWith] at hu
    cases ha : as[k]? with
    | none => rw [ha] at hu; simp at hu
    | some a =>
      cases hb : bs[k]? with
      | none => rw [ha, hb] at hu; simp at hu
      | some b => rw [ha, hb] at hu; simp at hu; exact ⟨a, b, rfl, rfl, hu.symm⟩
  refine ⟨by simp [hlen], fun u hu => ?_, fun k a u ha hu => ?_, fun k b u hb hu => ?_⟩
  · obtain ⟨k, hk⟩ := List.mem_iff_getElem?.mp hu
    obtain ⟨a, b, h1, h2, rfl⟩ := key k u hk
    exact hj.good a b (ga a (getElem?_mem h1)) (gb b (getElem?_mem h2))
  · obtain ⟨a', b, h1, h2, rfl⟩ := key k u hu
    rw [ha] at h1; cases h1
    exact hj.left a b (ga a (getElem?_mem ha)) (gb b (getElem?_mem h2))
  · obtain ⟨a, b', h1, h2, rfl⟩ := key k u hu
    rw [hb] at h2; cases h2
    exact hj.right a b (ga a (getElem?_mem h1)) (gb b (getElem?_mem hb))

theorem unpackBase_upper (hl : Lawful w M) (ht : Tame w p q) (hj : Joins w M p q su) {t s : Ty}
    (t1 : t.nominal = true) (t2 : t.isClass = false) (s1 : s.nominal = true)
    (s2 : s.isClass = false) (t3 : ∀ c as, t ≠ .data c as) (s3 : ∀ c as, s ≠ .data c as)
    (gt : Good w p q false t) (gs : Good w p q false s) :
    Upper w M p q (unpackBase w su t s) t s := by
  have main : Upper w M p q (.arb (su (w.join t.items) (w.join s.items))) t s := by
    have g1 := ht.join t.items gt.items
    have g2 := ht.join s.items gs.items
    exact ⟨items_within hl t1 t2 t3 (fun x hx v hv =>
        hj.left _ _ g1 g2 v (hl.join v _ x hx hv)),
      items_within hl s1 s2 s3 (fun x hx v hv =>
        hj.right _ _ g1 g2 v (hl.join v _ x hx hv)), .arb (hj.good _ _ g1 g2)⟩
  unfold unpackBase
  split
  · split
    · rename_i hlen
      cases gt with
      | unpack h0 a1 a2 a3 a4 a5 => cases gs with
        | unpack _ b1 b2 b3 b4 b5 =>
          obtain ⟨x1, x2, x3, x4⟩ := zipWith_each hj hlen.1 a3 b3
          obtain ⟨z1, z2, z3, z4⟩ := zipWith_each hj hlen.2 a5 b5
          refine ⟨fun v hv => ?_, fun v hv => ?_,
            .unpack h0 (x1.trans a1) (z1.trans a2) x2 (hj.good _ _ a4 b4) z2⟩
          · obtain ⟨xs, ys, zs, e1, e2, e3, e4⟩ := (hl.unpack v _ _ _).mp hv
            exact (hl.unpack v _ _ _).mpr ⟨xs, ys, zs, e1, each_map e2 x1.symm x3,
              fun a ha => hj.left _ _ a4 b4 a (e3 a ha), each_map e4 z1.symm z3⟩
          · obtain ⟨xs, ys, zs, e1, e2, e3, e4⟩ := (hl.unpack v _ _ _).mp hv
            exact (hl.unpack v _ _ _).mpr ⟨xs, ys, zs, e1,
              each_map e2 (hlen.1.symm.trans x1.symm) x4,
              fun a ha => hj.right _ _ a4 b4 a (e3 a ha),
              each_map e4 (hlen.2.symm.trans z1.symm) z4⟩
    · exact main
  · exact main

theorem tuple_step (hl : Lawful w M) (ht : Tame w p q) (hj : Joins w M p q su)
    (hn : BaseOk w M p q su n) (seen : List (Ty × Ty)) (t s r : Ty)
    (t1 : t.nominal = true) (t2 : t.isClass = false) (s1 : s.nominal = true)
    (s2 : s.isClass = false) (t3 : ∀ c as, t ≠ .data c as) (s3 : ∀ c as, s ≠ .data c as)
    (gt : Good w p q false t) (gs : Good w p q false s)
    (h : baseTuple w su (n + 1) seen t s = some r) : Upper w M p q r t s := by
  have hb := fun a b r ga gb hr => hn.base seen a b r ga gb hr
  unfold baseTuple at h
  split at h
  · rename_i he
    subst he
    cases h
    exact ⟨Within.refl _, Within.refl _, gt⟩
  · split at h
    · rename_i he
      subst he
      cases gt with
      | arb g => cases g
    · split at h
      · rename_i he
        subst he
        cases gs with
        | arb g => cases g
      · split at h
        · cases gt with
          | fixed gt => cases gs with
            | fixed gs =>
              split at h
              · rename_i hlen
                obtain ⟨us, hu, rfl⟩ := Option.map_eq_some_iff.mp h
                obtain ⟨e1, e2⟩ := baseZip_some hu hlen
                have key : ∀ (k : Nat) u t s, us[k]? = some u → _ → _ → Upper w M p q u t s :=
                  fun k u t s hku ht hs => by
                    obtain ⟨u', e3, e4⟩ := e2 k t s ht hs
                    rw [hku] at e3
                    cases e3
                    exact hb t s u (gt t (getElem?_mem ht)) (gs s (getElem?_mem hs)) e4
                refine ⟨fixed_within hl e1.symm (fun k t u ht hku => ?_),
                  fixed_within hl (hlen.symm.trans e1.symm) (fun k s u hs hku => ?_),
                  .fixed (fun u hu => ?_)⟩
                · obtain ⟨s, hs⟩ := exists_getElem? hlen ht
                  exact (key k u t s hku ht hs).left
                · obtain ⟨t, ht⟩ := exists_getElem? hlen.symm hs
                  exact (key k u t s hku ht hs).right
                · obtain ⟨k, hku⟩ := List.mem_iff_getElem?.mp hu
                  obtain ⟨t, ht⟩ := exists_getElem? e1 hku
                  obtain ⟨s, hs⟩ := exists_getElem? hlen ht
                  exact (key k u t s hku ht hs).good
              · obtain ⟨u, hu, rfl⟩ := Option.map_eq_some_iff.mp h
                obtain ⟨e1, _, e2⟩ := baseFold_upper hb (by simp) (by
                  intro t ht
                  exact (List.mem_append.mp ht).elim (gt t) (gs t)) hu
                exact ⟨fixed_arb_within hl (fun x hx => e2 x (by simp [hx])),
                  fixed_arb_within hl (fun x hx => e2 x (by simp [hx])), .arb e1⟩
        · cases gt with
          | arb gt => cases gs with
            | arb gs =>
              obtain ⟨u, hu, rfl⟩ := Option.map_eq_some_iff.mp h
              have := hb _ _ u gt gs hu
              exact ⟨arb_within hl this.left, arb_within hl this.right, .arb this.good⟩
        · cases gt with
          | arb gt => cases gs with
            | fixed gs =>
              obtain ⟨u, hu, rfl⟩ := Option.map_eq_some_iff.mp h
              obtain ⟨e1, _, e2⟩ := baseFold_upper hb (by simp) (by
                intro t ht
                rcases List.mem_cons.mp ht with rfl | ht
                · exact gt
                · exact gs t ht) hu
              exact ⟨arb_within hl (e2 _ (by simp)),
                fixed_arb_within hl (fun x hx => e2 x (by simp [hx])), .arb e1⟩
        · cases gt with
          | fixed gt => cases gs with
            | arb gs =>
              obtain ⟨u, hu, rfl⟩ := Option.map_eq_some_iff.mp h
              obtain ⟨e1, _, e2⟩ := baseFold_upper hb (by simp) (by
                intro t ht
                rcases List.mem_cons.mp ht with rfl | ht
                · exact gs
                · exact gt t ht) hu
              exact ⟨fixed_arb_within hl (fun x hx => e2 x (by simp [hx])),
                arb_within hl (e2 _ (by simp)), .arb e1⟩
        · cases h
          exact unpackBase_upper hl ht hj t1 t2 s1 s2 t3 s3 gt gs

theorem baseOk (hl : Lawful w M) (ht : Tame w p q) (hj : Joins w M p q su) :
    ∀ n, BaseOk w M p q su n
  | 0 => by
    constructor <;> intros <;> simp_all [commonBase, basePair, baseClass, baseTuple]
  | n + 1 =>
    have hn := baseOk hl ht hj n
    { base := base_step hl ht hj hn
      pair := pair_step hl ht hn
      cls := cls_step hl ht hn
      tuple := tuple_step hl ht hj hn }

end Verif.Sub
