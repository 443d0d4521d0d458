import Verif.Sub.Sound

/-! # Accepted types are within: all steps -/

namespace Verif.Sub

open Verif.Match

variable {V : Type} {w : World} {M : Meaning V} {p q n : Nat}

theorem super_step (hl : Lawful w M) (ht : Tame w p q) (hn : Sound w M p q n) (rev : Bool)
    (t s : Ty) (m : Match) (gt : Good w p q false t) (gs : Good w p q false s)
    (h : isSuper w (n + 1) rev t s = some m) (hm : m.bool = true) : Within M s t := by
  unfold isSuper at h
  split at h
  · rename_i hnom
    cases hr : mroM (fun b => internal w n .cov rev t b) (mro w s) with
    | none => rw [hr] at h; cases h
    | some r =>
      rw [hr] at h
      simp only [Option.bind_some] at h
      split at h
      · rename_i hrf
        cases ho : orM (protocolMatch w t s) (fun _ => other w n .cov rev t s) with
        | none => rw [ho] at h; cases h
        | some r' =>
          rw [ho] at h
          simp only [Option.bind_some] at h
          rcases orM_true h hm with h1 | ⟨m', h1, h2⟩
          · rcases orM_true ho h1 with h3 | ⟨m'', h3, h4⟩
            · unfold protocolMatch at h3
              split at h3
              · split at h3
                · exact hl.structural _ _ h3
                · cases h3
              · cases h3
            · exact (hn.other .cov rev t s m'' (by simp) gt gs h3 h4)
          · exact hn.promotion rev t s m' hnom gt gs h1 h2
      · cases h
        obtain ⟨b, hb, hf⟩ := mroM_true hr hm
        obtain ⟨h1, h2⟩ := mro_within hl ht gs hb
        exact h1.trans (hn.internal .cov rev t b m (by simp) gt h2 hf hm)
  · cases hr : internal w n .cov rev t s with
    | none => rw [hr] at h; cases h
    | some r =>
      rw [hr] at h
      simp only [Option.bind_some] at h
      split at h
      · exact hn.other .cov rev t s m (by simp) gt gs h hm
      · cases h
        exact hn.internal .cov rev t s m (by simp) gt gs hr hm

theorem same_step (hn : Sound w M p q n) (rev : Bool)
    (t s : Ty) (m : Match) (gt : Good w p q true t) (gs : Good w p q true s)
    (h : isSame w (n + 1) rev t s = some m) (hm : m.bool = true) :
    Within M s t ∧ Within M t s := by
  unfold isSame at h
  cases hr : internal w n .inv rev t s with
  | none => rw [hr] at h; cases h
  | some r =>
    rw [hr] at h
    simp only [Option.bind_some] at h
    rcases orM_true h hm with h1 | ⟨m', h1, h2⟩
    · exact hn.internal .inv rev t s r (by simp) gt gs hr h1
    · exact hn.other .inv rev t s m' (by simp) gt gs h1 h2

theorem matches_step (hn : Sound w M p q n) (v : Variance) (rev : Bool)
    (t s : Ty) (m : Match) (gt : Good w p q (decide (v = .inv)) t)
    (gs : Good w p q (decide (v = .inv)) s)
    (h : «matches» w (n + 1) v rev t s = some m) (hm : m.bool = true) : Fits M v s t := by
  cases v <;> simp only [«matches»] at h
  · exact hn.super rev t s m gt gs h hm
  · exact hn.super (!rev) s t m gs gt h hm
  · exact hn.same rev t s m gt gs h hm

theorem promotion_step (hl : Lawful w M) (ht : Tame w p q) (hn : Sound w M p q n) (rev : Bool)
    (t s : Ty) (m : Match) (hnom : t.nominal = true) (gt : Good w p q false t)
    (h : promotion w (n + 1) rev t s = some m) (hm : m.bool = true) : Within M s t := by
  unfold promotion at h
  split at h
  · rw [if_neg (by simp [ht.complete])] at h
    exact hn.promoted rev t _ m hnom gt h hm _
  · exact (hl.fallback _).trans (hn.promoted rev t _ m hnom gt h hm [])
  · cases h; cases hm

/-- Only a class itself is the same as a class without type parameters. -/
theorem same_plain {t : Ty} {d : Nat} {rev : Bool} {m : Match} (hnom : t.nominal = true)
    (gt : Good w p q false t) (hd : (w.cls d).params = [])
    (h : isSame w n rev t (.cls d []) = some m) (hm : m.bool = true) : t = .cls d [] := by
  cases n with
  | zero => simp [isSame] at h
  | succ n =>
    unfold isSame at h
    cases hr : internal w n .inv rev t (.cls d []) with
    | none => rw [hr] at h; cases h
    | some r =>
      rw [hr] at h
      simp only [Option.bind_some] at h
      rcases orM_true h hm with h1 | ⟨m', h1, h2⟩
      · cases n with
        | zero => simp [internal] at hr
        | succ n =>
          cases gt with
          | cls g1 g2 =>
            simp only [internal] at hr
            cases n with
            | zero => simp [classVsType] at hr
            | succ n =>
              simp only [classVsType] at hr
              cases n with
              | zero => simp [matchesClass] at hr
              | succ n =>
                unfold matchesClass at hr
                split at hr
                · cases hr; cases h1
                · rename_i hc
                  simp only [ne_eq, Decidable.not_not] at hc
                  subst hc
                  rw [hd] at g1
                  rw [List.length_eq_zero_iff.mp g1]
          | data | fixed | arb | unpack =>
            simp only [internal, Option.some.injEq] at hr
            subst hr; cases h1
          | _ => simp [Ty.nominal] at hnom
      · cases n with
        | zero => simp [other] at h1
        | succ n =>
          simp only [other, Option.some.injEq] at h1
          subst h1; cases h2

theorem promoted_step (hl : Lawful w M) (ht : Tame w p q) (hn : Sound w M p q n) (rev : Bool)
    (t : Ty) (c : Nat) (m : Match) (hnom : t.nominal = true) (gt : Good w p q false t)
    (h : promoted w (n + 1) rev t c = some m) (hm : m.bool = true) (as : List Ty) :
    Within M (.cls c as) t := by
  unfold promoted at h
  split at h
  · rename_i d hp
    have hd : Within M (.cls c as) (.cls d []) := fun v hv => hl.promote v c as d hp hv
    cases hr : isSame w n rev t (.cls d []) with
    | none => rw [hr] at h; cases h
    | some r =>
      rw [hr] at h
      simp only [Option.bind_some] at h
      rcases orM_true h hm with h1 | ⟨m', h1, h2⟩
      · rw [same_plain hnom gt (ht.promote _ _ hp) hr h1]
        exact hd
      · exact hd.trans (hn.promoted rev t d m' hnom gt h1 h2 [])
  · cases h; cases hm

theorem other_step (hl : Lawful w M) (ht : Tame w p q) (hn : Sound w M p q n) (v : Variance)
    (rev : Bool) (t s : Ty) (m : Match) (hv : v ≠ .contra)
    (gt : Good w p q (decide (v = .inv)) t) (gs : Good w p q (decide (v = .inv)) s)
    (h : other w (n + 1) v rev t s = some m) (hm : m.bool = true) : Fits M v s t := by
  generalize hi : decide (v = Variance.inv) = i at gt gs
  unfold other at h
  cases gs with
  | none =>
    simp only [ht.strict, Option.some.injEq] at h
    subst h; cases hm
  | never =>
    simp only [Option.some.injEq] at h
    subst h
    have := ofBool_true.mp hm
    simp only [decide_eq_true_eq] at this
    subst this
    exact fun v hv => absurd hv (hl.never v)
  | newType i =>
    simp only at h
    split at h
    · rename_i hc
      subst hc
      have hw : Within M (.newType i) (w.newBase i) := fun v hv => hl.newType v i hv
      exact hw.trans (hn.matches .cov rev t _ m gt.weaken (ht.newBase i) h hm)
    · cases h; cases hm
  | @union _ us h1 h2 h3 =>
    simp only at h
    split at h
    · cases h; cases hm
    · cases hr : allM (fun u => isSuper w n rev t u) .newTrue us with
      | none => rw [hr] at h; cases h
      | some r =>
        rw [hr] at h
        simp only [Option.bind_some] at h
        have key : r.bool = true → Within M (.union us) t := by
          intro hrb v hv
          obtain ⟨u, hu, hvu⟩ := (hl.union v us).mp hv
          obtain ⟨m', e1, e2⟩ := (allM_true hr hrb).2 u hu
          exact hn.super rev t u m' gt.weaken (h3 u hu).weaken e1 e2 v hvu
        split at h
        · rename_i hi
          subst hi
          cases hs : isSuper w n (!rev) (.union us) t with
          | none => rw [hs] at h; cases h
          | some r' =>
            rw [hs] at h
            simp only [Option.map_some, Option.some.injEq] at h
            subst h
            obtain ⟨e1, e2⟩ := and_true.mp hm
            exact ⟨key e1, hn.super _ _ t r' (Good.union h1 h2 h3).weaken gt.weaken hs e2⟩
        · cases h
          cases v
          · exact key hm
          · exact absurd rfl hv
          · exact absurd rfl ‹_›
  | _ => cases h; cases hm

theorem unionSuper_step (hl : Lawful w M) (hn : Sound w M p q n)
    (rev : Bool) (us : List Ty) (s : Ty) (m : Match) (gu : Good w p q false (.union us))
    (gs : Good w p q false s) (h : unionSuper w (n + 1) rev us s = some m) (hm : m.bool = true) :
    Within M s (.union us) := by
  unfold unionSuper at h
  split at h
  · rename_i us2
    split at h
    · rename_i hb
      rw [beqs_eq hb]
      exact Within.refl _
    · intro v hv
      obtain ⟨u, hu, hvu⟩ := (hl.union v _).mp hv
      obtain ⟨m', e1, e2⟩ := (allM_true h hm).2 u hu
      cases gs with
      | union _ _ g3 => exact hn.unionSuper rev us u m' gu (g3 u hu) e1 e2 v hvu
  · rename_i ts
    intro v hv
    obtain ⟨t, h1, h2⟩ := hl.typeUnion v ts hv
    refine hn.unionSuper rev us _ m gu ?_ h hm v ((hl.union v _).mpr ⟨.type t, by simp [h1], h2⟩)
    cases gs with
    | type g =>
      cases g with
      | union g1 g2 g3 =>
        refine .union (by simpa using g1) ?_ ?_
        · exact List.Pairwise.map _ (fun a b hab h => hab (by simpa using h)) g2
        · intro t ht
          obtain ⟨t', h3, rfl⟩ := List.mem_map.mp ht
          exact .type (g3 t' h3)
  · cases gu with
    | union g1 g2 g3 =>
      split at h
      · rename_i hb
        simp only [Bool.and_eq_true, beq_iff_eq] at hb
        obtain ⟨e1, e2⟩ := two_bools g2 hb.2
        rw [Ty.beq_eq hb.1]
        intro v hv
        refine (hl.union v us).mpr ?_
        rcases hl.bool v hv with h | h
        · exact ⟨_, e1, h⟩
        · exact ⟨_, e2, h⟩
      · obtain ⟨g, hg, m', e1, e2⟩ := anyM_true h hm (Or.inl g1)
        exact fun v hv => (hl.union v us).mpr ⟨g, hg, hn.super rev g _ m' (g3 g hg) gs e1 e2 v hv⟩

theorem matchesClass_step (ht : Tame w p q) (hn : Sound w M p q n) (v : Variance) (rev : Bool)
    (c : Nat) (as : List Ty) (d : Nat) (bs : List Ty) (m : Match) (hv : v ≠ .contra)
    (ga : ∀ (k : Nat) a r, as[k]? = some a → (w.cls c).params[k]? = some r →
      Good w p q (decide (v = .inv) || decide (r = .inv)) a)
    (gb : ∀ (k : Nat) a r, bs[k]? = some a → (w.cls d).params[k]? = some r →
      Good w p q (decide (v = .inv) || decide (r = .inv)) a)
    (h : matchesClass w (n + 1) v rev c as d bs = some m) (hm : m.bool = true) :
    c = d ∧ ∀ (k : Nat) r a b, (w.cls c).params[k]? = some r → as[k]? = some a →
      bs[k]? = some b → Fits M (argVariance v r) b a := by
  unfold matchesClass at h
  split at h
  · cases h; cases hm
  · rename_i hc
    simp only [ne_eq, Decidable.not_not] at hc
    subst hc
    refine ⟨rfl, ?_⟩
    split at h
    · rename_i he
      simp only [List.isEmpty_iff] at he
      intro k r a b hr
      rw [he] at hr
      simp at hr
    · cases hz : zipV (fun p a b => argMatches (fun v rev a b => «matches» w n v rev a b) rev
        (argVariance v p) a b) .newTrue as bs
        (w.cls c).params with
      | none => rw [hz] at h; cases h
      | some r' =>
        rw [hz] at h
        simp only [Option.map_some, Option.some.injEq] at h
        subst h
        rw [similar_true] at hm
        intro k r a b hr ha hb
        obtain ⟨m', e1, e2⟩ := (zipV_true hz hm).2 k r a b hr ha hb
        have hgood : decide (argVariance v r = .inv) = (decide (v = .inv) || decide (r = .inv)) := by
          cases v <;> cases r <;> simp_all [argVariance]
        have hga := ga k a r ha hr
        have hgb := gb k b r hb hr
        rw [← hgood] at hga hgb
        unfold argMatches at e1
        generalize argVariance v r = x at e1 hga hgb ⊢
        split at e1
        · have := hn.matches x.invert false b a m' (by cases x <;> exact hgb)
            (by cases x <;> exact hga) e1 e2
          cases x with
          | cov => exact this
          | contra => exact this
          | inv => exact ⟨this.2, this.1⟩
        · exact hn.matches x false a b m' hga hgb e1 e2

/-- Type arguments that match make the classes match. -/
theorem fits_cls (hl : Lawful w M) {v : Variance} {c : Nat} {as bs : List Ty} (hv : v ≠ .contra)
    (hlen : as.length = bs.length)
    (h : ∀ (k : Nat) r a b, (w.cls c).params[k]? = some r → as[k]? = some a →
      bs[k]? = some b → Fits M (argVariance v r) b a) : Fits M v (.cls c bs) (.cls c as) := by
  cases v with
  | contra => exact absurd rfl hv
  | cov => exact fun x hx => hl.args x c bs as hlen.symm (fun k r a b hr ha hb => h k r b a hr hb ha) hx
  | inv =>
    refine ⟨fun x hx => hl.args x c bs as hlen.symm (fun k r a b hr ha hb => ?_) hx,
      fun x hx => hl.args x c as bs hlen (fun k r a b hr ha hb => ?_) hx⟩
    · obtain ⟨h1, h2⟩ := h k r b a hr hb ha
      cases r
      · exact h1
      · exact h2
      · exact ⟨h1, h2⟩
    · obtain ⟨h1, h2⟩ := h k r a b hr ha hb
      cases r
      · exact h2
      · exact h1
      · exact ⟨h2, h1⟩

theorem classVsType_step (hl : Lawful w M) (ht : Tame w p q) (hn : Sound w M p q n) (v : Variance)
    (rev : Bool) (c : Nat) (as : List Ty) (s : Ty) (m : Match) (hv : v ≠ .contra)
    (gt : Good w p q (decide (v = .inv)) (.cls c as)) (gs : Good w p q (decide (v = .inv)) s)
    (h : classVsType w (n + 1) v rev c as s = some m) (hm : m.bool = true) :
    Fits M v s (.cls c as) := by
  have gt' := gt
  generalize hi : decide (v = Variance.inv) = i at gt gs
  unfold classVsType at h
  cases gs with
  | cls g1 g2 =>
    cases gt with
    | cls e1 e2 =>
      subst hi
      obtain ⟨rfl, h1⟩ := hn.matchesClass v rev _ _ _ _ m hv e2 g2 h hm
      exact fits_cls hl hv (e1.trans g1.symm) h1
  | lit l =>
    simp only at h
    split at h
    · rename_i hc
      subst hc
      cases gt with
      | cls e1 e2 =>
        subst hi
        obtain ⟨rfl, h1⟩ := hn.matchesClass .cov rev _ _ _ _ m hv e2 (fun k a r ha => by simp at ha)
          h hm
        have := ht.fallback l
        rw [this] at e1
        rw [List.length_eq_zero_iff.mp e1]
        exact hl.fallback l
    · cases h; cases hm
  | @union _ us g1 g2 g3 =>
    simp only [Option.some.injEq] at h
    subst h
    have h := ofBool_true.mp hm
    simp only [Bool.and_eq_true, beq_iff_eq] at h
    obtain ⟨⟨rfl, h2⟩, h3⟩ := h
    have has : as = [] := gt.noArgs ht.bool
    subst has
    obtain ⟨e1, e2⟩ := two_bools g2 h2
    have all : ∀ u ∈ us, u = .lit (.bool true) ∨ u = .lit (.bool false) := by
      match us, h3 with
      | [a, b], _ =>
        simp only [List.mem_cons, List.not_mem_nil, or_false] at e1 e2 ⊢
        intro u hu
        rcases e1 with rfl | rfl <;> rcases e2 with e2 | e2 <;> rcases hu with rfl | rfl <;> simp_all
    have w1 : Within M (.union us) (.cls w.bool []) := by
      intro x hx
      obtain ⟨u, hu, hxu⟩ := (hl.union x us).mp hx
      rcases all u hu with rfl | rfl <;> exact hl.boolLit x _ hxu
    have w2 : Within M (.cls w.bool []) (.union us) := by
      intro x hx
      rcases hl.bool x hx with h | h
      · exact (hl.union x us).mpr ⟨_, e1, h⟩
      · exact (hl.union x us).mpr ⟨_, e2, h⟩
    cases v
    · exact w1
    · exact absurd rfl hv
    · exact ⟨w1, w2⟩
  | @type t2 g =>
    have hcov : v = .cov := by
      cases v
      · rfl
      · exact absurd rfl hv
      · simp at hi
    subst hcov
    have bare : (ofBool (c == w.bare)).bool = true → Within M (.type t2) (.cls c as) := by
      intro hb
      have := ofBool_true.mp hb
      simp only [beq_iff_eq] at this
      subst this
      rw [gt.noArgs ht.bare]
      exact fun x hx => hl.bare x t2 hx
    simp only at h
    split at h
    · rename_i d _ 
      split at h
      · rename_i mc hmc
        split at h
        · cases h; cases hm
        · cases hr : «matches» w n .cov rev (.cls c as) (.cls mc []) with
          | none => rw [hr] at h; cases h
          | some r =>
            rw [hr] at h
            simp only [Option.bind_some] at h
            rcases orM_true h hm with h1 | ⟨m', h1, h2⟩
            · have hw := hn.matches .cov rev _ _ r gt' (.plain (ht.metaclass _ _ hmc)) hr h1
              exact fun x hx => hw x (hl.metaclass x _ _ mc hmc hx)
            · cases h1
              exact bare h2
      · cases h
        exact bare hm
    · cases h
      exact bare hm
  | _ => cases h; cases hm

end Verif.Sub
