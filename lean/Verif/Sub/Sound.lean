import Verif.Sub.Basic

/-! # Accepted types are within: one step -/

namespace Verif.Sub

open Verif.Match

variable {V : Type} {w : World} {M : Meaning V} {p q : Nat}

theorem Within.refl (t : Ty) : Within M t t := fun _ h => h

theorem Within.trans {a b c : Ty} (h1 : Within M a b) (h2 : Within M b c) : Within M a c :=
  fun v h => h2 v (h1 v h)

theorem Fits.within {a b : Ty} {v : Variance} (h : Fits M v a b) (hv : v ≠ .contra) :
    Within M a b := by
  cases v
  · exact h
  · exact absurd rfl hv
  · exact h.1

theorem Good.weaken {i : Bool} {t : Ty} (h : Good w p q i t) : Good w p q false t := by
  induction h with
  | never => exact .never
  | none => exact .none
  | lit l => exact .lit l
  | newType k => exact .newType k
  | cls h1 h2 h3 =>
    refine .cls h1 (fun k a v ha hv => ?_)
    by_cases hi : v = .inv
    · have := h2 k a v ha hv
      simpa [hi] using this
    · have := h3 k a v ha hv
      simpa [hi] using this
  | data h1 h1' h2 h3 =>
    refine .data h1 (by simp) (fun k a v ha hv => ?_)
    by_cases hi : v = .inv
    · have := h2 k a v ha hv
      simpa [hi] using this
    · have := h3 k a v ha hv
      simpa [hi] using this
  | union h1 h2 _ h4 => exact .union h1 h2 h4
  | fixed _ h => exact .fixed h
  | arb _ h => exact .arb h
  | unpack h0 h1 h2 h3 h4 h5 => exact .unpack h0 h1 h2 h3 h4 h5
  | type h => exact .type h

theorem Good.toCls {c : Nat} {as : List Ty} (h : Good w p q false (.data c as)) :
    Good w p q false (.cls c as) := by
  cases h with
  | data h1 _ h3 => exact .cls h1 h3

theorem Good.plain {i : Bool} {c : Nat} (h : (w.cls c).params = []) : Good w p q i (.cls c []) :=
  .cls (by simp [h]) (fun k a v ha => by simp at ha)

theorem Good.noArgs {i : Bool} {c : Nat} {as : List Ty} (h : (w.cls c).params = [])
    (hg : Good w p q i (.cls c as)) : as = [] := by
  cases hg with
  | cls h1 _ => rw [h] at h1; exact List.length_eq_zero_iff.mp h1

theorem Good.noAny {i : Bool} {t : Ty} (h : Good w p q i t) : t.isAny = false := by
  cases h <;> rfl

theorem Tame.fallback (ht : Tame w p q) (l : Lit) : (w.cls (fallback w l)).params = [] := by
  cases l
  · exact ht.int
  · exact ht.str
  · exact ht.bytes
  · exact ht.bool

theorem Lawful.fallback (hl : Lawful w M) (l : Lit) :
    Within M (.lit l) (.cls (fallback w l) []) := by
  intro v h
  cases l
  · exact hl.int _ _ h
  · exact hl.str _ _ h
  · exact hl.bytes _ _ h
  · exact hl.boolLit _ _ h

theorem each_mem : ∀ {vs : List V} {ts : List Ty}, Each M vs ts →
    ∀ x ∈ vs, ∃ t ∈ ts, M.mem x t
  | _, _, .nil, x, hx => absurd hx (by simp)
  | _, _, .cons h hs, x, hx => by
    rcases List.mem_cons.mp hx with rfl | hx
    · exact ⟨_, by simp, h⟩
    · obtain ⟨t, h1, h2⟩ := each_mem hs x hx
      exact ⟨t, by simp [h1], h2⟩

theorem each_length : ∀ {vs : List V} {ts : List Ty}, Each M vs ts → vs.length = ts.length
  | _, _, .nil => rfl
  | _, _, .cons _ hs => by simp [each_length hs]

theorem each_map : ∀ {vs : List V} {ss ts : List Ty}, Each M vs ss → ss.length = ts.length →
    (∀ (k : Nat) s t, ss[k]? = some s → ts[k]? = some t → Within M s t) → Each M vs ts
  | _, _, [], .nil, _, _ => .nil
  | _, _, t :: ts, .nil, h, _ => by simp at h
  | _, _, [], .cons _ _, h, _ => by simp at h
  | _, _, t :: ts, .cons hv hs, h, hw =>
    .cons (hw 0 _ _ rfl rfl _ hv)
      (each_map hs (by simpa using h) (fun k s t h1 h2 => hw (k + 1) s t (by simpa using h1)
        (by simpa using h2)))

theorem each_append : ∀ {xs : List V} {as : List Ty} {vs : List V} {bs : List Ty},
    Each M xs as → Each M vs bs → Each M (xs ++ vs) (as ++ bs)
  | _, _, _, _, .nil, h => h
  | _, _, _, _, .cons h hs, h2 => .cons h (each_append hs h2)

theorem each_split : ∀ {as : List Ty} {vs : List V} {bs : List Ty}, Each M vs (as ++ bs) →
    ∃ xs ys, vs = xs ++ ys ∧ Each M xs as ∧ Each M ys bs
  | [], vs, bs, h => ⟨[], vs, rfl, .nil, h⟩
  | a :: as, _, bs, .cons hv hs => by
    obtain ⟨xs, ys, h1, h2, h3⟩ := each_split hs
    exact ⟨_ :: xs, ys, by simp [h1], .cons hv h2, h3⟩

/-- The items of all tuples belong to the union of the item types. -/
theorem Lawful.tupleJoin (hl : Lawful w M) {v : V} {t : Ty} {ts : List Ty}
    (hv : M.mem v t) (h : (t = .fixed ts) ∨ (∃ a, t = .arb a ∧ ts = [a]) ∨
      (∃ a b c, t = .unpack a b c ∧ ts = a ++ b :: c)) :
    M.mem v (.cls w.tuple [w.join ts]) := by
  rcases h with rfl | ⟨a, rfl, rfl⟩ | ⟨a, b, c, rfl, rfl⟩
  · obtain ⟨vs, h1, h2⟩ := (hl.fixed v ts).mp hv
    refine hl.tuple v vs _ h1 (fun x hx => ?_)
    obtain ⟨t, h3, h4⟩ := each_mem h2 x hx
    exact hl.join _ _ _ h3 h4
  · obtain ⟨vs, h1, h2⟩ := (hl.arb v a).mp hv
    exact hl.tuple v vs _ h1 (fun x hx => hl.join _ _ a (by simp) (h2 x hx))
  · obtain ⟨xs, ys, zs, h1, h2, h3, h4⟩ := (hl.unpack v a b c).mp hv
    refine hl.tuple v _ _ h1 (fun x hx => ?_)
    rcases List.mem_append.mp hx with hx | hx
    · rcases List.mem_append.mp hx with hx | hx
      · obtain ⟨t, h5, h6⟩ := each_mem h2 x hx
        exact hl.join _ _ t (by simp [h5]) h6
      · exact hl.join _ _ b (by simp) (h3 x hx)
    · obtain ⟨t, h5, h6⟩ := each_mem h4 x hx
      exact hl.join _ _ t (by simp [h5]) h6

theorem mem_bases {c : Nat} {as : List Ty} {b : Ty} (h : b ∈ bases w c as) :
    ∃ b' ∈ (w.cls c).mro, b = b'.subst as := by
  obtain ⟨b', h1, h2⟩ := List.mem_map.mp h
  exact ⟨b', h1, h2.symm⟩

/-- Types of the mro are wider, and good. -/
theorem mro_within (hl : Lawful w M) (ht : Tame w p q) {s b : Ty} (hg : Good w p q false s)
    (hb : b ∈ mro w s) : Within M s b ∧ Good w p q false b := by
  have obj : Within M s (.cls w.object []) ∧ Good w p q false (.cls w.object []) :=
    ⟨fun v h => hl.object v s h, .plain ht.object⟩
  have self : Within M s s ∧ Good w p q false s := ⟨Within.refl _, hg⟩
  have tup : ∀ ts, (s = .fixed ts) ∨ (∃ a, s = .arb a ∧ ts = [a]) ∨
      (∃ a b c, s = .unpack a b c ∧ ts = a ++ b :: c) → b ∈ bases w w.tuple [w.join ts] →
      Within M s b ∧ Good w p q false b := by
    intro ts hs hb
    obtain ⟨b', h1, rfl⟩ := mem_bases hb
    refine ⟨fun v hv => hl.base v _ _ _ (hl.tupleJoin hv hs) h1, ht.bases _ _ _ ?_ h1⟩
    refine .cls (by simp [ht.tuple]) (fun k a v ha hv => ?_)
    rw [ht.tuple] at hv
    cases k with
    | zero =>
      simp only [List.getElem?_cons_zero, Option.some.injEq] at ha hv
      subst ha; subst hv
      refine ht.join ts (fun t htm => ?_)
      rcases hs with rfl | ⟨a, rfl, rfl⟩ | ⟨a, b, c, rfl, rfl⟩
      · cases hg with
        | fixed h => exact h t htm
      · cases hg with
        | arb h => simp only [List.mem_singleton] at htm; subst htm; exact h
      · cases hg with
        | unpack _ _ _ h1 h2 h3 =>
          rcases List.mem_append.mp htm with h | h
          · exact h1 t h
          · rcases List.mem_cons.mp h with rfl | h
            · exact h2
            · exact h3 t h
    | succ k => simp at hv
  cases hg with
  | cls h1 h2 =>
    simp only [mro, List.cons_append, List.mem_cons, List.mem_append, List.not_mem_nil,
      or_false] at hb
    rcases hb with rfl | hb | rfl
    · exact self
    · obtain ⟨b', h3, rfl⟩ := mem_bases hb
      exact ⟨fun v hv => hl.base v _ _ _ hv h3, ht.bases _ _ _ (.cls h1 h2) h3⟩
    · exact obj
  | data h1 h1' h2 =>
    simp only [mro, List.cons_append, List.mem_cons, List.mem_append, List.not_mem_nil,
      or_false] at hb
    rcases hb with rfl | hb | rfl
    · exact self
    · obtain ⟨b', h3, rfl⟩ := mem_bases hb
      exact ⟨fun v hv => hl.dataBase v _ _ _ hv h3, ht.bases _ _ _ (.cls h1 h2) h3⟩
    · exact obj
  | lit l =>
    simp only [mro, List.cons_append, List.mem_cons, List.mem_append, List.not_mem_nil,
      or_false] at hb
    rcases hb with rfl | rfl | hb | rfl
    · exact self
    · exact ⟨hl.fallback l, .plain (ht.fallback l)⟩
    · obtain ⟨b', h3, rfl⟩ := mem_bases hb
      exact ⟨fun v hv => hl.base v _ _ _ (hl.fallback l v hv) h3,
        ht.bases _ _ _ (.plain (ht.fallback l)) h3⟩
    · exact obj
  | fixed h1 =>
    simp only [mro, List.cons_append, List.mem_cons, List.mem_append, List.not_mem_nil,
      or_false] at hb
    rcases hb with rfl | hb | rfl
    · exact self
    · exact tup _ (Or.inl rfl) hb
    · exact obj
  | arb h1 =>
    simp only [mro, List.cons_append, List.mem_cons, List.mem_append, List.not_mem_nil,
      or_false] at hb
    rcases hb with rfl | hb | rfl
    · exact self
    · exact tup _ (Or.inr (Or.inl ⟨_, rfl, rfl⟩)) hb
    · exact obj
  | unpack h1 h2 h3 h4 h5 h6 =>
    simp only [mro, List.cons_append, List.mem_cons, List.mem_append, List.not_mem_nil,
      or_false] at hb
    rcases hb with rfl | hb | rfl
    · exact self
    · exact tup _ (Or.inr (Or.inr ⟨_, _, _, rfl, rfl⟩)) hb
    · exact obj
  | never | none | newType _ | union _ _ _ | type _ =>
    simp only [mro, List.mem_cons, List.not_mem_nil, or_false] at hb
    rcases hb with rfl | rfl
    · exact self
    · exact obj

/-- With two boolean literals and no duplicates, both booleans are there. -/
theorem two_bools {us : List Ty} (hn : us.Nodup) (h : boolLits us = 2) :
    Ty.lit (.bool true) ∈ us ∧ Ty.lit (.bool false) ∈ us := by
  have hf : (us.filter Ty.isBoolLit).Nodup := hn.filter _
  unfold boolLits at h
  match hh : us.filter Ty.isBoolLit, h with
  | [a, b], _ =>
    rw [hh] at hf
    have ha : a ∈ us.filter Ty.isBoolLit := by rw [hh]; simp
    have hb : b ∈ us.filter Ty.isBoolLit := by rw [hh]; simp
    obtain ⟨ha1, ha2⟩ := List.mem_filter.mp ha
    obtain ⟨hb1, hb2⟩ := List.mem_filter.mp hb
    have hne : a ≠ b := by simpa using hf
    rcases a with _ | _ | _ | _ | _ | (_ | _ | _ | (_ | _)) | _ | _ | _ | _ | _ | _ | _ <;>
      simp only [Ty.isBoolLit, Bool.false_eq_true] at ha2 <;>
    rcases b with _ | _ | _ | _ | _ | (_ | _ | _ | (_ | _)) | _ | _ | _ | _ | _ | _ | _ <;>
      simp only [Ty.isBoolLit, Bool.false_eq_true] at hb2
    · exact absurd rfl hne
    · exact ⟨hb1, ha1⟩
    · exact ⟨ha1, hb1⟩
    · exact absurd rfl hne

/-- What is known about results with some fuel. -/
structure Sound (w : World) (M : Meaning V) (p q n : Nat) : Prop where
  super : ∀ rev t s m, Good w p q false t → Good w p q false s → isSuper w n rev t s = some m →
    m.bool = true → Within M s t
  same : ∀ rev t s m, Good w p q true t → Good w p q true s → isSame w n rev t s = some m →
    m.bool = true → Within M s t ∧ Within M t s
  «matches» : ∀ v rev t s m, Good w p q (decide (v = .inv)) t → Good w p q (decide (v = .inv)) s →
    «matches» w n v rev t s = some m → m.bool = true → Fits M v s t
  promotion : ∀ rev t s m, t.nominal = true → Good w p q false t → Good w p q false s →
    promotion w n rev t s = some m → m.bool = true → Within M s t
  promoted : ∀ rev t c m, t.nominal = true → Good w p q false t →
    promoted w n rev t c = some m → m.bool = true → ∀ as, Within M (.cls c as) t
  other : ∀ v rev t s m, v ≠ .contra → Good w p q (decide (v = .inv)) t →
    Good w p q (decide (v = .inv)) s → other w n v rev t s = some m → m.bool = true → Fits M v s t
  unionSuper : ∀ rev us s m, Good w p q false (.union us) → Good w p q false s →
    unionSuper w n rev us s = some m → m.bool = true → Within M s (.union us)
  matchesClass : ∀ v rev c as d bs m, v ≠ .contra →
    (∀ (k : Nat) a r, as[k]? = some a → (w.cls c).params[k]? = some r →
      Good w p q (decide (v = .inv) || decide (r = .inv)) a) →
    (∀ (k : Nat) a r, bs[k]? = some a → (w.cls d).params[k]? = some r →
      Good w p q (decide (v = .inv) || decide (r = .inv)) a) →
    matchesClass w n v rev c as d bs = some m → m.bool = true → c = d ∧
      ∀ (k : Nat) r a b, (w.cls c).params[k]? = some r → as[k]? = some a → bs[k]? = some b →
        Fits M (argVariance v r) b a
  classVsType : ∀ v rev c as s m, v ≠ .contra → Good w p q (decide (v = .inv)) (.cls c as) →
    Good w p q (decide (v = .inv)) s → classVsType w n v rev c as s = some m → m.bool = true →
    Fits M v s (.cls c as)
  matchTuple : ∀ v rev t s m, v ≠ .contra → Good w p q (decide (v = .inv)) t →
    Good w p q (decide (v = .inv)) s → matchTuple w n v rev t s = some m → m.bool = true →
    Fits M v s t
  matchUnpack : ∀ rev a b c s m, Good w p q false (.unpack a b c) → Good w p q false s →
    matchUnpack w n .cov rev a b c s = some m → m.bool = true → Within M s (.unpack a b c)
  internal : ∀ v rev t s m, v ≠ .contra → Good w p q (decide (v = .inv)) t →
    Good w p q (decide (v = .inv)) s → internal w n v rev t s = some m → m.bool = true →
    Fits M v s t

theorem sound_zero : Sound w M p q 0 := by
  constructor <;> intros <;> simp_all [isSuper, isSame, «matches», promotion, promoted, other,
    unionSuper, matchesClass, classVsType, matchTuple, matchUnpack, internal]

end Verif.Sub
