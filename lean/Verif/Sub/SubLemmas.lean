import Verif.Sub.Join
import Verif.Sub.Tuple
import Verif.Union.Lemmas

/-! # Common subtypes are within both types -/

namespace Verif.Sub

open Verif.Match

variable {V : Type} {w : World} {M : Meaning V} {p q : Nat}

theorem mem_sortUnion {ts : List Ty} {t : Ty} : t ∈ sortUnion ts ↔ t ∈ ts :=
  Verif.Union.mem_sortBy

theorem nodup_sortUnion {ts : List Ty} (h : ts.Nodup) : (sortUnion ts).Nodup :=
  (Verif.Union.sortBy_perm priority ts).nodup_iff.mpr h

theorem mem_pushNew : ∀ {us ts : List Ty} {t : Ty}, t ∈ pushNew ts us ↔ t ∈ ts ∨ t ∈ us
  | [], ts, t => by simp [pushNew]
  | u :: us, ts, t => by
    rw [pushNew, mem_pushNew]
    split
    · constructor
      · rintro (h | h)
        · exact .inl h
        · exact .inr (by simp [h])
      · rintro (h | h)
        · exact .inl h
        · rcases List.mem_cons.mp h with rfl | h
          · exact .inl ‹_›
          · exact .inr h
    · simp only [List.mem_append, List.mem_cons, List.not_mem_nil, or_false]
      exact or_assoc

theorem nodup_pushNew : ∀ {us ts : List Ty}, ts.Nodup → (pushNew ts us).Nodup
  | [], ts, h => by simpa [pushNew] using h
  | u :: us, ts, h => by
    rw [pushNew]
    refine nodup_pushNew ?_
    split
    · exact h
    · rw [List.nodup_append]
      refine ⟨h, by simp, fun a ha b hb => ?_⟩
      rw [List.mem_singleton] at hb
      subst hb
      rintro rfl
      exact ‹_ ∉ _› ha

/-- The members of a union, and a type alone. -/
def Ty.members : Ty → List Ty
  | .union ts => ts
  | .never => []
  | t => [t]

theorem mem_members (hl : Lawful w M) {t : Ty} {v : V} :
    M.mem v t ↔ ∃ u ∈ t.members, M.mem v u := by
  cases t <;> simp only [Ty.members, List.mem_singleton, exists_eq_left]
  · simp only [List.not_mem_nil, false_and, exists_false, iff_false]; exact hl.never v
  · exact hl.union _ _

theorem Good.members {i : Bool} {t : Ty} (h : Good w p q i t) :
    ∀ u ∈ t.members, Good w p q i u := by
  intro u hu
  cases h with
  | never => simp [Ty.members] at hu
  | union _ _ h => exact h u hu
  | none => simp only [Ty.members, List.mem_singleton] at hu; subst hu; exact .none
  | lit l => simp only [Ty.members, List.mem_singleton] at hu; subst hu; exact .lit l
  | newType k => simp only [Ty.members, List.mem_singleton] at hu; subst hu; exact .newType k
  | cls h1 h2 => simp only [Ty.members, List.mem_singleton] at hu; subst hu; exact .cls h1 h2
  | data h1 h2 h3 => simp only [Ty.members, List.mem_singleton] at hu; subst hu; exact .data h1 h2 h3
  | fixed h => simp only [Ty.members, List.mem_singleton] at hu; subst hu; exact .fixed h
  | arb h => simp only [Ty.members, List.mem_singleton] at hu; subst hu; exact .arb h
  | unpack h0 h1 h2 h3 h4 h5 =>
    simp only [Ty.members, List.mem_singleton] at hu; subst hu; exact .unpack h0 h1 h2 h3 h4 h5
  | type h => simp only [Ty.members, List.mem_singleton] at hu; subst hu; exact .type h

/-- The members of a union of two types are theirs. -/
theorem members_plainUnion {t s : Ty} {u : Ty} :
    u ∈ (plainUnion t s).members ↔ u ∈ t.members ∨ u ∈ s.members := by
  unfold plainUnion
  split
  · simp only [Ty.members, mem_sortUnion, mem_pushNew]
  · simp only [Ty.members, mem_sortUnion, List.not_mem_nil, or_false]
  · rename_i h1 h2
    have : s.members = [s] := by
      cases s <;> first | rfl | exact absurd rfl (h1 _) | exact absurd rfl h2
    rw [this]
    simp only [Ty.members, mem_sortUnion, mem_pushNew]
  · simp only [Ty.members, List.not_mem_nil, false_or]
  · rename_i ss h1 h2
    have : t.members = [t] := by
      cases t <;> first | rfl | exact absurd rfl (h1 _) | exact absurd rfl h2
    rw [this]
    split
    · simp only [Ty.members, List.mem_singleton]
      exact ⟨.inr, fun h => h.elim (fun e => e ▸ ‹t ∈ ss›) id⟩
    · simp only [Ty.members, mem_sortUnion, List.mem_append]
      exact or_comm
  · rename_i h1 h2 h3 h4 h5
    have ht : t.members = [t] := by
      cases t <;> first | rfl | exact absurd rfl h2 | exact absurd rfl (h1 _)
    split
    · rename_i h
      rw [ht]
      rcases h with rfl | rfl
      · rw [ht]; simp
      · simp [Ty.members]
    · rename_i h
      have hs : s.members = [s] := by
        cases s <;> first | rfl | exact absurd rfl (h3 _) | simp at h
      rw [ht, hs]
      simp [Ty.members, mem_sortUnion]

theorem plainUnion_mem (hl : Lawful w M) {t s : Ty} {v : V} :
    M.mem v (plainUnion t s) ↔ M.mem v t ∨ M.mem v s := by
  rw [mem_members hl, mem_members hl (t := t), mem_members hl (t := s)]
  simp only [members_plainUnion, or_and_right, exists_or]

theorem plainUnion_good {i : Bool} {t s : Ty} (ht : Good w p q i t) (hs : Good w p q i s) :
    Good w p q i (plainUnion t s) := by
  have mem := fun u => (members_plainUnion (t := t) (s := s) (u := u)).mp
  have all : ∀ u ∈ (plainUnion t s).members, Good w p q i u := fun u hu =>
    (mem u hu).elim (ht.members u) (hs.members u)
  have key : ∀ us, us ≠ [] → us.Nodup → plainUnion t s = .union (sortUnion us) →
      Good w p q i (.union (sortUnion us)) := by
    intro us h1 h2 he
    rw [he] at all
    refine .union (fun h => ?_) (nodup_sortUnion h2) all
    obtain ⟨x, hx⟩ := List.exists_mem_of_ne_nil _ h1
    rw [← mem_sortUnion, h] at hx
    cases hx
  have push : ∀ {ts us : List Ty}, ts ≠ [] → pushNew ts us ≠ [] := by
    intro ts us h1 h2
    obtain ⟨x, hx⟩ := List.exists_mem_of_ne_nil _ h1
    have := (mem_pushNew (us := us)).mpr (.inl hx)
    rw [h2] at this
    cases this
  generalize hr : plainUnion t s = r at key ⊢
  unfold plainUnion at hr
  split at hr
  · subst hr
    cases ht with
    | union h1 h2 h3 => exact key _ (push h1) (nodup_pushNew h2) rfl
  · subst hr
    cases ht with
    | union h1 h2 h3 => exact key _ h1 h2 rfl
  · subst hr
    cases ht with
    | union h1 h2 h3 => exact key _ (push h1) (nodup_pushNew h2) rfl
  · subst hr; exact hs
  · split at hr
    · subst hr; exact hs
    · subst hr
      cases hs with
      | union h1 h2 h3 =>
        refine key _ (by simp) ?_ rfl
        rw [List.nodup_append]
        refine ⟨h2, by simp, fun a ha b hb => ?_⟩
        rw [List.mem_singleton] at hb
        subst hb
        rintro rfl
        exact ‹_ ∉ _› ha
  · split at hr
    · subst hr; exact ht
    · rename_i h
      subst hr
      refine key _ (by simp) ?_ rfl
      simp only [List.nodup_cons, List.mem_singleton, List.not_mem_nil, not_false_eq_true,
        List.nodup_nil]
      exact ⟨fun e => h (.inl e), trivial, trivial⟩

/-- A type that is within two others. -/
structure Lower (w : World) (M : Meaning V) (p q : Nat) (r t s : Ty) : Prop where
  left : Within M r t
  right : Within M r s
  good : Good w p q false r

theorem Lower.symm {r t s : Ty} (h : Lower w M p q r t s) : Lower w M p q r s t :=
  ⟨h.right, h.left, h.good⟩

theorem subUnion_lower (hl : Lawful w M) {f : Ty → Option (Option Ty)} {t s : Ty} :
    ∀ {us : List Ty} {r : Option Ty} {u : Ty}, subUnion f r us = some (some u) →
    (∀ x, r = some x → Lower w M p q x t s) →
    (∀ x ∈ us, ∀ y, f x = some (some y) → Lower w M p q y t s) → Lower w M p q u t s
  | [], r, u, h, hr, _ => by
    simp only [subUnion, Option.some.injEq] at h
    exact hr u h
  | x :: us, r, u, h, hr, hf => by
    simp only [subUnion] at h
    cases hx : f x with
    | none => rw [hx] at h; cases h
    | some o =>
      rw [hx] at h
      simp only [Option.bind_some] at h
      have hf' := fun x h => hf x (List.mem_cons_of_mem _ h)
      split at h
      · exact subUnion_lower hl h hr hf'
      · refine subUnion_lower hl h (fun y hy => ?_) hf'
        cases hy
        exact hf x (by simp) _ hx
      · refine subUnion_lower hl h (fun y hy => ?_) hf'
        cases hy
        have h1 := hr _ rfl
        have h2 := hf x (by simp) _ hx
        exact ⟨fun v hv => ((plainUnion_mem hl).mp hv).elim (h1.left v) (h2.left v),
          fun v hv => ((plainUnion_mem hl).mp hv).elim (h1.right v) (h2.right v),
          plainUnion_good h1.good h2.good⟩

theorem subZip_some {f : Ty → Ty → Option (Option Ty)} :
    ∀ {ts ss us : List Ty}, subZip f ts ss = some (some us) → ts.length = ss.length →
    us.length = ts.length ∧ ∀ (k : Nat) t s, ts[k]? = some t → ss[k]? = some s →
      ∃ u, us[k]? = some u ∧ f t s = some (some u)
  | [], [], us, h, _ => by
    simp only [subZip, Option.some.injEq] at h
    subst h
    exact ⟨rfl, fun k t s ht => by simp at ht⟩
  | [], _ :: _, _, _, hn => by simp at hn
  | _ :: _, [], _, _, hn => by simp at hn
  | t :: ts, s :: ss, us, h, hn => by
    simp only [subZip] at h
    cases hr : f t s with
    | none => rw [hr] at h; cases h
    | some o =>
      cases o with
      | none => rw [hr] at h; cases h
      | some u =>
        rw [hr] at h
        simp only [Option.bind_some, Option.map_eq_some_iff] at h
        obtain ⟨o, h1, h2⟩ := h
        obtain ⟨us', h3, rfl⟩ := h2
        subst h3
        obtain ⟨h4, h5⟩ := subZip_some h1 (by simpa using hn)
        refine ⟨by simp [h4], fun k t' s' ht hs => ?_⟩
        cases k with
        | zero =>
          simp only [List.getElem?_cons_zero, Option.some.injEq] at ht hs
          subst ht hs
          exact ⟨u, rfl, hr⟩
        | succ k => exact h5 k t' s' (by simpa using ht) (by simpa using hs)

/-- Tuples of items that are within. -/
theorem fixed_within (hl : Lawful w M) {us ts : List Ty} (hn : us.length = ts.length)
    (h : ∀ (k : Nat) u t, us[k]? = some u → ts[k]? = some t → Within M u t) :
    Within M (.fixed us) (.fixed ts) := by
  intro v hv
  obtain ⟨vs, h1, h2⟩ := (hl.fixed v us).mp hv
  exact (hl.fixed v ts).mpr ⟨vs, h1, each_map h2 hn h⟩

theorem fixed_arb_within (hl : Lawful w M) {us : List Ty} {t : Ty}
    (h : ∀ u ∈ us, Within M u t) : Within M (.fixed us) (.arb t) := by
  intro v hv
  obtain ⟨vs, h1, h2⟩ := (hl.fixed v us).mp hv
  refine (hl.arb v t).mpr ⟨vs, h1, fun x hx => ?_⟩
  obtain ⟨u, hu, hx⟩ := each_mem h2 x hx
  exact h u hu x hx

theorem arb_within (hl : Lawful w M) {u t : Ty} (h : Within M u t) :
    Within M (.arb u) (.arb t) := by
  intro v hv
  obtain ⟨vs, h1, h2⟩ := (hl.arb v u).mp hv
  exact (hl.arb v t).mpr ⟨vs, h1, fun x hx => h x (h2 x hx)⟩

theorem getElem?_map_const {α β : Type} {l : List α} {b : β} {k : Nat} {a : α}
    (h : l[k]? = some a) : (l.map fun _ => b)[k]? = some b := by
  rw [List.getElem?_map, h]; rfl

theorem exists_getElem? {α : Type} {l l' : List α} (hn : l.length = l'.length) {k : Nat} {a : α}
    (h : l[k]? = some a) : ∃ b, l'[k]? = some b := by
  have hk := (List.getElem?_eq_some_iff.mp h).1
  exact ⟨l'[k]'(by omega), List.getElem?_eq_getElem (by omega)⟩

theorem exists_getElem?' {α β : Type} {l : List α} {l' : List β} (hn : l.length = l'.length)
    {k : Nat} {a : α} (h : l[k]? = some a) : ∃ b, l'[k]? = some b := by
  have hk := (List.getElem?_eq_some_iff.mp h).1
  exact ⟨l'[k]'(by omega), List.getElem?_eq_getElem (by omega)⟩

theorem getElem?_mem {α : Type} {l : List α} {k : Nat} {a : α} (h : l[k]? = some a) : a ∈ l :=
  List.mem_of_getElem? h

/-- The induction hypothesis for `commonSub`. -/
def SubOk (w : World) (M : Meaning V) (p q n : Nat) : Prop :=
  ∀ t s r, Good w p q false t → Good w p q false s → commonSub w n t s = some (some r) →
    Lower w M p q r t s

/-- Items one by one. -/
theorem subZip_fixed {n : Nat} (hn : SubOk w M p q n) {ts ss us : List Ty}
    (gt : ∀ t ∈ ts, Good w p q false t) (gs : ∀ t ∈ ss, Good w p q false t)
    (hlen : ts.length = ss.length)
    (h : subZip (fun a b => commonSub w n a b) ts ss = some (some us)) :
    us.length = ts.length ∧ (∀ u ∈ us, Good w p q false u) ∧
    (∀ (k : Nat) u t, us[k]? = some u → ts[k]? = some t → Within M u t) ∧
    (∀ (k : Nat) u s, us[k]? = some u → ss[k]? = some s → Within M u s) := by
  obtain ⟨h1, h2⟩ := subZip_some h hlen
  have key : ∀ (k : Nat) u t s, us[k]? = some u → ts[k]? = some t → ss[k]? = some s →
      Lower w M p q u t s := by
    intro k u t s hu ht hs
    obtain ⟨u', h3, h4⟩ := h2 k t s ht hs
    rw [hu] at h3
    cases h3
    exact hn t s u (gt t (getElem?_mem ht)) (gs s (getElem?_mem hs)) h4
  refine ⟨h1, fun u hu => ?_, fun k u t hu ht => ?_, fun k u s hu hs => ?_⟩
  · obtain ⟨k, hu⟩ := List.mem_iff_getElem?.mp hu
    obtain ⟨t, ht⟩ := exists_getElem? h1 hu
    obtain ⟨s, hs⟩ := exists_getElem? hlen ht
    exact (key k u t s hu ht hs).good
  · obtain ⟨s, hs⟩ := exists_getElem? hlen ht
    exact (key k u t s hu ht hs).left
  · obtain ⟨t, ht⟩ := exists_getElem? hlen.symm hs
    exact (key k u t s hu ht hs).right

theorem subZip_const {n : Nat} (hn : SubOk w M p q n) {ts us : List Ty} {b : Ty}
    (gt : ∀ t ∈ ts, Good w p q false t) (gb : Good w p q false b)
    (h : subZip (fun a b => commonSub w n a b) ts (ts.map fun _ => b) = some (some us)) :
    us.length = ts.length ∧ (∀ u ∈ us, Good w p q false u) ∧
    (∀ (k : Nat) u t, us[k]? = some u → ts[k]? = some t → Within M u t) ∧
    ∀ u ∈ us, Within M u b := by
  obtain ⟨h1, h2, h3, h4⟩ := subZip_fixed hn gt (by simp only [List.mem_map]; rintro t ⟨_, _, rfl⟩; exact gb)
    (by simp) h
  refine ⟨h1, h2, h3, fun u hu => ?_⟩
  obtain ⟨k, hu⟩ := List.mem_iff_getElem?.mp hu
  obtain ⟨t, ht⟩ := exists_getElem? h1 hu
  exact h4 k u b hu (getElem?_map_const ht)

/-- Values of a tuple with all items are values of one with `*tuple[..]`. -/
theorem replicate_within (hl : Lawful w M) {pre post : List Ty} {mid : Ty} {k : Nat} :
    Within M (.fixed (pre ++ List.replicate k mid ++ post)) (.unpack pre mid post) := by
  intro v hv
  obtain ⟨vs, h1, h2⟩ := (hl.fixed v _).mp hv
  obtain ⟨xs, zs, rfl, h3, h4⟩ := each_split h2
  obtain ⟨xs, ys, rfl, h5, h6⟩ := each_split h3
  refine (hl.unpack v _ _ _).mpr ⟨xs, ys, zs, h1, h5, fun y hy => ?_, h4⟩
  obtain ⟨t, ht, hy⟩ := each_mem h6 y hy
  rw [(List.mem_replicate.mp ht).2] at hy
  exact hy

theorem fixedUnpack_ok {n : Nat} (hl : Lawful w M) (hn : SubOk w M p q n) {ts pre post : List Ty}
    {mid r : Ty} (gt : ∀ t ∈ ts, Good w p q false t)
    (gu : Good w p q false (.unpack pre mid post))
    (h : fixedUnpack w (n + 1) ts pre mid post = some (some r)) :
    Lower w M p q r (.fixed ts) (.unpack pre mid post) := by
  simp only [fixedUnpack] at h
  split at h
  · cases h
  · rename_i hlt
    simp only [Option.map_eq_some_iff] at h
    obtain ⟨o, h1, us, rfl, rfl⟩ := h
    cases gu with
    | unpack _ ha hc ga gb gc =>
      have hlen : ts.length =
          (pre ++ List.replicate (ts.length - (pre.length + post.length)) mid ++ post).length := by
        simp only [List.length_append, List.length_replicate]; omega
      obtain ⟨h2, h3, h4, h5⟩ := subZip_fixed hn gt (by
        intro t ht
        rcases List.mem_append.mp ht with ht | ht
        · rcases List.mem_append.mp ht with ht | ht
          · exact ga t ht
          · rw [(List.mem_replicate.mp ht).2]; exact gb
        · exact gc t ht) hlen h1
      exact ⟨fixed_within hl h2 h4,
        (fixed_within hl (h2.trans hlen) h5).trans (replicate_within hl), .fixed h3⟩

theorem unpackArb_ok {n : Nat} (hl : Lawful w M) (hn : SubOk w M p q n) {pre post : List Ty}
    {mid b r : Ty} (gu : Good w p q false (.unpack pre mid post)) (gb : Good w p q false b)
    (h : unpackArb w (n + 1) pre mid post b = some (some r)) :
    Lower w M p q r (.unpack pre mid post) (.arb b) := by
  simp only [unpackArb] at h
  cases hx : subZip (fun a b => commonSub w n a b) pre (pre.map fun _ => b) with
  | none => rw [hx] at h; cases h
  | some x =>
    rw [hx] at h
    cases x with
    | none => cases h
    | some x =>
      simp only [Option.bind_some] at h
      cases hy : commonSub w n mid b with
      | none => rw [hy] at h; cases h
      | some y =>
        rw [hy] at h
        cases y with
        | none => cases h
        | some y =>
          simp only [Option.bind_some, Option.map_eq_some_iff] at h
          obtain ⟨o, h1, z, rfl, rfl⟩ := h
          cases gu with
          | unpack h0 ha hc ga gm gc =>
            obtain ⟨x1, x2, x3, x4⟩ := subZip_const hn ga gb hx
            obtain ⟨z1, z2, z3, z4⟩ := subZip_const hn gc gb h1
            have hm := hn mid b y gm gb hy
            refine ⟨fun v hv => ?_, fun v hv => ?_,
              .unpack h0 (x1.trans ha) (z1.trans hc) x2 hm.good z2⟩
            · obtain ⟨xs, ys, zs, e1, e2, e3, e4⟩ := (hl.unpack v _ _ _).mp hv
              exact (hl.unpack v _ _ _).mpr ⟨xs, ys, zs, e1, each_map e2 x1 x3,
                fun a ha => hm.left a (e3 a ha), each_map e4 z1 z3⟩
            · obtain ⟨xs, ys, zs, e1, e2, e3, e4⟩ := (hl.unpack v _ _ _).mp hv
              refine (hl.arb v b).mpr ⟨_, e1, fun a ha => ?_⟩
              rcases List.mem_append.mp ha with ha | ha
              · rcases List.mem_append.mp ha with ha | ha
                · obtain ⟨t, ht, ha⟩ := each_mem e2 a ha
                  exact x4 t ht a ha
                · exact hm.right a (e3 a ha)
              · obtain ⟨t, ht, ha⟩ := each_mem e4 a ha
                exact z4 t ht a ha

theorem tupleSub_ok {n : Nat} (hl : Lawful w M) (hn : ∀ k ≤ n, SubOk w M p q k) {t s r : Ty}
    (gt : Good w p q false t) (gs : Good w p q false s)
    (h : tupleSub w n t s = some (some (some r))) : Lower w M p q r t s := by
  cases n with
  | zero => simp [tupleSub] at h
  | succ n =>
    have hn1 := hn n (by omega)
    unfold tupleSub at h
    split at h
    · split at h
      · simp at h
      · rename_i hlen
        simp only [ne_eq, Decidable.not_not] at hlen
        simp only [Option.some.injEq, Option.map_eq_some_iff] at h
        obtain ⟨o, h1, us, rfl, rfl⟩ := h
        cases gt with
        | fixed gt => cases gs with
          | fixed gs =>
            obtain ⟨h2, h3, h4, h5⟩ := subZip_fixed hn1 gt gs hlen h1
            exact ⟨fixed_within hl h2 h4, fixed_within hl (h2.trans hlen) h5, .fixed h3⟩
    · simp only [Option.some.injEq, Option.map_eq_some_iff] at h
      obtain ⟨o, h1, u, rfl, rfl⟩ := h
      cases gt with
      | arb gt => cases gs with
        | arb gs =>
          have := hn1 _ _ u gt gs h1
          exact ⟨arb_within hl this.left, arb_within hl this.right, .arb this.good⟩
    · simp only [Option.some.injEq, Option.map_eq_some_iff] at h
      obtain ⟨o, h1, us, rfl, rfl⟩ := h
      cases gt with
      | arb gt => cases gs with
        | fixed gs =>
          obtain ⟨h2, h3, h4, h5⟩ := subZip_const hn1 gs gt h1
          exact ⟨fixed_arb_within hl h5, fixed_within hl h2 h4, .fixed h3⟩
    · simp only [Option.some.injEq, Option.map_eq_some_iff] at h
      obtain ⟨o, h1, us, rfl, rfl⟩ := h
      cases gt with
      | fixed gt => cases gs with
        | arb gs =>
          obtain ⟨h2, h3, h4, h5⟩ := subZip_const hn1 gt gs h1
          exact ⟨fixed_within hl h2 h4, fixed_arb_within hl h5, .fixed h3⟩
    · simp only [Option.some.injEq] at h
      cases gt with
      | fixed gt =>
        cases n with
        | zero => simp [fixedUnpack] at h
        | succ n => exact fixedUnpack_ok hl (hn n (by omega)) gt gs h
    · simp only [Option.some.injEq] at h
      cases gs with
      | fixed gs =>
        cases n with
        | zero => simp [fixedUnpack] at h
        | succ n => exact (fixedUnpack_ok hl (hn n (by omega)) gs gt h).symm
    · simp only [Option.some.injEq] at h
      cases gs with
      | arb gs =>
        cases n with
        | zero => simp [unpackArb] at h
        | succ n => exact unpackArb_ok hl (hn n (by omega)) gt gs h
    · simp only [Option.some.injEq] at h
      cases gt with
      | arb gt =>
        cases n with
        | zero => simp [unpackArb] at h
        | succ n => exact (unpackArb_ok hl (hn n (by omega)) gs gt h).symm
    · simp only [Option.some.injEq] at h
      split at h
      · rename_i he
        obtain ⟨rfl, rfl, rfl⟩ := he
        cases h
        exact ⟨Within.refl _, Within.refl _, gt⟩
      · cases h
    · cases h

theorem type_within (hl : Lawful w M) {t s : Ty} (h : Within M t s) :
    Within M (.type t) (.type s) := fun v hv => hl.type v t s h hv

theorem commonSub_ok (hl : Lawful w M) (ht : Tame w p q) : ∀ n, ∀ k ≤ n, SubOk w M p q k
  | 0, k, hk => by
    obtain rfl : k = 0 := by omega
    intro t s r _ _ h
    simp [commonSub] at h
  | n + 1, k, hk => by
    have ih := commonSub_ok hl ht n
    by_cases hk' : k ≤ n
    · exact ih k hk'
    obtain rfl : k = n + 1 := by omega
    intro t s r gt gs h
    have hn := ih n (Nat.le_refl _)
    unfold commonSub at h
    split at h
    · cases gt with
      | union h1 h2 h3 =>
        refine subUnion_lower hl h (fun x hx => by cases hx) (fun x hx y hy => ?_)
        have := hn x s y (h3 x hx) gs hy
        exact ⟨fun v hv => (hl.union v _).mpr ⟨x, hx, this.left v hv⟩, this.right, this.good⟩
    · cases gs with
      | union h1 h2 h3 =>
        refine subUnion_lower hl h (fun x hx => by cases hx) (fun x hx y hy => ?_)
        have := hn x t y (h3 x hx) gt hy
        exact ⟨this.right, fun v hv => (hl.union v _).mpr ⟨x, hx, this.left v hv⟩, this.good⟩
    · cases gt
    · cases gs
    · simp only [Option.map_eq_some_iff] at h
      obtain ⟨o, h1, u, rfl, h2⟩ := h
      cases gt with
      | type gt => cases gs with
        | type gs =>
          have := hn _ _ u gt gs h1
          split at h2
          · rename_i he
            subst he h2
            exact ⟨Within.refl _, type_within hl this.right, .type gt⟩
          · split at h2
            · rename_i he
              subst he h2
              exact ⟨type_within hl this.left, Within.refl _, .type gs⟩
            · subst h2
              exact ⟨type_within hl this.left, type_within hl this.right, .type this.good⟩
    · split at h
      · rename_i o ho
        subst h
        exact tupleSub_ok hl ih gt gs ho
      · cases h1 : isSuper w n false s t with
        | none => rw [h1] at h; cases h
        | some m =>
          rw [h1] at h
          simp only [Option.bind_some] at h
          split at h
          · rename_i hm
            cases h
            exact ⟨Within.refl _, (sound hl ht n).super false s t m gs gt h1 hm, gt⟩
          · simp only [Option.map_eq_some_iff] at h
            obtain ⟨m', h2, h3⟩ := h
            split at h3
            · rename_i hm
              cases h3
              exact ⟨(sound hl ht n).super false t s m' gt gs h2 hm, Within.refl _, gs⟩
            · cases h3

end Verif.Sub
