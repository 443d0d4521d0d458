import Verif.Sub.Mono

/-! # Every type is accepted for itself -/

namespace Verif.Sub

open Verif.Match

variable {w : World}

/-- With enough fuel the type is accepted for itself in both ways. -/
def Own (w : World) (n : Nat) (t : Ty) : Prop :=
  ∀ k, n ≤ k → ∀ rev, (∃ m, isSuper w k rev t t = some m ∧ m.bool = true) ∧
    (∃ m, isSame w k rev t t = some m ∧ m.bool = true)

theorem Own.mono {n k : Nat} {t : Ty} (h : Own w n t) (hk : n ≤ k) : Own w k t :=
  fun j hj rev => h j (Nat.le_trans hk hj) rev

theorem own_list : ∀ {ts : List Ty}, (∀ t ∈ ts, ∃ n, Own w n t) → ∃ n, ∀ t ∈ ts, Own w n t
  | [], _ => ⟨0, fun t ht => absurd ht (by simp)⟩
  | t :: ts, h => by
    obtain ⟨a, ha⟩ := h t (by simp)
    obtain ⟨b, hb⟩ := own_list (ts := ts) (fun t ht => h t (by simp [ht]))
    refine ⟨max a b, fun t' ht' => ?_⟩
    rcases List.mem_cons.mp ht' with rfl | ht'
    · exact ha.mono (by omega)
    · exact (hb t' ht').mono (by omega)

theorem Own.matches {n : Nat} {t : Ty} (h : Own w n t) {k : Nat} (hk : n < k) (v : Variance)
    (rev : Bool) : ∃ m, Verif.Sub.matches w k v rev t t = some m ∧ m.bool = true := by
  cases k with
  | zero => omega
  | succ k =>
    cases v <;> simp only [Verif.Sub.matches]
    · exact (h k (by omega) rev).1
    · exact (h k (by omega) (!rev)).1
    · exact (h k (by omega) rev).2

theorem zipV_own {f : Variance → Ty → Ty → Option Match} : ∀ {ts : List Ty} {vs : List Variance}
    {r : Match}, r.bool = true → (∀ t ∈ ts, ∀ v, ∃ m, f v t t = some m ∧ m.bool = true) →
    ∃ m, zipV f r ts ts vs = some m ∧ m.bool = true
  | [], vs, r, hr, h => ⟨r, by simp [zipV], hr⟩
  | t :: ts, [], r, hr, h => ⟨r, by simp [zipV], hr⟩
  | t :: ts, v :: vs, r, hr, h => by
    obtain ⟨m, h1, h2⟩ := h t (by simp) v
    simp only [zipV, h1, Option.bind_some]
    exact zipV_own (and_true.mpr ⟨hr, h2⟩) (fun t' ht' => h t' (by simp [ht']))

theorem zipM_own {f : Ty → Ty → Option Match} : ∀ {ts : List Ty} {r : Match}, r.bool = true →
    (∀ t ∈ ts, ∃ m, f t t = some m ∧ m.bool = true) →
    ∃ m, zipM f r ts ts = some m ∧ m.bool = true
  | [], r, hr, h => ⟨r, by simp [zipM], hr⟩
  | t :: ts, r, hr, h => by
    obtain ⟨m, h1, h2⟩ := h t (by simp)
    simp only [zipM, h1, Option.bind_some]
    exact zipM_own (and_true.mpr ⟨hr, h2⟩) (fun t' ht' => h t' (by simp [ht']))

theorem matchesClass_own {n : Nat} {c : Nat} {as : List Ty} (h : ∀ a ∈ as, Own w n a) {k : Nat}
    (hk : n + 1 < k) (v : Variance) (rev : Bool) :
    ∃ m, matchesClass w k v rev c as c as = some m ∧ m.bool = true := by
  cases k with
  | zero => omega
  | succ k =>
    unfold matchesClass
    rw [if_neg (by simp)]
    split
    · exact ⟨_, rfl, rfl⟩
    · obtain ⟨m, h1, h2⟩ := zipV_own (f := fun p a b =>
          argMatches (fun v rev a b => «matches» w k v rev a b) rev (argVariance v p) a b)
        (ts := as) (vs := (w.cls c).params) (r := .newTrue) rfl
        (fun t ht p => by
          unfold argMatches
          split <;> exact (h t ht).matches (by omega) _ _)
      exact ⟨_, by rw [h1]; rfl, by rw [similar_true]; exact h2⟩

theorem unpack_own {n : Nat} {a : List Ty} {b : Ty} {c : List Ty} (ha : ∀ t ∈ a, Own w n t)
    (hb : Own w n b) (hc : ∀ t ∈ c, Own w n t) {k : Nat} (hk : n + 1 < k) (v : Variance)
    (rev : Bool) : ∃ m, matchUnpack w k v rev a b c (.unpack a b c) = some m ∧ m.bool = true := by
  cases k with
  | zero => omega
  | succ k =>
    unfold matchUnpack
    obtain ⟨m1, h1, h2⟩ := zipM_own (f := fun a b => «matches» w k v rev a b) (ts := a)
      (r := .newTrue) rfl (fun t ht => (ha t ht).matches (by omega) _ _)
    obtain ⟨m2, h3, h4⟩ := zipM_own (f := fun a b => «matches» w k v rev a b) (ts := c.reverse)
      (r := m1) h2 (fun t ht => (hc t (by simpa using ht)).matches (by omega) _ _)
    obtain ⟨m3, h5, h6⟩ := hb.matches (k := k) (by omega) v rev
    simp only [h1, h3, Option.bind_some, List.drop_length, Nat.sub_self, List.take_zero,
      List.nil_append, foldM, h5]
    exact ⟨_, rfl, and_true.mpr ⟨h4, h6⟩⟩

/-- From the comparison of the type itself, both ways. -/
theorem own_of_internal {n : Nat} {t : Ty} (h : ∀ k, n ≤ k → ∀ (v : Variance) rev, v ≠ .contra →
    ∃ m, internal w k v rev t t = some m ∧ m.bool = true) (hmro : ∃ rest, mro w t = t :: rest) :
    Own w (n + 1) t := by
  have ne : ∀ m : Match, m.bool = true → m ≠ .newFalse := by rintro m hm rfl; cases hm
  intro k hk rev
  cases k with
  | zero => omega
  | succ k =>
    constructor
    · obtain ⟨m, h1, h2⟩ := h k (by omega) .cov rev (by simp)
      refine ⟨m, ?_, h2⟩
      obtain ⟨rest, hr⟩ := hmro
      unfold isSuper
      rw [hr]
      simp [mroM, h1, ne m h2]
    · obtain ⟨m, h1, h2⟩ := h k (by omega) .inv rev (by simp)
      refine ⟨m, ?_, h2⟩
      unfold isSame
      simp [h1, orM, h2]

theorem mro_head (t : Ty) : ∃ rest, mro w t = t :: rest := by
  cases t <;> exact ⟨_, rfl⟩

theorem own : ∀ {t : Ty}, Usual t → ∃ n, Own w n t := by
  intro t h
  induction h with
  | any =>
    refine ⟨_, own_of_internal (n := 1) (fun k hk v rev _ => ?_) (mro_head _)⟩
    cases k with
    | zero => omega
    | succ k => exact ⟨_, by simp only [internal]; rfl, rfl⟩
  | never =>
    refine ⟨_, own_of_internal (n := 1) (fun k hk v rev _ => ?_) (mro_head _)⟩
    cases k with
    | zero => omega
    | succ k => exact ⟨_, by simp only [internal]; rfl, rfl⟩
  | none =>
    refine ⟨_, own_of_internal (n := 1) (fun k hk v rev _ => ?_) (mro_head _)⟩
    cases k with
    | zero => omega
    | succ k => exact ⟨_, by simp only [internal]; rfl, by simp [Ty.isNone, ofBool]; rfl⟩
  | lit l =>
    refine ⟨_, own_of_internal (n := 1) (fun k hk v rev _ => ?_) (mro_head _)⟩
    cases k with
    | zero => omega
    | succ k => exact ⟨_, by simp only [internal]; rfl, by simp [ofBool]; rfl⟩
  | newType l =>
    refine ⟨_, own_of_internal (n := 1) (fun k hk v rev _ => ?_) (mro_head _)⟩
    cases k with
    | zero => omega
    | succ k => exact ⟨_, by simp only [internal]; rfl, by simp [ofBool]; rfl⟩
  | cls _ ih =>
    obtain ⟨n, hn⟩ := own_list ih
    refine ⟨_, own_of_internal (n := n + 4) (fun k hk v rev _ => ?_) (mro_head _)⟩
    obtain ⟨k, rfl⟩ : ∃ j, k = j + 2 := ⟨k - 2, by omega⟩
    simp only [internal, classVsType]
    exact matchesClass_own hn (by omega) v rev
  | data _ ih =>
    obtain ⟨n, hn⟩ := own_list ih
    refine ⟨_, own_of_internal (n := n + 4) (fun k hk v rev _ => ?_) (mro_head _)⟩
    obtain ⟨k, rfl⟩ : ∃ j, k = j + 1 := ⟨k - 1, by omega⟩
    simp only [internal]
    exact matchesClass_own hn (by omega) .cov rev
  | @union ts _ ih =>
    have us : ∀ k, 1 ≤ k → ∀ rev, ∃ m, unionSuper w k rev ts (.union ts) = some m ∧
        m.bool = true := by
      intro k hk rev
      obtain ⟨k, rfl⟩ : ∃ j, k = j + 1 := ⟨k - 1, by omega⟩
      unfold unionSuper
      exact ⟨.newTrue, by simp only [beqs_refl, if_true], rfl⟩
    have cov : ∀ k, 2 ≤ k → ∀ rev, ∃ m, internal w k .cov rev (.union ts) (.union ts) = some m ∧
        m.bool = true := by
      intro k hk rev
      obtain ⟨k, rfl⟩ : ∃ j, k = j + 1 := ⟨k - 1, by omega⟩
      simp only [internal]
      rw [if_neg (by simp)]
      exact us k (by omega) rev
    have sup : ∀ k, 3 ≤ k → ∀ rev, ∃ m, isSuper w k rev (.union ts) (.union ts) = some m ∧
        m.bool = true := by
      intro k hk rev
      obtain ⟨k, rfl⟩ : ∃ j, k = j + 1 := ⟨k - 1, by omega⟩
      obtain ⟨m, h1, h2⟩ := cov k (by omega) rev
      refine ⟨m, ?_, h2⟩
      unfold isSuper
      rw [if_neg (by simp [Ty.nominal]), h1]
      simp only [Option.bind_some]
      rw [if_neg (by rintro rfl; cases h2)]
    refine ⟨_, own_of_internal (n := 4) (fun k hk v rev hv => ?_) (mro_head _)⟩
    cases v with
    | contra => exact absurd rfl hv
    | cov => exact cov k (by omega) rev
    | inv =>
      obtain ⟨k, rfl⟩ : ∃ j, k = j + 1 := ⟨k - 1, by omega⟩
      obtain ⟨m1, h1, h2⟩ := sup k (by omega) rev
      obtain ⟨m2, h3, h4⟩ := sup k (by omega) (!rev)
      refine ⟨_, ?_, and_true.mpr ⟨h2, h4⟩⟩
      simp only [internal, if_true, h1, h3, Option.bind_some, Option.map_some]
  | fixed _ ih =>
    obtain ⟨n, hn⟩ := own_list ih
    refine ⟨_, own_of_internal (n := n + 4) (fun k hk v rev _ => ?_) (mro_head _)⟩
    obtain ⟨k, rfl⟩ : ∃ j, k = j + 2 := ⟨k - 2, by omega⟩
    obtain ⟨m, h1, h2⟩ := zipM_own (f := fun a b => «matches» w k v rev a b) (r := .newTrue) rfl
      (fun t ht => (hn t ht).matches (by omega) _ _)
    simp only [internal, matchTuple, if_true, h1]
    exact ⟨_, rfl, by rw [similar_true]; exact h2⟩
  | arb _ ih =>
    obtain ⟨n, hn⟩ := ih
    refine ⟨_, own_of_internal (n := n + 4) (fun k hk v rev _ => ?_) (mro_head _)⟩
    obtain ⟨k, rfl⟩ : ∃ j, k = j + 2 := ⟨k - 2, by omega⟩
    obtain ⟨m, h1, h2⟩ := hn.matches (k := k) (by omega) v rev
    simp only [internal, matchTuple, h1]
    exact ⟨_, rfl, by rw [similar_true]; exact h2⟩
  | unpack _ _ _ iha ihb ihc =>
    obtain ⟨na, ha⟩ := own_list iha
    obtain ⟨nb, hb⟩ := ihb
    obtain ⟨nc, hc⟩ := own_list ihc
    refine ⟨_, own_of_internal (n := na + nb + nc + 5) (fun k hk v rev _ => ?_) (mro_head _)⟩
    obtain ⟨k, rfl⟩ : ∃ j, k = j + 2 := ⟨k - 2, by omega⟩
    obtain ⟨m, h1, h2⟩ := unpack_own (n := na + nb + nc) (k := k)
      (fun t ht => (ha t ht).mono (by omega)) (hb.mono (by omega))
      (fun t ht => (hc t ht).mono (by omega)) (by omega) v rev
    simp only [internal, matchTuple, h1]
    exact ⟨_, rfl, by rw [similar_true]; exact h2⟩
  | @type t hnt _ ih =>
    obtain ⟨n, hn⟩ := ih
    refine ⟨_, own_of_internal (n := n + 4) (fun k hk v rev _ => ?_) (mro_head _)⟩
    obtain ⟨k, rfl⟩ : ∃ j, k = j + 1 := ⟨k - 1, by omega⟩
    obtain ⟨m, h1, h2⟩ := hn.matches (k := k) (by omega) v rev
    have h3 : t.isNewType = false := by
      cases t <;> first | rfl | exact absurd rfl (hnt _)
    simp only [internal, h3, Bool.false_eq_true, if_false, h1, Option.map_some]
    refine ⟨_, rfl, ?_⟩
    split
    · exact h2
    · rw [similar_true]; exact h2

end Verif.Sub
