import Verif.Intersect.Lemmas

/-!
# Intersections: properties
-/

namespace Verif.Intersect

open Mro.Spec

variable {p : Program} {w : World} {s : Sets}

/-! ## C188 -/

/-- Python's rule for the layout of a class with these bases: among the ancestors with a layout of their
own there is one below all others, or there is none. -/
def LayoutFits (p : Program) (cs : List Nat) (b : Nat) : Prop :=
  (b = 0 ∨ p.solid b = true) ∧ (∃ c ∈ cs, Below p.table c b) ∧
    ∀ c ∈ cs, ∀ e, p.solid e = true → Below p.table c e → Below p.table b e

/-- C188: there is a conflict of disjoint bases iff Python has one, and otherwise the disjoint base is the
class from which Python takes the layout. -/
theorem disjoint_bases (hk : Knows w p) {cs : List Nat} (hne : cs ≠ []) (hc : ∀ c ∈ cs, c = 0 ∨ ∃ rest, (c, rest) ∈ p.table) :
    ((layout w cs).2 = false ↔ ∃ b, LayoutFits p cs b) ∧
    ((layout w cs).2 = false → ∃ b, (layout w cs).1 = some b ∧ LayoutFits p cs b) := by
  have second : (layout w cs).2 = false → ∃ b, (layout w cs).1 = some b ∧ LayoutFits p cs b := by
    intro h
    obtain ⟨h1, h2⟩ := layout_best hk hk.object.2 cs (none, false) [] (by simpa [Known] using hc) (fun _ => rfl)
      (fun d h => by cases h) h
    cases hl : (layout w cs).1 with
    | none => exact absurd (by simpa using h1 hl) hne
    | some b =>
      obtain ⟨a1, a2, a3⟩ := h2 b hl
      refine ⟨b, rfl, a1, by simpa using a2, fun c hcm e he hb => ?_⟩
      exact below_trans (a3 c (by simpa using hcm)) ((hk.disjoint c).2.2 e he hb)
  refine ⟨⟨fun h => ?_, ?_⟩, second⟩
  · obtain ⟨b, _, hb⟩ := second h
    exact ⟨b, hb⟩
  · rintro ⟨b, _, ⟨c0, hc0, hb0⟩, hall⟩
    exact layout_ok hk hk.object.2 (known_above (hc c0 hc0) hb0) cs (none, false) rfl (fun d h => by cases h)
      fun c hcm => ⟨hc c hcm, hall c hcm⟩

/-! ## C186, C187 -/

theorem newInstance_var_right {t : Ty} {n : Nat} (h : ¬ IsUnion t) :
    newInstance w t (.var n) = some (.inter (both t (.var n))) := by
  cases t <;> first | exact absurd trivial h | rw [newInstance]
  all_goals simp

theorem newInstance_var_left {t : Ty} {n : Nat} (h : ¬ IsUnion t) :
    newInstance w (.var n) t = some (.inter (both (.var n) t)) := by
  cases t <;> first | exact absurd trivial h | rw [newInstance]
  all_goals simp

theorem newInstance_union_left {t : Ty} {us : List Ty} :
    newInstance w (.union us) t = members (us.map fun u => newInstance w t u) := by
  rw [newInstance]
  · simp

theorem newInstance_union_right {t : Ty} {us : List Ty} (h : ¬ IsUnion t) :
    newInstance w t (.union us) = members (us.map fun u => newInstance w t u) := by
  cases t <;> first | exact absurd trivial h | rw [newInstance]
  all_goals simp

theorem newInstance_type {a b : Ty} : newInstance w (.type a) (.type b) = (newInstance w a b).map .type := by
  rw [newInstance]

def IsType : Ty → Prop
  | .type _ => True
  | _ => False

theorem newInstance_rest {t1 t2 : Ty} (h1 : ¬ IsUnion t1) (h2 : ¬ IsUnion t2) (h3 : ¬ IsVar t1) (h4 : ¬ IsVar t2)
    (h5 : ¬ (IsType t1 ∧ IsType t2)) :
    newInstance w t1 t2 = if keeps t1 t2 then some (.inter (both t1 t2)) else meet w t1 t2 := by
  cases t1 <;> cases t2 <;> first
    | exact absurd trivial h1
    | exact absurd trivial h2
    | exact absurd trivial h3
    | exact absurd trivial h4
    | exact absurd (show True ∧ True from ⟨trivial, trivial⟩) h5
    | (rw [newInstance] <;> simp)

theorem members_some {rs : List (Option Ty)} {t : Ty} (h : members rs = some t) : t = .union (rs.filterMap id) := by
  unfold members at h
  split at h
  · cases h
  · cases h; rfl

theorem members_of {rs : List (Option Ty)} {r : Ty} (h : some r ∈ rs) : members rs = some (.union (rs.filterMap id)) := by
  have : r ∈ rs.filterMap id := List.mem_filterMap.mpr ⟨_, h, rfl⟩
  unfold members
  rw [if_neg]
  intro he
  rw [List.isEmpty_iff.mp he] at this
  cases this

theorem meet_some {t1 t2 t : Ty} (h : meet w t1 t2 = some t) : t = .inter (both t1 t2) ∨ t = .inter (both t2 t1) := by
  unfold meet at h
  split at h
  · cases h
  split at h
  · cases h
  split at h
  · cases h
  split at h
  · cases h
  split at h
  · cases h; exact .inl rfl
  split at h
  · cases h; exact .inr rfl
  · cases h

theorem within (p : Program) (w : World) (s : Sets) (n : Nat) : ∀ (t1 t2 t : Ty) (v : Val), sizeOf t1 + sizeOf t2 = n →
    newInstance w t1 t2 = some t → In p s t v → In p s t1 v ∧ In p s t2 v := by
  induction n using Nat.strongRecOn with
  | ind n ih =>
    intro t1 t2 t v hn h hv
    have union : ∀ (us : List Ty) (o : Ty), (∀ u ∈ us, sizeOf o + sizeOf u < n) →
        members (us.map fun u => newInstance w o u) = some t → In p s o v ∧ In p s (.union us) v := by
      intro us o hsz hm
      rw [members_some hm] at hv
      simp only [In, inAny_iff] at hv ⊢
      obtain ⟨r, hr, hrv⟩ := hv
      obtain ⟨x, hx, hxr⟩ := List.mem_filterMap.mp hr
      obtain ⟨u, hu, rfl⟩ := List.mem_map.mp hx
      obtain ⟨h1, h2⟩ := ih _ (hsz u hu) o u r v rfl hxr hrv
      exact ⟨h1, u, hu, h2⟩
    by_cases h1 : IsUnion t1
    · cases t1 <;> first | cases h1 | skip
      rename_i us
      rw [newInstance_union_left] at h
      have := union us t2 (fun u hu => by
        have := List.sizeOf_lt_of_mem hu
        simp at hn; omega) h
      exact ⟨this.2, this.1⟩
    by_cases h2 : IsUnion t2
    · cases t2 <;> first | cases h2 | skip
      rename_i us
      rw [newInstance_union_right h1] at h
      exact union us t1 (fun u hu => by
        have := List.sizeOf_lt_of_mem hu
        simp at hn; omega) h
    by_cases h3 : IsVar t1
    · cases t1 <;> first | cases h3 | skip
      rw [newInstance_var_left h2] at h
      cases h
      exact in_both.mp hv
    by_cases h4 : IsVar t2
    · cases t2 <;> first | cases h4 | skip
      rw [newInstance_var_right h1] at h
      cases h
      exact in_both.mp hv
    by_cases h5 : IsType t1 ∧ IsType t2
    · obtain ⟨h5, h6⟩ := h5
      cases t1 <;> first | cases h5 | skip
      cases t2 <;> first | cases h6 | skip
      rename_i a b
      rw [newInstance_type] at h
      obtain ⟨r, hr, rfl⟩ := Option.map_eq_some_iff.mp h
      simp only [In] at hv ⊢
      obtain ⟨k, rfl, hk⟩ := hv
      obtain ⟨g1, g2⟩ := ih (sizeOf a + sizeOf b) (by simp at hn; omega) a b r _ rfl hr hk
      exact ⟨⟨k, rfl, g1⟩, k, rfl, g2⟩
    rw [newInstance_rest h1 h2 h3 h4 h5] at h
    split at h
    · cases h
      exact in_both.mp hv
    · rcases meet_some h with rfl | rfl
      · exact in_both.mp hv
      · exact (in_both.mp hv).symm

/-- C187, first half: every value of the intersection is a value of both types, for all types. -/
theorem intersection_within {t1 t2 t : Ty} (h : newInstance w t1 t2 = some t) (v : Val) (hv : In p s t v) :
    In p s t1 v ∧ In p s t2 v := within p w s _ t1 t2 t v rfl h hv

theorem classes_form {t : Ty} {a : List Nat} (h : t = .inter (a.map .cls) ∨ a.map .cls = [t]) :
    t.entries = a.map .cls ∧ t.intersectable = true ∧ ¬ IsUnion t ∧ ¬ IsVar t ∧ ¬ IsType t := by
  rcases h with rfl | h
  · exact ⟨rfl, rfl, (fun h => h), (fun h => h), fun h => h⟩
  · cases a with
    | nil => cases h
    | cons c a =>
      simp only [List.map_cons, List.cons.injEq] at h
      obtain ⟨rfl, h⟩ := h
      rw [List.map_eq_nil_iff.mp h]
      exact ⟨rfl, rfl, (fun h => h), (fun h => h), fun h => h⟩

theorem filterMap_cls (a : List Nat) : (a.map Ty.cls).filterMap Ty.asClass = a := by
  induction a with
  | nil => rfl
  | cons c a ih => simp [Ty.asClass, ih]

theorem other_class {cs : List Nat} (h2 : 2 ≤ cs.length) (hn : cs.Nodup) (c : Nat) : ∃ d ∈ cs, d ≠ c := by
  match cs, h2, hn with
  | a :: b :: cs, _, hn =>
    by_cases ha : a = c
    · refine ⟨b, by simp, ?_⟩
      rintro rfl
      simp [ha] at hn
    · exact ⟨a, by simp, ha⟩

/-- What `meet` finds for classes that have a common subclass. -/
theorem meet_classes (hk : Knows w p) {t1 t2 : Ty} {a b : List Nat} (h1 : t1 = .inter (a.map .cls) ∨ a.map .cls = [t1])
    (h2 : t2 = .inter (b.map .cls) ∨ b.map .cls = [t2]) (hu : Unrelated p (a ++ b)) {k : Nat}
    (hb : ∀ c ∈ a ++ b, Below p.table k c) :
    meet w t1 t2 = some (.inter (both t1 t2)) ∨ meet w t1 t2 = some (.inter (both t2 t1)) := by
  obtain ⟨e1, i1, _⟩ := classes_form h1
  obtain ⟨e2, i2, _⟩ := classes_form h2
  have ab : (both t1 t2).filterMap Ty.asClass = a ++ b := by
    rw [both, e1, e2, List.filterMap_append, filterMap_cls, filterMap_cls]
  have ba : (both t2 t1).filterMap Ty.asClass = b ++ a := by
    rw [both, e1, e2, List.filterMap_append, filterMap_cls, filterMap_cls]
  obtain ⟨hlen, hnd, hin, hun⟩ := id hu
  have hne0 : ∀ c ∈ a ++ b, c ≠ 0 := fun c hc => by
    obtain ⟨r, hr⟩ := hin c hc
    exact (order_nodup p.python p.known c r hr).2
  have hkn : ∀ c ∈ a ++ b, ∃ r, (k, r) ∈ p.table ∧ c ∈ r := by
    intro c hc
    rcases hb c hc with h | h | h
    · exact absurd h (hne0 c hc)
    · obtain ⟨d, hd, hdc⟩ := other_class hlen hnd c
      subst h
      exact absurd (hun k hc d hd (hb d hd)).symm hdc
    · exact h
  have hfin : hasFinal w (both t1 t2) = false := by
    unfold hasFinal
    rw [ab, List.any_eq_false]
    intro c hc
    obtain ⟨r, hr, hcr⟩ := hkn c hc
    obtain ⟨d, hd, hcd⟩ := is_base p.python k r hr c hcr (hne0 c hc)
    simp [hk.final d hd c hcd]
  have hval : valid w (a ++ b) = true := by
    unfold valid
    rw [linearizes hk hu hb]
    have hk' : Known p k := by
      obtain ⟨d, hd, _⟩ := other_class hlen hnd 0
      obtain ⟨r, hr, _⟩ := hkn d hd
      exact .inr ⟨r, hr⟩
    have : (layout w (a ++ b)).2 = false :=
      layout_ok hk hk.object.2 hk' (a ++ b) (none, false) rfl (fun d h => by cases h)
        fun c hc => ⟨.inr (hin c hc), fun e _ he => below_trans (hb c hc) he⟩
    rw [this]
    rfl
  unfold meet
  simp only [i1, i2, hfin, ab, ba, hval, Bool.not_true, Bool.false_eq_true, if_false]
  rcases hk.compatible k a b hb with h | h
  · left; rw [if_pos h]
  · by_cases h' : w.compatible (a ++ b) = true
    · left; rw [if_pos h']
    · right; rw [if_neg h', if_pos h]

theorem covers (hk : Knows w p) {t1 t2 : Ty} (hf : Fit p t1 t2) :
    ∀ v, In p s t1 v → In p s t2 v → ∃ t, newInstance w t1 t2 = some t ∧ In p s t v := by
  induction hf with
  | @classes t1 t2 a b h1 h2 ha hb hu =>
    intro v v1 v2
    obtain ⟨e1, i1, a1, a2, a3⟩ := classes_form h1
    obtain ⟨e2, i2, b1, b2, b3⟩ := classes_form h2
    rw [newInstance_rest a1 b1 a2 b2 (fun h => a3 h.1)]
    have hb : ∀ c ∈ a ++ b, Below p.table (p.classOf v) c := by
      have hboth := in_both.mpr ⟨v1, v2⟩
      simp only [In, inAll_iff, both, e1, e2] at hboth
      intro c hc
      have : Ty.cls c ∈ a.map Ty.cls ++ b.map Ty.cls := by
        rw [← List.map_append]
        exact List.mem_map.mpr ⟨c, hc, rfl⟩
      have := hboth _ this
      simpa [In] using this
    split
    · exact ⟨_, rfl, in_both.mpr ⟨v1, v2⟩⟩
    · rcases meet_classes hk h1 h2 hu hb with h | h
      · exact ⟨_, h, in_both.mpr ⟨v1, v2⟩⟩
      · exact ⟨_, h, in_both.mpr ⟨v2, v1⟩⟩
  | @noneL c h0 hc =>
    intro v v1 v2
    simp only [In] at v1 v2
    subst v1
    rcases p.none_below c v2 with h | h
    · exact absurd h h0
    · exact absurd h hc
  | @noneR c h0 hc =>
    intro v v1 v2
    simp only [In] at v1 v2
    subst v2
    rcases p.none_below c v1 with h | h
    · exact absurd h h0
    · exact absurd h hc
  | varL h =>
    intro v v1 v2
    exact ⟨_, newInstance_var_left h, in_both.mpr ⟨v1, v2⟩⟩
  | varR h =>
    intro v v1 v2
    exact ⟨_, newInstance_var_right h, in_both.mpr ⟨v1, v2⟩⟩
  | @kept ts t h1 h2 hu =>
    intro v v1 v2
    have hkeep : keeps (.inter ts) t = true := by
      obtain ⟨u, hu, hne⟩ := hu
      have hs : u.subclassable = false := by
        cases u <;> first | rfl | exact absurd rfl (hne _)
      simp only [keeps, Bool.or_eq_true, Bool.not_eq_true', List.any_eq_true]
      rcases List.mem_cons.mp hu with rfl | hu
      · exact .inl hs
      · exact .inr ⟨u, hu, by simp [hs]⟩
    rw [newInstance_rest (t1 := .inter ts) (fun h => h) h1 (fun h => h) h2 (fun h => h.1), if_pos hkeep]
    exact ⟨_, rfl, in_both.mpr ⟨v1, v2⟩⟩
  | @unionL us t _ ih =>
    intro v v1 v2
    simp only [In, inAny_iff] at v1
    obtain ⟨u, hu, hv⟩ := v1
    obtain ⟨r, hr, hrv⟩ := ih u hu v v2 hv
    have hm : some r ∈ us.map fun u => newInstance w t u := List.mem_map.mpr ⟨u, hu, hr⟩
    rw [newInstance_union_left, members_of hm]
    refine ⟨_, rfl, ?_⟩
    simp only [In, inAny_iff]
    exact ⟨r, List.mem_filterMap.mpr ⟨_, hm, rfl⟩, hrv⟩
  | @unionR us t hn _ ih =>
    intro v v1 v2
    simp only [In, inAny_iff] at v2
    obtain ⟨u, hu, hv⟩ := v2
    obtain ⟨r, hr, hrv⟩ := ih u hu v v1 hv
    have hm : some r ∈ us.map fun u => newInstance w t u := List.mem_map.mpr ⟨u, hu, hr⟩
    rw [newInstance_union_right hn, members_of hm]
    refine ⟨_, rfl, ?_⟩
    simp only [In, inAny_iff]
    exact ⟨r, List.mem_filterMap.mpr ⟨_, hm, rfl⟩, hrv⟩
  | type _ ih =>
    intro v v1 v2
    simp only [In] at v1 v2
    obtain ⟨k, rfl, hk1⟩ := v1
    obtain ⟨k', he, hk2⟩ := v2
    cases he
    obtain ⟨r, hr, hrv⟩ := ih _ hk1 hk2
    rw [newInstance_type, hr]
    refine ⟨_, rfl, ?_⟩
    simp only [In]
    exact ⟨k, rfl, hrv⟩

/-- C186: if there is no intersection, no value has both types, so that the code is unreachable. Missing are
callables with classes and classes of classes with metaclasses, see the theorems below. -/
theorem unreachable_partial (hk : Knows w p) {t1 t2 : Ty} (hf : Fit p t1 t2) (h : newInstance w t1 t2 = none) (v : Val) :
    ¬ (In p s t1 v ∧ In p s t2 v) := by
  rintro ⟨v1, v2⟩
  obtain ⟨t, ht, _⟩ := covers (s := s) hk hf v v1 v2
  rw [h] at ht
  cases ht

/-- C187: the values of the intersection are those of both types. Missing are, for the direction from right to
left, the types that are missing in C186. -/
theorem intersection_partial (hk : Knows w p) {t1 t2 t : Ty} (hf : Fit p t1 t2) (h : newInstance w t1 t2 = some t) (v : Val) :
    In p s t v ↔ In p s t1 v ∧ In p s t2 v := by
  constructor
  · exact within p w s _ t1 t2 t v rfl h
  · rintro ⟨v1, v2⟩
    obtain ⟨t', ht, hv⟩ := covers (s := s) hk hf v v1 v2
    rw [h] at ht
    cases ht
    exact hv

/-! ## C189 -/

/-- C189: looking something up in an intersection (`x[...]`, iteration) never panics; it reports something iff
all the entries fail, then the first issue of the first entry, and otherwise gives the result of the first entry
that does not fail. -/
theorem lookup_in_intersection {R : Type} (run : Ty → Attempt R) (ts : List Ty) (hne : ts ≠ []) :
    (∀ pre t post, ts = pre ++ t :: post → (∀ u ∈ pre, (run u).issues ≠ []) → (run t).issues = [] →
      getItem run ts = some (some (run t).result, [])) ∧
    ((∀ t ∈ ts, (run t).issues ≠ []) → ∃ t i, ts.head? = some t ∧ (run t).issues.head? = some i ∧
      getItem run ts = some (none, [i])) := by
  have ok : ∀ (pre : List Ty) (t : Ty) (post : List Ty) (f : Option Nat), (∀ u ∈ pre, (run u).issues ≠ []) →
      (run t).issues = [] → firstNonFailing run (pre ++ t :: post) f = some (.inl (run t).result) := by
    intro pre t post
    induction pre with
    | nil =>
      intro f _ h
      simp [firstNonFailing, h]
    | cons u pre ih =>
      intro f hp h
      simp only [List.cons_append, firstNonFailing]
      rw [if_neg (by simpa using hp u List.mem_cons_self)]
      exact ih _ (fun x hx => hp x (List.mem_cons_of_mem _ hx)) h
  have bad : ∀ (us : List Ty) (i : Nat), (∀ t ∈ us, (run t).issues ≠ []) →
      firstNonFailing run us (some i) = some (.inr i) := by
    intro us
    induction us with
    | nil => intro i _; rfl
    | cons u us ih =>
      intro i h
      simp only [firstNonFailing]
      rw [if_neg (by simpa using h u List.mem_cons_self)]
      exact ih i fun x hx => h x (List.mem_cons_of_mem _ hx)
  constructor
  · rintro pre t post rfl hp h
    unfold getItem
    rw [ok pre t post none hp h]
    rfl
  · intro h
    cases ts with
    | nil => exact absurd rfl hne
    | cons t ts =>
      have ht := h t List.mem_cons_self
      cases hi : (run t).issues with
      | nil => exact absurd hi ht
      | cons i is =>
        refine ⟨t, i, rfl, by rw [hi]; rfl, ?_⟩
        unfold getItem
        simp only [firstNonFailing]
        rw [if_neg (by simp [hi]), hi]
        rw [show (none : Option Nat).or (i :: is).head? = some i from rfl,
          bad ts i fun x hx => h x (List.mem_cons_of_mem _ hx)]
        rfl

/-- C189 for calls: nothing is reported if the first entry can be called. Missing is that another entry can be
called. -/
theorem execute_partial {R : Type} (run : Ty → Attempt R) (t : Ty) (ts : List Ty) (h : (run t).issues = []) :
    execute run (t :: ts) = some (some (run t).result, []) := by
  simp [execute, h]

/-- Calling a value of which it is known that it is an `A`, without `__call__`, and a `B`, with `__call__`, is
reported, because `execute` does not look at the issues; `x[...]` would find the second entry. -/
theorem execute_violation : ∃ (run : Ty → Attempt Nat) (a b : Ty),
    (run b).issues = [] ∧ execute run [a, b] = some (some 0, [7]) ∧ getItem run [a, b] = some (some 1, []) :=
  ⟨fun t => match t with
    | .cls 1 => ⟨0, [7]⟩
    | _ => ⟨1, []⟩, .cls 1, .cls 2, rfl, rfl, rfl⟩

/-! ## Examples -/

/-- `class A`, `class B`, `class M(type)`, `class C(A, B, metaclass=M)`, and `NoneType`. -/
def demo : Program where
  defs := [(3, [1, 2]), (4, []), (2, []), (1, []), (9, [])]
  table := [(3, [1, 2, 0]), (4, [0]), (2, [0]), (1, [0]), (9, [0])]
  python := by
    have obj : ∀ {table : List (Nat × List Nat)}, List.Forall₂ (HasOrder 0 table) (if ([] : List Nat) = [] then [0] else []) [[0]] :=
      .cons (.inl ⟨rfl, rfl⟩) .nil
    have m : Merge ([[0]] ++ [if ([] : List Nat) = [] then [0] else []]) [0] := Mro.merge_object.mpr rfl
    refine .cons (orders := [[1, 0], [2, 0]]) (.cons (.cons (.cons (.cons .nil obj m) obj m) obj m) obj m) ?_ ?_
    · exact .cons (.inr ⟨by decide, [0], by decide, rfl⟩) (.cons (.inr ⟨by decide, [0], by decide, rfl⟩) .nil)
    · refine .step (pre := []) (c := 1) (t := [0]) (post := [[2, 0], [1, 2]]) (by unfold Good; decide) (by simp) ?_
      refine .step (pre := [[0]]) (c := 2) (t := [0]) (post := [[2]]) (by unfold Good; decide) ?_ ?_
      · intro d u h
        simp at h
        obtain ⟨rfl, rfl⟩ := h
        unfold Good
        decide
      · refine .step (pre := []) (c := 0) (t := []) (post := [[0], []]) (by unfold Good; decide) (by simp) ?_
        exact .done (by decide)
  known := by simp [Scoped]
  solid := fun c => c == 1
  layouts := by
    intro k rest h
    simp at h
    rcases h with ⟨rfl, rfl⟩ | ⟨rfl, rfl⟩ | ⟨rfl, rfl⟩ | ⟨rfl, rfl⟩ | ⟨rfl, rfl⟩
    · refine ⟨1, by simp, by simp, fun e he hs => ?_⟩
      simp at hs
      subst hs
      exact .inr (.inl rfl)
    all_goals
      refine ⟨0, by simp, by simp, fun e he hs => ?_⟩
      simp at he hs
      omega
  metaclass := fun k => if k = 3 then 4 else 0
  noneType := 9
  none_below := by
    rintro c (h | h | ⟨r, h, hc⟩)
    · exact .inl h
    · exact .inr h.symm
    · simp at h
      subst h
      exact .inl (by simpa using hc)
  none_final := by
    rintro k (h | h | ⟨r, h, hc⟩)
    · cases h
    · exact h
    · simp at h
      rcases h with ⟨rfl, rfl⟩ | ⟨rfl, rfl⟩ | ⟨rfl, rfl⟩ | ⟨rfl, rfl⟩ | ⟨rfl, rfl⟩ <;> simp at hc

def demoWorld : World where
  mro c := if c = 3 then [1, 2] else []
  final c := c == 9
  disjoint c := if c = 3 ∨ c = 1 then 1 else 0
  compatible _ := true

theorem demo_knows : Knows demoWorld demo where
  mro := by
    intro c rest h
    simp [demo] at h
    rcases h with ⟨rfl, rfl⟩ | ⟨rfl, rfl⟩ | ⟨rfl, rfl⟩ | ⟨rfl, rfl⟩ | ⟨rfl, rfl⟩ <;> rfl
  final := by decide
  object := ⟨rfl, rfl⟩
  disjoint := by
    intro c
    have hb : Below demo.table c 1 ↔ c = 3 ∨ c = 1 := by
      simp only [Below, demo]
      constructor
      · rintro (h | h | ⟨r, h, hc⟩)
        · cases h
        · exact .inr h
        · simp at h
          rcases h with ⟨rfl, rfl⟩ | ⟨rfl, rfl⟩ | ⟨rfl, rfl⟩ | ⟨rfl, rfl⟩ | ⟨rfl, rfl⟩ <;> simp at hc ⊢
      · rintro (rfl | rfl)
        · exact .inr (.inr ⟨[1, 2, 0], by simp, by simp⟩)
        · exact .inr (.inl rfl)
    by_cases h : c = 3 ∨ c = 1
    · rw [show demoWorld.disjoint c = 1 by simp [demoWorld, h]]
      refine ⟨.inr rfl, hb.mpr h, fun e he _ => ?_⟩
      simp [demo] at he
      subst he
      exact .inr (.inl rfl)
    · rw [show demoWorld.disjoint c = 0 by simp [demoWorld, h]]
      refine ⟨.inl rfl, .inl rfl, fun e he hbe => ?_⟩
      simp [demo] at he
      subst he
      exact absurd (hb.mp hbe) h
  compatible := fun _ _ _ _ => .inl rfl

theorem demo_unrelated : Unrelated demo [1, 2] := by
  refine ⟨by simp, by decide, ?_, ?_⟩
  · intro c hc
    simp at hc
    rcases hc with rfl | rfl <;> exact ⟨[0], by simp [demo]⟩
  · intro a ha b hb h
    simp at ha hb
    rcases ha with rfl | rfl <;> rcases hb with rfl | rfl
    · rfl
    · rcases h with h | h | ⟨r, h, hc⟩
      · cases h
      · exact h
      · simp [demo] at h
        subst h
        simp at hc
    · rcases h with h | h | ⟨r, h, hc⟩
      · cases h
      · exact h
      · simp [demo] at h
        subst h
        simp at hc
    · rfl

theorem demo_fit : Fit demo (.cls 1) (.union [.cls 2, .nothing]) := by
  refine .unionR (fun h => h) fun u hu => ?_
  simp at hu
  rcases hu with rfl | rfl
  · exact .classes (a := [1]) (b := [2]) (.inr rfl) (.inr rfl) (by simp) (by simp) demo_unrelated
  · exact .noneR (by decide) (by decide)

/-- `x: A` with `isinstance(x, B)`: an instance of `C` is in the intersection. -/
example (s : Sets) : ∃ t, newInstance demoWorld (.cls 1) (.union [.cls 2, .nothing]) = some t ∧ In demo s t (.inst 3) := by
  refine covers demo_knows demo_fit _ ?_ ?_
  · simp only [In]
    exact .inr (.inr ⟨[1, 2, 0], by simp [demo, Program.classOf], by simp⟩)
  · simp only [In, InAny]
    exact .inl (.inr (.inr ⟨[1, 2, 0], by simp [demo, Program.classOf], by simp⟩))

/-- A class and `None`. -/
example (s : Sets) (v : Val) : ¬ (In demo s (.cls 1) v ∧ In demo s .nothing v) :=
  unreachable_partial demo_knows (.noneR (by decide) (by decide))
    (by rw [newInstance_rest (t1 := .cls 1) (t2 := .nothing) (fun h => h) (fun h => h) (fun h => h) (fun h => h) (fun h => h.1)]; rfl) v

/-- The layouts of `A` and `B`. -/
example : (layout demoWorld [1, 2]).2 = false ∧ (layout demoWorld [1, 2]).1 = some 1 := by decide

example : LayoutFits demo [1, 2] 1 := by
  obtain ⟨b, hb, hf⟩ := (disjoint_bases demo_knows (cs := [1, 2]) (by simp) (by
    intro c hc
    simp at hc
    rcases hc with rfl | rfl <;> exact .inr ⟨[0], by simp [demo]⟩)).2 (by decide)
  have : (layout demoWorld [1, 2]).1 = some 1 := by decide
  rw [this] at hb
  cases hb
  exact hf

/-- C186 fails for `x: Callable[[], None]` with `isinstance(x, A)`: a subclass of `A` may have `__call__`, but the code
is unreachable for the checker. -/
theorem callable_violation : ∃ (s : Sets) (v : Val), newInstance demoWorld (.callable 0) (.cls 1) = none ∧
    In demo s (.callable 0) v ∧ In demo s (.cls 1) v := by
  refine ⟨⟨fun _ v => v = .inst 3, fun _ _ => False, fun _ _ => False⟩, .inst 3, ?_, ?_, ?_⟩
  · rw [newInstance_rest (t1 := .callable 0) (t2 := .cls 1) (fun h => h) (fun h => h) (fun h => h) (fun h => h) (fun h => h.1)]
    rfl
  · simp [In]
  · simp only [In]
    exact .inr (.inr ⟨[1, 2, 0], by simp [demo, Program.classOf], by simp⟩)

/-- C186 fails for `x: type[A]` with `isinstance(x, M)` for a metaclass `M`: the class `C(A, metaclass=M)` has both types. -/
theorem metaclass_violation (s : Sets) : newInstance demoWorld (.type (.cls 1)) (.cls 4) = none ∧
    In demo s (.type (.cls 1)) (.klass 3) ∧ In demo s (.cls 4) (.klass 3) := by
  refine ⟨?_, ?_, ?_⟩
  · rw [newInstance_rest (t1 := .type (.cls 1)) (t2 := .cls 4) (fun h => h) (fun h => h) (fun h => h) (fun h => h) (fun h => h.2)]
    rfl
  · simp only [In]
    exact ⟨3, rfl, .inr (.inr ⟨[1, 2, 0], by simp [demo, Program.classOf], by simp⟩)⟩
  · simp only [In]
    exact .inr (.inl (by simp [demo, Program.classOf]))

end Verif.Intersect
