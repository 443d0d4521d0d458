import Verif.Intersect.Spec
import Verif.Mro.Props

/-!
# Intersections: lemmas
-/

namespace Verif.Intersect

open Mro.Spec

/-! ## Tables -/

theorem forall2_mem_left {α β : Type} {R : α → β → Prop} {l : List α} {m : List β} (h : List.Forall₂ R l m) :
    ∀ a ∈ l, ∃ b ∈ m, R a b := by
  induction h with
  | nil => simp
  | cons h _ ih =>
    intro a ha
    rcases List.mem_cons.mp ha with rfl | ha
    · exact ⟨_, List.mem_cons_self, h⟩
    · obtain ⟨b, hb, hr⟩ := ih a ha
      exact ⟨b, List.mem_cons_of_mem _ hb, hr⟩

theorem forall2_mem_right {α β : Type} {R : α → β → Prop} {l : List α} {m : List β} (h : List.Forall₂ R l m) :
    ∀ b ∈ m, ∃ a ∈ l, R a b := by
  induction h with
  | nil => simp
  | cons h _ ih =>
    intro b hb
    rcases List.mem_cons.mp hb with rfl | hb
    · exact ⟨_, List.mem_cons_self, h⟩
    · obtain ⟨a, ha, hr⟩ := ih b hb
      exact ⟨a, List.mem_cons_of_mem _ ha, hr⟩

theorem names {defs table : List (Nat × List Nat)} (h : Python 0 defs table) :
    ∀ k rest, (k, rest) ∈ table → ∃ d ∈ defs, d.1 = k := by
  induction h with
  | nil => simp
  | cons _ _ _ ih =>
    intro k rest hk
    rcases List.mem_cons.mp hk with he | hk
    · cases he
      exact ⟨_, List.mem_cons_self, rfl⟩
    · obtain ⟨d, hd, rfl⟩ := ih k rest hk
      exact ⟨d, List.mem_cons_of_mem _ hd, rfl⟩

/-- Classes in an order are `object` or known, with an order that is kept. -/
theorem ancestor {defs table : List (Nat × List Nat)} (h : Python 0 defs table) :
    ∀ k rest, (k, rest) ∈ table → ∀ a ∈ rest, a ≠ 0 → ∃ r, (a, r) ∈ table ∧ (a :: r).Sublist rest := by
  induction h with
  | nil => simp
  | @cons defs table name bases orders out hp ho hm ih =>
    intro k rest hk a ha h0
    rcases List.mem_cons.mp hk with he | hk
    · cases he
      obtain ⟨p1, p2, _⟩ := Mro.merge_props hm
      have base : ∀ b r, b ≠ 0 → (b, r) ∈ table → (b :: r) ∈ orders → a ∈ b :: r →
          ∃ r, (a, r) ∈ (name, out) :: table ∧ (a :: r).Sublist out := by
        intro b r _ hb hbo hab
        have hs := p1 _ (List.mem_append_left _ hbo)
        rcases List.mem_cons.mp hab with rfl | hab
        · exact ⟨r, List.mem_cons_of_mem _ hb, hs⟩
        · obtain ⟨r', hr', hsub⟩ := ih b r hb a hab h0
          exact ⟨r', List.mem_cons_of_mem _ hr', (hsub.trans (List.sublist_cons_self _ _)).trans hs⟩
      obtain ⟨s, hs, has⟩ := p2 a ha
      rcases List.mem_append.mp hs with hs | hs
      · obtain ⟨b, _, hb⟩ := forall2_mem_right ho s hs
        rcases hb with ⟨_, rfl⟩ | ⟨hb0, r, hr, rfl⟩
        · exact absurd (by simpa using has) h0
        · exact base b r hb0 hr hs has
      · have hsb := List.mem_singleton.mp hs
        rw [hsb] at has
        obtain ⟨o, hoo, hb⟩ := forall2_mem_left ho a has
        rcases hb with ⟨h, _⟩ | ⟨_, r, hr, rfl⟩
        · exact absurd h h0
        · exact base a r h0 hr hoo List.mem_cons_self
    · obtain ⟨r, hr, hs⟩ := ih k rest hk a ha h0
      exact ⟨r, List.mem_cons_of_mem _ hr, hs⟩

/-- A class is not in its own order, and an order has no repetition. -/
theorem order_nodup {defs table : List (Nat × List Nat)} (h : Python 0 defs table) :
    Scoped 0 defs → ∀ k rest, (k, rest) ∈ table → (k :: rest).Nodup ∧ k ≠ 0 := by
  induction h with
  | nil => simp
  | @cons defs table name bases orders out hp ho hm ih =>
    intro hsc k rest hk
    obtain ⟨n0, nnew, _, _, hsc'⟩ := hsc
    rcases List.mem_cons.mp hk with he | hk
    · cases he
      obtain ⟨_, p2, p3⟩ := Mro.merge_props hm
      refine ⟨List.nodup_cons.mpr ⟨?_, p3⟩, n0⟩
      intro hin
      obtain ⟨r, hr, hs⟩ := ancestor (.cons hp ho hm) name out List.mem_cons_self name hin n0
      rcases List.mem_cons.mp hr with he | hr
      · cases he
        have := hs.length_le
        simp only [List.length_cons] at this
        omega
      · obtain ⟨d, hd, hdk⟩ := names hp name r hr
        exact nnew d hd hdk
    · exact ih hsc' k rest hk

theorem table_unique {defs table : List (Nat × List Nat)} (h : Python 0 defs table) :
    Scoped 0 defs → ∀ k r r', (k, r) ∈ table → (k, r') ∈ table → r = r' := by
  induction h with
  | nil => simp
  | @cons defs table name bases orders out hp ho hm ih =>
    intro hsc k r r' h1 h2
    obtain ⟨_, nnew, _, _, hsc'⟩ := hsc
    rcases List.mem_cons.mp h1 with e1 | h1 <;> rcases List.mem_cons.mp h2 with e2 | h2
    · cases e1; cases e2; rfl
    · cases e1
      obtain ⟨d, hd, hdk⟩ := names hp _ _ h2
      exact absurd hdk (nnew d hd)
    · cases e2
      obtain ⟨d, hd, hdk⟩ := names hp _ _ h1
      exact absurd hdk (nnew d hd)
    · exact ih hsc' k r r' h1 h2

/-- Whatever is in an order is `object` or a base of some class. -/
theorem is_base {defs table : List (Nat × List Nat)} (h : Python 0 defs table) :
    ∀ k rest, (k, rest) ∈ table → ∀ a ∈ rest, a ≠ 0 → ∃ d ∈ defs, a ∈ d.2 := by
  induction h with
  | nil => simp
  | @cons defs table name bases orders out hp ho hm ih =>
    intro k rest hk a ha h0
    rcases List.mem_cons.mp hk with he | hk
    · cases he
      obtain ⟨_, p2, _⟩ := Mro.merge_props hm
      have inBases : a ∈ (if bases = [] then [0] else bases) → ∃ d ∈ (name, bases) :: defs, a ∈ d.2 := by
        intro hb
        refine ⟨_, List.mem_cons_self, ?_⟩
        by_cases hn : bases = []
        · rw [if_pos hn] at hb
          exact absurd (by simpa using hb) h0
        · rwa [if_neg hn] at hb
      obtain ⟨s, hs, has⟩ := p2 a ha
      rcases List.mem_append.mp hs with hs | hs
      · obtain ⟨b, hbb, hb⟩ := forall2_mem_right ho s hs
        rcases hb with ⟨_, rfl⟩ | ⟨hb0, r, hr, rfl⟩
        · exact absurd (by simpa using has) h0
        · rcases List.mem_cons.mp has with rfl | has
          · exact inBases hbb
          · obtain ⟨d, hd, hx⟩ := ih b r hr a has h0
            exact ⟨d, List.mem_cons_of_mem _ hd, hx⟩
      · rw [List.mem_singleton.mp hs] at has
        exact inBases has
    · obtain ⟨d, hd, hx⟩ := ih k rest hk a ha h0
      exact ⟨d, List.mem_cons_of_mem _ hd, hx⟩

variable {p : Program} {w : World}

theorem below_trans {a b c : Nat} (h1 : Below p.table a b) (h2 : Below p.table b c) : Below p.table a c := by
  rcases h2 with h2 | rfl | ⟨r2, h2, hc⟩
  · exact .inl h2
  · exact h1
  · have hb0 := (order_nodup p.python p.known b r2 h2).2
    rcases h1 with h1 | rfl | ⟨r1, h1, hb⟩
    · exact absurd h1 hb0
    · exact .inr (.inr ⟨r2, h2, hc⟩)
    · obtain ⟨r, hr, hs⟩ := ancestor p.python a r1 h1 b hb hb0
      obtain rfl := table_unique p.python p.known b r r2 hr h2
      exact .inr (.inr ⟨r1, h1, hs.subset (List.mem_cons_of_mem _ hc)⟩)

theorem inMro_iff (hk : Knows w p) {c e : Nat} (hc : c = 0 ∨ ∃ rest, (c, rest) ∈ p.table) (h0 : w.mro 0 = []) :
    inMro w c e = true ↔ Below p.table c e := by
  unfold inMro Below
  simp only [Bool.or_eq_true, beq_iff_eq, List.contains_iff_mem]
  rcases hc with rfl | ⟨rest, hr⟩
  · have : ¬ ∃ rest, (0, rest) ∈ p.table ∧ e ∈ rest := by
      rintro ⟨r, hr, _⟩
      exact (order_nodup p.python p.known 0 r hr).2 rfl
    rw [h0]
    simp only [List.not_mem_nil, this]
    grind
  · have hm := hk.mro c rest hr
    constructor
    · rintro ((h | h) | h)
      · exact .inr (.inl h)
      · exact .inl h
      · exact .inr (.inr ⟨rest, hr, hm ▸ List.mem_append_left _ h⟩)
    · rintro (h | h | ⟨r, h, he⟩)
      · exact .inl (.inr h)
      · exact .inl (.inl h)
      · obtain rfl := table_unique p.python p.known c r rest h hr
        rw [hm] at he
        rcases List.mem_append.mp he with he | he
        · exact .inr he
        · exact .inl (.inr (by simpa using he))

/-- Two classes with a layout of their own that are above the same class are above one another. -/
theorem chain (n : Nat) : ∀ (k : Nat) (rest : List Nat), rest.length = n → (k, rest) ∈ p.table → ∀ d e : Nat,
    Below p.table k d → Below p.table k e → (d = 0 ∨ p.solid d = true) → (e = 0 ∨ p.solid e = true) →
    Below p.table d e ∨ Below p.table e d := by
  induction n using Nat.strongRecOn with
  | ind n ih =>
    intro k rest hn hr d e hd he sd se
    by_cases hd0 : d = 0
    · exact .inr (.inl hd0)
    by_cases he0 : e = 0
    · exact .inl (.inl he0)
    by_cases hkd : k = d
    · exact .inl (hkd ▸ he)
    by_cases hke : k = e
    · exact .inr (hke ▸ hd)
    have sd := sd.resolve_left hd0
    have se := se.resolve_left he0
    have mem : ∀ x, Below p.table k x → x ≠ 0 → k ≠ x → x ∈ rest := by
      rintro x (h | h | ⟨r, h, hx⟩) h0 hne
      · exact absurd h h0
      · exact absurd h hne
      · exact table_unique p.python p.known k r rest h hr ▸ hx
    obtain ⟨b, hb, _, hall⟩ := p.layouts k rest hr
    have bd := hall d (mem d hd hd0 hkd) sd
    have be := hall e (mem e he he0 hke) se
    by_cases hb0 : b = 0
    · subst hb0
      rcases bd with h | h | ⟨r, h, _⟩
      · exact absurd h hd0
      · exact absurd h.symm hd0
      · exact absurd rfl (order_nodup p.python p.known 0 r h).2
    · obtain ⟨r, hbr, hs⟩ := ancestor p.python k rest hr b hb hb0
      have hl := hs.length_le
      simp only [List.length_cons] at hl
      exact ih r.length (by omega) b r rfl hbr d e bd be (.inr sd) (.inr se)

/-! ## The loop over disjoint bases -/

theorem layoutStep_true (cs : List Nat) : ∀ (s : Option Nat × Bool), s.2 = true → (cs.foldl (layoutStep w) s).2 = true := by
  induction cs with
  | nil => intro s h; exact h
  | cons c cs ih =>
    intro s h
    refine ih _ ?_
    unfold layoutStep
    split
    · exact h
    · split
      · exact h
      · split
        · exact h
        · split
          · rfl
          · exact h

/-- A class of the program or `object`. -/
def Known (p : Program) (c : Nat) : Prop := c = 0 ∨ ∃ rest, (c, rest) ∈ p.table

theorem chain_known {k d e : Nat} (hk : Known p k) (hd : Below p.table k d) (he : Below p.table k e)
    (sd : d = 0 ∨ p.solid d = true) (se : e = 0 ∨ p.solid e = true) : Below p.table d e ∨ Below p.table e d := by
  rcases hk with rfl | ⟨rest, hr⟩
  · rcases hd with h | h | ⟨r, h, _⟩
    · exact .inr (.inl h)
    · exact .inr (.inl h.symm)
    · exact absurd rfl (order_nodup p.python p.known 0 r h).2
  · exact chain rest.length k rest rfl hr d e hd he sd se

theorem known_above {a b : Nat} (ha : Known p a) (h : Below p.table a b) : Known p b := by
  rcases h with h | rfl | ⟨r, h, hb⟩
  · exact .inl h
  · exact ha
  · by_cases h0 : b = 0
    · exact .inl h0
    · obtain ⟨r', hr', _⟩ := ancestor p.python a r h b hb h0
      exact .inr ⟨r', hr'⟩

/-- No conflict if all layouts are above one class. -/
theorem layout_ok (hk : Knows w p) (h0 : w.mro 0 = []) {k : Nat} (hkn : Known p k) (cs : List Nat) :
    ∀ (s : Option Nat × Bool), s.2 = false →
    (∀ d, s.1 = some d → (d = 0 ∨ p.solid d = true) ∧ Below p.table k d) →
    (∀ c ∈ cs, Known p c ∧ ∀ e, p.solid e = true → Below p.table c e → Below p.table k e) →
    (cs.foldl (layoutStep w) s).2 = false := by
  induction cs with
  | nil => intro s h _ _; exact h
  | cons c cs ih =>
    intro s hs hd hc
    obtain ⟨hcn, hce⟩ := hc c List.mem_cons_self
    obtain ⟨ds, db, dm⟩ := hk.disjoint c
    have hnew : Below p.table k (w.disjoint c) := by
      rcases ds with ds | ds
      · exact .inl ds
      · exact hce _ ds db
    have hstep : (layoutStep w s c).2 = false ∧
        ∀ d, (layoutStep w s c).1 = some d → (d = 0 ∨ p.solid d = true) ∧ Below p.table k d := by
      unfold layoutStep
      split
      · exact ⟨hs, fun d h => by cases h; exact ⟨ds, hnew⟩⟩
      · rename_i cur hcur
        obtain ⟨cs', cb⟩ := hd cur hcur
        split
        · exact ⟨hs, hd⟩
        · split
          · exact ⟨hs, fun d h => by cases h; exact ⟨ds, hnew⟩⟩
          · rename_i hne hin
            split
            · rename_i hno
              exfalso
              rcases chain_known hkn cb hnew cs' ds with h | h
              · rw [(inMro_iff hk (known_above hkn cb) h0).mpr h] at hno
                exact absurd hno (by simp)
              · exact hin ((inMro_iff hk hcn h0).mpr (below_trans db h))
            · exact ⟨hs, hd⟩
    exact ih _ hstep.1 hstep.2 fun c' h' => hc c' (List.mem_cons_of_mem _ h')

/-- Without a conflict the result is below all layouts. -/
theorem layout_best (hk : Knows w p) (h0 : w.mro 0 = []) (cs : List Nat) :
    ∀ (s : Option Nat × Bool) (old : List Nat), (∀ c ∈ old ++ cs, Known p c) → (s.1 = none → old = []) →
    (∀ d, s.1 = some d → (d = 0 ∨ p.solid d = true) ∧ (∃ c ∈ old, Below p.table c d) ∧
      ∀ c ∈ old, Below p.table d (w.disjoint c)) →
    (cs.foldl (layoutStep w) s).2 = false →
    ((cs.foldl (layoutStep w) s).1 = none → old ++ cs = []) ∧
    ∀ d, (cs.foldl (layoutStep w) s).1 = some d → (d = 0 ∨ p.solid d = true) ∧ (∃ c ∈ old ++ cs, Below p.table c d) ∧
      ∀ c ∈ old ++ cs, Below p.table d (w.disjoint c) := by
  induction cs with
  | nil =>
    intro s old hkn hn hd _
    simp only [List.append_nil, List.foldl_nil]
    exact ⟨hn, hd⟩
  | cons c cs ih =>
    intro s old hkn hn hd hf
    obtain ⟨ds, db, dm⟩ := hk.disjoint c
    have hf' : (layoutStep w s c).2 = false := by
      cases hb : (layoutStep w s c).2
      · rfl
      · have := layoutStep_true (w := w) cs (layoutStep w s c) hb
        rw [List.foldl_cons] at hf
        rw [hf] at this
        exact absurd this (by simp)
    have hcn : Known p c := hkn c (by simp)
    have hstep : ((layoutStep w s c).1 = none → old ++ [c] = []) ∧
        ∀ d, (layoutStep w s c).1 = some d → (d = 0 ∨ p.solid d = true) ∧ (∃ x ∈ old ++ [c], Below p.table x d) ∧
          ∀ x ∈ old ++ [c], Below p.table d (w.disjoint x) := by
      revert hf'
      unfold layoutStep
      split
      · rename_i hnone
        intro _
        rw [hn hnone]
        refine ⟨(fun h => by cases h), fun d h => ?_⟩
        cases h
        exact ⟨ds, ⟨c, by simp, db⟩, fun x hx => by simp at hx; subst hx; exact .inr (.inl rfl)⟩
      · rename_i cur hcur
        obtain ⟨cs', ⟨x0, hx0, hxb⟩, call⟩ := hd cur hcur
        have keep : Below p.table cur (w.disjoint c) → ((s.1 = none → old ++ [c] = []) ∧
            ∀ d, s.1 = some d → (d = 0 ∨ p.solid d = true) ∧ (∃ x ∈ old ++ [c], Below p.table x d) ∧
            ∀ x ∈ old ++ [c], Below p.table d (w.disjoint x)) := by
          intro hb
          refine ⟨(fun h => by rw [hcur] at h; cases h), fun d h => ?_⟩
          rw [hcur] at h
          cases h
          refine ⟨cs', ⟨x0, List.mem_append_left _ hx0, hxb⟩, fun x hx => ?_⟩
          rcases List.mem_append.mp hx with hx | hx
          · exact call x hx
          · rw [List.mem_singleton.mp hx]; exact hb
        split
        · rename_i he
          intro _
          exact keep (.inr (.inl (by simpa using he)))
        · split
          · rename_i hin
            intro _
            refine ⟨(fun h => by cases h), fun d h => ?_⟩
            cases h
            have hcc := (inMro_iff hk hcn h0).mp hin
            have hdc : Below p.table (w.disjoint c) cur := by
              rcases cs' with h | h
              · exact .inl h
              · exact dm cur h hcc
            refine ⟨ds, ⟨c, by simp, db⟩, fun x hx => ?_⟩
            rcases List.mem_append.mp hx with hx | hx
            · exact below_trans hdc (call x hx)
            · rw [List.mem_singleton.mp hx]; exact .inr (.inl rfl)
          · split
            · intro h; exact absurd h (by simp)
            · rename_i hno
              intro _
              refine keep ((inMro_iff hk (known_above (hkn x0 (List.mem_append_left _ hx0)) hxb) h0).mp ?_)
              simpa using hno
    have := ih (layoutStep w s c) (old ++ [c]) (by simpa using hkn) hstep.1 hstep.2 hf
    simpa using this

/-! ## The order -/

/-- If a class is below all of the unrelated classes, they can be bases in any order. -/
theorem linearizes (hk : Knows w p) {cs : List Nat} (hu : Unrelated p cs) {k : Nat}
    (hb : ∀ c ∈ cs, Below p.table k c) : (Mro.linearize 0 (cs.map fun c => (c, w.mro c))).2 = true := by
  obtain ⟨hlen, hnd, hin, hun⟩ := hu
  have hne0 : ∀ c ∈ cs, c ≠ 0 := fun c hc => by
    obtain ⟨r, hr⟩ := hin c hc
    exact (order_nodup p.python p.known c r hr).2
  -- the order of the class below
  have hkt : ∃ rest, (k, rest) ∈ p.table := by
    cases cs with
    | nil => simp at hlen
    | cons c cs =>
      rcases hb c List.mem_cons_self with h | h | ⟨r, h, _⟩
      · exact absurd h (hne0 c List.mem_cons_self)
      · exact h ▸ hin c List.mem_cons_self
      · exact ⟨r, h⟩
  obtain ⟨rest, hr⟩ := hkt
  have hord := (order_nodup p.python p.known k rest hr).1
  have hsub : ∀ c ∈ cs, (c :: (w.mro c ++ [0])).Sublist (k :: rest) := by
    intro c hc
    obtain ⟨r, hcr⟩ := hin c hc
    rw [← hk.mro c r hcr]
    rcases hb c hc with h | h | ⟨r', h, hcr'⟩
    · exact absurd h (hne0 c hc)
    · subst h
      obtain rfl := table_unique p.python p.known k r rest hcr hr
      exact List.Sublist.refl _
    · obtain rfl := table_unique p.python p.known k r' rest h hr
      obtain ⟨r'', h'', hs⟩ := ancestor p.python k r' h c hcr' (hne0 c hc)
      obtain rfl := table_unique p.python p.known c r'' r h'' hcr
      exact hs.trans (List.sublist_cons_self _ _)
  let out := cs ++ (k :: rest).filter (fun x => !cs.contains x)
  have hout : out.Nodup := by
    refine List.nodup_append.mpr ⟨hnd, hord.filter _, ?_⟩
    intro a ha b hb' hab
    subst hab
    simp at hb'
    exact hb'.2 ha
  have hseq : ∀ s ∈ (cs.map fun c => (c, w.mro c)).map (orderOf 0) ++ [(cs.map fun c => (c, w.mro c)).map (·.1)],
      s.Sublist out := by
    intro s hs
    rcases List.mem_append.mp hs with hs | hs
    · simp only [List.map_map, List.mem_map, Function.comp] at hs
      obtain ⟨c, hc, rfl⟩ := hs
      simp only [orderOf, hne0 c hc, if_false]
      have h1 : [c].Sublist cs := List.singleton_sublist.mpr hc
      have h2 : (w.mro c ++ [0]).Sublist ((k :: rest).filter (fun x => !cs.contains x)) := by
        have h3 := ((List.sublist_cons_self c _).trans (hsub c hc)).filter (fun x => !cs.contains x)
        have h4 : (w.mro c ++ [0]).filter (fun x => !cs.contains x) = w.mro c ++ [0] := by
          refine List.filter_eq_self.mpr fun x hx => ?_
          simp only [Bool.not_eq_true', List.contains_eq_mem, decide_eq_false_iff_not]
          intro hxc
          obtain ⟨r, hcr⟩ := hin c hc
          rw [← hk.mro c r hcr] at hx
          have hcx := hun c hc x hxc (.inr (.inr ⟨r, hcr, hx⟩))
          subst hcx
          exact (List.nodup_cons.mp (order_nodup p.python p.known c r hcr).1).1 hx
        rwa [h4] at h3
      show ([c] ++ (w.mro c ++ [0])).Sublist out
      exact List.Sublist.append h1 h2
    · rw [List.mem_singleton.mp hs]
      simp only [List.map_map, Function.comp_def, List.map_id']
      exact List.sublist_append_left _ _
  obtain ⟨out', hm⟩ := Mro.merge_exists _ _ out rfl hout hseq
  refine Mro.python_accepts 0 _ out' ⟨?_, ?_, ?_, ?_, ?_⟩ hm
  · intro h
    rw [List.map_eq_nil_iff.mp h] at hlen
    simp at hlen
  · simpa [Function.comp_def] using hnd
  · intro b hb'
    obtain ⟨c, hc, rfl⟩ := List.mem_map.mp hb'
    obtain ⟨r, hcr⟩ := hin c hc
    have := (order_nodup p.python p.known c r hcr).1
    rw [hk.mro c r hcr] at this
    exact this.sublist (List.Sublist.cons_cons _ (List.sublist_append_left _ _))
  · intro b hb'
    obtain ⟨c, hc, rfl⟩ := List.mem_map.mp hb'
    obtain ⟨r, hcr⟩ := hin c hc
    have := (List.nodup_cons.mp (order_nodup p.python p.known c r hcr).1).2
    rw [hk.mro c r hcr] at this
    have := (List.nodup_append.mp this).2.2
    intro h0
    exact this 0 h0 0 (by simp) rfl
  · intro b hb'
    obtain ⟨c, hc, rfl⟩ := List.mem_map.mp hb'
    intro h
    exact absurd h (hne0 c hc)

/-! ## Sets of values -/

theorem inAll_iff {s : Sets} {ts : List Ty} {v : Val} : InAll p s ts v ↔ ∀ t ∈ ts, In p s t v := by
  induction ts with
  | nil => simp [InAll]
  | cons t ts ih => simp [InAll, ih]

theorem inAny_iff {s : Sets} {ts : List Ty} {v : Val} : InAny p s ts v ↔ ∃ t ∈ ts, In p s t v := by
  induction ts with
  | nil => simp [InAny]
  | cons t ts ih => simp [InAny, ih]

theorem in_both {s : Sets} {t1 t2 : Ty} {v : Val} : In p s (.inter (both t1 t2)) v ↔ In p s t1 v ∧ In p s t2 v := by
  have one : ∀ t : Ty, (∀ u ∈ t.entries, In p s u v) ↔ In p s t v := by
    intro t
    cases t <;> simp [Ty.entries, In, inAll_iff]
  simp only [In, inAll_iff, both, List.mem_append, or_imp, forall_and, one]

end Verif.Intersect
