import Verif.Automaton.Nfa
import Mathlib.Data.Fintype.Card
import Mathlib.Data.Fintype.Powerset

/-
The deterministic automaton accepts the words that lead from the start to the end of the automaton
with empty moves.
-/

namespace Verif.Automaton

/-- All edges lead to existing states. -/
def Closed (nfa : Nfa) : Prop := ∀ i l j, Edge nfa i l j → j < nfa.length

/-- Reachable by empty moves from one of the given states. -/
def Reach (nfa : Nfa) (ids : List Nat) (x : Nat) : Prop := ∃ i ∈ ids, Path (Edge nfa) i [] x

theorem mem_insertState {s : List Nat} {i x : Nat} : x ∈ insertState s i ↔ x ∈ s ∨ x = i := by
  unfold insertState
  split
  · constructor
    · exact Or.inl
    · rintro (h | rfl) <;> assumption
  · simp

theorem mem_extendStates {m : List Nat} : ∀ {s : List Nat} {x : Nat},
    x ∈ extendStates s m ↔ x ∈ s ∨ x ∈ m := by
  induction m with
  | nil => intro s x; simp [extendStates]
  | cons a m ih =>
    intro s x
    show x ∈ extendStates (insertState s a) m ↔ _
    rw [ih, mem_insertState, List.mem_cons, or_assoc]

/-- How many states below `n` the list contains. -/
def card (n : Nat) (s : List Nat) : Nat := (List.range n).countP (fun i => decide (i ∈ s))

theorem card_le (n : Nat) (s : List Nat) : card n s ≤ n := by
  have := List.countP_le_length (p := fun i => decide (i ∈ s)) (l := List.range n)
  simpa [card] using this

theorem countP_lt_countP {p q : Nat → Bool} {l : List Nat} (hpq : ∀ x, p x = true → q x = true)
    {y : Nat} (hy : y ∈ l) (hp : p y = false) (hq : q y = true) : l.countP p < l.countP q := by
  induction l with
  | nil => cases hy
  | cons a l ih =>
    have hle : l.countP p ≤ l.countP q := List.countP_mono_left fun x _ => hpq x
    rw [List.countP_cons, List.countP_cons]
    rcases List.mem_cons.1 hy with rfl | hy
    · rw [hp, hq]; simp; omega
    · have := ih hy
      cases hpa : p a
      · cases q a <;> simp <;> omega
      · rw [hpq a hpa]; simp; omega

theorem card_lt {n : Nat} {s s' : List Nat} (h : ∀ x, x ∈ s → x ∈ s') {y : Nat} (hy : y < n)
    (h1 : y ∉ s) (h2 : y ∈ s') : card n s < card n s' :=
  countP_lt_countP (fun x hx => by simpa using h x (by simpa using hx)) (List.mem_range.2 hy)
    (by simpa using h1) (by simpa using h2)

/-- `group_nfas` returns exactly the states reachable by empty moves, and its recursion is never
deeper than the number of states. -/
theorem mem_groupNfas {nfa : Nfa} (hc : Closed nfa) : ∀ (depth : Nat) (ids : List Nat),
    (∀ i ∈ ids, i < nfa.length) → nfa.length < depth + card nfa.length ids →
    ∀ x, x ∈ groupNfas nfa depth ids ↔ Reach nfa ids x := by
  intro depth
  induction depth with
  | zero =>
    intro ids _ h
    have := card_le nfa.length ids
    omega
  | succ depth ih =>
    intro ids hids hd
    have step : ∀ (T : List (Option Sym × Nat)) (set : List Nat),
        (∀ tr ∈ T, tr.1 = none → Reach nfa ids tr.2 ∧ tr.2 < nfa.length) →
        (∀ y ∈ set, y < nfa.length ∧ Reach nfa ids y) → (∀ y ∈ ids, y ∈ set) →
        let R := T.foldl
          (fun set tr =>
            match tr.1 with
            | some _ => set
            | none =>
              let set := insertState set tr.2
              if tr.2 ∈ ids then set
              else extendStates set (groupNfas nfa depth set)) set
        (∀ y ∈ set, y ∈ R) ∧ (∀ y ∈ R, Reach nfa ids y) ∧
        ((∃ tr ∈ T, tr.1 = none ∧ tr.2 ∉ ids) → ∀ y, Reach nfa ids y → y ∈ R) := by
      intro T
      induction T with
      | nil =>
        intro set _ hset _
        exact ⟨fun y hy => hy, fun y hy => (hset y hy).2, fun ⟨_, h, _⟩ => by cases h⟩
      | cons tr T ihT =>
        intro set hT hset hsub
        have hT' : ∀ tr ∈ T, tr.1 = none → Reach nfa ids tr.2 ∧ tr.2 < nfa.length :=
          fun tr h => hT tr (List.mem_cons_of_mem _ h)
        obtain ⟨l, dst⟩ := tr
        cases l with
        | some t =>
          obtain ⟨a, b, c⟩ := ihT set hT' hset hsub
          refine ⟨a, b, ?_⟩
          rintro ⟨tr, htr, h1, h2⟩
          rcases List.mem_cons.1 htr with rfl | htr
          · cases h1
          · exact c ⟨tr, htr, h1, h2⟩
        | none =>
          obtain ⟨hto, htolt⟩ := hT (none, dst) List.mem_cons_self rfl
          have hset1 : ∀ y ∈ insertState set dst, y < nfa.length ∧ Reach nfa ids y := by
            intro y hy
            rcases mem_insertState.1 hy with hy | rfl
            · exact hset y hy
            · exact ⟨htolt, hto⟩
          by_cases hmem : dst ∈ ids
          · have := ihT (insertState set dst) hT' hset1
              (fun y hy => mem_insertState.2 (Or.inl (hsub y hy)))
            obtain ⟨a, b, c⟩ := this
            simp only [List.foldl_cons, hmem, if_true]
            refine ⟨fun y hy => a y (mem_insertState.2 (Or.inl hy)), b, ?_⟩
            rintro ⟨tr, htr, h1, h2⟩
            rcases List.mem_cons.1 htr with rfl | htr
            · exact absurd hmem h2
            · exact c ⟨tr, htr, h1, h2⟩
          · have hcard : card nfa.length ids < card nfa.length (insertState set dst) :=
              card_lt (fun y hy => mem_insertState.2 (Or.inl (hsub y hy))) htolt hmem
                (mem_insertState.2 (Or.inr rfl))
            have hrec := ih (insertState set dst) (fun y hy => (hset1 y hy).1) (by omega)
            have hpull : ∀ y, Reach nfa (insertState set dst) y → Reach nfa ids y := by
              rintro y ⟨i, hi, p⟩
              obtain ⟨k, hk, q⟩ := (hset1 i hi).2
              exact ⟨k, hk, Path.trans q p⟩
            have hlt : ∀ (i y : Nat) (w : List Sym), i < nfa.length → Path (Edge nfa) i w y →
                y < nfa.length := by
              intro i y w hi p
              induction p with
              | refl => exact hi
              | eps e _ ih => exact ih (hc _ _ _ e)
              | step e _ ih => exact ih (hc _ _ _ e)
            have hset2 : ∀ y ∈ extendStates (insertState set dst)
                (groupNfas nfa depth (insertState set dst)),
                y < nfa.length ∧ Reach nfa ids y := by
              intro y hy
              rcases mem_extendStates.1 hy with hy | hy
              · exact hset1 y hy
              · have hr := hpull y ((hrec y).1 hy)
                refine ⟨?_, hr⟩
                obtain ⟨i, hi, p⟩ := hr
                exact hlt _ _ _ (hids i hi) p
            have := ihT (extendStates (insertState set dst)
                (groupNfas nfa depth (insertState set dst))) hT' hset2
              (fun y hy => mem_extendStates.2 (Or.inl (mem_insertState.2 (Or.inl (hsub y hy)))))
            obtain ⟨a, b, -⟩ := this
            simp only [List.foldl_cons, hmem, if_false]
            refine ⟨fun y hy =>
              a y (mem_extendStates.2 (Or.inl (mem_insertState.2 (Or.inl hy)))), b, ?_⟩
            rintro - y ⟨i, hi, p⟩
            refine a y (mem_extendStates.2 (Or.inr ((hrec y).2 ⟨i, ?_, p⟩)))
            exact mem_insertState.2 (Or.inl (hsub i hi))
    have hstart : ∀ y, y ∈ extendStates [] ids ↔ y ∈ ids := by
      intro y; rw [mem_extendStates]; simp
    have := step (ids.flatMap (transitionsOf nfa)) (extendStates [] ids) (by
        intro tr htr h1
        obtain ⟨i, hi, htr⟩ := List.mem_flatMap.1 htr
        obtain ⟨l, dst⟩ := tr
        cases h1
        exact ⟨⟨i, hi, .eps htr (.refl _)⟩, hc _ _ _ htr⟩)
      (fun y hy => ⟨hids y ((hstart y).1 hy), y, (hstart y).1 hy, .refl _⟩)
      (fun y hy => (hstart y).2 hy)
    obtain ⟨a, b, c⟩ := this
    intro x
    constructor
    · exact b x
    · intro hx
      by_cases hex : ∃ tr ∈ ids.flatMap (transitionsOf nfa), tr.1 = none ∧ tr.2 ∉ ids
      · exact c hex x hx
      · -- the set is closed already
        obtain ⟨i, hi, p⟩ := hx
        refine a x ((hstart x).2 ?_)
        clear a b c step
        generalize hw : ([] : List Sym) = w at p
        induction p with
        | refl => exact hi
        | @eps i k j w e p ihp =>
          refine ihp ?_ hw
          refine Decidable.byContradiction fun hk => hex ⟨(none, k), ?_, rfl, hk⟩
          exact List.mem_flatMap.2 ⟨i, hi, e⟩
        | step e p => cases hw

theorem mem_group {nfa : Nfa} (hc : Closed nfa) (ids : List Nat)
    (hids : ∀ i ∈ ids, i < nfa.length) (x : Nat) :
    x ∈ groupNfas nfa (nfa.length + 1) ids ↔ Reach nfa ids x :=
  mem_groupNfas hc _ ids hids (by omega) x

/-! ### Grouped transitions -/

theorem addGrouped_spec (g : List (Sym × List Nat)) (t : Sym) (dst : Nat) :
    ((g.map Prod.fst).Nodup → ((addGrouped g t dst).map Prod.fst).Nodup) ∧
    (∀ t', t' ∈ (addGrouped g t dst).map Prod.fst ↔ t' ∈ g.map Prod.fst ∨ t' = t) ∧
    (∀ t' x, (∃ v, (t', v) ∈ addGrouped g t dst ∧ x ∈ v) ↔
      (∃ v, (t', v) ∈ g ∧ x ∈ v) ∨ (t' = t ∧ x = dst)) := by
  induction g with
  | nil =>
    refine ⟨fun _ => by simp [addGrouped], fun t' => by simp [addGrouped], fun t' x => ?_⟩
    simp only [addGrouped, List.mem_singleton, Prod.mk.injEq, List.not_mem_nil, false_and,
      exists_false, false_or]
    constructor
    · rintro ⟨v, ⟨h1, rfl⟩, h2⟩; exact ⟨h1, by simpa using h2⟩
    · rintro ⟨rfl, rfl⟩; exact ⟨_, ⟨rfl, rfl⟩, by simp⟩
  | cons e g ih =>
    obtain ⟨t0, v0⟩ := e
    obtain ⟨ih1, ih2, ih3⟩ := ih
    by_cases h : t0 = t
    · subst h
      have hE : addGrouped ((t0, v0) :: g) t0 dst = (t0, v0 ++ [dst]) :: g := by
        simp [addGrouped]
      rw [hE]
      refine ⟨fun h => by simpa using h, fun t' => ?_, fun t' x => ?_⟩
      · simp only [List.map_cons, List.mem_cons]
        constructor
        · exact Or.inl
        · rintro (h | rfl)
          · exact h
          · exact Or.inl rfl
      · constructor
        · rintro ⟨v, hv, hx⟩
          rcases List.mem_cons.1 hv with hv | hv
          · cases hv
            rcases List.mem_append.1 hx with hx | hx
            · exact Or.inl ⟨v0, List.mem_cons_self, hx⟩
            · exact Or.inr ⟨rfl, by simpa using hx⟩
          · exact Or.inl ⟨v, List.mem_cons_of_mem _ hv, hx⟩
        · rintro (⟨v, hv, hx⟩ | ⟨rfl, rfl⟩)
          · rcases List.mem_cons.1 hv with hv | hv
            · cases hv
              exact ⟨_, List.mem_cons_self, List.mem_append.2 (Or.inl hx)⟩
            · exact ⟨v, List.mem_cons_of_mem _ hv, hx⟩
          · exact ⟨_, List.mem_cons_self, by simp⟩
    · have hE : addGrouped ((t0, v0) :: g) t dst = (t0, v0) :: addGrouped g t dst := by
        simp [addGrouped, h]
      rw [hE]
      refine ⟨?_, fun t' => ?_, fun t' x => ?_⟩
      · simp only [List.map_cons, List.nodup_cons]
        rintro ⟨h1, h2⟩
        refine ⟨fun hm => ?_, ih1 h2⟩
        rcases (ih2 t0).1 hm with hm | hm
        · exact h1 hm
        · exact h hm
      · simp only [List.map_cons, List.mem_cons]
        rw [ih2, or_assoc]
      · constructor
        · rintro ⟨v, hv, hx⟩
          rcases List.mem_cons.1 hv with hv | hv
          · cases hv
            exact Or.inl ⟨v0, List.mem_cons_self, hx⟩
          · rcases (ih3 t' x).1 ⟨v, hv, hx⟩ with ⟨v, hv, hx⟩ | h
            · exact Or.inl ⟨v, List.mem_cons_of_mem _ hv, hx⟩
            · exact Or.inr h
        · rintro (⟨v, hv, hx⟩ | h')
          · rcases List.mem_cons.1 hv with hv | hv
            · cases hv
              exact ⟨v0, List.mem_cons_self, hx⟩
            · obtain ⟨v, hv, hx⟩ := (ih3 t' x).2 (Or.inl ⟨v, hv, hx⟩)
              exact ⟨v, List.mem_cons_of_mem _ hv, hx⟩
          · obtain ⟨v, hv, hx⟩ := (ih3 t' x).2 (Or.inr h')
            exact ⟨v, List.mem_cons_of_mem _ hv, hx⟩

theorem foldl_grouped (T : List (Option Sym × Nat)) : ∀ (g : List (Sym × List Nat)),
    (g.map Prod.fst).Nodup →
    let R := T.foldl
      (fun grouped tr =>
        match tr.1 with
        | some t => addGrouped grouped t tr.2
        | none => grouped) g
    (R.map Prod.fst).Nodup ∧
    (∀ t, t ∈ R.map Prod.fst ↔ t ∈ g.map Prod.fst ∨ ∃ k, (some t, k) ∈ T) ∧
    (∀ t x, (∃ v, (t, v) ∈ R ∧ x ∈ v) ↔
      (∃ v, (t, v) ∈ g ∧ x ∈ v) ∨ (some t, x) ∈ T) := by
  induction T with
  | nil => intro g hg; exact ⟨hg, fun t => by simp, fun t x => by simp⟩
  | cons tr T ih =>
    intro g hg
    obtain ⟨l, dst⟩ := tr
    cases l with
    | none =>
      obtain ⟨a, b, c⟩ := ih g hg
      refine ⟨a, fun t => (b t).trans ?_, fun t x => (c t x).trans ?_⟩ <;> simp
    | some t0 =>
      obtain ⟨s1, s2, s3⟩ := addGrouped_spec g t0 dst
      obtain ⟨a, b, c⟩ := ih (addGrouped g t0 dst) (s1 hg)
      refine ⟨a, fun t => (b t).trans ?_, fun t x => (c t x).trans ?_⟩
      · rw [s2, or_assoc]
        refine or_congr Iff.rfl ?_
        constructor
        · rintro (rfl | ⟨k, hk⟩)
          · exact ⟨dst, List.mem_cons_self⟩
          · exact ⟨k, List.mem_cons_of_mem _ hk⟩
        · rintro ⟨k, hk⟩
          rcases List.mem_cons.1 hk with hk | hk
          · cases hk; exact Or.inl rfl
          · exact Or.inr ⟨k, hk⟩
      · rw [s3, or_assoc]
        refine or_congr Iff.rfl ?_
        rw [List.mem_cons, Prod.mk.injEq, Option.some.injEq]

/-- The grouped transitions of a set: one entry per symbol with all the targets. -/
theorem groupTransitions_spec (nfa : Nfa) (set : List Nat) :
    ((groupTransitions nfa set).map Prod.fst).Nodup ∧
    (∀ t, t ∈ (groupTransitions nfa set).map Prod.fst ↔
      ∃ i ∈ set, ∃ k, Edge nfa i (some t) k) ∧
    (∀ t x, (∃ v, (t, v) ∈ groupTransitions nfa set ∧ x ∈ v) ↔
      ∃ i ∈ set, Edge nfa i (some t) x) := by
  obtain ⟨a, b, c⟩ := foldl_grouped
    (((List.range nfa.length).filter (fun i => decide (i ∈ set))).flatMap (transitionsOf nfa))
    [] (by simp)
  have hmem : ∀ l k, (l, k) ∈ ((List.range nfa.length).filter
      (fun i => decide (i ∈ set))).flatMap (transitionsOf nfa) ↔ ∃ i ∈ set, Edge nfa i l k := by
    intro l k
    rw [List.mem_flatMap]
    constructor
    · rintro ⟨i, hi, h⟩
      exact ⟨i, by simpa using (List.mem_filter.1 hi).2, h⟩
    · rintro ⟨i, hi, h⟩
      exact ⟨i, List.mem_filter.2 ⟨List.mem_range.2 (edge_lt h), by simpa using hi⟩, h⟩
  refine ⟨a, fun t => (b t).trans ?_, fun t x => (c t x).trans ?_⟩
  · simp only [List.map_nil, List.not_mem_nil, false_or, hmem]
    constructor
    · rintro ⟨k, i, hi, h⟩; exact ⟨i, hi, k, h⟩
    · rintro ⟨i, hi, k, h⟩; exact ⟨k, i, hi, h⟩
  · simp only [List.not_mem_nil, false_and, exists_false, false_or, hmem]

/-! ### The table of states -/

theorem sameSet_iff {a b : List Nat} : sameSet a b = true ↔ ∀ x, x ∈ a ↔ x ∈ b := by
  unfold sameSet
  simp only [Bool.and_eq_true, List.all_eq_true, decide_eq_true_eq]
  constructor
  · rintro ⟨h1, h2⟩ x; exact ⟨h1 x, h2 x⟩
  · intro h; exact ⟨fun x => (h x).1, fun x => (h x).2⟩

/-- A state that is fine on its own. -/
structure StateOk (nfa : Nfa) (stop : Nat) (d : DState) : Prop where
  lt : ∀ x ∈ d.nfaSet, x < nfa.length
  closed : ∀ x, Reach nfa d.nfaSet x → x ∈ d.nfaSet
  fin : d.isFinal = true ↔ stop ∈ d.nfaSet

/-- The transitions of a state are those of its set. -/
def TransOk (nfa : Nfa) (dfas : List DState) (d : DState) : Prop :=
  ∀ t, match d.transitions.find? (fun tr => tr.1 = t) with
    | some tr => ∃ d', dfas[tr.2]? = some d' ∧
        ∀ x, x ∈ d'.nfaSet ↔ ∃ i ∈ d.nfaSet, ∃ k, Edge nfa i (some t) k ∧ Path (Edge nfa) k [] x
    | none => ∀ i ∈ d.nfaSet, ∀ k, ¬ Edge nfa i (some t) k

/-- The invariant of the table. -/
structure Inv (nfa : Nfa) (stop : Nat) (dfas : List DState) : Prop where
  ok : ∀ d ∈ dfas, StateOk nfa stop d
  distinct : dfas.Pairwise (fun d d' => sameSet d.nfaSet d'.nfaSet = false)
  trans : ∀ d ∈ dfas, d.isCalculated = true → TransOk nfa dfas d

/-- A later table: nothing that was known is lost. -/
def Ext (dfas dfas' : List DState) : Prop :=
  ∀ (j : Nat) (d : DState), dfas[j]? = some d → ∃ d' : DState, dfas'[j]? = some d' ∧ d'.nfaSet = d.nfaSet ∧
    (d.isCalculated = true → d' = d)

theorem Ext.rfl' (dfas : List DState) : Ext dfas dfas :=
  fun _ d h => ⟨d, h, rfl, fun _ => rfl⟩

theorem Ext.trans {a b c : List DState} (h : Ext a b) (h' : Ext b c) : Ext a c := by
  intro j d hd
  obtain ⟨d1, h1, h2, h3⟩ := h j d hd
  obtain ⟨d2, h4, h5, h6⟩ := h' j d1 h1
  refine ⟨d2, h4, h5.trans h2, fun hc => ?_⟩
  have := h3 hc
  subst this
  exact h6 hc

theorem Ext.transOk {nfa : Nfa} {a b : List DState} (h : Ext a b) {d : DState}
    (ht : TransOk nfa a d) : TransOk nfa b d := by
  intro t
  have := ht t
  cases hf : d.transitions.find? (fun tr => tr.1 = t) with
  | some tr =>
    rw [hf] at this
    obtain ⟨d', h1, h2⟩ := this
    obtain ⟨d'', h3, h4, -⟩ := h _ _ h1
    exact ⟨d'', h3, by rw [h4]; exact h2⟩
  | none =>
    rw [hf] at this
    exact this

theorem ext_prefix {a b : List DState} (h : a <+: b) : Ext a b := by
  intro j d hd
  obtain ⟨c, rfl⟩ := h
  refine ⟨d, ?_, rfl, fun _ => rfl⟩
  rw [List.getElem?_append_left (List.getElem?_eq_some_iff.1 hd).1]
  exact hd

/-- The table is never larger than the number of sets of states. -/
theorem length_le_pow {nfa : Nfa} {stop : Nat} {dfas : List DState} (h : Inv nfa stop dfas) :
    dfas.length ≤ 2 ^ nfa.length := by
  let f : DState → Finset (Fin nfa.length) :=
    fun d => Finset.univ.filter (fun k => k.val ∈ d.nfaSet)
  have hn : (dfas.map f).Nodup := by
    unfold List.Nodup
    rw [List.pairwise_map]
    have hp := h.distinct
    have hall : ∀ d ∈ dfas, ∀ d' ∈ dfas, sameSet d.nfaSet d'.nfaSet = false → f d ≠ f d' := by
      intro d hd d' hd' hs he
      have : sameSet d.nfaSet d'.nfaSet = true := by
        rw [sameSet_iff]
        intro x
        constructor
        · intro hx
          have hlt := (h.ok d hd).lt x hx
          have : (⟨x, hlt⟩ : Fin nfa.length) ∈ f d := by
            simp only [f, Finset.mem_filter, Finset.mem_univ, true_and]; exact hx
          rw [he] at this
          simp only [f, Finset.mem_filter, Finset.mem_univ, true_and] at this
          exact this
        · intro hx
          have hlt := (h.ok d' hd').lt x hx
          have : (⟨x, hlt⟩ : Fin nfa.length) ∈ f d' := by
            simp only [f, Finset.mem_filter, Finset.mem_univ, true_and]; exact hx
          rw [← he] at this
          simp only [f, Finset.mem_filter, Finset.mem_univ, true_and] at this
          exact this
      rw [this] at hs
      cases hs
    exact List.Pairwise.imp_of_mem (fun {a b} ha hb hab => hall a ha b hb hab) hp
  have := hn.length_le_card
  rw [List.length_map, Fintype.card_finset, Fintype.card_fin] at this
  exact this

/-- What `nfa_to_dfa` does to the table. -/
theorem nfaToDfa_spec {nfa : Nfa} (hc : Closed nfa) {stop : Nat} {dfas : List DState}
    (h : Inv nfa stop dfas) (starts : List Nat) (hs : ∀ i ∈ starts, i < nfa.length) :
    let r := nfaToDfa nfa stop dfas starts
    dfas <+: r.1 ∧ Inv nfa stop r.1 ∧
    (∀ (j : Nat), dfas.length ≤ j → ∀ d : DState, r.1[j]? = some d → d.isCalculated = false) ∧
    ∃ d, r.1[r.2]? = some d ∧ ∀ x, x ∈ d.nfaSet ↔ Reach nfa starts x := by
  have hg := mem_group hc starts hs
  have hlt : ∀ (i y : Nat) (w : List Sym), i < nfa.length → Path (Edge nfa) i w y →
      y < nfa.length := by
    intro i y w hi p
    induction p with
    | refl => exact hi
    | eps e _ ih => exact ih (hc _ _ _ e)
    | step e _ ih => exact ih (hc _ _ _ e)
  simp only [nfaToDfa]
  generalize groupNfas nfa (nfa.length + 1) starts = g at hg
  cases hf : dfas.findIdx? (fun d => sameSet d.nfaSet g) with
  | some i =>
    refine ⟨List.prefix_refl _, h, ?_, ?_⟩
    · intro j hj d hd
      rw [List.getElem?_eq_none hj] at hd
      cases hd
    · rw [List.findIdx?_eq_some_iff_getElem] at hf
      obtain ⟨hi, hs, -⟩ := hf
      refine ⟨dfas[i], List.getElem?_eq_getElem hi, fun x => ?_⟩
      rw [sameSet_iff] at hs
      rw [hs, hg]
  | none =>
    rw [List.findIdx?_eq_none_iff] at hf
    have hpre : dfas <+: dfas ++ [{ nfaSet := g, isFinal := decide (stop ∈ g),
                                    isCalculated := false, transitions := [] }] :=
      List.prefix_append _ _
    refine ⟨hpre, ⟨?_, ?_, ?_⟩, ?_, ?_⟩
    · intro d hd
      rcases List.mem_append.1 hd with hd | hd
      · exact h.ok d hd
      · rw [List.mem_singleton] at hd
        subst hd
        refine ⟨?_, ?_, by simp⟩
        · intro x hx
          obtain ⟨i, hi, p⟩ := (hg x).1 hx
          exact hlt _ _ _ (hs i hi) p
        · rintro x ⟨i, hi, p⟩
          obtain ⟨k, hk, q⟩ := (hg i).1 hi
          exact (hg x).2 ⟨k, hk, Path.trans q p⟩
    · rw [List.pairwise_append]
      refine ⟨h.distinct, by simp, ?_⟩
      intro d hd d' hd'
      rw [List.mem_singleton] at hd'
      subst hd'
      simpa using hf d hd
    · intro d hd hcalc
      rcases List.mem_append.1 hd with hd | hd
      · exact (ext_prefix hpre).transOk (h.trans d hd hcalc)
      · rw [List.mem_singleton] at hd
        subst hd
        cases hcalc
    · intro j hj d hd
      rw [List.getElem?_append_right hj] at hd
      have := List.mem_of_getElem? hd
      rw [List.mem_singleton] at this
      subst this
      rfl
    · exact ⟨{ nfaSet := g, isFinal := decide (stop ∈ g), isCalculated := false,
               transitions := [] }, by simp, hg⟩

/-- What creating all the targets does to the table. -/
theorem makeTargets_spec {nfa : Nfa} (hc : Closed nfa) {stop : Nat} :
    ∀ (g : List (Sym × List Nat)) (dfas : List DState), Inv nfa stop dfas →
    (∀ e ∈ g, ∀ i ∈ e.2, i < nfa.length) →
    let r := makeTargets nfa stop dfas g
    dfas <+: r.1 ∧ Inv nfa stop r.1 ∧
    (∀ (j : Nat), dfas.length ≤ j → ∀ d : DState, r.1[j]? = some d → d.isCalculated = false) ∧
    r.2.map Prod.fst = g.map Prod.fst ∧
    (∀ tr ∈ r.2, ∃ v d, (tr.1, v) ∈ g ∧ r.1[tr.2]? = some d ∧
      ∀ x, x ∈ d.nfaSet ↔ Reach nfa v x) := by
  intro g
  induction g with
  | nil =>
    intro dfas h _
    refine ⟨List.prefix_refl _, h, ?_, rfl, fun tr htr => by cases htr⟩
    intro j hj d hd
    have : (makeTargets nfa stop dfas []).1 = dfas := rfl
    rw [this, List.getElem?_eq_none hj] at hd
    cases hd
  | cons e g ih =>
    intro dfas h hg
    obtain ⟨t, starts⟩ := e
    obtain ⟨a1, a2, a3, d, a4, a5⟩ :=
      nfaToDfa_spec hc h starts (hg (t, starts) List.mem_cons_self)
    obtain ⟨b1, b2, b3, b4, b5⟩ := ih (nfaToDfa nfa stop dfas starts).1 a2
      (fun e he => hg e (List.mem_cons_of_mem _ he))
    refine ⟨a1.trans b1, b2, ?_, ?_, ?_⟩
    · intro j hj d' hd'
      rcases Nat.lt_or_ge j (nfaToDfa nfa stop dfas starts).1.length with hlt | hge
      · refine a3 j hj d' ?_
        obtain ⟨c, hc⟩ := b1
        have hd'' : (makeTargets nfa stop (nfaToDfa nfa stop dfas starts).1 g).1[j]? = some d' := hd'
        rw [← hc, List.getElem?_append_left hlt] at hd''
        exact hd''
      · exact b3 j hge d' hd'
    · exact congrArg (List.cons t) b4
    · intro tr htr
      rcases List.mem_cons.1 htr with rfl | htr
      · obtain ⟨d', c1, c2, -⟩ := ext_prefix b1 _ _ a4
        exact ⟨starts, d', List.mem_cons_self, c1, by rw [c2]; exact a5⟩
      · obtain ⟨v, d', c1, c2, c3⟩ := b5 tr htr
        exact ⟨v, d', List.mem_cons_of_mem _ c1, c2, c3⟩

/-! ### The depth first construction -/

/-- The number of calculated states. -/
def done (dfas : List DState) : Nat := dfas.countP (fun d => d.isCalculated)

/-- A state is calculated. -/
def Calc (dfas : List DState) (j : Nat) : Prop :=
  ∃ d, dfas[j]? = some d ∧ d.isCalculated = true

/-- The states calculated between two tables have only calculated targets. -/
def Settled (dfas dfas' : List DState) : Prop :=
  ∀ (j : Nat) (d : DState), dfas'[j]? = some d → d.isCalculated = true → ¬ Calc dfas j →
    ∀ tr ∈ d.transitions, Calc dfas' tr.2

theorem Calc.ext {a b : List DState} (h : Ext a b) {j : Nat} (hc : Calc a j) : Calc b j := by
  obtain ⟨d, hd, hc⟩ := hc
  obtain ⟨d', h1, -, h3⟩ := h j d hd
  exact ⟨d', h1, by rw [h3 hc]; exact hc⟩

theorem Settled.trans {a b c : List DState} (h1 : Settled a b) (hbc : Ext b c)
    (h2 : Settled b c) : Settled a c := by
  intro j d hd hcalc hn tr htr
  by_cases hb : Calc b j
  · obtain ⟨d1, hd1, hc1⟩ := hb
    obtain ⟨d2, e1, -, e3⟩ := hbc j d1 hd1
    have := e3 hc1
    subst this
    rw [hd] at e1
    cases e1
    exact Calc.ext hbc (h1 j d hd1 hc1 hn tr htr)
  · exact h2 j d hd hcalc hb tr htr

theorem done_mono {a b : List DState} (h : Ext a b) : done a ≤ done b := by
  unfold done
  induction a generalizing b with
  | nil => simp
  | cons d a ih =>
    cases b with
    | nil =>
      obtain ⟨d', h1, -⟩ := h 0 d rfl
      cases h1
    | cons e b =>
      have hab : Ext a b := fun j x hx => h (j + 1) x hx
      have := ih hab
      obtain ⟨e', h1, -, h3⟩ := h 0 d rfl
      cases h1
      rw [List.countP_cons, List.countP_cons]
      cases hd : d.isCalculated
      · simp; omega
      · have := h3 hd
        subst this
        rw [hd]; simp; omega

theorem done_le (a : List DState) : done a ≤ a.length := List.countP_le_length

theorem value_unique {G : List (Sym × List Nat)} (hn : (G.map Prod.fst).Nodup) {k : Sym}
    {v v' : List Nat} (h : (k, v) ∈ G) (h' : (k, v') ∈ G) : v = v' := by
  induction G with
  | nil => cases h
  | cons e G ih =>
    rw [List.map_cons, List.nodup_cons] at hn
    rcases List.mem_cons.1 h with h1 | h1 <;> rcases List.mem_cons.1 h' with h2 | h2
    · rw [← h1] at h2; cases h2; rfl
    · subst h1; exact absurd (List.mem_map_of_mem (f := Prod.fst) h2) hn.1
    · subst h2; exact absurd (List.mem_map_of_mem (f := Prod.fst) h1) hn.1
    · exact ih hn.2 h1 h2

theorem done_modify {dfas : List DState} : ∀ {i : Nat} {d : DState}, dfas[i]? = some d →
    d.isCalculated = false → ∀ trs,
    dfas.countP (fun d => d.isCalculated) <
      (dfas.modify i (fun s => { s with transitions := trs, isCalculated := true })).countP
        (fun d => d.isCalculated) := by
  induction dfas with
  | nil => intro i d h; cases h
  | cons e l ih =>
    intro i d h hc trs
    cases i with
    | zero =>
      cases h
      simp [hc]
    | succ i =>
      have := ih (i := i) (d := d) h hc trs
      rw [List.modify_succ_cons, List.countP_cons, List.countP_cons]
      omega

theorem construct_spec {nfa : Nfa} (hc : Closed nfa) {stop : Nat} : ∀ (depth : Nat)
    (dfas : List DState) (i : Nat), Inv nfa stop dfas → i < dfas.length →
    2 ^ nfa.length < depth + done dfas →
    ∃ dfas', construct nfa stop depth dfas i = some dfas' ∧ Inv nfa stop dfas' ∧
      Ext dfas dfas' ∧ Settled dfas dfas' ∧ Calc dfas' i := by
  intro depth
  induction depth with
  | zero =>
    intro dfas i h _ hd
    have := length_le_pow h
    have := done_le dfas
    omega
  | succ depth ih =>
    intro dfas i h hi hd
    have hget := List.getElem?_eq_getElem hi
    generalize hst : dfas[i] = state at hget
    have hmem : state ∈ dfas := List.mem_of_getElem? hget
    cases hcalc : state.isCalculated with
    | true =>
      refine ⟨dfas, by simp only [construct, hget, hcalc]; rfl, h, Ext.rfl' _, ?_,
        state, hget, hcalc⟩
      intro j d hd1 hd2 hn
      exact absurd ⟨d, hd1, hd2⟩ hn
    | false =>
      obtain ⟨g1, g2, g3⟩ := groupTransitions_spec nfa state.nfaSet
      obtain ⟨m1, m2, m3, m4, m5⟩ := makeTargets_spec hc (groupTransitions nfa state.nfaSet) dfas h
        (fun e he i hi => by
          obtain ⟨t, v⟩ := e
          obtain ⟨k, -, hE⟩ := (g3 t i).1 ⟨v, he, hi⟩
          exact hc _ _ _ hE)
      have hconstruct : construct nfa stop (depth + 1) dfas i =
          (makeTargets nfa stop dfas (groupTransitions nfa state.nfaSet)).2.foldlM
            (fun dfas tr => construct nfa stop depth dfas tr.2)
            ((makeTargets nfa stop dfas (groupTransitions nfa state.nfaSet)).1.modify i
              (fun s => { s with
                transitions := (makeTargets nfa stop dfas (groupTransitions nfa state.nfaSet)).2,
                isCalculated := true })) := by
        simp only [construct, hget, hcalc]
        rfl
      rw [hconstruct]
      generalize hr : makeTargets nfa stop dfas (groupTransitions nfa state.nfaSet) = r at *
      obtain ⟨dfas1, trs⟩ := r
      simp only at m1 m2 m3 m4 m5 ⊢
      -- the table after marking the state as calculated
      have hi1 : i < dfas1.length := by
        obtain ⟨c, rfl⟩ := m1; rw [List.length_append]; omega
      have hget1 : dfas1[i]? = some state := by
        obtain ⟨c, rfl⟩ := m1; rw [List.getElem?_append_left hi]; exact hget
      generalize hd2 : dfas1.modify i
        (fun s => { s with transitions := trs, isCalculated := true }) = dfas2
      have hat : ∀ j, dfas2[j]? = if i = j then some { state with
          transitions := trs, isCalculated := true } else dfas1[j]? := by
        intro j
        rw [← hd2, List.getElem?_modify]
        by_cases hij : i = j
        · subst hij; simp [hget1]
        · simp [hij]
      have hext12 : Ext dfas1 dfas2 := by
        intro j d hd
        rw [hat]
        by_cases hij : i = j
        · subst hij
          rw [hget1] at hd
          cases hd
          refine ⟨_, if_pos rfl, rfl, fun hx => ?_⟩
          rw [hcalc] at hx; cases hx
        · rw [if_neg hij]
          exact ⟨d, hd, rfl, fun _ => rfl⟩
      have hext02 : Ext dfas dfas2 := (ext_prefix m1).trans hext12
      have hmem2 : ∀ d ∈ dfas2, ∃ d1 ∈ dfas1, d.nfaSet = d1.nfaSet ∧ d.isFinal = d1.isFinal ∧
          (d = d1 ∨ (d1 = state ∧ d.transitions = trs)) := by
        intro d hd
        obtain ⟨j, hj⟩ := List.mem_iff_getElem?.1 hd
        rw [hat] at hj
        by_cases hij : i = j
        · rw [if_pos hij] at hj
          cases hj
          exact ⟨state, List.mem_of_getElem? hget1, rfl, rfl, Or.inr ⟨rfl, rfl⟩⟩
        · rw [if_neg hij] at hj
          exact ⟨d, List.mem_of_getElem? hj, rfl, rfl, Or.inl rfl⟩
      have hTrans : ∀ d : DState, d.nfaSet = state.nfaSet → d.transitions = trs →
          TransOk nfa dfas1 d := by
        intro d hs ht t
        rw [ht, hs]
        cases hf : trs.find? (fun tr => tr.1 = t) with
        | none =>
          intro k hk x hE
          have h1 : t ∈ trs.map Prod.fst := by
            rw [m4]; exact (g2 t).2 ⟨k, hk, x, hE⟩
          obtain ⟨tr, htr, rfl⟩ := List.mem_map.1 h1
          rw [List.find?_eq_none] at hf
          exact hf tr htr (by simp)
        | some tr =>
          have htr := List.mem_of_find?_eq_some hf
          have hkey := List.find?_some hf
          simp only [decide_eq_true_eq] at hkey
          subst hkey
          obtain ⟨v, d', c1, c2, c3⟩ := m5 tr htr
          refine ⟨d', c2, fun x => (c3 x).trans ?_⟩
          constructor
          · rintro ⟨k, hk, p⟩
            obtain ⟨q, hq, hE⟩ := (g3 tr.1 k).1 ⟨v, c1, hk⟩
            exact ⟨q, hq, k, hE, p⟩
          · rintro ⟨q, hq, k, hE, p⟩
            obtain ⟨v', hv', hk⟩ := (g3 tr.1 k).2 ⟨q, hq, hE⟩
            have : v' = v := value_unique g1 hv' c1
            subst this
            exact ⟨k, hk, p⟩
      have hinv2 : Inv nfa stop dfas2 := by
        refine ⟨?_, ?_, ?_⟩
        · intro d hd
          obtain ⟨d1, hd1, e1, e2, -⟩ := hmem2 d hd
          have := m2.ok d1 hd1
          exact ⟨by rw [e1]; exact this.lt, by rw [e1]; exact this.closed,
            by rw [e1, e2]; exact this.fin⟩
        · have hmap : dfas2.map DState.nfaSet = dfas1.map DState.nfaSet := by
            rw [← hd2]
            refine List.ext_getElem? fun j => ?_
            rw [List.getElem?_map, List.getElem?_map, List.getElem?_modify]
            by_cases hij : i = j
            · subst hij; rw [hget1]; simp
            · simp [hij]
          have p1 := m2.distinct
          have := (List.pairwise_map (f := DState.nfaSet)
            (R := fun s s' => sameSet s s' = false) (l := dfas1)).2 p1
          rw [← hmap] at this
          exact List.pairwise_map.1 this
        · intro d hd hcd
          obtain ⟨d1, hd1, e1, -, e3⟩ := hmem2 d hd
          refine hext12.transOk ?_
          rcases e3 with rfl | ⟨rfl, e3⟩
          · exact m2.trans d hd1 hcd
          · exact hTrans d e1 e3
      have hdone : done dfas < done dfas2 := by
        have h1 : done dfas ≤ done dfas1 := done_mono (ext_prefix m1)
        have h2 : done dfas1 < done dfas2 := by
          rw [← hd2]
          unfold done
          exact done_modify hget1 hcalc trs
        omega
      have htrs : ∀ tr ∈ trs, tr.2 < dfas2.length := by
        intro tr htr
        obtain ⟨-, d', -, c2, -⟩ := m5 tr htr
        obtain ⟨d'', c3, -⟩ := hext12 _ _ c2
        exact (List.getElem?_eq_some_iff.1 c3).1
      -- the recursive calls
      have loop : ∀ (T : List (Sym × Nat)) (a : List DState), Inv nfa stop a →
          (∀ tr ∈ T, tr.2 < a.length) → 2 ^ nfa.length < depth + done a →
          ∃ b, T.foldlM (fun dfas tr => construct nfa stop depth dfas tr.2) a = some b ∧
            Inv nfa stop b ∧ Ext a b ∧ Settled a b ∧ ∀ tr ∈ T, Calc b tr.2 := by
        intro T
        induction T with
        | nil =>
          intro a ha _ _
          refine ⟨a, rfl, ha, Ext.rfl' _, ?_, fun tr htr => by cases htr⟩
          intro j d hd1 hd2 hn
          exact absurd ⟨d, hd1, hd2⟩ hn
        | cons tr T ihT =>
          intro a ha hT hlt
          obtain ⟨b, b1, b2, b3, b4, b5⟩ := ih a tr.2 ha (hT tr List.mem_cons_self) hlt
          have hlen : a.length ≤ b.length := by
            rcases Nat.lt_or_ge b.length a.length with hl | hl
            · obtain ⟨d', hd', -⟩ := b3 b.length _ (List.getElem?_eq_getElem hl)
              have := (List.getElem?_eq_some_iff.1 hd').1
              omega
            · exact hl
          obtain ⟨c, c1, c2, c3, c4, c5⟩ := ihT b b2
            (fun tr' htr' => Nat.lt_of_lt_of_le (hT tr' (List.mem_cons_of_mem _ htr')) hlen)
            (by have := done_mono b3; omega)
          refine ⟨c, ?_, c2, b3.trans c3, b4.trans c3 c4, ?_⟩
          · rw [List.foldlM_cons, b1]; exact c1
          · intro tr' htr'
            rcases List.mem_cons.1 htr' with rfl | htr'
            · exact Calc.ext c3 b5
            · exact c5 tr' htr'
      obtain ⟨b, b1, b2, b3, b4, b5⟩ := loop trs dfas2 hinv2 htrs (by omega)
      have hci : Calc dfas2 i := ⟨_, by rw [hat, if_pos rfl], rfl⟩
      refine ⟨b, b1, b2, hext02.trans b3, ?_, Calc.ext b3 hci⟩
      intro j d hdj hcd hn tr htr
      by_cases hc2 : Calc dfas2 j
      · -- newly calculated before the loop: only the state itself
        obtain ⟨d2, hd2', hcd2⟩ := hc2
        obtain ⟨d3, e1, -, e3⟩ := b3 j d2 hd2'
        have := e3 hcd2
        subst this
        rw [hdj] at e1
        cases e1
        rw [hat] at hd2'
        by_cases hij : i = j
        · rw [if_pos hij] at hd2'
          cases hd2'
          exact b5 tr htr
        · rw [if_neg hij] at hd2'
          exfalso
          rcases Nat.lt_or_ge j dfas.length with hlt | hge
          · refine hn ⟨d, ?_, hcd⟩
            obtain ⟨c, rfl⟩ := m1
            rw [List.getElem?_append_left hlt] at hd2'
            exact hd2'
          · have := m3 j hge d hd2'
            rw [this] at hcd
            cases hcd
      · exact b4 j d hdj hcd hc2 tr htr

theorem first_step {E : Nat → Option Sym → Nat → Prop} {x z : Nat} {t : Sym} {w : List Sym}
    (p : Path E x (t :: w) z) : ∃ y k, Path E x [] y ∧ E y (some t) k ∧ Path E k w z := by
  generalize hw : t :: w = w' at p
  induction p with
  | refl => cases hw
  | eps e _ ih =>
    obtain ⟨y, k, p1, p2, p3⟩ := ih hw
    exact ⟨y, k, .eps e p1, p2, p3⟩
  | step e p =>
    cases hw
    exact ⟨_, _, .refl _, e, p⟩

/-- Running the table decides whether the end can be reached. -/
theorem run_spec {nfa : Nfa} {stop : Nat} {dfas : List DState} (h : Inv nfa stop dfas)
    (hs : ∀ (j : Nat) (d : DState), dfas[j]? = some d → d.isCalculated = true →
      ∀ tr ∈ d.transitions, Calc dfas tr.2) :
    ∀ (w : List Sym) (i : Nat) (d : DState), dfas[i]? = some d → d.isCalculated = true →
    (run dfas i w = true ↔ ∃ x ∈ d.nfaSet, Path (Edge nfa) x w stop) := by
  intro w
  induction w with
  | nil =>
    intro i d hd _
    have ok := h.ok d (List.mem_of_getElem? hd)
    simp only [run, hd, ok.fin]
    constructor
    · exact fun hx => ⟨stop, hx, .refl _⟩
    · exact fun hx => ok.closed stop hx
  | cons t w ih =>
    intro i d hd hcd
    have hm := List.mem_of_getElem? hd
    have ok := h.ok d hm
    have tr := h.trans d hm hcd t
    cases hf : d.transitions.find? (fun tr => tr.1 = t) with
    | none =>
      rw [hf] at tr
      simp only [run, hd, hf]
      constructor
      · intro hx; cases hx
      · rintro ⟨x, hx, p⟩
        obtain ⟨y, k, p1, p2, -⟩ := first_step p
        exact absurd p2 (tr y (ok.closed y ⟨x, hx, p1⟩) k)
    | some e =>
      rw [hf] at tr
      obtain ⟨d', hd', hset⟩ := tr
      obtain ⟨d'', hd'', hc''⟩ := hs i d hd hcd e (List.mem_of_find?_eq_some hf)
      rw [hd'] at hd''
      cases hd''
      simp only [run, hd, hf]
      rw [ih e.2 d' hd' hc'']
      constructor
      · rintro ⟨x, hx, p⟩
        obtain ⟨q, hq, k, hE, pk⟩ := (hset x).1 hx
        exact ⟨q, hq, .step hE (Path.trans pk p)⟩
      · rintro ⟨x, hx, p⟩
        obtain ⟨y, k, p1, p2, p3⟩ := first_step p
        exact ⟨k, (hset k).2 ⟨y, ok.closed y ⟨x, hx, p1⟩, k, p2, .refl _⟩, p3⟩

/-- The table built from an automaton accepts exactly the words that lead from its start to its
end. -/
theorem powerset_spec {nfa : Nfa} (hc : Closed nfa) {start stop : Nat} (hs : start < nfa.length) :
    ∃ dfas, powerset nfa start stop = some dfas ∧
      ∀ w, accepts dfas w = true ↔ Path (Edge nfa) start w stop := by
  have h0 : Inv nfa stop [] := ⟨by simp, .nil, by simp⟩
  have hst : ∀ i ∈ [start], i < nfa.length := by simpa using hs
  obtain ⟨-, a2, a3, d, a4, a5⟩ := nfaToDfa_spec hc h0 [start] hst
  have hidx : (nfaToDfa nfa stop [] [start]).2 = 0 := rfl
  rw [hidx] at a4
  have hlt := (List.getElem?_eq_some_iff.1 a4).1
  obtain ⟨dfas, b1, b2, b3, b4, b5⟩ := construct_spec hc (2 ^ nfa.length + 1) _ 0 a2 hlt (by omega)
  refine ⟨dfas, b1, fun w => ?_⟩
  obtain ⟨d', hd', hcd'⟩ := b5
  obtain ⟨d'', e1, e2, -⟩ := b3 0 d a4
  rw [hd'] at e1
  cases e1
  have hsettled : ∀ (j : Nat) (d : DState), dfas[j]? = some d → d.isCalculated = true →
      ∀ tr ∈ d.transitions, Calc dfas tr.2 := by
    intro j d hd hcd
    refine b4 j d hd hcd ?_
    rintro ⟨x, hx, hx'⟩
    have := a3 j (Nat.zero_le _) x hx
    rw [this] at hx'
    cases hx'
  unfold accepts
  rw [run_spec b2 hsettled w 0 d' hd' hcd', e2]
  constructor
  · rintro ⟨x, hx, p⟩
    obtain ⟨i, hi, q⟩ := (a5 x).1 hx
    rw [List.mem_singleton] at hi
    subst hi
    exact Path.trans q p
  · intro p
    exact ⟨start, (a5 start).2 ⟨start, by simp, .refl _⟩, p⟩

end Verif.Automaton
