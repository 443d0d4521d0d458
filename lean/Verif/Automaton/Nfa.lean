import Verif.Automaton.Spec

/-
The automaton with empty moves built for a rule, and the words that lead from its start to its
end.
-/

namespace Verif.Automaton

/-- An edge of the automaton. -/
def Edge (nfa : Nfa) (i : Nat) (l : Option Sym) (j : Nat) : Prop := (l, j) ∈ transitionsOf nfa i

/-- A word read along a path of a labelled graph. -/
inductive Path (E : Nat → Option Sym → Nat → Prop) : Nat → List Sym → Nat → Prop where
  | refl (i : Nat) : Path E i [] i
  | eps {i k j : Nat} {w : List Sym} : E i none k → Path E k w j → Path E i w j
  | step {i k j : Nat} {t : Sym} {w : List Sym} :
      E i (some t) k → Path E k w j → Path E i (t :: w) j

theorem Path.mono {E F : Nat → Option Sym → Nat → Prop} (h : ∀ i l j, E i l j → F i l j)
    {i j : Nat} {w : List Sym} (p : Path E i w j) : Path F i w j := by
  induction p with
  | refl => exact .refl _
  | eps e _ ih => exact .eps (h _ _ _ e) ih
  | step e _ ih => exact .step (h _ _ _ e) ih

theorem Path.trans {E : Nat → Option Sym → Nat → Prop} {i j k : Nat} {u v : List Sym}
    (p : Path E i u j) (q : Path E j v k) : Path E i (u ++ v) k := by
  induction p with
  | refl => exact q
  | eps e _ ih => exact .eps e (ih q)
  | step e _ ih => exact .step e (ih q)

theorem Star.append {L : List Sym → Prop} {u v : List Sym} (h : Star L u) (h' : Star L v) :
    Star L (u ++ v) := by
  induction h with
  | nil => exact h'
  | cons a _ ih => rw [List.append_assoc]; exact .cons a ih

theorem Star.mono {L M : List Sym → Prop} (h : ∀ w, L w → M w) {w : List Sym} (s : Star L w) :
    Star M w := by
  induction s with
  | nil => exact .nil
  | cons a _ ih => exact .cons (h _ a) ih

/-! ### Edges after each elementary step -/

theorem edge_lt {nfa : Nfa} {i : Nat} {l : Option Sym} {j : Nat} (h : Edge nfa i l j) :
    i < nfa.length := by
  unfold Edge transitionsOf at h
  rcases Nat.lt_or_ge i nfa.length with h' | h'
  · exact h'
  · rw [List.getElem?_eq_none h'] at h; simp at h

theorem edge_new {nfa : Nfa} {i : Nat} {l : Option Sym} {j : Nat} :
    Edge (nfa ++ [[], []]) i l j ↔ Edge nfa i l j := by
  unfold Edge transitionsOf
  rcases Nat.lt_or_ge i nfa.length with h | h
  · rw [List.getElem?_append_left h]
  · rw [List.getElem?_append_right h, List.getElem?_eq_none h]
    rcases hk : i - nfa.length with _ | _ | k <;> simp

theorem length_add (nfa : Nfa) (a b : Nat) (t : Option Sym) :
    (addTransition nfa a b t).length = nfa.length := by
  unfold addTransition; simp

theorem length_addEmpty (nfa : Nfa) (a b : Nat) :
    (addEmpty nfa a b).length = nfa.length := length_add ..

theorem edge_add {nfa : Nfa} {a b : Nat} {t : Option Sym} (ha : a < nfa.length) {i : Nat}
    {l : Option Sym} {j : Nat} :
    Edge (addTransition nfa a b t) i l j ↔ Edge nfa i l j ∨ (i = a ∧ l = t ∧ j = b) := by
  unfold Edge transitionsOf addTransition
  rw [List.getElem?_modify]
  rcases Nat.lt_or_ge i nfa.length with h | h
  · rw [List.getElem?_eq_getElem h]
    by_cases hia : a = i
    · subst hia; simp
    · simp [hia, Ne.symm hia]
  · rw [List.getElem?_eq_none h]
    have : i ≠ a := by omega
    simp [this]

theorem edge_addEmpty {nfa : Nfa} {a b : Nat} (ha : a < nfa.length) {i : Nat}
    {l : Option Sym} {j : Nat} :
    Edge (addEmpty nfa a b) i l j ↔ Edge nfa i l j ∨ (i = a ∧ l = none ∧ j = b) :=
  edge_add ha

/-! ### What a rule means and which shapes compile exactly -/

/-- The sequences a `Rule` derives. -/
def Lang (names : Names) : Rule → List Sym → Prop
  | .identifier s, w => ∃ t, resolve names s = some t ∧ w = [t]
  | .keyword s, w => w = [.keyword s]
  | .or a b, w => Lang names a w ∨ Lang names b w
  | .maybe a, w => w = [] ∨ Lang names a w
  | .multiple a, w => ∃ u v, w = u ++ v ∧ Lang names a u ∧ Star (Lang names a) v
  | .next a b, w => ∃ u v, w = u ++ v ∧ Lang names a u ∧ Lang names b v
  | .nodeMayBeOmitted a, w => Lang names a w
  | .doesErrorRecovery a, w => Lang names a w

/-- The start state of the fragment may have incoming edges. -/
def entryLoop : Rule → Bool
  | .identifier _ | .keyword _ | .or _ _ => false
  | .maybe a => entryLoop a
  | .multiple _ => true
  | .next a _ => entryLoop a
  | .nodeMayBeOmitted a | .doesErrorRecovery a => entryLoop a

/-- The end state of the fragment may have outgoing edges. -/
def exitLoop : Rule → Bool
  | .identifier _ | .keyword _ | .or _ _ => false
  | .maybe a => exitLoop a
  | .multiple _ => true
  | .next _ b => exitLoop b
  | .nodeMayBeOmitted a | .doesErrorRecovery a => exitLoop a

/-- Neither. -/
def Flat (r : Rule) : Prop := entryLoop r = false ∧ exitLoop r = false

/-- Every `Maybe` is applied to a flat rule, to a repetition of a flat rule or to `s x (s x)*`. -/
def Exact : Rule → Prop
  | .identifier _ | .keyword _ => True
  | .or a b | .next a b => Exact a ∧ Exact b
  | .maybe a => Exact a ∧ (Flat a ∨ (∃ b, a = .multiple b ∧ Flat b) ∨
      ∃ s x, a = .next s (.next x (.maybe (.multiple (.next s x)))) ∧ Flat (.next s x))
  | .multiple a | .nodeMayBeOmitted a | .doesErrorRecovery a => Exact a

/-! ### Fragments -/

/-- The edges leaving the states from `lo` on. -/
def Blk (lo : Nat) (nfa : Nfa) (i : Nat) (l : Option Sym) (j : Nat) : Prop :=
  lo ≤ i ∧ Edge nfa i l j

/-- What building a rule does to the automaton built so far. -/
structure Frag (nfa nfa' : Nfa) (s e : Nat) : Prop where
  old : ∀ i l j, i < nfa.length → (Edge nfa' i l j ↔ Edge nfa i l j)
  rng : ∀ i l j, nfa.length ≤ i → Edge nfa' i l j → nfa.length ≤ j ∧ j < nfa'.length
  slo : nfa.length ≤ s
  shi : s < nfa'.length
  elo : nfa.length ≤ e
  ehi : e < nfa'.length
  ne : s ≠ e

theorem Frag.len {nfa nfa' : Nfa} {s e : Nat} (h : Frag nfa nfa' s e) :
    nfa.length < nfa'.length := by have := h.slo; have := h.shi; omega

theorem frag_leaf (nfa : Nfa) (t : Sym) :
    Frag nfa (buildLeaf nfa t).1 nfa.length (nfa.length + 1) ∧
    ∀ i l j, Blk nfa.length (buildLeaf nfa t).1 i l j ↔
      (i = nfa.length ∧ l = some t ∧ j = nfa.length + 1) := by
  have hl : (nfa ++ [[], []] : Nfa).length = nfa.length + 2 := by simp
  have hE : ∀ i l j, Edge (buildLeaf nfa t).1 i l j ↔
      Edge nfa i l j ∨ (i = nfa.length ∧ l = some t ∧ j = nfa.length + 1) := by
    intro i l j
    show Edge (addTransition (nfa ++ [[], []]) nfa.length (nfa.length + 1) (some t)) i l j ↔ _
    rw [edge_add (by omega), edge_new]
  have hlen : (buildLeaf nfa t).1.length = nfa.length + 2 := by
    show (addTransition (nfa ++ [[], []]) _ _ _).length = _
    rw [length_add, hl]
  refine ⟨⟨?_, ?_, Nat.le_refl _, by omega, by omega, by omega, by omega⟩, ?_⟩
  · intro i l j hi
    rw [hE]
    constructor
    · rintro (h | ⟨h, _⟩)
      · exact h
      · omega
    · exact Or.inl
  · intro i l j hi h
    rcases (hE _ _ _).1 h with h | ⟨_, _, h⟩
    · have := edge_lt h; omega
    · omega
  · intro i l j
    unfold Blk
    rw [hE]
    constructor
    · rintro ⟨hi, h | h⟩
      · have := edge_lt h; omega
      · exact h
    · rintro h
      exact ⟨by omega, Or.inr h⟩

/-- Adding an edge between two states of the fragment. -/
theorem frag_add {nfa nfa' : Nfa} {s e : Nat} (h : Frag nfa nfa' s e) {a b : Nat}
    (ha : nfa.length ≤ a) (ha' : a < nfa'.length) (hb : nfa.length ≤ b) (hb' : b < nfa'.length) :
    Frag nfa (addEmpty nfa' a b) s e ∧
    ∀ i l j, Blk nfa.length (addEmpty nfa' a b) i l j ↔
      Blk nfa.length nfa' i l j ∨ (i = a ∧ l = none ∧ j = b) := by
  have hlen := length_addEmpty nfa' a b
  refine ⟨⟨?_, ?_, h.slo, by rw [hlen]; exact h.shi, h.elo, by rw [hlen]; exact h.ehi, h.ne⟩, ?_⟩
  · intro i l j hi
    rw [edge_addEmpty ha', h.old i l j hi]
    constructor
    · rintro (h | ⟨h, _⟩)
      · exact h
      · omega
    · exact Or.inl
  · intro i l j hi hE
    rw [hlen]
    rcases (edge_addEmpty ha').1 hE with h' | ⟨_, _, h'⟩
    · exact h.rng _ _ _ hi h'
    · omega
  · intro i l j
    unfold Blk
    rw [edge_addEmpty ha']
    constructor
    · rintro ⟨hi, h' | h'⟩
      · exact Or.inl ⟨hi, h'⟩
      · exact Or.inr h'
    · rintro (⟨hi, h'⟩ | h')
      · exact ⟨hi, Or.inl h'⟩
      · exact ⟨by omega, Or.inr h'⟩

/-- Two fragments built one after the other. -/
theorem blk_two {n0 n1 n2 : Nfa} {s1 e1 s2 e2 : Nat} (h1 : Frag n0 n1 s1 e1)
    (h2 : Frag n1 n2 s2 e2) (i : Nat) (l : Option Sym) (j : Nat) :
    Blk n0.length n2 i l j ↔ Blk n0.length n1 i l j ∨ Blk n1.length n2 i l j := by
  unfold Blk
  have := h1.len
  constructor
  · rintro ⟨hi, h⟩
    rcases Nat.lt_or_ge i n1.length with hlt | hge
    · exact Or.inl ⟨hi, (h2.old _ _ _ hlt).1 h⟩
    · exact Or.inr ⟨hge, h⟩
  · rintro (⟨hi, h⟩ | ⟨hi, h⟩)
    · exact ⟨hi, (h2.old _ _ _ (edge_lt h)).2 h⟩
    · exact ⟨by omega, h⟩

/-- The states reached from inside a fragment. -/
theorem blk_rng {nfa nfa' : Nfa} {s e : Nat} (h : Frag nfa nfa' s e) {i : Nat} {l : Option Sym}
    {j : Nat} (hb : Blk nfa.length nfa' i l j) :
    nfa.length ≤ i ∧ i < nfa'.length ∧ nfa.length ≤ j ∧ j < nfa'.length :=
  ⟨hb.1, edge_lt hb.2, h.rng _ _ _ hb.1 hb.2⟩

/-- What is known about the fragment of a rule. -/
structure Good (names : Names) (r : Rule) (nfa nfa' : Nfa) (s e : Nat) : Prop where
  frag : Frag nfa nfa' s e
  complete : ∀ w, Lang names r w → Path (Blk nfa.length nfa') s w e
  sound : Exact r → ∀ w, Path (Blk nfa.length nfa') s w e → Lang names r w
  entry : entryLoop r = false → ∀ i l, ¬ Blk nfa.length nfa' i l s
  exit : exitLoop r = false → ∀ l j, ¬ Blk nfa.length nfa' e l j

theorem good_leaf (names : Names) (r : Rule) (t : Sym) (nfa : Nfa)
    (hL : ∀ w, Lang names r w ↔ w = [t]) :
    Good names r nfa (buildLeaf nfa t).1 nfa.length (nfa.length + 1) := by
  obtain ⟨hF, hB⟩ := frag_leaf nfa t
  refine ⟨hF, ?_, ?_, ?_, ?_⟩
  · intro w hw
    rw [(hL w).1 hw]
    exact .step ((hB _ _ _).2 ⟨rfl, rfl, rfl⟩) (.refl _)
  · intro _ w p
    rw [hL]
    generalize hs : nfa.length = s at p
    generalize he : s + 1 = e at p
    cases p with
    | refl => omega
    | eps h _ =>
      rw [← hs] at h
      have := (hB _ _ _).1 h
      simp at this
    | step h p =>
      rw [← hs] at h
      obtain ⟨_, ht, hk⟩ := (hB _ _ _).1 h
      cases p with
      | refl => rw [Option.some.inj ht]
      | eps h _ => rw [← hs] at h; have := (hB _ _ _).1 h; omega
      | step h _ => rw [← hs] at h; have := (hB _ _ _).1 h; omega
  · intro _ i l h
    have := (hB _ _ _).1 h; omega
  · intro _ l j h
    have := (hB _ _ _).1 h; omega

/-- Leaving the first fragment towards the second. -/
theorem next_split {E1 E2 E : Nat → Option Sym → Nat → Prop} {lo1 lo2 e1 s2 e2 : Nat}
    (hE : ∀ i l j, E i l j → E1 i l j ∨ E2 i l j ∨ (i = e1 ∧ l = none ∧ j = s2))
    (h1 : ∀ i l j, E1 i l j → lo1 ≤ i ∧ i < lo2 ∧ j < lo2)
    (h2 : ∀ i l j, E2 i l j → lo2 ≤ i ∧ lo2 ≤ j) (he1 : e1 < lo2) (hs2 : lo2 ≤ s2)
    (he2 : lo2 ≤ e2) {i : Nat} {w : List Sym} (p : Path E i w e2) :
    (i < lo2 → ∃ u v, w = u ++ v ∧ Path E1 i u e1 ∧ Path E2 s2 v e2) ∧
    (lo2 ≤ i → Path E2 i w e2) := by
  generalize hx : e2 = x at p
  induction p with
  | refl => subst hx; exact ⟨fun h => by omega, fun _ => .refl _⟩
  | @eps i k j w e p ih =>
    obtain ⟨ih1, ih2⟩ := ih hx
    rcases hE _ _ _ e with e | e | ⟨rfl, -, rfl⟩
    · have := h1 _ _ _ e
      refine ⟨fun _ => ?_, fun _ => by omega⟩
      obtain ⟨u, v, rfl, pu, pv⟩ := ih1 this.2.2
      exact ⟨u, v, rfl, .eps e pu, pv⟩
    · have := h2 _ _ _ e
      exact ⟨fun _ => by omega, fun _ => .eps e (ih2 this.2)⟩
    · refine ⟨fun _ => ?_, fun _ => by omega⟩
      exact ⟨[], w, rfl, .refl _, by subst hx; exact ih2 hs2⟩
  | @step i k j t w e p ih =>
    obtain ⟨ih1, ih2⟩ := ih hx
    rcases hE _ _ _ e with e | e | ⟨_, hc, _⟩
    · have := h1 _ _ _ e
      refine ⟨fun _ => ?_, fun _ => by omega⟩
      obtain ⟨u, v, rfl, pu, pv⟩ := ih1 this.2.2
      exact ⟨t :: u, v, rfl, .step e pu, pv⟩
    · have := h2 _ _ _ e
      exact ⟨fun _ => by omega, fun _ => .step e (ih2 this.2)⟩
    · cases hc

theorem good_next {names : Names} {a b : Rule} {n0 n1 n2 : Nfa} {s1 e1 s2 e2 : Nat}
    (ha : Good names a n0 n1 s1 e1) (hb : Good names b n1 n2 s2 e2) :
    Good names (.next a b) n0 (addEmpty n2 e1 s2) s1 e2 := by
  have h1 := ha.frag
  have h2 := hb.frag
  have l1 := h1.len
  have l2 := h2.len
  have hs1 := h1.slo
  have hs1' := h1.shi
  have he1 := h1.elo
  have he1' := h1.ehi
  have hs2 := h2.slo
  have hs2' := h2.shi
  have he2 := h2.elo
  have he2' := h2.ehi
  have hF2 : Frag n0 n2 s1 e2 := by
    refine ⟨?_, ?_, by omega, by omega, by omega, by omega, by omega⟩
    · intro i l j hi
      rw [h2.old i l j (by omega), h1.old i l j hi]
    · intro i l j hi hE
      rcases (blk_two h1 h2 i l j).1 ⟨hi, hE⟩ with hB | hB
      · have := blk_rng h1 hB; omega
      · have := blk_rng h2 hB; omega
  obtain ⟨hF, hB⟩ := frag_add hF2 (a := e1) (b := s2) (by omega) (by omega) (by omega) (by omega)
  have hB' : ∀ i l j, Blk n0.length (addEmpty n2 e1 s2) i l j ↔
      Blk n0.length n1 i l j ∨ Blk n1.length n2 i l j ∨ (i = e1 ∧ l = none ∧ j = s2) := by
    intro i l j
    rw [hB, blk_two h1 h2]
    constructor
    · rintro ((h | h) | h)
      · exact Or.inl h
      · exact Or.inr (Or.inl h)
      · exact Or.inr (Or.inr h)
    · rintro (h | h | h)
      · exact Or.inl (Or.inl h)
      · exact Or.inl (Or.inr h)
      · exact Or.inr h
  refine ⟨hF, ?_, ?_, ?_, ?_⟩
  · rintro w ⟨u, v, rfl, hu, hv⟩
    refine Path.trans ((ha.complete u hu).mono fun i l j h => (hB' i l j).2 (Or.inl h)) ?_
    exact .eps ((hB' _ _ _).2 (Or.inr (Or.inr ⟨rfl, rfl, rfl⟩)))
      ((hb.complete v hv).mono fun i l j h => (hB' i l j).2 (Or.inr (Or.inl h)))
  · rintro ⟨xa, xb⟩ w p
    obtain ⟨u, v, rfl, pu, pv⟩ := (next_split (lo1 := n0.length) (lo2 := n1.length)
      (fun i l j h => (hB' i l j).1 h)
      (fun i l j h => ⟨h.1, (blk_rng h1 h).2.1, (blk_rng h1 h).2.2.2⟩)
      (fun i l j h => ⟨h.1, (blk_rng h2 h).2.2.1⟩) he1' hs2 he2 p).1 hs1'
    exact ⟨u, v, rfl, ha.sound xa u pu, hb.sound xb v pv⟩
  · intro hx i l h
    rcases (hB' _ _ _).1 h with h | h | h
    · exact ha.entry hx i l h
    · have := blk_rng h2 h; omega
    · omega
  · intro hx l j h
    rcases (hB' _ _ _).1 h with h | h | h
    · have := blk_rng h1 h; omega
    · exact hb.exit hx l j h
    · omega

/-- Every way through a repetition is a number of ways through the repeated part. -/
theorem multiple_split {E1 E : Nat → Option Sym → Nat → Prop} {s e : Nat}
    (hE : ∀ i l j, E i l j → E1 i l j ∨ (i = e ∧ l = none ∧ j = s))
    {i : Nat} {w : List Sym} (p : Path E i w e) :
    ∃ u v, w = u ++ v ∧ Path E1 i u e ∧ Star (fun x => Path E1 s x e) v := by
  generalize hx : e = x at p
  induction p with
  | refl => subst hx; exact ⟨[], [], rfl, .refl _, .nil⟩
  | @eps i k j w h p ih =>
    obtain ⟨u, v, rfl, pu, pv⟩ := ih hx
    subst hx
    rcases hE _ _ _ h with h | ⟨rfl, -, rfl⟩
    · exact ⟨u, v, rfl, .eps h pu, pv⟩
    · exact ⟨[], u ++ v, rfl, .refl _, .cons pu pv⟩
  | @step i k j t w h p ih =>
    obtain ⟨u, v, rfl, pu, pv⟩ := ih hx
    subst hx
    rcases hE _ _ _ h with h | ⟨_, hc, _⟩
    · exact ⟨t :: u, v, rfl, .step h pu, pv⟩
    · cases hc

theorem star_path {E1 E : Nat → Option Sym → Nat → Prop} {s e : Nat}
    (hE : ∀ i l j, E1 i l j ∨ (i = e ∧ l = none ∧ j = s) → E i l j)
    {v : List Sym} (h : Star (fun x => Path E1 s x e) v) : Path E e v e := by
  induction h with
  | nil => exact .refl _
  | cons p _ ih =>
    exact .eps (hE _ _ _ (Or.inr ⟨rfl, rfl, rfl⟩))
      (Path.trans (p.mono fun i l j h => hE i l j (Or.inl h)) ih)

theorem good_multiple {names : Names} {a : Rule} {n0 n1 : Nfa} {s e : Nat}
    (ha : Good names a n0 n1 s e) :
    Good names (.multiple a) n0 (addEmpty n1 e s) s e := by
  have h1 := ha.frag
  obtain ⟨hF, hB⟩ := frag_add h1 h1.elo h1.ehi h1.slo h1.shi
  refine ⟨hF, ?_, ?_, ?_, ?_⟩
  · rintro w ⟨u, v, rfl, hu, hv⟩
    refine Path.trans ((ha.complete u hu).mono fun i l j h => (hB i l j).2 (Or.inl h)) ?_
    exact star_path (E1 := Blk n0.length n1) (fun i l j => (hB i l j).2)
      (hv.mono fun w hw => ha.complete w hw)
  · intro hx w p
    obtain ⟨u, v, rfl, pu, pv⟩ := multiple_split (fun i l j => (hB i l j).1) p
    exact ⟨u, v, rfl, ha.sound hx u pu, pv.mono fun w hw => ha.sound hx w hw⟩
  · intro h; cases h
  · intro h; cases h

/-- Skipping a part whose start is not reached again and whose end is not left. -/
theorem maybe_split {E1 E : Nat → Option Sym → Nat → Prop} {s e : Nat} (hne : s ≠ e)
    (hE : ∀ i l j, E i l j → E1 i l j ∨ (i = s ∧ l = none ∧ j = e))
    (hs : ∀ i l, ¬ E1 i l s) (he : ∀ l j, ¬ E1 e l j)
    {i : Nat} {w : List Sym} (p : Path E i w e) :
    Path E1 i w e ∨ (i = s ∧ w = []) := by
  generalize hx : e = x at p
  induction p with
  | refl => exact Or.inl (.refl _)
  | @eps i k j w h p ih =>
    specialize ih hx
    subst hx
    rcases hE _ _ _ h with h | ⟨rfl, -, rfl⟩
    · rcases ih with ih | ⟨rfl, -⟩
      · exact Or.inl (.eps h ih)
      · exact absurd h (hs _ _)
    · rcases ih with ih | ⟨hc, -⟩
      · refine Or.inr ⟨rfl, ?_⟩
        cases ih with
        | refl => rfl
        | eps h _ => exact absurd h (he _ _)
        | step h _ => exact absurd h (he _ _)
      · exact absurd hc.symm hne
  | @step i k j t w h p ih =>
    specialize ih hx
    subst hx
    rcases hE _ _ _ h with h | ⟨_, hc, _⟩
    · rcases ih with ih | ⟨rfl, -⟩
      · exact Or.inl (.step h ih)
      · exact absurd h (hs _ _)
    · cases hc

/-- Repeating a part any number of times. -/
theorem star_split {E1 E : Nat → Option Sym → Nat → Prop} {s e : Nat} (hne : s ≠ e)
    (hE : ∀ i l j, E i l j →
      E1 i l j ∨ (i = e ∧ l = none ∧ j = s) ∨ (i = s ∧ l = none ∧ j = e))
    (hs : ∀ i l, ¬ E1 i l s) (he : ∀ l j, ¬ E1 e l j)
    {i : Nat} {w : List Sym} (p : Path E i w e) :
    (∃ u v, w = u ++ v ∧ Path E1 i u e ∧ Star (fun x => Path E1 s x e) v) ∨
    (i = s ∧ Star (fun x => Path E1 s x e) w) := by
  generalize hx : e = x at p
  induction p with
  | refl => exact Or.inl ⟨[], [], rfl, by subst hx; exact .refl _, .nil⟩
  | @eps i k j w h p ih =>
    specialize ih hx
    subst hx
    rcases hE _ _ _ h with h | ⟨rfl, -, rfl⟩ | ⟨rfl, -, rfl⟩
    · rcases ih with ⟨u, v, rfl, pu, pv⟩ | ⟨rfl, -⟩
      · exact Or.inl ⟨u, v, rfl, .eps h pu, pv⟩
      · exact absurd h (hs _ _)
    · rcases ih with ⟨u, v, rfl, pu, pv⟩ | ⟨-, hw⟩
      · exact Or.inl ⟨[], u ++ v, rfl, .refl _, .cons pu pv⟩
      · exact Or.inl ⟨[], w, rfl, .refl _, hw⟩
    · rcases ih with ⟨u, v, rfl, pu, pv⟩ | ⟨hc, -⟩
      · refine Or.inr ⟨rfl, ?_⟩
        cases pu with
        | refl => exact pv
        | eps h _ => exact absurd h (he _ _)
        | step h _ => exact absurd h (he _ _)
      · exact absurd hc.symm hne
  | @step i k j t w h p ih =>
    specialize ih hx
    subst hx
    rcases hE _ _ _ h with h | ⟨_, hc, _⟩ | ⟨_, hc, _⟩
    · rcases ih with ⟨u, v, rfl, pu, pv⟩ | ⟨rfl, -⟩
      · exact Or.inl ⟨t :: u, v, rfl, .step h pu, pv⟩
      · exact absurd h (hs _ _)
    · cases hc
    · cases hc

theorem good_maybe_base {names : Names} {a : Rule} {n0 n1 : Nfa} {s e : Nat}
    (ha : Good names a n0 n1 s e)
    (hsnd : Exact (.maybe a) → ∀ w, Path (Blk n0.length (addEmpty n1 s e)) s w e →
      Lang names (.maybe a) w) :
    Good names (.maybe a) n0 (addEmpty n1 s e) s e := by
  have h1 := ha.frag
  obtain ⟨hF, hB⟩ := frag_add h1 h1.slo h1.shi h1.elo h1.ehi
  refine ⟨hF, ?_, hsnd, ?_, ?_⟩
  · rintro w (rfl | hw)
    · exact .eps ((hB _ _ _).2 (Or.inr ⟨rfl, rfl, rfl⟩)) (.refl _)
    · exact (ha.complete w hw).mono fun i l j h => (hB i l j).2 (Or.inl h)
  · intro hx i l h
    rcases (hB _ _ _).1 h with h | ⟨_, _, h⟩
    · exact ha.entry hx i l h
    · exact h1.ne h
  · intro hx l j h
    rcases (hB _ _ _).1 h with h | ⟨h, _⟩
    · exact ha.exit hx l j h
    · exact h1.ne h.symm

theorem good_or {names : Names} {a b : Rule} {n0 n2 n4 : Nfa} {s1 e1 s2 e2 : Nat}
    (ha : Good names a (n0 ++ [[], []]) n2 s1 e1)
    (hb : Good names b (addEmpty (addEmpty n2 n0.length s1) e1 (n0.length + 1)) n4 s2 e2) :
    Good names (.or a b) n0 (addEmpty (addEmpty n4 n0.length s2) e2 (n0.length + 1))
      n0.length (n0.length + 1) := by
  have h1 := ha.frag
  have h2 := hb.frag
  have hl0 : (n0 ++ [[], []] : Nfa).length = n0.length + 2 := by simp
  have hl3 : (addEmpty (addEmpty n2 n0.length s1) e1 (n0.length + 1)).length = n2.length := by
    rw [length_addEmpty, length_addEmpty]
  have l1 := h1.len
  have l2 := h2.len
  have hs1 := h1.slo
  have hs1' := h1.shi
  have he1 := h1.elo
  have he1' := h1.ehi
  have hs2 := h2.slo
  have hs2' := h2.shi
  have he2 := h2.elo
  have he2' := h2.ehi
  have hE3 : ∀ i l j,
      Edge (addEmpty (addEmpty n2 n0.length s1) e1 (n0.length + 1)) i l j ↔
      Edge n2 i l j ∨ (i = n0.length ∧ l = none ∧ j = s1) ∨
        (i = e1 ∧ l = none ∧ j = n0.length + 1) := by
    intro i l j
    rw [edge_addEmpty (by rw [length_addEmpty]; omega), edge_addEmpty (by omega), or_assoc]
  generalize hn3 : addEmpty (addEmpty n2 n0.length s1) e1 (n0.length + 1) = n3 at *
  have hE5 : ∀ i l j,
      Edge (addEmpty (addEmpty n4 n0.length s2) e2 (n0.length + 1)) i l j ↔
      Edge n4 i l j ∨ (i = n0.length ∧ l = none ∧ j = s2) ∨
        (i = e2 ∧ l = none ∧ j = n0.length + 1) := by
    intro i l j
    rw [edge_addEmpty (by rw [length_addEmpty]; omega), edge_addEmpty (by omega), or_assoc]
  have hl5 : (addEmpty (addEmpty n4 n0.length s2) e2 (n0.length + 1)).length = n4.length := by
    rw [length_addEmpty, length_addEmpty]
  generalize hn5 : addEmpty (addEmpty n4 n0.length s2) e2 (n0.length + 1) = n5 at *
  have hB : ∀ i l j, Blk n0.length n5 i l j ↔
      Blk (n0 ++ [[], []] : Nfa).length n2 i l j ∨ Blk n3.length n4 i l j ∨
      (i = n0.length ∧ l = none ∧ (j = s1 ∨ j = s2)) ∨
      ((i = e1 ∨ i = e2) ∧ l = none ∧ j = n0.length + 1) := by
    intro i l j
    unfold Blk
    rw [hE5]
    constructor
    · rintro ⟨hi, h | ⟨h, h', h''⟩ | ⟨h, h', h''⟩⟩
      · rcases Nat.lt_or_ge i n3.length with hlt | hge
        · rw [h2.old _ _ _ hlt, hE3] at h
          rcases h with h | ⟨h, h', h''⟩ | ⟨h, h', h''⟩
          · rcases Nat.lt_or_ge i (n0.length + 2) with hlt2 | hge2
            · rw [h1.old _ _ _ (by omega), edge_new] at h
              have := edge_lt h
              omega
            · exact Or.inl ⟨by omega, h⟩
          · exact Or.inr (Or.inr (Or.inl ⟨h, h', Or.inl h''⟩))
          · exact Or.inr (Or.inr (Or.inr ⟨Or.inl h, h', h''⟩))
        · exact Or.inr (Or.inl ⟨hge, h⟩)
      · exact Or.inr (Or.inr (Or.inl ⟨h, h', Or.inr h''⟩))
      · exact Or.inr (Or.inr (Or.inr ⟨Or.inr h, h', h''⟩))
    · rintro (⟨hi, h⟩ | ⟨hi, h⟩ | ⟨h, h', h'' | h''⟩ | ⟨h | h, h', h''⟩)
      · have := edge_lt h
        exact ⟨by omega, Or.inl ((h2.old _ _ _ (by omega)).2 ((hE3 _ _ _).2 (Or.inl h)))⟩
      · exact ⟨by omega, Or.inl h⟩
      · exact ⟨by omega, Or.inl ((h2.old _ _ _ (by omega)).2
          ((hE3 _ _ _).2 (Or.inr (Or.inl ⟨h, h', h''⟩))))⟩
      · exact ⟨by omega, Or.inr (Or.inl ⟨h, h', h''⟩)⟩
      · exact ⟨by omega, Or.inl ((h2.old _ _ _ (by omega)).2
          ((hE3 _ _ _).2 (Or.inr (Or.inr ⟨h, h', h''⟩))))⟩
      · exact ⟨by omega, Or.inr (Or.inr ⟨h, h', h''⟩)⟩
  have hF : Frag n0 n5 n0.length (n0.length + 1) := by
    refine ⟨?_, ?_, Nat.le_refl _, by omega, by omega, by omega, by omega⟩
    · intro i l j hi
      rw [hE5, h2.old _ _ _ (by omega), hE3, h1.old _ _ _ (by omega), edge_new]
      constructor
      · rintro ((h | ⟨h, _⟩ | ⟨h, _⟩) | ⟨h, _⟩ | ⟨h, _⟩)
        · exact h
        all_goals omega
      · exact fun h => Or.inl (Or.inl h)
    · intro i l j hi hE
      rcases (hB i l j).1 ⟨hi, hE⟩ with h | h | ⟨_, _, h⟩ | ⟨_, _, h⟩
      · have := blk_rng h1 h; omega
      · have := blk_rng h2 h; omega
      · omega
      · omega
  have hend : ∀ l j, ¬ Blk n0.length n5 (n0.length + 1) l j := by
    intro l j h
    rcases (hB _ _ _).1 h with h | h | h | h
    · have := h.1; omega
    · have := h.1; omega
    · omega
    · omega
  refine ⟨hF, ?_, ?_, ?_, ?_⟩
  · have last : ∀ x, (x = e1 ∨ x = e2) → Path (Blk n0.length n5) x [] (n0.length + 1) := by
      intro x hx
      exact .eps ((hB _ _ _).2 (Or.inr (Or.inr (Or.inr ⟨hx, rfl, rfl⟩)))) (.refl _)
    rintro w (hw | hw)
    · refine .eps ((hB _ _ _).2 (Or.inr (Or.inr (Or.inl ⟨rfl, rfl, Or.inl rfl⟩)))) ?_
      have := Path.trans ((ha.complete w hw).mono fun i l j h => (hB i l j).2 (Or.inl h))
        (last e1 (Or.inl rfl))
      rwa [List.append_nil] at this
    · refine .eps ((hB _ _ _).2 (Or.inr (Or.inr (Or.inl ⟨rfl, rfl, Or.inr rfl⟩)))) ?_
      have := Path.trans
        ((hb.complete w hw).mono fun i l j h => (hB i l j).2 (Or.inr (Or.inl h)))
        (last e2 (Or.inr rfl))
      rwa [List.append_nil] at this
  · rintro ⟨xa, xb⟩ w p
    have hnil : ∀ w, Path (Blk n0.length n5) (n0.length + 1) w (n0.length + 1) → w = [] := by
      intro w p
      generalize n0.length + 1 = i at p hend
      cases p with
      | refl => rfl
      | eps h _ => exact absurd h (hend _ _)
      | step h _ => exact absurd h (hend _ _)
    have key : ∀ i w, Path (Blk n0.length n5) i w (n0.length + 1) →
        (n0.length + 2 ≤ i → i < n2.length →
          Path (Blk (n0 ++ [[], []] : Nfa).length n2) i w e1) ∧
        (n2.length ≤ i → Path (Blk n3.length n4) i w e2) ∧
        (i = n0.length → Lang names a w ∨ Lang names b w) := by
      intro i w p
      generalize hx : n0.length + 1 = x at p
      induction p with
      | refl => exact ⟨fun _ _ => by omega, fun _ => by omega, fun _ => by omega⟩
      | @eps i k j w h p ih =>
        obtain ⟨ih1, ih2, ih3⟩ := ih hx
        rcases (hB _ _ _).1 h with h | h | ⟨rfl, -, hk⟩ | ⟨hi, -, hk⟩
        · have := blk_rng h1 h
          exact ⟨fun _ _ => .eps h (ih1 (by omega) (by omega)), fun _ => by omega,
            fun _ => by omega⟩
        · have := blk_rng h2 h
          exact ⟨fun _ _ => by omega, fun _ => .eps h (ih2 (by omega)), fun _ => by omega⟩
        · refine ⟨fun _ _ => by omega, fun _ => by omega, fun _ => ?_⟩
          rcases hk with rfl | rfl
          · exact Or.inl (ha.sound xa w (ih1 (by omega) (by omega)))
          · exact Or.inr (hb.sound xb w (ih2 (by omega)))
        · subst hk
          rw [← hx] at p
          have hw := hnil w p
          subst hw
          refine ⟨fun _ _ => ?_, fun _ => ?_, fun _ => by omega⟩
          · rcases hi with rfl | rfl
            · exact .refl _
            · omega
          · rcases hi with rfl | rfl
            · omega
            · exact .refl _
      | @step i k j t w h p ih =>
        obtain ⟨ih1, ih2, ih3⟩ := ih hx
        rcases (hB _ _ _).1 h with h | h | ⟨_, hc, _⟩ | ⟨_, hc, _⟩
        · have := blk_rng h1 h
          exact ⟨fun _ _ => .step h (ih1 (by omega) (by omega)), fun _ => by omega,
            fun _ => by omega⟩
        · have := blk_rng h2 h
          exact ⟨fun _ _ => by omega, fun _ => .step h (ih2 (by omega)), fun _ => by omega⟩
        · cases hc
        · cases hc
    exact (key _ _ p).2.2 rfl
  · intro _ i l h
    rcases (hB _ _ _).1 h with h | h | h | h
    · have := blk_rng h1 h; omega
    · have := blk_rng h2 h; omega
    · omega
    · omega
  · intro _ l j
    exact hend l j

/-- Any number of copies of a flat rule. -/
theorem sound_star {names : Names} {b : Rule} {n0 n1 : Nfa} {s e : Nat}
    (gb : Good names b n0 n1 s e) (xb : Exact b) (hfl : Flat b) (w : List Sym)
    (p : Path (Blk n0.length (addEmpty (addEmpty n1 e s) s e)) s w e) :
    Lang names (.maybe (.multiple b)) w := by
  have hF := gb.frag
  obtain ⟨hF', hB⟩ := frag_add hF hF.elo hF.ehi hF.slo hF.shi
  obtain ⟨-, hB'⟩ := frag_add hF' hF'.slo hF'.shi hF'.elo hF'.ehi
  have hE : ∀ i l j, Blk n0.length (addEmpty (addEmpty n1 e s) s e) i l j →
      Blk n0.length n1 i l j ∨ (i = e ∧ l = none ∧ j = s) ∨ (i = s ∧ l = none ∧ j = e) := by
    intro i l j h
    rw [hB', hB, or_assoc] at h
    exact h
  have snd := fun w (hw : Path (Blk n0.length n1) s w e) => gb.sound xb w hw
  rcases star_split hF.ne hE (gb.entry hfl.1) (gb.exit hfl.2) p with
    ⟨u, v, rfl, pu, pv⟩ | ⟨-, hw⟩
  · exact Or.inr ⟨u, v, rfl, snd u pu, pv.mono snd⟩
  · cases hw with
    | nil => exact Or.inl rfl
    | cons h h' => exact Or.inr ⟨_, _, rfl, snd _ h, h'.mono snd⟩

/-- Skipping a part whose start is not reached again. -/
theorem maybe_split_tail {E1 E : Nat → Option Sym → Nat → Prop} {s e : Nat} (hne : s ≠ e)
    (hE : ∀ i l j, E i l j → E1 i l j ∨ (i = s ∧ l = none ∧ j = e))
    (hs : ∀ i l, ¬ E1 i l s)
    {i : Nat} {w : List Sym} (p : Path E i w e) :
    Path E1 i w e ∨ (i = s ∧ Path E1 e w e) := by
  generalize hx : e = x at p
  induction p with
  | refl => exact Or.inl (.refl _)
  | @eps i k j w h p ih =>
    specialize ih hx
    subst hx
    rcases hE _ _ _ h with h | ⟨rfl, -, rfl⟩
    · rcases ih with ih | ⟨rfl, -⟩
      · exact Or.inl (.eps h ih)
      · exact absurd h (hs _ _)
    · rcases ih with ih | ⟨hc, -⟩
      · exact Or.inr ⟨rfl, ih⟩
      · exact absurd hc.symm hne
  | @step i k j t w h p ih =>
    specialize ih hx
    subst hx
    rcases hE _ _ _ h with h | ⟨_, hc, _⟩
    · rcases ih with ih | ⟨rfl, -⟩
      · exact Or.inl (.step h ih)
      · exact absurd h (hs _ _)
    · cases hc

/-- Going round at the end of a sequence stays in its last part. -/
theorem tail_next {names : Names} {a b : Rule} {n0 n1 n2 : Nfa} {s1 e1 s2 e2 : Nat}
    (ha : Good names a n0 n1 s1 e1) (hb : Good names b n1 n2 s2 e2) {w : List Sym}
    (p : Path (Blk n0.length (addEmpty n2 e1 s2)) e2 w e2) :
    Path (Blk n1.length n2) e2 w e2 := by
  have h1 := ha.frag
  have h2 := hb.frag
  have l1 := h1.len
  have l2 := h2.len
  have he1 := h1.elo
  have he1' := h1.ehi
  have hs2 := h2.slo
  have hs2' := h2.shi
  have he2 := h2.elo
  have hE : ∀ i l j, Blk n0.length (addEmpty n2 e1 s2) i l j →
      Blk n0.length n1 i l j ∨ Blk n1.length n2 i l j ∨ (i = e1 ∧ l = none ∧ j = s2) := by
    rintro i l j ⟨hi, h⟩
    rcases (edge_addEmpty (by omega)).1 h with h | h
    · rw [← or_assoc, ← blk_two h1 h2]
      exact Or.inl ⟨hi, h⟩
    · exact Or.inr (Or.inr h)
  exact (next_split (lo1 := n0.length) (lo2 := n1.length) hE
    (fun i l j h => ⟨h.1, (blk_rng h1 h).2.1, (blk_rng h1 h).2.2.2⟩)
    (fun i l j h => ⟨h.1, (blk_rng h2 h).2.2.1⟩) he1' hs2 he2 p).2 he2

/-- Going round at the end of any number of copies of a flat rule. -/
theorem tail_star {names : Names} {b : Rule} {n0 n1 : Nfa} {s e : Nat}
    (gb : Good names b n0 n1 s e) (xb : Exact b) (hfl : Flat b) (w : List Sym)
    (p : Path (Blk n0.length (addEmpty (addEmpty n1 e s) s e)) e w e) :
    Star (Lang names b) w := by
  have hF := gb.frag
  obtain ⟨hF', hB⟩ := frag_add hF hF.elo hF.ehi hF.slo hF.shi
  obtain ⟨-, hB'⟩ := frag_add hF' hF'.slo hF'.shi hF'.elo hF'.ehi
  have hE : ∀ i l j, Blk n0.length (addEmpty (addEmpty n1 e s) s e) i l j →
      Blk n0.length n1 i l j ∨ (i = e ∧ l = none ∧ j = s) ∨ (i = s ∧ l = none ∧ j = e) := by
    intro i l j h
    rw [hB', hB, or_assoc] at h
    exact h
  have snd := fun w (hw : Path (Blk n0.length n1) s w e) => gb.sound xb w hw
  rcases star_split hF.ne hE (gb.entry hfl.1) (gb.exit hfl.2) p with
    ⟨u, v, rfl, pu, pv⟩ | ⟨h, -⟩
  · cases pu with
    | refl => exact pv.mono snd
    | eps h _ => exact absurd h (gb.exit hfl.2 _ _)
    | step h _ => exact absurd h (gb.exit hfl.2 _ _)
  · exact absurd h.symm hF.ne

/-- Going round at the end of `x y (x y)*`. -/
theorem sound_sep {names : Names} {x y : Rule}
    (Gx : ∀ nfa nfa' s e, build names nfa x = some (nfa', s, e) → Good names x nfa nfa' s e)
    (Gy : ∀ nfa nfa' s e, build names nfa y = some (nfa', s, e) → Good names y nfa nfa' s e)
    (xb : Exact (.next x y)) (hfl : Flat (.next x y)) {nfa n1 : Nfa} {s e : Nat}
    (h : build names nfa (.next x (.next y (.maybe (.multiple (.next x y))))) = some (n1, s, e))
    (w : List Sym) (p : Path (Blk nfa.length n1) e w e) :
    Lang names (.maybe (.next x (.next y (.maybe (.multiple (.next x y)))))) w := by
  simp only [build, Option.bind_eq_some_iff, Prod.exists] at h
  obtain ⟨n2, s2, e2, h2, n3, s3, e3, ⟨n4, s4, e4, h4, n5, s5, e5, ⟨n6, s6, e6,
    ⟨n7, s7, e7, ⟨n8, s8, e8, h8, n9, s9, e9, h9, q5⟩, q4⟩, q3⟩, q2⟩, q1⟩ := h
  cases q5
  cases q4
  cases q3
  cases q2
  cases q1
  have gx := Gx _ _ _ _ h2
  have gy := Gy _ _ _ _ h4
  have gb := good_next (Gx _ _ _ _ h8) (Gy _ _ _ _ h9)
  have gM := good_maybe_base (good_multiple gb) (fun hx w p => sound_star gb hx.1 hfl w p)
  have gR := good_next gy gM
  have hw := tail_star gb xb hfl w (tail_next gy gM (tail_next gx gR p))
  cases hw with
  | nil => exact Or.inl rfl
  | cons hu hv =>
    obtain ⟨u, v, rfl, hu, hv'⟩ := hu
    refine Or.inr ⟨u, v ++ _, by rw [List.append_assoc], hu, v, _, rfl, hv', ?_⟩
    cases hv with
    | nil => exact Or.inl rfl
    | cons hu hv => exact Or.inr ⟨_, _, rfl, hu, hv⟩

/-- The fragment of any rule. -/
theorem build_good (names : Names) : ∀ (r : Rule) (nfa nfa' : Nfa) (s e : Nat),
    build names nfa r = some (nfa', s, e) → Good names r nfa nfa' s e
  | .identifier x => by
    intro nfa nfa' s e h
    simp only [build, Option.map_eq_some_iff] at h
    obtain ⟨t, ht, h⟩ := h
    obtain ⟨rfl, rfl, rfl⟩ : nfa' = (buildLeaf nfa t).1 ∧ s = nfa.length ∧
        e = nfa.length + 1 := by
      have h2 := congrArg Prod.snd h
      exact ⟨(congrArg Prod.fst h).symm, (congrArg Prod.fst h2).symm, (congrArg Prod.snd h2).symm⟩
    refine good_leaf names _ t nfa fun w => ?_
    constructor
    · rintro ⟨t', ht', rfl⟩
      rw [ht] at ht'
      rw [Option.some.inj ht']
    · rintro rfl
      exact ⟨t, ht, rfl⟩
  | .keyword x => by
    intro nfa nfa' s e h
    have h := Option.some.inj h
    obtain ⟨rfl, rfl, rfl⟩ : nfa' = (buildLeaf nfa (.keyword x)).1 ∧ s = nfa.length ∧
        e = nfa.length + 1 := by
      have h2 := congrArg Prod.snd h
      exact ⟨(congrArg Prod.fst h).symm, (congrArg Prod.fst h2).symm, (congrArg Prod.snd h2).symm⟩
    exact good_leaf names _ _ nfa fun w => Iff.rfl
  | .or a b => by
    intro nfa nfa' s e h
    simp only [build, newStates, Option.bind_eq_some_iff, Prod.exists] at h
    obtain ⟨n2, s1, e1, h1, n4, s2, e2, h2, h3⟩ := h
    cases h3
    exact good_or (build_good names a _ _ _ _ h1) (build_good names b _ _ _ _ h2)
  | .maybe a => by
    intro nfa nfa' s e h
    simp only [build, Option.bind_eq_some_iff, Prod.exists] at h
    obtain ⟨n1, s1, e1, h1, h3⟩ := h
    cases h3
    have ga := build_good names a _ _ _ _ h1
    have hF := ga.frag
    obtain ⟨-, hB⟩ := frag_add hF hF.slo hF.shi hF.elo hF.ehi
    refine good_maybe_base ga ?_
    rintro ⟨xa, hfl | ⟨b, rfl, hfl⟩ | ⟨x, y, rfl, hfl⟩⟩ w p
    · rcases maybe_split hF.ne (fun i l j => (hB i l j).1) (ga.entry hfl.1) (ga.exit hfl.2) p with
        p | ⟨-, rfl⟩
      · exact Or.inr (ga.sound xa w p)
      · exact Or.inl rfl
    · simp only [build, Option.bind_eq_some_iff, Prod.exists] at h1
      obtain ⟨n2, s2, e2, h2, h4⟩ := h1
      cases h4
      exact sound_star (build_good names b _ _ _ _ h2) xa hfl w p
    · have hent : entryLoop (.next x (.next y (.maybe (.multiple (.next x y))))) = false := hfl.1
      rcases maybe_split_tail hF.ne (fun i l j => (hB i l j).1) (ga.entry hent) p with p | ⟨-, p⟩
      · exact Or.inr (ga.sound xa w p)
      · exact sound_sep (build_good names x) (build_good names y) xa.2.2.1 hfl h1 w p
  | .multiple a => by
    intro nfa nfa' s e h
    simp only [build, Option.bind_eq_some_iff, Prod.exists] at h
    obtain ⟨n1, s1, e1, h1, h3⟩ := h
    cases h3
    exact good_multiple (build_good names a _ _ _ _ h1)
  | .next a b => by
    intro nfa nfa' s e h
    simp only [build, Option.bind_eq_some_iff, Prod.exists] at h
    obtain ⟨n1, s1, e1, h1, n2, s2, e2, h2, h3⟩ := h
    cases h3
    exact good_next (build_good names a _ _ _ _ h1) (build_good names b _ _ _ _ h2)
  | .nodeMayBeOmitted a => by
    intro nfa nfa' s e h
    have g := build_good names a _ _ _ _ h
    exact ⟨g.frag, g.complete, g.sound, g.entry, g.exit⟩
  | .doesErrorRecovery a => by
    intro nfa nfa' s e h
    have g := build_good names a _ _ _ _ h
    exact ⟨g.frag, g.complete, g.sound, g.entry, g.exit⟩

end Verif.Automaton
