import Verif.Automaton.Dfa

/-
C08: the automaton compiled from a grammar rule against the sequences the rule derives.
-/

namespace Verif.Automaton

/-! ### The notation and the rules it is turned into -/

theorem lang_desugar (names : Names) (e : Expr) : ∀ w,
    Lang names (desugar e) w ↔ Derives names e w := by
  induction e with
  | name s =>
    intro w
    simp only [desugar, Lang, Derives, resolve]
    by_cases h1 : s ∈ names.terminals
    · simp only [h1, if_true, not_true, false_and, or_false, true_and]
      constructor
      · rintro ⟨t, ht, rfl⟩; rw [Option.some.inj ht]
      · rintro rfl; exact ⟨_, rfl, rfl⟩
    · by_cases h2 : s ∈ names.nonterminals
      · simp only [h1, h2, if_true, if_false, not_false_eq_true, false_and, false_or, true_and]
        constructor
        · rintro ⟨t, ht, rfl⟩; rw [Option.some.inj ht]
        · rintro rfl; exact ⟨_, rfl, rfl⟩
      · simp [h1, h2]
  | literal s => intro w; exact Iff.rfl
  | alt a b iha ihb => intro w; exact or_congr (iha w) (ihb w)
  | seq a b iha ihb =>
    intro w
    simp only [desugar, Lang, Derives, iha, ihb]
  | opt a ih => intro w; exact or_congr Iff.rfl (ih w)
  | plus a ih =>
    intro w
    have h : Lang names (desugar a) = Derives names a := funext fun w => propext (ih w)
    simp only [desugar, Lang, Derives, h]
  | star a ih =>
    intro w
    have h : Lang names (desugar a) = Derives names a := funext fun w => propext (ih w)
    simp only [desugar, Lang, Derives, h]
    constructor
    · rintro (rfl | ⟨u, v, rfl, hu, hv⟩)
      · exact .nil
      · exact .cons hu hv
    · intro hw
      cases hw with
      | nil => exact Or.inl rfl
      | cons hu hv => exact Or.inr ⟨_, _, rfl, hu, hv⟩
  | sepPlus sep a ihs iha =>
    intro w
    have h1 : Lang names (desugar a) = Derives names a := funext fun w => propext (iha w)
    have h2 : Lang names (desugar sep) = Derives names sep := funext fun w => propext (ihs w)
    have h3 : Lang names (.next (desugar sep) (desugar a)) =
        (fun x => ∃ p q, x = p ++ q ∧ Derives names sep p ∧ Derives names a q) := by
      funext x; simp only [Lang, h1, h2]
    simp only [desugar, Derives]
    show (∃ u v, w = u ++ v ∧ Lang names (desugar a) u ∧ (v = [] ∨
      ∃ p q, v = p ++ q ∧ Lang names (.next (desugar sep) (desugar a)) p ∧
        Star (Lang names (.next (desugar sep) (desugar a))) q)) ↔ _
    rw [h3, h1]
    constructor
    · rintro ⟨u, v, rfl, hu, rfl | ⟨p, q, rfl, hp, hq⟩⟩
      · exact ⟨u, [], rfl, hu, .nil⟩
      · exact ⟨u, p ++ q, rfl, hu, .cons hp hq⟩
    · rintro ⟨u, v, rfl, hu, hv⟩
      refine ⟨u, v, rfl, hu, ?_⟩
      cases hv with
      | nil => exact Or.inl rfl
      | cons hp hq => exact Or.inr ⟨_, _, rfl, hp, hq⟩

theorem entryLoop_desugar (e : Expr) : entryLoop (desugar e) = startsWithLoop e := by
  induction e <;> simp_all [desugar, entryLoop, startsWithLoop]

theorem exitLoop_desugar (e : Expr) : exitLoop (desugar e) = endsWithLoop e := by
  induction e <;> simp_all [desugar, exitLoop, endsWithLoop]

theorem exact_desugar (e : Expr) : WellShaped e → Exact (desugar e) := by
  induction e with
  | name | literal => intro _; trivial
  | alt a b iha ihb => rintro ⟨ha, hb⟩; exact ⟨iha ha, ihb hb⟩
  | seq a b iha ihb => rintro ⟨ha, hb⟩; exact ⟨iha ha, ihb hb⟩
  | opt a ih =>
    rintro ⟨ha, ⟨h1, h2⟩ | ⟨x, rfl, h1, h2⟩ | ⟨s, x, rfl, h1⟩⟩
    · exact ⟨ih ha, Or.inl ⟨by rw [entryLoop_desugar, h1], by rw [exitLoop_desugar, h2]⟩⟩
    · exact ⟨ih ha, Or.inr (Or.inl ⟨_, rfl, by rw [entryLoop_desugar, h1],
        by rw [exitLoop_desugar, h2]⟩)⟩
    · refine ⟨ih ha, Or.inr (Or.inr ⟨_, _, rfl, ?_, ?_⟩)⟩
      · show entryLoop (desugar s) = false
        rw [entryLoop_desugar, h1]
      · show exitLoop (desugar x) = false
        rw [exitLoop_desugar, ha.2.2.2.2]
  | plus a ih => intro ha; exact ih ha
  | star a ih =>
    rintro ⟨ha, h1, h2⟩
    exact ⟨ih ha, Or.inr (Or.inl ⟨_, rfl, by rw [entryLoop_desugar, h1],
      by rw [exitLoop_desugar, h2]⟩)⟩
  | sepPlus sep a ihs iha =>
    rintro ⟨hs, ha, h1, h2⟩
    refine ⟨iha ha, ⟨ihs hs, iha ha⟩, Or.inr (Or.inl ⟨_, rfl, ?_, ?_⟩)⟩
    · show entryLoop (desugar sep) = false
      rw [entryLoop_desugar, h1]
    · show exitLoop (desugar a) = false
      rw [exitLoop_desugar, h2]

/-- Every name of the rule is known. -/
def RuleKnown (names : Names) : Rule → Prop
  | .identifier s => s ∈ names.terminals ∨ s ∈ names.nonterminals
  | .keyword _ => True
  | .or a b | .next a b => RuleKnown names a ∧ RuleKnown names b
  | .maybe a | .multiple a | .nodeMayBeOmitted a | .doesErrorRecovery a => RuleKnown names a

theorem known_desugar (names : Names) (e : Expr) : Known names e → RuleKnown names (desugar e) := by
  induction e with
  | name | literal => exact id
  | alt a b iha ihb => rintro ⟨ha, hb⟩; exact ⟨iha ha, ihb hb⟩
  | seq a b iha ihb => rintro ⟨ha, hb⟩; exact ⟨iha ha, ihb hb⟩
  | opt a ih => exact ih
  | plus a ih => exact ih
  | star a ih => exact ih
  | sepPlus sep a ihs iha => rintro ⟨hs, ha⟩; exact ⟨iha ha, ihs hs, iha ha⟩

theorem build_known (names : Names) (r : Rule) : RuleKnown names r →
    ∀ nfa, ∃ x, build names nfa r = some x := by
  induction r with
  | identifier s =>
    rintro h nfa
    have : ∃ t, resolve names s = some t := by
      unfold resolve
      by_cases h1 : s ∈ names.terminals
      · exact ⟨_, if_pos h1⟩
      · rw [if_neg h1]
        exact ⟨_, if_pos (h.resolve_left h1)⟩
    obtain ⟨t, ht⟩ := this
    exact ⟨buildLeaf nfa t, by simp only [build, ht]; rfl⟩
  | keyword s => intro _ nfa; exact ⟨_, rfl⟩
  | or a b iha ihb =>
    rintro ⟨ha, hb⟩ nfa
    obtain ⟨x, hx⟩ := iha ha (newStates nfa).1
    obtain ⟨y, hy⟩ := ihb hb (addEmpty (addEmpty x.1 nfa.length x.2.1) x.2.2 (nfa.length + 1))
    refine ⟨(addEmpty (addEmpty y.1 nfa.length y.2.1) y.2.2 (nfa.length + 1), nfa.length,
      nfa.length + 1), ?_⟩
    simp only [build, newStates] at hx ⊢
    rw [hx, Option.bind_some]
    simp only [hy, Option.bind_some]
  | maybe a ih =>
    rintro ha nfa
    obtain ⟨x, hx⟩ := ih ha nfa
    exact ⟨(addEmpty x.1 x.2.1 x.2.2, x.2.1, x.2.2), by simp only [build, hx, Option.bind_some]⟩
  | multiple a ih =>
    rintro ha nfa
    obtain ⟨x, hx⟩ := ih ha nfa
    exact ⟨(addEmpty x.1 x.2.2 x.2.1, x.2.1, x.2.2), by simp only [build, hx, Option.bind_some]⟩
  | next a b iha ihb =>
    rintro ⟨ha, hb⟩ nfa
    obtain ⟨x, hx⟩ := iha ha nfa
    obtain ⟨y, hy⟩ := ihb hb x.1
    exact ⟨(addEmpty y.1 x.2.2 y.2.1, x.2.1, y.2.2),
      by simp only [build, hx, hy, Option.bind_some]⟩
  | nodeMayBeOmitted a ih => exact ih
  | doesErrorRecovery a ih => exact ih

/-- The compiled table against the meaning of the rule. -/
theorem compile_spec (names : Names) (r : Rule) (h : RuleKnown names r) :
    ∃ dfas, compile names r = some dfas ∧
      (∀ w, Lang names r w → accepts dfas w = true) ∧
      (Exact r → ∀ w, accepts dfas w = true → Lang names r w) := by
  obtain ⟨⟨nfa, s, e⟩, hb⟩ := build_known names r h []
  have g := build_good names r _ _ _ _ hb
  have hc : Closed nfa := fun i l j hE => (g.frag.rng i l j (Nat.zero_le _) hE).2
  obtain ⟨dfas, hp, hacc⟩ := powerset_spec hc (start := s) (stop := e) g.frag.shi
  have hblk : ∀ w, Path (Edge nfa) s w e ↔ Path (Blk ([] : Nfa).length nfa) s w e := fun w =>
    ⟨fun p => p.mono fun _ _ _ hE => ⟨Nat.zero_le _, hE⟩, fun p => p.mono fun _ _ _ hE => hE.2⟩
  refine ⟨dfas, ?_, fun w hw => ?_, fun hx w hw => ?_⟩
  · simp only [compile, hb, Option.bind_some]
    exact hp
  · exact (hacc w).2 ((hblk w).2 (g.complete w hw))
  · exact g.sound hx w ((hblk w).1 ((hacc w).1 hw))

/-! ### C08 -/

/-- Compiling a rule whose names are all known finishes, whatever the rule looks like. -/
theorem compile_total (names : Names) (e : Expr) (h : Known names e) :
    ∃ dfas, compile names (desugar e) = some dfas := by
  obtain ⟨dfas, hd, -⟩ := compile_spec names (desugar e) (known_desugar names e h)
  exact ⟨dfas, hd⟩

/-- Every sequence a rule derives is accepted by the automaton compiled from it, for every
rule. -/
theorem derived_is_accepted (names : Names) (e : Expr) (h : Known names e) (dfas : List DState)
    (hd : compile names (desugar e) = some dfas) (w : List Sym) (hw : Derives names e w) :
    accepts dfas w = true := by
  obtain ⟨dfas', hd', hc, -⟩ := compile_spec names (desugar e) (known_desugar names e h)
  rw [hd] at hd'
  cases hd'
  exact hc w ((lang_desugar names e w).2 hw)

/-- The automaton accepts exactly the derived sequences, for rules in which nothing optional
begins or ends with a repetition (with the exceptions listed at `WellShaped`).  Missing: the other
rules, for which it is false in general (see `optional_tail_loop_violation`). -/
theorem accepted_iff_derived_partial (names : Names) (e : Expr) (h : Known names e)
    (hs : WellShaped e) (dfas : List DState) (hd : compile names (desugar e) = some dfas)
    (w : List Sym) : accepts dfas w = true ↔ Derives names e w := by
  obtain ⟨dfas', hd', hc, hx⟩ := compile_spec names (desugar e) (known_desugar names e h)
  rw [hd] at hd'
  cases hd'
  rw [← lang_desugar names e w]
  exact ⟨hx (exact_desugar e hs) w, hc w⟩

/-- The two flags a rule may carry do not change its automaton. -/
theorem flags_keep_automaton (names : Names) (r : Rule) :
    compile names (.nodeMayBeOmitted r) = compile names r ∧
    compile names (.doesErrorRecovery r) = compile names r := ⟨rfl, rfl⟩

/-- No two states of a compiled automaton stand for the same set, so the states the parser sees
are all different. -/
theorem compiled_deterministic (names : Names) (e : Expr) (dfas : List DState)
    (hd : compile names (desugar e) = some dfas) (h : Known names e) :
    dfas.Pairwise (fun d d' => ∃ x, ¬ (x ∈ d.nfaSet ↔ x ∈ d'.nfaSet)) := by
  obtain ⟨⟨nfa, s, t⟩, hb⟩ := build_known names _ (known_desugar names e h) []
  have g := build_good names _ _ _ _ _ hb
  have hc : Closed nfa := fun i l j hE => (g.frag.rng i l j (Nat.zero_le _) hE).2
  have h0 : Inv nfa t [] := ⟨by simp, .nil, by simp⟩
  obtain ⟨-, a2, -, d, a4, -⟩ := nfaToDfa_spec hc h0 [s] (by simpa using g.frag.shi)
  have hidx : (nfaToDfa nfa t [] [s]).2 = 0 := rfl
  rw [hidx] at a4
  obtain ⟨dfas', b1, b2, -⟩ := construct_spec hc (2 ^ nfa.length + 1) _ 0 a2
    (List.getElem?_eq_some_iff.1 a4).1 (by omega)
  have : compile names (desugar e) = some dfas' := by
    simp only [compile, hb, Option.bind_some]
    exact b1
  rw [hd] at this
  cases this
  refine b2.distinct.imp ?_
  intro d d' hs
  refine Classical.byContradiction fun hn => ?_
  have : sameSet d.nfaSet d'.nfaSet = true := by
    rw [sameSet_iff]
    intro x
    exact Classical.byContradiction fun hx => hn ⟨x, hx⟩
  rw [this] at hs
  cases hs

def kw (s : String) : Sym := .keyword s

/-- The full statement fails: `["a" "b"*]` accepts a lone `"b"`. -/
theorem optional_tail_loop_violation :
    ∃ dfas, compile ⟨[], []⟩ (desugar (.opt (.seq (.literal "a") (.star (.literal "b"))))) =
        some dfas ∧ accepts dfas [kw "b"] = true ∧
      ¬ Derives ⟨[], []⟩ (.opt (.seq (.literal "a") (.star (.literal "b")))) [kw "b"] := by
  refine ⟨_, rfl, by decide +kernel, ?_⟩
  rintro (h | ⟨u, v, h, hu, -⟩)
  · cases h
  · cases hu; simp [kw] at h

/-- The full statement fails: `["a"* "b"]` accepts a lone `"a"`. -/
theorem optional_head_loop_violation :
    ∃ dfas, compile ⟨[], []⟩ (desugar (.opt (.seq (.star (.literal "a")) (.literal "b")))) =
        some dfas ∧ accepts dfas [kw "a"] = true ∧
      ¬ Derives ⟨[], []⟩ (.opt (.seq (.star (.literal "a")) (.literal "b"))) [kw "a"] := by
  refine ⟨_, rfl, by decide +kernel, ?_⟩
  rintro (h | ⟨u, v, h, -, hv⟩)
  · cases h
  · cases hv
    have := congrArg List.getLast? h
    simp [kw] at this

/-- The rule `param_patterns` of the Python grammar (parsa_python/src/lib.rs 227-229) without its
lookahead. -/
def paramPatterns : Expr :=
  .alt (.seq (.sepPlus (.literal ",") (.name "pattern"))
        (.seq (.opt (.sepPlus (.literal ",") (.name "keyword_pattern"))) (.opt (.literal ","))))
      (.seq (.sepPlus (.literal ",") (.name "keyword_pattern")) (.opt (.literal ",")))

/-- The sequences `param_patterns` derives that begin with a pattern never have a comma right
before a keyword pattern that follows a pattern. -/
theorem paramPatterns_not_derived :
    ¬ Derives ⟨[], ["pattern", "keyword_pattern"]⟩ paramPatterns
      [.nonterminal "pattern", kw ",", .nonterminal "keyword_pattern"] := by
  have one : ∀ s w, Derives ⟨[], ["pattern", "keyword_pattern"]⟩ (.name s) w →
      w = [.nonterminal s] := by
    intro s w h
    rcases h with ⟨h, -⟩ | ⟨-, -, h⟩
    · cases h
    · exact h
  have headOf : ∀ s w, Derives ⟨[], ["pattern", "keyword_pattern"]⟩
      (.sepPlus (.literal ",") (.name s)) w → ∃ v, w = .nonterminal s :: v ∧
        Star (fun x => x = [kw ",", .nonterminal s]) v := by
    rintro s w ⟨u, v, rfl, hu, hv⟩
    refine ⟨v, by rw [one s u hu]; rfl, hv.mono ?_⟩
    rintro x ⟨p, q, rfl, hp, hq⟩
    rw [one s q hq]
    cases hp
    rfl
  rintro (⟨u, v, h, hu, a, b, rfl, ha, hb⟩ | ⟨u, v, h, hu, -⟩)
  · obtain ⟨x, rfl, hx⟩ := headOf _ _ hu
    simp only [List.cons_append, List.cons.injEq, true_and] at h
    cases hx with
    | nil =>
      rcases ha with rfl | ha
      · rcases hb with rfl | rfl
        · cases h
        · simp [kw] at h
      · obtain ⟨y, rfl, -⟩ := headOf _ _ ha
        simp [kw] at h
    | cons hx _ =>
      subst hx
      simp at h
  · obtain ⟨x, rfl, -⟩ := headOf _ _ hu
    simp at h

/-- In the Python grammar the difference is visible: the automaton of `param_patterns` accepts
`pattern , keyword_pattern`, which the rule does not derive. -/
theorem param_patterns_violation :
    ∃ dfas, compile ⟨[], ["pattern", "keyword_pattern"]⟩ (desugar paramPatterns) = some dfas ∧
      accepts dfas [.nonterminal "pattern", kw ",", .nonterminal "keyword_pattern"] = true ∧
      ¬ Derives ⟨[], ["pattern", "keyword_pattern"]⟩ paramPatterns
        [.nonterminal "pattern", kw ",", .nonterminal "keyword_pattern"] :=
  ⟨_, rfl, by decide +kernel, paramPatterns_not_derived⟩

/-! ### Concrete cases -/

/-- `"class" Name ["(" [arguments] ")"] ("," Name)*`. -/
def sample : Expr :=
  .seq (.literal "class") (.seq (.name "Name")
    (.seq (.opt (.seq (.literal "(") (.seq (.opt (.name "arguments")) (.literal ")"))))
      (.star (.seq (.literal ",") (.name "Name")))))

example : Known ⟨["Name"], ["arguments"]⟩ sample ∧ WellShaped sample := by
  simp [sample, Known, WellShaped, noLoopAtEnds, startsWithLoop, endsWithLoop]

example : ((compile ⟨["Name"], ["arguments"]⟩ (desugar sample)).map fun dfas =>
    (accepts dfas [kw "class", .terminal "Name", kw "(", kw ")", kw ",", .terminal "Name"],
     accepts dfas [kw "class", .terminal "Name", kw "("],
     accepts dfas [kw "class", .terminal "Name"])) = some (true, false, true) := by
  decide +kernel

end Verif.Automaton
