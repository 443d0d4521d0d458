import Verif.Config.FlagLemmas
import Verif.Config.Search
import Verif.Config.Directive

/-!
# Properties of the configuration (C21 - C26, C49, C52 - C55)
-/

namespace Verif.Config

open Spec

deriving instance DecidableEq for Except

/-! ## C21: which modules a section applies to -/

/-- C21, the matcher: a pattern matches a name with its parent directories iff it denotes the
module with these components. -/
theorem pattern_matches (p : Path) (name : Name) (parents : List Name) :
    p.matches name parents = true ↔ Denotes p.path (name :: parents).reverse := by
  unfold Path.matches
  rw [matchesRev_iff, List.reverse_reverse]

/-- Evaluating the matcher on a concrete case. -/
theorem match_lit (p : Path) (f : File) (rev : List Part) (n : Name) (ps : List Name) (b : Bool)
    (h : p.path.reverse = rev ∧ nameAndParents f = (n, ps)) (hm : matchesRev rev n ps = b) :
    p.matches (nameAndParents f).1 (nameAndParents f).2 = b := by
  unfold Path.matches
  rw [h.1, h.2, hm]

/-- C21 with the module name of the file, partial (full statement: without `h`, false by
`section_applies_violation`): missing are the files of stub packages other than `__init__.pyi`. -/
theorem section_applies_partial (p : Path) (f : File)
    (h : ∀ d, f.dirs.getLast? = some d → (stripSuffix d stubs) = none)
    (hf : stripSuffix (nameAndParents f).1 stubs = none) :
    p.matches (nameAndParents f).1 (nameAndParents f).2 = true ↔ Denotes p.path (qualifiedName f).reverse := by
  rw [pattern_matches]
  have dotted : ∀ (ds : List Name) (d : Name), (∀ x, (d :: ds).getLast? = some x → stripSuffix x stubs = none) →
      dottedPathFromDir d ds = d :: ds := by
    intro ds
    induction ds with
    | nil => intro d hd; simp [dottedPathFromDir, hd d rfl]
    | cons e ds ih => intro d hd; rw [dottedPathFromDir, ih e (fun x hx => hd x (by rw [List.getLast?_cons_cons]; exact hx))]
  have : qualifiedName f = (nameAndParents f).1 :: (nameAndParents f).2 := by
    obtain ⟨name, dirs⟩ := f
    unfold qualifiedName
    cases hn : nameAndParents ⟨name, dirs⟩ with
    | mk n ps =>
      rw [hn] at hf
      cases ps with
      | nil => simp only at hf ⊢; rw [hf]; rfl
      | cons d ds =>
        simp only
        rw [dotted]
        intro x hx
        apply h x
        unfold nameAndParents at hn
        cases dirs with
        | nil => simp at hn
        | cons e es =>
          simp only at hn ⊢
          split at hn
          · simp only [Prod.mk.injEq] at hn
            rw [hn.2, List.getLast?_cons_cons]
            exact hx
          · simp only [Prod.mk.injEq] at hn
            rw [hn.2]
            exact hx
  rw [this]

/-- C21 violated: `[mypy-foo.*]` does not apply to `foo-stubs/bar.pyi`, whose module is `foo.bar`. -/
theorem section_applies_violation :
    ∃ (p : Path) (f : File), Denotes p.path (qualifiedName f).reverse ∧
      p.matches (nameAndParents f).1 (nameAndParents f).2 = false := by
  refine ⟨.ofString "foo.*".toList, ⟨"bar.pyi".toList, ["foo-stubs".toList]⟩, ?_,
    (match_lit _ _ [.wildcard, .part "foo".toList] "bar".toList ["foo-stubs".toList] _ (by decide +kernel) (by simp [matchesRev, checkWildcardParents]))⟩
  have h1 : (Path.ofString "foo.*".toList).path = [.part "foo".toList, .wildcard] := by decide +kernel
  have h2 : (qualifiedName ⟨"bar.pyi".toList, ["foo-stubs".toList]⟩).reverse = ["foo".toList, "bar".toList] := by
    decide +kernel
  rw [h1, h2]
  exact .part (rest_star _)

example : (Path.ofString "a.*.c".toList).matches "c".toList ["b".toList, "b".toList, "a".toList] = true ∧
    (Path.ofString "a.*.c".toList).matches "c".toList ["a".toList] = true ∧
    (Path.ofString "*.c".toList).matches "c".toList [] = false ∧
    qualifiedName ⟨"x.py".toList, ["b".toList, "a".toList]⟩ = ["x".toList, "b".toList, "a".toList] := by
  have h1 : (Path.ofString "a.*.c".toList).path.reverse = [.part "c".toList, .wildcard, .part "a".toList] := by decide +kernel
  have h2 : (Path.ofString "*.c".toList).path.reverse = [.part "c".toList, .wildcard] := by decide +kernel
  refine ⟨?_, ?_, ?_, by decide +kernel⟩
  · unfold Path.matches; rw [h1]; simp [matchesRev, checkWildcardParents]
  · unfold Path.matches; rw [h1]; simp [matchesRev, checkWildcardParents]
  · unfold Path.matches; rw [h2]; simp [matchesRev]

/-! ## From the text of a section header to the pattern -/

/-- Names joined with a separator (specification). -/
def joinWith (sep : Char) : List (List Char) → List Char
  | [] => []
  | [x] => x
  | x :: xs => x ++ sep :: joinWith sep xs

theorem splitOn_plain (sep : Char) (s : List Char) (h : sep ∉ s) : splitOn sep s = [s] := by
  induction s with
  | nil => rfl
  | cons c s ih =>
    simp only [List.mem_cons, not_or] at h
    simp only [splitOn]
    rw [if_neg (fun e => h.1 e.symm), ih h.2]

theorem splitOn_sep (sep : Char) (s t : List Char) (h : sep ∉ s) : splitOn sep (s ++ sep :: t) = s :: splitOn sep t := by
  induction s with
  | nil => simp [splitOn]
  | cons c s ih =>
    simp only [List.mem_cons, not_or] at h
    simp only [List.cons_append, splitOn]
    rw [if_neg (fun e => h.1 e.symm), ih h.2]

theorem splitOn_join (sep : Char) (xs : List (List Char)) (hne : xs ≠ []) (h : ∀ x ∈ xs, sep ∉ x) :
    splitOn sep (joinWith sep xs) = xs := by
  induction xs with
  | nil => exact absurd rfl hne
  | cons x xs ih =>
    cases xs with
    | nil => exact splitOn_plain sep x (h x (by simp))
    | cons y ys =>
      simp only [joinWith]
      rw [splitOn_sep sep x _ (h x (by simp)), ih (by simp) (fun z hz => h z (by simp [hz]))]

/-- C21: the pattern written with dots has the components between the dots; exactly `*` is the
wildcard. -/
theorem pattern_components (comps : List Name) (hne : comps ≠ []) (h : ∀ c ∈ comps, '.' ∉ c) :
    (Path.ofString (joinWith '.' comps)).path.length = comps.length ∧
    ∀ (i : Nat) (c : Name), comps[i]? = some c →
      (c = ['*'] → (Path.ofString (joinWith '.' comps)).path[i]? = some Part.wildcard) ∧
      (c ≠ ['*'] → (Path.ofString (joinWith '.' comps)).path[i]? = some (Part.part c)) := by
  have : (Path.ofString (joinWith '.' comps)).path = comps.map toPart := by
    unfold Path.ofString
    rw [splitOn_join '.' comps hne h]
  rw [this]
  refine ⟨by simp, ?_⟩
  intro i c hc
  rw [List.getElem?_map, hc]
  constructor
  · rintro rfl; rfl
  · intro hn; simp [toPart, hn]

/-- C22: the section `[mypy-a,b]` of an ini file is one section for each of the patterns, with the
same entries, in the order of the file. -/
theorem ini_sections (pre post : List (Name × List (Name × Name))) (pats : List Name) (cfg : List (Name × Name))
    (hne : pats ≠ []) (h : ∀ c ∈ pats, ',' ∉ c) :
    overridesOfIni (pre ++ (joinWith ',' pats, cfg) :: post) =
      overridesOfIni pre ++
      pats.map (fun m => { module := .ofString m, config := cfg.map fun kv => (kv.1, .ini kv.2) }) ++
      overridesOfIni post := by
  unfold overridesOfIni
  rw [List.flatMap_append, List.flatMap_cons, List.append_assoc]
  simp only [splitOn_join ',' pats hne h]

example : Path.ofString (joinWith '.' ["a".toList, "*".toList]) = ⟨[.part "a".toList, .wildcard], .wellStructured⟩ := by
  decide +kernel

/-! ## C24: negated names -/

/-- C24: every name of a flag (its own, with `no_`, with `allow`/`disallow` exchanged) sets exactly
this flag, with the sign of the name, and nothing else; a value that is no boolean is an error
and sets nothing. -/
theorem set_flag_key (valid : Name → Bool) (fl : Flags) (n : Name) (v : Value) (e : Bool) (f : Flag) (neg : Bool)
    (h : Key n f neg) :
    (∀ b, BoolValue v b →
      (setFlag valid fl n v e).2 = .ok () ∧ (setFlag valid fl n v e).1.bool f = (b != neg) ∧
      (∀ g, g ≠ f → (setFlag valid fl n v e).1.bool g = fl.bool g) ∧
      (setFlag valid fl n v e).1.list = fl.list) ∧
    ((¬ ∃ b, BoolValue v b) → setFlag valid fl n v e = (fl, .error .bail)) := by
  rw [setFlag_key valid fl n v e h]
  constructor
  · intro b hb
    rw [(asBool_iff v b).mpr hb]
    exact ⟨rfl, setBool_self _ _ _, fun g hg => setBool_other _ _ _ _ hg, rfl⟩
  · intro hb
    rw [(asBool_none_iff v).mpr hb]

/-- C24: `allow…` and `disallow…` are opposites for every suffix, known option or not. -/
theorem allow_disallow (valid : Name → Bool) (fl : Flags) (x : Name) (b e : Bool) :
    setFlag valid fl ("allow".toList ++ x) (.tomlBool b) e =
    setFlag valid fl ("disallow".toList ++ x) (.tomlBool !b) e := by
  have hb : ∀ (m : Name) (i : Bool), setBoolInitFlags fl m (.tomlBool b) i e = setBoolInitFlags fl m (.tomlBool !b) (!i) e := by
    intro m i
    unfold setBoolInitFlags
    have : Value.asBool (.tomlBool b) i = Value.asBool (.tomlBool !b) (!i) := by cases b <;> cases i <;> rfl
    rw [this]
  have hs1 : "allow".toList ++ x ∉ specialNames := by simp [specialNames]
  have hs2 : "disallow".toList ++ x ∉ specialNames := by simp [specialNames]
  rcases maybeInvert_allow x with ⟨-, h1, h2⟩ | ⟨-, h1, h2⟩
  · rw [setFlag_default valid fl _ _ e h1 hs1, setFlag_default valid fl _ _ e h2 hs1, hb]; rfl
  · rw [setFlag_default valid fl _ _ e h1 hs2, setFlag_default valid fl _ _ e h2 hs2, hb]; rfl

/-- C24: a name that does not stand for a flag does not change it. -/
theorem set_flag_other (valid : Name → Bool) (fl : Flags) (n : Name) (v : Value) (e : Bool) (g : Flag)
    (h : ∀ neg, ¬ Key n g neg) : (setFlag valid fl n v e).1.bool g = fl.bool g :=
  setFlag_other valid fl n v e g h

example : Key "allow_any_generics".toList .disallowAnyGenerics true ∧
    Key "no_implicit_reexport".toList .noImplicitReexport false ∧
    BoolValue (.ini "Yes".toList) true := by
  refine ⟨?_, ?_, .yes _ (by decide +kernel)⟩
  · exact Key.allow (x := "_any_generics".toList) (neg := false) (by decide +kernel)
  · exact Key.no (n := "implicit_reexport".toList) (neg := true) (by decide +kernel)

/-! ## C22: which section wins -/

/-- The kinds of a pattern: concrete modules before patterns with a name after a star, before
`pkg.*`. -/
theorem kind_of_pattern (value : Name) :
    let ps := (Path.ofString value).path
    ((Path.ofString value).kind = .moduleName ↔ .wildcard ∉ ps) ∧
    ((Path.ofString value).kind = .unstructured ↔ ∃ a b c n, ps = a ++ .wildcard :: b ++ .part n :: c) ∧
    ((Path.ofString value).kind = .wellStructured ↔ .wildcard ∈ ps ∧ ¬ ∃ a b c n, ps = a ++ .wildcard :: b ++ .part n :: c) := by
  classical
  have hscan : ∀ (ps : List Part) (s t : Bool), scanStars ps (s, t) =
      (s || decide (Part.wildcard ∈ ps),
       t || (s && ps.any (fun p => p matches .part _)) || decide (∃ a b c n, ps = a ++ Part.wildcard :: b ++ Part.part n :: c)) := by
    intro ps
    induction ps with
    | nil => intro s t; simp [scanStars]
    | cons p ps ih =>
      intro s t
      have hex : (∃ a b c n, p :: ps = a ++ Part.wildcard :: b ++ Part.part n :: c) ↔
          (p = .wildcard ∧ ps.any (fun p => p matches .part _) = true) ∨ (∃ a b c n, ps = a ++ Part.wildcard :: b ++ Part.part n :: c) := by
        constructor
        · rintro ⟨a, b, c, n, h⟩
          cases a with
          | nil =>
            simp only [List.nil_append, List.cons_append, List.cons.injEq] at h
            obtain ⟨rfl, rfl⟩ := h
            left
            refine ⟨rfl, ?_⟩
            rw [List.any_eq_true]
            exact ⟨.part n, by simp⟩
          | cons x a =>
            simp only [List.cons_append, List.cons.injEq] at h
            right
            exact ⟨a, b, c, n, by rw [h.2]⟩
        · rintro (⟨rfl, h⟩ | ⟨a, b, c, n, rfl⟩)
          · rw [List.any_eq_true] at h
            obtain ⟨x, hx, hp⟩ := h
            obtain ⟨b, c, rfl⟩ := List.append_of_mem hx
            cases x with
            | part n => exact ⟨[], b, c, n, rfl⟩
            | wildcard => simp at hp
          · exact ⟨p :: a, b, c, n, by simp⟩
      cases p with
      | wildcard =>
        simp only [scanStars, ih, hex]
        ext
        · simp
        · simp only [List.any_cons, Bool.false_or, true_and]
          cases s <;> cases t <;> simp <;> (try grind)
      | part n =>
        simp only [scanStars, ih, hex]
        ext
        · simp
        · simp only [List.any_cons, Bool.true_or, reduceCtorEq, false_and, false_or]
          cases s <;> cases t <;> simp
  simp only [Path.ofString]
  have h := hscan ((splitOn '.' value).map toPart) false false
  simp only [Bool.false_or, Bool.false_and] at h
  rw [h]
  simp only
  generalize (splitOn '.' value).map toPart = ps
  have hsub : (∃ a b c n, ps = a ++ Part.wildcard :: b ++ Part.part n :: c) → Part.wildcard ∈ ps := by
    rintro ⟨a, b, c, n, rfl⟩; simp
  generalize (∃ a b c n, ps = a ++ Part.wildcard :: b ++ Part.part n :: c) = U at hsub ⊢
  by_cases hw : Part.wildcard ∈ ps
  · by_cases hu : U
    · simp [hw, hu]
    · simp [hw, hu]
  · have hu : ¬ U := fun h => hw (hsub h)
    simp [hw, hu]

theorem rank_level (value : Name) : (Path.ofString value).kind.rank = level (Path.ofString value).path := by
  obtain ⟨h1, h2, h3⟩ := kind_of_pattern value
  generalize Path.ofString value = m at h1 h2 h3 ⊢
  obtain ⟨ps, kind⟩ := m
  simp only at h1 h2 h3 ⊢
  have hall : ps.all (· ≠ .wildcard) = true ↔ .wildcard ∉ ps := by
    rw [List.all_eq_true]
    constructor
    · intro h hm; simpa using h _ hm
    · intro h x hx; simp only [decide_eq_true_eq]; rintro rfl; exact h hx
  have hany : (ps.dropWhile (· ≠ .wildcard)).any (· ≠ .wildcard) = true ↔ ∃ a b c n, ps = a ++ .wildcard :: b ++ .part n :: c := by
    clear h1 h2 h3 hall
    constructor
    · intro h
      rw [List.any_eq_true] at h
      obtain ⟨x, hx, hp⟩ := h
      simp only [decide_eq_true_eq] at hp
      cases x with
      | wildcard => exact absurd rfl hp
      | part n =>
        have hs : ps = ps.takeWhile (· ≠ .wildcard) ++ ps.dropWhile (· ≠ .wildcard) := (List.takeWhile_append_dropWhile).symm
        generalize hd : ps.dropWhile (· ≠ .wildcard) = ds at hx hs
        cases ds with
        | nil => simp at hx
        | cons y ds =>
          have hy : y = .wildcard := by
            have := List.head?_dropWhile_not (p := (· ≠ Part.wildcard)) (l := ps)
            rw [hd] at this
            simpa using this
          subst hy
          rcases List.mem_cons.mp hx with hx | hx
          · simp at hx
          · obtain ⟨b, c, rfl⟩ := List.append_of_mem hx
            exact ⟨ps.takeWhile (· ≠ .wildcard), b, c, n, hs.trans (by rw [List.append_assoc, List.cons_append])⟩
    · rintro ⟨a, b, c, n, rfl⟩
      induction a with
      | nil => simp
      | cons x a ih =>
        simp only [List.cons_append, List.dropWhile_cons]
        split
        · simpa using ih
        · simp
  unfold level
  cases kind with
  | moduleName => rw [if_pos (hall.mpr (h1.mp rfl))]; rfl
  | unstructured =>
    have := h2.mp rfl
    rw [if_neg (by rw [hall]; obtain ⟨a, b, c, n, rfl⟩ := this; simp), if_pos (hany.mpr this)]; rfl
  | wellStructured =>
    obtain ⟨h, h'⟩ := h3.mp rfl
    rw [if_neg (by rw [hall]; simpa using h), if_neg (by rw [hany]; exact h')]; rfl

/-- C22: if the flags of a file can be computed, then for every flag:
the section that sets it wins over all applicable sections that mention the flag and have a
lower level, or the same level and stand before it; and a flag mentioned by no applicable section
keeps the value of the project. -/
theorem section_priority_partial (valid : Name → Bool) (base fl : Flags) (sections : List Override) (file : File)
    (hread : ∀ o ∈ sections, ∃ s, o.module = Path.ofString s)
    (hok : fileFlags valid base sections file = .ok fl) (f : Flag) :
    (∀ pre o post b, sections = pre ++ o :: post → Applies o file → Sets o f b →
      (∀ o' ∈ pre, Applies o' file → Mentions o' f → level o'.module.path ≤ level o.module.path) →
      (∀ o' ∈ post, Applies o' file → Mentions o' f → level o'.module.path < level o.module.path) →
      fl.bool f = b) ∧
    ((∀ o ∈ sections, Applies o file → ¬ Mentions o f) → fl.bool f = base.bool f) := by
  have hrank : ∀ o ∈ sections, o.module.kind.rank = level o.module.path := by
    intro o ho
    obtain ⟨s, hs⟩ := hread o ho
    rw [hs]
    exact rank_level s
  unfold fileFlags at hok
  constructor
  · rintro pre o post b rfl happ hsets hpre hpost
    obtain ⟨a, c, hord, hc⟩ := orderOverrides_split pre post o
    rw [hord] at hok
    obtain ⟨fl1, -, h2⟩ := applyOverrides_append valid file a (o :: c) base fl hok
    simp only [applyOverrides] at h2
    rw [if_pos ((applies_iff o file).mpr happ)] at h2
    cases ha : o.apply valid fl1 with
    | mk fl2 r =>
      rw [ha] at h2
      cases r with
      | error e => simp at h2
      | ok u =>
        rw [applyOverrides_unmentioned valid file c fl2 fl f h2, apply_sets valid o fl1 fl2 f b ha hsets]
        intro o' ho' happ' hm
        rcases hc o' ho' with ⟨h1, h2⟩ | ⟨h1, h2⟩
        · have := hpre o' h1 happ' hm
          rw [← hrank o' (by simp [h1]), ← hrank o (by simp)] at this
          omega
        · have := hpost o' h1 happ' hm
          rw [← hrank o' (by simp [h1]), ← hrank o (by simp)] at this
          omega
  · intro h
    apply applyOverrides_unmentioned valid file _ base fl f hok
    intro o ho
    exact h o ((mem_orderOverrides sections o).mp ho)

/-- C22 violated: `[mypy-foo.bar.*]` followed by `[mypy-foo.*]`: for the module `foo.bar.x` the shorter
prefix wins. -/
theorem section_specificity_violation :
    ∃ (sections : List Override) (file : File) (s1 s2 : Override) (fl : Flags) (n : Name),
      sections = [s1, s2] ∧ Applies s1 file ∧ Applies s2 file ∧
      s2.module.path = [.part n, .wildcard] ∧ (∃ m, s1.module.path = [.part n, .part m, .wildcard]) ∧
      Sets s1 .disallowUntypedDefs true ∧ Sets s2 .disallowUntypedDefs false ∧
      fileFlags (fun _ => true) ⟨fun _ => false, fun _ => []⟩ sections file = .ok fl ∧
      fl.bool .disallowUntypedDefs = false := by
  let s1 : Override := ⟨.ofString "foo.bar.*".toList, [("disallow_untyped_defs".toList, .ini "true".toList)]⟩
  let s2 : Override := ⟨.ofString "foo.*".toList, [("disallow_untyped_defs".toList, .ini "false".toList)]⟩
  let file : File := ⟨"x.py".toList, ["bar".toList, "foo".toList]⟩
  have h1 : Applies s1 file := (applies_iff s1 file).mp (match_lit _ _ [.wildcard, .part "bar".toList, .part "foo".toList] "x".toList ["bar".toList, "foo".toList] _ (by decide +kernel) (by simp [matchesRev, checkWildcardParents]))
  have h2 : Applies s2 file := (applies_iff s2 file).mp (match_lit _ _ [.wildcard, .part "foo".toList] "x".toList ["bar".toList, "foo".toList] _ (by decide +kernel) (by simp [matchesRev, checkWildcardParents]))
  have k : Key "disallow_untyped_defs".toList .disallowUntypedDefs false := .own (by decide +kernel)
  have b1 : Sets s1 .disallowUntypedDefs true :=
    ⟨[], _, _, [], false, true, rfl, k, .yes _ (by decide +kernel), rfl, by simp⟩
  have b2 : Sets s2 .disallowUntypedDefs false :=
    ⟨[], _, _, [], false, false, rfl, k, .no _ (by decide +kernel), rfl, by simp⟩
  have hok : ∃ fl, fileFlags (fun _ => true) ⟨fun _ => false, fun _ => []⟩ [s1, s2] file = .ok fl := by
    unfold fileFlags
    rw [applyOverrides_ok_iff]
    intro o ho _ k' v' hm hbad
    have : (setFlag (fun _ => true) ⟨fun _ => false, fun _ => []⟩ k' v' false).2 = .ok () := by
      rw [mem_orderOverrides] at ho
      simp only [List.mem_cons, List.not_mem_nil, or_false] at ho
      rcases ho with rfl | rfl
      · simp only [s1, List.mem_cons, List.not_mem_nil, or_false, Prod.mk.injEq] at hm
        obtain ⟨rfl, rfl⟩ := hm
        decide +kernel
      · simp only [s2, List.mem_cons, List.not_mem_nil, or_false, Prod.mk.injEq] at hm
        obtain ⟨rfl, rfl⟩ := hm
        decide +kernel
    exact (setFlag_ok_iff _ _ _ _).mp this hbad
  obtain ⟨fl, hfl⟩ := hok
  refine ⟨[s1, s2], file, s1, s2, fl, "foo".toList, rfl, h1, h2, by decide +kernel, ⟨"bar".toList, by decide +kernel⟩, b1, b2, hfl, ?_⟩
  have hread : ∀ o ∈ [s1, s2], ∃ s, o.module = Path.ofString s := by
    intro o ho
    simp only [List.mem_cons, List.not_mem_nil, or_false] at ho
    rcases ho with rfl | rfl <;> exact ⟨_, rfl⟩
  refine (section_priority_partial _ _ _ _ _ hread hfl .disallowUntypedDefs).1 [s1] s2 [] false rfl h2 b2 ?_ (by simp)
  intro o ho _ _
  simp only [List.mem_cons, List.not_mem_nil, or_false] at ho
  subst ho
  decide +kernel

/-! ## C23 and C54: bad entries in sections -/

/-- C54 (and C23): the flags of a file are computed iff no section that applies to it has a bad entry;
otherwise the computation panics.  This is the exact extent of the defect: a bad entry is not
reported when the configuration is read, it crashes the analysis of the files it applies to. -/
theorem bad_entry_panics (valid : Name → Bool) (base : Flags) (sections : List Override) (file : File) :
    ((∃ fl, fileFlags valid base sections file = .ok fl) ↔
      ∀ o ∈ sections, Applies o file → ∀ k v, (k, v) ∈ o.config → ¬ Bad valid k v) ∧
    (fileFlags valid base sections file = .error .panic ↔
      ∃ o ∈ sections, Applies o file ∧ ∃ k v, (k, v) ∈ o.config ∧ Bad valid k v) := by
  unfold fileFlags
  have h1 : (∃ fl, applyOverrides valid file base (orderOverrides sections) = .ok fl) ↔
      ∀ o ∈ sections, Applies o file → ∀ k v, (k, v) ∈ o.config → ¬ Bad valid k v := by
    rw [applyOverrides_ok_iff]
    constructor
    · intro h o ho; exact h o ((mem_orderOverrides _ _).mpr ho)
    · intro h o ho; exact h o ((mem_orderOverrides _ _).mp ho)
  refine ⟨h1, ?_⟩
  constructor
  · intro h
    apply Classical.byContradiction
    intro hn
    have : ∃ fl, applyOverrides valid file base (orderOverrides sections) = .ok fl := by
      rw [h1]
      intro o ho happ k v hm hb
      exact hn ⟨o, ho, happ, k, v, hm, hb⟩
    obtain ⟨fl, hfl⟩ := this
    rw [hfl] at h
    simp at h
  · rintro ⟨o, ho, happ, k, v, hm, hb⟩
    cases hr : applyOverrides valid file base (orderOverrides sections) with
    | ok fl => exact absurd hb (h1.mp ⟨fl, hr⟩ o ho happ k v hm)
    | error e => rw [applyOverrides_error _ _ _ _ _ hr]

/-- C23 violated, for every flag state and every value: a section with the key `strict` crashes the
analysis of every file it applies to; with `strict = true` after the strict flags have been
enabled. -/
theorem strict_section_violation (valid : Name → Bool) (base : Flags) (sections : List Override) (file : File)
    (o : Override) (ho : o ∈ sections) (happ : Applies o file) (v : Value) (hm : ("strict".toList, v) ∈ o.config) :
    fileFlags valid base sections file = .error .panic ∧
    (o.config = [("strict".toList, v)] → BoolValue v true → ∀ fl, o.apply valid fl = (fl.enableAllStrict, .error .bail)) := by
  constructor
  · exact (bad_entry_panics valid base sections file).2.mpr ⟨o, ho, happ, _, v, hm, .strict v⟩
  · intro hc hv fl
    have h1 : applyStrict fl o.config = (fl.enableAllStrict, .ok ()) := by
      rw [hc]
      simp only [applyStrict, if_true, (asBool_iff v true).mpr hv]
    have h2 : ∀ fl, setFlag valid fl "strict".toList v false = (fl, .error .bail) := by
      intro fl
      unfold setFlag
      have hi : maybeInvert "strict".toList = (false, "strict".toList) := by decide +kernel
      rw [hi]
      simp only
      rw [if_neg (by decide), if_neg (by decide), if_neg (by decide), if_neg (by decide), if_neg (by decide), if_pos trivial]
    unfold Override.apply
    rw [h1, hc]
    simp only [applyAll, h2]

/-- C23 / C54, partial: sections without bad entries are applied completely. Full statement: the
same for all sections, or an error when the configuration is read. -/
theorem good_sections_partial (valid : Name → Bool) (base : Flags) (sections : List Override) (file : File)
    (h : ∀ o ∈ sections, ∀ k v, (k, v) ∈ o.config → ¬ Bad valid k v) :
    ∃ fl, fileFlags valid base sections file = .ok fl :=
  (bad_entry_panics valid base sections file).1.mpr fun o ho _ => h o ho

/-- C54 violated: a misspelt boolean in a section crashes. -/
theorem bad_entry_violation :
    ∃ (sections : List Override) (file : File),
      fileFlags (fun _ => true) ⟨fun _ => false, fun _ => []⟩ sections file = .error .panic ∧
      (∀ o ∈ sections, ∀ v, ("strict".toList, v) ∉ o.config) := by
  let s1 : Override := ⟨.ofString "foo".toList, [("disallow_untyped_defs".toList, .ini "ture".toList)]⟩
  have k : Key "disallow_untyped_defs".toList .disallowUntypedDefs false := .own (by decide +kernel)
  refine ⟨[s1], ⟨"foo.py".toList, []⟩, ?_, ?_⟩
  · refine (bad_entry_panics _ _ _ _).2.mpr ⟨s1, by simp, (applies_iff _ _).mp (match_lit _ _ [.part "foo".toList] "foo".toList [] _ (by decide +kernel) (by simp [matchesRev, checkWildcardParents])), _, _, List.mem_singleton.mpr rfl, .bool _ k ?_⟩
    rw [← asBool_none_iff]
    decide +kernel
  · intro o ho v hm
    simp only [List.mem_cons, List.not_mem_nil, or_false] at ho
    subst ho
    simp [s1] at hm

example : ∃ (sections : List Override) (file : File), (∃ o ∈ sections, Applies o file ∧ o.config ≠ []) ∧
    ∀ o ∈ sections, ∀ k v, (k, v) ∈ o.config → ¬ Bad (fun _ => true) k v := by
  let s1 : Override := ⟨.ofString "foo".toList, [("disallow_untyped_defs".toList, .ini "true".toList)]⟩
  refine ⟨[s1], ⟨"foo.py".toList, []⟩, ⟨s1, by simp, (applies_iff _ _).mp (match_lit _ _ [.part "foo".toList] "foo".toList [] _ (by decide +kernel) (by simp [matchesRev, checkWildcardParents])), by simp [s1]⟩, ?_⟩
  intro o ho k v hm
  simp only [List.mem_cons, List.not_mem_nil, or_false] at ho
  subst ho
  simp only [s1, List.mem_cons, List.not_mem_nil, or_false, Prod.mk.injEq] at hm
  obtain ⟨rfl, rfl⟩ := hm
  rw [← setFlag_ok_iff (fun _ => true) ⟨fun _ => false, fun _ => []⟩]
  decide +kernel

/-! ## C53: missing imports -/

/-- C53 violated: the winning section says `ignore_missing_imports = false` for the module `foo`, but
the missing import is silenced by the section `foo.*`. -/
theorem ignore_missing_violation :
    ∃ (sections : List Override) (fl : Flags),
      fileFlags (fun _ => true) ⟨fun _ => false, fun _ => []⟩ sections ⟨"foo.py".toList, []⟩ = .ok fl ∧
      fl.bool .ignoreMissingImports = false ∧
      "foo".toList ∈ ignoredGlobalImports sections := by
  let s1 : Override := ⟨.ofString "foo.*".toList, [("ignore_missing_imports".toList, .ini "true".toList)]⟩
  let s2 : Override := ⟨.ofString "foo".toList, [("ignore_missing_imports".toList, .ini "false".toList)]⟩
  have k : Key "ignore_missing_imports".toList .ignoreMissingImports false := .own (by decide +kernel)
  have b2 : Sets s2 .ignoreMissingImports false :=
    ⟨[], _, _, [], false, false, rfl, k, .no _ (by decide +kernel), rfl, by simp⟩
  have h2 : Applies s2 ⟨"foo.py".toList, []⟩ := (applies_iff _ _).mp (match_lit _ _ [.part "foo".toList] "foo".toList [] _ (by decide +kernel) (by simp [matchesRev, checkWildcardParents]))
  have hok : ∃ fl, fileFlags (fun _ => true) ⟨fun _ => false, fun _ => []⟩ [s1, s2] ⟨"foo.py".toList, []⟩ = .ok fl := by
    apply good_sections_partial
    intro o ho k' v' hm hbad
    have : (setFlag (fun _ => true) ⟨fun _ => false, fun _ => []⟩ k' v' false).2 = .ok () := by
      simp only [List.mem_cons, List.not_mem_nil, or_false] at ho
      rcases ho with rfl | rfl
      · simp only [s1, List.mem_cons, List.not_mem_nil, or_false, Prod.mk.injEq] at hm
        obtain ⟨rfl, rfl⟩ := hm
        decide +kernel
      · simp only [s2, List.mem_cons, List.not_mem_nil, or_false, Prod.mk.injEq] at hm
        obtain ⟨rfl, rfl⟩ := hm
        decide +kernel
    exact (setFlag_ok_iff _ _ _ _).mp this hbad
  obtain ⟨fl, hfl⟩ := hok
  refine ⟨[s1, s2], fl, hfl, ?_, by decide +kernel⟩
  have hread : ∀ o ∈ [s1, s2], ∃ s, o.module = Path.ofString s := by
    intro o ho
    simp only [List.mem_cons, List.not_mem_nil, or_false] at ho
    rcases ho with rfl | rfl <;> exact ⟨_, rfl⟩
  refine (section_priority_partial _ _ _ _ _ hread hfl _).1 [s1] s2 [] false rfl h2 b2 ?_ (by simp)
  intro o ho _ _
  simp only [List.mem_cons, List.not_mem_nil, or_false] at ho
  subst ho
  decide +kernel

/-- The module `x` at the top level, as a file. -/
def topModule (x : Name) : File := ⟨x ++ pyExt, []⟩

theorem topModule_name (x : Name) : nameAndParents (topModule x) = (x, []) := by
  have h : stripSuffix (x ++ pyExt) pyExt = some x := by
    unfold stripSuffix
    rw [if_pos (List.suffix_append _ _)]
    simp
  unfold nameAndParents topModule
  simp only [h]
  rfl

/-- C53, partial (full statement: the silenced modules are those for which the winning section says
so): a module is silenced only by a section that applies to it and says so; and with sections that
say so under the plain key, every top-level module with such a section `x` or `x.*` is silenced. -/
theorem ignore_missing_partial (sections : List Override) (x : Name) :
    x ∈ ignoredGlobalImports sections ↔
      ∃ o ∈ sections, Applies o (topModule x) ∧ (o.module.path = [.part x] ∨ o.module.path = [.part x, .wildcard]) ∧
        ∃ v, ("ignore_missing_imports".toList, v) ∈ o.config ∧ BoolValue v true := by
  have happ : ∀ o : Override, (o.module.path = [.part x] ∨ o.module.path = [.part x, .wildcard]) → Applies o (topModule x) := by
    intro o ho
    unfold Applies
    rw [topModule_name]
    rcases ho with h | h <;> rw [h]
    · exact .part .nil
    · exact .part (rest_star _)
  have hp : ∀ o : Override, o.module.affectsGlobalImport = some x ↔ (o.module.path = [.part x] ∨ o.module.path = [.part x, .wildcard]) := by
    intro o
    unfold Path.affectsGlobalImport
    split <;> simp_all
  have hv : ∀ o : Override, o.hasIgnoreMissingImports = true ↔ ∃ v, ("ignore_missing_imports".toList, v) ∈ o.config ∧ BoolValue v true := by
    intro o
    unfold Override.hasIgnoreMissingImports
    rw [List.any_eq_true]
    constructor
    · rintro ⟨⟨k, v⟩, hm, h⟩
      simp only [decide_eq_true_eq] at h
      obtain ⟨rfl, hb⟩ := h
      refine ⟨v, hm, ?_⟩
      rw [← asBool_iff]
      cases hh : v.asBool false with
      | none => rw [hh] at hb; simp at hb
      | some b => rw [hh] at hb; simp at hb; rw [hb]
    · rintro ⟨v, hm, hb⟩
      refine ⟨_, hm, ?_⟩
      rw [← asBool_iff] at hb
      simp only [decide_eq_true_eq]
      exact ⟨trivial, by rw [hb]; rfl⟩
  unfold ignoredGlobalImports
  rw [List.mem_filterMap]
  constructor
  · rintro ⟨o, ho, h⟩
    split at h
    · simp at h
    · rename_i y hy
      split at h
      · rename_i hi
        simp only [Option.some.injEq] at h
        subst h
        exact ⟨o, ho, happ o ((hp o).mp hy), (hp o).mp hy, (hv o).mp hi⟩
      · simp at h
  · rintro ⟨o, ho, -, h1, h2⟩
    refine ⟨o, ho, ?_⟩
    rw [(hp o).mpr h1, (hv o).mpr h2]
    rfl

example : "foo".toList ∈ ignoredGlobalImports [⟨.ofString "foo.*".toList, [("ignore_missing_imports".toList, .ini "true".toList)]⟩] := by
  decide +kernel

/-! ## C25: discovery -/

/-- C25, partial (full statement: without `hset`, false by `discovery_violation`): the configuration
comes from the nearest relevant directory; its main file, its mode and the sections applied are as
specified, the `[tool.zuban]` section last; and without a relevant directory none is found. -/
theorem discovery_partial (arg : Option Search.Mode) (dirs : List Search.Dir)
    (hset : arg = none → ∀ d ∈ dirs, ¬ Search.IrrelevantSetupCfg d) :
    (Search.findConfig (Search.ofArg arg) 0 dirs = none ↔ ∀ d ∈ dirs, ¬ Search.Spec.Relevant d) ∧
    (∀ i found, Search.findConfig (Search.ofArg arg) 0 dirs = some (i, found) →
      ∃ pre d post, dirs = pre ++ d :: post ∧ pre.length = i ∧ (∀ d' ∈ pre, ¬ Search.Spec.Relevant d') ∧
        Search.Spec.Main d found.file ∧ Search.Spec.IsMode d found.file arg found.options.mode ∧
        (∀ l, l ∈ found.options.layers ↔
          (l = .mypySections found.file ∧ Search.Spec.HasSections d found.file) ∨ (l = .zubanSection ∧ Search.Spec.HasZuban d)) ∧
        (∀ l1 l2, found.options.layers = l1 ++ .zubanSection :: l2 → l2 = [])) := by
  suffices ∀ (n : Nat), (Search.findConfig (Search.ofArg arg) n dirs = none ↔ ∀ d ∈ dirs, ¬ Search.Spec.Relevant d) ∧
    (∀ i found, Search.findConfig (Search.ofArg arg) n dirs = some (i, found) →
      ∃ pre d post, dirs = pre ++ d :: post ∧ n + pre.length = i ∧ (∀ d' ∈ pre, ¬ Search.Spec.Relevant d') ∧
        Search.Spec.Main d found.file ∧ Search.Spec.IsMode d found.file arg found.options.mode ∧
        (∀ l, l ∈ found.options.layers ↔
          (l = .mypySections found.file ∧ Search.Spec.HasSections d found.file) ∨ (l = .zubanSection ∧ Search.Spec.HasZuban d)) ∧
        (∀ l1 l2, found.options.layers = l1 ++ .zubanSection :: l2 → l2 = [])) by
    simpa using this 0
  induction dirs with
  | nil => intro n; simp [Search.findConfig]
  | cons d dirs ih =>
    intro n
    have ih := ih (fun h d hd => hset h d (by simp [hd])) (n + 1)
    simp only [Search.findConfig]
    cases hd : Search.findInDir d (Search.ofArg arg) with
    | none =>
      have hr := (Search.findInDir_none_iff d _).mp hd
      simp only
      constructor
      · rw [ih.1]; simp [hr]
      · intro i found hf
        obtain ⟨pre, d', post, rfl, hi, hpre, hrest⟩ := ih.2 i found hf
        refine ⟨d :: pre, d', post, rfl, by simp; omega, ?_, hrest⟩
        intro x hx
        rcases List.mem_cons.mp hx with rfl | hx
        · exact hr
        · exact hpre x hx
    | some found =>
      simp only [reduceCtorEq, false_iff]
      have hr : Search.Spec.Relevant d := by
        apply Classical.byContradiction
        intro h
        rw [← Search.findInDir_none_iff d (Search.ofArg arg), hd] at h
        simp at h
      constructor
      · intro h; exact h d (by simp) hr
      · intro i found' hf
        simp only [Option.some.injEq, Prod.mk.injEq] at hf
        obtain ⟨rfl, rfl⟩ := hf
        obtain ⟨h1, h2, h3, h4⟩ := Search.findInDir_spec d arg found hd (fun h => hset h d (by simp))
        exact ⟨[], d, dirs, rfl, rfl, by simp, h1, h2, h3, h4⟩

/-- C25 violated: a setup.cfg without any mypy section switches the project to mypy mode. -/
theorem discovery_violation :
    ∃ (d d' : Search.Dir), d' = { d with setupCfg := some ⟨false⟩ } ∧ d.setupCfg = none ∧
      (Search.findInDir d .auto).map (·.options.mode) = some .default ∧
      (Search.findInDir d' .auto).map (·.options.mode) = some .mypy := by
  refine ⟨⟨some ⟨false, none⟩, none, none, none⟩, _, rfl, rfl, by decide +kernel, by decide +kernel⟩

example : Search.findConfig .auto 0
    [⟨none, none, none, some ⟨false⟩⟩, ⟨some ⟨false, some none⟩, none, some ⟨true⟩, none⟩, ⟨none, some ⟨true⟩, none, none⟩] =
    some (1, { options := { mode := .default, layers := [.mypySections .dotMypyIni, .zubanSection] }, file := .dotMypyIni }) := by
  decide +kernel

/-! ## C55: naming the file explicitly -/

/-- C55, partial (full statement: for every directory and the file found in it; false by
`explicit_violation`): for an ini file, or a pyproject.toml without ini files beside it, naming the
file gives the options that discovery gives. -/
theorem explicit_partial (arg : Option Search.Mode) (d : Search.Dir) (found : Search.Found)
    (h : Search.findInDir d (Search.ofArg arg) = some found) :
    (∀ i, d.pyproject = none → d.mypyIni = some i →
      Search.findExplicit .mypyIni (.ini i) (Search.ofArg arg) = found.options) ∧
    (∀ i, d.pyproject = none → d.mypyIni = none → d.dotMypyIni = some i →
      Search.findExplicit .dotMypyIni (.ini i) (Search.ofArg arg) = found.options) ∧
    (∀ p, d.pyproject = some p → d.mypyIni = none → d.dotMypyIni = none → d.setupCfg = none →
      Search.findExplicit .pyproject (.toml p) (Search.ofArg arg) = found.options) := by
  obtain ⟨p, a, b, c⟩ := d
  refine ⟨?_, ?_, ?_⟩
  · rintro ⟨i⟩ rfl rfl
    cases i <;> cases arg <;> simp [Search.findInDir, Search.iniLoop, Search.iniStep, Search.ofArg] at h <;> subst h <;> rfl
  · rintro ⟨i⟩ rfl rfl rfl
    cases i <;> cases arg <;> simp [Search.findInDir, Search.iniLoop, Search.iniStep, Search.ofArg] at h <;> subst h <;> rfl
  · rintro ⟨m, z⟩ rfl rfl rfl rfl
    cases m <;> rcases z with _ | _ | z <;> cases arg <;>
      simp [Search.findInDir, Search.iniLoop, Search.applyMode, Search.ofArg] at h <;> subst h <;> rfl

/-- C55 violated: `--config-file setup.cfg` gives the default mode, discovery the mypy mode. -/
theorem explicit_violation :
    ∃ (d : Search.Dir) (i : Search.Ini) (found : Search.Found), d.setupCfg = some i ∧
      Search.findInDir d .auto = some found ∧ found.file = .setupCfg ∧
      Search.findExplicit .setupCfg (.other i) .auto ≠ found.options :=
  ⟨⟨none, none, none, some ⟨true⟩⟩, ⟨true⟩, _, rfl, rfl, rfl, by decide +kernel⟩

example : Search.findInDir ⟨none, some ⟨true⟩, none, none⟩ .auto ≠ none := by decide +kernel

/-! ## C26: versions -/

/-- The order of versions. -/
def VersionLe (v w : Version) : Prop := v.major < w.major ∨ (v.major = w.major ∧ v.minor ≤ w.minor)

/-- C26, partial (full statement: without `h`): gates are monotone inside a major version. -/
theorem gate_monotone_partial (v w : Version) (m : Nat) (hle : VersionLe v w) (h : v.major = w.major ∨ m = 0)
    (hv : v.atLeast3Dot m = true) : w.atLeast3Dot m = true := by
  simp only [Version.atLeast3Dot, ge_iff_le, Bool.and_eq_true, decide_eq_true_eq, VersionLe] at *
  omega

/-- C26 violated: 4.0 is later than 3.13 but does not pass the gate for 3.13. -/
theorem gate_monotone_violation :
    ∃ v w m, VersionLe v w ∧ v.atLeast3Dot m = true ∧ w.atLeast3Dot m = false ∧
      Version.ofString "3.13".toList = some v ∧ Version.ofString "4.0".toList = some w :=
  ⟨⟨3, 13⟩, ⟨4, 0⟩, 13, .inl (by decide), by decide, by decide, by decide +kernel, by decide +kernel⟩

/-- A patch level does not matter. -/
theorem version_patch (a b c : List Char) (ha : '.' ∉ a) (hb : '.' ∉ b) :
    Version.ofString (a ++ '.' :: (b ++ '.' :: c)) = Version.ofString (a ++ '.' :: b) := by
  have h1 : ∀ (s t : List Char), '.' ∉ s → splitOnce '.' (s ++ '.' :: t) = some (s, t) := by
    intro s t hs
    induction s with
    | nil => simp [splitOnce]
    | cons x s ih =>
      simp only [List.mem_cons, not_or] at hs
      simp only [List.cons_append, splitOnce]
      rw [if_neg (fun e => hs.1 e.symm), ih hs.2]
      rfl
  have h2 : ∀ s : List Char, '.' ∉ s → splitOnce '.' s = none := by
    intro s hs
    induction s with
    | nil => rfl
    | cons x s ih =>
      simp only [List.mem_cons, not_or] at hs
      simp only [splitOnce]
      rw [if_neg (fun e => hs.1 e.symm), ih hs.2]
      rfl
  unfold Version.ofString
  rw [h1 a _ ha, h1 a _ ha]
  simp only [h1 b _ hb, h2 b hb]

/-- The decimal digits of a number, most significant first (specification). -/
def IsDecimal (s : List Char) (n : Nat) : Prop :=
  s ≠ [] ∧ (∀ c ∈ s, c.isDigit = true) ∧ n = s.foldl (fun acc c => 10 * acc + (c.toNat - '0'.toNat)) 0

/-- C26: a version `a.b` is read as these two numbers, and nothing else is read. -/
theorem version_of_string (a b : List Char) (m n : Nat) (ha : IsDecimal a m) (hb : IsDecimal b n) :
    Version.ofString (a ++ '.' :: b) = some ⟨m, n⟩ := by
  have parse : ∀ s k, IsDecimal s k → parseNat s = some k := by
    rintro s k ⟨h1, h2, rfl⟩
    unfold parseNat
    rw [if_neg h1]
    clear h1
    suffices ∀ acc, s.foldl (fun acc c => acc.bind fun n => if c.isDigit then some (10 * n + (c.toNat - 48)) else none) (some acc) =
        some (s.foldl (fun acc c => 10 * acc + (c.toNat - '0'.toNat)) acc) from this 0
    induction s with
    | nil => intro acc; rfl
    | cons c s ih =>
      intro acc
      simp only [List.foldl_cons, Option.bind_some, h2 c (by simp), if_true]
      exact ih (fun c hc => h2 c (by simp [hc])) _
  have nodot : ∀ s k, IsDecimal s k → '.' ∉ s := by
    rintro s k ⟨-, h2, -⟩ hm
    have := h2 _ hm
    revert this; decide
  have h1 : ∀ (s t : List Char), '.' ∉ s → splitOnce '.' (s ++ '.' :: t) = some (s, t) := fun s t h => splitOnce_append s t h
  unfold Version.ofString
  rw [h1 a b (nodot a m ha)]
  simp only
  rw [splitOnce_none b (nodot b n hb), parse a m ha]
  simp only
  rw [parse b n hb]

example : IsDecimal "3".toList 3 ∧ IsDecimal "13".toList 13 :=
  ⟨⟨by decide, by decide, by decide⟩, ⟨by decide, by decide, by decide⟩⟩

example : VersionLe ⟨3, 9⟩ ⟨3, 13⟩ ∧ Version.atLeast3Dot ⟨3, 9⟩ 8 = true ∧ Version.ofString "3.9.1".toList = some ⟨3, 9⟩ := by
  refine ⟨.inr ⟨rfl, by decide⟩, by decide, by decide +kernel⟩

/-! ## C49: lists -/

/-- C49: a list option extends exactly its list by exactly the written entries (a string of an ini
file is split, a TOML array or string is taken as it is). -/
theorem set_flag_list (valid : Name → Bool) (fl : Flags) (n : Name) (f : ListFlag) (v : Value) (e : Bool) (h : ListKey n f) :
    (∀ l, v = .tomlStrs l ∨ (∃ s, v = .tomlStr s ∧ l = [s]) ∨ (∃ s, v = .ini s ∧ l = splitAndTrim s [',']) →
      (setFlag valid fl n v e).2 = .ok () ∧ (setFlag valid fl n v e).1.list f = fl.list f ++ l ∧
      (∀ g, g ≠ f → (setFlag valid fl n v e).1.list g = fl.list g) ∧ (setFlag valid fl n v e).1.bool = fl.bool) ∧
    (¬ ListValue v → setFlag valid fl n v e = (fl, .error .bail)) := by
  have key : setFlag valid fl n v e = addListOfStr fl f v false := by
    unfold setFlag
    have hi : maybeInvert n = (false, n) := by cases h <;> decide +kernel
    rw [hi]
    cases h <;> rfl
  rw [key]
  constructor
  · rintro l (rfl | ⟨s, rfl, rfl⟩ | ⟨s, rfl, rfl⟩) <;>
    · refine ⟨rfl, ?_, ?_, rfl⟩
      · simp [addListOfStr, Flags.append]
      · intro g hg; simp [addListOfStr, Flags.append, hg]
  · intro hv
    cases v <;> first | exact absurd trivial hv | rfl

/-- C49: `exclude` adds all its regular expressions if they are valid. -/
theorem set_flag_exclude (valid : Name → Bool) (fl : Flags) (v : Value) (e : Bool) (l : List Name)
    (h : v = .tomlStrs l ∨ (∃ s, (v = .tomlStr s ∨ v = .ini s) ∧ l = [s])) :
    ((∀ s ∈ l, valid s = true) →
      (setFlag valid fl "exclude".toList v e).2 = .ok () ∧
      (setFlag valid fl "exclude".toList v e).1.list .excludes = fl.list .excludes ++ l ∧
      (setFlag valid fl "exclude".toList v e).1.bool = fl.bool) ∧
    ((∃ s ∈ l, valid s = false) → (setFlag valid fl "exclude".toList v e).2 = .error .bail) := by
  have key : setFlag valid fl "exclude".toList v e = addExcludes valid fl v false := by
    unfold setFlag
    have hi : maybeInvert "exclude".toList = (false, "exclude".toList) := by decide +kernel
    rw [hi]
    rfl
  have go : addExcludes valid fl v false =
      (fl.append .excludes (l.takeWhile valid), if l.all valid then .ok () else .error .bail) := by
    rcases h with rfl | ⟨s, rfl | rfl, rfl⟩ <;> rfl
  rw [key, go]
  constructor
  · intro hv
    have h1 : l.all valid = true := List.all_eq_true.mpr hv
    have h2 : l.takeWhile valid = l := by
      clear h go key h1
      induction l with
      | nil => rfl
      | cons x l ih => rw [List.takeWhile_cons_of_pos (hv x (by simp)), ih (fun s hs => hv s (by simp [hs]))]
    rw [h1, h2]
    exact ⟨rfl, by simp [Flags.append], rfl⟩
  · rintro ⟨s, hs, hf⟩
    have : l.all valid = false := by
      rw [List.all_eq_false]
      exact ⟨s, hs, by simp [hf]⟩
    rw [this]
    rfl

example : ListKey "enable_error_code".toList .enabledErrorCodes := .enable

/-- A list written with separators: entries with white space around them. -/
def joinEntries : List (List Char × List Char × List Char) → List Char → List Char
  | [], _ => []
  | [(w1, e, w2)], _ => w1 ++ e ++ w2
  | (w1, e, w2) :: es, c :: cs => w1 ++ e ++ w2 ++ c :: joinEntries es cs
  | (w1, e, w2) :: _, [] => w1 ++ e ++ w2

/-- An entry: no separator, no white space at the ends. -/
def IsEntry (seps : List Char) (e : List Char × List Char × List Char) : Prop :=
  White e.1 ∧ White e.2.2 ∧ (∀ c, e.2.1.head? = some c → isSpace c = false) ∧
  (∀ c, e.2.1.getLast? = some c → isSpace c = false) ∧ ∀ c ∈ e.2.1, c ∉ seps

theorem splitAny_plain (seps s : List Char) (h : ∀ c ∈ s, c ∉ seps) : splitAny seps s = [s] := by
  induction s with
  | nil => rfl
  | cons c s ih =>
    simp only [splitAny]
    rw [if_neg (h c (by simp)), ih (fun c hc => h c (by simp [hc]))]

theorem splitAny_sep (seps s : List Char) (c : Char) (t : List Char) (h : ∀ c ∈ s, c ∉ seps) (hc : c ∈ seps) :
    splitAny seps (s ++ c :: t) = s :: splitAny seps t := by
  induction s with
  | nil => simp [splitAny, hc]
  | cons x s ih =>
    simp only [List.cons_append, splitAny]
    rw [if_neg (h x (by simp)), ih (fun c hc => h c (by simp [hc]))]

theorem trim_white_left (w s : List Char) (h : White w) : trim (w ++ s) = trim s := by
  unfold trim; rw [dropWhile_white _ _ h]

/-- Splitting a joined list. -/
theorem splitAny_join (seps : List Char) (es : List (List Char × List Char × List Char)) (cs : List Char)
    (hne : es ≠ []) (hl : cs.length + 1 = es.length) (hc : ∀ c ∈ cs, c ∈ seps) (hws : ∀ c ∈ seps, isSpace c = false)
    (he : ∀ e ∈ es, IsEntry seps e) :
    (splitAny seps (joinEntries es cs)).map trim = es.map (·.2.1) := by
  have plain : ∀ e, IsEntry seps e → ∀ c ∈ e.1 ++ e.2.1 ++ e.2.2, c ∉ seps := by
    rintro e ⟨h1, h2, -, -, h3⟩ c hm hs
    simp only [List.mem_append] at hm
    rcases hm with (hm | hm) | hm
    · have := h1 c hm; rw [hws c hs] at this; simp at this
    · exact h3 c hm hs
    · have := h2 c hm; rw [hws c hs] at this; simp at this
  induction es generalizing cs with
  | nil => exact absurd rfl hne
  | cons e es ih =>
    obtain ⟨w1, x, w2⟩ := e
    have hx := he (w1, x, w2) (by simp)
    have ht : trim (w1 ++ x ++ w2) = x := trim_pad _ _ _ hx.1 hx.2.1 hx.2.2.1 hx.2.2.2.1
    cases es with
    | nil =>
      simp only [joinEntries]
      rw [splitAny_plain seps _ (plain _ hx)]
      simp only [List.map_cons, List.map_nil, ht]
    | cons e' es =>
      cases cs with
      | nil => simp at hl
      | cons c cs =>
        simp only [joinEntries]
        rw [splitAny_sep seps _ c _ (plain _ hx) (hc c (by simp))]
        simp only [List.map_cons, ht]
        congr 1
        exact ih cs (by simp) (by simpa using hl) (fun c h => hc c (by simp [h])) (fun e h => he e (by simp [h]))

/-- C49: a list of entries separated by separators, with any white space, is split into exactly these
entries; one more separator at the end (with white space around it) changes nothing.  The last
entry must not be empty (an empty last entry is the trailing separator). -/
theorem split_list (seps : List Char) (es : List (List Char × List Char × List Char)) (cs : List Char)
    (hne : es ≠ []) (hl : cs.length + 1 = es.length) (hc : ∀ c ∈ cs, c ∈ seps) (hws : ∀ c ∈ seps, isSpace c = false)
    (he : ∀ e ∈ es, IsEntry seps e) (hlast : ∀ e, es.getLast? = some e → e.2.1 ≠ []) :
    splitAndTrim (joinEntries es cs) seps = es.map (·.2.1) ∧
    ∀ s ∈ seps, ∀ w, White w → splitAndTrim (joinEntries es cs ++ s :: w) seps = es.map (·.2.1) := by
  -- the white space at both ends can be moved out of the joined text
  have shape : ∀ (es : List (List Char × List Char × List Char)) (cs : List Char), es ≠ [] → cs.length + 1 = es.length →
      (∀ e ∈ es, IsEntry seps e) → (∀ e, es.getLast? = some e → e.2.1 ≠ []) →
      ∃ body z wl, joinEntries es cs = body ++ z :: wl ∧ White wl ∧ isSpace z = false ∧ z ∉ seps := by
    intro es
    induction es with
    | nil => intro cs h; exact absurd rfl h
    | cons e es ih =>
      intro cs _ hl he hlast
      obtain ⟨w1, x, w2⟩ := e
      cases es with
      | nil =>
        have hx := he (w1, x, w2) (by simp)
        have hxn := hlast (w1, x, w2) rfl
        rcases List.eq_nil_or_concat x with rfl | ⟨x0, z, rfl⟩
        · exact absurd rfl hxn
        · refine ⟨w1 ++ x0, z, w2, by simp [joinEntries], hx.2.1, ?_, hx.2.2.2.2 z (by simp)⟩
          exact hx.2.2.2.1 z (by simp)
      | cons e' es =>
        cases cs with
        | nil => simp at hl
        | cons c cs =>
          obtain ⟨body, z, wl, hj, h1, h2, h3⟩ := ih cs (by simp) (by simpa using hl) (fun e h => he e (by simp [h]))
            (fun e h => hlast e (by rw [List.getLast?_cons_cons]; exact h))
          refine ⟨w1 ++ x ++ w2 ++ c :: body, z, wl, ?_, h1, h2, h3⟩
          simp only [joinEntries, hj]
          simp
  obtain ⟨body, z, wl, hj, hwl, hz, hzs⟩ := shape es cs hne hl he hlast
  -- trimming at the left only removes white space of the first entry
  have left : ∀ (es : List (List Char × List Char × List Char)) (cs : List Char) (t : List Char), es ≠ [] →
      cs.length + 1 = es.length → (∀ e ∈ es, IsEntry seps e) → (∀ c ∈ cs, c ∈ seps) →
      (∀ e, es.getLast? = some e → e.2.1 ≠ []) →
      ∃ es', es' ≠ [] ∧ cs.length + 1 = es'.length ∧ (∀ e ∈ es', IsEntry seps e) ∧ es'.map (·.2.1) = es.map (·.2.1) ∧
        (∀ e, es'.getLast? = some e → e.2.1 ≠ []) ∧
        (joinEntries es cs ++ t).dropWhile isSpace = joinEntries es' cs ++ t := by
    intro es cs t hne hl he hcs hlast
    cases es with
    | nil => exact absurd rfl hne
    | cons e es =>
      obtain ⟨w1, x, w2⟩ := e
      have hx := he (w1, x, w2) (by simp)
      cases es with
      | nil =>
        have hxn := hlast (w1, x, w2) rfl
        refine ⟨[([], x, w2)], by simp, by simpa using hl, ?_, rfl, ?_, ?_⟩
        · intro e hm
          simp only [List.mem_cons, List.not_mem_nil, or_false] at hm
          subst hm
          exact ⟨by intro c hc; simp at hc, hx.2⟩
        · intro e hm; simp at hm; subst hm; exact hxn
        · simp only [joinEntries, List.nil_append]
          rw [List.append_assoc, List.append_assoc, dropWhile_white _ _ hx.1, dropWhile_head]
          · simp
          · intro c hc
            rw [List.head?_append] at hc
            cases hxh : x.head? with
            | none => rw [List.head?_eq_none_iff] at hxh; exact absurd hxh hxn
            | some y =>
              rw [hxh] at hc
              simp at hc
              subst hc
              exact hx.2.2.1 _ hxh
      | cons e' es =>
        cases cs with
        | nil => simp at hl
        | cons c cs =>
          have hcsp := hws c (hcs c (by simp))
          by_cases hxe : x = []
          · subst hxe
            refine ⟨([], [], []) :: e' :: es, by simp, by simpa using hl, ?_, rfl, ?_, ?_⟩
            · intro e hm
              rcases List.mem_cons.mp hm with rfl | hm
              · exact ⟨by intro c hc; simp at hc, by intro c hc; simp at hc, by simp, by simp, by simp⟩
              · exact he e (by simp [hm])
            · intro e hm
              rw [List.getLast?_cons_cons] at hm
              exact hlast e (by rw [List.getLast?_cons_cons]; exact hm)
            · simp only [joinEntries, List.append_nil, List.nil_append, List.append_assoc, List.cons_append]
              rw [dropWhile_white _ _ hx.1, dropWhile_white _ _ hx.2.1, List.dropWhile_cons_of_neg (by simp [hcsp])]
          · refine ⟨([], x, w2) :: e' :: es, by simp, by simpa using hl, ?_, rfl, ?_, ?_⟩
            · intro e hm
              rcases List.mem_cons.mp hm with rfl | hm
              · exact ⟨by intro c hc; simp at hc, hx.2⟩
              · exact he e (by simp [hm])
            · intro e hm
              rw [List.getLast?_cons_cons] at hm
              exact hlast e (by rw [List.getLast?_cons_cons]; exact hm)
            · simp only [joinEntries, List.nil_append, List.append_assoc, List.cons_append]
              rw [dropWhile_white _ _ hx.1, dropWhile_head]
              intro d hd
              rw [List.head?_append] at hd
              cases hxh : x.head? with
              | none => rw [List.head?_eq_none_iff] at hxh; exact absurd hxh hxe
              | some y =>
                rw [hxh] at hd
                simp at hd
                subst hd
                exact hx.2.2.1 _ hxh
  -- removing white space at the right end of a joined text gives a joined text
  have right : ∀ (es : List (List Char × List Char × List Char)) (cs : List Char), es ≠ [] →
      cs.length + 1 = es.length → (∀ e ∈ es, IsEntry seps e) → (∀ e, es.getLast? = some e → e.2.1 ≠ []) →
      ∃ es' body z, es' ≠ [] ∧ cs.length + 1 = es'.length ∧ (∀ e ∈ es', IsEntry seps e) ∧ es'.map (·.2.1) = es.map (·.2.1) ∧
        joinEntries es' cs = body ++ [z] ∧ isSpace z = false ∧ z ∉ seps ∧ ∃ wl, White wl ∧ joinEntries es cs = body ++ z :: wl := by
    intro es
    induction es with
    | nil => intro cs h; exact absurd rfl h
    | cons e es ih =>
      intro cs _ hl he hlast
      obtain ⟨w1, x, w2⟩ := e
      have hx := he (w1, x, w2) (by simp)
      cases es with
      | nil =>
        have hxn := hlast (w1, x, w2) rfl
        rcases List.eq_nil_or_concat x with rfl | ⟨x0, z, rfl⟩
        · exact absurd rfl hxn
        · refine ⟨[(w1, x0.concat z, [])], w1 ++ x0, z, by simp, by simpa using hl, ?_, rfl, by simp [joinEntries], hx.2.2.2.1 z (by simp),
            hx.2.2.2.2 z (by simp), w2, hx.2.1, by simp [joinEntries]⟩
          intro e hm
          simp only [List.mem_cons, List.not_mem_nil, or_false] at hm
          subst hm
          exact ⟨hx.1, by intro c hc; simp at hc, hx.2.2⟩
      | cons e' es =>
        cases cs with
        | nil => simp at hl
        | cons c cs =>
          obtain ⟨es', body, z, h1, h2, h3, h4, h5, h6, h7, wl, h8, h9⟩ := ih cs (by simp) (by simpa using hl)
            (fun e h => he e (by simp [h])) (fun e h => hlast e (by rw [List.getLast?_cons_cons]; exact h))
          cases es' with
          | nil => exact absurd rfl h1
          | cons e'' es' =>
            refine ⟨(w1, x, w2) :: e'' :: es', w1 ++ x ++ w2 ++ c :: body, z, by simp, by simpa using h2, ?_, ?_, ?_, h6, h7, wl, h8, ?_⟩
            · intro e hm
              rcases List.mem_cons.mp hm with rfl | hm
              · exact hx
              · exact h3 e hm
            · simp only [List.map_cons] at h4 ⊢; rw [h4]
            · simp only [joinEntries, h5]; simp
            · simp only [joinEntries, h9]; simp
  have core : ∀ t tl, White tl → (t = [] ∨ ∃ s ∈ seps, t = [s]) →
      splitAndTrim (joinEntries es cs ++ (t ++ tl)) seps = es.map (·.2.1) := by
    intro t tl htl ht
    obtain ⟨es1, g1, g2, g3, g4, g5, g6⟩ := left es cs (t ++ tl) hne hl he hc hlast
    obtain ⟨es2, body, z, k1, k2, k3, k4, k5, k6, k7, wl, k8, k9⟩ := right es1 cs g1 g2 g3 g5
    have final : (splitAny seps (joinEntries es2 cs)).map trim = es.map (·.2.1) := by
      rw [splitAny_join seps es2 cs k1 k2 hc hws k3, k4, g4]
    have finish1 : (splitAny seps (body ++ [z] ++ wl)).map trim = es.map (·.2.1) := by
      have : body ++ [z] ++ wl = joinEntries es1 cs := by rw [k9]; simp
      rw [this, splitAny_join seps es1 cs g1 g2 hc hws g3, g4]
    rcases ht with rfl | ⟨s, hs, rfl⟩
    · have htrim : trim (joinEntries es cs ++ ([] ++ tl)) = body ++ [z] := by
        unfold trim
        rw [g6, k9]
        have : body ++ z :: wl ++ ([] ++ tl) = (body ++ [z]) ++ (wl ++ tl) := by simp
        rw [this, List.reverse_append, dropWhile_white _ _ (by
          intro c hc
          simp only [List.mem_reverse, List.mem_append] at hc
          rcases hc with hc | hc
          · exact k8 c hc
          · exact htl c hc), dropWhile_head]
        · simp
        · intro d hd; simp at hd; subst hd; exact k6
      unfold splitAndTrim
      rw [htrim]
      have hg : (body ++ [z]).getLast? = some z := by simp
      simp only [hg, if_neg k7]
      rw [← k5]
      exact final
    · have hsp := hws s hs
      have htrim : trim (joinEntries es cs ++ ([s] ++ tl)) = body ++ [z] ++ wl ++ [s] := by
        unfold trim
        rw [g6, k9]
        have : body ++ z :: wl ++ ([s] ++ tl) = (body ++ [z] ++ wl ++ [s]) ++ tl := by simp
        rw [this, List.reverse_append, dropWhile_white _ _ (by intro c hc; exact htl c (by simpa using hc)), dropWhile_head]
        · simp
        · intro d hd; simp at hd; subst hd; exact hsp
      unfold splitAndTrim
      rw [htrim]
      have hg : (body ++ [z] ++ wl ++ [s]).getLast? = some s := List.getLast?_concat
      simp only [hg, if_pos hs, List.dropLast_concat]
      exact finish1
  constructor
  · have := core [] [] (by intro c hc; simp at hc) (.inl rfl)
    simpa using this
  · intro s hs w hw
    have := core [s] w hw (.inr ⟨s, hs, rfl⟩)
    simpa using this

example : splitAndTrim " a , b c,, d ,".toList [','] = ["a".toList, "b c".toList, [], "d".toList] ∧
    IsEntry [','] (" ".toList, "b c".toList, []) := by
  refine ⟨by decide +kernel, by intro c hc; simp at hc; subst hc; decide, by intro c hc; simp at hc, by decide, by decide, by decide⟩

/-! ## C52: inline configuration comments -/

/-- C52, partial (full statement: every comment is split without a panic; false by the violations
below): a comment made of well-formed entries is split into exactly these entries, without
complaint. -/
theorem directives_partial (es : List Entry) (hw : ∀ e ∈ es, e.Wf) :
    splitDirectives (commentText es) = .ok (es.map Entry.item, []) := by
  induction es with
  | nil => simp [commentText, splitDirectives.eq_def, scanDirective, trim]
  | cons e es ih =>
    have he := hw e (by simp)
    have ih := ih (fun e h => hw e (by simp [h]))
    cases es with
    | nil =>
      simp only [commentText]
      rw [splitDirectives.eq_def]
      have hs := entry_scan e he []
      simp only [List.append_nil, scanDirective] at hs
      split
      · rename_i heq
        rw [hs] at heq
        simp at heq
      · rename_i opened had heq
        rw [hs] at heq
        simp only [Prod.mk.injEq, true_and] at heq
        obtain ⟨rfl, rfl⟩ := heq
        simp only [Bool.false_eq_true, if_false]
        rw [if_neg (entry_text_ne e he)]
        obtain ⟨e', hw', ht, hi, hq⟩ := entry_trim e he
        rw [ht, ← hq, entry_value e' hw', hi]
        rfl
    | cons e' es =>
      simp only [commentText]
      rw [splitDirectives.eq_def]
      have hs := entry_scan e he (',' :: commentText (e' :: es))
      have hcomma : ∀ h, scanDirective false h (',' :: commentText (e' :: es)) = (some ([], commentText (e' :: es)), false, h) := by
        intro h
        rw [scanDirective]
        rw [if_neg (by simp), if_neg (by decide), if_pos rfl]
      rw [hcomma] at hs
      simp only [List.append_nil] at hs
      split
      · rename_i result rest' o had heq
        rw [hs] at heq
        simp only [Prod.mk.injEq, Option.some.injEq] at heq
        obtain ⟨⟨rfl, rfl⟩, rfl, rfl⟩ := heq
        rw [entry_value e he]
        simp only
        rw [ih]
        rfl
      · rename_i heq
        rw [hs] at heq
        simp at heq

/-- C52 violated: three comments that crash the analysis of the file. -/
theorem directives_violation :
    splitDirectives "\"a\"=".toList = .error .panic ∧
    splitDirectives "\"=\"".toList = .error .panic ∧
    splitDirectives "a=ä\"x\"".toList = .error .panic := by
  refine ⟨?_, ?_, ?_⟩ <;>
  · rw [splitDirectives.eq_def]
    decide +kernel

/-- C52, partial: one entry never panics if its key has no quotes and its value starts with an
ASCII character. -/
theorem directive_no_panic_partial (d : List Char) (had : Bool)
    (h : ∀ a b, splitOnce '=' d = some (a, b) → had = true →
      '"' ∈ trim b ∧ trim b ≠ ['"'] ∧ ∀ c, (trim b).head? = some c → c.utf8Size = 1) :
    ∃ r, splitNameValue d had = .ok r := by
  unfold splitNameValue
  simp only
  cases hs : splitOnce '=' d with
  | none => exact ⟨_, rfl⟩
  | some ab =>
    obtain ⟨a, b⟩ := ab
    simp only
    cases had with
    | false => exact ⟨_, rfl⟩
    | true =>
      obtain ⟨h1, h2, h3⟩ := h a b hs rfl
      simp only [if_true]
      split
      · exact ⟨_, rfl⟩
      · rename_i heq
        exfalso
        split at heq
        · split at heq
          · simp at heq
          · rename_i he
            unfold unquote at he
            split at he
            · rename_i hn; rw [hn] at h1; simp at h1
            · rename_i hcond _ _ _ x hx
              rw [hx] at hcond
              simp at hcond
              rw [hx, hcond] at h2
              exact h2 rfl
            · simp at he
        · split at heq
          · simp at heq
          · rename_i he
            unfold dropByte at he
            split at he
            · rename_i hn; rw [hn] at h1; simp at h1
            · rename_i c cs hn
              rw [if_pos (h3 c (by rw [hn]; rfl))] at he
              simp at he

example : ∃ es : List Entry, es.length = 2 ∧ (∀ e ∈ es, e.Wf) ∧
    commentText es = "disable_error_code = \"a, b\", strict_optional".toList := by
  refine ⟨[⟨[], [' '], [' '], [], "disable_error_code".toList, .quoted "a, b".toList⟩,
    ⟨[' '], [], [], [], "strict_optional".toList, .absent⟩], rfl, ?_, by decide +kernel⟩
  intro e he
  simp only [List.mem_cons, List.not_mem_nil, or_false] at he
  have hn : White [] := by intro c hc; simp at hc
  have hsp : White [' '] := by intro c hc; simp at hc; subst hc; decide
  rcases he with rfl | rfl
  · refine ⟨hn, hsp, hsp, hn, ⟨by decide, by decide, by decide, by decide⟩, by decide, by decide, by decide⟩
  · refine ⟨hsp, hn, hn, hn, ⟨by decide, by decide, by decide, by decide⟩, by decide, by decide, trivial⟩

end Verif.Config
