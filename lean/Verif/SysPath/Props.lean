import Verif.SysPath.Spec

/-!
# The library of Python: what is used

C246 to C248.
-/

set_option linter.unusedVariables false
set_option linter.unusedSimpArgs false

namespace Verif.SysPath

open Spec

/-! ## C246: the site-packages of the system -/

theorem white_iff (c : Char) : white c = true ↔ Blank [c] := by
  simp [white, Blank, or_assoc]

theorem blank_all {s : Str} : Blank s ↔ ∀ c ∈ s, white c = true := by
  simp [white, Blank, or_assoc]

theorem dropWhile_split (s : Str) : ∃ a, s = a ++ s.dropWhile white ∧ Blank a ∧
    ∀ c, (s.dropWhile white).head? = some c → white c = false := by
  induction s with
  | nil => exact ⟨[], rfl, by simp [Blank], by simp⟩
  | cons c s ih =>
    rw [List.dropWhile_cons]
    cases h : white c with
    | true =>
      obtain ⟨a, h1, h2, h3⟩ := ih
      refine ⟨c :: a, by simp [← h1], ?_, by simpa using h3⟩
      rw [blank_all] at h2 ⊢
      intro d hd
      rcases List.mem_cons.mp hd with rfl | hd
      · exact h
      · exact h2 d hd
    | false => exact ⟨[], by simp, by simp [Blank], by simp [h]⟩

theorem trim_strip (s : Str) : Strip s (trim s) := by
  obtain ⟨a, h1, h2, h3⟩ := dropWhile_split s
  obtain ⟨b, h4, h5, h6⟩ := dropWhile_split (s.dropWhile white).reverse
  have h7 : s.dropWhile white = trim s ++ b.reverse := by
    have := congrArg List.reverse h4
    simpa [trim] using this
  refine ⟨a, b.reverse, ?_, h2, ?_, ?_, ?_⟩
  · rw [List.append_assoc, ← h7]
    exact h1
  · intro c hc
    exact h5 c (by simpa using hc)
  · intro c hc hb
    have : (s.dropWhile white).head? = some c := by
      rw [h7, List.head?_append, hc]
      rfl
    have := h3 c this
    rw [(white_iff c).mpr hb] at this
    simp at this
  · intro c hc hb
    have : ((s.dropWhile white).reverse.dropWhile white).head? = some c := by
      rw [← hc, trim, List.getLast?_reverse]
    have := h6 c this
    rw [(white_iff c).mpr hb] at this
    simp at this

theorem dropWhile_blank {a t : Str} (ha : Blank a) (ht : ∀ c, t.head? = some c → ¬ Blank [c]) :
    (a ++ t).dropWhile white = t := by
  induction a with
  | nil =>
    cases t with
    | nil => rfl
    | cons c t =>
      have := ht c rfl
      rw [← white_iff] at this
      simp [List.dropWhile_cons, this]
  | cons c a ih =>
    have h1 : white c = true := (blank_all.mp ha) c (by simp)
    rw [List.cons_append, List.dropWhile_cons, h1]
    exact ih fun d hd => ha d (by simp [hd])

theorem strip_trim {s t : Str} (h : Strip s t) (hne : t ≠ []) : trim s = t := by
  obtain ⟨a, b, rfl, ha, hb, h1, h2⟩ := h
  unfold trim
  rw [List.append_assoc, dropWhile_blank ha (by
    intro c hc
    cases t with
    | nil => exact absurd rfl hne
    | cons x t => exact h1 c (by simpa using hc))]
  rw [List.reverse_append, dropWhile_blank (fun c hc => hb c (by simpa using hc)) (by
    intro c hc
    rw [List.head?_reverse] at hc
    exact h2 c hc)]
  simp

theorem splitOnce_some {s k v : Str} : splitOnce s = some (k, v) ↔ s = k ++ '=' :: v ∧ '=' ∉ k := by
  induction s generalizing k with
  | nil => simp [splitOnce]
  | cons c s ih =>
    rw [splitOnce]
    by_cases hc : c = '='
    · subst hc
      rw [if_pos rfl]
      constructor
      · intro h
        cases h
        simp
      · rintro ⟨h1, h2⟩
        cases k with
        | nil => simp at h1; rw [h1]
        | cons x k =>
          simp only [List.cons_append, List.cons.injEq] at h1
          exact absurd (List.mem_cons.mpr (Or.inl h1.1)) h2
    · rw [if_neg hc]
      constructor
      · intro h
        split at h
        · rename_i k' v' heq
          cases h
          obtain ⟨h1, h2⟩ := ih.mp heq
          exact ⟨by rw [h1]; rfl, by simp [Ne.symm hc, h2]⟩
        · simp at h
      · rintro ⟨h1, h2⟩
        cases k with
        | nil =>
          simp only [List.nil_append, List.cons.injEq] at h1
          exact absurd h1.1 hc
        | cons x k =>
          simp only [List.cons_append, List.cons.injEq] at h1
          simp only [List.mem_cons, not_or] at h2
          rw [ih.mpr ⟨h1.2, h2.2⟩, h1.1]

theorem includeLine_sets {l : Str} {b : Bool} (h : includeLine l = some b) : ∃ v, Sets l v := by
  unfold includeLine at h
  split at h
  · rename_i k v heq
    split at h
    · rename_i hk
      obtain ⟨h1, h2⟩ := splitOnce_some.mp heq
      refine ⟨_, k, v, trim k, trim v, h1, h2, trim_strip k, ?_, trim_strip v, rfl⟩
      rw [hk]
      decide
    · simp at h
  · simp at h

/-- C246: if one line sets the value, with the usual name and without white space around the value, it is read like Python
does; if no line sets it, the packages are used.  Missing: white space before the value, which is there in all files that Python
writes, names with capital letters, and repeated lines. -/
theorem include_partial (lines : List Str) :
    ((∀ l ∈ lines, ∀ v, ¬ Sets l v) → includeSystem (some lines) = true) ∧
    (∀ before after k v, lines = before ++ (k ++ '=' :: v) :: after → '=' ∉ k →
      Strip k "include-system-site-packages".toList → Strip v v →
      (∀ l ∈ before ++ after, ∀ v, ¬ Sets l v) → (includeSystem (some lines) = true ↔ Enabled lines)) := by
  have none_of : ∀ ls : List Str, (∀ l ∈ ls, ∀ v, ¬ Sets l v) → ls.findSome? includeLine = none := by
    intro ls h
    rw [List.findSome?_eq_none_iff]
    intro l hl
    cases hi : includeLine l with
    | none => rfl
    | some b =>
      obtain ⟨v, hv⟩ := includeLine_sets hi
      exact absurd hv (h l hl v)
  constructor
  · intro h
    simp [includeSystem, none_of lines h]
  · rintro before after k v rfl hk hs hv ho
    have ht : trim k = "include-system-site-packages".toList := strip_trim hs (by decide)
    have hl : includeLine (k ++ '=' :: v) = some (lower v == "true".toList) := by
      rw [includeLine, splitOnce_some.mpr ⟨rfl, hk⟩]
      simp only
      rw [if_pos ht]
    have hsets : Sets (k ++ '=' :: v) (lower v) := ⟨k, v, _, v, rfl, hk, hs, by decide, hv, rfl⟩
    have hvalue : includeSystem (some (before ++ (k ++ '=' :: v) :: after)) = (lower v == "true".toList) := by
      simp only [includeSystem, List.findSome?_append, List.findSome?_cons, hl,
        none_of before fun l h => ho l (by simp [h]), Option.none_or]
    rw [hvalue, beq_iff_eq]
    constructor
    · intro hx
      exact Or.inr ⟨before, _, after, rfl, hx ▸ hsets, fun l h => ho l (by simp [h])⟩
    · rintro (h | ⟨b, l, a, h1, h2, h3⟩)
      · exact absurd hsets (h _ (by simp) _)
      · have hml : l ∈ before ++ (k ++ '=' :: v) :: after := by rw [h1]; simp
        rw [List.mem_append, List.mem_cons] at hml
        have hleq : l = k ++ '=' :: v := by
          rcases hml with h | h | h
          · exact absurd h2 (ho l (by simp [h]) _)
          · exact h
          · exact absurd h2 (ho l (by simp [h]) _)
        rw [hleq] at h2
        obtain ⟨k2, v2, k3, v3, e, hk2, -, -, hs3, hv3⟩ := h2
        have e1 := splitOnce_some.mpr ⟨e, hk2⟩
        rw [splitOnce_some.mpr ⟨rfl, hk⟩] at e1
        simp only [Option.some.injEq, Prod.mk.injEq] at e1
        obtain ⟨rfl, rfl⟩ := e1
        have hne3 : v3 ≠ [] := by
          rintro rfl
          simp at hv3
        have t1 := strip_trim hs3 hne3
        have hvne : v ≠ [] := by
          rintro rfl
          rw [← t1] at hne3
          exact hne3 rfl
        have t2 := strip_trim hv hvne
        rw [lower, ← t2, t1]
        exact hv3

/-- The line that Python itself writes if the system's packages are to be used; they are not used, because of the blank
before `true`. -/
theorem include_violation :
    includeSystem (some ["include-system-site-packages = true".toList]) = false ∧
    Enabled ["include-system-site-packages = true".toList] := by
  constructor
  · decide +kernel
  · refine Or.inr ⟨[], _, [], rfl, ⟨"include-system-site-packages ".toList, " true".toList,
      "include-system-site-packages".toList, "true".toList, by decide, by decide, ⟨[], [' '], by decide, ?_, ?_, ?_, ?_⟩, by decide,
      ⟨[' '], [], by decide, ?_, ?_, ?_, ?_⟩, by decide⟩, by simp⟩
    · simp [Blank]
    · simp [Blank]
    · intro c hc
      have : c = 'i' := by
        have h : ("include-system-site-packages".toList).head? = some 'i' := by decide
        rw [h] at hc; exact (Option.some.inj hc).symm
      subst this; simp [Blank]
    · intro c hc
      have : c = 's' := by
        have h : ("include-system-site-packages".toList).getLast? = some 's' := by decide
        rw [h] at hc; exact (Option.some.inj hc).symm
      subst this; simp [Blank]
    · simp [Blank]
    · simp [Blank]
    · intro c hc
      have : c = 't' := by
        have h : ("true".toList).head? = some 't' := by decide
        rw [h] at hc; exact (Option.some.inj hc).symm
      subst this; simp [Blank]
    · intro c hc
      have : c = 'e' := by
        have h : ("true".toList).getLast? = some 'e' := by decide
        rw [h] at hc; exact (Option.some.inj hc).symm
      subst this; simp [Blank]

example : includeSystem (some ["home = /usr/bin".toList, "include-system-site-packages=True".toList]) = true ∧
    includeSystem (some ["include-system-site-packages=false".toList]) = false ∧
    includeSystem (some ["home = /usr/bin".toList]) = true := by decide +kernel

/-! ## C247: the library -/

theorem mem_insertLib (l x : Lib) (ls : List Lib) : x ∈ insertLib l ls ↔ x = l ∨ x ∈ ls := by
  induction ls with
  | nil => simp [insertLib]
  | cons y ls ih =>
    rw [insertLib]
    split
    · simp
    · simp only [List.mem_cons, ih]
      constructor
      · rintro (h | h | h)
        · exact Or.inr (Or.inl h)
        · exact Or.inl h
        · exact Or.inr (Or.inr h)
      · rintro (h | h | h)
        · exact Or.inr (Or.inl h)
        · exact Or.inl h
        · exact Or.inr (Or.inr h)

theorem mem_newestFirst (x : Lib) (ls : List Lib) : x ∈ newestFirst ls ↔ x ∈ ls := by
  induction ls with
  | nil => simp [newestFirst]
  | cons l ls ih =>
    have : newestFirst (l :: ls) = insertLib l (newestFirst ls) := rfl
    rw [this, mem_insertLib, ih, List.mem_cons]

theorem insertLib_sorted (l : Lib) (ls : List Lib) (h : ls.Pairwise fun a b => b.version ≤ a.version) :
    (insertLib l ls).Pairwise fun a b => b.version ≤ a.version := by
  induction ls with
  | nil => simp [insertLib]
  | cons x ls ih =>
    rw [List.pairwise_cons] at h
    rw [insertLib]
    split
    · rename_i hle
      rw [List.pairwise_cons, List.pairwise_cons]
      refine ⟨?_, h⟩
      intro y hy
      rcases List.mem_cons.mp hy with rfl | hy
      · exact hle
      · exact Nat.le_trans (h.1 y hy) hle
    · rename_i hle
      rw [List.pairwise_cons]
      refine ⟨?_, ih h.2⟩
      intro y hy
      rcases (mem_insertLib l y ls).mp hy with rfl | hy
      · omega
      · exact h.1 y hy

theorem newestFirst_sorted (ls : List Lib) : (newestFirst ls).Pairwise fun a b => b.version ≤ a.version := by
  induction ls with
  | nil => simp [newestFirst]
  | cons l ls ih => exact insertLib_sorted l _ ih

theorem findSome_sorted (ls : List Lib) (h : ls.Pairwise fun a b => b.version ≤ a.version) :
    (∀ l, ls.findSome? check = some l → Newest ls l) ∧ (ls.findSome? check = none → ∀ x ∈ ls, x.present = false) := by
  induction ls with
  | nil => simp
  | cons x ls ih =>
    rw [List.pairwise_cons] at h
    obtain ⟨i1, i2⟩ := ih h.2
    rw [List.findSome?_cons]
    cases hx : x.present with
    | true =>
      simp only [check, hx, if_true]
      constructor
      · intro l hl
        cases hl
        refine ⟨by simp, hx, ?_⟩
        intro y hy _
        rcases List.mem_cons.mp hy with rfl | hy
        · exact Nat.le_refl _
        · exact h.1 y hy
      · simp
    | false =>
      have hc : check x = none := by simp [check, hx]
      rw [hc]
      simp only
      constructor
      · intro l hl
        obtain ⟨a, b, c⟩ := i1 l hl
        refine ⟨by simp [a], b, ?_⟩
        intro y hy hp
        rcases List.mem_cons.mp hy with rfl | hy
        · rw [hx] at hp; simp at hp
        · exact c y hy hp
      · intro hn y hy
        rcases List.mem_cons.mp hy with rfl | hy
        · exact hx
        · exact i2 hn y hy

/-- C247: the library of the configured version is used if it exists, and otherwise the newest one in the nearest directory
above the executable that has one; there is none only if no directory has one.  Missing: that the directory is a library at
all. -/
theorem library_partial (configured : Option Lib) (parents : List (List Lib)) :
    (∀ l, configured = some l → l.present = true → libPath configured parents = some l) ∧
    ((∀ l, configured = some l → l.present = false) →
      (∀ l, libPath configured parents = some l →
        ∃ before ls after, parents = before ++ ls :: after ∧ Newest ls l ∧ ∀ b ∈ before, ∀ x ∈ b, x.present = false) ∧
      (libPath configured parents = none → ∀ ls ∈ parents, ∀ x ∈ ls, x.present = false)) := by
  constructor
  · rintro l rfl hp
    simp [libPath, check, hp]
  · intro hc
    have hb : configured.bind check = none := by
      cases configured with
      | none => rfl
      | some l => simp [check, hc l rfl]
    rw [libPath, hb]
    simp only
    induction parents with
    | nil => simp [withWhich]
    | cons ls rest ih =>
      have hs := findSome_sorted (newestFirst ls) (newestFirst_sorted ls)
      rw [withWhich]
      cases hf : (newestFirst ls).findSome? check with
      | some x =>
        simp only
        constructor
        · intro l hl
          cases hl
          obtain ⟨a, b, c⟩ := hs.1 x hf
          exact ⟨[], ls, rest, rfl, ⟨(mem_newestFirst _ _).mp a, b, fun y hy => c y ((mem_newestFirst _ _).mpr hy)⟩, by simp⟩
        · simp
      | none =>
        have hn : ∀ x ∈ ls, x.present = false := fun x hx => hs.2 hf x ((mem_newestFirst _ _).mpr hx)
        simp only
        constructor
        · intro l hl
          obtain ⟨b, ls', a, h1, h2, h3⟩ := ih.1 l hl
          refine ⟨ls :: b, ls', a, by simp [h1], h2, ?_⟩
          intro y hy
          rcases List.mem_cons.mp hy with rfl | hy
          · exact hn
          · exact h3 y hy
        · intro hl y hy
          rcases List.mem_cons.mp hy with rfl | hy
          · exact hn
          · exact ih.2 hl y hy

/-- A directory like `/usr/lib/python3.13` without `os.py`, which is left over from an installation, is taken as the library, although
a complete one of another version is there: the code computes the path of `os.py`, but tests for the directory. -/
theorem library_violation :
    libPath none [[{ version := 12 }, { version := 13, hasOs := false }]] = some { version := 13, hasOs := false } ∧
    libPath (some { version := 13, hasOs := false }) [[{ version := 12 }]] = some { version := 13, hasOs := false } := by decide

example : libPath none [[], [{ version := 9 }, { version := 12 }, { version := 14, present := false }], [{ version := 13 }]] =
    some { version := 12 } := by decide

/-! ## C248: site-packages -/

/-- C248: the directory of the version is used if it has site-packages, or if there is no other directory with the right
start; otherwise one that is there is used. -/
theorem site_packages (expected start : Str) (present : Bool) (listing : Option (List Str)) :
    (present = true → lookupSite expected start present listing = expected) ∧
    (present = false → (∀ names, listing = some names → ∀ n ∈ names, ¬ ∃ rest, n = start ++ rest) →
      lookupSite expected start present listing = expected) ∧
    (∀ names, present = false → listing = some names → (∃ n ∈ names, ∃ rest, n = start ++ rest) →
      lookupSite expected start present listing ∈ names ∧ ∃ rest, lookupSite expected start present listing = start ++ rest) := by
  have hpre : ∀ n : Str, start.isPrefixOf n = true ↔ ∃ rest, n = start ++ rest := by
    intro n
    rw [List.isPrefixOf_iff_prefix]
    constructor
    · rintro ⟨r, h⟩
      exact ⟨r, h.symm⟩
    · rintro ⟨r, h⟩
      exact ⟨r, h.symm⟩
  refine ⟨?_, ?_, ?_⟩
  · rintro rfl
    simp [lookupSite]
  · rintro rfl h
    cases listing with
    | none => simp [lookupSite]
    | some names =>
      have : names.find? (fun n => start.isPrefixOf n) = none := by
        rw [List.find?_eq_none]
        intro n hn
        rw [hpre]
        exact h names rfl n hn
      simp only [lookupSite, this, Bool.false_eq_true, if_false]
  · rintro names rfl rfl ⟨n, hn, hr⟩
    cases hf : names.find? fun n => start.isPrefixOf n with
    | none =>
      rw [List.find?_eq_none] at hf
      exact absurd ((hpre n).mpr hr) (hf n hn)
    | some m =>
      have e : lookupSite expected start false (some names) = m := by
        simp only [lookupSite, hf, Bool.false_eq_true, if_false]
      rw [e]
      exact ⟨List.mem_of_find?_eq_some hf, (hpre m).mp (List.find?_some hf)⟩

example : lookupSite "python3.12".toList "python".toList false (some ["x".toList, "python3.11".toList]) = "python3.11".toList := by
  decide

end Verif.SysPath
