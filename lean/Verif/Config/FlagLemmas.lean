import Verif.Config.Lemmas

namespace Verif.Config

open Spec

theorem stripPrefix_append (p s : List Char) : stripPrefix (p ++ s) p = some s := by
  unfold stripPrefix
  rw [if_pos (List.prefix_append _ _)]
  simp

theorem stripPrefix_some {s p r : List Char} (h : stripPrefix s p = some r) : s = p ++ r := by
  unfold stripPrefix at h
  split at h
  · rename_i hp
    obtain ⟨t, rfl⟩ := hp
    simp at h
    rw [h]
  · simp at h

theorem stripPrefix_none {s p : List Char} (h : stripPrefix s p = none) : ¬ p <+: s := by
  unfold stripPrefix at h
  split at h
  · simp at h
  · assumption

theorem asBool_invert (v : Value) (i : Bool) : v.asBool i = (v.asBool false).map (· != i) := by
  unfold Value.asBool
  simp only [Option.map_map]
  congr 1
  funext b
  cases b <;> cases i <;> rfl

theorem asBool_iff (v : Value) (b : Bool) : v.asBool false = some b ↔ BoolValue v b := by
  have e : ∀ o : Option Bool, o.map (· != false) = o := by
    intro o; cases o with | none => rfl | some b => cases b <;> rfl
  cases v with
  | tomlBool c =>
    simp only [Value.asBool, e, Option.some.injEq]
    constructor
    · rintro rfl; exact .toml _
    · intro h; cases h; rfl
  | inlineNoValue =>
    simp only [Value.asBool, e, Option.some.injEq]
    constructor
    · rintro rfl; exact .inline
    · intro h; cases h; rfl
  | ini s =>
    simp only [Value.asBool, e]
    constructor
    · intro h
      split at h
      · simp only [Option.some.injEq] at h; subst h; exact .yes _ ‹_›
      · split at h
        · simp only [Option.some.injEq] at h; subst h; exact .no _ ‹_›
        · simp at h
    · intro h
      cases h with
      | yes _ h => rw [if_pos h]
      | no _ h =>
        rw [if_neg ?_, if_pos h]
        simp only [List.mem_cons, List.not_mem_nil, or_false] at h
        rcases h with h | h | h | h <;> rw [h] <;> decide
  | tomlStr s => simp only [Value.asBool, Option.map_none]; constructor <;> intro h <;> cases h
  | tomlStrs s => simp only [Value.asBool, Option.map_none]; constructor <;> intro h <;> cases h
  | tomlOther => simp only [Value.asBool, Option.map_none]; constructor <;> intro h <;> cases h

theorem asBool_none_iff (v : Value) : v.asBool false = none ↔ ¬ ∃ b, BoolValue v b := by
  constructor
  · rintro h ⟨b, hb⟩
    rw [← asBool_iff, h] at hb
    simp at hb
  · intro h
    cases hv : v.asBool false with
    | none => rfl
    | some b => exact absurd ⟨b, (asBool_iff v b).mp hv⟩ h

/-- The names with an arm of their own in `set_flag`. -/
def specialNames : List Name :=
  ["exclude".toList, "always_true".toList, "always_false".toList, "enable_error_code".toList,
   "disable_error_code".toList, "strict".toList]

/-- The table of the code has exactly the documented options. -/
theorem options_table (n : Name) (f : Flag) (neg : Bool) : (n, f, neg) ∈ boolOptions ↔ (n, neg) ∈ optionNames f := by
  constructor
  · intro h
    have : ∀ o ∈ boolOptions, (o.1, o.2.2) ∈ optionNames o.2.1 := by decide +kernel
    exact this _ h
  · intro h
    have : ∀ f : Flag, ∀ o ∈ optionNames f, (o.1, f, o.2) ∈ boolOptions := by
      intro f; cases f <;> decide +kernel
    exact this f _ h

theorem options_own : ∀ o ∈ boolOptions, maybeInvert o.1 = (false, o.1) := by decide +kernel
theorem options_special : ∀ o ∈ boolOptions, o.1 ∉ specialNames := by decide +kernel
theorem options_find : ∀ o ∈ boolOptions, boolOptions.find? (fun p => p.1 = o.1) = some o := by decide +kernel
theorem options_ignored : ∀ o ∈ boolOptions, o.1 ∉ ignoredOptions ∧ o.1 ≠ "python_version".toList := by decide +kernel
theorem options_disallow : ∀ o ∈ boolOptions, ∀ x, stripPrefix o.1 "disallow".toList = some x →
    "allow".toList ++ x ∉ optionsStartingWithAllow := by
  intro o ho x hx
  have : ∀ o ∈ boolOptions, ∀ a ∈ optionsStartingWithAllow, stripPrefix o.1 "disallow".toList ≠ stripPrefix a "allow".toList := by
    decide +kernel
  intro hm
  exact this o ho _ hm (by rw [hx, stripPrefix_append])
theorem options_allow : ∀ o ∈ boolOptions, "allow".toList <+: o.1 → o.1 ∈ optionsStartingWithAllow := by decide +kernel
theorem allow_prefix : ∀ n ∈ optionsStartingWithAllow, "allow".toList <+: n := by decide +kernel

theorem maybeInvert_no (n : Name) : maybeInvert ("no_".toList ++ n) = (true, n) := by
  unfold maybeInvert
  rw [stripPrefix_append]

theorem strip_no_allow (x : Name) : stripPrefix ("allow".toList ++ x) "no_".toList = none := by
  unfold stripPrefix
  rw [if_neg]
  simp

theorem strip_no_dis (x : Name) : stripPrefix ("disallow".toList ++ x) "no_".toList = none := by
  unfold stripPrefix
  rw [if_neg]
  simp

theorem dis_allow (x : Name) : "dis".toList ++ ("allow".toList ++ x) = "disallow".toList ++ x := by simp

/-- The two names `allow…` and `disallow…` are always the negation of each other. -/
theorem maybeInvert_allow (x : Name) :
    (("allow".toList ++ x ∈ optionsStartingWithAllow ∧ maybeInvert ("allow".toList ++ x) = (false, "allow".toList ++ x) ∧
      maybeInvert ("disallow".toList ++ x) = (true, "allow".toList ++ x)) ∨
     ("allow".toList ++ x ∉ optionsStartingWithAllow ∧ maybeInvert ("allow".toList ++ x) = (true, "disallow".toList ++ x) ∧
      maybeInvert ("disallow".toList ++ x) = (false, "disallow".toList ++ x))) := by
  have hna : ¬ ("allow".toList <+: "disallow".toList ++ x) := by simp
  have hda : stripPrefix ("allow".toList ++ x) "dis".toList = none := by
    unfold stripPrefix
    rw [if_neg]
    simp
  have hdd : stripPrefix ("disallow".toList ++ x) "dis".toList = some ("allow".toList ++ x) := by
    rw [← dis_allow, stripPrefix_append]
  by_cases h : "allow".toList ++ x ∈ optionsStartingWithAllow
  · left
    refine ⟨h, ?_, ?_⟩
    · unfold maybeInvert
      rw [strip_no_allow]
      simp only
      rw [if_neg (by exact fun hh => hh.2 h), hda]
    · unfold maybeInvert
      rw [strip_no_dis]
      simp only
      rw [if_neg (by exact fun hh => hna hh.1), hdd]
      simp only
      rw [if_pos h]
  · right
    refine ⟨h, ?_, ?_⟩
    · unfold maybeInvert
      rw [strip_no_allow]
      simp only
      rw [if_pos ⟨List.prefix_append _ _, h⟩, dis_allow]
    · unfold maybeInvert
      rw [strip_no_dis]
      simp only
      rw [if_neg (by exact fun hh => hna hh.1), hdd]
      simp only
      rw [if_neg h]

/-- `maybe_invert` finds the canonical name of every key. -/
theorem key_invert {n f neg} (h : Key n f neg) :
    ∃ inv m neg', maybeInvert n = (inv, m) ∧ (m, f, neg') ∈ boolOptions ∧ neg = (neg' != inv) := by
  cases h with
  | own h =>
    rw [← options_table] at h
    exact ⟨false, n, neg, options_own _ h, h, by simp⟩
  | @no n _ neg h =>
    rw [← options_table] at h
    exact ⟨true, n, neg, maybeInvert_no n, h, by simp⟩
  | @allow x _ neg h =>
    rw [← options_table] at h
    have := options_disallow _ h x (stripPrefix_append _ _)
    rcases maybeInvert_allow x with ⟨h1, -⟩ | ⟨h1, h2, -⟩
    · exact absurd h1 this
    · exact ⟨true, _, neg, h2, h, by simp⟩
  | @disallow x _ neg h =>
    rw [← options_table] at h
    have := options_allow _ h (List.prefix_append _ _)
    rcases maybeInvert_allow x with ⟨-, -, h3⟩ | ⟨h1, -⟩
    · exact ⟨true, _, neg, h3, h, by simp⟩
    · exact absurd this h1

theorem invert_key {n inv m f neg} (h : maybeInvert n = (inv, m)) (ho : (m, f, neg) ∈ boolOptions) :
    Key n f (neg != inv) := by
  rw [options_table] at ho
  unfold maybeInvert at h
  split at h
  · rename_i r hr
    simp only [Prod.mk.injEq] at h
    obtain ⟨rfl, rfl⟩ := h
    rw [stripPrefix_some hr]
    simpa using Key.no ho
  · split at h
    · rename_i hc
      simp only [Prod.mk.injEq] at h
      obtain ⟨rfl, rfl⟩ := h
      obtain ⟨x, rfl⟩ := hc.1
      rw [dis_allow] at ho
      simpa using Key.allow ho
    · split at h
      · rename_i a ha
        split at h
        · rename_i hm
          simp only [Prod.mk.injEq] at h
          obtain ⟨rfl, rfl⟩ := h
          obtain ⟨x, rfl⟩ := allow_prefix _ hm
          rw [stripPrefix_some ha, dis_allow]
          simpa using Key.disallow ho
        · simp only [Prod.mk.injEq] at h
          obtain ⟨rfl, rfl⟩ := h
          simpa using Key.own ho
      · simp only [Prod.mk.injEq] at h
        obtain ⟨rfl, rfl⟩ := h
        simpa using Key.own ho

theorem setFlag_default (valid : Name → Bool) (fl : Flags) (n : Name) (v : Value) (e : Bool) {inv m}
    (h : maybeInvert n = (inv, m)) (hs : m ∉ specialNames) :
    setFlag valid fl n v e = setBoolInitFlags fl m v inv e := by
  unfold setFlag
  rw [h]
  simp only
  simp only [specialNames, List.mem_cons, List.not_mem_nil, or_false, not_or] at hs
  rw [if_neg hs.1, if_neg hs.2.1, if_neg hs.2.2.1, if_neg hs.2.2.2.1, if_neg hs.2.2.2.2.1, if_neg hs.2.2.2.2.2]

theorem setFlag_key (valid : Name → Bool) (fl : Flags) (n : Name) (v : Value) (e : Bool) {f neg} (h : Key n f neg) :
    setFlag valid fl n v e = (match v.asBool false with
      | some b => (fl.setBool f (b != neg), .ok ())
      | none => (fl, .error .bail)) := by
  obtain ⟨inv, m, neg', hi, ho, rfl⟩ := key_invert h
  rw [setFlag_default valid fl n v e hi (options_special _ ho)]
  unfold setBoolInitFlags
  rw [options_find _ ho, asBool_invert]
  cases v.asBool false with
  | none => rfl
  | some b => simp only [Option.map_some]; cases b <;> cases neg' <;> cases inv <;> rfl

theorem find_mem {m : Name} {o} (h : boolOptions.find? (fun p => p.1 = m) = some o) : o ∈ boolOptions ∧ o.1 = m := by
  refine ⟨List.mem_of_find?_eq_some h, ?_⟩
  have := List.find?_some h
  simpa using this

theorem setBool_other (fl : Flags) (f g : Flag) (b : Bool) (h : g ≠ f) : (fl.setBool f b).bool g = fl.bool g := by
  simp [Flags.setBool, h]

theorem setBool_self (fl : Flags) (f : Flag) (b : Bool) : (fl.setBool f b).bool f = b := by
  simp [Flags.setBool]

theorem addListOfStr_bool (fl : Flags) (f : ListFlag) (v : Value) (i : Bool) : (addListOfStr fl f v i).1.bool = fl.bool := by
  unfold addListOfStr
  split
  · rfl
  · split <;> rfl

theorem addExcludes_bool (valid : Name → Bool) (fl : Flags) (v : Value) (i : Bool) :
    (addExcludes valid fl v i).1.bool = fl.bool := by
  unfold addExcludes
  simp only
  split
  · rfl
  · split <;> rfl

theorem setBoolInit_list (fl : Flags) (n : Name) (v : Value) (i e : Bool) :
    (setBoolInitFlags fl n v i e).1.list = fl.list := by
  unfold setBoolInitFlags
  split
  · split <;> rfl
  · split
    · rfl
    · split
      · rfl
      · split <;> rfl

/-- A key that does not name a flag leaves it alone. -/
theorem setFlag_other (valid : Name → Bool) (fl : Flags) (n : Name) (v : Value) (e : Bool) (g : Flag)
    (h : ∀ neg, ¬ Key n g neg) : (setFlag valid fl n v e).1.bool g = fl.bool g := by
  unfold setFlag
  cases hm : maybeInvert n with
  | mk inv m =>
    simp only
    split
    · rw [addExcludes_bool]
    · split
      · rw [addListOfStr_bool]
      · split
        · rw [addListOfStr_bool]
        · split
          · rw [addListOfStr_bool]
          · split
            · rw [addListOfStr_bool]
            · split
              · rfl
              · unfold setBoolInitFlags
                split
                · rename_i m' f neg hf
                  obtain ⟨hmem, he⟩ := find_mem hf
                  simp only at he
                  subst he
                  have hk := invert_key hm hmem
                  split
                  · exact setBool_other _ _ _ _ (by rintro rfl; exact h _ hk)
                  · rfl
                · split
                  · rfl
                  · split
                    · rfl
                    · split <;> rfl

/-! ## Errors -/

theorem listOptions_facts : ∀ n ∈ listOptions, maybeInvert n = (false, n) ∧ n ≠ "exclude".toList ∧
    n ∈ specialNames ∧ n ≠ "strict".toList := by decide +kernel

theorem setFlag_list (valid : Name → Bool) (fl : Flags) (n : Name) (v : Value) (e : Bool) {inv m}
    (hi : maybeInvert n = (inv, m)) (h : m ∈ listOptions) :
    ∃ f, setFlag valid fl n v e = addListOfStr fl f v inv := by
  unfold setFlag
  rw [hi]
  simp only
  simp only [listOptions, List.mem_cons, List.not_mem_nil, or_false] at h
  rcases h with rfl | rfl | rfl | rfl
  · exact ⟨.alwaysTrue, by rw [if_neg (by decide), if_pos rfl]⟩
  · exact ⟨.alwaysFalse, by rw [if_neg (by decide), if_neg (by decide), if_pos rfl]⟩
  · exact ⟨.enabledErrorCodes, by rw [if_neg (by decide), if_neg (by decide), if_neg (by decide), if_pos rfl]⟩
  · exact ⟨.disabledErrorCodes, by
      rw [if_neg (by decide), if_neg (by decide), if_neg (by decide), if_neg (by decide), if_pos rfl]⟩

theorem addListOfStr_error (fl : Flags) (f : ListFlag) (v : Value) (i : Bool) :
    (addListOfStr fl f v i).2 = .ok () ↔ i = false ∧ ListValue v := by
  unfold addListOfStr
  cases i
  · cases v <;> simp [ListValue]
  · simp

theorem addExcludes_error (valid : Name → Bool) (fl : Flags) (v : Value) (i : Bool) :
    (addExcludes valid fl v i).2 = .ok () ↔ i = false ∧ RegexValue valid v := by
  unfold addExcludes
  cases i
  · cases v with
    | tomlStrs l =>
      by_cases h : l.all valid = true
      · simp only [Bool.false_eq_true, if_false, h, if_true, RegexValue, true_and, true_iff]
        simpa using h
      · simp only [Bool.false_eq_true, if_false, h, RegexValue]; simpa using h
    | tomlStr s => by_cases h : valid s = true <;> simp [RegexValue, h]
    | ini s => by_cases h : valid s = true <;> simp [RegexValue, h]
    | tomlBool b => simp [RegexValue]
    | tomlOther => simp [RegexValue]
    | inlineNoValue => simp [RegexValue]
  · simp

/-- What the key of an inverted name looks like. -/
theorem invert_true_name {n m : Name} (h : maybeInvert n = (true, m)) :
    n = "no_".toList ++ m ∨ ("allow".toList <+: n ∧ m = "dis".toList ++ n) ∨ (m ∈ optionsStartingWithAllow) := by
  unfold maybeInvert at h
  split at h
  · rename_i r hr
    simp only [Prod.mk.injEq, true_and] at h
    subst h
    exact .inl (stripPrefix_some hr)
  · split at h
    · rename_i hc
      simp only [Prod.mk.injEq, true_and] at h
      exact .inr (.inl ⟨hc.1, h.symm⟩)
    · split at h
      · split at h
        · rename_i hm
          simp only [Prod.mk.injEq, true_and] at h
          subst h
          exact .inr (.inr hm)
        · simp at h
      · simp at h

theorem invert_false_name {n m : Name} (h : maybeInvert n = (false, m)) : m = n := by
  unfold maybeInvert at h
  split at h
  · simp at h
  · split at h
    · simp at h
    · split at h
      · split at h <;> simp at h
        exact h.symm
      · simp at h; exact h.symm

/-- A special name that results from inversion comes from the `no_` prefix. -/
theorem invert_special {n m : Name} (hm : m ∈ "python_version".toList :: specialNames) (h : maybeInvert n = (true, m)) :
    n = "no_".toList ++ m := by
  rcases invert_true_name h with h | ⟨hp, rfl⟩ | h
  · exact h
  · exfalso
    obtain ⟨x, rfl⟩ := hp
    simp [specialNames] at hm
  · exfalso
    have : ∀ m ∈ "python_version".toList :: specialNames, m ∉ optionsStartingWithAllow := by decide +kernel
    exact this m hm h

theorem special_own : ∀ m ∈ "python_version".toList :: specialNames, maybeInvert m = (false, m) := by decide +kernel

theorem special_cases : ∀ m ∈ specialNames, m = "exclude".toList ∨ m ∈ listOptions ∨ m = "strict".toList := by decide +kernel

/-- In the sections of a configuration file, exactly the bad entries are errors. -/
theorem setFlag_ok_iff (valid : Name → Bool) (fl : Flags) (n : Name) (v : Value) :
    (setFlag valid fl n v false).2 = .ok () ↔ ¬ Bad valid n v := by
  have key_not_special : ∀ {n f neg}, Key n f neg → ∀ {inv m}, maybeInvert n = (inv, m) →
      m ∉ "python_version".toList :: specialNames := by
    intro n f neg hk inv m hi
    obtain ⟨inv', m', neg', hi', ho, -⟩ := key_invert hk
    rw [hi] at hi'
    simp only [Prod.mk.injEq] at hi'
    obtain ⟨rfl, rfl⟩ := hi'
    intro hmem
    rcases List.mem_cons.mp hmem with rfl | hmem
    · exact (options_ignored _ ho).2 rfl
    · exact options_special _ ho hmem
  constructor
  · intro hok hbad
    have hspecial : ∀ m ∈ "python_version".toList :: specialNames,
        maybeInvert m = (false, m) ∧ maybeInvert ("no_".toList ++ m) = (true, m) :=
      fun m hm => ⟨special_own m hm, maybeInvert_no m⟩
    have hstrict : ∀ n inv, maybeInvert n = (inv, "strict".toList) → (setFlag valid fl n v false).2 ≠ .ok () := by
      intro n inv hi
      unfold setFlag
      rw [hi]
      simp only
      rw [if_neg (by decide), if_neg (by decide), if_neg (by decide), if_neg (by decide), if_neg (by decide), if_pos trivial]
      simp
    have hversion : ∀ n inv, maybeInvert n = (inv, "python_version".toList) → (setFlag valid fl n v false).2 ≠ .ok () := by
      intro n inv hi
      rw [setFlag_default valid fl n v false hi (by decide)]
      have h1 : boolOptions.find? (fun p => p.1 = "python_version".toList) = none := by decide +kernel
      unfold setBoolInitFlags
      rw [h1]
      simp only
      rw [if_neg (by decide), if_pos trivial]
      simp
    cases hbad with
    | strict => exact hstrict _ _ (hspecial _ (by decide)).1 hok
    | noStrict => exact hstrict _ _ (hspecial _ (by decide)).2 hok
    | version => exact hversion _ _ (hspecial _ (by decide)).1 hok
    | noVersion => exact hversion _ _ (hspecial _ (by decide)).2 hok
    | bool _ hk hv =>
      rw [setFlag_key valid fl n v false hk, (asBool_none_iff v).mpr hv] at hok
      simp at hok
    | list _ hn hv =>
      obtain ⟨f, hf⟩ := setFlag_list valid fl n v false (listOptions_facts n hn).1 hn
      rw [hf, addListOfStr_error] at hok
      exact hv hok.2
    | @noList n _ hn =>
      obtain ⟨f, hf⟩ := setFlag_list valid fl _ v false (maybeInvert_no n) hn
      rw [hf, addListOfStr_error] at hok
      simp at hok
    | exclude _ hv =>
      unfold setFlag at hok
      rw [(hspecial "exclude".toList (by decide)).1] at hok
      simp only [if_true] at hok
      rw [addExcludes_error] at hok
      exact hv hok.2
    | noExclude =>
      unfold setFlag at hok
      have := (hspecial "exclude".toList (by decide)).2
      rw [show "no_exclude".toList = "no_".toList ++ "exclude".toList from by decide] at hok
      rw [this] at hok
      simp only [if_true] at hok
      rw [addExcludes_error] at hok
      simp at hok
  · intro hgood
    cases hi : maybeInvert n with
    | mk inv m =>
      have hname : m ∈ "python_version".toList :: specialNames → n = (if inv then "no_".toList ++ m else m) := by
        intro hm
        cases inv with
        | true => simpa using invert_special hm hi
        | false => simpa using (invert_false_name hi).symm
      by_cases hs : m ∈ specialNames
      · have hn := hname (by simp [hs])
        rcases special_cases m hs with rfl | hl | rfl
        · unfold setFlag
          rw [hi]
          simp only [if_true]
          rw [addExcludes_error]
          cases inv with
          | true => exact absurd (hn ▸ Bad.noExclude v) hgood
          | false =>
            refine ⟨rfl, ?_⟩
            apply Classical.byContradiction
            intro hr
            exact hgood (hn ▸ Bad.exclude v hr)
        · obtain ⟨f, hf⟩ := setFlag_list valid fl n v false hi hl
          rw [hf, addListOfStr_error]
          cases inv with
          | true => exact absurd (hn ▸ Bad.noList v hl) hgood
          | false =>
            refine ⟨rfl, ?_⟩
            apply Classical.byContradiction
            intro hr
            have : n = m := hn
            subst this
            exact hgood (Bad.list v hl hr)
        · exfalso
          cases inv with
          | true => exact hgood (hn ▸ Bad.noStrict v)
          | false => exact hgood (hn ▸ Bad.strict v)
      · rw [setFlag_default valid fl n v false hi hs]
        unfold setBoolInitFlags
        split
        · rename_i m' f neg hf
          obtain ⟨hmem, he⟩ := find_mem hf
          simp only at he
          subst he
          have hk := invert_key hi hmem
          rw [asBool_invert]
          cases hv : v.asBool false with
          | some b => rfl
          | none => exact absurd (Bad.bool v hk ((asBool_none_iff v).mp hv)) hgood
        · split
          · rfl
          · split
            · rename_i hpv
              exfalso
              subst hpv
              have hn := hname (by simp)
              cases inv with
              | true => exact hgood (hn ▸ Bad.noVersion v)
              | false => exact hgood (hn ▸ Bad.version v)
            · rfl

theorem setFlag_error_bail (valid : Name → Bool) (fl : Flags) (n : Name) (v : Value) (e : Fail)
    (h : (setFlag valid fl n v false).2 = .error e) : Bad valid n v := by
  apply Classical.byContradiction
  intro hb
  rw [← setFlag_ok_iff valid fl n v] at hb
  rw [hb] at h
  simp at h

/-! ## Sections -/

theorem applyAll_ok_iff (valid : Name → Bool) (cfg : List (Name × Value)) (fl : Flags) :
    (applyAll valid fl cfg).2 = .ok () ↔ ∀ k v, (k, v) ∈ cfg → ¬ Bad valid k v := by
  induction cfg generalizing fl with
  | nil => simp [applyAll]
  | cons e cfg ih =>
    obtain ⟨k, v⟩ := e
    simp only [applyAll]
    cases hs : setFlag valid fl k v false with
    | mk fl' r =>
      cases r with
      | ok u =>
        simp only
        rw [ih]
        have hb : ¬ Bad valid k v := (setFlag_ok_iff valid fl k v).mp (by rw [hs])
        constructor
        · intro h k' v' hm
          rcases List.mem_cons.mp hm with he | hm
          · simp only [Prod.mk.injEq] at he
            obtain ⟨rfl, rfl⟩ := he
            exact hb
          · exact h k' v' hm
        · intro h k' v' hm
          exact h k' v' (by simp [hm])
      | error e =>
        simp only [reduceCtorEq, false_iff]
        intro h
        exact h k v (by simp) (setFlag_error_bail valid fl k v e (by rw [hs]))

theorem applyStrict_ok (cfg : List (Name × Value)) (fl : Flags) (h : ∀ v, ("strict".toList, v) ∉ cfg) :
    applyStrict fl cfg = (fl, .ok ()) := by
  induction cfg with
  | nil => rfl
  | cons e cfg ih =>
    obtain ⟨k, v⟩ := e
    simp only [applyStrict]
    rw [if_neg, ih]
    · intro v hv; exact h v (List.mem_cons_of_mem _ hv)
    · rintro rfl; exact h v (by simp)

/-- A section is applied without an error iff it has no bad entry; then it is applied entry by
entry. -/
theorem apply_ok_iff (valid : Name → Bool) (o : Override) (fl : Flags) :
    (o.apply valid fl).2 = .ok () ↔ ∀ k v, (k, v) ∈ o.config → ¬ Bad valid k v := by
  unfold Override.apply
  by_cases h : ∀ v, ("strict".toList, v) ∉ o.config
  · rw [applyStrict_ok _ _ h]
    exact applyAll_ok_iff valid o.config fl
  · have hex : ∃ v, ("strict".toList, v) ∈ o.config := by
      apply Classical.byContradiction
      intro hh
      exact h fun v hv => hh ⟨v, hv⟩
    obtain ⟨v, hv⟩ := hex
    constructor
    · intro hok
      exfalso
      split at hok
      · rename_i fl' _
        exact (applyAll_ok_iff valid o.config fl').mp hok _ v hv (.strict v)
      · simp at hok
    · intro hb
      exact absurd (Bad.strict v) (hb _ v hv)

theorem apply_eq (valid : Name → Bool) (o : Override) (fl : Flags) (h : (o.apply valid fl).2 = .ok ()) :
    o.apply valid fl = applyAll valid fl o.config := by
  have hb := (apply_ok_iff valid o fl).mp h
  unfold Override.apply
  rw [applyStrict_ok]
  intro v hv
  exact hb _ _ hv (.strict v)

theorem applyAll_append (valid : Name → Bool) (a b : List (Name × Value)) (fl fl' : Flags)
    (h : applyAll valid fl (a ++ b) = (fl', .ok ())) :
    ∃ fl1, applyAll valid fl a = (fl1, .ok ()) ∧ applyAll valid fl1 b = (fl', .ok ()) := by
  induction a generalizing fl with
  | nil => exact ⟨fl, rfl, h⟩
  | cons e a ih =>
    obtain ⟨k, v⟩ := e
    simp only [List.cons_append, applyAll] at h ⊢
    cases hs : setFlag valid fl k v false with
    | mk fl1 r =>
      rw [hs] at h
      cases r with
      | ok u => exact ih fl1 h
      | error e => simp at h

theorem applyAll_unmentioned (valid : Name → Bool) (cfg : List (Name × Value)) (fl fl' : Flags) (f : Flag)
    (hok : applyAll valid fl cfg = (fl', .ok ())) (h : ∀ k v neg, (k, v) ∈ cfg → ¬ Key k f neg) :
    fl'.bool f = fl.bool f := by
  induction cfg generalizing fl with
  | nil => simp only [applyAll, Prod.mk.injEq] at hok; rw [hok.1]
  | cons e cfg ih =>
    obtain ⟨k, v⟩ := e
    simp only [applyAll] at hok
    have h1 := setFlag_other valid fl k v false f (fun neg => h k v neg (by simp))
    cases hs : setFlag valid fl k v false with
    | mk fl1 r =>
      rw [hs] at hok h1
      cases r with
      | ok u =>
        rw [← h1]
        exact ih fl1 hok (fun k v neg hm => h k v neg (by simp [hm]))
      | error e => simp at hok

theorem apply_sets (valid : Name → Bool) (o : Override) (fl fl' : Flags) (f : Flag) (b : Bool)
    (hok : o.apply valid fl = (fl', .ok ())) (h : Sets o f b) : fl'.bool f = b := by
  rw [apply_eq valid o fl (by rw [hok])] at hok
  obtain ⟨pre, k, v, post, neg, b', hc, hk, hv, rfl, hpost⟩ := h
  rw [hc] at hok
  obtain ⟨fl1, -, h2⟩ := applyAll_append valid pre _ fl fl' hok
  simp only [applyAll] at h2
  rw [setFlag_key valid fl1 k v false hk, (asBool_iff v b').mpr hv] at h2
  simp only at h2
  rw [applyAll_unmentioned valid post _ fl' f h2 hpost, setBool_self]

theorem apply_unmentioned (valid : Name → Bool) (o : Override) (fl fl' : Flags) (f : Flag)
    (hok : o.apply valid fl = (fl', .ok ())) (h : ¬ Mentions o f) : fl'.bool f = fl.bool f := by
  rw [apply_eq valid o fl (by rw [hok])] at hok
  exact applyAll_unmentioned valid _ fl fl' f hok fun k v neg hm hk => h ⟨k, v, neg, hm, hk⟩

theorem applies_iff (o : Override) (f : File) :
    o.module.matches (nameAndParents f).1 (nameAndParents f).2 = true ↔ Applies o f := by
  unfold Path.matches Applies
  rw [matchesRev_iff, List.reverse_reverse]

theorem applyOverrides_append (valid : Name → Bool) (file : File) (a b : List Override) (fl fl' : Flags)
    (h : applyOverrides valid file fl (a ++ b) = .ok fl') :
    ∃ fl1, applyOverrides valid file fl a = .ok fl1 ∧ applyOverrides valid file fl1 b = .ok fl' := by
  induction a generalizing fl with
  | nil => exact ⟨fl, rfl, h⟩
  | cons o a ih =>
    simp only [List.cons_append, applyOverrides] at h ⊢
    split
    · rename_i hm
      rw [if_pos hm] at h
      cases ha : o.apply valid fl with
      | mk fl1 r =>
        rw [ha] at h
        cases r with
        | ok u => exact ih fl1 h
        | error e => simp at h
    · rename_i hm
      rw [if_neg hm] at h
      exact ih fl h

theorem applyOverrides_unmentioned (valid : Name → Bool) (file : File) (os : List Override) (fl fl' : Flags) (f : Flag)
    (hok : applyOverrides valid file fl os = .ok fl') (h : ∀ o ∈ os, Applies o file → ¬ Mentions o f) :
    fl'.bool f = fl.bool f := by
  induction os generalizing fl with
  | nil => simp only [applyOverrides, Except.ok.injEq] at hok; rw [hok]
  | cons o os ih =>
    simp only [applyOverrides] at hok
    split at hok
    · rename_i hm
      cases ha : o.apply valid fl with
      | mk fl1 r =>
        rw [ha] at hok
        cases r with
        | ok u =>
          rw [ih fl1 hok (fun o ho => h o (by simp [ho])),
            apply_unmentioned valid o fl fl1 f ha (h o (by simp) ((applies_iff o file).mp hm))]
        | error e => simp at hok
    · exact ih fl hok (fun o ho => h o (by simp [ho]))

theorem applyOverrides_ok_iff (valid : Name → Bool) (file : File) (os : List Override) (fl : Flags) :
    (∃ fl', applyOverrides valid file fl os = .ok fl') ↔
      ∀ o ∈ os, Applies o file → ∀ k v, (k, v) ∈ o.config → ¬ Bad valid k v := by
  induction os generalizing fl with
  | nil => simp [applyOverrides]
  | cons o os ih =>
    simp only [applyOverrides]
    by_cases hm : o.module.matches (nameAndParents file).1 (nameAndParents file).2 = true
    · rw [if_pos hm]
      have happ := (applies_iff o file).mp hm
      cases ha : o.apply valid fl with
      | mk fl1 r =>
        cases r with
        | ok u =>
          simp only
          rw [ih]
          have := (apply_ok_iff valid o fl).mp (by rw [ha])
          constructor
          · intro h o' ho'
            rcases List.mem_cons.mp ho' with rfl | ho'
            · exact fun _ => this
            · exact h o' ho'
          · intro h o' ho'
            exact h o' (by simp [ho'])
        | error e =>
          simp only [reduceCtorEq, exists_false, false_iff]
          intro h
          have := (apply_ok_iff valid o fl).mpr (h o (by simp) happ)
          rw [ha] at this
          simp at this
    · rw [if_neg hm, ih]
      have happ : ¬ Applies o file := fun h => hm ((applies_iff o file).mpr h)
      constructor
      · intro h o' ho'
        rcases List.mem_cons.mp ho' with rfl | ho'
        · exact fun h => absurd h happ
        · exact h o' ho'
      · intro h o' ho'
        exact h o' (by simp [ho'])

theorem applyOverrides_error (valid : Name → Bool) (file : File) (os : List Override) (fl : Flags) (e : Fail)
    (h : applyOverrides valid file fl os = .error e) : e = .panic := by
  induction os generalizing fl with
  | nil => simp [applyOverrides] at h
  | cons o os ih =>
    simp only [applyOverrides] at h
    split at h
    · split at h
      · exact ih _ h
      · simpa using h.symm
    · exact ih _ h

end Verif.Config
