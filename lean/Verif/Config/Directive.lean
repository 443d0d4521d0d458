import Verif.Config.Model

/-!
# Inline configuration comments

Model of `DirectiveSplitter`, `crates/zuban_python/src/file/python_file.rs` 1045-1130.  The text
is a list of characters; the loop over the bytes only looks at the ASCII characters `"` and `,`.
The positions of the reported issues are not modelled.
-/

namespace Verif.Config

/-- The issues added by the splitter. -/
inductive DirectiveIssue where
  | contentAfterQuote
  | quoteInKey
  | unterminated
deriving DecidableEq, Repr

/-- `&second[1..]`: panics at the end of the string and inside a character. -/
def dropByte : List Char → Except Fail (List Char)
  | [] => .error .panic
  | c :: cs => if c.utf8Size = 1 then .ok cs else .error .panic

/-- `&second[1..second.len() - 1]` for a string that starts and ends with `"`. -/
def unquote (second : List Char) : Except Fail (List Char) :=
  match second with
  | [] => .error .panic
  | [_] => .error .panic
  | _ :: cs => .ok cs.dropLast

/-- The closure `split_name_value`, python_file.rs 1054-1088. -/
def splitNameValue (directive : List Char) (hadQuotes : Bool) :
    Except Fail ((Name × Option (List Char)) × List DirectiveIssue) :=
  let r : Except Fail ((Name × Option (List Char)) × List DirectiveIssue) :=
    match splitOnce '=' directive with
    | some (first, second) =>
      let second := trim second
      if hadQuotes then
        if second.head? = some '"' ∧ second.getLast? = some '"' then
          match unquote second with
          | .ok v => .ok ((trim first, some v), [])
          | .error e => .error e
        else
          match dropByte second with
          | .ok v => .ok ((trim first, some v), [.contentAfterQuote])
          | .error e => .error e
      else .ok ((trim first, some second), [])
    | none => .ok ((trim directive, none), [])
  match r with
  | .ok ((name, value), issues) =>
    .ok ((name, value), if '"' ∈ name then issues ++ [.quoteInKey] else issues)
  | .error e => .error e

/-- The loop of `next`, python_file.rs 1089-1106: what is before the first comma outside quotes
and the text after it, or nothing if there is no such comma; and the two flags. -/
def scanDirective (opened had : Bool) : List Char → Option (List Char × List Char) × Bool × Bool
  | [] => (none, opened, had)
  | c :: cs =>
    if opened then
      match scanDirective (if c = '"' then false else true) had cs with
      | (some (a, b), o, h) => (some (c :: a, b), o, h)
      | (none, o, h) => (none, o, h)
    else if c = '"' then
      match scanDirective true true cs with
      | (some (a, b), o, h) => (some (c :: a, b), o, h)
      | (none, o, h) => (none, o, h)
    else if c = ',' then (some ([], cs), opened, had)
    else
      match scanDirective false had cs with
      | (some (a, b), o, h) => (some (c :: a, b), o, h)
      | (none, o, h) => (none, o, h)

theorem scanDirective_length (cs : List Char) (opened had : Bool) (a b : List Char) (o h : Bool)
    (he : scanDirective opened had cs = (some (a, b), o, h)) : b.length < cs.length := by
  induction cs generalizing opened had a with
  | nil => simp [scanDirective] at he
  | cons c cs ih =>
    simp only [scanDirective] at he
    split at he
    · split at he
      · rename_i h'
        simp only [Prod.mk.injEq, Option.some.injEq] at he
        obtain ⟨⟨-, rfl⟩, rfl, rfl⟩ := he
        have := ih _ _ _ h'
        simp; omega
      · simp at he
    · split at he
      · split at he
        · rename_i h'
          simp only [Prod.mk.injEq, Option.some.injEq] at he
          obtain ⟨⟨-, rfl⟩, rfl, rfl⟩ := he
          have := ih _ _ _ h'
          simp; omega
        · simp at he
      · split at he
        · simp only [Prod.mk.injEq, Option.some.injEq] at he
          obtain ⟨⟨-, rfl⟩, rfl, rfl⟩ := he
          simp
        · split at he
          · rename_i h'
            simp only [Prod.mk.injEq, Option.some.injEq] at he
            obtain ⟨⟨-, rfl⟩, rfl, rfl⟩ := he
            have := ih _ _ _ h'
            simp; omega
          · simp at he

/-- All items of the iterator (`next`, python_file.rs 1053-1129, until it returns `None`) and all
issues. -/
def splitDirectives (rest : List Char) : Except Fail (List (Name × Option (List Char)) × List DirectiveIssue) :=
  match hs : scanDirective false false rest with
  | (some (result, rest'), _, had) =>
    match splitNameValue result had with
    | .error e => .error e
    | .ok (item, issues) =>
      match splitDirectives rest' with
      | .error e => .error e
      | .ok (items, issues') => .ok (item :: items, issues ++ issues')
  | (none, opened, had) =>
    if opened then .ok ([], [.unterminated])
    else
      let rest := trim rest
      if rest = [] then .ok ([], [])
      else match splitNameValue rest had with
        | .error e => .error e
        | .ok (item, issues) => .ok ([item], issues)
termination_by rest.length
decreasing_by exact scanDirective_length _ _ _ _ _ _ _ hs

/-! ## Specification: what a configuration comment says -/

namespace Spec

/-- The value of an entry as it is written. -/
inductive EntryValue where
  | absent
  | plain (v : List Char)
  | quoted (v : List Char)

/-- One entry with the white space around its pieces. -/
structure Entry where
  (w1 w2 w3 w4 : List Char)
  name : Name
  value : EntryValue

/-- White space, without the characters that have a meaning. -/
def White (w : List Char) : Prop := ∀ c ∈ w, isSpace c = true

/-- A word: no white space at the ends, none of the characters `"`, `,`. -/
def Word (w : List Char) : Prop :=
  (∀ c, w.head? = some c → isSpace c = false) ∧ (∀ c, w.getLast? = some c → isSpace c = false) ∧
  '"' ∉ w ∧ ',' ∉ w

def Entry.Wf (e : Entry) : Prop :=
  White e.w1 ∧ White e.w2 ∧ White e.w3 ∧ White e.w4 ∧ Word e.name ∧ '=' ∉ e.name ∧ e.name ≠ [] ∧
  match e.value with
  | .absent => True
  | .plain v => Word v
  | .quoted v => '"' ∉ v

def Entry.text (e : Entry) : List Char :=
  e.w1 ++ e.name ++ e.w2 ++ match e.value with
    | .absent => []
    | .plain v => '=' :: (e.w3 ++ v ++ e.w4)
    | .quoted v => '=' :: (e.w3 ++ ('"' :: v ++ ['"']) ++ e.w4)

def Entry.item (e : Entry) : Name × Option (List Char) :=
  (e.name, match e.value with
    | .absent => none
    | .plain v => some v
    | .quoted v => some v)

/-- The text of a comment: the entries separated by commas. -/
def commentText : List Entry → List Char
  | [] => []
  | [e] => e.text
  | e :: es => e.text ++ ',' :: commentText es

end Spec

/-! ## Lemmas about `trim` and scanning -/

theorem dropWhile_white (w s : List Char) (h : Spec.White w) : (w ++ s).dropWhile isSpace = s.dropWhile isSpace := by
  induction w with
  | nil => rfl
  | cons c w ih =>
    simp only [List.cons_append]
    rw [List.dropWhile_cons_of_pos (h c (by simp)), ih (fun c hc => h c (by simp [hc]))]

theorem dropWhile_head (s : List Char) (h : ∀ c, s.head? = some c → isSpace c = false) : s.dropWhile isSpace = s := by
  cases s with
  | nil => rfl
  | cons c s => rw [List.dropWhile_cons_of_neg (by simp [h c rfl])]

theorem trim_pad (w1 s w2 : List Char) (h1 : Spec.White w1) (h2 : Spec.White w2)
    (hh : ∀ c, s.head? = some c → isSpace c = false) (hl : ∀ c, s.getLast? = some c → isSpace c = false) :
    trim (w1 ++ s ++ w2) = s := by
  unfold trim
  cases s with
  | nil =>
    have : Spec.White (w1 ++ [] ++ w2) := by
      intro c hc
      simp only [List.append_nil, List.mem_append] at hc
      rcases hc with hc | hc
      · exact h1 c hc
      · exact h2 c hc
    have h := dropWhile_white _ [] this
    rw [List.append_nil] at h
    rw [h]
    rfl
  | cons c s =>
    rw [List.append_assoc, dropWhile_white _ _ h1, dropWhile_head (c :: s ++ w2)]
    · rw [List.reverse_append, dropWhile_white _ _ (by intro c hc; exact h2 c (by simpa using hc)), dropWhile_head]
      · simp
      · intro d hd; rw [List.head?_reverse] at hd; exact hl d hd
    · intro d hd
      simp only [List.cons_append, List.head?_cons, Option.some.injEq] at hd
      subst hd
      exact hh c rfl

theorem space_not_special (c : Char) (h : isSpace c = true) : c ≠ '"' ∧ c ≠ ',' ∧ c ≠ '=' := by
  refine ⟨?_, ?_, ?_⟩ <;> rintro rfl <;> revert h <;> decide

/-- Text without quotes and commas is passed over. -/
theorem scan_plain (s rest : List Char) (had : Bool) (hq : '"' ∉ s) (hc : ',' ∉ s) :
    scanDirective false had (s ++ rest) =
      (match scanDirective false had rest with
      | (some (a, b), o, h) => (some (s ++ a, b), o, h)
      | (none, o, h) => (none, o, h)) := by
  induction s with
  | nil =>
    simp only [List.nil_append]
    cases hr : scanDirective false had rest with
    | mk r oh =>
      obtain ⟨o, h⟩ := oh
      rcases r with _ | ⟨a, b⟩ <;> rfl
  | cons c s ih =>
    simp only [List.mem_cons, not_or] at hq hc
    simp only [List.cons_append, scanDirective]
    rw [if_neg (by simp), if_neg (fun h => hq.1 h.symm), if_neg (fun h => hc.1 h.symm), ih hq.2 hc.2]
    cases hr : scanDirective false had rest with
    | mk r oh =>
      obtain ⟨o, h⟩ := oh
      rcases r with _ | ⟨a, b⟩ <;> rfl

/-- The inside of a string with its closing quote is passed over. -/
theorem scan_quoted (s rest : List Char) (had : Bool) (hq : '"' ∉ s) :
    scanDirective true had (s ++ '"' :: rest) =
      (match scanDirective false had rest with
      | (some (a, b), o, h) => (some (s ++ '"' :: a, b), o, h)
      | (none, o, h) => (none, o, h)) := by
  induction s with
  | nil =>
    simp only [List.nil_append, scanDirective, if_true]
  | cons c s ih =>
    simp only [List.mem_cons, not_or] at hq
    simp only [List.cons_append]
    rw [scanDirective]
    simp only [if_true]
    rw [if_neg (fun h => hq.1 h.symm), ih hq.2]
    cases hr : scanDirective false had rest with
    | mk r oh =>
      obtain ⟨o, h⟩ := oh
      rcases r with _ | ⟨a, b⟩ <;> rfl

/-- Does the entry have quotes? -/
def Spec.Entry.hasQuotes (e : Spec.Entry) : Bool := match e.value with
  | .quoted _ => true
  | _ => false

theorem entry_scan (e : Spec.Entry) (hw : e.Wf) (rest : List Char) :
    scanDirective false false (e.text ++ rest) =
      (match scanDirective false e.hasQuotes rest with
      | (some (a, b), o, h) => (some (e.text ++ a, b), o, h)
      | (none, o, h) => (none, o, h)) := by
  obtain ⟨w1, w2, w3, w4, name, value⟩ := e
  obtain ⟨h1, h2, h3, h4, ⟨-, -, hn1, hn2⟩, -, -, hv⟩ := hw
  have ws : ∀ w, Spec.White w → '"' ∉ w ∧ ',' ∉ w := fun w h =>
    ⟨fun hm => (space_not_special _ (h _ hm)).1 rfl, fun hm => (space_not_special _ (h _ hm)).2.1 rfl⟩
  cases value with
  | absent =>
    simp only [Spec.Entry.text, Spec.Entry.hasQuotes, List.append_nil]
    apply scan_plain
    · simp only [List.mem_append, not_or]; exact ⟨⟨(ws w1 h1).1, hn1⟩, (ws w2 h2).1⟩
    · simp only [List.mem_append, not_or]; exact ⟨⟨(ws w1 h1).2, hn2⟩, (ws w2 h2).2⟩
  | plain v =>
    simp only [Spec.Entry.text, Spec.Entry.hasQuotes]
    obtain ⟨-, -, hv1, hv2⟩ := hv
    apply scan_plain
    · simp only [List.mem_append, List.mem_cons, not_or]
      exact ⟨⟨⟨(ws w1 h1).1, hn1⟩, (ws w2 h2).1⟩, by decide, ⟨(ws w3 h3).1, hv1⟩, (ws w4 h4).1⟩
    · simp only [List.mem_append, List.mem_cons, not_or]
      exact ⟨⟨⟨(ws w1 h1).2, hn2⟩, (ws w2 h2).2⟩, by decide, ⟨(ws w3 h3).2, hv2⟩, (ws w4 h4).2⟩
  | quoted v =>
    simp only [Spec.Entry.text, Spec.Entry.hasQuotes]
    have e1 : w1 ++ name ++ w2 ++ '=' :: (w3 ++ ('"' :: v ++ ['"']) ++ w4) ++ rest =
        (w1 ++ name ++ w2 ++ '=' :: w3) ++ ('"' :: (v ++ '"' :: (w4 ++ rest))) := by simp
    rw [e1, scan_plain]
    · have e2 : scanDirective false false ('"' :: (v ++ '"' :: (w4 ++ rest))) =
          (match scanDirective false true rest with
          | (some (a, b), o, h) => (some ('"' :: (v ++ '"' :: (w4 ++ a)), b), o, h)
          | (none, o, h) => (none, o, h)) := by
        rw [scanDirective]
        simp only [Bool.false_eq_true, if_false, if_true]
        rw [scan_quoted v _ _ hv, scan_plain w4 rest true (ws w4 h4).1 (ws w4 h4).2]
        cases hr : scanDirective false true rest with
        | mk r oh =>
          obtain ⟨o, h⟩ := oh
          rcases r with _ | ⟨a, b⟩ <;> rfl
      rw [e2]
      cases hr : scanDirective false true rest with
      | mk r oh =>
        obtain ⟨o, h⟩ := oh
        rcases r with _ | ⟨a, b⟩
        · rfl
        · simp
    · simp only [List.mem_append, List.mem_cons, not_or]
      exact ⟨⟨⟨(ws w1 h1).1, hn1⟩, (ws w2 h2).1⟩, by decide, (ws w3 h3).1⟩
    · simp only [List.mem_append, List.mem_cons, not_or]
      exact ⟨⟨⟨(ws w1 h1).2, hn2⟩, (ws w2 h2).2⟩, by decide, (ws w3 h3).2⟩

theorem splitOnce_append {sep : Char} (a b : List Char) (h : sep ∉ a) : splitOnce sep (a ++ sep :: b) = some (a, b) := by
  induction a with
  | nil => simp [splitOnce]
  | cons c a ih =>
    simp only [List.mem_cons, not_or] at h
    simp only [List.cons_append, splitOnce]
    rw [if_neg (fun e => h.1 e.symm), ih h.2]
    rfl

theorem splitOnce_none {sep : Char} (a : List Char) (h : sep ∉ a) : splitOnce sep a = none := by
  induction a with
  | nil => rfl
  | cons c a ih =>
    simp only [List.mem_cons, not_or] at h
    simp only [splitOnce]
    rw [if_neg (fun e => h.1 e.symm), ih h.2]
    rfl

/-- A well-formed entry, whether or not the white space around it has been removed. -/
theorem entry_value (e : Spec.Entry) (hw : e.Wf) : splitNameValue e.text e.hasQuotes = .ok (e.item, []) := by
  obtain ⟨w1, w2, w3, w4, name, value⟩ := e
  obtain ⟨h1, h2, h3, h4, ⟨hh, hl, hn1, hn2⟩, he, hne, hv⟩ := hw
  have ws : ∀ w, Spec.White w → '=' ∉ w := fun w h hm => (space_not_special _ (h _ hm)).2.2 rfl
  have hpre : '=' ∉ w1 ++ name ++ w2 := by
    simp only [List.mem_append, not_or]; exact ⟨⟨ws _ h1, he⟩, ws _ h2⟩
  have ht : trim (w1 ++ name ++ w2) = name := trim_pad _ _ _ h1 h2 hh hl
  simp only at hn1
  cases value with
  | absent =>
    simp only [Spec.Entry.text, Spec.Entry.hasQuotes, List.append_nil, splitNameValue, splitOnce_none _ hpre, ht, Spec.Entry.item, hn1, if_false]
  | plain v =>
    obtain ⟨vh, vl, -, -⟩ := hv
    simp only [Spec.Entry.text, Spec.Entry.hasQuotes, splitNameValue, splitOnce_append _ _ hpre, ht, Spec.Entry.item, hn1,
      if_false, trim_pad _ _ _ h3 h4 vh vl, Bool.false_eq_true]
  | quoted v =>
    have htv : trim (w3 ++ ('"' :: v ++ ['"']) ++ w4) = '"' :: v ++ ['"'] := by
      apply trim_pad _ _ _ h3 h4
      · intro c hc; simp at hc; subst hc; decide
      · intro c hc
        rw [List.getLast?_append] at hc
        simp at hc; subst hc; decide
    have hg : ('"' :: v ++ ['"']).getLast? = some '"' := by rw [List.getLast?_append]; rfl
    have hg' : ('"' :: (v ++ ['"'])).getLast? = some '"' := hg
    have hu : unquote ('"' :: (v ++ ['"'])) = .ok v := by
      unfold unquote
      split
      · simp_all
      · rename_i heq
        simp at heq
      · rename_i heq
        simp only [List.cons.injEq] at heq
        rw [← heq.2, List.dropLast_concat]
    simp only [Spec.Entry.text, Spec.Entry.hasQuotes, splitNameValue, splitOnce_append _ _ hpre, ht, Spec.Entry.item, htv, if_true]
    have hc : ('"' :: v ++ ['"']).head? = some '"' ∧ ('"' :: v ++ ['"']).getLast? = some '"' := ⟨rfl, hg⟩
    rw [if_pos hc]
    have hu' : unquote ('"' :: v ++ ['"']) = .ok v := hu
    simp only [hu', hn1, if_false]

theorem entry_text_ne (e : Spec.Entry) (hw : e.Wf) : trim e.text ≠ [] := by
  obtain ⟨h1, -, -, -, ⟨hh, -, -, -⟩, -, hne, -⟩ := hw
  obtain ⟨c, n, hn⟩ := List.exists_cons_of_ne_nil hne
  have hc := hh c (by rw [hn]; rfl)
  unfold trim
  have : ∃ t, e.text.dropWhile isSpace = c :: t := by
    unfold Spec.Entry.text
    rw [List.append_assoc, List.append_assoc, dropWhile_white _ _ h1, hn]
    exact ⟨_, List.dropWhile_cons_of_neg (by simp [hc])⟩
  obtain ⟨t, ht⟩ := this
  rw [ht]
  intro h
  have h' := List.reverse_eq_nil_iff.mp h
  have all : ∀ l : List Char, l.dropWhile isSpace = [] → ∀ x ∈ l, isSpace x = true := by
    intro l
    induction l with
    | nil => simp
    | cons y l ih =>
      intro hl
      by_cases hy : isSpace y = true
      · rw [List.dropWhile_cons_of_pos hy] at hl
        intro x hx
        rcases List.mem_cons.mp hx with rfl | hx
        · exact hy
        · exact ih hl x hx
      · rw [List.dropWhile_cons_of_neg hy] at hl
        simp at hl
  have := all _ h' c (by simp)
  rw [hc] at this
  simp at this

/-- Removing the white space around the text of an entry gives an entry with the same meaning. -/
theorem entry_trim (e : Spec.Entry) (hw : e.Wf) :
    ∃ e' : Spec.Entry, e'.Wf ∧ trim e.text = e'.text ∧ e'.item = e.item ∧ e'.hasQuotes = e.hasQuotes := by
  obtain ⟨w1, w2, w3, w4, name, value⟩ := e
  obtain ⟨h1, h2, h3, h4, ⟨hh, hl, hn1, hn2⟩, he, hne, hv⟩ := hw
  have hnil : Spec.White [] := by intro c hc; simp at hc
  simp only at hne hh hl
  obtain ⟨c, n, hn⟩ := List.exists_cons_of_ne_nil hne
  have hhead : ∀ t, ∀ d, (name ++ t).head? = some d → isSpace d = false := by
    intro t d hd
    rw [hn, List.cons_append, List.head?_cons] at hd
    exact hh d (by rw [hn]; exact hd)
  cases value with
  | absent =>
    refine ⟨⟨[], [], w3, w4, name, .absent⟩, ⟨hnil, hnil, h3, h4, ⟨hh, hl, hn1, hn2⟩, he, hne, trivial⟩, ?_, rfl, rfl⟩
    simp only [Spec.Entry.text, List.append_nil, List.nil_append]
    exact trim_pad _ _ _ h1 h2 hh hl
  | plain v =>
    obtain ⟨vh, vl, hv3, hv4⟩ := hv
    by_cases hvn : v = []
    · -- `name =` : the white space before the end is part of the trimmed text
      subst hvn
      refine ⟨⟨[], w2, [], [], name, .plain []⟩, ⟨hnil, h2, hnil, hnil, ⟨hh, hl, hn1, hn2⟩, he, hne, ⟨by simp, by simp, by simp, by simp⟩⟩, ?_, rfl, rfl⟩
      simp only [Spec.Entry.text, List.append_nil, List.nil_append]
      have : w1 ++ name ++ w2 ++ '=' :: (w3 ++ w4) = w1 ++ (name ++ (w2 ++ ['='])) ++ (w3 ++ w4) := by simp
      rw [this, trim_pad _ _ _ h1 (by
        intro c hc
        rcases List.mem_append.mp hc with hc | hc
        · exact h3 c hc
        · exact h4 c hc) (hhead _)]
      · simp
      · intro d hd
        rw [List.getLast?_append, List.getLast?_append] at hd
        simp at hd; subst hd; decide
    · refine ⟨⟨[], w2, w3, [], name, .plain v⟩, ⟨hnil, h2, h3, hnil, ⟨hh, hl, hn1, hn2⟩, he, hne, ⟨vh, vl, hv3, hv4⟩⟩, ?_, rfl, rfl⟩
      simp only [Spec.Entry.text, List.append_nil, List.nil_append]
      have : w1 ++ name ++ w2 ++ '=' :: (w3 ++ v ++ w4) = w1 ++ (name ++ (w2 ++ '=' :: (w3 ++ v))) ++ w4 := by simp
      rw [this, trim_pad _ _ _ h1 h4 (hhead _)]
      · simp
      · intro d hd
        have e : name ++ (w2 ++ '=' :: (w3 ++ v)) = (name ++ w2 ++ '=' :: w3) ++ v := by simp
        rw [e, List.getLast?_append] at hd
        cases hvl : v.getLast? with
        | none => rw [List.getLast?_eq_none_iff] at hvl; exact absurd hvl hvn
        | some x =>
          rw [hvl] at hd
          simp at hd
          subst hd
          exact vl _ hvl
  | quoted v =>
    refine ⟨⟨[], w2, w3, [], name, .quoted v⟩, ⟨hnil, h2, h3, hnil, ⟨hh, hl, hn1, hn2⟩, he, hne, hv⟩, ?_, rfl, rfl⟩
    simp only [Spec.Entry.text, List.append_nil, List.nil_append]
    have : w1 ++ name ++ w2 ++ '=' :: (w3 ++ ('"' :: v ++ ['"']) ++ w4) =
        w1 ++ (name ++ (w2 ++ '=' :: (w3 ++ ('"' :: v ++ ['"'])))) ++ w4 := by simp
    rw [this, trim_pad _ _ _ h1 h4 (hhead _)]
    · simp
    · intro d hd
      have e : name ++ (w2 ++ '=' :: (w3 ++ ('"' :: v ++ ['"']))) = (name ++ w2 ++ '=' :: (w3 ++ '"' :: v)) ++ ['"'] := by simp
      rw [e, List.getLast?_append] at hd
      simp at hd; subst hd; decide

end Verif.Config
