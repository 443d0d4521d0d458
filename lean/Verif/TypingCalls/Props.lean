import Verif.TypingCalls.Spec

/-! # C249–C251: `cast`, `reveal_type` and `assert_type` -/

namespace Verif.TypingCalls

variable {T : Type}

/-- All arguments are positional expressions. -/
def AllPos (l : List (Arg T)) : Prop := ∀ a ∈ l, ∃ p e, a = .positional p e

/-- The expressions of positional arguments. -/
def exprs : List (Arg T) → List (Ex T)
  | [] => []
  | .positional _ e :: l => e :: exprs l
  | _ :: l => exprs l

theorem passes_iff (src : List (Src T)) : ∀ (i : Nat) (es : List (Ex T)),
    Passes src es ↔ AllPos (argsOf i src) ∧ exprs (argsOf i src) = es := by
  induction src with
  | nil =>
    intro i es
    constructor
    · intro h; cases h; exact ⟨fun a ha => (List.not_mem_nil ha).elim, rfl⟩
    · rintro ⟨_, h⟩; cases h; exact .nil
  | cons s l ih =>
    intro i es
    constructor
    · intro h
      cases h with
      | pos h =>
        obtain ⟨h1, h2⟩ := (ih (i + 1) _).1 h
        refine ⟨?_, by simp [argsOf, exprs, h2]⟩
        intro a ha
        rcases List.mem_cons.1 ha with rfl | ha
        · exact ⟨_, _, rfl⟩
        · exact h1 a ha
      | empty h =>
        obtain ⟨h1, h2⟩ := (ih (i + 1) _).1 h
        exact ⟨by simpa [argsOf] using h1, by simpa [argsOf] using h2⟩
    · rintro ⟨h1, h2⟩
      cases s with
      | pos e =>
        simp only [argsOf, exprs] at h2
        subst h2
        exact .pos ((ih (i + 1) _).2 ⟨fun a ha => h1 a (List.mem_cons_of_mem _ ha), rfl⟩)
      | fixed n =>
        cases n with
        | zero =>
          exact .empty ((ih (i + 1) _).2 ⟨by simpa [argsOf] using h1, by simpa [argsOf] using h2⟩)
        | succ n =>
          obtain ⟨p, e, h⟩ := h1 (.inferred false) (by simp [argsOf, List.replicate_succ])
          cases h
      | many =>
        obtain ⟨p, e, h⟩ := h1 (.inferred true) (by simp [argsOf])
        cases h
      | kw =>
        obtain ⟨p, e, h⟩ := h1 .keyword (by simp [argsOf])
        cases h
      | comp e =>
        obtain ⟨p, e, h⟩ := h1 (.comprehension e) (by simp [argsOf])
        cases h

theorem exprs_length {l : List (Arg T)} (h : AllPos l) : (exprs l).length = l.length := by
  induction l with
  | nil => rfl
  | cons a l ih =>
    obtain ⟨p, e, rfl⟩ := h a (by simp)
    simp [exprs, ih (fun b hb => h b (List.mem_cons_of_mem _ hb))]

theorem two_passes {src : List (Src T)} :
    (∃ t v, Passes src [t, v]) ↔ AllPos (argsOf 0 src) ∧ (argsOf 0 src).length = 2 := by
  constructor
  · rintro ⟨t, v, h⟩
    obtain ⟨h1, h2⟩ := (passes_iff src 0 _).1 h
    exact ⟨h1, by rw [← exprs_length h1, h2]; rfl⟩
  · rintro ⟨h1, h2⟩
    rw [← exprs_length h1] at h2
    match h : exprs (argsOf 0 src), h2 with
    | [t, v], _ => exact ⟨t, v, (passes_iff src 0 _).2 ⟨h1, h⟩⟩

theorem allPos_cons {a : Arg T} {l : List (Arg T)} :
    AllPos (a :: l) ↔ (∃ p e, a = .positional p e) ∧ AllPos l := by
  simp [AllPos]

theorem castLoop_nonPos (l : List (Arg T)) : ∀ s : St T,
    (castLoop l s).nonPos = false ↔ s.nonPos = false ∧ AllPos l := by
  induction l with
  | nil => intro s; simp [castLoop, AllPos]
  | cons a l ih =>
    intro s
    rw [allPos_cons]
    cases a with
    | positional p e =>
      simp only [castLoop]
      rw [ih]
      split <;> simp
    | inferred b => cases b <;> simp [castLoop, ih]
    | keyword => simp [castLoop, ih]
    | comprehension e => simp [castLoop, ih]

theorem castLoop_count (l : List (Arg T)) : ∀ s : St T, AllPos l →
    (castLoop l s).count = s.count + l.length := by
  induction l with
  | nil => intro s _; rfl
  | cons a l ih =>
    intro s h
    obtain ⟨⟨p, e, rfl⟩, h'⟩ := allPos_cons.1 h
    simp only [castLoop]
    rw [ih _ h']
    split <;> simp <;> omega

theorem not_mem_invalid {b : Bool} {x : Issue T} (h : x ≠ .invalidType) : x ∉ invalidIssues b := by
  cases b <;> simp [invalidIssues, h]

theorem not_mem_redundant {w : World T} {a : Option T} {r : T} {x : Issue T} (h : x ≠ .redundant) :
    x ∉ redundantIssues w a r := by
  unfold redundantIssues
  split
  · split <;> simp [h]
  · simp

/-- **C249** A call of `cast` is accepted exactly if it passes two expressions by position. -/
theorem cast_accepted_iff (w : World T) (src : List (Src T)) :
    (Issue.castCount ∉ (cast w src).issues ∧ Issue.castPositional ∉ (cast w src).issues) ↔
      ∃ t v, Passes src [t, v] := by
  rw [two_passes]
  have hn := castLoop_nonPos (argsOf 0 src) ⟨none, none, 0, false, false⟩
  have hc := castLoop_count (argsOf 0 src) ⟨none, none, 0, false, false⟩
  simp only [Nat.zero_add, true_and] at hn hc
  unfold cast
  generalize castLoop (argsOf 0 src) ⟨none, none, 0, false, false⟩ = s at hn hc
  have i1 : Issue.castCount ∉ invalidIssues (T := T) s.invalid := not_mem_invalid (by simp)
  have i2 : Issue.castPositional ∉ invalidIssues (T := T) s.invalid := not_mem_invalid (by simp)
  have r1 : Issue.castCount ∉ redundantIssues w s.actual (s.result.getD w.anyErr) := not_mem_redundant (by simp)
  have r2 : Issue.castPositional ∉ redundantIssues w s.actual (s.result.getD w.anyErr) := not_mem_redundant (by simp)
  by_cases h2 : s.count = 2
  · cases hp : s.nonPos with
    | false =>
      have ha := hn.1 hp
      have := hc ha
      simp only [h2, if_true]
      constructor
      · intro _; exact ⟨ha, by omega⟩
      · intro _; simp [i1, i2, r1, r2, hp]
    | true =>
      have ha : ¬ AllPos (argsOf 0 src) := fun h => by rw [hn.2 h] at hp; cases hp
      simp [h2, ha, hp]
  · simp only [h2, if_false]
    constructor
    · intro h; exact absurd (by simp) h.1
    · rintro ⟨ha, hl⟩; exact absurd (by rw [hc ha, hl]) h2

theorem args_of_passes {src : List (Src T)} : ∀ {i : Nat} {es : List (Ex T)}, Passes src es →
    (∀ p e, Arg.positional p e ∈ argsOf i src → i + 1 ≤ p) := by
  induction src with
  | nil => intro i es _ p e h; cases h
  | cons s l ih =>
    intro i es h p e hm
    cases h with
    | pos h =>
      rcases List.mem_cons.1 hm with hm | hm
      · cases hm; exact Nat.le_refl _
      · have := ih h p e hm; omega
    | empty h =>
      have := ih (i := i + 1) h p e (by simpa [argsOf] using hm); omega

/-- **C249** If the type is the first argument in the source code, then the result of `cast` is that type, an invalid
type is reported, and a redundant cast is reported exactly if the flag is set and the types are equal but not `Any`. -/
theorem cast_result_partial (w : World T) (t v : Ex T) (src : List (Src T)) (h : Passes src [v]) :
    (cast w (.pos t :: src)).result = t.asTarget.getD w.anyErr ∧
      (Issue.invalidType ∈ (cast w (.pos t :: src)).issues ↔ t.asTarget = none) ∧
      (Issue.redundant ∈ (cast w (.pos t :: src)).issues ↔
        w.warn = true ∧ w.eq v.ty (t.asTarget.getD w.anyErr) = true ∧ w.isAny v.ty = false) := by
  obtain ⟨h1, h2⟩ := (passes_iff src 1 _).1 h
  have hp := args_of_passes (i := 1) h
  have hl : (argsOf 1 src).length = 1 := by rw [← exprs_length h1, h2]; rfl
  match hx : argsOf 1 src, hl with
  | [a], _ =>
    rw [hx] at h1 h2 hp
    obtain ⟨p, e, rfl⟩ := h1 a (by simp)
    have h3 : e = v := by simpa [exprs] using h2
    subst h3
    have h4 : p ≠ 1 := by have := hp p e (by simp); omega
    have hr : Issue.redundant ∉ invalidIssues (T := T) t.asTarget.isNone := not_mem_invalid (by simp)
    have hi : Issue.invalidType ∉ redundantIssues w (some e.ty) (t.asTarget.getD w.anyErr) :=
      not_mem_redundant (by simp)
    have hc : cast w (.pos t :: src) = ⟨invalidIssues t.asTarget.isNone ++
        ([] ++ redundantIssues w (some e.ty) (t.asTarget.getD w.anyErr)), t.asTarget.getD w.anyErr⟩ := by
      simp [cast, argsOf, hx, castLoop, h4]
    rw [hc]
    refine ⟨rfl, ?_, ?_⟩
    · simp only [List.nil_append, List.mem_append, hi, or_false]
      cases t.asTarget <;> simp [invalidIssues]
    · simp only [List.nil_append, List.mem_append, hr, false_or]
      unfold redundantIssues
      simp only
      split
      · rename_i hb
        simpa using hb
      · rename_i hb
        simpa using hb

/-- **C249** violated: the type is recognised by its position in the source code, so `cast(*(), int, x)`, which is
`cast(int, x)`, has the result `Any` and nothing is reported. -/
theorem cast_result_violation :
    ∃ (w : World Nat) (t v : Ex Nat) (src : List (Src Nat)), Passes src [t, v] ∧ t.asTarget = some 1 ∧
      (cast w src).issues = [] ∧ (cast w src).result = w.anyErr ∧ w.anyErr ≠ 1 :=
  ⟨⟨0, fun a b => a == b, fun a => a == 0, true⟩, ⟨some 1, 7⟩, ⟨none, 2⟩, [.fixed 0, .pos ⟨some 1, 7⟩, .pos ⟨none, 2⟩],
    .empty (.pos (.pos .nil)), rfl, rfl, rfl, by decide⟩

/-- **C250** `reveal_type` of one positional expression says its type and does not change it. -/
theorem reveal_one (w : World T) (e : Ex T) (src : List (Src T)) (h : Passes src [e]) :
    reveal w src = ⟨[.revealed e.ty], e.ty⟩ := by
  obtain ⟨h1, h2⟩ := (passes_iff src 0 _).1 h
  have hl : (argsOf 0 src).length = 1 := by rw [← exprs_length h1, h2]; rfl
  match hx : argsOf 0 src, hl with
  | [a], _ =>
    rw [hx] at h1 h2
    obtain ⟨p, e', rfl⟩ := h1 a (by simp)
    have h3 : e' = e := by simpa [exprs] using h2
    simp [reveal, hx, h3]

theorem comp_mem (src : List (Src T)) (e : Ex T) : ∀ i, Arg.comprehension e ∈ argsOf i src → Src.comp e ∈ src := by
  induction src with
  | nil => intro i h; exact (List.not_mem_nil h).elim
  | cons s l ih =>
    intro i h
    cases s <;> simp only [argsOf, List.mem_append, List.mem_cons, List.mem_replicate] at h ⊢ <;>
      rcases h with h | h
    all_goals first
      | exact Or.inr (ih _ h)
      | (cases h; exact Or.inl rfl)
      | exact absurd h (by simp)

/-- **C250** The same for a comprehension, which can only be the sole argument. -/
theorem reveal_comprehension (w : World T) (e : Ex T) : reveal w [.comp e] = ⟨[.revealed e.ty], e.ty⟩ := rfl

/-- **C250** Without comprehensions, a type is revealed only if exactly one expression is passed by position, and it is
the type of that expression. -/
theorem reveal_only (w : World T) (src : List (Src T)) (hc : ∀ e, Src.comp e ∉ src) (t : T)
    (h : Issue.revealed t ∈ (reveal w src).issues) : ∃ e, Passes src [e] ∧ t = e.ty := by
  match hx : argsOf 0 src with
  | [] => simp [reveal, hx] at h
  | [.positional p e] =>
    refine ⟨e, (passes_iff src 0 _).2 ⟨?_, by rw [hx]; rfl⟩, by simpa [reveal, hx] using h⟩
    rw [hx]; intro a ha
    rcases List.mem_singleton.1 ha with rfl
    exact ⟨_, _, rfl⟩
  | [.comprehension e] => exact absurd (comp_mem src e 0 (by rw [hx]; simp)) (hc e)
  | [.inferred b] => simp [reveal, hx] at h
  | [.keyword] => simp [reveal, hx] at h
  | _ :: _ :: _ => simp [reveal, hx] at h

/-- **C250** Every call of `reveal_type` reports exactly one thing. -/
theorem reveal_reports_once (w : World T) (src : List (Src T)) : (reveal w src).issues.length = 1 := by
  unfold reveal
  split <;> rfl

/-- **C251** `assert_type` of two positional expressions reports exactly the types that are not equal, and the result
is the type of the first one. -/
theorem assertType_two (w : World T) (a b : Ex T) (t : T) (src : List (Src T)) (h : Passes src [a, b])
    (ht : b.asTarget = some t) :
    (assertType w src).result = a.ty ∧ ((assertType w src).issues = [] ↔ w.eq a.ty t = true) ∧
      (w.eq a.ty t = false → (assertType w src).issues = [.mismatch a.ty t]) := by
  obtain ⟨h1, h2⟩ := (passes_iff src 0 _).1 h
  have hl : (argsOf 0 src).length = 2 := by rw [← exprs_length h1, h2]; rfl
  match hx : argsOf 0 src, hl with
  | [x, y], _ =>
    rw [hx] at h1 h2
    obtain ⟨p, e, rfl⟩ := h1 x (by simp)
    obtain ⟨q, f, rfl⟩ := h1 y (by simp)
    have h3 : e = a ∧ f = b := by simpa [exprs] using h2
    obtain ⟨rfl, rfl⟩ := h3
    simp only [assertType, hx, ht]
    cases w.eq e.ty t <;> simp

/-- **C251** Nothing is reported only if two expressions are passed by position and the types are equal. -/
theorem assertType_silent (w : World T) (src : List (Src T)) (h : (assertType w src).issues = []) :
    ∃ a b t, Passes src [a, b] ∧ b.asTarget = some t ∧ w.eq a.ty t = true := by
  unfold assertType at h
  split at h
  · rename_i p a q b hx
    have hp : Passes src [a, b] := by
      refine (passes_iff src 0 _).2 ⟨?_, by rw [hx]; rfl⟩
      rw [hx]; intro c hc
      rcases List.mem_cons.1 hc with rfl | hc
      · exact ⟨_, _, rfl⟩
      · rcases List.mem_singleton.1 hc with rfl
        exact ⟨_, _, rfl⟩
    split at h
    · cases h
    · rename_i t ht
      refine ⟨a, b, t, hp, ht, ?_⟩
      cases he : w.eq a.ty t
      · simp [he] at h
      · rfl
  · cases h
  · cases h

/-! Examples: `cast(int, x)`, `cast(int)`, `cast(int, *xs)`, `reveal_type()`, `assert_type(x, int)`. -/

def exWorld : World Nat := ⟨0, fun a b => a == b, fun a => a == 0, true⟩

example : (cast exWorld [.pos ⟨some 1, 7⟩, .pos ⟨none, 2⟩]).result = 1 := rfl
example : (cast exWorld [.pos ⟨some 1, 7⟩, .pos ⟨none, 1⟩]).issues = [.redundant] := rfl
example : (cast exWorld [.pos ⟨some 1, 7⟩]).issues = [.castCount] := rfl
example : (cast exWorld [.pos ⟨some 1, 7⟩, .many]).issues = [.castPositional] := rfl
example : (reveal exWorld []).issues = [.tooFew] := rfl
example : (reveal exWorld [.fixed 1]).issues = [.revealPositional] := rfl
example : (assertType exWorld [.pos ⟨none, 1⟩, .pos ⟨some 1, 7⟩]).issues = [] := rfl
example : (assertType exWorld [.pos ⟨none, 2⟩, .pos ⟨some 1, 7⟩]).issues = [.mismatch 2 1] := rfl

end Verif.TypingCalls
